import Verif.ParseSame

/-!
# Every job of the parser does the same on lists that differ in blanks (lemmas for C59)
-/

namespace Verif.Parse
open Verif Py Lex

/-- Two lists that start with the same token, which is no blank. -/
structure Lock (t u : Token) (ts us : List Token) : Prop where
  wt : isWs t = false
  wu : isWs u = false
  ct : isAnyComment t = false
  cu : isAnyComment u = false
  ot : isOnOff t = false
  ou : isOnOff u = false
  same : canon t = canon u
  tail : Alike ts us
  ok : ListOk (t :: ts)
  ok' : ListOk (u :: us)

section
variable {t u : Token} {ts us : List Token}

theorem Lock.mk' (wt : isWs t = false) (wu : isWs u = false) (same : canon t = canon u) (tail : Alike ts us)
    (ok : ListOk (t :: ts)) (ok' : ListOk (u :: us)) : Lock t u ts us :=
  ⟨wt, wu, (ok.comments t (by simp)).1, (ok'.comments u (by simp)).1, (ok.comments t (by simp)).2,
    (ok'.comments u (by simp)).2, same, tail, ok, ok'⟩

theorem Lock.all (L : Lock t u ts us) : Alike (t :: ts) (u :: us) := alike_cons_cons L.tail L.same
theorem Lock.lead (L : Lock t u ts us) : NoLead (t :: ts) := noLead_cons L.wt
theorem Lock.lead' (L : Lock t u ts us) : NoLead (u :: us) := noLead_cons L.wu
theorem Lock.okt (L : Lock t u ts us) : ListOk ts := L.ok.suffix (List.suffix_cons t ts)
theorem Lock.okt' (L : Lock t u ts us) : ListOk us := L.ok'.suffix (List.suffix_cons u us)
theorem Lock.trail (L : Lock t u ts us) (ctx : Ctx) : consumeTrailing ctx ts = ([], ts) := consumeTrailing_plain ctx L.okt
theorem Lock.trail' (L : Lock t u ts us) (ctx : Ctx) : consumeTrailing ctx us = ([], us) := consumeTrailing_plain ctx L.okt'
theorem Lock.leaf (L : Lock t u ts us) (ty : NT) : bare (Parse.mk ty [.tok t]) = bare (Parse.mk ty [.tok u]) := by
  rw [bare_mk, bare_mk, bareL_ink _ _ L.wt, bareL_ink _ _ L.wu, L.same]
theorem Lock.prog (L : Lock t u ts us) {x y : List Token} (hx : x <:+ t :: ts) (hlt : x.length < (t :: ts).length)
    (hxy : Alike x y) (hy : y <:+ u :: us) : y.length < (u :: us).length :=
  progress L.ok L.lead L.all hx hy hxy hlt
end

theorem bareL_snoc {acc acc' : List Node} {n n' : Node} (h : bareL acc = bareL acc') (hn : bare n = bare n') :
    bareL (acc ++ [n]) = bareL (acc' ++ [n']) := by
  rw [bareL_append, bareL_append, h, bareL_one hn]

theorem bareL_push {acc : List Node} {t : Token} (h : isWs t = true) : bareL (acc ++ [.tok t]) = bareL acc := by
  rw [bareL_append, bareL_ws _ _ h]; simp

section
variable {ctx : Ctx} {n : Nat} (C : CtxSame ctx) (H : SimAt ctx n)
include C H

/-- A call followed by the next iteration, if the call took something. -/
theorem sub_lt {t u : Token} {ts us : List Token} (L : Lock t u ts us) {job job' next : Job} {up1 up1' up2 up2' : Bool}
    {x r : Node × List Token} (h1 : exec ctx n job up1 (t :: ts) = .ok x) (hj : JobSim (t :: ts) (u :: us) job job')
    (hlt : x.2.length < (t :: ts).length) (h2 : exec ctx n next up2 x.2 = .ok r) (hs : HasSem r.2)
    (next' : Node → Job) (hn : ∀ y : Node × List Token, bare x.1 = bare y.1 → JobSim x.2 y.2 next (next' y.1))
    {g : Rec → Node × List Token → R}
    (hg : ∀ rec y, bare x.1 = bare y.1 → Alike x.2 y.2 → y.2 <:+ u :: us → (∃ m, exec ctx m job' up1' (u :: us) = .ok y) →
      y.2.length < (u :: us).length → g rec y = rec (next' y.1) up2' y.2) :
    Concl ctx (fun rec => rec job' up1' (u :: us) >>= g rec) r := by
  have sx := exec_suffix C h1
  have sr := exec_suffix C h2
  refine Concl.bind C (H _ _ _ up1' _ _ _ h1 hj L.ok L.ok' L.all (Or.inr (hs.suffix sr))) ?_
  intro y hy hal hsy hm
  simp only [hg _ y hy hal hsy hm (L.prog sx hlt hal hsy)]
  exact H _ _ _ up2' _ _ _ h2 (hn y hy) (L.ok.suffix sx) (L.ok'.suffix hsy) hal (Or.inr hs)

/-- A call followed by the next iteration. -/
theorem sub_any {t u : Token} {ts us : List Token} (L : Lock t u ts us) {job job' next : Job} {up1 up1' up2 up2' : Bool}
    {x r : Node × List Token} (h1 : exec ctx n job up1 (t :: ts) = .ok x) (hj : JobSim (t :: ts) (u :: us) job job')
    (h2 : exec ctx n next up2 x.2 = .ok r) (hs : HasSem r.2)
    (next' : Node → Job) (hn : ∀ y : Node × List Token, bare x.1 = bare y.1 → JobSim x.2 y.2 next (next' y.1)) :
    Concl ctx (fun rec => rec job' up1' (u :: us) >>= fun y => rec (next' y.1) up2' y.2) r := by
  have sx := exec_suffix C h1
  have sr := exec_suffix C h2
  refine Concl.bind C (H _ _ _ up1' _ _ _ h1 hj L.ok L.ok' L.all (Or.inr (hs.suffix sr))) ?_
  intro y hy hal hsy _
  exact H _ _ _ up2' _ _ _ h2 (hn y hy) (L.ok.suffix sx) (L.ok'.suffix hsy) hal (Or.inr hs)

/-- A call that must take something, followed by the next iteration. -/
theorem sub_must {t u : Token} {ts us : List Token} (L : Lock t u ts us) {job job' next : Job} {up1 up1' up2 up2' : Bool}
    {x r : Node × List Token} (h1 : must (exec ctx n job up1 (t :: ts)) (t :: ts) = .ok x)
    (hj : JobSim (t :: ts) (u :: us) job job') (h2 : exec ctx n next up2 x.2 = .ok r) (hs : HasSem r.2)
    (next' : Node → Job) (hn : ∀ y : Node × List Token, bare x.1 = bare y.1 → JobSim x.2 y.2 next (next' y.1)) :
    Concl ctx (fun rec => must (rec job' up1' (u :: us)) (u :: us) >>= fun y => rec (next' y.1) up2' y.2) r := by
  obtain ⟨h1, hlt⟩ := must_ok h1
  have sx := exec_suffix C h1
  have sr := exec_suffix C h2
  refine Concl.must C (H _ _ _ up1' _ _ _ h1 hj L.ok L.ok' L.all (Or.inr (hs.suffix sr)))
    (fun y hal hsy => L.prog sx hlt hal hsy) ?_
  intro y hy hal hsy _
  exact H _ _ _ up2' _ _ _ h2 (hn y hy) (L.ok.suffix sx) (L.ok'.suffix hsy) hal (Or.inr hs)

omit C in
/-- The next iteration after one token. -/
theorem next_one {t u : Token} {ts us : List Token} (L : Lock t u ts us) {next next' : Job} {up up' : Bool}
    {r : Node × List Token} (h : exec ctx n next up ts = .ok r) (hs : HasSem r.2) (hn : JobSim ts us next next') :
    Concl ctx (fun rec => rec next' up' us) r :=
  H _ _ _ up' _ _ _ h hn L.okt L.okt' L.tail (Or.inr hs)

omit C in
/-- The next iteration without taking a token. -/
theorem next_none {t u : Token} {ts us : List Token} (L : Lock t u ts us) {next next' : Job} {up up' : Bool}
    {r : Node × List Token} (h : exec ctx n next up (t :: ts) = .ok r) (hs : HasSem r.2)
    (hn : JobSim (t :: ts) (u :: us) next next') : Concl ctx (fun rec => rec next' up' (u :: us)) r :=
  H _ _ _ up' _ _ _ h hn L.ok L.ok' L.all (Or.inr hs)

/-! ## `StandardArgTree` -/

theorem stdIter_lock {t u : Token} {ts us : List Token} (L : Lock t u ts us) (cmd : Option CmdInfo)
    (specs : List PSpec) (dflt : PSpec) (kwargs : List (Str × ArgP)) (brk kbrk : List Breaker) (acc acc' : List Node)
    (up up' : Bool) (r : Node × List Token) (hk : ∀ kp ∈ kwargs, Visible kp.1) (hg : ∀ kp ∈ kwargs, GoodP false kp.2)
    (hf : ∀ s ∈ specs, ∀ f ∈ s.flags, Visible f) (hb : VisB brk) (hkb : VisB kbrk) (hacc : bareL acc = bareL acc')
    (h : stdIter (exec ctx n) cmd specs dflt kwargs brk kbrk acc up (t :: ts) = .ok r) (hs : HasSem r.2) :
    Concl ctx (fun rec => stdIter rec cmd specs dflt kwargs brk kbrk acc' up' (u :: us)) r := by
  simp only [stdIter, L.wt, L.ct, L.ot, Bool.false_eq_true, if_false] at h
  simp only [stdIter, L.wu, L.cu, L.ou, Bool.false_eq_true, if_false, ← canon_shouldBreak L.same,
    ← canon_normKwarg L.same]
  split at h
  · rename_i hbr
    simp only [Except.ok.injEq] at h; subst h
    simp only [hbr, if_true]
    exact Concl.stop (by simp [stdNode, hacc]) L.all
  · rename_i hbr
    simp only [hbr, if_false, Bool.false_eq_true]
    split at h
    · rename_i w p hl
      obtain ⟨x, h1, h2⟩ := bind_ok.1 h
      split at h2
      · simp at h2
      · rename_i hlt
        refine sub_lt (up2' := up') C H L h1 (.kwGroup w p kbrk (hg _ (lookup_kw hl).1) hkb L.lead L.lead') (by omega) h2 hs
          (fun y => .stdLoop cmd specs dflt kwargs brk kbrk (acc' ++ [y]))
          (fun y hy => .stdLoop _ _ _ _ _ _ _ _ hk hg hf hb hkb (bareL_snoc hacc hy)) (fun rec y _ _ _ _ hy => ?_)
        rw [if_neg (by omega)]
    · rename_i hl
      obtain ⟨x, h1, h2⟩ := bind_ok.1 h
      split at h2
      · simp at h2
      · rename_i hlt
        refine sub_lt (up2' := up') C H L h1 (.pos _ _ ?_) (by omega) h2 hs
          (fun y => .stdLoop cmd specs.tail dflt kwargs brk kbrk (acc' ++ [y]))
          (fun y hy => .stdLoop _ _ _ _ _ _ _ _ hk hg (fun s hs => hf s (List.mem_of_mem_tail hs)) hb hkb (bareL_snoc hacc hy))
          (fun rec y _ _ _ _ hy => ?_)
        · refine visB_append hb (visB_kw ?_)
          intro w hw
          rcases List.mem_append.1 hw with hw | hw
          · simp only [keys, List.mem_map] at hw
            obtain ⟨kp, hkp, rfl⟩ := hw
            exact hk kp hkp
          · simp only [List.mem_flatMap, List.mem_filter] at hw
            obtain ⟨s, hs, hw, _⟩ := hw
            exact hf s (List.mem_of_mem_tail hs) w hw
        · rw [if_neg (by omega)]

theorem stdLoop_sim (cmd : Option CmdInfo)
    (specs : List PSpec) (dflt : PSpec) (kwargs : List (Str × ArgP)) (brk kbrk : List Breaker) (acc acc' : List Node)
    (up up' : Bool) (ts us : List Token) (r : Node × List Token) (hk : ∀ kp ∈ kwargs, Visible kp.1)
    (hg : ∀ kp ∈ kwargs, GoodP false kp.2)
    (hf : ∀ s ∈ specs, ∀ f ∈ s.flags, Visible f) (hb : VisB brk) (hkb : VisB kbrk) (hacc : bareL acc = bareL acc')
    (ok : ListOk ts) (ok' : ListOk us) (hal : Alike ts us)
    (h : step ctx (exec ctx n) (.stdLoop cmd specs dflt kwargs brk kbrk acc) up ts = .ok r) (hs : HasSem r.2)
    (hts : HasSem ts) :
    Concl ctx (fun rec => rec (.stdLoop cmd specs dflt kwargs brk kbrk acc') up' us) r := by
  refine loop_of_lock H (fun a => .stdLoop cmd specs dflt kwargs brk kbrk a) (fun a b => a ++ [.tok b]) bareL
    (fun a b hb => bareL_push hb) up up' ?_ ?_ ?_ acc acc' ts us r hacc ok ok' hal h hs hts
  · intro up rec a b us hb _
    simp only [step, stdIter, hb, if_true]
  · intro ts us a a' he
    exact .stdLoop _ _ _ _ _ _ _ _ hk hg hf hb hkb he
  · intro t u ts us a a' r he ht hu hc hal ok ok' h hs
    exact stdIter_lock C H (Lock.mk' ht hu hc hal ok ok') _ _ _ _ _ _ _ _ _ _ _ hk hg hf hb hkb he h hs

/-! ## `PositionalGroupNode` -/

omit C H in
theorem okBind {α β : Type} (a : α) (f : α → Except Err β) : ((.ok a : Except Err α) >>= f) = f a := rfl

theorem posIter_lock {t u : Token} {ts us : List Token} (L : Lock t u ts us) (spec : PSpec) (brk : List Breaker)
    (sortable : Bool) (acc acc' : List Node) (k : Nat) (up up' : Bool) (r : Node × List Token) (hb : VisB brk)
    (hacc : bareL acc = bareL acc') (h : posIter ctx (exec ctx n) spec brk sortable acc k up (t :: ts) = .ok r)
    (hs : HasSem r.2) :
    Concl ctx (fun rec => posIter ctx rec spec brk sortable acc' k up' (u :: us)) r := by
  simp only [posIter, L.wt, L.ct, L.ot, Bool.false_eq_true, if_false, L.trail] at h
  obtain ⟨full, hf, h⟩ := bind_ok.1 h
  simp only [posIter, L.wu, L.cu, L.ou, Bool.false_eq_true, if_false, ← canon_shouldBreak L.same,
    ← canon_kwargIn L.same, ← canon_type L.same, hf, okBind, L.trail']
  split at h
  · rename_i hbr
    simp only [pure_ok] at h; subst h
    simp only [hbr, if_true]
    exact Concl.stop' (by simp [hacc]) L.all
  · rename_i hbr
    simp only [hbr, if_false, Bool.false_eq_true]
    split at h
    · rename_i hbr
      simp only [pure_ok] at h; subst h
      simp only [hbr, if_true]
      exact Concl.stop' (by simp [hacc]) L.all
    · rename_i hbr
      simp only [hbr, if_false, Bool.false_eq_true]
      split at h
      · rename_i hp
        simp only [hp, if_true]
        obtain ⟨x, h1, h2⟩ := bind_ok.1 h
        exact sub_any C H L h1 (.paren L.lead L.lead') h2 hs (fun y => .posLoop spec brk sortable (acc' ++ [y]) k)
          (fun y hy => .posLoop _ _ _ _ _ _ hb (bareL_snoc hacc hy))
      · rename_i hp
        simp only [hp, if_false, Bool.false_eq_true]
        exact next_one H L h hs (.posLoop _ _ _ _ _ _ hb (bareL_snoc hacc (L.leaf _)))

theorem posLoop_sim (spec : PSpec) (brk : List Breaker)
    (sortable : Bool) (acc acc' : List Node) (k : Nat) (up up' : Bool) (ts us : List Token) (r : Node × List Token)
    (hb : VisB brk) (hacc : bareL acc = bareL acc') (ok : ListOk ts) (ok' : ListOk us) (hal : Alike ts us)
    (h : step ctx (exec ctx n) (.posLoop spec brk sortable acc k) up ts = .ok r) (hs : HasSem r.2) (hts : HasSem ts) :
    Concl ctx (fun rec => rec (.posLoop spec brk sortable acc' k) up' us) r := by
  have hne : ∃ full, pargsFull spec.nargs k = .ok full := by
    cases ts with
    | nil => exact absurd rfl hts
    | cons t ts =>
      simp only [step, posIter] at h
      obtain ⟨full, hf, h⟩ := bind_ok.1 h
      exact ⟨full, hf⟩
  obtain ⟨full, hf⟩ := hne
  cases full with
  | true =>
    have h0 : ∀ (rec : Rec) (up : Bool) (acc : List Node) (ts : List Token), ts ≠ [] →
        step ctx rec (.posLoop spec brk sortable acc k) up ts = .ok (.node .pargGroup (posAttr spec sortable) acc, ts) := by
      intro rec up acc ts hne
      cases ts with
      | nil => exact absurd rfl hne
      | cons t ts => simp only [step, posIter, hf, okBind, if_true]; rfl
    rw [h0 _ _ _ _ (by rintro rfl; exact hts rfl)] at h
    simp only [Except.ok.injEq] at h; subst h
    refine Concl.step ?_
    simp only [h0 _ up' acc' us (by rintro rfl; exact (hts.alike hal) rfl)]
    exact Concl.stop (by simp [hacc]) hal
  | false =>
    refine loop_of_lock H (fun a => .posLoop spec brk sortable a k) (fun a b => a ++ [.tok b]) bareL
      (fun a b hb => bareL_push hb) up up' ?_ ?_ ?_ acc acc' ts us r hacc ok ok' hal h hs hts
    · intro up rec a b us hw okb
      have hl : (b.type == .lparen) = false := by
        simp only [isWs, Bool.or_eq_true, beq_iff_eq] at hw
        rcases hw with hw | hw <;> simp [hw]
      simp only [step, posIter, hf, okBind, blank_goes_on okb hw hb, hl, hw, if_true, Bool.false_eq_true, if_false,
        Bool.false_and]
    · intro ts us a a' he
      exact .posLoop _ _ _ _ _ _ hb he
    · intro t u ts us a a' r he ht hu hc hal ok ok' h hs
      exact posIter_lock C H (Lock.mk' ht hu hc hal ok ok') _ _ _ _ _ _ _ _ _ hb he h hs

/-! ## Conditions -/

theorem condIter_lock {t u : Token} {ts us : List Token} (L : Lock t u ts us) (brk : List Breaker)
    (acc acc' : List Node) (up up' : Bool) (r : Node × List Token) (hb : VisB brk)
    (hacc : bareL acc = bareL acc') (h : condIter (exec ctx n) brk acc up (t :: ts) = .ok r)
    (hs : HasSem r.2) : Concl ctx (fun rec => condIter rec brk acc' up' (u :: us)) r := by
  have hcb : VisB (brk ++ [kwBreaker [S "AND", S "OR"]]) := visB_more hb (by decide)
  simp only [condIter, L.wt, L.ct, L.ot, Bool.false_eq_true, if_false] at h
  simp only [condIter, L.wu, L.cu, L.ou, Bool.false_eq_true, if_false, ← canon_shouldBreak L.same,
    ← canon_kwargIn L.same, ← canon_type L.same, ← canon_upper L.same]
  split at h
  · rename_i hbr
    simp only [Except.ok.injEq] at h; subst h
    simp only [hbr, if_true]
    exact Concl.stop (by simp [hacc]) L.all
  · rename_i hbr
    simp only [hbr, if_false, Bool.false_eq_true]
    split at h
    · rename_i hp
      simp only [hp, if_true]
      obtain ⟨x, h1, h2⟩ := bind_ok.1 h
      exact sub_any C H L h1 (.paren L.lead L.lead') h2 hs (fun y => .condLoop brk (acc' ++ [y]))
        (fun y hy => .condLoop _ _ _ hb (bareL_snoc hacc hy))
    · rename_i hp
      simp only [hp, if_false, Bool.false_eq_true]
      split at h
      · rename_i hk
        simp only [hk, if_true]
        obtain ⟨x, h1, h2⟩ := bind_ok.1 h
        split at h2
        · rename_i hlt
          refine sub_lt (up2' := up') C H L h1 (.kwGroup _ _ _ .conditional hcb L.lead L.lead') hlt h2 hs
            (fun y => .condLoop brk (acc' ++ [y])) (fun y hy => .condLoop _ _ _ hb (bareL_snoc hacc hy))
            (fun rec y _ _ _ _ hy => ?_)
          rw [if_pos hy]
        · simp at h2
      · rename_i hk
        simp only [hk, if_false, Bool.false_eq_true]
        obtain ⟨x, h1, h2⟩ := bind_ok.1 h
        exact sub_any C H L h1 (.pos _ _ hcb) h2 hs (fun y => .condLoop brk (acc' ++ [y]))
          (fun y hy => .condLoop _ _ _ hb (bareL_snoc hacc hy))

theorem condLoop_sim (brk : List Breaker) (acc acc' : List Node)
    (up up' : Bool) (ts us : List Token) (r : Node × List Token) (hb : VisB brk) (hacc : bareL acc = bareL acc')
    (ok : ListOk ts) (ok' : ListOk us) (hal : Alike ts us)
    (h : step ctx (exec ctx n) (.condLoop brk acc) up ts = .ok r) (hs : HasSem r.2) (hts : HasSem ts) :
    Concl ctx (fun rec => rec (.condLoop brk acc') up' us) r := by
  refine loop_of_lock H (fun a => .condLoop brk a) (fun a b => a ++ [.tok b]) bareL
    (fun a b hb => bareL_push hb) up up' ?_ ?_ ?_ acc acc' ts us r hacc ok ok' hal h hs hts
  · intro up rec a b us hw okb
    simp only [step, condIter, hw, if_true, blank_goes_on okb hw hb, Bool.false_eq_true, if_false]
  · intro ts us a a' he
    exact .condLoop _ _ _ hb he
  · intro t u ts us a a' r he ht hu hc hal ok ok' h hs
    exact condIter_lock C H (Lock.mk' ht hu hc hal ok ok') _ _ _ _ _ _ hb he h hs

omit H in
/-- A condition ends at a token that is no blank. -/
theorem condLoop_lead (m : Nat) (brk : List Breaker) (acc : List Node) (up : Bool) (ts : List Token)
    (r : Node × List Token) (hb : VisB brk) (ok : ListOk ts) (h : exec ctx m (.condLoop brk acc) up ts = .ok r) :
    NoLead r.2 := by
  induction m generalizing acc ts r with
  | zero => simp [exec] at h
  | succ m ih =>
    cases ts with
    | nil =>
      simp only [exec, step, condIter, Except.ok.injEq] at h; subst h
      intro t ts' e; simp at e
    | cons t ts =>
      have hc := ok.comments t (by simp)
      have okt := ok.suffix (List.suffix_cons t ts)
      simp only [exec, step, condIter, hc.1, hc.2, Bool.false_eq_true, if_false] at h
      split at h
      · rename_i hbr
        simp only [Except.ok.injEq] at h; subst h
        refine noLead_cons ?_
        cases hw : isWs t with
        | false => rfl
        | true => rw [blank_goes_on ok hw hb] at hbr; simp at hbr
      · split at h
        · exact ih _ _ _ okt h
        · split at h
          · obtain ⟨x, h1, h2⟩ := bind_ok.1 h
            exact ih _ _ _ (ok.suffix (exec_suffix C h1)) h2
          · split at h
            · obtain ⟨x, h1, h2⟩ := bind_ok.1 h
              split at h2
              · exact ih _ _ _ (ok.suffix (exec_suffix C h1)) h2
              · simp at h2
            · obtain ⟨x, h1, h2⟩ := bind_ok.1 h
              exact ih _ _ _ (ok.suffix (exec_suffix C h1)) h2

end
end Verif.Parse
