import Verif.ParseSameMore

/-!
# The whole parser on lists that differ in blanks (lemmas for C59)
-/

namespace Verif.Parse
open Verif Py Lex

/-! ## Blanks and comments in a row -/

theorem wsComments_plain {n : Nat} {ts : List Token} (ok : ListOk ts) (h : ts.length ≤ n) :
    wsComments n ts = (leaves (ts.takeWhile isWs), ts.dropWhile isWs) := by
  induction n generalizing ts with
  | zero =>
    cases ts with
    | nil => rfl
    | cons t ts => simp at h
  | succ n ih =>
    cases ts with
    | nil => rfl
    | cons t ts =>
      have hc := ok.comments t (by simp)
      cases hw : isWs t with
      | true =>
        rw [List.takeWhile_cons_of_pos hw, List.dropWhile_cons_of_pos hw]
        simp only [wsComments, hw, if_true, ih (ok.suffix (List.suffix_cons t ts)) (by simpa using h)]
        rfl
      | false =>
        rw [List.takeWhile_cons_of_neg (by simp [hw]), List.dropWhile_cons_of_neg (by simp [hw])]
        simp [wsComments, hw, hc.1, hc.2, leaves]

theorem stmtTail_plain {n : Nat} {ts : List Token} (ok : ListOk ts) (h : ts.length ≤ n) :
    stmtTail n ts = (match ts.dropWhile isWs with
      | [] => .ok (leaves (ts.takeWhile isWs), [])
      | r :: rest => if r.type == .rparen then .ok (leaves (ts.takeWhile isWs), r :: rest) else .error .user) := by
  induction n generalizing ts with
  | zero =>
    cases ts with
    | nil => rfl
    | cons t ts => simp at h
  | succ n ih =>
    cases ts with
    | nil => rfl
    | cons t ts =>
      have hc := ok.comments t (by simp)
      cases hw : isWs t with
      | true =>
        have hr : (t.type == .rparen) = false := by
          simp only [isWs, Bool.or_eq_true, beq_iff_eq] at hw
          rcases hw with hw | hw <;> simp [hw]
        rw [List.takeWhile_cons_of_pos hw, List.dropWhile_cons_of_pos hw]
        simp only [stmtTail, hw, hr, if_true, Bool.false_eq_true, if_false,
          ih (ok.suffix (List.suffix_cons t ts)) (by simpa using h)]
        cases ts.dropWhile isWs with
        | nil => rfl
        | cons r rest => simp only; split <;> rfl
      | false =>
        rw [List.takeWhile_cons_of_neg (by simp [hw]), List.dropWhile_cons_of_neg (by simp [hw])]
        have : isComment t = false := by
          have := hc.1
          simp only [isAnyComment, Bool.or_eq_false_iff] at this
          simp [isComment, this.1]
        simp [stmtTail, hw, this, leaves]

section
variable {ctx : Ctx} {n : Nat} (C : CtxSame ctx) (H : SimAt ctx n)
include C H

omit C in
/-- A call after skipping blanks. -/
theorem drop_call {job job' : Job} {up up' : Bool} {ts us : List Token} {r : Node × List Token}
    (h : exec ctx n job up (ts.dropWhile isWs) = .ok r)
    (hj : JobSim (ts.dropWhile isWs) (us.dropWhile isWs) job job') (ok : ListOk ts) (ok' : ListOk us) (hal : Alike ts us)
    (hs : job.top = true ∨ HasSem r.2) : Concl ctx (fun rec => rec job' up' (us.dropWhile isWs)) r :=
  H _ _ _ up' _ _ _ h hj (ok.suffix (List.dropWhile_suffix _)) (ok'.suffix (List.dropWhile_suffix _)) (alike_drop hal) hs

/-- Skip blanks, make a call that must take something, then go on. -/
theorem drop_must {job job' next : Job} {up up' up2 up2' : Bool} {ts us : List Token} {x r : Node × List Token}
    (h1 : must (exec ctx n job up (ts.dropWhile isWs)) (ts.dropWhile isWs) = .ok x)
    (hj : JobSim (ts.dropWhile isWs) (us.dropWhile isWs) job job') (ok : ListOk ts) (ok' : ListOk us) (hal : Alike ts us)
    (h2 : exec ctx n next up2 x.2 = .ok r) (hs : HasSem r.2) (next' : Node → Job)
    (hn : ∀ y : Node × List Token, bare x.1 = bare y.1 → Alike x.2 y.2 →
      (∃ m, exec ctx m job' up' (us.dropWhile isWs) = .ok y) → JobSim x.2 y.2 next (next' y.1)) :
    Concl ctx (fun rec => must (rec job' up' (us.dropWhile isWs)) (us.dropWhile isWs) >>=
      fun y => rec (next' y.1) up2' y.2) r := by
  obtain ⟨h1, hlt⟩ := must_ok h1
  have sx := exec_suffix C h1
  have sr := exec_suffix C h2
  have okd := ok.suffix (List.dropWhile_suffix isWs)
  have okd' := ok'.suffix (List.dropWhile_suffix isWs)
  refine Concl.must C (drop_call H h1 hj ok ok' hal (Or.inr (hs.suffix sr)))
    (fun y hal' hsy => progress okd (noLead_drop ts) (alike_drop hal) sx hsy hal' hlt) ?_
  intro y hy hal' hsy hm
  exact H _ _ _ up2' _ _ _ h2 (hn y hy hal' hm) (okd.suffix sx) (okd'.suffix hsy) hal' (Or.inr hs)

omit C in
theorem pos_sim (spec : PSpec) (brk : List Breaker) (up up' : Bool) (ts us : List Token) (r : Node × List Token)
    (hb : VisB brk) (ok : ListOk ts) (ok' : ListOk us) (hal : Alike ts us)
    (h : step ctx (exec ctx n) (.pos spec brk) up ts = .ok r) (hs : HasSem r.2) :
    Concl ctx (fun rec => rec (.pos spec brk) up' us) r := by
  refine Concl.step ?_
  simp only [step, posStart] at h ⊢
  rw [annotated_plain (ok.suffix (List.dropWhile_suffix isWs))] at h
  simp only [annotated_plain (ok'.suffix (List.dropWhile_suffix isWs))]
  exact drop_call H h (.posLoop _ _ _ _ _ _ hb (by rw [bareL_takeWs, bareL_takeWs])) ok ok' hal (Or.inr hs)

theorem kwGroup_sim (word : Str) (p : ArgP) (brk : List Breaker) (up up' : Bool) (ts us : List Token)
    (r : Node × List Token) (hg : GoodP false p) (hb : VisB brk) (hl : NoLead ts) (hl' : NoLead us) (ok : ListOk ts)
    (ok' : ListOk us) (hal : Alike ts us)
    (h : step ctx (exec ctx n) (.kwGroup word p brk) up ts = .ok r) (hs : HasSem r.2) :
    Concl ctx (fun rec => rec (.kwGroup word p brk) up' us) r := by
  refine Concl.step ?_
  cases ts with
  | nil => simp [step, kwIter] at h
  | cons t ts =>
    obtain ⟨u, us, rfl, hu, hc, hal'⟩ := alike_cons (hl _ _ rfl) ok ok' hl' hal
    have L : Lock t u ts us := Lock.mk' (hl _ _ rfl) hu hc hal' ok ok'
    simp only [step, kwIter] at h ⊢
    simp only [← canon_upper hc]
    split at h
    · simp at h
    · rename_i hw
      obtain ⟨x, h1, h2⟩ := bind_ok.1 h
      simp only [pure_ok] at h2
      subst h2
      have sx := exec_suffix C h1
      have okd := L.okt.suffix (List.dropWhile_suffix isWs)
      have okd' := L.okt'.suffix (List.dropWhile_suffix isWs)
      simp only [hw, if_false]
      refine Concl.bind C (drop_call H h1 (.arg false p brk hg hb (by simp)) L.okt L.okt' L.tail (Or.inr hs)) ?_
      intro y hy haly hsy _
      have e : (x.2.length < (ts.dropWhile isWs).length) ↔ (y.2.length < (us.dropWhile isWs).length) :=
        ⟨fun hlt => progress okd (noLead_drop ts) (alike_drop hal') sx hsy haly hlt,
          fun hlt => progress okd' (noLead_drop us) (alike_drop hal').symm hsy sx haly.symm hlt⟩
      refine Concl.stop' ?_ haly
      rw [bare_mk, bare_mk]
      congr 1
      show bareL ([mk .keyword [.tok t]] ++ leaves (ts.takeWhile isWs) ++ _) =
        bareL ([mk .keyword [.tok u]] ++ leaves (us.takeWhile isWs) ++ _)
      rw [bareL_append, bareL_append, bareL_append ([mk .keyword [.tok u]] ++ _), bareL_append [mk .keyword [.tok u]],
        bareL_takeWs, bareL_takeWs, bareL_one (L.leaf .keyword)]
      congr 1
      by_cases hlt : x.2.length < (ts.dropWhile isWs).length
      · rw [if_pos hlt, if_pos (e.1 hlt), bareL_one hy]
      · rw [if_neg hlt, if_neg (fun he => hlt (e.2 he))]

omit H in
/-- A condition in parentheses is followed by a token that is no blank. -/
theorem cond_lead (m : Nat) (up : Bool) (ts : List Token) (r : Node × List Token) (ok : ListOk ts)
    (h : exec ctx m (.arg .conditional [.paren]) up ts = .ok r) : NoLead r.2 := by
  cases m with
  | zero => simp [exec] at h
  | succ m =>
    simp only [exec, step, argStart] at h
    exact condLoop_lead C m _ _ _ _ _ visB_paren (ok.suffix (List.dropWhile_suffix isWs)) h

theorem paren_sim (up up' : Bool) (ts us : List Token) (r : Node × List Token) (hl : NoLead ts) (hl' : NoLead us)
    (ok : ListOk ts) (ok' : ListOk us) (hal : Alike ts us)
    (h : step ctx (exec ctx n) .paren up ts = .ok r) (hs : HasSem r.2) : Concl ctx (fun rec => rec .paren up' us) r := by
  refine Concl.step ?_
  cases ts with
  | nil => simp [step, parenIter] at h
  | cons t ts =>
    obtain ⟨u, us, rfl, hu, hc, hal'⟩ := alike_cons (hl _ _ rfl) ok ok' hl' hal
    have L : Lock t u ts us := Lock.mk' (hl _ _ rfl) hu hc hal' ok ok'
    simp only [step, parenIter] at h ⊢
    simp only [← canon_type hc]
    split at h
    · simp at h
    · rename_i hw
      simp only [hw, if_false]
      obtain ⟨x, h1, h2⟩ := bind_ok.1 h
      obtain ⟨x1, x2⟩ := x
      cases x2 with
      | nil => simp at h2
      | cons a x2 =>
        have sx := exec_suffix C h1
        have okx := L.okt.suffix sx
        have oka := okx.suffix (List.suffix_cons a x2)
        simp only [consumeTrailing_plain ctx oka] at h2
        split at h2
        · simp at h2
        · rename_i hr
          simp only [pure_ok, List.append_nil] at h2; subst h2
          have hla := cond_lead C n _ _ _ L.okt h1
          refine Concl.bind C (H _ _ _ true _ _ _ h1 (.arg false .conditional _ .conditional visB_paren (by simp)) L.okt
            L.okt' hal' (Or.inr (hs.suffix (List.suffix_cons _ _)))) ?_
          rintro ⟨y1, y2⟩ hy haly hsy ⟨m, hm⟩
          obtain ⟨b, y2, rfl, hb, hcb, haly'⟩ := alike_cons (hla _ _ rfl) okx (L.okt'.suffix hsy) (cond_lead C m _ _ _ L.okt' hm)
            haly
          have oky := L.okt'.suffix hsy
          simp only [consumeTrailing_plain ctx (oky.suffix (List.suffix_cons b y2)), ← canon_type hcb, hr, if_false,
            List.append_nil]
          refine Concl.stop' ?_ haly'
          have wa := hla _ _ rfl
          simp only at hy
          rw [bare_mk, bare_mk]
          congr 1
          rw [bareL_cons, bareL_cons (mk .lparen [.tok u]), L.leaf .lparen]
          have e1 : blankNode (mk .lparen [.tok t]) = false := rfl
          have e2 : blankNode (mk .lparen [.tok u]) = false := rfl
          rw [e1, e2]
          simp only [Bool.false_eq_true, if_false, List.cons.injEq, true_and]
          show bareL ([x1] ++ [mk .rparen [.tok a]]) = bareL ([y1] ++ [mk .rparen [.tok b]])
          rw [bareL_append, bareL_append, bareL_one hy]
          congr 1
          apply bareL_one
          rw [bare_mk, bare_mk, bareL_ink _ _ wa, bareL_ink _ _ hb, hcb]

/-! ## Calls of argument parsers -/

omit C H in
theorem splitSpecs_vis {specs : List PSpec} (h : ∀ s ∈ specs, ∀ f ∈ s.flags, Visible f) :
    (∀ s ∈ (splitSpecs specs).2, ∀ f ∈ s.flags, Visible f) ∧ ∀ f ∈ (splitSpecs specs).1.flags, Visible f := by
  have hd : ∀ f ∈ defaultSpec.flags, Visible f := by simp [defaultSpec]
  cases specs with
  | nil => exact ⟨by simp [splitSpecs], hd⟩
  | cons s specs =>
    cases specs with
    | nil =>
      simp only [splitSpecs]
      split
      · exact ⟨by simp, h s (by simp)⟩
      · exact ⟨h, hd⟩
    | cons s2 specs => exact ⟨h, hd⟩

omit H in
/-- The tokens taken by two calls are alike. -/
theorem taken_alike {job job' : Job} {m m' : Nat} {up up' : Bool} {ts us : List Token} {x y : Node × List Token}
    (h : exec ctx m job up ts = .ok x) (h' : exec ctx m' job' up' us = .ok y) (hj : JobOk false ts job)
    (hj' : JobOk false us job') (e : job.toks = []) (e' : job'.toks = []) (ok : ListOk ts) (ok' : ListOk us)
    (hal : Alike ts us) (hxy : Alike x.2 y.2) : (semantics x.1.toks).map canon = (semantics y.1.toks).map canon := by
  have hc : CtxOk false (fun _ => True) ctx := fun t _ => C.ok t.spelling
  have tsok : ∀ {ts : List Token}, ListOk ts → TsOk false (fun _ => True) ts := by
    intro ts ok
    refine ⟨fun _ _ => trivial, ok.nobom, fun _ a b hab hb => ?_⟩
    have := (ok.comments b (hab.subset (by simp))).2
    rw [this] at hb; simp at hb
  obtain ⟨c, h1, h2⟩ := exec_holds hc m job up ts x h hj (tsok ok)
  obtain ⟨d, h3, h4⟩ := exec_holds hc m' job' up' us y h' hj' (tsok ok')
  simp only [Rel, Bool.false_eq_true, if_false, e, e', List.nil_append] at h2 h4
  rw [h2.2, h4.2]
  rw [h1, h3] at hal
  simp only [Alike, semantics_append, List.map_append] at hal hxy
  exact (List.append_inj' hal (by simpa using congrArg List.length hxy)).1

theorem setStart_sim (brk : List Breaker) (up up' : Bool) (ts us : List Token) (r : Node × List Token)
    (hb : VisB brk) (ok : ListOk ts) (ok' : ListOk us) (hal : Alike ts us)
    (h : setStart (exec ctx n) brk up ts = .ok r) (hs : HasSem r.2) :
    Concl ctx (fun rec => setStart rec brk up' us) r := by
  simp only [setStart] at h ⊢
  obtain ⟨x, h1, h2⟩ := bind_ok.1 h
  refine drop_must C H h1 (.pos _ _ (visB_more hb (by decide))) ok ok' hal h2 hs
    (fun y => .setLoop ((semantics y.toks).head?.map (·.spelling)) brk (leaves (us.takeWhile isWs) ++ [y])) ?_
  intro y hy haly ⟨m, hm⟩
  refine .setLoop _ _ _ _ _ hb ?_ ?_
  · rw [bareL_append, bareL_append, bareL_takeWs, bareL_takeWs, bareL_one hy]
  · have := taken_alike C (must_ok h1).1 hm trivial trivial rfl rfl (ok.suffix (List.dropWhile_suffix _))
      (ok'.suffix (List.dropWhile_suffix _)) (alike_drop hal) haly
    have := congrArg (fun l => (List.head? l).map Token.spelling) this
    simp only [List.head?_map, Option.map_map] at this ⊢
    exact this

theorem foreachInStart_sim (brk : List Breaker) (up up' : Bool) (ts us : List Token) (r : Node × List Token)
    (hb : VisB brk) (ok : ListOk ts) (ok' : ListOk us) (hal : Alike ts us)
    (h : foreachInStart (exec ctx n) brk up ts = .ok r) (hs : HasSem r.2) :
    Concl ctx (fun rec => foreachInStart rec brk up' us) r := by
  simp only [foreachInStart] at h ⊢
  obtain ⟨x, h1, h2⟩ := bind_ok.1 h
  refine drop_must C H h1 (.pos _ _ hb) ok ok' hal h2 hs
    (fun y => .foreachInLoop brk (leaves (us.takeWhile isWs) ++ [y])) ?_
  intro y hy haly _
  exact .foreachInLoop _ _ _ hb (by rw [bareL_append, bareL_append, bareL_takeWs, bareL_takeWs, bareL_one hy])

theorem objStart_sim (brk : List Breaker) (up up' : Bool) (ts us : List Token) (r : Node × List Token)
    (hb : VisB brk) (ok : ListOk ts) (ok' : ListOk us) (hal : Alike ts us)
    (h : objStart (exec ctx n) brk up ts = .ok r) (hs : HasSem r.2) :
    Concl ctx (fun rec => objStart rec brk up' us) r := by
  simp only [objStart] at h ⊢
  obtain ⟨x, h1, h2⟩ := bind_ok.1 h
  refine drop_must C H h1 (.pos _ _ hb) ok ok' hal h2 hs
    (fun y => .objLoop brk (leaves (us.takeWhile isWs) ++ [y])) ?_
  intro y hy haly _
  exact .objLoop _ _ _ hb (by rw [bareL_append, bareL_append, bareL_takeWs, bareL_takeWs, bareL_one hy])

theorem fileWriteStart_sim (brk : List Breaker) (up up' : Bool) (ts us : List Token) (r : Node × List Token)
    (hb : VisB brk) (ok : ListOk ts) (ok' : ListOk us) (hal : Alike ts us)
    (h : fileWriteStart (exec ctx n) brk up ts = .ok r) (hs : HasSem r.2) :
    Concl ctx (fun rec => fileWriteStart rec brk up' us) r := by
  simp only [fileWriteStart, wsComments_plain ok (Nat.le_refl _)] at h
  simp only [fileWriteStart, wsComments_plain ok' (Nat.le_refl _)]
  obtain ⟨x, h1, h2⟩ := bind_ok.1 h
  have sx := (exec_suffix C h1).trans (List.dropWhile_suffix isWs)
  have okx := ok.suffix sx
  rw [wsComments_plain okx (Nat.le_refl _)] at h2
  obtain ⟨z, h3, h4⟩ := bind_ok.1 h2
  simp only [pure_ok] at h4; subst h4
  have hsx : HasSem x.2 := hs.suffix ((exec_suffix C h3).trans (List.dropWhile_suffix isWs))
  refine Concl.bind C (drop_call H h1 (.pos _ _ hb) ok ok' hal (Or.inr hsx)) ?_
  intro y hy haly hsy _
  have oky := ok'.suffix (hsy.trans (List.dropWhile_suffix isWs))
  simp only [wsComments_plain oky (Nat.le_refl _)]
  refine Concl.bind C (drop_call H h3 (.pos _ _ hb) okx oky haly (Or.inr hs)) ?_
  intro w hw halw _ _
  refine Concl.stop' ?_ halw
  simp only [bare_mk, bareL_append, bareL_takeWs, bareL_one hy, bareL_one hw]

omit C H in
theorem bare_tagGroups {m m' : Node} (h : bare m = bare m') : bare (tagGroups m) = bare (tagGroups m') := by
  let f : Node → Node := fun c => match c with
    | .node .pargGroup b ds => .node .pargGroup { b with tags := b.tags ++ [S "cmdline"] } ds
    | c => c
  have hf : ∀ c, bare (f c) = f (bare c) := by
    intro c
    cases c with
    | tok t => simp [f]
    | node ty a cs => cases ty <;> simp [f]
  have hk : ∀ c, blankNode (f c) = blankNode c := by
    intro c
    cases c with
    | tok t => rfl
    | node ty a cs => cases ty <;> rfl
  have key : ∀ cs : List Node, bareL (cs.map f) = (bareL cs).map f := by
    intro cs
    induction cs with
    | nil => simp
    | cons c cs ih =>
      rw [List.map_cons, bareL_cons, bareL_cons, hk, ih, hf]
      split <;> simp
  have e : ∀ ty a cs, tagGroups (.node ty a cs) = .node ty a (cs.map f) := fun ty a cs => rfl
  cases m with
  | tok t =>
    cases m' with
    | tok u => exact h
    | node ty a cs => simp at h
  | node ty a cs =>
    cases m' with
    | tok u => simp at h
    | node ty' a' cs' =>
      simp only [bare_node, Node.node.injEq] at h
      obtain ⟨rfl, rfl, h⟩ := h
      rw [e, e, bare_node, bare_node, key, key, h]

omit C H in
theorem noLead_self {ts : List Token} (h : NoLead ts) : ts.dropWhile isWs = ts := by
  cases ts with
  | nil => rfl
  | cons t ts => exact List.dropWhile_cons_of_neg (by simp [h t ts rfl])

omit H in
/-- A positional group of any length takes the first token, unless it is a closing parenthesis. -/
theorem pos_takes {m : Nat} {spec : PSpec} {up : Bool} {ts : List Token} {r : Node × List Token} (ok : ListOk ts)
    (hn : spec.nargs = .str (S "+")) {w : Token} {b : List Token} (hw : semantics ts = w :: b) (hr : w.type ≠ .rparen)
    (h : exec ctx m (.pos spec [.paren]) up ts = .ok r) : (semantics r.2).length < (semantics ts).length := by
  cases m with
  | zero => simp [exec] at h
  | succ m =>
    simp only [exec, step, posStart] at h
    have okd := ok.suffix (List.dropWhile_suffix isWs)
    rw [← semantics_dropWs ts] at hw ⊢
    have hl := noLead_drop ts
    generalize ts.dropWhile isWs = l at h okd hw hl ⊢
    generalize annotated spec l = so at h
    generalize leaves (ts.takeWhile isWs) = acc at h
    cases l with
    | nil => simp [semantics] at hw
    | cons t l =>
      have ht := hl _ _ rfl
      have hc := okd.comments t (by simp)
      have okl := okd.suffix (List.suffix_cons t l)
      rw [semantics_ink ht hc.1 hc.2] at hw ⊢
      simp only [List.cons.injEq] at hw
      obtain ⟨rfl, rfl⟩ := hw
      have key : ∀ {x : List Token}, x <:+ l → (semantics x).length < (t :: semantics l).length := by
        intro x hx
        have := semantics_length hx
        simp only [List.length_cons]; omega
      cases m with
      | zero => simp [exec] at h
      | succ m =>
        have hb : shouldBreak t [.paren] = false := by simp [shouldBreak, Breaker.fires, hr]
        have hf : pargsFull spec.nargs 0 = .ok false := by
          rw [hn]; simp only [pargsFull]; rw [if_neg (by decide), if_pos (by decide)]
        simp only [exec, step, posIter, hf, okBind, hb, ht, hc.1, hc.2, Bool.false_eq_true, if_false, Bool.false_and,
          consumeTrailing_plain ctx okl] at h
        split at h
        · obtain ⟨x, h1, h2⟩ := bind_ok.1 h
          apply key
          refine (exec_suffix C h2).trans ?_
          cases m with
          | zero => simp [exec] at h1
          | succ m =>
            simp only [exec, step, parenIter] at h1
            split at h1
            · simp at h1
            · obtain ⟨y, h3, h4⟩ := bind_ok.1 h1
              have sy := exec_suffix C h3
              obtain ⟨y1, y2⟩ := y
              cases y2 with
              | nil => simp at h4
              | cons a y2 =>
                simp only [consumeTrailing_plain ctx ((okl.suffix sy).suffix (List.suffix_cons a y2))] at h4
                split at h4
                · simp at h4
                · simp only [pure_ok] at h4; subst h4
                  exact (List.suffix_cons a y2).trans sy
        · exact key (exec_suffix C h)

omit C H in
/-- A group of one argument takes the first token. -/
theorem pos_one {m : Nat} {up : Bool} {ts : List Token} {r : Node × List Token} (ok : ListOk ts)
    {w : Token} {b : List Token} (hw : semantics ts = w :: b) (hr : w.type ≠ .lparen)
    (h : exec ctx m (.pos { nargs := .int 1 } [.paren]) up ts = .ok r)
    (hlt : r.2.length < (ts.dropWhile isWs).length) : semantics r.2 = b := by
  cases m with
  | zero => simp [exec] at h
  | succ m =>
    simp only [exec, step, posStart] at h
    have okd := ok.suffix (List.dropWhile_suffix isWs)
    rw [← semantics_dropWs] at hw
    have hl := noLead_drop ts
    generalize ts.dropWhile isWs = l at h okd hw hl hlt
    generalize annotated _ l = so at h
    generalize leaves (ts.takeWhile isWs) = acc at h
    cases l with
    | nil => simp [semantics] at hw
    | cons t l =>
      have ht := hl _ _ rfl
      have hc := okd.comments t (by simp)
      have okl := okd.suffix (List.suffix_cons t l)
      rw [semantics_ink ht hc.1 hc.2] at hw
      simp only [List.cons.injEq] at hw
      obtain ⟨rfl, rfl⟩ := hw
      cases m with
      | zero => simp [exec] at h
      | succ m =>
        have hf : pargsFull (.int 1) 0 = .ok false := by simp [pargsFull]
        have hf1 : pargsFull (.int 1) 1 = .ok true := by simp [pargsFull]
        have hp : (t.type == .lparen) = false := by simpa using hr
        simp only [exec, step, posIter, hf, okBind, ht, hc.1, hc.2, Bool.false_eq_true, if_false,
          consumeTrailing_plain ctx okl, hp] at h
        split at h
        · simp only [pure_ok] at h; subst h; simp at hlt
        · cases m with
          | zero => simp [exec] at h
          | succ m =>
            cases l with
            | nil => simp only [exec, step, posIter, Except.ok.injEq] at h; subst h; rfl
            | cons a l =>
              simp only [exec, step, posIter, Nat.zero_add, hf1, okBind, if_true, pure_ok] at h
              subst h; rfl

theorem foreachStdStart_sim (up up' : Bool) (ts us : List Token) (r : Node × List Token)
    (hm : Many ts) (ok : ListOk ts) (ok' : ListOk us) (hal : Alike ts us)
    (h : foreachStdStart (exec ctx n) [.paren] up ts = .ok r) (hs : HasSem r.2) :
    Concl ctx (fun rec => foreachStdStart rec [.paren] up' us) r := by
  simp only [foreachStdStart] at h ⊢
  obtain ⟨x, h1, h2⟩ := bind_ok.1 h
  obtain ⟨z, h3, h4⟩ := bind_ok.1 h2
  simp only [pure_ok] at h4; subst h4
  obtain ⟨h1, hlt⟩ := must_ok h1
  obtain ⟨h3, hlt3⟩ := must_ok h3
  have sx := exec_suffix C h1
  have sz := exec_suffix C h3
  have okd := ok.suffix (List.dropWhile_suffix isWs)
  have okd' := ok'.suffix (List.dropWhile_suffix isWs)
  have okx := okd.suffix sx
  have hsx : HasSem x.2 := hs.suffix sz
  refine Concl.must C (drop_call H h1 (.pos _ _ visB_paren) ok ok' hal (Or.inr hsx))
    (fun y hal' hsy => progress okd (noLead_drop ts) (alike_drop hal) sx hsy hal' hlt) ?_
  intro y hy haly hsy _
  have oky := okd'.suffix hsy
  -- the second group takes a token that is no blank
  have hlen : (semantics z.2).length < (semantics x.2).length := by
    cases e : semantics ts with
    | nil => exact absurd e (hsx.suffix (sx.trans (List.dropWhile_suffix isWs)))
    | cons w b =>
      obtain ⟨m1, m2⟩ := hm w b e
      have hd : semantics (ts.dropWhile isWs) = w :: b := by rw [semantics_dropWs, e]
      have hxs := pos_one okd hd m1 h1 (by rw [noLead_self (noLead_drop ts)]; exact hlt)
      cases b with
      | nil => exact absurd hxs hsx
      | cons v b => exact pos_takes C okx rfl hxs (m2 v b rfl) h3
  refine Concl.must C (H _ _ _ up' _ _ _ h3 (.pos _ _ visB_paren) okx oky haly (Or.inr hs)) ?_ ?_
  · intro y2 haly2 hsy2
    rcases Nat.lt_or_ge y2.2.length y.2.length with hh | hh
    · exact hh
    · have : y2.2 = y.2 := hsy2.eq_of_length (by have := hsy2.length_le; omega)
      rw [this] at haly2
      have := haly2.length; have := haly.length
      omega
  · intro y2 hy2 haly2 _ _
    refine Concl.stop' ?_ haly2
    rw [bare_mk, bare_mk, bareL_append, bareL_append, bareL_takeWs, bareL_takeWs]
    congr 1
    show [] ++ bareL ([x.1] ++ [z.1]) = [] ++ bareL ([y.1] ++ [y2.1])
    rw [bareL_append, bareL_append, bareL_one hy, bareL_one hy2]

theorem arg_sim (many : Bool) (p : ArgP) (brk : List Breaker) (up up' : Bool) (ts us : List Token) (r : Node × List Token)
    (hg : GoodP many p) (hb : VisB brk) (hm : many = true → brk = [.paren] ∧ Many ts) (ok : ListOk ts) (ok' : ListOk us)
    (hal : Alike ts us) (h : step ctx (exec ctx n) (.arg p brk) up ts = .ok r) (hs : HasSem r.2) (hts : HasSem ts) :
    Concl ctx (fun rec => rec (.arg p brk) up' us) r := by
  refine Concl.step ?_
  simp only [step] at h ⊢
  cases hg with
  | standard cmd specs kwargs hk hkp hf =>
    simp only [argStart, stdStart] at h ⊢
    obtain ⟨h1, h2⟩ := splitSpecs_vis hf
    refine drop_call H h (.stdLoop _ _ _ _ _ _ _ _ hk hkp h1 hb ?_ (by rw [bareL_takeWs, bareL_takeWs])) ok ok' hal
      (Or.inr hs)
    refine visB_append hb (visB_kw ?_)
    intro w hw
    simp only [List.mem_append, keys, List.mem_map, List.mem_flatMap] at hw
    rcases hw with ⟨kp, hkp', rfl⟩ | hw | ⟨s, hs', hw⟩
    · exact hk kp hkp'
    · exact h2 w hw
    · exact h1 s hs' w hw
  | positional spec =>
    simp only [argStart] at h ⊢
    exact H _ _ _ up' _ _ _ h (.pos _ _ hb) ok ok' hal (Or.inr hs)
  | conditional =>
    simp only [argStart] at h ⊢
    exact drop_call H h (.condLoop _ _ _ hb (by rw [bareL_takeWs, bareL_takeWs])) ok ok' hal (Or.inr hs)
  | tuple npargs ntup flags =>
    simp only [argStart] at h ⊢
    exact H _ _ _ up' _ _ _ h (.tupleLoop _ _ _ _ _ _ _ _ _ _ _ _ hb rfl rfl rfl) ok ok' hal (Or.inr hs)
  | shell =>
    simp only [argStart] at h ⊢
    obtain ⟨x, h1, h2⟩ := bind_ok.1 h
    simp only [pure_ok] at h2; subst h2
    refine Concl.bind C (H _ _ _ up' _ _ _ h1 (.arg false _ _ (.standard _ _ _ (by simp) (by simp) (by simp)) hb
      (by simp)) ok ok' hal (Or.inr hs)) ?_
    intro y hy haly _ _
    exact Concl.stop' (bare_tagGroups hy) haly
  | null =>
    simp only [argStart, Except.ok.injEq] at h ⊢
    subst h
    exact Concl.stop rfl hal
  | setFn => exact setStart_sim C H _ _ _ _ _ _ hb ok ok' hal h hs
  | emptyFn =>
    simp only [argStart] at h ⊢
    exact H _ _ _ up' _ _ _ h (.emptyLoop _ _ _ hb rfl) ok ok' hal (Or.inr hs)
  | foreachStandard =>
    obtain ⟨rfl, hmt⟩ := hm rfl
    exact foreachStdStart_sim C H _ _ _ _ _ hmt ok ok' hal h hs
  | foreachIn => exact foreachInStart_sim C H _ _ _ _ _ _ hb ok ok' hal h hs
  | addSources lib sortable =>
    simp only [argStart] at h ⊢
    exact drop_call H h (.srcLoop _ _ _ _ _ _ _ _ _ _ _ _ _ _ hb (by rw [bareL_takeWs, bareL_takeWs]) rfl rfl rfl)
      ok ok' hal (Or.inr hs)
  | addLibraryObject => exact objStart_sim C H _ _ _ _ _ _ hb ok ok' hal h hs
  | customTarget =>
    simp only [argStart] at h ⊢
    exact drop_call H h (.targetLoop _ _ _ _ hb (by rw [bareL_takeWs, bareL_takeWs])) ok ok' hal (Or.inr hs)
  | fileWrite => exact fileWriteStart_sim C H _ _ _ _ _ _ hb ok ok' hal h hs
  | installTargets =>
    simp only [argStart] at h ⊢
    exact drop_call H h (.installLoop _ _ _ hb (by rw [bareL_takeWs, bareL_takeWs])) ok ok' hal (Or.inr hs)
  | choose f h1 h2 =>
    simp only [argStart] at h ⊢
    rw [← h1 ts us hal hts]
    cases e : f ts with
    | error er => rw [e] at h; simp at h
    | ok q =>
      rw [e] at h
      simp only at h ⊢
      exact H _ _ _ up' _ _ _ h (.arg many q brk (h2 ts q e) hb hm) ok ok' hal (Or.inr hs)

/-! ## Statements and blocks -/

omit C H in
theorem lookup_same {a b : Str} (h : lower a = lower b) : lookupParser ctx a = lookupParser ctx b := by
  simp only [lookupParser, h]

theorem statement_sim (up up' : Bool) (ts us : List Token) (r : Node × List Token) (hl : NoLead ts) (hl' : NoLead us)
    (ok : ListOk ts) (ok' : ListOk us) (hal : Alike ts us)
    (h : step ctx (exec ctx n) .statement up ts = .ok r) : Concl ctx (fun rec => rec .statement up' us) r := by
  refine Concl.step ?_
  cases ts with
  | nil => simp [step, stmtIter] at h
  | cons t ts =>
    obtain ⟨u, us, rfl, hu, hc, hal'⟩ := alike_cons (hl _ _ rfl) ok ok' hl' hal
    have L : Lock t u ts us := Lock.mk' (hl _ _ rfl) hu hc hal' ok ok'
    simp only [step, stmtIter] at h ⊢
    have okd := L.okt.suffix (List.dropWhile_suffix isWs)
    have okd' := L.okt'.suffix (List.dropWhile_suffix isWs)
    have hld := noLead_drop ts
    have hld' := noLead_drop us
    have hald := alike_drop hal'
    cases e1 : ts.dropWhile isWs with
    | nil => rw [e1] at h; simp at h
    | cons l ts1 =>
      rw [e1] at h okd hld hald
      obtain ⟨l', us1, e2, hl2, hcl, hal1⟩ := alike_cons (hld _ _ rfl) okd okd' hld' hald
      rw [e2] at okd'
      have L1 : Lock l l' ts1 us1 := Lock.mk' (hld _ _ rfl) hl2 hcl hal1 okd okd'
      simp only [e2, ← canon_type hcl, ← lookup_same (ctx := ctx) (canon_lower hc)] at h ⊢
      split at h
      · simp at h
      · rename_i hlp
        simp only [hlp, if_false]
        obtain ⟨x, h1, h2⟩ := bind_ok.1 h
        obtain ⟨tl, h3, h4⟩ := bind_ok.1 h2
        have sx := (exec_suffix C h1).trans (List.dropWhile_suffix isWs)
        have okx := L1.okt.suffix sx
        rw [stmtTail_plain okx (Nat.le_refl _)] at h3
        have okxd := okx.suffix (List.dropWhile_suffix isWs)
        cases e3 : x.2.dropWhile isWs with
        | nil =>
          rw [e3] at h3
          simp only [Except.ok.injEq] at h3; subst h3
          simp at h4
        | cons a x2 =>
          rw [e3] at h3 okxd
          simp only at h3
          split at h3
          · rename_i hra
            simp only [Except.ok.injEq] at h3; subst h3
            simp only [consumeTrailing_plain ctx (okxd.suffix (List.suffix_cons a x2)), pure_ok] at h4
            subst h4
            have wa : isWs a = false := noLead_drop x.2 _ _ e3
            have hca := okxd.comments a (by simp)
            have hsx : HasSem x.2 := by
              rw [HasSem, ← semantics_dropWs, e3, semantics_ink wa hca.1 hca.2]; simp
            refine Concl.bind C (drop_call H h1 (.arg _ _ _ (C.good t.spelling) visB_paren ?_) L1.okt L1.okt' hal1
              (Or.inr hsx)) ?_
            · intro hm
              refine ⟨rfl, ?_⟩
              intro w b hw
              have := ok.foreach_ [] t l w b ?_ (by simpa using hm) (by simpa using hlp)
              · exact this
              · rw [List.nil_append, semantics_ink L.wt L.ct L.ot, ← semantics_dropWs, e1, semantics_ink L1.wt L1.ct L1.ot,
                  ← hw, semantics_dropWs]
            · intro y hy haly hsy _
              have oky := L1.okt'.suffix (hsy.trans (List.dropWhile_suffix isWs))
              have hald2 := alike_drop haly
              rw [e3] at hald2
              obtain ⟨b, y2, e4, hb, hcb, hal2⟩ := alike_cons wa okxd (oky.suffix (List.dropWhile_suffix isWs))
                (noLead_drop y.2) hald2
              have okyd := oky.suffix (List.dropWhile_suffix isWs)
              rw [e4] at okyd
              simp only [stmtTail_plain oky (Nat.le_refl _), e4, ← canon_type hcb, hra, if_true, okBind,
                consumeTrailing_plain ctx (okyd.suffix (List.suffix_cons b y2))]
              refine Concl.stop' ?_ hal2
              have hab : bare (mk .rparen [.tok a]) = bare (mk .rparen [.tok b]) := by
                rw [bare_mk, bare_mk, bareL_ink _ _ wa, bareL_ink _ _ hb, hcb]
              simp only [bare_node, bareL_append, bareL_takeWs, bareL_one hy, bareL_one (L.leaf .funname),
                bareL_one (L1.leaf .lparen), bareL_one hab]
          · simp at h3

omit H in
/-- A body ends at a token that is no blank. -/
theorem body_lead (m : Nat) (bs : List Str) (acc : List Node) (up : Bool) (ts : List Token)
    (r : Node × List Token) (ok : ListOk ts) (h : exec ctx m (.body bs acc) up ts = .ok r) : NoLead r.2 := by
  induction m generalizing acc up ts r with
  | zero => simp [exec] at h
  | succ m ih =>
    cases ts with
    | nil =>
      simp only [exec, step, bodyIter, Except.ok.injEq] at h; subst h
      intro t ts' e; simp at e
    | cons t ts =>
      have hc := ok.comments t (by simp)
      have okt := ok.suffix (List.suffix_cons t ts)
      simp only [exec, step, bodyIter, hc.1, hc.2, Bool.false_eq_true, if_false] at h
      split at h
      · exact ih _ _ _ _ (ok.suffix (List.dropWhile_suffix isWs)) h
      · rename_i hw
        split at h
        · split at h
          · simp only [Except.ok.injEq] at h; subst h
            exact noLead_cons (by simpa using hw)
          · split at h
            · obtain ⟨x, h1, h2⟩ := bind_ok.1 h
              exact ih _ _ _ _ (ok.suffix (exec_suffix C h1)) h2
            · obtain ⟨x, h1, h2⟩ := bind_ok.1 h
              exact ih _ _ _ _ (ok.suffix (exec_suffix C h1)) h2
        · split at h
          · rw [consumeTrailing_plain ctx okt] at h
            exact ih _ _ _ _ okt h
          · split at h
            · exact ih _ _ _ _ okt h
            · simp at h

theorem flow_sim (up up' : Bool) (ts us : List Token) (r : Node × List Token) (hl : NoLead ts) (hl' : NoLead us)
    (ok : ListOk ts) (ok' : ListOk us) (hal : Alike ts us)
    (h : step ctx (exec ctx n) .flow up ts = .ok r) : Concl ctx (fun rec => rec .flow up' us) r := by
  refine Concl.step ?_
  cases ts with
  | nil => simp [step, flowIter] at h
  | cons t ts =>
    obtain ⟨u, us, rfl, hu, hc, hal'⟩ := alike_cons (hl _ _ rfl) ok ok' hl' hal
    simp only [step, flowIter] at h ⊢
    simp only [← canon_upper hc]
    split at h
    · rename_i hi
      simp only [hi, if_true]
      exact H _ _ _ false _ _ _ h (.ifLoop _ _ hl hl' rfl) ok ok' hal (Or.inl rfl)
    · rename_i hi
      simp only [hi, if_false]
      obtain ⟨o, h1, h2⟩ := bind_ok.1 h
      obtain ⟨b, h3, h4⟩ := bind_ok.1 h2
      obtain ⟨c, h5, h6⟩ := bind_ok.1 h4
      simp only [pure_ok] at h6; subst h6
      have oko := ok.suffix (exec_suffix C h1)
      have okb := oko.suffix (exec_suffix C h3)
      refine Concl.bind C (H _ _ _ false _ _ _ h1 (.statement hl hl') ok ok' hal (Or.inl rfl)) ?_
      intro o' ho halo hso _
      have oko' := ok'.suffix hso
      refine Concl.bind C (H _ _ _ false _ _ _ h3 (.body _ _ _ rfl) oko oko' halo (Or.inl rfl)) ?_
      intro b' hb halb hsb ⟨m, hm⟩
      refine Concl.bind C (H _ _ _ false _ _ _ h5 (.statement (body_lead C n _ _ _ _ _ oko h3)
        (body_lead C m _ _ _ _ _ oko' hm)) okb (oko'.suffix hsb) halb (Or.inl rfl)) ?_
      intro c' hc' halc _ _
      refine Concl.stop' ?_ halc
      rw [bare_mk, bare_mk]
      congr 1
      show bareL ([o.1] ++ [b.1] ++ [c.1]) = bareL ([o'.1] ++ [b'.1] ++ [c'.1])
      simp only [bareL_append, bareL_one ho, bareL_one hb, bareL_one hc']

theorem ifLoop_sim (acc acc' : List Node) (up up' : Bool) (ts us : List Token) (r : Node × List Token) (hl : NoLead ts)
    (hl' : NoLead us) (hacc : bareL acc = bareL acc') (ok : ListOk ts) (ok' : ListOk us) (hal : Alike ts us)
    (h : step ctx (exec ctx n) (.ifLoop acc) up ts = .ok r) : Concl ctx (fun rec => rec (.ifLoop acc') up' us) r := by
  refine Concl.step ?_
  cases ts with
  | nil =>
    have := alike_nil hal ok' hl'
    subst this
    simp only [step, ifIter, Except.ok.injEq] at h ⊢
    subst h
    exact Concl.stop (by simp [hacc]) hal
  | cons t ts =>
    obtain ⟨u, us, rfl, hu, hc, hal'⟩ := alike_cons (hl _ _ rfl) ok ok' hl' hal
    simp only [step, ifIter] at h ⊢
    simp only [← canon_upper hc]
    split at h
    · rename_i hi
      simp only [hi, if_true]
      obtain ⟨o, h1, h2⟩ := bind_ok.1 h
      simp only [pure_ok] at h2; subst h2
      refine Concl.bind C (H _ _ _ false _ _ _ h1 (.statement hl hl') ok ok' hal (Or.inl rfl)) ?_
      intro o' ho halo _ _
      refine Concl.stop' ?_ halo
      rw [bare_mk, bare_mk, bareL_snoc hacc ho]
    · rename_i hi
      simp only [hi, if_false]
      obtain ⟨o, h1, h2⟩ := bind_ok.1 h
      obtain ⟨b, h3, h4⟩ := bind_ok.1 h2
      have oko := ok.suffix (exec_suffix C h1)
      have okb := oko.suffix (exec_suffix C h3)
      refine Concl.bind C (H _ _ _ false _ _ _ h1 (.statement hl hl') ok ok' hal (Or.inl rfl)) ?_
      intro o' ho halo hso _
      have oko' := ok'.suffix hso
      refine Concl.bind C (H _ _ _ false _ _ _ h3 (.body _ _ _ rfl) oko oko' halo (Or.inl rfl)) ?_
      intro b' hb halb hsb ⟨m, hm⟩
      refine H _ _ _ false _ _ _ h4 (.ifLoop _ _ (body_lead C n _ _ _ _ _ oko h3)
        (body_lead C m _ _ _ _ _ oko' hm) ?_) okb (oko'.suffix hsb) halb (Or.inl rfl)
      show bareL (acc ++ ([o.1] ++ [b.1])) = bareL (acc' ++ ([o'.1] ++ [b'.1]))
      simp only [bareL_append, hacc, bareL_one ho, bareL_one hb]

omit C H in
theorem bareL_blanks {acc : List Node} {ts : List Node} : bareL (acc ++ [mk .whitespace ts]) = bareL acc := by
  rw [bareL_append, bareL_cons]
  simp [blankNode, mk]

omit C H in
/-- Blanks before a body may be skipped. -/
theorem body_skip (bs : List Str) (acc : List Node) (us : List Token) (ok : ListOk us) {r : Node × List Token} {up' : Bool}
    (h : ∀ acc2, bareL acc2 = bareL acc → ∀ up, Concl ctx (fun rec => rec (.body bs acc2) up (us.dropWhile isWs)) r) :
    Concl ctx (fun rec => rec (.body bs acc) up' us) r := by
  cases us with
  | nil => exact h acc rfl up'
  | cons u us =>
    cases hw : isWs u with
    | false =>
      have := h acc rfl up'
      rwa [List.dropWhile_cons_of_neg (by simp [hw])] at this
    | true =>
      refine Concl.step ?_
      simp only [step, bodyIter, hw, if_true]
      exact h _ bareL_blanks false

theorem body_sim (bs : List Str) (acc acc' : List Node) (up up' : Bool) (ts us : List Token) (r : Node × List Token)
    (hacc : bareL acc = bareL acc') (ok : ListOk ts) (ok' : ListOk us) (hal : Alike ts us)
    (h : step ctx (exec ctx n) (.body bs acc) up ts = .ok r) : Concl ctx (fun rec => rec (.body bs acc') up' us) r := by
  by_cases hsp : ∃ t ts', ts = t :: ts' ∧ isWs t = true
  · obtain ⟨t, ts', rfl, hw⟩ := hsp
    simp only [step, bodyIter, hw, if_true] at h
    refine H _ _ _ up' _ _ _ h (.body _ _ _ (by rw [bareL_blanks, hacc])) (ok.suffix (List.dropWhile_suffix isWs)) ok' ?_
      (Or.inl rfl)
    simp only [Alike, semantics_dropWs]; exact hal
  · refine body_skip bs acc' us ok' fun acc2 hacc2 up2 => Concl.step ?_
    have okd' := ok'.suffix (List.dropWhile_suffix isWs)
    have hald : Alike ts (us.dropWhile isWs) := by simp only [Alike, semantics_dropWs]; exact hal
    cases ts with
    | nil =>
      rw [alike_nil hald okd' (noLead_drop us)]
      simp only [step, bodyIter, Except.ok.injEq] at h ⊢
      subst h
      exact Concl.stop (by simp [hacc, hacc2]) rfl
    | cons t ts =>
      have hw : isWs t = false := by
        cases e : isWs t with
        | false => rfl
        | true => exact absurd ⟨t, ts, rfl, e⟩ hsp
      obtain ⟨u, us1, e, hu, hc, hal'⟩ := alike_cons hw ok okd' (noLead_drop us) hald
      rw [e] at okd' ⊢
      have L : Lock t u ts us1 := Lock.mk' hw hu hc hal' ok okd'
      have hacc' : bareL acc = bareL acc2 := by rw [hacc, hacc2]
      simp only [step, bodyIter, L.wt, L.ct, L.ot, Bool.false_eq_true, if_false, L.trail] at h
      simp only [step, bodyIter, L.wu, L.cu, L.ou, Bool.false_eq_true, if_false, L.trail', ← canon_type hc, ← canon_upper hc]
      split at h
      · rename_i h1
        simp only [h1, if_true]
        split at h
        · rename_i h2
          simp only [h2, if_true]
          simp only [Except.ok.injEq] at h; subst h
          exact Concl.stop (by simp [hacc']) L.all
        · rename_i h2
          simp only [h2, if_false, Bool.false_eq_true]
          split at h
          · rename_i h3
            simp only [h3, if_true]
            obtain ⟨x, h4, h5⟩ := bind_ok.1 h
            refine Concl.bind C (H _ _ _ false _ _ _ h4 (.flow L.lead L.lead') L.ok L.ok' L.all (Or.inl rfl)) ?_
            intro y hy haly hsy _
            exact H _ _ _ false _ _ _ h5 (.body _ _ _ (bareL_snoc hacc' hy)) (L.ok.suffix (exec_suffix C h4))
              (L.ok'.suffix hsy) haly (Or.inl rfl)
          · rename_i h3
            simp only [h3, if_false, Bool.false_eq_true]
            obtain ⟨x, h4, h5⟩ := bind_ok.1 h
            refine Concl.bind C (H _ _ _ false _ _ _ h4 (.statement L.lead L.lead') L.ok L.ok' L.all (Or.inl rfl)) ?_
            intro y hy haly hsy _
            exact H _ _ _ false _ _ _ h5 (.body _ _ _ (bareL_snoc hacc' hy)) (L.ok.suffix (exec_suffix C h4))
              (L.ok'.suffix hsy) haly (Or.inl rfl)
      · rename_i h1
        simp only [h1, if_false, Bool.false_eq_true]
        split at h
        · rename_i h2
          simp only [h2, if_true]
          refine H _ _ _ false _ _ _ h (.body _ _ _ (bareL_snoc hacc' ?_)) L.okt L.okt' L.tail (Or.inl rfl)
          rw [bare_mk, bare_mk, bareL_one (L.leaf .atword)]
        · have := L.ok.nobom t (by simp)
          have hbom : (t.type == .bom) = false := by simpa using this
          simp [hbom] at h

/-! ## All jobs -/

omit H in
/-- Every job does the same on lists that are alike. -/
theorem sim_all (n : Nat) : SimAt ctx n := by
  induction n with
  | zero => intro job job' up up' ts us r h; simp [exec] at h
  | succ n H =>
    intro job job' up up' ts us r h hj ok ok' hal hor
    have h' : step ctx (exec ctx n) job up ts = .ok r := h
    have hts : HasSem r.2 → HasSem ts := fun hs => hs.suffix (exec_suffix C h)
    cases hj with
    | arg many p brk hg hb hm =>
      have hs : HasSem r.2 := hor.resolve_left (by simp [Job.top])
      exact arg_sim C H _ _ _ _ _ _ _ _ hg hb hm ok ok' hal h' hs (hts hs)
    | stdLoop cmd specs dflt kwargs brk kbrk acc acc' hk hg hf hb hkb hacc =>
      have hs : HasSem r.2 := hor.resolve_left (by simp [Job.top])
      exact stdLoop_sim C H _ _ _ _ _ _ _ _ _ _ _ _ _ hk hg hf hb hkb hacc ok ok' hal h' hs (hts hs)
    | pos spec brk hb =>
      have hs : HasSem r.2 := hor.resolve_left (by simp [Job.top])
      exact pos_sim H _ _ _ _ _ _ _ hb ok ok' hal h' hs
    | posLoop spec brk so acc acc' k hb hacc =>
      have hs : HasSem r.2 := hor.resolve_left (by simp [Job.top])
      exact posLoop_sim C H _ _ _ _ _ _ _ _ _ _ _ hb hacc ok ok' hal h' hs (hts hs)
    | kwGroup word p brk hg hb hl hl' =>
      have hs : HasSem r.2 := hor.resolve_left (by simp [Job.top])
      exact kwGroup_sim C H _ _ _ _ _ _ _ _ hg hb hl hl' ok ok' hal h' hs
    | paren hl hl' =>
      have hs : HasSem r.2 := hor.resolve_left (by simp [Job.top])
      exact paren_sim C H _ _ _ _ _ hl hl' ok ok' hal h' hs
    | condLoop brk acc acc' hb hacc =>
      have hs : HasSem r.2 := hor.resolve_left (by simp [Job.top])
      exact condLoop_sim C H _ _ _ _ _ _ _ _ hb hacc ok ok' hal h' hs (hts hs)
    | tupleLoop npargs ntup flags brk acc acc' grp grp' after after' np nt hb ha hg hf =>
      have hs : HasSem r.2 := hor.resolve_left (by simp [Job.top])
      exact tupleLoop_sim C H _ _ _ _ _ _ _ _ _ _ _ _ _ _ _ _ _ hb ha hg hf ok ok' hal h' hs (hts hs)
    | flagLoop flags brk acc acc' hb hacc =>
      have hs : HasSem r.2 := hor.resolve_left (by simp [Job.top])
      exact flagLoop_sim H _ _ _ _ _ _ _ _ _ hb hacc ok ok' hal h' hs (hts hs)
    | setLoop v v' brk acc acc' hb hacc hvn =>
      have hs : HasSem r.2 := hor.resolve_left (by simp [Job.top])
      exact setLoop_sim C H _ _ _ _ _ _ _ _ _ _ hb hvn hacc ok ok' hal h' hs (hts hs)
    | emptyLoop brk acc acc' hb hacc =>
      have hs : HasSem r.2 := hor.resolve_left (by simp [Job.top])
      exact emptyLoop_sim C H _ _ _ _ _ _ _ _ hb hacc ok ok' hal h' hs (hts hs)
    | foreachInLoop brk acc acc' hb hacc =>
      have hs : HasSem r.2 := hor.resolve_left (by simp [Job.top])
      exact foreachInLoop_sim C H _ _ _ _ _ _ _ _ hb hacc ok ok' hal h' hs (hts hs)
    | srcLoop lib brk state a b c before before' parg parg' src src' after after' hb h1 h2 h3 h4 =>
      have hs : HasSem r.2 := hor.resolve_left (by simp [Job.top])
      exact srcLoop_sim H _ _ _ _ _ _ _ _ _ _ _ _ _ _ _ _ _ _ _ hb h1 h2 h3 h4 ok ok' hal h' hs (hts hs)
    | objLoop brk acc acc' hb hacc =>
      have hs : HasSem r.2 := hor.resolve_left (by simp [Job.top])
      exact objLoop_sim C H _ _ _ _ _ _ _ _ hb hacc ok ok' hal h' hs (hts hs)
    | targetLoop state brk acc acc' hb hacc =>
      have hs : HasSem r.2 := hor.resolve_left (by simp [Job.top])
      exact targetLoop_sim C H _ _ _ _ _ _ _ _ _ hb hacc ok ok' hal h' hs (hts hs)
    | installLoop brk acc acc' hb hacc =>
      have hs : HasSem r.2 := hor.resolve_left (by simp [Job.top])
      exact installLoop_sim C H _ _ _ _ _ _ _ _ hb hacc ok ok' hal h' hs (hts hs)
    | statement hl hl' => exact statement_sim C H _ _ _ _ _ hl hl' ok ok' hal h'
    | flow hl hl' => exact flow_sim C H _ _ _ _ _ hl hl' ok ok' hal h'
    | ifLoop acc acc' hl hl' hacc => exact ifLoop_sim C H _ _ _ _ _ _ _ hl hl' hacc ok ok' hal h'
    | body bs acc acc' hacc => exact body_sim C H _ _ _ _ _ _ _ _ hacc ok ok' hal h'

omit H in
/-- The whole parser. -/
theorem parse_alike {ts us : List Token} {tree : Node} (ok : ListOk ts) (ok' : ListOk us) (hal : Alike ts us)
    (hfuel : ∀ m, 12 * us.length + 12 ≤ m → parseN ctx m us = parse ctx us) (h : parse ctx ts = .ok tree) :
    ∃ tree', parse ctx us = .ok tree' ∧ bare tree = bare tree' := by
  simp only [parse, parseN] at h
  split at h
  · simp at h
  · rename_i x rest hx
    simp only [Except.ok.injEq] at h; subst h
    obtain ⟨r', ⟨m, hm⟩, h1, _⟩ := sim_all C _ (.body [] []) (.body [] []) false false ts us _ hx (.body _ _ _ rfl) ok ok'
      hal (Or.inl rfl)
    refine ⟨r'.1, ?_, h1⟩
    rw [← hfuel (max m (12 * us.length + 12)) (by omega)]
    have := hm (max m (12 * us.length + 12)) (by omega)
    simp only at this
    simp only [parseN, this]

end
end Verif.Parse
