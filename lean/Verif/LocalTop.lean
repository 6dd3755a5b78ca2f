import Verif.LocalJobs

/-!
# What follows a command does not matter: commands, blocks and files (lemmas for C68)
-/

namespace Verif.Parse
open Verif Py Lex

/-- The parser of every command in the list decides the same in front of `m` and `m'`. -/
def Looks (ctx : Ctx) (m m' x : List Token) : Prop :=
  ∀ c t w l y, x = c ++ t :: (w ++ l :: y) → (∀ a ∈ w, isWs a = true) → l.type = .lparen → HasSem y →
    JobLoc m m' (.arg (lookupParser ctx t.spelling) [.paren]) (y.dropWhile isWs)

theorem Looks.suffix {ctx : Ctx} {m m' x y : List Token} (h : Looks ctx m m' x) (s : y <:+ x) : Looks ctx m m' y := by
  obtain ⟨d, rfl⟩ := s
  intro c t w l z e
  exact h (d ++ c) t w l z (by rw [e]; simp)

theorem consumeComment_sem (t : Token) (y : List Token) (h : isAnyComment t = true) :
    semantics (consumeComment t y).2 = semantics y := by
  have h1 := consumeComment_splits t y
  have h2 := consumeComment_noText t y h
  have h3 : semantics (consumeComment t y).1.toks = [] := by
    rw [semantics, List.filter_eq_nil_iff]
    intro a ha
    rcases h2 a ha with e | e <;> simp [isSemantic, e]
  have h4 : isSemantic t = false := by simp [isSemantic, h]
  have h5 : semantics (t :: y) = semantics y := by simp [semantics, h4]
  rw [← h5, ← h1, semantics_append, h3, List.nil_append]

/-- The tail of a command. -/
theorem stmtTail_cut {m : List Token} : ∀ (j : Nat) {y : List Token} {k k' : Nat}, y.length ≤ j → HasSem y →
    y.length ≤ k → y.length ≤ k' →
    stmtTail k (y ++ m) = (stmtTail k' y).map fun r => (r.1, r.2 ++ m)
  | 0, y, _, _, hj, hs, _, _ => by
    cases y with
    | nil => exact absurd rfl hs
    | cons t y => simp at hj
  | j + 1, [], _, _, _, hs, _, _ => absurd rfl hs
  | j + 1, t :: y, k, k', hj, hs, hk, hk' => by
    simp only [List.length_cons] at hj hk hk'
    obtain ⟨k, rfl⟩ : ∃ i, k = i + 1 := ⟨k - 1, by omega⟩
    obtain ⟨k', rfl⟩ : ∃ i, k' = i + 1 := ⟨k' - 1, by omega⟩
    simp only [stmtTail, List.cons_append]
    split
    · rfl
    · split
      · rename_i hw
        have hn : isSemantic t = false := by
          cases e : isSemantic t with
          | false => rfl
          | true => rw [sem_ws e] at hw; exact absurd hw (by simp)
        rw [stmtTail_cut j (m := m) (k := k) (k' := k') (by omega) (hasSem_tail hs hn) (by omega) (by omega)]
        cases stmtTail k' y <;> rfl
      · split
        · rename_i hcm
          have hn := ok_comment t hcm
          have hy := hasSem_tail hs hn
          have hany : isAnyComment t = true := by
            simp only [isComment, beq_iff_eq] at hcm
            simp [isAnyComment, hcm]
          have hl := consumeComment_le t y hany
          rw [consumeComment_cut (Or.inl hy)]
          simp only
          have hs2 : HasSem (consumeComment t y).2 := by
            have := consumeComment_sem t y hany
            simpa only [HasSem, this] using hy
          rw [stmtTail_cut j (m := m) (k := k) (k' := k') (by omega) hs2 (by omega) (by omega)]
          cases stmtTail k' (consumeComment t y).2 <;> rfl
        · rfl

/-- A node whose last child is a command. -/
def Ends (n : Node) : Prop := ∃ ty a cs b c, n = .node ty a (cs ++ [.node .statement b c])

theorem over {m b r x : List Token} (h1 : b ++ m <:+ r) (h2 : r <:+ x ++ m) : ∃ y, r = y ++ m ∧ y <:+ x := by
  obtain ⟨c, rfl⟩ := h1
  refine ⟨c ++ b, by simp, ?_⟩
  obtain ⟨d, h2⟩ := h2
  refine ⟨d, ?_⟩
  rw [← List.append_assoc, ← List.append_assoc, List.append_cancel_right_eq] at h2
  rw [← h2]; simp

/-- The block that a body job returns, and where it stops. -/
theorem body_out {ctx : Ctx} : ∀ (n : Nat) {bs : List Str} {acc : List Node} {up : Bool} {ts : List Token} {nd : Node} {rest : List Token},
    exec ctx n (.body bs acc) up ts = .ok (nd, rest) →
    (∃ cs, nd = mk .body (acc ++ cs)) ∧ (rest = [] ∨ ∃ t r, rest = t :: r ∧ t.type = .word ∧ bs.contains (upper t.spelling) = true)
  | 0, _, _, _, _, _, _, h => by simp [exec] at h
  | n + 1, bs, acc, up, ts, nd, rest, h => by
    have next : ∀ {up : Bool} {ts : List Token} {k : List Node}, exec ctx n (.body bs (acc ++ k)) up ts = .ok (nd, rest) →
        (∃ cs, nd = mk .body (acc ++ cs)) ∧ (rest = [] ∨ ∃ t r, rest = t :: r ∧ t.type = .word ∧ bs.contains (upper t.spelling) = true) := by
      intro up ts k h
      obtain ⟨⟨cs, h1⟩, h2⟩ := body_out n h
      exact ⟨⟨k ++ cs, by rw [h1, List.append_assoc]⟩, h2⟩
    change bodyIter ctx (exec ctx n) bs acc ts = _ at h
    cases ts with
    | nil =>
      simp only [bodyIter, Except.ok.injEq, Prod.mk.injEq] at h
      exact ⟨⟨[], by simp [h.1]⟩, Or.inl h.2.symm⟩
    | cons t ts =>
      simp only [bodyIter] at h
      split at h
      · exact next h
      · split at h
        · exact next h
        · split at h
          · exact next h
          · split at h
            · rename_i hw
              split at h
              · rename_i hbs
                simp only [Except.ok.injEq, Prod.mk.injEq] at h
                exact ⟨⟨[], by simp [h.1]⟩, Or.inr ⟨t, ts, h.2.symm, by simpa using hw, hbs⟩⟩
              · split at h
                · obtain ⟨⟨sub, r⟩, h1, h⟩ := bind_ok.1 h
                  exact next h
                · obtain ⟨⟨sub, r⟩, h1, h⟩ := bind_ok.1 h
                  exact next h
            · split at h
              · exact next h
              · split at h
                · obtain ⟨⟨cs, h1⟩, h2⟩ := body_out n h
                  exact ⟨⟨cs, h1⟩, h2⟩
                · simp at h

section
variable {ctx : Ctx} (hc : ∀ name, Flat (lookupParser ctx name)) {m m' : List Token} (hm : Seam m) (hm' : Seam m')
include hc hm hm'

/-- A command. -/
theorem stmt_loc {n : Nat} {x b : List Token} {nd : Node} (hl : Looks ctx m m' x)
    (h : stmtIter ctx (exec ctx n) (x ++ m) = .ok (nd, b ++ m)) :
    stmtIter ctx (exec ctx n) (x ++ m') = .ok (nd, b ++ m') := by
  cases ex : x ++ m with
  | nil => rw [ex] at h; simp [stmtIter] at h
  | cons t ts =>
    rw [ex] at h
    simp only [stmtIter] at h
    cases ed : ts.dropWhile isWs with
    | nil => rw [ed] at h; simp at h
    | cons l ts1 =>
      rw [ed] at h
      simp only at h
      split at h
      · simp at h
      · rename_i hlp
        have hlp : l.type = .lparen := by simpa using hlp
        obtain ⟨⟨sub, rest⟩, h1, h⟩ := bind_ok.1 h
        simp only at h
        obtain ⟨⟨tail, rest1⟩, h2, h⟩ := bind_ok.1 h
        simp only at h
        cases rest1 with
        | nil => simp at h
        | cons r rest2 =>
          simp only at h
          have h := pure_ok.1 h
          simp only [Prod.mk.injEq] at h
          obtain ⟨hnd, hb⟩ := h
          have s3 : b ++ m <:+ rest2 := hb ▸ trailing_suffix ctx rest2
          have s2 : r :: rest2 <:+ rest := ⟨toksL tail, stmtTail_splits _ _ _ _ h2⟩
          have s1 : rest <:+ ts1.dropWhile isWs := suf hc h1
          have s0 : ts1.dropWhile isWs <:+ ts1 := dropWs_suffix ts1
          have sl : l :: ts1 <:+ ts := ed ▸ dropWs_suffix ts
          have hr : r.type = .rparen := (stmtTail_noText _ _ _ _ h2).2 (Nat.le_refl _) r rest2 rfl
          have hrs : isSemantic r = true := by simp [isSemantic, isWs, isAnyComment, isOnOff, hr]
          obtain ⟨c, rfl⟩ : ∃ c, rest2 = c ++ m := by
            obtain ⟨d, e⟩ := s3; exact ⟨d ++ b, by rw [← e]; simp⟩
          have hrc : HasSem (r :: c) := by simp [HasSem, semantics, hrs]
          have big : r :: (c ++ m) <:+ ts1.dropWhile isWs := s2.trans s1
          cases x with
          | nil =>
            exfalso
            simp only [List.nil_append] at ex
            have := (big.trans (s0.trans ((List.suffix_cons l ts1).trans sl))).length_le
            rw [ex] at this
            simp only [List.length_cons, List.length_append] at this
            omega
          | cons t' x =>
            simp only [List.cons_append, List.cons.injEq] at ex
            obtain ⟨rfl, rfl⟩ := ex
            obtain ⟨d1, e1⟩ := big.trans s0
            have e1 : ts1 = (d1 ++ r :: c) ++ m := by rw [← e1]; simp
            have hy1 : HasSem (d1 ++ r :: c) := hrc.suffix ⟨d1, rfl⟩
            generalize d1 ++ r :: c = y1 at e1 hy1
            subst e1
            have hsx : l :: y1 <:+ x := by
              obtain ⟨d2, e2⟩ := sl
              refine ⟨d2, ?_⟩
              have : d2 ++ l :: y1 ++ m = x ++ m := by rw [← e2]; simp
              exact List.append_cancel_right this
            have hx : HasSem x := (hy1.suffix (List.suffix_cons l y1)).suffix hsx
            have w1 := ws_cut (x := x) (m := m) (Or.inl hx)
            have w2 := ws_cut (x := x) (m := m') (Or.inl hx)
            have v1 := ws_cut (x := y1) (m := m) (Or.inl hy1)
            have v2 := ws_cut (x := y1) (m := m') (Or.inl hy1)
            have edx : x.dropWhile isWs = l :: y1 := by
              rw [w1.2] at ed
              exact List.append_cancel_right (by rw [ed]; rfl)
            have hdy : HasSem (y1.dropWhile isWs) := by simpa only [HasSem, semantics_dropWs] using hy1
            have hj := hl [] t' (x.takeWhile isWs) l y1 (by
              rw [← edx, List.takeWhile_append_dropWhile]; rfl) (fun a ha => mem_takeWs ha) hlp hy1
            rw [v1.2] at h1 big s1
            obtain ⟨y2, rfl, hy2, hs2⟩ := between (b := r :: c) s2 s1 hrc
            have h1' := args_loc hc (m := m) (m' := m') n _ false _ hj sub y2 h1 hs2
            have h2a := stmtTail_cut (m := m) y2.length (k := (y2 ++ m).length) (Nat.le_refl _) hs2 (by simp) (Nat.le_refl _)
            have h2b := stmtTail_cut (m := m') y2.length (k := (y2 ++ m').length) (Nat.le_refl _) hs2 (by simp) (Nat.le_refl _)
            rw [h2a] at h2
            obtain ⟨q, h2c, h2d⟩ : ∃ q, stmtTail y2.length y2 = .ok q ∧ (q.1, q.2 ++ m) = (tail, r :: (c ++ m)) := by
              cases e : stmtTail y2.length y2 with
              | error _ => rw [e] at h2; simp [Except.map] at h2
              | ok q => rw [e] at h2; exact ⟨q, rfl, by simpa [Except.map] using h2⟩
            simp only [Prod.mk.injEq] at h2d
            have hq2 : q.2 = r :: c := List.append_cancel_right (by rw [h2d.2]; rfl)
            have tr1 := consumeTrailing_cut ctx (x := c) (m := m) (Or.inr hm)
            have tr2 := consumeTrailing_cut ctx (x := c) (m := m') (Or.inr hm')
            rw [tr1] at hb hnd
            have hb : (consumeTrailing ctx c).2 = b := List.append_cancel_right hb
            simp only [stmtIter, List.cons_append, w2.1, w2.2, edx, v2.1, v2.2]
            rw [if_neg (by simpa using hlp), h1', okBind]
            simp only
            rw [h2b, h2c]
            simp only [Except.map, okBind, hq2, List.cons_append, tr2]
            rw [← hnd, w1.1, v1.1, hb, h2d.1]
            rfl

omit hm hm' in
theorem eat_stmt {n : Nat} {up : Bool} {ts : List Token} {r : Node × List Token} (h : exec ctx n .statement up ts = .ok r) :
    r.2.length < ts.length := by
  have := exec_sat hc n .statement up ts
  rw [h] at this
  exact this.2 trivial

omit hm hm' in
theorem eat_if {n : Nat} {acc : List Node} {up : Bool} {ts : List Token} {r : Node × List Token} (h : exec ctx n (.ifLoop acc) up ts = .ok r)
    (hn : ts ≠ []) : r.2.length < ts.length := by
  have := exec_sat hc n (.ifLoop acc) up ts
  rw [h] at this
  exact this.2 hn

theorem exec_stmt_loc (n : Nat) {up : Bool} {x b : List Token} {nd : Node} (hl : Looks ctx m m' x)
    (h : exec ctx n .statement up (x ++ m) = .ok (nd, b ++ m)) :
    exec ctx n .statement up (x ++ m') = .ok (nd, b ++ m') := by
  cases n with
  | zero => simp [exec] at h
  | succ n => exact stmt_loc hc hm hm' hl h

/-- Blocks. -/
theorem blocks_loc (n : Nat) :
    (∀ up x nd b, Looks ctx m m' x → exec ctx n .flow up (x ++ m) = .ok (nd, b ++ m) → (HasSem b ∨ Ends nd) →
      exec ctx n .flow up (x ++ m') = .ok (nd, b ++ m')) ∧
    (∀ acc up x nd b, Looks ctx m m' x → ¬ Ends (mk .flowControl acc) →
      exec ctx n (.ifLoop acc) up (x ++ m) = .ok (nd, b ++ m) → (HasSem b ∨ Ends nd) →
      exec ctx n (.ifLoop acc) up (x ++ m') = .ok (nd, b ++ m')) ∧
    (∀ bs acc up x, Looks ctx m m' x → L m m' (exec ctx n (.body bs acc) up (x ++ m)) (exec ctx n (.body bs acc) up (x ++ m'))) := by
  induction n with
  | zero =>
    refine ⟨?_, ?_, ?_⟩
    · intro up x nd b _ h; simp [exec] at h
    · intro acc up x nd b _ _ h; simp [exec] at h
    · intro bs acc up x _; exact L.error
  | succ n ih =>
    obtain ⟨ihf, ihi, ihb⟩ := ih
    have word : ∀ {y : List Token} {bs : List Str} {acc : List Node} {up : Bool} {ts : List Token} {nd : Node},
        exec ctx n (.body bs acc) up ts = .ok (nd, y ++ m) → y ≠ [] → HasSem y := by
      intro y bs acc up ts nd h hy
      cases y with
      | nil => exact absurd rfl hy
      | cons a y =>
        rcases (body_out n h).2 with e | ⟨t, r, e, ht, _⟩
        · simp at e
        · simp only [List.cons_append, List.cons.injEq] at e
          rw [e.1]
          simp [HasSem, semantics, isSemantic, isWs, isAnyComment, isOnOff, ht]
    refine ⟨?_, ?_, ?_⟩
    · intro up x nd b hl h hb
      change flowIter (exec ctx n) (x ++ m) = _ at h
      change flowIter (exec ctx n) (x ++ m') = _
      cases x with
      | nil =>
        exfalso
        have := exec_sat hc (n + 1) .flow up m
        have h : exec ctx (n + 1) .flow up m = .ok (nd, b ++ m) := h
        rw [h] at this
        have := this.2 trivial
        simp only [List.length_append] at this
        omega
      | cons t x =>
        simp only [List.cons_append, flowIter] at h ⊢
        split at h
        · rename_i hif
          rw [if_pos hif]
          exact ihi [] false (t :: x) nd b hl (by rintro ⟨ty, a, cs, p, q, e⟩; simp [mk] at e) h hb
        · rename_i hif
          rw [if_neg hif]
          obtain ⟨⟨o, rest1⟩, h1, h⟩ := bind_ok.1 h
          simp only at h
          obtain ⟨⟨bd, rest2⟩, h2, h⟩ := bind_ok.1 h
          simp only at h
          obtain ⟨⟨c, rest3⟩, h3, h⟩ := bind_ok.1 h
          have h := pure_ok.1 h
          simp only [Prod.mk.injEq] at h
          obtain ⟨rfl, rfl⟩ := h
          have s3 := suf hc h3
          have s2 := suf hc h2
          have s1 := suf hc h1
          obtain ⟨y1, rfl, hy1⟩ := over (m := m) (x := t :: x) (s3.trans s2) s1
          obtain ⟨y2, rfl, hy2⟩ := over (m := m) s3 s2
          have ne : y2 ≠ [] := by
            rintro rfl
            have := eat_stmt hc h3
            simp only [List.length_append, List.length_nil] at this
            omega
          have g1 := exec_stmt_loc hc hm hm' n (x := t :: x) hl h1
          rw [List.cons_append] at g1
          have g2 := ihb _ _ _ y1 (hl.suffix hy1) _ y2 h2 (word h2 ne)
          have g3 := exec_stmt_loc hc hm hm' n (x := y2) ((hl.suffix hy1).suffix hy2) h3
          rw [g1, okBind]; simp only
          rw [g2, okBind]; simp only
          rw [g3, okBind]; rfl
    · intro acc up x nd b hl hacc h hb
      cases x with
      | nil =>
        exfalso
        simp only [List.nil_append] at h
        by_cases hme : m = []
        · subst hme
          change ifIter (exec ctx n) acc [] = _ at h
          simp only [ifIter, Except.ok.injEq, Prod.mk.injEq, List.append_nil] at h
          obtain ⟨rfl, rfl⟩ := h
          rcases hb with hb | hb
          · exact hb rfl
          · exact hacc hb
        · have := eat_if hc h hme
          simp only [List.length_append] at this
          omega
      | cons t x =>
        change ifIter (exec ctx n) acc (t :: (x ++ m)) = _ at h
        change ifIter (exec ctx n) acc (t :: (x ++ m')) = _
        simp only [ifIter] at h ⊢
        split at h
        · rename_i hif
          rw [if_pos hif]
          obtain ⟨⟨c, rest⟩, h1, h⟩ := bind_ok.1 h
          have h := pure_ok.1 h
          simp only [Prod.mk.injEq] at h
          obtain ⟨rfl, rfl⟩ := h
          have g1 := exec_stmt_loc hc hm hm' n (x := t :: x) hl h1
          rw [List.cons_append] at g1
          rw [g1, okBind]; rfl
        · rename_i hif
          rw [if_neg hif]
          obtain ⟨⟨o, rest1⟩, h1, h⟩ := bind_ok.1 h
          simp only at h
          obtain ⟨⟨bd, rest2⟩, h2, h⟩ := bind_ok.1 h
          simp only at h
          have s3 := suf hc h
          have s2 := suf hc h2
          have s1 := suf hc h1
          obtain ⟨y1, rfl, hy1⟩ := over (m := m) (x := t :: x) (s3.trans s2) s1
          obtain ⟨y2, rfl, hy2⟩ := over (m := m) s3 s2
          have nb : ¬ Ends (mk .flowControl (acc ++ [o, bd])) := by
            rintro ⟨ty, a, cs, p, q, e⟩
            obtain ⟨⟨ks, hk⟩, _⟩ := body_out n h2
            simp only [mk, Node.node.injEq] at e
            have e2 := congrArg List.getLast? e.2.2
            rw [hk] at e2
            simp [mk] at e2
          have ne : y2 ≠ [] := by
            rintro rfl
            simp only [List.nil_append] at h
            by_cases hme : m = []
            · subst hme
              have h0 : n ≠ 0 := by rintro rfl; simp [exec] at h
              obtain ⟨k, rfl⟩ := Nat.exists_eq_succ_of_ne_zero h0
              change ifIter (exec ctx k) _ [] = _ at h
              simp only [ifIter, Except.ok.injEq, Prod.mk.injEq, List.append_nil] at h
              obtain ⟨rfl, rfl⟩ := h
              rcases hb with hb | hb
              · exact hb rfl
              · exact nb hb
            · have := eat_if hc h hme
              simp only [List.length_append] at this
              omega
          have g1 := exec_stmt_loc hc hm hm' n (x := t :: x) hl h1
          rw [List.cons_append] at g1
          have g2 := ihb _ _ _ y1 (hl.suffix hy1) _ y2 h2 (word h2 ne)
          have g3 := ihi _ false y2 nd b ((hl.suffix hy1).suffix hy2) nb h hb
          rw [g1, okBind]; simp only
          rw [g2, okBind]; exact g3
    · intro bs acc up x hl
      refine L.sem (x := x) (fun r h => suf hc h) fun hx => ?_
      show L m m' (bodyIter ctx (exec ctx n) bs acc (x ++ m)) (bodyIter ctx (exec ctx n) bs acc (x ++ m'))
      cases x with
      | nil => exact absurd rfl hx
      | cons t x =>
        have w1 := ws_cut (x := t :: x) (m := m) (Or.inl hx)
        have w2 := ws_cut (x := t :: x) (m := m') (Or.inl hx)
        simp only [List.cons_append] at w1 w2
        simp only [List.cons_append, bodyIter, w1.1, w1.2, w2.1, w2.2]
        refine L.ite Iff.rfl (fun _ => ?_) fun hnw => ?_
        · exact ihb _ _ _ _ (hl.suffix (dropWs_suffix _))
        refine L.ite Iff.rfl (fun hcm => ?_) fun hcm => ?_
        · have hn : isSemantic t = false := by simp [isSemantic, hcm]
          have hx' := hasSem_tail hx hn
          rw [consumeComment_cut (m := m) (Or.inl hx'), consumeComment_cut (m := m') (Or.inl hx')]
          refine ihb _ _ _ _ (hl.suffix ?_)
          exact ⟨_, consumeComment_splits t x⟩
        refine L.ite Iff.rfl (fun hoo => ?_) fun hoo => ?_
        · exact ihb _ _ _ _ (hl.suffix (List.suffix_cons _ _))
        refine L.ite Iff.rfl (fun hw => ?_) fun hw => ?_
        · refine L.ite Iff.rfl (fun _ => L.stop (x := t :: x)) fun _ => ?_
          refine L.ite Iff.rfl (fun _ => ?_) fun _ => ?_
          · refine L.bind (x := t :: x) (fun nd b e hb => ihf false (t :: x) nd b hl e (Or.inl hb)) (fun r h => suf hc h)
              (fun r s h => suf hc h) ?_
            intro nd y _ hy _
            exact ihb _ _ _ _ (hl.suffix hy)
          · refine L.bind (x := t :: x) (fun nd b e _ => exec_stmt_loc hc hm hm' n (x := t :: x) hl e) (fun r h => suf hc h)
              (fun r s h => suf hc h) ?_
            intro nd y _ hy _
            exact ihb _ _ _ _ (hl.suffix hy)
        refine L.ite Iff.rfl (fun hat => ?_) fun hat => ?_
        · rw [consumeTrailing_cut ctx (x := x) (m := m) (Or.inr hm), consumeTrailing_cut ctx (x := x) (m := m') (Or.inr hm')]
          exact ihb _ _ _ _ (hl.suffix ((trailing_suffix ctx x).trans (List.suffix_cons _ _)))
        refine L.ite Iff.rfl (fun hbom => ?_) fun hbom => L.error
        exact ihb _ _ _ _ (hl.suffix (List.suffix_cons _ _))
end

theorem if_out {ctx : Ctx} : ∀ (n : Nat) {acc : List Node} {up : Bool} {ts : List Token} {nd : Node} {rest : List Token},
    exec ctx n (.ifLoop acc) up ts = .ok (nd, rest) → ∃ cs, nd = mk .flowControl cs
  | 0, _, _, _, _, _, h => by simp [exec] at h
  | n + 1, acc, up, ts, nd, rest, h => by
    change ifIter (exec ctx n) acc ts = _ at h
    cases ts with
    | nil =>
      simp only [ifIter, Except.ok.injEq, Prod.mk.injEq] at h
      exact ⟨_, h.1.symm⟩
    | cons t ts =>
      simp only [ifIter] at h
      split at h
      · obtain ⟨⟨c, r⟩, h1, h⟩ := bind_ok.1 h
        have h := pure_ok.1 h
        simp only [Prod.mk.injEq] at h
        exact ⟨_, h.1.symm⟩
      · obtain ⟨⟨o, r1⟩, h1, h⟩ := bind_ok.1 h
        simp only at h
        obtain ⟨⟨b, r2⟩, h2, h⟩ := bind_ok.1 h
        exact if_out n h

theorem flow_out {ctx : Ctx} {n : Nat} {up : Bool} {ts : List Token} {nd : Node} {rest : List Token}
    (h : exec ctx n .flow up ts = .ok (nd, rest)) : ∃ cs, nd = mk .flowControl cs := by
  cases n with
  | zero => simp [exec] at h
  | succ n =>
    change flowIter (exec ctx n) ts = _ at h
    cases ts with
    | nil => simp [flowIter] at h
    | cons t ts =>
      simp only [flowIter] at h
      split at h
      · exact if_out n h
      · obtain ⟨⟨o, r1⟩, h1, h⟩ := bind_ok.1 h
        simp only at h
        obtain ⟨⟨b, r2⟩, h2, h⟩ := bind_ok.1 h
        simp only at h
        obtain ⟨⟨c, r3⟩, h3, h⟩ := bind_ok.1 h
        have h := pure_ok.1 h
        simp only [Prod.mk.injEq] at h
        exact ⟨_, h.1.symm⟩

/-- A block is closed by a command. -/
def ClosedFlow (c : Node) : Prop := ∀ a cs, c = .node .flowControl a cs → Ends c

section
variable {ctx : Ctx} (hc : ∀ name, Flat (lookupParser ctx name)) {us : List Token} (hu : Seam us)
include hc hu

/-- A file followed by another one. -/
theorem body_concat : ∀ (n : Nat) {acc : List Node} {up up' : Bool} {x : List Token} {cs : List Node} {rest : List Token}
    {K k : Nat} {r : R}, Looks ctx [] us x →
    exec ctx n (.body [] acc) up x = .ok (mk .body cs, rest) → (∀ c ∈ cs, ClosedFlow c) →
    exec ctx K (.body [] cs) up' us = r → r ≠ .error .fuel → n ≤ k → K + x.length ≤ k →
    exec ctx k (.body [] acc) up (x ++ us) = r
  | 0, _, _, _, _, _, _, _, _, _, _, h, _, _, _, _, _ => by simp [exec] at h
  | n + 1, acc, up, up', x, cs, rest, K, k, r, hl, h, hcl, hus, hr, hnk, hK => by
    obtain ⟨k, rfl⟩ : ∃ i, k = i + 1 := ⟨k - 1, by omega⟩
    change bodyIter ctx (exec ctx n) [] acc x = _ at h
    cases x with
    | nil =>
      simp only [bodyIter, Except.ok.injEq, Prod.mk.injEq, mk, Node.node.injEq, true_and] at h
      obtain ⟨rfl, rfl⟩ := h
      have e := exec_stable (ctx := ctx) (n := K) (m := k + 1) (by simpa using hK) (job := .body [] acc) (up := up') (ts := us)
        (by rw [hus]; exact hr)
      rw [← e] at hus
      exact hus
    | cons t x =>
      change bodyIter ctx (exec ctx k) [] acc (t :: (x ++ us)) = _
      simp only [List.length_cons] at hK
      simp only [bodyIter] at h ⊢
      have w := ws_cut (x := t :: x) (m := us) (Or.inr hu)
      simp only [List.cons_append] at w
      have child : ∀ {job : Job} {sub : Node} {r1 : List Token}, exec ctx n job false (t :: x) = .ok (sub, r1) →
          exec ctx n (.body [] (acc ++ [sub])) false r1 = .ok (mk .body cs, rest) →
          (ClosedFlow sub → exec ctx n job false (t :: (x ++ us)) = .ok (sub, r1 ++ us)) → r1.length ≤ x.length → r1 <:+ t :: x →
          ((exec ctx k job false (t :: (x ++ us))) >>= fun p => exec ctx k (.body [] (acc ++ [p.1])) false p.2) = r := by
        intro job sub r1 h1 h2 h3 hlen hs
        obtain ⟨⟨ks, hk⟩, _⟩ := body_out n h2
        simp only [mk, Node.node.injEq, true_and] at hk
        have hmem : sub ∈ cs := by rw [hk]; simp
        have h3 := h3 (hcl sub hmem)
        have e := exec_stable (ctx := ctx) (n := n) (m := k) (by omega) (job := job) (up := false) (ts := t :: (x ++ us))
          (by rw [h3]; simp)
        rw [e, h3, okBind]
        exact body_concat n (hl.suffix hs) h2 hcl hus hr (by omega) (by omega)
      split at h
      · rename_i hw
        rw [if_pos hw, w.1, w.2]
        refine body_concat n (hl.suffix (dropWs_suffix _)) h hcl hus hr (by omega) ?_
        have : ((t :: x).dropWhile isWs).length ≤ x.length := by
          rw [List.dropWhile_cons_of_pos (by simpa using hw)]
          exact (dropWs_suffix x).length_le
        omega
      · rename_i hw
        rw [if_neg hw]
        split at h
        · rename_i hcm
          rw [if_pos hcm, consumeComment_cut (m := us) (Or.inr hu)]
          have := consumeComment_le t x hcm
          exact body_concat n (hl.suffix ⟨_, consumeComment_splits t x⟩) h hcl hus hr (by omega) (by omega)
        · rename_i hcm
          rw [if_neg hcm]
          split at h
          · rename_i hoo
            rw [if_pos hoo]
            exact body_concat n (hl.suffix (List.suffix_cons _ _)) h hcl hus hr (by omega) (by omega)
          · rename_i hoo
            rw [if_neg hoo]
            split at h
            · rename_i hwd
              rw [if_pos hwd]
              split at h
              · rename_i hbs; simp at hbs
              · rename_i hbs
                rw [if_neg hbs]
                split at h
                · rename_i hfl
                  rw [if_pos hfl]
                  obtain ⟨⟨sub, r1⟩, h1, h⟩ := bind_ok.1 h
                  simp only at h
                  have e1 := exec_sat hc n .flow false (t :: x)
                  rw [h1] at e1
                  have e2 := e1.2 trivial
                  simp only [List.length_cons] at e2
                  refine child h1 h (fun hcs => ?_) (by omega) e1.1
                  obtain ⟨ks, hks⟩ := flow_out h1
                  have := (blocks_loc hc seam_nil hu n).1 false (t :: x) sub r1 hl (by simpa using h1)
                    (Or.inr (hcs _ _ hks))
                  simpa using this
                · rename_i hfl
                  rw [if_neg hfl]
                  obtain ⟨⟨sub, r1⟩, h1, h⟩ := bind_ok.1 h
                  simp only at h
                  have e1 := exec_sat hc n .statement false (t :: x)
                  rw [h1] at e1
                  have e2 := e1.2 trivial
                  simp only [List.length_cons] at e2
                  refine child h1 h (fun _ => ?_) (by omega) e1.1
                  have := exec_stmt_loc hc seam_nil hu n (x := t :: x) (b := r1) (nd := sub) (up := false) hl (by simpa using h1)
                  simpa using this
            · rename_i hwd
              rw [if_neg hwd]
              split at h
              · rename_i hat
                rw [if_pos hat, consumeTrailing_cut ctx (x := x) (m := us) (Or.inr hu)]
                have := (trailing_suffix ctx x).length_le
                exact body_concat n (hl.suffix ((trailing_suffix ctx x).trans (List.suffix_cons _ _))) h hcl hus hr (by omega) (by omega)
              · rename_i hat
                rw [if_neg hat]
                split at h
                · rename_i hbom
                  rw [if_pos hbom]
                  exact body_concat n (hl.suffix (List.suffix_cons _ _)) h hcl hus hr (by omega) (by omega)
                · simp at h
end

/-- A node with more children in front. -/
def prepend (pre : List Node) : Node → Node
  | .node ty a cs => .node ty a (pre ++ cs)
  | .tok t => .tok t

/-- What was read before is only carried along. -/
theorem body_acc {ctx : Ctx} : ∀ (n : Nat) (bs : List Str) (pre acc : List Node) (up : Bool) (ts : List Token),
    exec ctx n (.body bs (pre ++ acc)) up ts = (exec ctx n (.body bs acc) up ts).map fun r => (prepend pre r.1, r.2)
  | 0, _, _, _, _, _ => rfl
  | n + 1, bs, pre, acc, up, ts => by
    have next : ∀ {up : Bool} {ts : List Token} {k : List Node},
        exec ctx n (.body bs (pre ++ acc ++ k)) up ts =
          (exec ctx n (.body bs (acc ++ k)) up ts).map fun r => (prepend pre r.1, r.2) := by
      intro up ts k
      rw [List.append_assoc]
      exact body_acc n ..
    change bodyIter ctx (exec ctx n) bs (pre ++ acc) ts = (bodyIter ctx (exec ctx n) bs acc ts).map _
    have jobs : ∀ (A : R), (A >>= fun p => exec ctx n (.body bs (pre ++ acc ++ [p.1])) false p.2) =
        (A >>= fun p => exec ctx n (.body bs (acc ++ [p.1])) false p.2).map fun r => (prepend pre r.1, r.2) := by
      intro A
      cases A with
      | error _ => rfl
      | ok p => rw [okBind, okBind]; exact next
    cases ts with
    | nil => rfl
    | cons t ts =>
      simp only [bodyIter]
      split
      · exact next
      split
      · exact next
      split
      · exact next
      split
      · split
        · rfl
        split
        · exact jobs _
        · exact jobs _
      split
      · exact next
      split
      · exact body_acc n ..
      · rfl

/-- Two files, one after the other. -/
theorem parse_concat {ctx : Ctx} (hc : ∀ name, Flat (lookupParser ctx name)) {ts us : List Token} {cs : List Node}
    (hu : Seam us) (hl : Looks ctx [] us ts) (h1 : parse ctx ts = .ok (mk .body cs)) (h2 : parse ctx us ≠ .error .fuel)
    (hcl : ∀ c ∈ cs, ClosedFlow c) : parse ctx (ts ++ us) = (parse ctx us).map (prepend cs) := by
  have split : ∀ {n : Nat} {ts : List Token} {nd : Node}, parseN ctx n ts = .ok nd → ∃ r, exec ctx n (.body [] []) false ts = .ok (nd, r) := by
    intro n ts nd h
    unfold parseN at h
    split at h
    · simp at h
    · rename_i tree r e
      simp only [Except.ok.injEq] at h
      exact ⟨r, by rw [e, h]⟩
  obtain ⟨r1, h1⟩ := split h1
  have h3 := body_acc (ctx := ctx) (12 * us.length + 12) [] cs [] false us
  rw [List.append_nil] at h3
  have := body_concat hc hu _ (k := 12 * (ts ++ us).length + 12) hl h1 hcl h3 (by
    intro e
    apply h2
    unfold parse parseN
    cases e2 : exec ctx (12 * us.length + 12) (.body [] []) false us with
    | ok _ => rw [e2] at e; simp [Except.map] at e
    | error _ => rw [e2] at e; simpa [Except.map] using e) (by simp; omega) (by simp; omega)
  unfold parse parseN
  rw [this]
  cases exec ctx (12 * us.length + 12) (.body [] []) false us <;> rfl

end Verif.Parse
