import Verif.LocalDb
import Verif.SameDb

/-!
# Comments between the commands: the parser (lemmas for C59)

Two lists of tokens that differ in blanks, letter case and in the wording of the comments between
the commands are read as the same tree, up to these differences.
-/

namespace Verif.Parse
open Verif Py Lex

/-! ## Commands in front of comments -/

/-- A comment after a command is taken, or nothing is. -/
theorem trailing_or (ctx : Ctx) (ts : List Token) :
    consumeTrailing ctx ts = ([], ts) ∨ ∃ t ∈ toksL (consumeTrailing ctx ts).1, isAnyComment t = true := by
  simp only [consumeTrailing]
  split
  · exact Or.inl rfl
  · rename_i hn
    have hn : nextTrailing ctx ts = true := by simpa using hn
    refine Or.inr ?_
    split
    · rename_i he
      have key : ∀ us : List Token, nextExplicit ctx us = true →
          ∃ t r, us.dropWhile isWs = t :: r ∧ isAnyComment t = true ∧ nextExplicit ctx (t :: r) = true := by
        intro us
        induction us with
        | nil => intro h; simp [nextExplicit] at h
        | cons u us ih =>
          intro h
          cases hw : isWs u with
          | true =>
            rw [List.dropWhile_cons_of_pos hw]
            refine ih ?_
            simpa [nextExplicit, hw] using h
          | false =>
            rw [List.dropWhile_cons_of_neg (by simp [hw])]
            refine ⟨u, us, rfl, ?_, h⟩
            simp only [nextExplicit, hw, Bool.false_eq_true, if_false] at h
            simp only [isAnyComment, Bool.or_eq_true]
            cases hc : u.type == .comment with
            | true => exact Or.inl rfl
            | false => simp [hc] at h
      obtain ⟨t, r, e, hc, he'⟩ := key ts he
      refine ⟨t, ?_, hc⟩
      simp only [e, explicitRun, he', if_true]
      simp [toksL_append]
    · rename_i he
      have he : nextExplicit ctx ts = false := by simpa using he
      cases ts with
      | nil => simp [nextTrailing] at hn
      | cons t ts =>
        simp only [nextTrailing, he, Bool.false_or, Bool.or_eq_true] at hn
        simp only
        have run : ∀ u us, validTrailing u = true → u ∈ (commentRun validTrailing none (u :: us)).1 := by
          intro u us hu
          rw [commentRun_cons]
          simp [hu, aligned]
        have com : ∀ u, validTrailing u = true → isAnyComment u = true := by
          intro u hu
          simp only [validTrailing, Bool.and_eq_true] at hu
          exact hu.1
        rcases hn with hn | hn
        · have hw : t.type ≠ .whitespace := by
            intro e
            have := com t hn
            simp [isAnyComment, e] at this
          rw [if_neg hw, if_neg hw]
          refine ⟨t, ?_, com t hn⟩
          simp [toksL_append, run t ts hn]
        · cases ts with
          | nil => simp at hn
          | cons u us =>
            simp only [Bool.and_eq_true, beq_iff_eq] at hn
            rw [if_pos hn.1, if_pos hn.1]
            refine ⟨u, ?_, com u hn.2⟩
            simp [toksL_append, run u us hn.2]

/-- A command is read up to its closing parenthesis, unless a comment follows. -/
theorem stmt_last {ctx : Ctx} (hc : ∀ name, Flat (lookupParser ctx name)) {n : Nat} {up : Bool} {x m : List Token} {nd : Node}
    (hx : ∀ t ∈ x, isAnyComment t = false) (h : exec ctx n .statement up (x ++ m) = .ok (nd, m)) :
    ∃ y r, x = y ++ [r] ∧ r.type = .rparen := by
  cases n with
  | zero => simp [exec] at h
  | succ n =>
    change stmtIter ctx (exec ctx n) (x ++ m) = _ at h
    cases ex : x ++ m with
    | nil => rw [ex] at h; simp [stmtIter] at h
    | cons t ts =>
      rw [ex] at h
      simp only [stmtIter] at h
      cases ed : ts.dropWhile isWs with
      | nil => rw [ed] at h; simp at h
      | cons l ts1 =>
        rw [ed] at h
        simp only at h
        split at h
        · simp at h
        · obtain ⟨⟨sub, rest⟩, h1, h⟩ := bind_ok.1 h
          simp only at h
          obtain ⟨⟨tail, rest1⟩, h2, h⟩ := bind_ok.1 h
          simp only at h
          cases rest1 with
          | nil => simp at h
          | cons r rest2 =>
            simp only at h
            have h := pure_ok.1 h
            simp only [Prod.mk.injEq] at h
            obtain ⟨hnd, hb⟩ := h
            have s2 : r :: rest2 <:+ rest := ⟨toksL tail, stmtTail_splits _ _ _ _ h2⟩
            have s1 : rest <:+ ts1.dropWhile isWs := suf hc h1
            have s0 : ts1.dropWhile isWs <:+ ts1 := dropWs_suffix ts1
            have sl : l :: ts1 <:+ ts := ed ▸ dropWs_suffix ts
            have hr : r.type = .rparen := (stmtTail_noText _ _ _ _ h2).2 (Nat.le_refl _) r rest2 rfl
            have big : r :: rest2 <:+ x ++ m := by
              rw [ex]
              exact s2.trans (s1.trans (s0.trans ((List.suffix_cons l ts1).trans (sl.trans (List.suffix_cons t ts)))))
            obtain ⟨d, e⟩ := big
            have sp := consumeTrailing_splits ctx rest2
            rw [hb] at sp
            have e : d ++ r :: toksL (consumeTrailing ctx rest2).1 = x := by
              have : (d ++ r :: toksL (consumeTrailing ctx rest2).1) ++ m = x ++ m := by
                rw [← e, List.append_assoc, List.cons_append, sp]
              exact List.append_cancel_right this
            have none : toksL (consumeTrailing ctx rest2).1 = [] := by
              rcases trailing_or ctx rest2 with e1 | ⟨a, ha, hca⟩
              · rw [e1]; rfl
              · have := hx a (by rw [← e]; simp [ha])
                rw [hca] at this; simp at this
            rw [none] at e
            exact ⟨d, r, e.symm, hr⟩

/-- What follows a command does not matter, as long as no comment is taken. -/
theorem stmt_to {ctx : Ctx} (hc : ∀ name, Flat (lookupParser ctx name)) {n : Nat} {up : Bool} {x m m' : List Token} {nd : Node}
    (hl : Looks ctx m m' x) (hx : ∀ t ∈ x, isAnyComment t = false) (ht : consumeTrailing ctx m' = ([], m'))
    (h : exec ctx n .statement up (x ++ m) = .ok (nd, m)) : exec ctx n .statement up (x ++ m') = .ok (nd, m') := by
  cases n with
  | zero => simp [exec] at h
  | succ n =>
  change stmtIter ctx (exec ctx n) (x ++ m) = _ at h
  change stmtIter ctx (exec ctx n) (x ++ m') = _
  cases ex : x ++ m with
  | nil => rw [ex] at h; simp [stmtIter] at h
  | cons t ts =>
    rw [ex] at h
    simp only [stmtIter] at h
    cases ed : ts.dropWhile isWs with
    | nil => rw [ed] at h; simp at h
    | cons l ts1 =>
      rw [ed] at h
      simp only at h
      split at h
      · simp at h
      · rename_i hlp
        have hlp : l.type = .lparen := by simpa using hlp
        obtain ⟨⟨sub, rest⟩, h1, h⟩ := bind_ok.1 h
        simp only at h
        obtain ⟨⟨tail, rest1⟩, h2, h⟩ := bind_ok.1 h
        simp only at h
        cases rest1 with
        | nil => simp at h
        | cons r rest2 =>
          simp only at h
          have h := pure_ok.1 h
          simp only [Prod.mk.injEq] at h
          obtain ⟨hnd, hb⟩ := h
          have sp := consumeTrailing_splits ctx rest2
          rw [hb] at sp
          have s2 : r :: rest2 <:+ rest := ⟨toksL tail, stmtTail_splits _ _ _ _ h2⟩
          have s1 : rest <:+ ts1.dropWhile isWs := suf hc h1
          have s0 : ts1.dropWhile isWs <:+ ts1 := dropWs_suffix ts1
          have sl : l :: ts1 <:+ ts := ed ▸ dropWs_suffix ts
          have hr : r.type = .rparen := (stmtTail_noText _ _ _ _ h2).2 (Nat.le_refl _) r rest2 rfl
          have hrs : isSemantic r = true := by simp [isSemantic, isWs, isAnyComment, isOnOff, hr]
          have none : toksL (consumeTrailing ctx rest2).1 = [] ∧ consumeTrailing ctx rest2 = ([], rest2) := by
            have big : r :: rest2 <:+ x ++ m := by
              rw [ex]
              exact s2.trans (s1.trans (s0.trans ((List.suffix_cons l ts1).trans (sl.trans (List.suffix_cons t ts)))))
            obtain ⟨d, e⟩ := big
            have e : d ++ r :: toksL (consumeTrailing ctx rest2).1 = x := by
              have : (d ++ r :: toksL (consumeTrailing ctx rest2).1) ++ m = x ++ m := by
                rw [← e, List.append_assoc, List.cons_append, sp]
              exact List.append_cancel_right this
            rcases trailing_or ctx rest2 with e1 | ⟨a, ha, hca⟩
            · exact ⟨by rw [e1]; rfl, e1⟩
            · have := hx a (by rw [← e]; simp [ha])
              rw [hca] at this; simp at this
          have e2 : rest2 = m := by rw [none.1] at sp; exact sp.symm
          subst e2
          rw [none.2] at hnd
          have hrc : HasSem [r] := by simp [HasSem, semantics, hrs]
          have big : [r] ++ rest2 <:+ ts1.dropWhile isWs := s2.trans s1
          cases x with
          | nil =>
            exfalso
            simp only [List.nil_append] at ex
            have := (big.trans (s0.trans ((List.suffix_cons l ts1).trans sl))).length_le
            rw [ex] at this
            simp only [List.length_cons, List.length_append] at this
            omega
          | cons t' x =>
            simp only [List.cons_append, List.cons.injEq] at ex
            obtain ⟨rfl, rfl⟩ := ex
            obtain ⟨d1, e1⟩ := big.trans s0
            have e1 : ts1 = (d1 ++ [r]) ++ rest2 := by rw [← e1]; simp
            have hy1 : HasSem (d1 ++ [r]) := hrc.suffix ⟨d1, rfl⟩
            generalize d1 ++ [r] = y1 at e1 hy1
            subst e1
            have hsx : l :: y1 <:+ x := by
              obtain ⟨d2, e2⟩ := sl
              refine ⟨d2, ?_⟩
              have : d2 ++ l :: y1 ++ rest2 = x ++ rest2 := by rw [← e2]; simp
              exact List.append_cancel_right this
            have hx' : HasSem x := (hy1.suffix (List.suffix_cons l y1)).suffix hsx
            have w1 := ws_cut (x := x) (m := rest2) (Or.inl hx')
            have w2 := ws_cut (x := x) (m := m') (Or.inl hx')
            have v1 := ws_cut (x := y1) (m := rest2) (Or.inl hy1)
            have v2 := ws_cut (x := y1) (m := m') (Or.inl hy1)
            have edx : x.dropWhile isWs = l :: y1 := by
              rw [w1.2] at ed
              exact List.append_cancel_right (by rw [ed]; rfl)
            have hj := hl [] t' (x.takeWhile isWs) l y1 (by
              rw [← edx, List.takeWhile_append_dropWhile]; rfl) (fun a ha => mem_takeWs ha) hlp hy1
            rw [v1.2] at h1 big s1
            obtain ⟨y2, rfl, hy2, hs2⟩ := between (b := [r]) s2 s1 hrc
            have h1' := args_loc hc (m := rest2) (m' := m') n _ false _ hj sub y2 h1 hs2
            have h2a := stmtTail_cut (m := rest2) y2.length (k := (y2 ++ rest2).length) (Nat.le_refl _) hs2 (by simp) (Nat.le_refl _)
            have h2b := stmtTail_cut (m := m') y2.length (k := (y2 ++ m').length) (Nat.le_refl _) hs2 (by simp) (Nat.le_refl _)
            rw [h2a] at h2
            obtain ⟨q, h2c, h2d⟩ : ∃ q, stmtTail y2.length y2 = .ok q ∧ (q.1, q.2 ++ rest2) = (tail, r :: rest2) := by
              cases e : stmtTail y2.length y2 with
              | error _ => rw [e] at h2; simp [Except.map] at h2
              | ok q => rw [e] at h2; exact ⟨q, rfl, by simpa [Except.map] using h2⟩
            simp only [Prod.mk.injEq] at h2d
            have hq2 : q.2 = [r] := List.append_cancel_right (bs := rest2) (by rw [h2d.2]; rfl)
            simp only [stmtIter, List.cons_append, w2.1, w2.2, edx, v2.1, v2.2]
            rw [if_neg (by simpa using hlp), h1', okBind]
            simp only
            rw [h2b, h2c]
            simp only [Except.map, okBind, hq2, List.cons_append, List.nil_append, ht]
            rw [← hnd, w1.1, v1.1, h2d.1]
            rfl

end Verif.Parse
