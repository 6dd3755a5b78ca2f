import Verif.ParseSameAll
import Verif.DbLemmas

/-!
# What follows a command does not matter: the parts of the parser (lemmas for C68)

A list `x ++ m` is read like `x ++ m'` as long as a token with a meaning of `x` is left.
-/

namespace Verif.Parse
open Verif Py Lex

/-- Nothing, or a list that starts with a token that has a meaning. -/
def Seam (m : List Token) : Prop := ∀ t ts, m = t :: ts → isSemantic t = true

theorem seam_nil : Seam [] := by intro t ts h; simp at h

theorem seam_cons {t : Token} {ts : List Token} (h : isSemantic t = true) : Seam (t :: ts) := by
  intro t' ts' e
  simp only [List.cons.injEq] at e
  rw [← e.1]; exact h

theorem sem_ws {t : Token} (h : isSemantic t = true) : isWs t = false := by
  simp only [isSemantic, Bool.not_eq_true', Bool.or_eq_false_iff] at h; exact h.1.1
theorem sem_comment {t : Token} (h : isSemantic t = true) : isAnyComment t = false := by
  simp only [isSemantic, Bool.not_eq_true', Bool.or_eq_false_iff] at h; exact h.1.2
theorem sem_onoff {t : Token} (h : isSemantic t = true) : isOnOff t = false := by
  simp only [isSemantic, Bool.not_eq_true', Bool.or_eq_false_iff] at h; exact h.2

/-- A function on lists whose result does not depend on what follows the seam. -/
theorem of_seam {α : Type} {f : List Token → α × List Token}
    (h : ∀ x m, Seam m → f (x ++ m) = ((f x).1, (f x).2 ++ m)) {x m : List Token} (hs : HasSem x ∨ Seam m) :
    f (x ++ m) = ((f x).1, (f x).2 ++ m) := by
  rcases hs with hs | hs
  · have : ∃ x1 s x2, x = x1 ++ s :: x2 ∧ isSemantic s = true := by
      obtain ⟨s, hm⟩ := List.exists_mem_of_ne_nil _ hs
      simp only [semantics, List.mem_filter] at hm
      obtain ⟨x1, x2, rfl⟩ := List.append_of_mem hm.1
      exact ⟨x1, s, x2, rfl, hm.2⟩
    obtain ⟨x1, s, x2, rfl, hsem⟩ := this
    rw [List.append_assoc, h x1 (s :: x2) (seam_cons hsem), h x1 (s :: x2 ++ m) (seam_cons hsem)]
    simp
  · exact h x m hs

theorem ws_seam (x m : List Token) (hm : Seam m) :
    (x ++ m).takeWhile isWs = x.takeWhile isWs ∧ (x ++ m).dropWhile isWs = x.dropWhile isWs ++ m := by
  induction x with
  | nil =>
    cases m with
    | nil => simp
    | cons t ts =>
      have := sem_ws (hm t ts rfl)
      simp [List.takeWhile_cons, List.dropWhile_cons, this]
  | cons t x ih =>
    simp only [List.cons_append, List.takeWhile_cons, List.dropWhile_cons]
    cases isWs t <;> simp [ih]

theorem ws_cut {x m : List Token} (hs : HasSem x ∨ Seam m) :
    (x ++ m).takeWhile isWs = x.takeWhile isWs ∧ (x ++ m).dropWhile isWs = x.dropWhile isWs ++ m := by
  have := of_seam (f := fun ts => (ts.takeWhile isWs, ts.dropWhile isWs)) (fun x m hm => by
    simp only [(ws_seam x m hm).1, (ws_seam x m hm).2]) hs
  simpa using this

/-! ## Comments -/

/-- What is skipped between two comments of a run. -/
def jump (ok : Token → Bool) : List Token → List Token × List Token
  | a :: b :: ts2 =>
    if a.type == .newline && ok b then ([a], b :: ts2)
    else
      match ts2 with
      | c :: ts3 => if a.type == .newline && b.type == .whitespace && ok c then ([a, b], c :: ts3) else ([], a :: b :: c :: ts3)
      | [] => ([], [a, b])
  | ts => ([], ts)

theorem jump_suffix (ok : Token → Bool) (ts : List Token) : ts = (jump ok ts).1 ++ (jump ok ts).2 := by
  unfold jump
  repeat' split
  all_goals simp

theorem commentRun_cons (ok : Token → Bool) (last : Option Nat) (t : Token) (ts : List Token) :
    commentRun ok last (t :: ts) = if ok t && aligned last t then
      (t :: (jump ok ts).1 ++ (commentRun ok (some t.begin_.col) (jump ok ts).2).1,
        (commentRun ok (some t.begin_.col) (jump ok ts).2).2) else ([], t :: ts) := by
  rw [commentRun.eq_def]
  simp only
  split
  · cases ts with
    | nil => simp [jump, commentRun]
    | cons a ts1 =>
      cases ts1 with
      | nil => simp [jump]
      | cons b ts2 =>
        simp only [jump]
        split
        · simp
        · cases ts2 with
          | nil => simp
          | cons c ts3 =>
            simp only
            split <;> simp
  · rfl

theorem jump_seam (ok : Token → Bool) (hok : ∀ t, ok t = true → isSemantic t = false) (x m : List Token) (hm : Seam m) :
    jump ok (x ++ m) = ((jump ok x).1, (jump ok x).2 ++ m) := by
  have no : ∀ t ts, m = t :: ts → ok t = false ∧ (t.type == .newline) = false ∧ (t.type == .whitespace) = false := by
    intro t ts e
    have hs := hm t ts e
    refine ⟨?_, ?_, ?_⟩
    · cases h : ok t with
      | false => rfl
      | true => rw [hok t h] at hs; simp at hs
    · have := sem_ws hs
      simp only [isWs, Bool.or_eq_false_iff] at this
      exact this.2
    · have := sem_ws hs
      simp only [isWs, Bool.or_eq_false_iff] at this
      exact this.1
  cases x with
  | nil =>
    cases m with
    | nil => rfl
    | cons a m1 =>
      have ha := no a m1 rfl
      cases m1 with
      | nil => rfl
      | cons b m2 =>
        simp only [List.nil_append, jump, ha.2.1, Bool.false_and, if_false]
        cases m2 <;> simp
  | cons a x1 =>
    cases x1 with
    | nil =>
      cases m with
      | nil => rfl
      | cons b m2 =>
        have hb := no b m2 rfl
        simp only [List.cons_append, List.nil_append, jump, hb.1, hb.2.2, Bool.and_false, Bool.false_and, if_false]
        cases m2 <;> simp
    | cons b x2 =>
      cases x2 with
      | nil =>
        simp only [List.cons_append, List.nil_append, jump]
        split
        · simp
        · cases m with
          | nil => simp
          | cons c m3 =>
            have hc := no c m3 rfl
            simp [hc.1]
      | cons c x3 =>
        simp only [List.cons_append, jump]
        split
        · simp
        · split <;> simp

theorem commentRun_seam (ok : Token → Bool) (hok : ∀ t, ok t = true → isSemantic t = false) (m : List Token) (hm : Seam m) :
    ∀ (k : Nat) (x : List Token) (last : Option Nat), x.length ≤ k →
      commentRun ok last (x ++ m) = ((commentRun ok last x).1, (commentRun ok last x).2 ++ m)
  | k, [], last, _ => by
    cases m with
    | nil => simp [commentRun]
    | cons t ts =>
      have : ok t = false := by
        cases h : ok t with
        | false => rfl
        | true => have := hok t h; rw [hm t ts rfl] at this; simp at this
      rw [List.nil_append, commentRun_cons]
      simp [this, commentRun]
  | 0, t :: x, last, h => by simp at h
  | k + 1, t :: x, last, h => by
    rw [List.cons_append, commentRun_cons, commentRun_cons, jump_seam ok hok x m hm]
    have hj := congrArg List.length (jump_suffix ok x)
    simp only [List.length_append, List.length_cons] at hj h
    rw [commentRun_seam ok hok m hm k (jump ok x).2 _ (by omega)]
    split <;> simp

theorem ok_comment (t : Token) (h : isComment t = true) : isSemantic t = false := by
  simp only [isSemantic, isAnyComment]
  have : t.type = .comment := by simpa [isComment] using h
  simp [this]

theorem ok_trailing (t : Token) (h : validTrailing t = true) : isSemantic t = false := by
  simp only [validTrailing, Bool.and_eq_true] at h
  simp [isSemantic, h.1]

theorem consumeComment_cut {t : Token} {x m : List Token} (hs : HasSem x ∨ Seam m) :
    consumeComment t (x ++ m) = ((consumeComment t x).1, (consumeComment t x).2 ++ m) := by
  refine of_seam (f := consumeComment t) ?_ hs
  intro x m hm
  simp only [consumeComment]
  split
  · rfl
  · have := commentRun_seam isComment ok_comment m hm _ (t :: x) none (Nat.le_refl _)
    rw [List.cons_append] at this
    rw [this]

theorem nextExplicit_seam (ctx : Ctx) (x m : List Token) (hm : Seam m) : nextExplicit ctx (x ++ m) = nextExplicit ctx x := by
  induction x with
  | nil =>
    cases m with
    | nil => rfl
    | cons t ts =>
      have hs := hm t ts rfl
      simp only [List.nil_append, nextExplicit, sem_ws hs, Bool.false_eq_true, if_false]
      have : (t.type == .comment) = false := by
        have := sem_comment hs
        simp only [isAnyComment, Bool.or_eq_false_iff] at this
        exact this.1
      simp [this]
  | cons t x ih => simp only [List.cons_append, nextExplicit, ih]

theorem explicitRun_seam (ctx : Ctx) (x m : List Token) (hm : Seam m) :
    explicitRun ctx (x ++ m) = ((explicitRun ctx x).1, (explicitRun ctx x).2 ++ m) := by
  induction x with
  | nil =>
    cases m with
    | nil => rfl
    | cons t ts =>
      have := nextExplicit_seam ctx [] (t :: ts) hm
      simp only [List.nil_append] at this
      simp only [List.nil_append, explicitRun, this]
      rfl
  | cons t x ih =>
    have := nextExplicit_seam ctx (t :: x) m hm
    simp only [List.cons_append] at this
    simp only [List.cons_append, explicitRun, this, ih]
    split <;> simp

theorem nextTrailing_seam (ctx : Ctx) (x m : List Token) (hm : Seam m) : nextTrailing ctx (x ++ m) = nextTrailing ctx x := by
  have no : ∀ t ts, m = t :: ts → validTrailing t = false := by
    intro t ts e
    simp [validTrailing, sem_comment (hm t ts e)]
  have he := nextExplicit_seam ctx x m hm
  cases x with
  | nil =>
    cases m with
    | nil => rfl
    | cons t ts =>
      have hw := sem_ws (hm t ts rfl)
      have hw' : (t.type == .whitespace) = false := by
        simp only [isWs, Bool.or_eq_false_iff] at hw; exact hw.1
      simp only [List.nil_append] at he
      simp only [List.nil_append, nextTrailing, he, no t ts rfl, hw', Bool.false_and]
      cases ts <;> rfl
  | cons t x =>
    simp only [List.cons_append] at he
    simp only [List.cons_append, nextTrailing, he]
    cases x with
    | nil =>
      cases m with
      | nil => rfl
      | cons u us => simp [no u us rfl]
    | cons u x => rfl

theorem consumeTrailing_cut (ctx : Ctx) {x m : List Token} (hs : HasSem x ∨ Seam m) :
    consumeTrailing ctx (x ++ m) = ((consumeTrailing ctx x).1, (consumeTrailing ctx x).2 ++ m) := by
  refine of_seam (f := consumeTrailing ctx) ?_ hs
  intro x m hm
  simp only [consumeTrailing, nextTrailing_seam ctx x m hm, nextExplicit_seam ctx x m hm]
  split
  · rfl
  · split
    · simp only [(ws_seam x m hm).1, (ws_seam x m hm).2, explicitRun_seam ctx _ m hm]
    · cases x with
      | nil =>
        rename_i h1 h2
        exact absurd rfl h1
      | cons t x =>
        simp only [List.cons_append]
        split
        · rw [commentRun_seam _ ok_trailing m hm _ x none (Nat.le_refl _)]
        · have := commentRun_seam _ ok_trailing m hm _ (t :: x) none (Nat.le_refl _)
          rw [List.cons_append] at this
          rw [this]

theorem commentRun_le (ok : Token → Bool) : ∀ (k : Nat) (x : List Token) (last : Option Nat), x.length ≤ k →
    (commentRun ok last x).2.length ≤ x.length
  | k, [], last, _ => by simp [commentRun]
  | 0, t :: x, last, h => by simp at h
  | k + 1, t :: x, last, h => by
    rw [commentRun_cons]
    have hj := congrArg List.length (jump_suffix ok x)
    simp only [List.length_append, List.length_cons] at hj h ⊢
    split
    · have := commentRun_le ok k (jump ok x).2 (some t.begin_.col) (by omega)
      simp only
      omega
    · simp

theorem consumeComment_le (t : Token) (x : List Token) (h : isAnyComment t = true) : (consumeComment t x).2.length ≤ x.length := by
  simp only [consumeComment]
  split
  · exact Nat.le_refl _
  · rename_i hne
    have hc : isComment t = true := by
      simp only [isAnyComment, Bool.or_eq_true, beq_iff_eq] at h
      simp only [not_or] at hne
      simp only [isComment, beq_iff_eq]
      rcases h with h | h
      · exact h
      · exact absurd h hne.1
    rw [commentRun_cons]
    simp only [hc, aligned, Bool.and_self, if_true]
    have hj := congrArg List.length (jump_suffix isComment x)
    simp only [List.length_append] at hj
    have := commentRun_le isComment _ (jump isComment x).2 (some t.begin_.col) (Nat.le_refl _)
    omega

/-! ## The rest -/

theorem head_cut {x m : List Token} (h : HasSem x) : (semantics (x ++ m)).head? = (semantics x).head? := by
  rw [semantics_append]
  cases e : semantics x with
  | nil => exact absurd e h
  | cons t ts => rfl

theorem belongsUp_cut {up : Bool} {t : Token} {x m : List Token} {cs : List Node} {brk : List Breaker} (h : HasSem (t :: x)) :
    belongsUp up (t :: (x ++ m)) cs brk = belongsUp up (t :: x) cs brk := by
  have := head_cut (m := m) h
  rw [List.cons_append] at this
  simp only [belongsUp, this]
  cases (semantics (t :: x)).head? <;> rfl

theorem onlyComments_cut (brk : List Breaker) {x m : List Token} (h : HasSem x) :
    onlyCommentsRemain brk (x ++ m) = onlyCommentsRemain brk x := by
  induction x with
  | nil => exact absurd rfl h
  | cons t x ih =>
    simp only [List.cons_append, onlyCommentsRemain]
    split
    · rename_i hi
      refine ih ?_
      intro e
      refine h ?_
      simp only [semantics, List.filter_cons, isSemantic] at e ⊢
      rw [Bool.or_eq_true] at hi
      rcases hi with hi | hi <;> simp [hi, e]
    · rfl

theorem hasSem_tail {t : Token} {x : List Token} (h : HasSem (t :: x)) (hi : isSemantic t = false) : HasSem x := by
  intro e
  refine h ?_
  simp only [semantics, List.filter_cons, hi] at e ⊢
  simpa using e

theorem wsComments_seam (m : List Token) (hm : Seam m) : ∀ (x : List Token) (n k : Nat), x.length ≤ n → x.length ≤ k →
    wsComments n (x ++ m) = ((wsComments k x).1, (wsComments k x).2 ++ m) := by
  intro x
  induction hl : x.length using Nat.strongRecOn generalizing x with
  | ind len ih =>
    intro n k hn hk
    subst hl
    cases x with
    | nil =>
      have e1 : wsComments k [] = ([], []) := by cases k <;> rfl
      rw [e1]
      cases n with
      | zero => rfl
      | succ n =>
        cases m with
        | nil => rfl
        | cons t ts =>
          have hs := hm t ts rfl
          simp [wsComments, sem_ws hs, sem_comment hs, sem_onoff hs]
    | cons t x =>
      simp only [List.length_cons] at hn hk
      obtain ⟨n, rfl⟩ : ∃ n', n = n' + 1 := ⟨n - 1, by omega⟩
      obtain ⟨k, rfl⟩ : ∃ k', k = k' + 1 := ⟨k - 1, by omega⟩
      simp only [List.cons_append, wsComments]
      split
      · rw [ih x.length (by simp) x rfl n k (by omega) (by omega)]
      · split
        · rename_i _ hc
          have hle := consumeComment_le t x hc
          rw [consumeComment_cut (Or.inr hm)]
          simp only
          rw [ih _ (by simp only [List.length_cons]; omega) (consumeComment t x).2 rfl n k (by omega) (by omega)]
        · split
          · rw [ih x.length (by simp) x rfl n k (by omega) (by omega)]
          · simp

theorem wsComments_cut {x m : List Token} (h : HasSem x) :
    wsComments (x ++ m).length (x ++ m) = ((wsComments x.length x).1, (wsComments x.length x).2 ++ m) := by
  have : ∃ x1 s x2, x = x1 ++ s :: x2 ∧ isSemantic s = true := by
    obtain ⟨s, hm⟩ := List.exists_mem_of_ne_nil _ h
    simp only [semantics, List.mem_filter] at hm
    obtain ⟨x1, x2, rfl⟩ := List.append_of_mem hm.1
    exact ⟨x1, s, x2, rfl, hm.2⟩
  obtain ⟨x1, s, x2, rfl, hs⟩ := this
  rw [wsComments_seam (s :: x2) (seam_cons hs) x1 _ x1.length (by simp) (Nat.le_refl _)]
  have e : x1 ++ s :: x2 ++ m = x1 ++ (s :: (x2 ++ m)) := by simp
  rw [e, wsComments_seam (s :: (x2 ++ m)) (seam_cons hs) x1 _ x1.length (by simp) (Nat.le_refl _)]
  simp

end Verif.Parse
