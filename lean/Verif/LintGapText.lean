import Verif.LintGaps
import Verif.LintSpaced
import Verif.LintSpec
import Verif.LintTree

/-!
# The text before a command (specification and lemmas for C82)
-/

namespace Verif.Lint
open Verif Py Lex Parse

/-! ## Specification -/

/-- The start of a text, up to a number of bytes. -/
def beforeByte : Nat → Str → Str
  | _, [] => []
  | n, c :: cs => if c.utf8Size ≤ n then c :: beforeByte (n - c.utf8Size) cs else []

/-- The text before a command. -/
def textBefore (text : Str) (s : Node) : Str :=
  match startOf s with
  | [_, _, offset] => beforeByte offset text
  | _ => []

/-- How many newlines there are in the blanks right before a command. -/
def newlinesBefore (text : Str) (s : Node) : Nat := ((textBefore text s).reverse.takeWhile isSpace).count '\n'

/-- What cmake-lint has to say about the blanks before a command. -/
def spacingRecs (o : Opts) (text : Str) (s : Node) : List Rec :=
  if textBefore text s = [] then []
  else if newlinesBefore text s < 1 then [⟨c! "C0321", startOf s, []⟩]
  else if (newlinesBefore text s : Int) < o.minSpacing then [⟨c! "C0305", startOf s, [c! "not enough"]⟩]
  else if (newlinesBefore text s : Int) > o.maxSpacing then [⟨c! "C0305", startOf s, [c! "too many"]⟩]
  else []

/-! ## No word behind the end of something -/

theorem restOfLine_next (r : Str) : (restOfLine r).2.head? = none ∨ (restOfLine r).2.head? = some '\n' := by
  unfold restOfLine
  induction r with
  | nil => left; rfl
  | cons c cs ih =>
    dsimp only at ih ⊢
    rw [List.dropWhile_cons]
    split
    · exact ih
    · rename_i hc
      right
      simpa using hc

theorem sentinel_next {w s a b : Str} (h : ruleSentinel w s = some (a, b)) : b.head? = none ∨ b.head? = some '\n' := by
  unfold ruleSentinel at h
  split at h
  · split at h
    · simp only [Option.some.injEq, Prod.mk.injEq] at h
      rw [← h.2]
      exact restOfLine_next _
    · simp at h
  · simp at h

/-- The types of the tokens that end something. -/
def hardT (t : TokType) : Bool :=
  t == .rparen || t == .comment || t == .bracketComment || t == .formatOn || t == .formatOff || t == .atword

theorem hard_next {prev : Option Char} {s a b : Str} {t : TokType} (h : lexOne prev s = some (t, a, b)) (ht : hardT t = true) :
    (∃ c, a.getLast? = some c ∧ prevOk (some c) = false) ∨ b.head? = none ∨ b.head? = some '\n' := by
  unfold hardT at ht
  simp only [Bool.or_eq_true, beq_iff_eq] at ht
  rcases ht with ((((ht | ht) | ht) | ht) | ht) | ht
  · exact closing_next h (Or.inl ht)
  · exact closing_next h (Or.inr (Or.inl ht))
  · exact closing_next h (Or.inr (Or.inr ht))
  · subst ht
    right
    have h' := lexOne_cases h
    simp only [reduceCtorEq, false_and, false_or, or_false, true_and] at h'
    exact sentinel_next h'
  · subst ht
    right
    have h' := lexOne_cases h
    simp only [reduceCtorEq, false_and, false_or, or_false, true_and] at h'
    exact sentinel_next h'
  · subst ht
    left
    have := Props.Lex.lexOne_shape h
    simp only [Props.Lex.Shape] at this
    obtain ⟨c, cs, e, _⟩ := this
    exact ⟨'@', by rw [e, List.getLast?_append]; rfl, by decide⟩

/-- No word right behind such a token. -/
def noHardWord : List (TokType × Str) → Prop
  | t :: u :: ts => ¬ (hardT t.1 = true ∧ u.1 = .word) ∧ noHardWord (u :: ts)
  | _ => True

theorem noHardWord_cons {n : Nat} {prev : Option Char} {t : TokType} {a b : Str} (ih : noHardWord (scan n prev b).1)
    (h : hardT t = true → prevOk prev = false ∨ b.head? = none ∨ b.head? = some '\n') :
    noHardWord ((t, a) :: (scan n prev b).1) := by
  cases n with
  | zero => trivial
  | succ n =>
    rw [scan] at ih ⊢
    split at ih
    · trivial
    · rename_i u a' b' h2
      refine ⟨?_, ih⟩
      rintro ⟨ht, hu⟩
      dsimp only at ht hu
      subst hu
      obtain ⟨hp, c, cs, rfl, hc⟩ := word_prev h2
      rcases h ht with hd | e | e
      · rw [hd] at hp
        exact absurd hp (by decide)
      · simp at e
      · simp only [List.head?_cons, Option.some.injEq] at e
        subst e
        exact absurd hc (by decide)

theorem scan_noHardWord : ∀ (n : Nat) (prev : Option Char) (s : Str), noHardWord (scan n prev s).1
  | 0, _, _ => trivial
  | n + 1, prev, s => by
    rw [scan]
    split
    · trivial
    · rename_i t a b h
      refine noHardWord_cons (scan_noHardWord n _ b) fun ht => ?_
      rcases hard_next h ht with ⟨d, e, hd⟩ | e | e
      · left; rw [e]; exact hd
      · exact Or.inr (Or.inl e)
      · exact Or.inr (Or.inr e)

theorem noHardWord_behind : ∀ (ts : List Token), noHardWord (ts.map fun u => (u.type, u.spelling)) → NoWordBehind ts
  | [], _ => by intro p h t rest e; simp at e
  | [a], _ => by
    intro p h t rest e
    cases p with
    | nil => simp at e
    | cons x p => simp at e
  | a :: b :: ts, hh => by
    simp only [List.map_cons, noHardWord] at hh
    intro p h t rest e hard
    cases p with
    | nil =>
      simp only [List.nil_append, List.cons.injEq] at e
      obtain ⟨rfl, rfl, _⟩ := e
      intro ew
      exact hh.1 ⟨hard, ew⟩
    | cons x p =>
      simp only [List.cons_append, List.cons.injEq] at e
      exact noHardWord_behind (b :: ts) hh.2 p h t rest e.2 hard

theorem text_behind {text : Str} (h : text.head? ≠ some BOM) : NoWordBehind (Props.Lex.toks text) := by
  apply noHardWord_behind
  rw [Props.Relex.toks_scan h]
  exact scan_noHardWord _ _ _

/-! ## Characters -/

theorem beforeByte_take (b : Str) (c : Char) (rest : Str) : beforeByte (b.map Char.utf8Size).sum (b ++ c :: rest) = b := by
  induction b with
  | nil =>
    have := c.utf8Size_pos
    simp only [List.map_nil, List.sum_nil, List.nil_append, beforeByte]
    rw [if_neg (by omega)]
  | cons x b ih =>
    simp only [List.map_cons, List.sum_cons, List.cons_append, beforeByte]
    rw [if_pos (by omega), Nat.add_sub_cancel_left, ih]

theorem toks_split {text : Str} (h : text.head? ≠ some BOM) {pre rest : List Token} {t : Token}
    (e : Props.Lex.toks text = pre ++ t :: rest) :
    beforeByte t.begin_.offset text = (pre.map Token.spelling).flatten := by
  have ht := Props.Parse.tokenize_toks text
  obtain ⟨b, a, e1, e2, e3, _⟩ := Props.Lex.token_locations_exact text h _ ht pre.length t (by simp [e])
  have hne : t.spelling ≠ [] := Props.Lex.tokens_nonempty text _ ht t (by simp [e])
  have e2' : b = (pre.map Token.spelling).flatten := by simpa [e] using e2
  obtain ⟨c, cs, ec⟩ := List.exists_cons_of_ne_nil hne
  rw [e3]
  show beforeByte (b.map Char.utf8Size).sum text = _
  rw [← e2', e1, ec]
  simpa using beforeByte_take b c (cs ++ a)

theorem ws_chars {t : Token} (hs : Props.Lex.Shape t.type t.spelling) (h : isWs t = true) : ∀ c ∈ t.spelling, isSpace c = true := by
  unfold isWs at h
  simp only [Bool.or_eq_true, beq_iff_eq] at h
  rcases h with e | e <;> rw [e] at hs <;> simp only [Props.Lex.Shape] at hs
  · intro c hc
    have := hs.2 c hc
    have k : ∀ c ∈ S " \t\x0b\x0c", isSpace c = true := by decide
    exact k c this
  · rcases hs with e | e | e <;> rw [e] <;> decide

/-- The blanks at the end of a token that ends something have no newline, and do not reach its start. -/
theorem hard_chars {t : Token} (hs : Props.Lex.Shape t.type t.spelling) (h : isHard t = true) :
    ∃ u c v, t.spelling = u ++ c :: v ∧ isSpace c = false ∧ '\n' ∉ v := by
  unfold isHard at h
  simp only [Bool.or_eq_true, beq_iff_eq] at h
  rcases h with ((((e | e) | e) | e) | e) | e <;> rw [e] at hs <;> simp only [Props.Lex.Shape] at hs
  · exact ⟨[], ')', [], hs, by decide, by simp⟩
  · obtain ⟨v, e, hv⟩ := hs
    exact ⟨[], '#', v, e, by decide, hv⟩
  · obtain ⟨n, body, e, _⟩ := hs
    exact ⟨_, ']', [], e, by decide, by simp⟩
  · obtain ⟨ws, name, v, e, _, _, hv⟩ := hs
    exact ⟨['#'] ++ ws ++ name ++ S ": o", 'n', v, by rw [e]; simp [S], by decide, hv⟩
  · obtain ⟨ws, name, v, e, _, _, hv⟩ := hs
    exact ⟨['#'] ++ ws ++ name ++ S ": of", 'f', v, by rw [e]; simp [S], by decide, hv⟩
  · obtain ⟨c, cs, e, _⟩ := hs
    exact ⟨_, '@', [], e, by decide, by simp⟩

theorem takeWhile_sub {p : Char → Bool} {v : Str} (h : '\n' ∉ v) : (v.takeWhile p).count '\n' = 0 := by
  apply List.count_eq_zero.2
  intro hc
  exact h (List.takeWhile_prefix p |>.mem hc)

theorem count_gap {pre w : List Token} (hp : pre = [] ∨ EndsHard pre) (hw : ∀ u ∈ w, isWs u = true)
    (hs : ∀ t ∈ pre ++ w, Props.Lex.Shape t.type t.spelling) :
    ((((pre ++ w).map Token.spelling).flatten).reverse.takeWhile isSpace).count '\n' = (w.map fun t => t.spelling.count '\n').sum := by
  have hall : ∀ c ∈ ((w.map Token.spelling).flatten).reverse, isSpace c = true := by
    intro c hc
    simp only [List.mem_reverse, List.mem_flatten, List.mem_map] at hc
    obtain ⟨l, ⟨t, ht, rfl⟩, hc⟩ := hc
    exact ws_chars (hs t (by simp [ht])) (hw t ht) c hc
  have hcount : ((w.map Token.spelling).flatten).count '\n' = (w.map fun t => t.spelling.count '\n').sum := by
    rw [List.count_flatten, List.map_map]
    rfl
  rw [List.map_append, List.flatten_append, List.reverse_append, List.takeWhile_append_of_pos hall, List.count_append,
    List.count_reverse, hcount]
  rcases hp with rfl | ⟨p, x, rfl, hx⟩
  · simp
  · obtain ⟨u, c, v, e, hc, hv⟩ := hard_chars (hs x (by simp)) hx
    have : ((List.map Token.spelling (p ++ [x])).flatten).reverse = v.reverse ++ c :: (u.reverse ++ ((p.map Token.spelling).flatten).reverse) := by
      simp [e]
    rw [this]
    have hz : ((v.reverse ++ c :: (u.reverse ++ ((p.map Token.spelling).flatten).reverse)).takeWhile isSpace).count '\n' = 0 := by
      apply List.count_eq_zero.2
      intro hm
      clear this e hall hcount
      have hv' : '\n' ∉ v.reverse := by simpa using hv
      revert hv' hm
      generalize v.reverse = z
      induction z with
      | nil => intro hm _; simp [hc] at hm
      | cons d z ih =>
        intro hm hz
        rw [List.cons_append, List.takeWhile_cons] at hm
        split at hm
        · rcases List.mem_cons.1 hm with h | h
          · exact hz (List.mem_cons.2 (Or.inl h))
          · exact ih h (by intro h; exact hz (by simp [h]))
        · simp at hm
    omega

end Verif.Lint
