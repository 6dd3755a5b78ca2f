import Verif.LintDoneSpec
import Verif.Props.Relex

/-!
# A word never stands right behind a command or a comment

The lexer takes a word only behind a blank, a parenthesis or at the start of the text, so `spacedEnds`
holds of every text.
-/

namespace Verif.Lint
open Verif Py Lex Parse

theorem word_prev {prev : Option Char} {s a b : Str} (h : lexOne prev s = some (.word, a, b)) :
    prevOk prev = true ∧ ∃ c cs, s = c :: cs ∧ isWordHead c = true := by
  have h' := lexOne_cases h
  simp only [reduceCtorEq, false_and, false_or, or_false, true_and] at h'
  unfold ruleWord at h'
  split at h'
  · rename_i hp
    refine ⟨hp, ?_⟩
    have := (lookahead_eq_some h').1
    cases s with
    | nil => simp [wordBody] at this
    | cons c cs =>
      rw [wordBody] at this
      split at this
      · rename_i hc; exact ⟨c, cs, rfl, hc⟩
      · simp at this
  · simp at h'

theorem closing_next {prev : Option Char} {s a b : Str} {t : TokType}
    (h : lexOne prev s = some (t, a, b)) (ht : t = .rparen ∨ t = .comment ∨ t = .bracketComment) :
    (∃ c, a.getLast? = some c ∧ prevOk (some c) = false) ∨ b.head? = none ∨ b.head? = some '\n' := by
  rcases ht with rfl | rfl | rfl
  · left
    have := Props.Lex.lexOne_shape h
    simp only [Props.Lex.Shape] at this
    exact ⟨')', by rw [this]; rfl, by decide⟩
  · right
    have h' := lexOne_cases h
    simp only [reduceCtorEq, false_and, false_or, or_false, true_and] at h'
    obtain ⟨cs, h0, h1, h2⟩ := ruleComment_eq h'
    rw [h2]
    clear h' h h2 h0 h1
    induction cs with
    | nil => left; rfl
    | cons c cs ih =>
      rw [List.dropWhile_cons]
      split
      · exact ih
      · rename_i hc
        right
        simpa using hc
  · left
    have := Props.Lex.lexOne_shape h
    simp only [Props.Lex.Shape] at this
    obtain ⟨n, body, e, _⟩ := this
    exact ⟨']', by rw [e, List.getLast?_append]; rfl, by decide⟩

/-- The same on types and spellings. -/
def noGlue : List (TokType × Str) → Prop
  | t :: u :: ts => ¬ ((t.1 = .rparen ∨ t.1 = .comment ∨ t.1 = .bracketComment) ∧ u.1 = .word) ∧ noGlue (u :: ts)
  | _ => True

theorem noGlue_cons {n : Nat} {prev : Option Char} {t : TokType} {a b : Str} (ih : noGlue (scan n prev b).1)
    (h : t = .rparen ∨ t = .comment ∨ t = .bracketComment → prevOk prev = false ∨ b.head? = none ∨ b.head? = some '\n') :
    noGlue ((t, a) :: (scan n prev b).1) := by
  cases n with
  | zero => trivial
  | succ n =>
    rw [scan] at ih ⊢
    split at ih
    · trivial
    · rename_i u a' b' h2
      refine ⟨?_, ih⟩
      rintro ⟨ht, hu⟩
      dsimp only at ht hu
      subst hu
      obtain ⟨hp, c, cs, rfl, hc⟩ := word_prev h2
      rcases h ht with hd | e | e
      · rw [hd] at hp
        exact absurd hp (by decide)
      · simp at e
      · simp only [List.head?_cons, Option.some.injEq] at e
        subst e
        exact absurd hc (by decide)

theorem scan_noGlue : ∀ (n : Nat) (prev : Option Char) (s : Str), noGlue (scan n prev s).1
  | 0, _, _ => trivial
  | n + 1, prev, s => by
    rw [scan]
    split
    · trivial
    · rename_i t a b h
      refine noGlue_cons (scan_noGlue n _ b) fun ht => ?_
      rcases closing_next h ht with ⟨d, e, hd⟩ | e | e
      · left; rw [e]; exact hd
      · exact Or.inr (Or.inl e)
      · exact Or.inr (Or.inr e)

theorem noGlue_spaced : ∀ (ts : List Token), noGlue (ts.map fun u => (u.type, u.spelling)) → spacedEnds ts = true
  | [], _ => rfl
  | [_], _ => rfl
  | t :: u :: ts, h => by
    simp only [List.map_cons, noGlue] at h
    rw [spacedEnds]
    simp only [Bool.and_eq_true, Bool.not_eq_true']
    refine ⟨?_, noGlue_spaced (u :: ts) h.2⟩
    rw [Bool.eq_false_iff]
    intro hh
    simp only [Bool.and_eq_true, isClosing, isEnder, Bool.or_eq_true, beq_iff_eq] at hh
    exact h.1 ⟨by rcases hh.1 with (e | e) | e <;> simp [e], hh.2.1⟩

/-- Every text is spaced so. -/
theorem text_spaced {text : Str} (h : text.head? ≠ some BOM) : spacedEnds (Props.Lex.toks text) = true := by
  apply noGlue_spaced
  rw [Props.Relex.toks_scan h]
  exact scan_noGlue _ _ _

end Verif.Lint
