import Verif.Lex

/-! Helper lemmas about the lexer rules. -/

namespace Verif.Lex
open Verif Py

/-- A match splits the text it was given. -/
def Splits (m : Match) (s : Str) : Prop := ∀ a b, m = some (a, b) → a ++ b = s

/-- A match is not empty. -/
def NonEmpty (m : Match) : Prop := ∀ a b, m = some (a, b) → a ≠ []

theorem pre_eq_some {p : Str} {m : Match} {a b : Str} (h : pre p m = some (a, b)) :
    ∃ a', m = some (a', b) ∧ a = p ++ a' := by
  cases m with
  | none => simp [pre] at h
  | some x => obtain ⟨x, y⟩ := x; simp [pre] at h; exact ⟨x, by simp [h.2], h.1.symm⟩

theorem lookahead_eq_some {ok : Str → Bool} {m : Match} {a b : Str}
    (h : lookahead ok m = some (a, b)) : m = some (a, b) ∧ ok b = true := by
  cases m with
  | none => simp [lookahead] at h
  | some x =>
    obtain ⟨x, y⟩ := x
    simp only [lookahead] at h
    split at h
    · simp at h; rename_i hk; simp [h.1, ← h.2, hk]
    · simp at h

theorem splits_pre {p : Str} {m : Match} {s : Str} (h : Splits m s) : Splits (pre p m) (p ++ s) := by
  intro a b e
  obtain ⟨a', h1, h2⟩ := pre_eq_some e
  rw [h2, List.append_assoc, h _ _ h1]

theorem splits_lookahead {ok : Str → Bool} {m : Match} {s : Str} (h : Splits m s) :
    Splits (lookahead ok m) s := fun _ _ e => h _ _ (lookahead_eq_some e).1

theorem splits_none (s : Str) : Splits none s := by intro a b h; simp at h

theorem nonEmpty_none : NonEmpty none := by intro a b h; simp at h

theorem nonEmpty_lookahead {ok : Str → Bool} {m : Match} (h : NonEmpty m) :
    NonEmpty (lookahead ok m) := fun _ _ e => h _ _ (lookahead_eq_some e).1

theorem nonEmpty_pre {p : Str} (hp : p ≠ []) (m : Match) : NonEmpty (pre p m) := by
  intro a b e
  obtain ⟨a', _, h2⟩ := pre_eq_some e
  rw [h2]; simp [hp]

theorem quotedRest_splits (q : Char) (s : Str) : Splits (quotedRest q s) s := by
  intro a b
  fun_induction quotedRest q s generalizing a b with
  | case1 => simp
  | case2 cs => simp; rintro rfl rfl; rfl
  | case3 => simp
  | case4 hne d ds ih =>
    intro h; obtain ⟨a', h1, h2⟩ := pre_eq_some h
    rw [h2]; simp [ih _ _ h1]
  | case5 c cs hne hne2 ih =>
    intro h; obtain ⟨a', h1, h2⟩ := pre_eq_some h
    rw [h2]; simp [ih _ _ h1]

theorem quotedStr_splits (q : Char) (s : Str) : Splits (quotedStr q s) s := by
  cases s with
  | nil => exact splits_none _
  | cons c cs =>
    simp only [quotedStr]
    split
    · exact splits_pre (quotedRest_splits q cs)
    · exact splits_none _

theorem quotedStr_nonEmpty (q : Char) (s : Str) : NonEmpty (quotedStr q s) := by
  cases s with
  | nil => exact nonEmpty_none
  | cons c cs =>
    simp only [quotedStr]
    split
    · exact nonEmpty_pre (by simp) _
    · exact nonEmpty_none

theorem findClose_splits (close : Str) (ok : Str → Bool) (s : Str) :
    Splits (findClose close ok s) s := by
  induction s with
  | nil => exact splits_none _
  | cons c cs ih =>
    have hp : Splits (pre [c] (findClose close ok cs)) (c :: cs) := splits_pre ih
    simp only [findClose]
    split
    · rename_i rest hr
      split
      · intro a b e
        simp at e
        rw [← e.1, ← e.2]; exact (stripPrefix?_eq hr).symm
      · exact hp
    · exact hp

theorem bracketStr_splits (ok : Str → Bool) (s : Str) : Splits (bracketStr ok s) s := by
  unfold bracketStr
  split
  · rename_i cs
    simp only
    split
    · rename_i body hb
      have h1 := findClose_splits (']' :: cs.takeWhile (· == '=') ++ [']']) ok body
      have h2 := splits_pre (p := '[' :: cs.takeWhile (· == '=') ++ ['[']) h1
      have h3 : '[' :: List.takeWhile (fun x => x == '=') cs ++ ['['] ++ body = '[' :: cs := by
        simp [← hb]
      rw [h3] at h2; exact h2
    · exact splits_none _
  · exact splits_none _

theorem bracketStr_nonEmpty (ok : Str → Bool) (s : Str) : NonEmpty (bracketStr ok s) := by
  unfold bracketStr
  split
  · simp only
    split
    · exact nonEmpty_pre (by simp) _
    · exact nonEmpty_none
  · exact nonEmpty_none

theorem digits_splits (s : Str) : Splits (digits s) s := by
  intro a b h
  unfold digits at h
  split at h
  · simp at h
  · rename_i d ds hd
    simp at h
    rw [← h.1, ← h.2, ← hd, List.takeWhile_append_dropWhile]

theorem digits_nonEmpty (s : Str) : NonEmpty (digits s) := by
  intro a b h
  unfold digits at h
  split at h
  · simp at h
  · simp at h; rw [← h.1]; simp

theorem numberBody_splits (s : Str) : Splits (numberBody s) s := by
  unfold numberBody
  split
  · exact splits_pre (digits_splits _)
  · exact digits_splits _

theorem numberBody_nonEmpty (s : Str) : NonEmpty (numberBody s) := by
  unfold numberBody
  split
  · exact nonEmpty_pre (by simp) _
  · exact digits_nonEmpty _

theorem wordBody_splits (s : Str) : Splits (wordBody s) s := by
  intro a b h
  unfold wordBody at h
  split at h
  · simp at h
  · split at h
    · simp at h; rw [← h.1, ← h.2]; simp
    · simp at h

theorem wordBody_nonEmpty (s : Str) : NonEmpty (wordBody s) := by
  intro a b h
  unfold wordBody at h
  split at h
  · simp at h
  · split at h
    · simp at h; rw [← h.1]; simp
    · simp at h

theorem wordThen_eq {close : Char} {s a b : Str} (h : wordThen close s = some (a, b)) :
    ∃ w, wordBody s = some (w, close :: b) ∧ a = w ++ [close] := by
  unfold wordThen at h
  split at h
  · rename_i w c rest hw
    split at h
    · rename_i hc; simp at h; subst hc; exact ⟨w, by rw [hw, h.2], h.1.symm⟩
    · simp at h
  · simp at h

theorem wordThen_splits (close : Char) (s : Str) : Splits (wordThen close s) s := by
  intro a b h
  obtain ⟨w, hw, ha⟩ := wordThen_eq h
  have := wordBody_splits s _ _ hw
  rw [ha]; simp [← this]

theorem makeVar_splits (s : Str) : Splits (makeVar s) s := by
  intro a b h
  unfold makeVar at h
  split at h
  · rename_i cs
    simp only at h
    split at h
    · rename_i d ds rest h1 h2
      simp at h
      rw [← h.1, ← h.2]
      have := List.takeWhile_append_dropWhile (p := fun c => c != '$' && c != '(' && c != ')') (l := cs)
      rw [h1, h2] at this
      simp [← this]
    · simp at h
  · simp at h

theorem makeVar_nonEmpty (s : Str) : NonEmpty (makeVar s) := by
  intro a b h
  unfold makeVar at h
  split at h
  · simp only at h
    split at h
    · simp at h; rw [← h.1]; simp
    · simp at h
  · simp at h

theorem legacyOne_splits (s : Str) : Splits (legacyOne s) s := by
  intro a b h
  unfold legacyOne at h
  split at h
  · rename_i m hm; rw [h] at hm; exact makeVar_splits s _ _ hm
  · split at h
    · rename_i m hm; rw [h] at hm; exact quotedStr_splits '"' s _ _ hm
    · split at h
      · simp at h
      · split at h
        · simp at h; rw [← h.1, ← h.2]; rfl
        · split at h
          · split at h
            · simp at h; rw [← h.1, ← h.2]; rfl
            · simp at h
          · simp at h

theorem legacyOne_nonEmpty (s : Str) : NonEmpty (legacyOne s) := by
  intro a b h
  unfold legacyOne at h
  split at h
  · rename_i m hm; rw [h] at hm; exact makeVar_nonEmpty s _ _ hm
  · split at h
    · rename_i m hm; rw [h] at hm; exact quotedStr_nonEmpty '"' s _ _ hm
    · split at h
      · simp at h
      · split at h
        · simp at h; rw [← h.1]; simp
        · split at h
          · split at h
            · simp at h; rw [← h.1]; simp
            · simp at h
          · simp at h

theorem legacyMany_splits (n : Nat) (s : Str) : (legacyMany n s).1 ++ (legacyMany n s).2 = s := by
  induction n generalizing s with
  | zero => simp [legacyMany]
  | succ n ih =>
    simp only [legacyMany]
    split
    · simp
    · rename_i a b h
      simp only [List.append_assoc]
      rw [ih b, legacyOne_splits s _ _ h]

theorem ruleLegacy_splits (s : Str) : Splits (ruleLegacy s) s := by
  intro a b h
  have := legacyMany_splits s.length s
  unfold ruleLegacy at h
  split at h
  · simp at h
  · rename_i c cs rest hm
    simp at h
    rw [hm] at this
    rw [← h.1, ← h.2]; exact this

theorem ruleLegacy_nonEmpty (s : Str) : NonEmpty (ruleLegacy s) := by
  intro a b h
  unfold ruleLegacy at h
  split at h
  · simp at h
  · simp at h; rw [← h.1]; simp

theorem ruleChar_eq {c : Char} {s a b : Str} (h : ruleChar c s = some (a, b)) :
    a = [c] ∧ s = c :: b := by
  unfold ruleChar at h
  split at h
  · simp at h
  · split at h
    · rename_i e; simp at h; subst e; exact ⟨h.1.symm, by rw [h.2]⟩
    · simp at h

theorem ruleNewline_eq {s a b : Str} (h : ruleNewline s = some (a, b)) :
    s = a ++ b ∧ (a = ['\n'] ∨ a = ['\r', '\n'] ∨ a = ['\r']) := by
  unfold ruleNewline at h
  split at h <;> simp at h <;> obtain ⟨rfl, rfl⟩ := h <;> simp

theorem ruleBlank_eq {s a b : Str} (h : ruleBlank s = some (a, b)) :
    a = s.takeWhile isBlank ∧ b = s.dropWhile isBlank ∧ a ≠ [] := by
  unfold ruleBlank at h
  split at h
  · simp at h
  · rename_i d ds hd; simp at h; rw [← h.1, ← h.2, hd]; simp

theorem sentinelTail_splits (w s : Str) : Splits (sentinelTail w s) s := by
  intro a b h
  unfold sentinelTail at h
  split at h
  · rename_i r hr; simp at h; rw [← h.1, ← h.2]; simp [stripPrefix?_eq hr]
  · split at h
    · rename_i r hr; simp at h; rw [← h.1, ← h.2]; simp [stripPrefix?_eq hr]
    · simp at h

theorem ruleSentinel_splits (w s : Str) : Splits (ruleSentinel w s) s := by
  intro a b h
  unfold ruleSentinel at h
  split at h
  · rename_i cs
    split at h
    · rename_i x r hx
      have h1 := sentinelTail_splits _ _ _ _ hx
      simp [restOfLine] at h
      rw [← h.1, ← h.2]
      simp [List.takeWhile_append_dropWhile, h1]
    · simp at h
  · simp at h

theorem ruleSentinel_nonEmpty (w s : Str) : NonEmpty (ruleSentinel w s) := by
  intro a b h
  unfold ruleSentinel at h
  split at h
  · split at h
    · simp at h; rw [← h.1]; simp
    · simp at h
  · simp at h

theorem ruleBracketComment_splits (s : Str) : Splits (ruleBracketComment s) s := by
  unfold ruleBracketComment
  split
  · exact splits_pre (bracketStr_splits _ _)
  · exact splits_none _

theorem ruleComment_eq {s a b : Str} (h : ruleComment s = some (a, b)) :
    ∃ cs, s = '#' :: cs ∧ a = '#' :: cs.takeWhile (· != '\n') ∧ b = cs.dropWhile (· != '\n') := by
  unfold ruleComment at h
  split at h
  · rename_i cs; simp [restOfLine] at h; exact ⟨cs, rfl, h.1.symm, h.2.symm⟩
  · simp at h

theorem ruleComment_splits (s : Str) : Splits (ruleComment s) s := by
  intro a b h
  obtain ⟨cs, rfl, rfl, rfl⟩ := ruleComment_eq h
  simp

theorem ruleCatchAll_eq {s a b : Str} (h : ruleCatchAll s = some (a, b)) :
    a = s.takeWhile isCatchChar ∧ b = s.dropWhile isCatchChar ∧ a ≠ [] := by
  unfold ruleCatchAll at h
  split at h
  · simp at h
  · rename_i d ds hd; simp at h; rw [← h.1, ← h.2, hd]; simp

theorem splits_ite {c : Prop} [Decidable c] {m : Match} {s : Str} (h : Splits m s) :
    Splits (if c then m else none) s := by
  split
  · exact h
  · exact splits_none _

theorem ruleAtWord_splits (p : Option Char) (s : Str) : Splits (ruleAtWord p s) s := by
  unfold ruleAtWord
  split
  · split
    · exact splits_lookahead (splits_pre (wordThen_splits _ _))
    · exact splits_none _
  · exact splits_none _

theorem ruleDeref_splits (p : Option Char) (s : Str) : Splits (ruleDeref p s) s := by
  unfold ruleDeref
  split
  · split
    · exact splits_lookahead (splits_pre (wordThen_splits _ _))
    · exact splits_none _
  · exact splits_none _

/-- Case analysis on the rule that fired: the single place that unfolds the rule
order.  The last components say which rule produced the token. -/
theorem lexOne_cases {prev : Option Char} {s : Str} {t : TokType} {a b : Str}
    (h : lexOne prev s = some (t, a, b)) :
    (t = .quoted ∧ ruleDQuoted prev s = some (a, b)) ∨
    (t = .quoted ∧ ruleSQuoted prev s = some (a, b)) ∨
    (t = .bracketArg ∧ ruleBracketArg prev s = some (a, b)) ∨
    (t = .number ∧ ruleNumber prev s = some (a, b)) ∨
    (t = .word ∧ ruleWord prev s = some (a, b)) ∨
    (t = .atword ∧ ruleAtWord prev s = some (a, b)) ∨
    (t = .deref ∧ ruleDeref prev s = some (a, b)) ∨
    (t = .unquoted ∧ ruleLegacy s = some (a, b)) ∨
    (t = .lparen ∧ ruleChar '(' s = some (a, b)) ∨
    (t = .rparen ∧ ruleChar ')' s = some (a, b)) ∨
    (t = .newline ∧ ruleNewline s = some (a, b)) ∨
    (t = .whitespace ∧ ruleBlank s = some (a, b)) ∨
    (t = .formatOff ∧ ruleSentinel (S "off") s = some (a, b)) ∨
    (t = .formatOn ∧ ruleSentinel (S "on") s = some (a, b)) ∨
    (t = .bracketComment ∧ ruleBracketComment s = some (a, b)) ∨
    (t = .comment ∧ ruleComment s = some (a, b)) ∨
    (t = .unquoted ∧ ruleCatchAll s = some (a, b)) := by
  have key : ∀ (ty : TokType) (m : Match) (k : Option (TokType × Str × Str)),
      tryRule ty m k = some (t, a, b) → (t = ty ∧ m = some (a, b)) ∨ k = some (t, a, b) := by
    intro ty m k h
    unfold tryRule at h
    split at h
    · simp at h; left; simp [h]
    · right; exact h
  unfold lexOne at h
  iterate 17
    rcases key _ _ _ h with h' | h
    · simp only [h', true_and, true_or, or_true]
  simp at h

theorem lexOne_splits {prev : Option Char} {s : Str} {t : TokType} {a b : Str}
    (h : lexOne prev s = some (t, a, b)) : a ++ b = s := by
  rcases lexOne_cases h with ⟨_, h⟩ | ⟨_, h⟩ | ⟨_, h⟩ | ⟨_, h⟩ | ⟨_, h⟩ | ⟨_, h⟩ | ⟨_, h⟩ |
    ⟨_, h⟩ | ⟨_, h⟩ | ⟨_, h⟩ | ⟨_, h⟩ | ⟨_, h⟩ | ⟨_, h⟩ | ⟨_, h⟩ | ⟨_, h⟩ | ⟨_, h⟩ | ⟨_, h⟩
  · exact splits_ite (splits_lookahead (quotedStr_splits _ _)) _ _ h
  · exact splits_ite (splits_lookahead (quotedStr_splits _ _)) _ _ h
  · exact splits_ite (bracketStr_splits _ _) _ _ h
  · exact splits_ite (splits_lookahead (numberBody_splits _)) _ _ h
  · exact splits_ite (splits_lookahead (wordBody_splits _)) _ _ h
  · exact ruleAtWord_splits _ _ _ _ h
  · exact ruleDeref_splits _ _ _ _ h
  · exact ruleLegacy_splits _ _ _ h
  · obtain ⟨rfl, rfl⟩ := ruleChar_eq h; rfl
  · obtain ⟨rfl, rfl⟩ := ruleChar_eq h; rfl
  · exact (ruleNewline_eq h).1.symm
  · obtain ⟨h1, h2, _⟩ := ruleBlank_eq h; rw [h1, h2, List.takeWhile_append_dropWhile]
  · exact ruleSentinel_splits _ _ _ _ h
  · exact ruleSentinel_splits _ _ _ _ h
  · exact ruleBracketComment_splits _ _ _ h
  · exact ruleComment_splits _ _ _ h
  · obtain ⟨h1, h2, _⟩ := ruleCatchAll_eq h; rw [h1, h2, List.takeWhile_append_dropWhile]

theorem nonEmpty_ite {c : Prop} [Decidable c] {m : Match} (h : NonEmpty m) :
    NonEmpty (if c then m else none) := by
  split
  · exact h
  · exact nonEmpty_none

theorem lexOne_nonEmpty {prev : Option Char} {s : Str} {t : TokType} {a b : Str}
    (h : lexOne prev s = some (t, a, b)) : a ≠ [] := by
  rcases lexOne_cases h with ⟨_, h⟩ | ⟨_, h⟩ | ⟨_, h⟩ | ⟨_, h⟩ | ⟨_, h⟩ | ⟨_, h⟩ | ⟨_, h⟩ |
    ⟨_, h⟩ | ⟨_, h⟩ | ⟨_, h⟩ | ⟨_, h⟩ | ⟨_, h⟩ | ⟨_, h⟩ | ⟨_, h⟩ | ⟨_, h⟩ | ⟨_, h⟩ | ⟨_, h⟩
  · exact nonEmpty_ite (nonEmpty_lookahead (quotedStr_nonEmpty _ _)) _ _ h
  · exact nonEmpty_ite (nonEmpty_lookahead (quotedStr_nonEmpty _ _)) _ _ h
  · exact nonEmpty_ite (bracketStr_nonEmpty _ _) _ _ h
  · exact nonEmpty_ite (nonEmpty_lookahead (numberBody_nonEmpty _)) _ _ h
  · exact nonEmpty_ite (nonEmpty_lookahead (wordBody_nonEmpty _)) _ _ h
  · unfold ruleAtWord at h
    split at h
    · split at h
      · exact nonEmpty_lookahead (nonEmpty_pre (by simp) _) _ _ h
      · simp at h
    · simp at h
  · unfold ruleDeref at h
    split at h
    · split at h
      · exact nonEmpty_lookahead (nonEmpty_pre (by simp) _) _ _ h
      · simp at h
    · simp at h
  · exact ruleLegacy_nonEmpty _ _ _ h
  · rw [(ruleChar_eq h).1]; simp
  · rw [(ruleChar_eq h).1]; simp
  · rcases (ruleNewline_eq h).2 with h | h | h <;> simp [h]
  · exact (ruleBlank_eq h).2.2
  · exact ruleSentinel_nonEmpty _ _ _ _ h
  · exact ruleSentinel_nonEmpty _ _ _ _ h
  · unfold ruleBracketComment at h
    split at h
    · exact nonEmpty_pre (by simp) _ _ _ h
    · simp at h
  · obtain ⟨cs, _, h, _⟩ := ruleComment_eq h; simp [h]
  · exact (ruleCatchAll_eq h).2.2

theorem tryRule_ne_none {t : TokType} {m : Match} {k : Option (TokType × Str × Str)}
    (h : k ≠ none) : tryRule t m k ≠ none := by
  unfold tryRule; split
  · simp
  · exact h

/-- Some rule matches at every non-empty rest of the input. -/
theorem lexOne_total (prev : Option Char) {s : Str} (hs : s ≠ []) : lexOne prev s ≠ none := by
  cases s with
  | nil => exact absurd rfl hs
  | cons c cs =>
    unfold lexOne
    iterate 8 apply tryRule_ne_none
    by_cases h1 : c = '('
    · simp [ruleChar, h1, tryRule]
    apply tryRule_ne_none
    by_cases h2 : c = ')'
    · simp [ruleChar, h2, tryRule]
    apply tryRule_ne_none
    by_cases h3 : c = '\n'
    · simp [ruleNewline, h3, tryRule]
    by_cases h4 : c = '\r'
    · subst h4
      cases cs with
      | nil => simp [ruleNewline, tryRule]
      | cons d ds =>
        by_cases hd : d = '\n'
        · simp [ruleNewline, hd, tryRule]
        · simp [ruleNewline, hd, tryRule]
    apply tryRule_ne_none
    by_cases h5 : isBlank c = true
    · simp [ruleBlank, h5, tryRule]
    iterate 5 apply tryRule_ne_none
    have : isCatchChar c = true := by
      simp [isBlank] at h5
      simp [isCatchChar, isSpace, h1, h2, h3, h4, h5]
    simp [ruleCatchAll, this, tryRule]

theorem scan_complete (fuel : Nat) (prev : Option Char) (s : Str) (h : s.length ≤ fuel) :
    (scan fuel prev s).2 = [] := by
  induction fuel generalizing prev s with
  | zero => simp at h; simp [scan, h]
  | succ n ih =>
    simp only [scan]
    split
    · rename_i hn
      cases s with
      | nil => rfl
      | cons c cs => exact absurd hn (lexOne_total prev (by simp))
    · rename_i t a b hl
      apply ih
      have h1 := lexOne_splits hl
      have h2 := lexOne_nonEmpty hl
      have h3 : a.length + b.length = s.length := by rw [← h1]; simp
      have : 0 < a.length := List.length_pos_iff.mpr h2
      omega

theorem scan_spellings (fuel : Nat) (prev : Option Char) (s : Str) :
    ((scan fuel prev s).1.map Prod.snd).flatten ++ (scan fuel prev s).2 = s := by
  induction fuel generalizing prev s with
  | zero => simp [scan]
  | succ n ih =>
    simp only [scan]
    split
    · simp
    · rename_i t a b hl
      simp only [List.map_cons, List.flatten_cons, List.append_assoc]
      rw [ih, lexOne_splits hl]

/-- Every scanned token comes from a rule applied to a suffix of the text, with
the previous character of the text. -/
theorem scan_mem {fuel : Nat} {prev : Option Char} {s : Str} {t : TokType} {a : Str}
    (h : (t, a) ∈ (scan fuel prev s).1) :
    ∃ prev' s' b, lexOne prev' s' = some (t, a, b) := by
  induction fuel generalizing prev s with
  | zero => simp [scan] at h
  | succ n ih =>
    simp only [scan] at h
    split at h
    · simp at h
    · rename_i t' a' b hl
      simp at h
      rcases h with ⟨rfl, rfl⟩ | h
      · exact ⟨_, _, _, hl⟩
      · exact ih h

theorem locate_spellings (i : Nat) (l : Loc) (ts : List (TokType × Str)) :
    (locate i l ts).map (fun t => (t.type, t.spelling)) = ts := by
  induction ts generalizing i l with
  | nil => rfl
  | cons t ts ih => obtain ⟨t, sp⟩ := t; simp [locate, ih]

theorem locate_length (i : Nat) (l : Loc) (ts : List (TokType × Str)) :
    (locate i l ts).length = ts.length := by
  rw [← congrArg List.length (locate_spellings i l ts), List.length_map]

theorem locate_getElem? (i : Nat) (l : Loc) (ts : List (TokType × Str)) (k : Nat)
    (t : Token) (h : (locate i l ts)[k]? = some t) :
    t.index = ((i + k : Nat) : Int) ∧
    t.begin_ = (ts.take k).foldl (fun l x => advance l x.2) l ∧
    t.end_ = (ts.take (k + 1)).foldl (fun l x => advance l x.2) l ∧
    ts[k]? = some (t.type, t.spelling) := by
  induction ts generalizing i l k with
  | nil => simp [locate] at h
  | cons x xs ih =>
    obtain ⟨ty, sp⟩ := x
    cases k with
    | zero => simp [locate] at h; subst h; simp
    | succ k =>
      simp [locate] at h
      have := ih _ _ _ h
      simp only [List.take_succ_cons, List.foldl_cons, List.getElem?_cons_succ]
      refine ⟨?_, this.2.1, this.2.2.1, this.2.2.2⟩
      rw [this.1]; congr 1; omega

theorem tokenizeBody_ok (s : Str) :
    tokenizeBody s = .ok (locate 0 ⟨1, 0, 0⟩ (scan s.length none s).1) := by
  simp [tokenizeBody, scan_complete s.length none s (Nat.le_refl _)]

end Verif.Lex
