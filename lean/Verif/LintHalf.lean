import Verif.LintDoneSpec
import Verif.LintTree

/-!
# The check for half references ends

`checkTokens` fails only at a `${NAME` without `}`.
-/

namespace Verif.Lint
open Verif Py Lex Parse

theorem isVarChar_eq (c : Char) : isVarChar c = isNameChar c := rfl

/-- The cases of the scan. -/
theorem whole_cons {d : Nat} {c : Char} {cs : Str} (h : wholeRefs d (c :: cs) = true) :
    (∃ r, c = '$' ∧ cs = '{' :: r ∧ r.head? ≠ some '}' ∧ wholeRefs (d + 1) r = true) ∨
    ((c = '$' → cs.head? ≠ some '{') ∧
      ((d = 0 ∧ wholeRefs 0 cs = true) ∨ (0 < d ∧ c = '}' ∧ wholeRefs (d - 1) cs = true) ∨
       (0 < d ∧ c ≠ '}' ∧ isNameChar c = true ∧ wholeRefs d cs = true))) := by
  rw [wholeRefs.eq_def] at h
  split at h
  · rename_i e; simp at e
  · rename_i r e
    simp only [List.cons.injEq] at e
    simp only [Bool.and_eq_true, bne_iff_ne] at h
    exact Or.inl ⟨r, e.1, e.2, h.1, h.2⟩
  · rename_i c' cs' hno e
    simp only [List.cons.injEq] at e
    obtain ⟨rfl, rfl⟩ := e
    refine Or.inr ⟨?_, ?_⟩
    · rintro rfl hh
      cases cs with
      | nil => simp at hh
      | cons x r => simp only [List.head?_cons, Option.some.injEq] at hh; subst hh; exact hno r rfl rfl
    · split at h
      · rename_i hd; exact Or.inl ⟨hd, h⟩
      · rename_i hd
        split at h
        · rename_i hc; exact Or.inr (Or.inl ⟨by omega, hc, h⟩)
        · rename_i hc
          simp only [Bool.and_eq_true] at h
          exact Or.inr (Or.inr ⟨by omega, hc, h.1, h.2⟩)

/-- The other way round, when it is not the start of a reference. -/
theorem whole_mk {d : Nat} {c : Char} {cs : Str} (hn : c = '$' → cs.head? ≠ some '{')
    (h : (d = 0 ∧ wholeRefs 0 cs = true) ∨ (0 < d ∧ c = '}' ∧ wholeRefs (d - 1) cs = true) ∨
       (0 < d ∧ c ≠ '}' ∧ isNameChar c = true ∧ wholeRefs d cs = true)) : wholeRefs d (c :: cs) = true := by
  rw [wholeRefs.eq_def]
  split
  · rename_i e; simp at e
  · rename_i r e
    simp only [List.cons.injEq] at e
    obtain ⟨rfl, rfl⟩ := e
    exact absurd rfl (hn rfl)
  · rename_i c' cs' hno e
    simp only [List.cons.injEq] at e
    obtain ⟨rfl, rfl⟩ := e
    rcases h with ⟨h1, h2⟩ | ⟨h1, h2, h3⟩ | ⟨h1, h2, h3, h4⟩
    · rw [if_pos h1]; exact h2
    · rw [if_neg (by omega), if_pos h2]; exact h3
    · rw [if_neg (by omega), if_neg h2, isVarChar_eq, h3]; exact h4

/-- A name. -/
theorem whole_name {d : Nat} : ∀ (s : Str), wholeRefs (d + 1) s = true → wholeRefs (d + 1) (nameRun s).2 = true
  | [], h => by simp [wholeRefs] at h
  | c :: s, h => by
    rw [nameRun.eq_def]
    split
    · rename_i x r e
      simp only [List.cons.injEq] at e
      obtain ⟨rfl, rfl⟩ := e
      rcases whole_cons h with ⟨_, e, _⟩ | ⟨_, ⟨e, _⟩ | ⟨_, e, _⟩ | ⟨_, _, e, _⟩⟩
      · simp at e
      · simp at e
      · simp at e
      · exact absurd e (by decide)
    · rename_i c' s' _ e
      simp only [List.cons.injEq] at e
      obtain ⟨rfl, rfl⟩ := e
      split
      · rename_i hc
        rcases whole_cons h with ⟨_, rfl, _⟩ | ⟨_, ⟨e, _⟩ | ⟨_, rfl, _⟩ | ⟨_, _, _, e⟩⟩
        · exact absurd hc (by decide)
        · simp at e
        · exact absurd hc (by decide)
        · exact whole_name s e
      · exact h
    · rename_i e; simp at e

theorem varRef_shape {s rest : Str} (h : varRef? s = some rest) :
    ∃ r, s = '$' :: '{' :: r ∧ (nameRun r).1 ≠ [] ∧ (nameRun r).2 = '}' :: rest := by
  unfold varRef? at h
  split at h
  · rename_i r
    dsimp only at h
    split at h
    · simp at h
    · rename_i hn
      split at h
      · rename_i rest' e
        simp only [Option.some.injEq] at h
        subst h
        exact ⟨r, rfl, hn, e⟩
      · simp at h
  · simp at h

theorem nameRun_append : ∀ s : Str, (nameRun s).1 ++ (nameRun s).2 = s
  | [] => rfl
  | c :: s => by
    rw [nameRun.eq_def]
    split
    · rename_i d r e
      simp only [List.cons.injEq] at e
      obtain ⟨rfl, rfl⟩ := e
      split
      · rfl
      · simp only [List.cons_append]
        rw [nameRun_append r]
    · rename_i c' s' _ e
      simp only [List.cons.injEq] at e
      obtain ⟨rfl, rfl⟩ := e
      split
      · simp only [List.cons_append]
        rw [nameRun_append s]
      · rfl
    · rename_i e; simp at e
termination_by s => s.length

/-- A reference has at least four characters. -/
theorem ref_len {s rest : Str} (h : varRef? s = some rest) : rest.length + 4 ≤ s.length := by
  obtain ⟨r, rfl, h1, h2⟩ := varRef_shape h
  have h3 := congrArg List.length (nameRun_append r)
  rw [h2] at h3
  have h4 := List.length_pos_iff.2 h1
  simp only [List.length_append, List.length_cons] at h3 ⊢
  omega

theorem whole_ref {d : Nat} {s rest : Str} (h : varRef? s = some rest) (hw : wholeRefs d s = true) :
    wholeRefs d rest = true := by
  obtain ⟨r, rfl, _, h2⟩ := varRef_shape h
  rcases whole_cons hw with ⟨r', _, e, _, hr⟩ | ⟨hno, _⟩
  · simp only [List.cons.injEq, true_and] at e
    subst e
    have := whole_name r hr
    rw [h2] at this
    rcases whole_cons this with ⟨_, e, _⟩ | ⟨_, ⟨e, _⟩ | ⟨_, _, e⟩ | ⟨_, e, _⟩⟩
    · simp at e
    · simp at e
    · simpa using e
    · exact absurd rfl e
  · exact absurd rfl (hno rfl)

theorem whole_foo {d : Nat} {s : Str} (h : wholeRefs d s = true) : wholeRefs d (S "foo" ++ s) = true := by
  have one : ∀ (c : Char) (s : Str), c ≠ '$' → c ≠ '}' → isNameChar c = true → wholeRefs d s = true → wholeRefs d (c :: s) = true := by
    intro c s h1 h2 h3 h
    refine whole_mk (fun e => absurd e h1) ?_
    rcases Nat.eq_zero_or_pos d with rfl | hd
    · exact Or.inl ⟨rfl, h⟩
    · exact Or.inr (Or.inr ⟨hd, h2, h3, h⟩)
  show wholeRefs d ('f' :: 'o' :: 'o' :: s) = true
  exact one _ _ (by decide) (by decide) (by decide) (one _ _ (by decide) (by decide) (by decide) (one _ _ (by decide) (by decide) (by decide) h))

/-- What the text starts with after a round. -/
theorem mock_head {n : Nat} {odd : Bool} {s : Str} {c : Char} (h : (mockOnce (S "foo") n odd s).1.head? = some c) :
    c = 'f' ∨ s.head? = some c := by
  cases n with
  | zero => exact Or.inr h
  | succ n =>
    rw [mockOnce.eq_def] at h
    dsimp only at h
    split at h
    · simp at h
    · split at h
      · left
        simp only [show S "foo" = ['f', 'o', 'o'] from rfl, List.cons_append, List.head?_cons, Option.some.injEq] at h
        exact h.symm
      · right; simpa using h

theorem mock_cons (n : Nat) (odd : Bool) (c : Char) (cs : Str) :
    mockOnce (S "foo") (n + 1) odd (c :: cs) =
      match (if odd then none else varRef? (c :: cs)) with
      | some rest => (S "foo" ++ (mockOnce (S "foo") n false rest).1, true)
      | none => (c :: (mockOnce (S "foo") n (c == '\\' && !odd) cs).1, (mockOnce (S "foo") n (c == '\\' && !odd) cs).2) := by
  rw [mockOnce]
  rfl

/-- A round keeps the references whole. -/
theorem mock_whole : ∀ (n : Nat) (odd : Bool) (d : Nat) (s : Str), s.length ≤ n → wholeRefs d s = true →
    wholeRefs d (mockOnce (S "foo") n odd s).1 = true
  | 0, _, _, s, _, h => h
  | n + 1, odd, d, [], _, h => by
    rw [mockOnce.eq_def]
    exact h
  | n + 1, odd, d, c :: cs, hl, h => by
    simp only [List.length_cons] at hl
    rw [mock_cons]
    split
    · rename_i rest hv
      have hv : varRef? (c :: cs) = some rest := by
        split at hv
        · simp at hv
        · exact hv
      have hlen : rest.length ≤ n := by
        have := ref_len hv
        simp only [List.length_cons] at this
        omega
      exact whole_foo (mock_whole n false d rest hlen (whole_ref hv h))
    · rename_i hv
      dsimp only
      rcases whole_cons h with ⟨r, rfl, rfl, hne, hr⟩ | ⟨hno, hc⟩
      · cases n with
        | zero => simp at hl
        | succ n =>
          simp only [List.length_cons] at hl
          rw [show (('$' == '\\') && !odd) = false from rfl, mock_cons]
          have e : (if false = true then none else varRef? ('{' :: r)) = none := by
            simp [varRef?]
          rw [e]
          dsimp only
          rw [show (('{' == '\\') && !false) = false from rfl]
          have ih := mock_whole n false (d + 1) r (by omega) hr
          rw [wholeRefs]
          simp only [Bool.and_eq_true, bne_iff_ne]
          refine ⟨fun hh => ?_, ih⟩
          rcases mock_head hh with e | e
          · exact absurd e (by decide)
          · exact hne e
      · refine whole_mk (fun e hh => ?_) ?_
        · rcases mock_head hh with e' | e'
          · exact absurd e' (by decide)
          · exact hno e e'
        · rcases hc with ⟨h1, h2⟩ | ⟨h1, h2, h3⟩ | ⟨h1, h2, h3, h4⟩
          · exact Or.inl ⟨h1, mock_whole n _ 0 cs (by omega) h2⟩
          · exact Or.inr (Or.inl ⟨h1, h2, mock_whole n _ _ cs (by omega) h3⟩)
          · exact Or.inr (Or.inr ⟨h1, h2, h3, mock_whole n _ _ cs (by omega) h4⟩)

/-- When a round replaces nothing, an open reference goes on with a name and `}`. -/
theorem still_closed : ∀ (n : Nat) (d : Nat) (r : Str), r.length ≤ n → wholeRefs (d + 1) r = true →
    (mockOnce (S "foo") n false r).2 = false → ∃ rest, (nameRun r).2 = '}' :: rest
  | n, d, [], _, h, _ => by simp [wholeRefs] at h
  | 0, d, c :: cs, hl, _, _ => by simp at hl
  | n + 1, d, c :: cs, hl, h, hm => by
    simp only [List.length_cons] at hl
    rw [mock_cons] at hm
    split at hm
    · simp at hm
    · rename_i hv
      simp only [Bool.false_eq_true, if_false] at hv
      dsimp only at hm
      rcases whole_cons h with ⟨r, rfl, rfl, hne, hr⟩ | ⟨hno, hc⟩
      · exfalso
        cases n with
        | zero => simp at hl
        | succ n =>
          simp only [List.length_cons] at hl
          rw [show (('$' == '\\') && !false) = false from rfl, mock_cons] at hm
          have e : (if false = true then none else varRef? ('{' :: r)) = none := by
            simp [varRef?]
          rw [e] at hm
          dsimp only at hm
          rw [show (('{' == '\\') && !false) = false from rfl] at hm
          obtain ⟨rest, hr'⟩ := still_closed n (d + 1) r (by omega) hr hm
          have hne' : (nameRun r).1 ≠ [] := by
            intro e
            have : r = (nameRun r).2 := by
              have := nameRun_append r
              rw [e] at this
              simpa using this.symm
            rw [hr'] at this
            exact hne (by rw [this]; rfl)
          rw [varRef?] at hv
          simp only [if_neg hne', hr'] at hv
          simp at hv
      · rcases hc with ⟨h1, h2⟩ | ⟨h1, h2, h3⟩ | ⟨h1, h2, h3, h4⟩
        · simp at h1
        · subst h2
          refine ⟨cs, ?_⟩
          rw [nameRun.eq_def]
          split
          · rename_i e; simp at e
          · rename_i c' s' _ e
            simp only [List.cons.injEq] at e
            obtain ⟨rfl, rfl⟩ := e
            rw [if_neg (by decide)]
          · rename_i e; simp at e
        · have hb : (c == '\\') = false := by
            simp only [beq_eq_false_iff_ne]
            rintro rfl
            exact absurd h3 (by decide)
          rw [hb] at hm
          obtain ⟨rest, hr⟩ := still_closed n d cs (by omega) h4 hm
          refine ⟨rest, ?_⟩
          rw [nameRun.eq_def]
          split
          · rename_i e
            simp only [List.cons.injEq] at e
            obtain ⟨rfl, rfl⟩ := e
            simp at hb
          · rename_i c' s' _ e
            simp only [List.cons.injEq] at e
            obtain ⟨rfl, rfl⟩ := e
            rw [if_pos h3]
            exact hr
          · rename_i e; simp at e

/-- When a round replaces nothing, there is no `${` with a name behind it. -/
theorem still_none : ∀ (n : Nat) (odd : Bool) (d : Nat) (s : Str), s.length ≤ n → wholeRefs d s = true →
    (mockOnce (S "foo") n odd s).2 = false → searchUnescaped missingSuffix? odd s = none
  | n, odd, d, [], _, h, _ => rfl
  | 0, odd, d, c :: cs, hl, _, _ => by simp at hl
  | n + 1, odd, d, c :: cs, hl, h, hm => by
    simp only [List.length_cons] at hl
    rw [mock_cons] at hm
    split at hm
    · simp at hm
    · rename_i hv
      dsimp only at hm
      have next : ∀ d', wholeRefs d' cs = true → searchUnescaped missingSuffix? (c == '\\' && !odd) cs = none :=
        fun d' h => still_none n _ d' cs (by omega) h hm
      rw [searchUnescaped]
      rcases whole_cons h with ⟨r, rfl, rfl, hne, hr⟩ | ⟨hno, hc⟩
      · cases n with
        | zero => simp at hl
        | succ n =>
          simp only [List.length_cons] at hl
          rw [show (('$' == '\\') && !odd) = false from rfl, mock_cons] at hm
          have e : (if false = true then none else varRef? ('{' :: r)) = none := by
            simp [varRef?]
          rw [e] at hm
          dsimp only at hm
          rw [show (('{' == '\\') && !false) = false from rfl] at hm
          obtain ⟨rest, hr'⟩ := still_closed n d r (by omega) hr hm
          have tail : searchUnescaped missingSuffix? ('$' == '\\' && !odd) ('{' :: r) = none := by
            rw [show (('$' == '\\') && !odd) = false from rfl, searchUnescaped]
            simp only [Bool.false_eq_true, if_false, missingSuffix?]
            rw [show (('{' == '\\') && !false) = false from rfl]
            exact still_none n _ _ r (by omega) hr hm
          cases odd with
          | true => simpa using tail
          | false =>
            simp only [Bool.false_eq_true, if_false] at hv ⊢
            rw [varRef?] at hv
            rw [missingSuffix?]
            by_cases hn : (nameRun r).1 = []
            · simp only [if_pos hn]; exact tail
            · simp [if_neg hn, hr'] at hv
      · have hf : (if odd then none else missingSuffix? (c :: cs)) = none := by
          cases odd with
          | true => rfl
          | false =>
            simp only [Bool.false_eq_true, if_false]
            unfold missingSuffix?
            split
            · rename_i e
              simp only [List.cons.injEq] at e
              obtain ⟨rfl, rfl⟩ := e
              exact absurd rfl (hno rfl)
            · rfl
        rw [hf]
        dsimp only
        rcases hc with ⟨_, h⟩ | ⟨_, _, h⟩ | ⟨_, _, _, h⟩
        · exact next _ h
        · exact next _ h
        · exact next _ h

/-- A round that replaces something makes the text shorter. -/
theorem mock_len : ∀ (n : Nat) (odd : Bool) (s : Str), (mockOnce (S "foo") n odd s).1.length ≤ s.length ∧
    ((mockOnce (S "foo") n odd s).2 = true → (mockOnce (S "foo") n odd s).1.length < s.length)
  | 0, odd, s => by simp [mockOnce]
  | n + 1, odd, [] => by simp [mockOnce]
  | n + 1, odd, c :: cs => by
    rw [mock_cons]
    split
    · rename_i rest hv
      have hv : varRef? (c :: cs) = some rest := by
        split at hv
        · simp at hv
        · exact hv
      have h1 := ref_len hv
      have h2 := (mock_len n false rest).1
      have h3 : (S "foo").length = 3 := rfl
      simp only [List.length_append, List.length_cons, h3] at h1 ⊢
      omega
    · have ih := mock_len n (c == '\\' && !odd) cs
      simp only [List.length_cons]
      refine ⟨by omega, fun h => ?_⟩
      have := ih.2 h
      omega

/-- The rounds. -/
theorem rounds_none : ∀ (n : Nat) (s : Str), s.length ≤ n → wholeRefs 0 s = true →
    searchUnescaped missingSuffix? false (mockVarrefs (S "foo") n s) = none
  | 0, s, hl, h => by
    cases s with
    | nil => rfl
    | cons c s => simp at hl
  | n + 1, s, hl, h => by
    rw [mockVarrefs]
    split
    · rename_i hm
      have := (mock_len s.length false s).2 hm
      exact rounds_none n _ (by omega) (mock_whole _ _ _ _ (Nat.le_refl _) h)
    · rename_i hm
      exact still_none _ _ _ _ (Nat.le_refl _) h (by simpa using hm)

theorem checkTokens_ok : ∀ (ts : List Token) (cat : Option Str),
    (∀ t ∈ ts, t.type = .quoted ∨ t.type = .unquoted ∨ t.type = .bracketArg → wholeRefs 0 t.spelling = true) →
    ∃ c, checkTokens cat ts = .ok c
  | [], cat, _ => ⟨_, rfl⟩
  | t :: ts, cat, h => by
    have ih := fun cat => checkTokens_ok ts cat fun u hu => h u (List.mem_cons_of_mem _ hu)
    rw [checkTokens.eq_def]
    dsimp only
    split
    · rename_i ht
      have hn := rounds_none _ _ (Nat.le_refl _) (h t (by simp) ht)
      simp only [hn]
      split
      · split
        · split
          · exact ih _
          · obtain ⟨c, e⟩ := ih (some _)
            exact ⟨_, by rw [e]; rfl⟩
        · exact ih _
      · exact ih _
    · exact ih _

end Verif.Lint
