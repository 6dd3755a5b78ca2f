import Verif.Gen

/-!
# Replacing references to variables (lemmas for cmake-genparsers)
-/

namespace Verif.Gen
open Verif Py

/-- `${name}` -/
def ref (w : Str) : Str := '$' :: '{' :: (w ++ ['}'])

/-- The name of a variable in a reference: letters, digits and underscores. -/
def IsName (w : Str) : Prop := w ≠ [] ∧ ∀ c ∈ w, Lint.isWordChar c = true

theorem word_not {c d : Char} (h : Lint.isWordChar c = true) (hd : Lint.isWordChar d = false) : c ≠ d := by
  rintro rfl
  rw [h] at hd
  cases hd

theorem dollar_not_word : Lint.isWordChar '$' = false := by decide
theorem close_not_word : Lint.isWordChar '}' = false := by decide
theorem quote_not_word : Lint.isWordChar '"' = false := by decide

theorem refAt_iff {s w rest : Str} : refAt s = some (w, rest) ↔ s = ref w ++ rest ∧ IsName w := by
  constructor
  · intro h
    unfold refAt at h
    split at h
    · rename_i cs
      simp only at h
      split at h
      · simp at h
      · rename_i hw
        split at h
        · rename_i r hr
          simp only [Option.some.injEq, Prod.mk.injEq] at h
          obtain ⟨h1, h2⟩ := h
          have hs := List.takeWhile_append_dropWhile (p := Lint.isWordChar) (l := cs)
          rw [hr, h1] at hs
          refine ⟨?_, by rw [← h1]; exact hw, ?_⟩
          · rw [← hs, ← h2]
            simp [ref]
          · rw [← h1]
            exact List.all_eq_true.1 List.all_takeWhile
        · simp at h
    · simp at h
  · rintro ⟨rfl, hne, hw⟩
    have e1 : (w ++ '}' :: rest).takeWhile Lint.isWordChar = w := by
      rw [List.takeWhile_append_of_pos hw, List.takeWhile_cons_of_neg (by simp [close_not_word]), List.append_nil]
    have e2 : (w ++ '}' :: rest).dropWhile Lint.isWordChar = '}' :: rest := by
      rw [List.dropWhile_append_of_pos hw, List.dropWhile_cons_of_neg (by simp [close_not_word])]
    simp only [ref, List.cons_append, List.append_assoc, List.nil_append, refAt, e1, e2, if_neg hne]

theorem ref_dollar {w : Str} (h : IsName w) {l c : Str} (e : ref w = l ++ c) (hl : l ≠ []) : '$' ∉ c := by
  obtain ⟨d, l', rfl⟩ := List.exists_cons_of_ne_nil hl
  simp only [ref, List.cons_append, List.cons.injEq] at e
  intro hc
  have : '$' ∈ ('{' :: (w ++ ['}'])) := by rw [e.2]; simp [hc]
  simp only [List.mem_cons, List.mem_append, List.not_mem_nil, or_false] at this
  rcases this with h1 | h1 | h1
  · exact absurd h1 (by decide)
  · exact word_not (h.2 _ h1) dollar_not_word rfl
  · exact absurd h1 (by decide)

/-- A reference does not run into a dollar sign. -/
theorem refAt_dollar {l r : Str} (hl : l ≠ []) :
    refAt (l ++ '$' :: r) = (refAt l).map fun p => (p.1, p.2 ++ '$' :: r) := by
  cases h : refAt l with
  | some p =>
    obtain ⟨w, rest⟩ := p
    obtain ⟨e, hn⟩ := refAt_iff.1 h
    exact refAt_iff.2 ⟨by rw [e]; simp, hn⟩
  | none =>
    cases h2 : refAt (l ++ '$' :: r) with
    | none => rfl
    | some p =>
      obtain ⟨w, rest⟩ := p
      obtain ⟨e, hn⟩ := refAt_iff.1 h2
      exfalso
      rcases List.append_eq_append_iff.1 e with ⟨c, e1, e2⟩ | ⟨c, e1, e2⟩
      · cases c with
        | nil =>
          rw [List.append_nil] at e1
          rw [refAt_iff (w := w) (rest := []) |>.2 ⟨by rw [e1]; simp, hn⟩] at h
          simp at h
        | cons d c =>
          simp only [List.cons_append, List.cons.injEq] at e2
          exact ref_dollar hn e1 hl (by rw [e2.1]; simp)
      · rw [refAt_iff (w := w) (rest := c) |>.2 ⟨e1, hn⟩] at h
        simp at h

/-- A reference ends at a closing brace. -/
theorem refAt_close (l r : Str) :
    refAt (l ++ '}' :: r) = (refAt (l ++ ['}'])).map fun p => (p.1, p.2 ++ r) := by
  cases h : refAt (l ++ ['}']) with
  | some p =>
    obtain ⟨w, rest⟩ := p
    obtain ⟨e, hn⟩ := refAt_iff.1 h
    refine refAt_iff.2 ⟨?_, hn⟩
    have : l ++ '}' :: r = (l ++ ['}']) ++ r := by simp
    rw [this, e]
    simp
  | none =>
    cases h2 : refAt (l ++ '}' :: r) with
    | none => rfl
    | some p =>
      obtain ⟨w, rest⟩ := p
      obtain ⟨e, hn⟩ := refAt_iff.1 h2
      exfalso
      have e' : (l ++ ['}']) ++ r = ref w ++ rest := by simpa using e
      rcases List.append_eq_append_iff.1 e' with ⟨c, e1, e2⟩ | ⟨c, e1, e2⟩
      · rcases List.eq_nil_or_concat c with rfl | ⟨c', d, rfl⟩
        · rw [List.append_nil] at e1
          rw [refAt_iff (w := w) (rest := []) |>.2 ⟨by rw [e1]; simp, hn⟩] at h
          simp at h
        · -- the brace is inside of the reference
          have e3 : '$' :: '{' :: w = (l ++ ['}']) ++ c' := by
            have : ('$' :: '{' :: w) ++ ['}'] = ((l ++ ['}']) ++ c') ++ [d] := by
              rw [show ('$' :: '{' :: w) ++ ['}'] = ref w from rfl, e1]; simp
            exact (List.append_inj' this rfl).1
          have : '}' ∈ '$' :: '{' :: w := by rw [e3]; simp
          simp only [List.mem_cons] at this
          rcases this with h1 | h1 | h1
          · exact absurd h1 (by decide)
          · exact absurd h1 (by decide)
          · exact word_not (hn.2 _ h1) close_not_word rfl
      · rw [refAt_iff (w := w) (rest := c) |>.2 ⟨e1, hn⟩] at h
        simp at h

/-! ## One round -/

theorem refAt_length {s w rest : Str} (h : refAt s = some (w, rest)) : rest.length < s.length := by
  rw [(refAt_iff.1 h).1]
  simp [ref]
  omega

theorem subRefs_fuel (vars : Vars) : ∀ (n m : Nat) (s : Str), s.length ≤ n → s.length ≤ m → subRefs vars n s = subRefs vars m s
  | 0, 0, s, _, _ => rfl
  | 0, m + 1, [], _, _ => rfl
  | n + 1, 0, [], _, _ => rfl
  | n + 1, m + 1, [], _, _ => rfl
  | n + 1, m + 1, c :: cs, h1, h2 => by
    simp only [List.length_cons] at h1 h2
    simp only [subRefs]
    split
    · rename_i w rest e
      have := refAt_length e
      simp only [List.length_cons] at this
      rw [subRefs_fuel vars n m rest (by omega) (by omega)]
    · rw [subRefs_fuel vars n m cs (by omega) (by omega)]

/-- One round of replacements. -/
def sub (vars : Vars) (s : Str) : Str := subRefs vars s.length s

theorem sub_nil (vars : Vars) : sub vars [] = [] := rfl

theorem sub_none {vars : Vars} {c : Char} {cs : Str} (h : refAt (c :: cs) = none) : sub vars (c :: cs) = c :: sub vars cs := by
  simp [sub, subRefs, h]

theorem sub_some {vars : Vars} {s w rest : Str} (h : refAt s = some (w, rest)) : sub vars s = valueOf vars w ++ sub vars rest := by
  cases s with
  | nil => simp [refAt] at h
  | cons c cs =>
    have := refAt_length h
    simp only [List.length_cons] at this
    simp only [sub, List.length_cons, subRefs, h]
    rw [subRefs_fuel vars cs.length rest.length rest (by omega) (by omega)]

theorem sub_dollar (vars : Vars) (r : Str) : ∀ (n : Nat) (l : Str), l.length ≤ n →
    sub vars (l ++ '$' :: r) = sub vars l ++ sub vars ('$' :: r)
  | _, [], _ => rfl
  | n + 1, c :: cs, h => by
    have e := refAt_dollar (l := c :: cs) (r := r) (by simp)
    cases hr : refAt (c :: cs) with
    | none =>
      rw [hr] at e
      rw [List.cons_append, sub_none (by simpa using e), sub_none hr, sub_dollar vars r n cs (by simpa using h)]
      rfl
    | some p =>
      obtain ⟨w, rest⟩ := p
      rw [hr] at e
      have := refAt_length hr
      simp only [List.length_cons] at this h
      rw [sub_some e, sub_some hr, sub_dollar vars r n rest (by omega), List.append_assoc]

theorem sub_close (vars : Vars) (r : Str) : ∀ (n : Nat) (l : Str), l.length ≤ n →
    sub vars (l ++ '}' :: r) = sub vars (l ++ ['}']) ++ sub vars r
  | _, [], _ => by
    have h : ∀ x, refAt ('}' :: x) = none := by
      intro x
      cases h : refAt ('}' :: x) with
      | none => rfl
      | some p =>
        obtain ⟨e, _⟩ := refAt_iff.1 (show refAt ('}' :: x) = some (p.1, p.2) from h)
        simp [ref] at e
    rw [List.nil_append, List.nil_append, sub_none (h _), sub_none (h _)]
    rfl
  | n + 1, c :: cs, h => by
    have e := refAt_close (c :: cs) r
    cases hr : refAt (c :: cs ++ ['}']) with
    | none =>
      rw [hr] at e
      rw [List.cons_append, List.cons_append, sub_none (by simpa using e), sub_none (by simpa using hr),
        sub_close vars r n cs (by simpa using h)]
      rfl
    | some p =>
      obtain ⟨w, rest⟩ := p
      rw [hr] at e
      have hlen := refAt_length hr
      obtain ⟨e1, hn⟩ := refAt_iff.1 hr
      rw [sub_some e, sub_some hr, List.append_assoc]
      congr 1
      -- the rest ends with the brace, or is empty
      rcases List.eq_nil_or_concat rest with rfl | ⟨rest', d, rfl⟩
      · rfl
      · rw [List.concat_eq_append] at *
        have e2 : d = '}' := by
          have : (c :: cs) ++ ['}'] = (ref w ++ rest') ++ [d] := by rw [e1]; simp
          have := (List.append_inj' this rfl).2
          simpa using this.symm
        subst e2
        simp only [List.length_cons, List.length_append, List.length_nil] at hlen h
        have := sub_close vars r n rest' (by omega)
        simpa using this

theorem hasRef_append_left (l : Str) {r : Str} (h : hasRef r = true) : hasRef (l ++ r) = true := by
  induction l with
  | nil => exact h
  | cons c l ih => simp [hasRef, ih]

theorem hasRef_ref {w : Str} (h : IsName w) (l r : Str) : hasRef (l ++ (ref w ++ r)) = true := by
  refine hasRef_append_left l ?_
  have e : refAt (ref w ++ r) = some (w, r) := refAt_iff.2 ⟨rfl, h⟩
  have : ref w ++ r = '$' :: ('{' :: (w ++ ['}']) ++ r) := rfl
  rw [this] at e ⊢
  simp only [hasRef, e]
  rfl

/-! ## When it ends -/

theorem hasRef_dollar {s : Str} (h : hasRef s = true) : '$' ∈ s := by
  induction s with
  | nil => simp [hasRef] at h
  | cons c cs ih =>
    simp only [hasRef, Bool.or_eq_true] at h
    rcases h with h | h
    · obtain ⟨p, hp⟩ := Option.isSome_iff_exists.1 h
      obtain ⟨e, _⟩ := refAt_iff.1 (show refAt (c :: cs) = some (p.1, p.2) from hp)
      simp only [ref, List.cons_append, List.cons.injEq] at e
      simp [e.1]
    · simp [ih h]

/-- No value has a dollar sign. -/
def Flat (vars : Vars) : Prop := ∀ p ∈ vars, '$' ∉ p.2

theorem lookup_mem {vars : Vars} {w v : Str} (h : vars.lookup w = some v) : ∃ k, (k, v) ∈ vars := by
  induction vars with
  | nil => simp at h
  | cons p vars ih =>
    obtain ⟨k, x⟩ := p
    simp only [List.lookup_cons] at h
    split at h
    · simp only [Option.some.injEq] at h
      subst h
      exact ⟨k, by simp⟩
    · obtain ⟨k', hk⟩ := ih h
      exact ⟨k', by simp [hk]⟩

theorem Flat.value {vars : Vars} (h : Flat vars) (w : Str) : '$' ∉ valueOf vars w := by
  unfold valueOf
  cases e : vars.lookup w with
  | none => simp
  | some v =>
    obtain ⟨k, hk⟩ := lookup_mem e
    exact h _ hk

theorem name_dollar {w : Str} (h : IsName w) : '$' ∉ w := fun hc => word_not (h.2 _ hc) dollar_not_word rfl

theorem sub_count {vars : Vars} (hf : Flat vars) : ∀ (n : Nat) (s : Str), s.length ≤ n →
    (sub vars s).count '$' ≤ s.count '$' ∧ (hasRef s = true → (sub vars s).count '$' < s.count '$')
  | _, [], _ => by simp [sub_nil, hasRef]
  | n + 1, c :: cs, h => by
    simp only [List.length_cons] at h
    cases hr : refAt (c :: cs) with
    | none =>
      have ih := sub_count hf n cs (by omega)
      rw [sub_none hr]
      simp only [hasRef, hr, List.count_cons]
      refine ⟨by omega, fun hx => ?_⟩
      have := ih.2 (by simpa using hx)
      omega
    | some p =>
      obtain ⟨w, rest⟩ := p
      have hl := refAt_length hr
      simp only [List.length_cons] at hl
      have ih := (sub_count hf n rest (by omega)).1
      obtain ⟨e, hn⟩ := refAt_iff.1 hr
      rw [sub_some hr, e]
      have h0 : (valueOf vars w).count '$' = 0 := List.count_eq_zero.2 (hf.value w)
      have h1 : (ref w ++ rest).count '$' = 1 + rest.count '$' := by
        have h2 : w.count '$' = 0 := List.count_eq_zero.2 (name_dollar hn)
        simp [ref, h2]
        omega
      rw [List.count_append, h0, h1]
      exact ⟨by omega, fun _ => by omega⟩

/-- **Replacing references ends** if no variable has a dollar sign in its value. -/
theorem replaceRefs_ends {vars : Vars} (hf : Flat vars) : ∀ (n : Nat) (s : Str), s.count '$' < n →
    ∃ v, replaceRefs vars n s = some v
  | 0, s, h => by omega
  | n + 1, s, h => by
    simp only [replaceRefs]
    split
    · rename_i hr
      have := (sub_count hf _ s (Nat.le_refl _)).2 hr
      exact replaceRefs_ends hf n _ (show (sub vars s).count '$' < n by omega)
    · exact ⟨s, rfl⟩

theorem replaceRefs_mono {vars : Vars} : ∀ {n m : Nat} {s v : Str}, replaceRefs vars n s = some v → n ≤ m →
    replaceRefs vars m s = some v
  | 0, _, _, _, h, _ => by simp [replaceRefs] at h
  | n + 1, 0, _, _, _, hm => by omega
  | n + 1, m + 1, s, v, h, hm => by
    simp only [replaceRefs] at h ⊢
    split at h
    · rename_i hr
      rw [if_pos hr]
      exact replaceRefs_mono h (by omega)
    · rename_i hr
      rw [if_neg hr]
      exact h

theorem replaceRefs_plain {vars : Vars} {n : Nat} {s : Str} (hn : 0 < n) (h : hasRef s = false) : replaceRefs vars n s = some s := by
  cases n with
  | zero => omega
  | succ n => simp [replaceRefs, h]

/-! ## Texts whose dollar signs all begin references -/

/-- Every dollar sign begins a reference `${name}`. -/
inductive Simple : Str → Prop
  | nil : Simple []
  | char {c : Char} {cs : Str} : c ≠ '$' → Simple cs → Simple (c :: cs)
  | ref {w cs : Str} : IsName w → Simple cs → Simple (ref w ++ cs)

theorem Simple.append {a b : Str} (h : Simple a) (hb : Simple b) : Simple (a ++ b) := by
  induction h with
  | nil => exact hb
  | char h1 _ ih => exact .char h1 ih
  | ref h1 _ ih => rw [List.append_assoc]; exact .ref h1 ih

theorem Simple.noDollar {s : Str} (h : Simple s) (hr : hasRef s = false) : '$' ∉ s := by
  induction h with
  | nil => simp
  | char h1 _ ih =>
    simp only [hasRef, Bool.or_eq_false_iff] at hr
    simp only [List.mem_cons, not_or]
    exact ⟨fun e => h1 e.symm, ih hr.2⟩
  | ref h1 _ _ =>
    have := hasRef_ref h1 [] ‹_›
    rw [List.nil_append] at this
    rw [this] at hr
    cases hr

theorem Simple.sub {vars : Vars} (hf : Flat vars) {s : Str} (h : Simple s) : '$' ∉ sub vars s := by
  induction h with
  | nil => simp [sub_nil]
  | @char c cs h1 _ ih =>
    have hr : refAt (c :: cs) = none := by
      cases hr : refAt (c :: cs) with
      | none => rfl
      | some p =>
        obtain ⟨e, _⟩ := refAt_iff.1 (show refAt (c :: cs) = some (p.1, p.2) from hr)
        simp only [Gen.ref, List.cons_append, List.cons.injEq] at e
        exact absurd e.1 h1
    rw [sub_none hr]
    simp only [List.mem_cons, not_or]
    exact ⟨fun e => h1 e.symm, ih⟩
  | @ref w cs h1 _ ih =>
    rw [sub_some (refAt_iff.2 ⟨rfl, h1⟩), List.mem_append, not_or]
    exact ⟨hf.value w, ih⟩

theorem noDollar_hasRef {s : Str} (h : '$' ∉ s) : hasRef s = false := by
  cases hr : hasRef s with
  | false => rfl
  | true => exact absurd (hasRef_dollar hr) h

/-- The value of such a text has no dollar sign. -/
theorem Simple.value {vars : Vars} (hf : Flat vars) {s v : Str} (h : Simple s) {n : Nat} (hv : replaceRefs vars n s = some v) :
    '$' ∉ v := by
  cases n with
  | zero => simp [replaceRefs] at hv
  | succ n =>
    simp only [replaceRefs] at hv
    split at hv
    · have hs : '$' ∉ Gen.sub vars s := h.sub hf
      cases n with
      | zero => simp [replaceRefs] at hv
      | succ n =>
        rw [show subRefs vars s.length s = Gen.sub vars s from rfl,
          replaceRefs_plain (by omega) (noDollar_hasRef hs)] at hv
        simp only [Option.some.injEq] at hv
        rwa [← hv]
    · rename_i hr
      simp only [Option.some.injEq] at hv
      rw [← hv]
      exact h.noDollar (by simpa using hr)

theorem Simple.dropQuotes {s : Str} (h : Simple s) : Simple (s.dropWhile (· == '"')) := by
  induction h with
  | nil => exact .nil
  | @char c cs h1 h2 ih =>
    rw [List.dropWhile_cons]
    split
    · exact ih
    · exact .char h1 h2
  | @ref w cs h1 h2 _ =>
    have : (Gen.ref w ++ cs).dropWhile (· == '"') = Gen.ref w ++ cs := by
      rw [show Gen.ref w ++ cs = '$' :: ('{' :: (w ++ ['}']) ++ cs) from rfl, List.dropWhile_cons_of_neg (by decide)]
    rw [this]
    exact .ref h1 h2

theorem Simple.init {s : Str} (h : Simple s) : ∀ t, s = t ++ ['"'] → Simple t := by
  induction h with
  | nil => intro t e; simp at e
  | @char c cs h1 h2 ih =>
    intro t e
    cases t with
    | nil => exact .nil
    | cons d t =>
      simp only [List.cons_append, List.cons.injEq] at e
      rw [← e.1]
      exact .char h1 (ih t e.2)
  | @ref w cs h1 h2 ih =>
    intro t e
    rcases List.eq_nil_or_concat cs with rfl | ⟨cs', d, rfl⟩
    · exfalso
      rw [List.append_nil, show Gen.ref w = ('$' :: '{' :: w) ++ ['}'] from rfl] at e
      exact absurd (List.append_inj' e rfl).2 (by decide)
    · rw [List.concat_eq_append] at *
      rw [← List.append_assoc] at e
      obtain ⟨e1, e2⟩ := List.append_inj' e rfl
      rw [← e1]
      exact .ref h1 (ih cs' (by rw [e2]))

theorem Simple.strip {s : Str} (h : Simple s) : Simple (stripQuotes s) := by
  have key : ∀ (n : Nat) (s : Str), s.length ≤ n → Simple s → Simple (rstripBy (· == '"') s) := by
    intro n
    induction n with
    | zero =>
      intro s hn hs
      have : s = [] := by simpa using hn
      subst this
      exact .nil
    | succ n ih =>
      intro s hn hs
      rcases List.eq_nil_or_concat s with rfl | ⟨t, d, rfl⟩
      · exact .nil
      · rw [List.concat_eq_append] at *
        by_cases hd : d = '"'
        · subst hd
          have e : rstripBy (· == '"') (t ++ ['"']) = rstripBy (· == '"') t := by simp [rstripBy]
          rw [e]
          exact ih t (by simp at hn; omega) (hs.init t rfl)
        · have e : rstripBy (· == '"') (t ++ [d]) = t ++ [d] := by simp [rstripBy, hd]
          rw [e]
          exact hs
  exact key _ _ (Nat.le_refl _) h.dropQuotes

theorem Simple.join {l : List Str} (h : ∀ s ∈ l, Simple s) : Simple (join (S ";") l) := by
  induction l with
  | nil => exact .nil
  | cons s l ih =>
    cases l with
    | nil => exact h s (by simp)
    | cons t l =>
      rw [Py.join]
      · have hsep : Simple (S ";") := .char (by decide) .nil
        exact ((h s (by simp)).append hsep).append (ih fun u hu => h u (by simp [hu]))
      · simp

end Verif.Gen
