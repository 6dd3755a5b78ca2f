import Verif.LintLemmas

/-!
# Properties of the line checks of cmake-lint: C43 and C51
-/

namespace Verif.Lint
open Verif Py

/-! ## Specification -/

/-- `line` is line number `n` of `text`, counted from one: what stands between two
consecutive newlines, or between a newline and an end of the text. -/
def IsLine (text : Str) (n : Nat) (line : Str) : Prop :=
  ∃ pre post, text = pre ++ line ++ post ∧ '\n' ∉ line ∧
    (pre = [] ∨ pre.getLast? = some '\n') ∧ (post = [] ∨ post.head? = some '\n') ∧
    n = pre.count '\n' + 1

/-- `IsLine` for a line that ends in a newline, not at the end of the text. -/
def IsEndedLine (text : Str) (n : Nat) (line : Str) : Prop :=
  ∃ pre post, text = pre ++ line ++ '\n' :: post ∧ '\n' ∉ line ∧
    (pre = [] ∨ pre.getLast? = some '\n') ∧ n = pre.count '\n' + 1

/-- The part of a line that is checked for blanks: without the carriage return of a Windows
line ending. -/
def Visible (line v : Str) : Prop := line = v ++ ['\r'] ∨ (line = v ∧ ∀ w, line ≠ w ++ ['\r'])

/-! ## Lemmas -/

theorem splitOn_cases (text : Str) :
    ('\n' ∉ text ∧ splitOn '\n' text = [text]) ∨
      ∃ a b, '\n' ∉ a ∧ text = a ++ '\n' :: b ∧ splitOn '\n' text = a :: splitOn '\n' b := by
  by_cases h : '\n' ∈ text
  · obtain ⟨a, b, rfl, ha⟩ := List.eq_append_cons_of_mem h
    exact .inr ⟨a, b, ha, rfl, splitOn_append_sep ha b⟩
  · exact .inl ⟨h, splitOn_of_not_mem h⟩

theorem isLine_of_get (text line : Str) (k : Nat) (h : (splitOn '\n' text)[k]? = some line) :
    IsLine text (k + 1) line := by
  induction k generalizing text with
  | zero =>
    rcases splitOn_cases text with ⟨hn, hs⟩ | ⟨a, b, ha, rfl, hs⟩
    · rw [hs] at h
      simp only [List.getElem?_cons_zero, Option.some.injEq] at h
      subst h
      exact ⟨[], [], by simp, hn, .inl rfl, .inl rfl, by simp⟩
    · rw [hs] at h
      simp only [List.getElem?_cons_zero, Option.some.injEq] at h
      subst h
      exact ⟨[], '\n' :: b, by simp, ha, .inl rfl, .inr rfl, by simp⟩
  | succ k ih =>
    rcases splitOn_cases text with ⟨hn, hs⟩ | ⟨a, b, ha, rfl, hs⟩
    · rw [hs] at h; simp at h
    · rw [hs, List.getElem?_cons_succ] at h
      obtain ⟨pre, post, rfl, hl, hp, hq, hc⟩ := ih b h
      refine ⟨a ++ '\n' :: pre, post, by simp, hl, .inr ?_, hq, ?_⟩
      · rcases hp with rfl | hp
        · simp
        · rw [List.getLast?_append]; simp [List.getLast?_cons, hp]
      · simp only [List.count_append, List.count_cons_self, List.count_eq_zero.2 ha]
        omega

theorem get_of_isLine (text line : Str) (k : Nat) (h : IsLine text (k + 1) line) :
    (splitOn '\n' text)[k]? = some line := by
  induction k generalizing text with
  | zero =>
    obtain ⟨pre, post, rfl, hl, hp, hq, hc⟩ := h
    have h0 : pre.count '\n' = 0 := by omega
    rw [List.count_eq_zero] at h0
    have hpre : pre = [] := by
      rcases hp with h | h
      · exact h
      · exact absurd (List.mem_of_getLast? h) h0
    subst hpre
    cases post with
    | nil => simp [splitOn_of_not_mem hl]
    | cons c p =>
      simp only [List.head?_cons, Option.some.injEq, reduceCtorEq, false_or] at hq
      subst hq
      simp [splitOn_append_sep hl]
  | succ k ih =>
    obtain ⟨pre, post, rfl, hl, hp, hq, hc⟩ := h
    have hm : '\n' ∈ pre := by
      apply Classical.byContradiction
      intro hn
      rw [List.count_eq_zero.2 hn] at hc
      omega
    obtain ⟨a, b, rfl, ha⟩ := List.eq_append_cons_of_mem hm
    have e : a ++ '\n' :: b ++ line ++ post = a ++ '\n' :: (b ++ line ++ post) := by simp
    rw [e, splitOn_append_sep ha, List.getElem?_cons_succ]
    apply ih
    refine ⟨b, post, rfl, hl, ?_, hq, ?_⟩
    · cases hb : b with
      | nil => exact .inl rfl
      | cons x xs =>
        right
        rcases hp with hp | hp
        · simp at hp
        · rw [hb, List.getLast?_append] at hp
          simpa [List.getLast?_cons_cons] using hp
    · simp only [List.count_append, List.count_cons_self, List.count_eq_zero.2 ha] at hc
      omega

theorem isLine_iff (text line : Str) (n : Nat) :
    IsLine text n line ↔ 1 ≤ n ∧ (splitOn '\n' text)[n - 1]? = some line := by
  cases n with
  | zero =>
    constructor
    · rintro ⟨_, _, _, _, _, _, h⟩; omega
    · rintro ⟨h, _⟩; omega
  | succ k =>
    simp only [Nat.add_sub_cancel, Nat.le_add_left, true_and]
    exact ⟨get_of_isLine text line k, isLine_of_get text line k⟩

theorem mem_checkLines (cfg : Cfg) (r : Rec) (n : Nat) (ls : List Str) :
    r ∈ checkLines cfg n ls ↔ ∃ k line, ls[k]? = some line ∧ r ∈ checkLine cfg (n + k) line := by
  induction ls generalizing n with
  | nil => simp [checkLines]
  | cons l ls ih =>
    simp only [checkLines, List.mem_append, ih]
    constructor
    · rintro (h | ⟨k, line, hk, h⟩)
      · exact ⟨0, l, rfl, h⟩
      · exact ⟨k + 1, line, by simpa using hk, by
          have e : n + (k + 1) = n + 1 + k := by omega
          rw [e]; exact h⟩
    · rintro ⟨k, line, hk, h⟩
      cases k with
      | zero => simp only [List.getElem?_cons_zero, Option.some.injEq] at hk; subst hk; exact .inl h
      | succ k =>
        refine .inr ⟨k, line, by simpa using hk, ?_⟩
        have e : n + 1 + k = n + (k + 1) := by omega
        rw [e]; exact h

theorem checkLine_loc (cfg : Cfg) (n : Nat) (line : Str) (r : Rec) (h : r ∈ checkLine cfg n line) :
    ∃ t, r.loc = n :: t := by
  simp only [checkLine, List.mem_append, checkLength, checkEnding, checkTrailing, checkIndent] at h
  grind

/-- Membership of a record that is not the one on the final newline. -/
theorem mem_checkBasics (cfg : Cfg) (text : Str) (r : Rec) (hid : r.id ≠ S "C0304") :
    r ∈ checkBasics cfg text ↔ ∃ n line, IsLine text n line ∧ r ∈ checkLine cfg n line := by
  simp only [checkBasics, List.mem_append, mem_checkLines]
  constructor
  · rintro (⟨k, line, hk, h⟩ | h)
    · exact ⟨k + 1, line, isLine_of_get text line k hk, by rw [Nat.add_comm]; exact h⟩
    · split at h
      · simp at h
      · simp only [List.mem_singleton] at h; subst h; exact absurd rfl hid
  · rintro ⟨n, line, hl, h⟩
    obtain ⟨h1, h2⟩ := (isLine_iff text line n).1 hl
    refine .inl ⟨n - 1, line, h2, ?_⟩
    have e : 1 + (n - 1) = n := by omega
    rw [e]; exact h

theorem isLine_unique {text : Str} {n : Nat} {l l' : Str} (h : IsLine text n l)
    (h' : IsLine text n l') : l = l' := by
  have h1 := ((isLine_iff _ _ _).1 h).2
  have h2 := ((isLine_iff _ _ _).1 h').2
  rw [h1] at h2
  exact Option.some.inj h2

theorem endsCR_iff (line : Str) : endsCR line = true ↔ ∃ w, line = w ++ ['\r'] := by
  unfold endsCR
  rw [beq_iff_eq, List.getLast?_eq_some_iff]

theorem visible_iff (line v : Str) : Visible line v ↔ chopCR line = v := by
  unfold Visible chopCR
  by_cases h : endsCR line = true
  · obtain ⟨w, rfl⟩ := (endsCR_iff line).1 h
    simp only [h, if_true, List.dropLast_concat]
    constructor
    · rintro (e | ⟨rfl, e⟩)
      · exact List.append_cancel_right e
      · exact absurd rfl (e w)
    · rintro rfl; exact .inl rfl
  · have hn : ∀ w, line ≠ w ++ ['\r'] := fun w e => h ((endsCR_iff line).2 ⟨w, e⟩)
    simp only [h, Bool.false_eq_true, if_false]
    constructor
    · rintro (e | ⟨rfl, _⟩)
      · exact absurd e (hn v)
      · rfl
    · rintro rfl; exact .inr ⟨rfl, hn⟩

theorem rstrip_length_ne (f : Char → Bool) (v : Str) :
    (rstripBy f v).length ≠ v.length ↔ ∃ w c, v = w ++ [c] ∧ f c = true := by
  unfold rstripBy
  rw [List.length_reverse]
  rcases List.eq_nil_or_concat v with rfl | ⟨w, c, rfl⟩
  · simp
  · simp only [List.concat_eq_append, List.reverse_append, List.reverse_cons, List.reverse_nil,
      List.nil_append, List.cons_append, List.length_append, List.length_cons, List.length_nil]
    by_cases hc : f c = true
    · rw [List.dropWhile_cons_of_pos hc]
      have := (List.dropWhile_suffix f (l := w.reverse)).length_le
      rw [List.length_reverse] at this
      constructor
      · intro _; exact ⟨w, c, rfl, hc⟩
      · intro _; omega
    · rw [List.dropWhile_cons_of_neg hc]
      simp only [List.length_cons, List.length_reverse, Nat.zero_add, ne_eq, not_true, false_iff]
      rintro ⟨w', c', e, h⟩
      have := List.append_inj' e rfl
      simp only [List.cons.injEq, and_true] at this
      exact hc (this.2 ▸ h)

/-! ## C43: line length, trailing blanks, final newline, indentation -/

/-- C43.  There is a line-length record for line `n` iff line `n` exists and is longer than
`line_width`; it names the length and the limit. -/
theorem length_exact (cfg : Cfg) (text : Str) (n : Nat) (args : List Str) :
    ⟨S "C0301", [n], args⟩ ∈ checkBasics cfg text ↔
      ∃ line, IsLine text n line ∧ line.length > cfg.lineWidth ∧
        args = [natStr line.length, natStr cfg.lineWidth] := by
  rw [mem_checkBasics cfg text _ (by simp only; decide)]
  constructor
  · rintro ⟨m, line, hl, h⟩
    obtain ⟨t, ht⟩ := checkLine_loc _ _ _ _ h
    simp only [List.cons.injEq] at ht
    obtain ⟨rfl, -⟩ := ht
    refine ⟨line, hl, ?_⟩
    simp only [checkLine, List.mem_append, checkLength, checkEnding, checkTrailing, checkIndent] at h
    have e1 : S "C0301" ≠ S "C0327" := by decide
    have e2 : S "C0301" ≠ S "C0303" := by decide
    have e3 : S "C0301" ≠ S "C0306" := by decide
    grind
  · rintro ⟨line, hl, h, rfl⟩
    exact ⟨n, line, hl, by simp [checkLine, checkLength, h]⟩

/-- C43.  There is a trailing-whitespace record for line `n` iff line `n` exists and, without the
carriage return of its ending, ends in a blank. -/
theorem trailing_exact (cfg : Cfg) (text : Str) (n : Nat) :
    (∃ args, ⟨S "C0303", [n], args⟩ ∈ checkBasics cfg text) ↔
      ∃ line v w c, IsLine text n line ∧ Visible line v ∧ v = w ++ [c] ∧ isBlank c = true := by
  constructor
  · rintro ⟨args, h⟩
    rw [mem_checkBasics cfg text _ (by simp only; decide)] at h
    obtain ⟨m, line, hl, h⟩ := h
    obtain ⟨t, ht⟩ := checkLine_loc _ _ _ _ h
    simp only [List.cons.injEq] at ht
    obtain ⟨rfl, -⟩ := ht
    have h' : (rstripBy isBlank (chopCR line)).length ≠ (chopCR line).length := by
      simp only [checkLine, List.mem_append, checkLength, checkEnding, checkTrailing, checkIndent] at h
      have e1 : S "C0303" ≠ S "C0327" := by decide
      have e2 : S "C0303" ≠ S "C0301" := by decide
      have e3 : S "C0303" ≠ S "C0306" := by decide
      grind
    obtain ⟨w, c, e, hc⟩ := (rstrip_length_ne _ _).1 h'
    exact ⟨line, chopCR line, w, c, hl, (visible_iff _ _).2 rfl, e, hc⟩
  · rintro ⟨line, v, w, c, hl, hv, e, hc⟩
    refine ⟨[], (mem_checkBasics cfg text _ (by simp only; decide)).2 ⟨n, line, hl, ?_⟩⟩
    have := (rstrip_length_ne isBlank v).2 ⟨w, c, e, hc⟩
    rw [(visible_iff _ _).1 hv |>.symm] at this
    simp [checkLine, checkTrailing, this]

/-- The number of the last line. -/
theorem splitOn_length (text : Str) : (splitOn '\n' text).length = text.count '\n' + 1 := by
  induction hn : text.length using Nat.strongRecOn generalizing text with
  | ind n ih =>
    rcases splitOn_cases text with ⟨h, hs⟩ | ⟨a, b, ha, rfl, hs⟩
    · rw [hs, List.count_eq_zero.2 h]; rfl
    · rw [hs]
      have := ih b.length (by simp at hn; omega) b rfl
      simp [this, List.count_append, List.count_eq_zero.2 ha]

/-- C43.  There is a missing-final-newline record iff the text does not end in a newline; it is
on the last line. -/
theorem final_newline_exact (cfg : Cfg) (text : Str) (r : Rec) (hid : r.id = S "C0304") :
    r ∈ checkBasics cfg text ↔
      (¬ ∃ t, text = t ++ ['\n']) ∧ r.loc = [text.count '\n' + 1] ∧ r.args = [] := by
  have hno : r ∉ checkLines cfg 1 (splitOn '\n' text) := by
    rw [mem_checkLines]
    rintro ⟨k, line, _, h⟩
    simp only [checkLine, List.mem_append, checkLength, checkEnding, checkTrailing, checkIndent] at h
    have e0 : S "C0304" ≠ S "C0303" := by decide
    have e1 : S "C0304" ≠ S "C0327" := by decide
    have e2 : S "C0304" ≠ S "C0301" := by decide
    have e3 : S "C0304" ≠ S "C0306" := by decide
    grind
  simp only [checkBasics, List.mem_append, hno, false_or, splitOn_length]
  rw [← List.getLast?_eq_some_iff]
  obtain ⟨i, l, a⟩ := r
  simp only at hid
  subst hid
  split
  · rename_i h; simp [h]
  · rename_i h; simp [h]

theorem takeWhile_get_iff (p : Char → Bool) (l : Str) (k : Nat) (c : Char) :
    (l.takeWhile p)[k]? = some c ↔
      l[k]? = some c ∧ ∀ j, j ≤ k → ∀ d, l[j]? = some d → p d = true := by
  induction l generalizing k with
  | nil => simp
  | cons x xs ih =>
    by_cases hx : p x = true
    · rw [List.takeWhile_cons_of_pos hx]
      cases k with
      | zero =>
        simp only [List.getElem?_cons_zero, Option.some.injEq]
        constructor
        · rintro rfl
          refine ⟨rfl, fun j hj d hd => ?_⟩
          obtain rfl : j = 0 := by omega
          simp only [List.getElem?_cons_zero, Option.some.injEq] at hd
          exact hd ▸ hx
        · rintro ⟨h, _⟩; exact h
      | succ k =>
        simp only [List.getElem?_cons_succ, ih]
        constructor
        · rintro ⟨h, hj⟩
          refine ⟨h, fun j hjk d hd => ?_⟩
          cases j with
          | zero => simp only [List.getElem?_cons_zero, Option.some.injEq] at hd; exact hd ▸ hx
          | succ j => exact hj j (by omega) d (by simpa using hd)
        · rintro ⟨h, hj⟩
          exact ⟨h, fun j hjk d hd => hj (j + 1) (by omega) d (by simpa using hd)⟩
    · rw [List.takeWhile_cons_of_neg hx]
      simp only [List.getElem?_nil, reduceCtorEq, false_iff]
      rintro ⟨_, h⟩
      exact hx (h 0 (by omega) x rfl)

theorem idxOf_iff (l : Str) (c : Char) (k : Nat) :
    (c ∈ l ∧ l.idxOf c = k) ↔ l[k]? = some c ∧ ∀ j, j < k → l[j]? ≠ some c := by
  induction l generalizing k with
  | nil => simp
  | cons x xs ih =>
    by_cases hx : x = c
    · subst hx
      simp only [List.mem_cons, true_or, true_and, List.idxOf_cons_self]
      constructor
      · rintro rfl; simp
      · rintro ⟨h, hj⟩
        cases k with
        | zero => rfl
        | succ k => exact absurd rfl (hj 0 (by omega))
    · have hb : (x == c) = false := by simpa using hx
      rw [List.idxOf_cons, hb]
      simp only [cond_false, List.mem_cons]
      cases k with
      | zero =>
        simp only [List.getElem?_cons_zero, Option.some.injEq, hx, false_and, iff_false]
        rintro ⟨_, h⟩
        omega
      | succ k =>
        have := ih k
        simp only [List.getElem?_cons_succ]
        constructor
        · rintro ⟨h, he⟩
          have hm : c ∈ xs := h.resolve_left (fun e => hx e.symm)
          obtain ⟨h1, h2⟩ := this.1 ⟨hm, by omega⟩
          refine ⟨h1, fun j hj => ?_⟩
          cases j with
          | zero => simpa using hx
          | succ j => simpa using h2 j (by omega)
        · rintro ⟨h1, h2⟩
          obtain ⟨a, b⟩ := this.2 ⟨h1, fun j hj => by simpa using h2 (j + 1) (by omega)⟩
          exact ⟨.inr a, by omega⟩

/-- C43, indentation with spaces.  There is a tab-policy record at line `n` and column `k` iff
that character is the first tab, and all before it are spaces. -/
theorem indent_spaces_exact (cfg : Cfg) (htab : cfg.useTabchars = false) (text : Str) (n k : Nat) :
    (∃ args, ⟨S "C0306", [n, k], args⟩ ∈ checkBasics cfg text) ↔
      ∃ line, IsLine text n line ∧ line[k]? = some '\t' ∧ ∀ j, j < k → line[j]? = some ' ' := by
  have key : ∀ line : Str,
      ('\t' ∈ (chopCR line).takeWhile (fun c => c == ' ' || c == '\t') ∧
        ((chopCR line).takeWhile (fun c => c == ' ' || c == '\t')).idxOf '\t' = k) ↔
      (line[k]? = some '\t' ∧ ∀ j, j < k → line[j]? = some ' ') := by
    intro line
    rw [idxOf_iff]
    have hchop : ∀ (m : Nat) (c : Char), c ≠ '\r' → ((chopCR line)[m]? = some c ↔ line[m]? = some c) := by
      intro m c hc
      unfold chopCR
      split
      · rename_i h
        obtain ⟨w, rfl⟩ := (endsCR_iff line).1 h
        rw [List.dropLast_concat]
        constructor
        · intro h
          rw [List.getElem?_append_left (List.getElem?_eq_some_iff.1 h).1]; exact h
        · intro h
          by_cases hm : m < w.length
          · rwa [List.getElem?_append_left hm] at h
          · rw [List.getElem?_append_right (by omega)] at h
            cases hh : m - w.length with
            | zero => rw [hh] at h; simp at h; exact absurd h.symm hc
            | succ z => rw [hh] at h; simp at h
      · rfl
    simp only [takeWhile_get_iff]
    constructor
    · rintro ⟨⟨h1, h2⟩, h3⟩
      refine ⟨(hchop k '\t' (by decide)).1 h1, fun j hj => ?_⟩
      have hlt : j < (chopCR line).length := by
        have := (List.getElem?_eq_some_iff.1 h1).1; omega
      have hd := h2 j (by omega) _ (List.getElem?_eq_getElem hlt)
      simp only [Bool.or_eq_true, beq_iff_eq] at hd
      rcases hd with hd | hd
      · rw [← hchop j ' ' (by decide), List.getElem?_eq_getElem hlt, hd]
      · exfalso
        apply h3 j hj
        rw [takeWhile_get_iff]
        refine ⟨by rw [List.getElem?_eq_getElem hlt, hd], fun i hi d hd' => h2 i (by omega) d hd'⟩
    · rintro ⟨h1, h2⟩
      refine ⟨⟨(hchop k '\t' (by decide)).2 h1, fun j hj d hd => ?_⟩, fun j hj h => ?_⟩
      · by_cases hjk : j = k
        · subst hjk
          rw [(hchop j '\t' (by decide)).2 h1] at hd
          simp only [Option.some.injEq] at hd; subst hd; rfl
        · rw [(hchop j ' ' (by decide)).2 (h2 j (by omega))] at hd
          simp only [Option.some.injEq] at hd; subst hd; rfl
      · rw [takeWhile_get_iff, (hchop j ' ' (by decide)).2 (h2 j hj)] at h
        simp at h
  constructor
  · rintro ⟨args, h⟩
    rw [mem_checkBasics cfg text _ (by simp only; decide)] at h
    obtain ⟨m, line, hl, h⟩ := h
    obtain ⟨t, ht⟩ := checkLine_loc _ _ _ _ h
    simp only [List.cons.injEq] at ht
    obtain ⟨rfl, -⟩ := ht
    refine ⟨line, hl, (key line).1 ?_⟩
    simp only [checkLine, List.mem_append, checkLength, checkEnding, checkTrailing, checkIndent, htab] at h
    have e1 : S "C0306" ≠ S "C0327" := by decide
    have e2 : S "C0306" ≠ S "C0301" := by decide
    have e3 : S "C0306" ≠ S "C0303" := by decide
    grind
  · rintro ⟨line, hl, h⟩
    obtain ⟨h1, h2⟩ := (key line).2 h
    refine ⟨[S "tab", S "space"], (mem_checkBasics cfg text _ (by simp only; decide)).2 ⟨n, line, hl, ?_⟩⟩
    simp [checkLine, checkIndent, htab, h1, h2]

/-- C43.  Every record of the line checks occurs once. -/
theorem checkBasics_nodup (cfg : Cfg) (text : Str) : (checkBasics cfg text).Nodup := by
  have hline : ∀ n line, (checkLine cfg n line).Nodup := by
    intro n line
    have e01 : S "C0301" ≠ S "C0327" := by decide
    have e02 : S "C0301" ≠ S "C0303" := by decide
    have e03 : S "C0301" ≠ S "C0306" := by decide
    have e12 : S "C0327" ≠ S "C0303" := by decide
    have e13 : S "C0327" ≠ S "C0306" := by decide
    have e23 : S "C0303" ≠ S "C0306" := by decide
    simp only [checkLine, List.nodup_append, checkLength, checkEnding, checkTrailing, checkIndent]
    refine ⟨⟨⟨?_, ?_, ?_⟩, ?_, ?_⟩, ?_, ?_⟩ <;> grind
  have hlines : ∀ ls n, (checkLines cfg n ls).Nodup := by
    intro ls
    induction ls with
    | nil => intro n; simp [checkLines]
    | cons l ls ih =>
      intro n
      rw [checkLines, List.nodup_append]
      refine ⟨hline n l, ih (n + 1), ?_⟩
      rintro a ha b hb rfl
      obtain ⟨t, ht⟩ := checkLine_loc _ _ _ _ ha
      obtain ⟨k, line, _, hk⟩ := (mem_checkLines _ _ _ _).1 hb
      obtain ⟨t', ht'⟩ := checkLine_loc _ _ _ _ hk
      rw [ht] at ht'
      simp only [List.cons.injEq] at ht'
      omega
  rw [checkBasics, List.nodup_append]
  refine ⟨hlines _ _, by split <;> simp, ?_⟩
  rintro a ha b hb rfl
  split at hb
  · simp at hb
  · simp only [List.mem_singleton] at hb
    subst hb
    obtain ⟨k, line, _, h⟩ := (mem_checkLines _ _ _ _).1 ha
    simp only [checkLine, List.mem_append, checkLength, checkEnding, checkTrailing, checkIndent] at h
    have e0 : S "C0304" ≠ S "C0303" := by decide
    have e1 : S "C0304" ≠ S "C0327" := by decide
    have e2 : S "C0304" ≠ S "C0301" := by decide
    have e3 : S "C0304" ≠ S "C0306" := by decide
    grind

/-- A text with a long second line, a blank at the end of the third and no final newline. -/
example : checkBasics { lineWidth := 5 } (S "ab\nabcdef\n\tx \nend") =
    [⟨S "C0301", [2], [S "6", S "5"]⟩, ⟨S "C0303", [3], []⟩,
     ⟨S "C0306", [3, 0], [S "tab", S "space"]⟩, ⟨S "C0304", [4], []⟩] := by decide +kernel

example : IsLine (S "ab\nabcdef\n\tx \nend") 2 (S "abcdef") :=
  ⟨S "ab\n", S "\n\tx \nend", by decide +kernel⟩

/-! ## C51: line endings -/

theorem mem_ending_iff (cfg : Cfg) (text : Str) (n : Nat) :
    (∃ args, ⟨S "C0327", [n], args⟩ ∈ checkBasics cfg text) ↔
      ∃ line, IsLine text n line ∧
        ((endsCR line = true ∧ cfg.lineEnding = S "unix") ∨
          (endsCR line = false ∧ cfg.lineEnding = S "windows")) := by
  constructor
  · rintro ⟨args, h⟩
    rw [mem_checkBasics cfg text _ (by simp only; decide)] at h
    obtain ⟨m, line, hl, h⟩ := h
    obtain ⟨t, ht⟩ := checkLine_loc _ _ _ _ h
    simp only [List.cons.injEq] at ht
    obtain ⟨rfl, -⟩ := ht
    refine ⟨line, hl, ?_⟩
    simp only [checkLine, List.mem_append, checkLength, checkEnding, checkTrailing, checkIndent] at h
    have e1 : S "C0327" ≠ S "C0301" := by decide
    have e2 : S "C0327" ≠ S "C0306" := by decide
    have e3 : S "C0327" ≠ S "C0303" := by decide
    grind
  · rintro ⟨line, hl, ⟨h1, h2⟩ | ⟨h1, h2⟩⟩
    · refine ⟨[S "windows"], (mem_checkBasics cfg text _ (by simp only; decide)).2 ⟨n, line, hl, ?_⟩⟩
      simp [checkLine, checkEnding, h1, h2]
    · refine ⟨[S "unix"], (mem_checkBasics cfg text _ (by simp only; decide)).2 ⟨n, line, hl, ?_⟩⟩
      have e : S "windows" ≠ S "unix" := by decide
      simp [checkLine, checkEnding, h1, h2]

/-- C51, for lines that end in a newline: there is a wrong-line-ending record iff the
configured ending is `unix` and the line ends in CR LF, or it is `windows` and the line ends in LF
alone.  Missing: the last, unended line, see `windows_always_flagged`. -/
theorem ending_exact_partial (cfg : Cfg) (text : Str) (n : Nat) (line : Str)
    (hl : IsEndedLine text n line) :
    (∃ args, ⟨S "C0327", [n], args⟩ ∈ checkBasics cfg text) ↔
      (cfg.lineEnding = S "unix" ∧ ∃ w, line = w ++ ['\r']) ∨
      (cfg.lineEnding = S "windows" ∧ ¬ ∃ w, line = w ++ ['\r']) := by
  have hl' : IsLine text n line := by
    obtain ⟨pre, post, h1, h2, h3, h4⟩ := hl
    exact ⟨pre, '\n' :: post, h1, h2, h3, .inr rfl, h4⟩
  rw [mem_ending_iff, ← endsCR_iff]
  constructor
  · rintro ⟨line', h', h⟩
    obtain rfl := isLine_unique hl' h'
    rcases h with ⟨a, b⟩ | ⟨a, b⟩
    · exact .inl ⟨b, a⟩
    · exact .inr ⟨b, by simp [a]⟩
  · rintro (⟨b, a⟩ | ⟨b, a⟩)
    · exact ⟨line, hl', .inl ⟨a, b⟩⟩
    · exact ⟨line, hl', .inr ⟨by simpa using a, b⟩⟩

/-- C51 fails on the last line: with `line_ending = "windows"`, every text that ends in a newline
gets a record, on the line after the last newline, even if all its lines end in CR LF. -/
theorem windows_always_flagged (cfg : Cfg) (hw : cfg.lineEnding = S "windows") (body : Str) :
    (∃ args, ⟨S "C0327", [body.count '\n' + 2], args⟩ ∈ checkBasics cfg (body ++ ['\n'])) := by
  rw [mem_ending_iff]
  refine ⟨[], ⟨body ++ ['\n'], [], by simp, by simp, .inr (by simp), .inl rfl, ?_⟩, .inr ⟨rfl, hw⟩⟩
  simp [List.count_append]

example : checkBasics { lineEnding := S "windows" } (S "a\r\nb\r\n") =
    [⟨S "C0327", [3], [S "unix"]⟩] := by decide +kernel

example : IsEndedLine (S "a\r\nb\n") 1 (S "a\r") := ⟨[], S "b\n", by decide +kernel⟩

end Verif.Lint
