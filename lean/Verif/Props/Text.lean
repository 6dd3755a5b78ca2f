import Verif.Text

/-!
# Properties C19, C20, C21: line endings and tabs
-/

namespace Verif.Props.Text
open Verif Py Lex Text

/-! ## Specification -/

/-- The physical lines of a text: it is cut at every CRLF, LF and lone CR.  The
last piece is what follows the last line end. -/
def physicalLines : Str → List Str
  | [] => [[]]
  | '\r' :: '\n' :: cs => [] :: physicalLines cs
  | '\r' :: cs => [] :: physicalLines cs
  | '\n' :: cs => [] :: physicalLines cs
  | c :: cs =>
    match physicalLines cs with
    | [] => [[c]]
    | l :: ls => (c :: l) :: ls

/-- A line without the blanks (space, tab, form feed, vertical tab) at its end. -/
def trimEnd (l : Str) : Str := rstripBy (fun c => c ∈ [' ', '\t', '\x0c', '\x0b']) l

/-- Trim every line that is followed by a line end. -/
def trimEnded : List Str → List Str
  | [] => []
  | [l] => [l]
  | l :: ls => trimEnd l :: trimEnded ls

/-! ## Helper lemmas -/

theorem physicalLines_ne_nil (s : Str) : physicalLines s ≠ [] := by
  fun_cases physicalLines s <;> simp_all

theorem trim_fun : (fun c => decide (c ∈ [' ', '\t', '\x0c', '\x0b'])) = isBlank := by
  funext c
  simp only [isBlank]
  grind

theorem dropWhile_append_left {p : Char → Bool} {a b : Str} (h : ∃ x ∈ a, p x = false) :
    (a ++ b).dropWhile p = a.dropWhile p ++ b := by
  induction a with
  | nil => simp at h
  | cons x xs ih =>
    simp only [List.cons_append, List.dropWhile_cons]
    split
    · apply ih
      obtain ⟨y, hy, hpy⟩ := h
      rcases List.mem_cons.1 hy with e | hy'
      · subst e; simp_all
      · exact ⟨y, hy', hpy⟩
    · simp

theorem trimEnd_cons {c : Char} {l : Str} (h : isBlank c = false ∨ ∃ x ∈ l, isBlank x = false) :
    trimEnd (c :: l) = c :: trimEnd l := by
  simp only [trimEnd, rstripBy, trim_fun, List.reverse_cons]
  by_cases hl : ∃ x ∈ l, isBlank x = false
  · rw [dropWhile_append_left (by simpa using hl)]
    simp
  · have hl' : ∀ x ∈ l.reverse, isBlank x = true := by
      intro x hx
      have hx := List.mem_reverse.1 hx
      cases hb : isBlank x with
      | true => rfl
      | false => exact absurd ⟨x, hx, hb⟩ hl
    have hc : isBlank c = false := by
      rcases h with h | h
      · exact h
      · exact absurd h hl
    rw [List.dropWhile_append_of_pos hl']
    have : l.reverse.dropWhile isBlank = [] := by
      have := List.dropWhile_append_of_pos (l₂ := ([] : Str)) hl'
      simpa using this
    simp [this, hc]

theorem trimEnd_blank {l : Str} (h : ∀ x ∈ l, isBlank x = true) : trimEnd l = [] := by
  simp only [trimEnd, rstripBy, trim_fun]
  have hl' : ∀ x ∈ l.reverse, isBlank x = true := fun x hx => h x (List.mem_reverse.1 hx)
  have := List.dropWhile_append_of_pos (l₂ := ([] : Str)) hl'
  simpa using this

/-- A line end, recognised by the lexer's rule, cuts the physical lines. -/
theorem physicalLines_newline {s a r : Str} (h : ruleNewline s = some (a, r)) :
    physicalLines s = [] :: physicalLines r := by
  revert h
  fun_cases ruleNewline s <;> simp only [reduceCtorEq, false_implies, Option.some.injEq,
    Prod.mk.injEq, and_imp] <;> intros <;> subst_vars
  · simp [physicalLines]
  · simp [physicalLines]
  · rename_i cs hne
    cases cs with
    | nil => simp [physicalLines]
    | cons d ds =>
      by_cases hd : d = '\n'
      · subst hd; exact absurd rfl (hne ds)
      · rw [physicalLines.eq_3]
        intro _ h; injection h with h1 h2; exact hd h1

theorem ruleNewline_none {c : Char} {cs : Str} (h1 : c ≠ '\n') (h2 : c ≠ '\r') :
    ruleNewline (c :: cs) = none := by
  unfold ruleNewline
  split <;> simp_all

theorem ruleNewline_cr (cs : Str) : ∃ m, ruleNewline ('\r' :: cs) = some m := by
  cases cs with
  | nil => exact ⟨_, rfl⟩
  | cons d ds =>
    by_cases h : d = '\n'
    · subst h; exact ⟨_, rfl⟩
    · refine ⟨(['\r'], d :: ds), ?_⟩
      unfold ruleNewline
      split <;> simp_all

theorem physicalLines_cons {c : Char} {cs : Str} (h1 : c ≠ '\n') (h2 : c ≠ '\r') :
    physicalLines (c :: cs) =
      match physicalLines cs with
      | [] => [[c]]
      | l :: ls => (c :: l) :: ls := by
  rw [physicalLines.eq_def]
  split <;> simp_all

theorem isBlank_ne {c : Char} (h : isBlank c = true) : c ≠ '\n' ∧ c ≠ '\r' := by
  constructor <;> (intro e; subst e; revert h; decide)

theorem matchEnding_cons_blank {c : Char} {cs : Str} (h : isBlank c = true) :
    matchEnding (c :: cs) = matchEnding cs := by
  simp [matchEnding, h]

theorem matchEnding_cons_not {c : Char} {cs : Str} (h : isBlank c = false) :
    matchEnding (c :: cs) = (ruleNewline (c :: cs)).map (·.2) := by
  have e : (c :: cs).dropWhile isBlank = c :: cs := by simp [h]
  rw [matchEnding, e]
  cases ruleNewline (c :: cs) <;> rfl

/-- A match is a blank first line, ended. -/
theorem matchEnding_some {s r : Str} (h : matchEnding s = some r) :
    ∃ b, (∀ x ∈ b, isBlank x = true) ∧ physicalLines s = b :: physicalLines r ∧
      r.length < s.length := by
  induction s with
  | nil => simp [matchEnding, ruleNewline] at h
  | cons c cs ih =>
    cases hb : isBlank c with
    | true =>
      rw [matchEnding_cons_blank hb] at h
      obtain ⟨b, hb', hl, hlen⟩ := ih h
      refine ⟨c :: b, ?_, ?_, by simp; omega⟩
      · intro x hx
        rcases List.mem_cons.1 hx with e | e
        · exact e ▸ hb
        · exact hb' x e
      · rw [physicalLines_cons (isBlank_ne hb).1 (isBlank_ne hb).2, hl]
    | false =>
      rw [matchEnding_cons_not hb] at h
      cases hn : ruleNewline (c :: cs) with
      | none => rw [hn] at h; simp at h
      | some m =>
        obtain ⟨a, r'⟩ := m
        rw [hn] at h
        simp only [Option.map_some, Option.some.injEq] at h
        subst h
        refine ⟨[], by simp, physicalLines_newline hn, ?_⟩
        revert hn
        fun_cases ruleNewline (c :: cs) <;> simp_all <;> omega

/-- If the first line is ended and blank there is a match. -/
theorem matchEnding_of_blank {s l m : Str} {ls : List Str} (h : physicalLines s = l :: m :: ls)
    (hb : ∀ x ∈ l, isBlank x = true) : matchEnding s ≠ none := by
  induction s generalizing l m ls with
  | nil => simp [physicalLines] at h
  | cons c cs ih =>
    cases hc : isBlank c with
    | true =>
      rw [matchEnding_cons_blank hc]
      rw [physicalLines_cons (isBlank_ne hc).1 (isBlank_ne hc).2] at h
      cases hp : physicalLines cs with
      | nil => exact absurd hp (physicalLines_ne_nil _)
      | cons p ps =>
        rw [hp] at h
        simp only [List.cons.injEq] at h
        obtain ⟨h1, h2⟩ := h
        subst h1
        refine ih (l := p) (m := m) (ls := ls) (by rw [hp, h2]) (fun x hx => hb x (by simp [hx]))
    | false =>
      rw [matchEnding_cons_not hc]
      by_cases h1 : c = '\n'
      · subst h1; simp [ruleNewline]
      by_cases h2 : c = '\r'
      · subst h2
        obtain ⟨m, hm⟩ := ruleNewline_cr cs
        simp [hm]
      rw [physicalLines_cons h1 h2] at h
      exfalso
      cases hp : physicalLines cs with
      | nil => exact absurd hp (physicalLines_ne_nil _)
      | cons p ps =>
        rw [hp] at h
        simp only [List.cons.injEq] at h
        have := hb c (by rw [← h.1]; simp)
        rw [this] at hc; exact absurd hc (by simp)

theorem subEndings_eq (n : Nat) (s : Str) (hn : s.length < n) :
    subEndings n s = join ['\n'] (trimEnded (physicalLines s)) := by
  induction n generalizing s with
  | zero => omega
  | succ n ih =>
    simp only [subEndings]
    cases hm : matchEnding s with
    | some r =>
      obtain ⟨b, hb, hl, hlen⟩ := matchEnding_some hm
      simp only
      rw [ih r (by omega), hl]
      cases hr : physicalLines r with
      | nil => exact absurd hr (physicalLines_ne_nil _)
      | cons p ps =>
        simp only [trimEnded, trimEnd_blank hb]
        cases ps <;> simp [trimEnded, join]
    | none =>
      cases s with
      | nil => simp [physicalLines, trimEnded, join]
      | cons c cs =>
        simp only
        rw [ih cs (by simp at hn; omega)]
        have hnl : c ≠ '\n' ∧ c ≠ '\r' := by
          constructor
          · intro e; subst e
            rw [matchEnding_cons_not (by decide)] at hm; simp [ruleNewline] at hm
          · intro e; subst e
            rw [matchEnding_cons_not (by decide)] at hm
            obtain ⟨m, h⟩ := ruleNewline_cr cs
            simp [h] at hm
        have hp := physicalLines_cons (cs := cs) hnl.1 hnl.2
        cases hc : physicalLines cs with
        | nil => exact absurd hc (physicalLines_ne_nil _)
        | cons p ps =>
          rw [hc] at hp
          rw [hp]
          cases ps with
          | nil => simp [trimEnded, join]
          | cons q qs =>
            have ht : trimEnd (c :: p) = c :: trimEnd p := by
              apply trimEnd_cons
              by_cases hx : isBlank c = true ∧ ∀ x ∈ p, isBlank x = true
              · exfalso
                refine matchEnding_of_blank (s := c :: cs) hp ?_ hm
                intro x hx'
                rcases List.mem_cons.1 hx' with e | e
                · exact e ▸ hx.1
                · exact hx.2 x e
              · grind
            simp only [trimEnded, ht]
            cases h : trimEnded (q :: qs) with
            | nil => cases qs <;> simp [trimEnded] at h
            | cons u us => simp [join]

theorem crlf_not_mem_physicalLines {s l : Str} (h : l ∈ physicalLines s) :
    '\n' ∉ l ∧ '\r' ∉ l := by
  induction s using physicalLines.induct generalizing l with
  | case1 => simp [physicalLines] at h; simp [h]
  | case2 cs ih =>
    simp only [physicalLines, List.mem_cons] at h
    rcases h with e | h
    · simp [e]
    · exact ih h
  | case3 cs hne ih =>
    rw [physicalLines.eq_3 _ hne] at h
    rcases List.mem_cons.1 h with e | h
    · simp [e]
    · exact ih h
  | case4 cs ih =>
    simp only [physicalLines, List.mem_cons] at h
    rcases h with e | h
    · simp [e]
    · exact ih h
  | case5 c cs h1 h2 h3 hp ih => exact absurd hp (physicalLines_ne_nil _)
  | case6 c cs h1 h2 h3 p ps hp ih =>
    have hc1 : c ≠ '\n' := fun e => h3 e
    have hc2 : c ≠ '\r' := fun e => h2 e
    rw [physicalLines_cons hc1 hc2, hp] at h
    rcases List.mem_cons.1 h with e | h
    · subst e
      have := ih (l := p) (by rw [hp]; simp)
      simp only [List.mem_cons, not_or]
      exact ⟨⟨fun e => hc1 e.symm, this.1⟩, ⟨fun e => hc2 e.symm, this.2⟩⟩
    · exact ih (by rw [hp]; simp [h])

theorem physicalLines_of_no_break {l : Str} (h : '\n' ∉ l ∧ '\r' ∉ l) : physicalLines l = [l] := by
  induction l with
  | nil => simp [physicalLines]
  | cons c cs ih =>
    simp only [List.mem_cons, not_or] at h
    rw [physicalLines_cons (fun e => h.1.1 e.symm) (fun e => h.2.1 e.symm), ih ⟨h.1.2, h.2.2⟩]

theorem physicalLines_line {l : Str} (h : '\n' ∉ l ∧ '\r' ∉ l) (r : Str) :
    physicalLines (l ++ '\n' :: r) = l :: physicalLines r := by
  induction l with
  | nil => simp [physicalLines]
  | cons c cs ih =>
    simp only [List.mem_cons, not_or] at h
    rw [List.cons_append, physicalLines_cons (fun e => h.1.1 e.symm) (fun e => h.2.1 e.symm),
      ih ⟨h.1.2, h.2.2⟩]

theorem physicalLines_join {ls : List Str} (hne : ls ≠ [])
    (h : ∀ l ∈ ls, '\n' ∉ l ∧ '\r' ∉ l) : physicalLines (join ['\n'] ls) = ls := by
  induction ls with
  | nil => exact absurd rfl hne
  | cons l ls ih =>
    cases ls with
    | nil => simp only [join]; exact physicalLines_of_no_break (h l (by simp))
    | cons m ms =>
      simp only [join, List.append_assoc, List.cons_append, List.nil_append]
      rw [physicalLines_line (h l (by simp)), ih (by simp) (fun x hx => h x (by simp [hx]))]

theorem mem_trimEnd {c : Char} {l : Str} (h : c ∈ trimEnd l) : c ∈ l := by
  simp only [trimEnd, rstripBy, List.mem_reverse] at h
  exact List.mem_reverse.1 (List.dropWhile_subset _ h)

theorem mem_trimEnded {l : Str} {ls : List Str} (h : l ∈ trimEnded ls) :
    ∃ m ∈ ls, ∀ c ∈ l, c ∈ m := by
  induction ls with
  | nil => simp [trimEnded] at h
  | cons m ms ih =>
    cases ms with
    | nil => simp [trimEnded] at h; exact ⟨m, by simp, by simp [h]⟩
    | cons p ps =>
      simp only [trimEnded, List.mem_cons] at h
      rcases h with e | h
      · exact ⟨m, by simp, fun c hc => mem_trimEnd (by rw [← e]; exact hc)⟩
      · obtain ⟨x, hx, hx'⟩ := ih (by simpa using h)
        exact ⟨x, by simp at hx ⊢; grind, hx'⟩

theorem trimEnded_ne_nil {ls : List Str} (h : ls ≠ []) : trimEnded ls ≠ [] := by
  cases ls with
  | nil => exact absurd rfl h
  | cons m ms => cases ms <;> simp [trimEnded]

theorem dropWhile_dropWhile (p : Char → Bool) (l : Str) :
    (l.dropWhile p).dropWhile p = l.dropWhile p := by
  induction l with
  | nil => rfl
  | cons c cs ih =>
    simp only [List.dropWhile_cons]
    split
    · exact ih
    · rename_i h; simp [h]

theorem trimEnd_trimEnd (l : Str) : trimEnd (trimEnd l) = trimEnd l := by
  simp only [trimEnd, rstripBy, List.reverse_reverse, dropWhile_dropWhile]

theorem trimEnded_trimEnded (ls : List Str) : trimEnded (trimEnded ls) = trimEnded ls := by
  induction ls with
  | nil => simp [trimEnded]
  | cons m ms ih =>
    cases ms with
    | nil => simp [trimEnded]
    | cons p ps =>
      simp only [trimEnded]
      cases h : trimEnded (p :: ps) with
      | nil => exact absurd h (trimEnded_ne_nil (by simp))
      | cons q qs => rw [h] at ih; simp [trimEnded, trimEnd_trimEnd, ih]

/-! ## C19 -/

/-- **C19 (what normalisation does).**  The normalised text consists of exactly the
physical lines of the input, in order, separated by single line feeds, where every
line that was ended lost the blanks at its end and nothing else changed. -/
theorem normalize_lines (s : Str) :
    physicalLines (normalizeLineEndings s) = trimEnded (physicalLines s) ∧
    normalizeLineEndings s = join ['\n'] (trimEnded (physicalLines s)) := by
  have h := subEndings_eq (s.length + 1) s (by omega)
  refine ⟨?_, h⟩
  show physicalLines (subEndings (s.length + 1) s) = _
  rw [h]
  apply physicalLines_join (trimEnded_ne_nil (physicalLines_ne_nil _))
  intro l hl
  obtain ⟨m, hm, hlm⟩ := mem_trimEnded hl
  have := crlf_not_mem_physicalLines hm
  exact ⟨fun hc => this.1 (hlm _ hc), fun hc => this.2 (hlm _ hc)⟩

example : physicalLines (S "a \t\r\nb\rc \n  d ") = [S "a \t", S "b", S "c ", S "  d "] ∧
    normalizeLineEndings (S "a \t\r\nb\rc \n  d ") = S "a\nb\nc\n  d " := by decide +kernel

/-- **C19 (idempotence).** -/
theorem normalize_idempotent (s : Str) :
    normalizeLineEndings (normalizeLineEndings s) = normalizeLineEndings s := by
  rw [(normalize_lines (normalizeLineEndings s)).2, (normalize_lines s).1, trimEnded_trimEnded]
  exact (normalize_lines s).2.symm

theorem mem_join {c : Char} {sep : Str} {ls : List Str} (h : c ∈ join sep ls) :
    c ∈ sep ∨ ∃ l ∈ ls, c ∈ l := by
  induction ls with
  | nil => simp [join] at h
  | cons l ls ih =>
    cases ls with
    | nil => simp only [join] at h; exact Or.inr ⟨l, by simp, h⟩
    | cons m ms =>
      simp only [join, List.mem_append] at h
      rcases h with (h | h) | h
      · exact Or.inr ⟨l, by simp, h⟩
      · exact Or.inl h
      · rcases ih h with h | ⟨x, hx, hc⟩
        · exact Or.inl h
        · exact Or.inr ⟨x, by simp [hx], hc⟩

/-- **C19 (no carriage return is left).** -/
theorem normalize_no_cr (s : Str) : '\r' ∉ normalizeLineEndings s := by
  rw [(normalize_lines s).2]
  intro h
  rcases mem_join h with h | ⟨l, hl, hc⟩
  · simp at h
  · obtain ⟨m, hm, hlm⟩ := mem_trimEnded hl
    exact (crlf_not_mem_physicalLines hm).2 (hlm _ hc)

theorem trimEnd_no_blank {l u : Str} {b : Char} (h : trimEnd l = u ++ [b]) : isBlank b = false := by
  simp only [trimEnd, rstripBy, trim_fun] at h
  have h' : l.reverse.dropWhile isBlank = b :: u.reverse := by
    have := congrArg List.reverse h
    simpa using this
  have := List.head?_dropWhile_not isBlank l.reverse
  rw [h'] at this
  simpa using this

theorem no_blank_in_join {ls : List Str} (hne : ls ≠ []) (hn : ∀ l ∈ ls, '\n' ∉ l)
    {u v : Str} {b : Char} (h : join ['\n'] (trimEnded ls) = u ++ b :: '\n' :: v) :
    isBlank b = false := by
  induction ls generalizing u v b with
  | nil => exact absurd rfl hne
  | cons m ms ih =>
    cases ms with
    | nil =>
      simp only [trimEnded, join] at h
      exact absurd (by rw [h]; simp) (hn m (by simp))
    | cons p ps =>
      have hj : join ['\n'] (trimEnded (m :: p :: ps)) =
          trimEnd m ++ '\n' :: join ['\n'] (trimEnded (p :: ps)) := by
        simp only [trimEnded]
        cases hx : trimEnded (p :: ps) with
        | nil => exact absurd hx (trimEnded_ne_nil (by simp))
        | cons q qs => simp [join]
      rw [hj] at h
      have hm : '\n' ∉ trimEnd m := fun hc => hn m (by simp) (mem_trimEnd hc)
      have hu : u ++ b :: '\n' :: v = (u ++ [b]) ++ '\n' :: v := by simp
      rw [hu] at h
      rcases List.append_eq_append_iff.1 h with ⟨a, ha, ha'⟩ | ⟨a, ha, ha'⟩
      · -- u ++ [b] = trimEnd m ++ a
        cases a with
        | nil =>
          rw [List.append_nil] at ha
          exact trimEnd_no_blank ha.symm
        | cons x a =>
          simp only [List.cons_append, List.cons.injEq] at ha'
          obtain ⟨hx, ha'⟩ := ha'
          subst hx
          rcases List.eq_nil_or_concat a with e | ⟨a', y, e⟩
          · subst e
            have : b = '\n' := by
              have := congrArg List.getLast? ha
              simpa using this
            subst this; decide
          · subst e
            have hb : b = y := by
              have e : trimEnd m ++ '\n' :: a'.concat y = (trimEnd m ++ '\n' :: a') ++ [y] := by simp
              rw [e] at ha
              have := (List.append_inj' ha rfl).2
              simpa using this
            subst hb
            refine ih (by simp) (fun l hl => hn l (by simp [hl])) (u := a') (v := v) ?_
            rw [ha']; simp
      · -- trimEnd m = (u ++ [b]) ++ a
        cases a with
        | nil => rw [List.append_nil] at ha; exact trimEnd_no_blank ha
        | cons x a =>
          simp only [List.cons_append, List.cons.injEq] at ha'
          exact absurd (by rw [ha]; simp [← ha'.1]) hm

/-- **C19 (no blank directly before a line end).**  Wherever the normalised text
has a character followed by a line feed, that character is no space, tab, form feed
or vertical tab. -/
theorem normalize_no_trailing_blank (s u v : Str) (b : Char)
    (h : normalizeLineEndings s = u ++ b :: '\n' :: v) :
    b ≠ ' ' ∧ b ≠ '\t' ∧ b ≠ '\x0c' ∧ b ≠ '\x0b' := by
  rw [(normalize_lines s).2] at h
  have := no_blank_in_join (physicalLines_ne_nil s)
    (fun l hl => (crlf_not_mem_physicalLines hl).1) h
  refine ⟨?_, ?_, ?_, ?_⟩ <;> (intro e; subst e; revert this; decide)

example : normalizeLineEndings (S "x  \r\n y") = S "" ++ 'x' :: '\n' :: S " y" := by decide +kernel

theorem trimEnd_prefix (l : Str) : ∃ b, l = trimEnd l ++ b ∧ ∀ c ∈ b, isBlank c = true := by
  refine ⟨(l.reverse.takeWhile isBlank).reverse, ?_, ?_⟩
  · simp only [trimEnd, rstripBy, trim_fun]
    rw [← List.reverse_append, List.takeWhile_append_dropWhile, List.reverse_reverse]
  · intro c hc
    have := List.all_takeWhile (p := isBlank) (l := l.reverse)
    exact List.all_eq_true.1 this c (List.mem_reverse.1 hc)

theorem filter_trimEnd (l : Str) (p : Char → Bool) (hp : ∀ c, isBlank c = true → p c = false) :
    (trimEnd l).filter p = l.filter p := by
  obtain ⟨b, hl, hb⟩ := trimEnd_prefix l
  conv => rhs; rw [hl]
  rw [List.filter_append]
  have : b.filter p = [] := by
    rw [List.filter_eq_nil_iff]
    intro c hc
    simp [hp c (hb c hc)]
  simp [this]

theorem filter_physicalLines (s : Str) (p : Char → Bool) (h1 : p '\n' = false) (h2 : p '\r' = false) :
    ((physicalLines s).map (·.filter p)).flatten = s.filter p := by
  induction s using physicalLines.induct with
  | case1 => simp [physicalLines]
  | case2 cs ih => simp [physicalLines, ih, h1, h2]
  | case3 cs hne ih => rw [physicalLines.eq_3 _ hne]; simp [ih, h2]
  | case4 cs ih => simp [physicalLines, ih, h1]
  | case5 c cs _ _ _ hp ih => exact absurd hp (physicalLines_ne_nil _)
  | case6 c cs a b d q qs hq ih =>
    rw [physicalLines_cons (fun e => d e) (fun e => b e), hq]
    rw [hq] at ih
    simp only [List.map_cons, List.flatten_cons] at ih ⊢
    rw [List.filter_cons, List.filter_cons]
    split <;> simp [← ih]

theorem filter_trimEnded (ls : List Str) (p : Char → Bool) (hp : ∀ c, isBlank c = true → p c = false) :
    ((trimEnded ls).map (·.filter p)).flatten = (ls.map (·.filter p)).flatten := by
  induction ls with
  | nil => rfl
  | cons m ms ih =>
    cases ms with
    | nil => rfl
    | cons q qs => simp only [trimEnded, List.map_cons, List.flatten_cons, filter_trimEnd m p hp] at ih ⊢; rw [ih]

/-- **C19 (nothing else is removed or added).**  The characters other than blanks
and line-end characters are the same, in the same order. -/
theorem normalize_keeps_text (s : Str) :
    (normalizeLineEndings s).filter (fun c => c ∉ [' ', '\t', '\x0c', '\x0b', '\r', '\n']) =
    s.filter (fun c => c ∉ [' ', '\t', '\x0c', '\x0b', '\r', '\n']) := by
  have h1 := filter_physicalLines s (fun c => c ∉ [' ', '\t', '\x0c', '\x0b', '\r', '\n'])
    (by decide) (by decide)
  have h2 := filter_physicalLines (normalizeLineEndings s)
    (fun c => c ∉ [' ', '\t', '\x0c', '\x0b', '\r', '\n']) (by decide) (by decide)
  rw [← h1, ← h2, (normalize_lines s).1]
  apply filter_trimEnded
  intro c hc
  have : (fun c => decide (c ∈ [' ', '\t', '\x0c', '\x0b'])) c = true := by rw [trim_fun]; exact hc
  simp only [decide_eq_true_eq] at this
  simp only [decide_eq_false_iff_not, Classical.not_not]
  simp at this ⊢
  grind

/-! ## C20 -/

/-- Number of line feeds of the text that come directly after a carriage return,
and of those that do not; `prev` is the character before the text. -/
def feedsAfterCR (prev : Char) : Str → Nat
  | [] => 0
  | c :: cs => (if c = '\n' ∧ prev = '\r' then 1 else 0) + feedsAfterCR c cs

def bareFeeds (prev : Char) : Str → Nat
  | [] => 0
  | c :: cs => (if c = '\n' ∧ prev ≠ '\r' then 1 else 0) + bareFeeds c cs

theorem feeds_add (p : Char) (s : Str) : feedsAfterCR p s + bareFeeds p s = s.count '\n' := by
  induction s generalizing p with
  | nil => simp [feedsAfterCR, bareFeeds]
  | cons c cs ih =>
    simp only [feedsAfterCR, bareFeeds, List.count_cons, ← ih c]
    by_cases h : c = '\n' <;> by_cases h' : p = '\r' <;> simp [h, h'] <;> omega

theorem countCRLF_eq (s : Str) (p : Char) (hp : p ≠ '\r') : countCRLF s = feedsAfterCR p s := by
  induction s using countCRLF.induct generalizing p with
  | case1 cs ih => simp [countCRLF, feedsAfterCR, ih '\n' (by decide)]; omega
  | case2 c cs hne ih =>
    rw [countCRLF.eq_2 _ _ hne, feedsAfterCR]
    have h0 : ¬ (c = '\n' ∧ p = '\r') := fun h => hp h.2
    simp only [h0, if_false, Nat.zero_add]
    by_cases hc : c = '\r'
    · subst hc
      cases cs with
      | nil => simp [countCRLF, feedsAfterCR]
      | cons d ds =>
        have hd : d ≠ '\n' := fun e => hne ds rfl (by rw [e])
        rw [feedsAfterCR]
        simp only [hd, false_and, if_false, Nat.zero_add]
        rw [ih 'x' (by decide), feedsAfterCR]
        simp [hd]
    · exact ih c hc
  | case3 => simp [countCRLF, feedsAfterCR]

/-- **C20 (selection).**  `auto` selects windows exactly when strictly more line
feeds of the text come directly after a carriage return than do not.  (The text has
no character before it; any character other than a carriage return serves.) -/
theorem detect_windows_iff (s : Str) :
    detectLineEndings s = .windows ↔ bareFeeds ' ' s < feedsAfterCR ' ' s := by
  have h1 := countCRLF_eq s ' ' (by decide)
  have h2 := feeds_add ' ' s
  simp only [detectLineEndings, h1]
  split <;> simp <;> omega

example : detectLineEndings (S "a\r\nb\nc\r\nd\re") = .windows ∧
    feedsAfterCR ' ' (S "a\r\nb\nc\r\nd\re") = 2 ∧ bareFeeds ' ' (S "a\r\nb\nc\r\nd\re") = 1 ∧
    detectLineEndings (S "a\r\nb\n") = .unix := by decide +kernel

/-- **C20 (what is written).**  The text then written for a line end is CR LF if more line
feeds of the input follow a carriage return than do not, and LF otherwise. -/
theorem detected_line_end (s : Str) :
    endl (detectLineEndings s) =
      if bareFeeds ' ' s < feedsAfterCR ' ' s then ['\r', '\n'] else ['\n'] := by
  by_cases h : bareFeeds ' ' s < feedsAfterCR ' ' s
  · rw [if_pos h, (detect_windows_iff s).2 h]; rfl
  · rw [if_neg h]
    cases hd : detectLineEndings s with
    | unix => rfl
    | windows => exact absurd ((detect_windows_iff s).1 hd) h

/-- **C20 (ties and lone carriage returns).**  A tie, and a text without line feeds,
selects unix. -/
theorem detect_tie (s : Str) (h : feedsAfterCR ' ' s = bareFeeds ' ' s) :
    detectLineEndings s = .unix := by
  cases hd : detectLineEndings s with
  | unix => rfl
  | windows => have := (detect_windows_iff s).1 hd; omega

example : feedsAfterCR ' ' (S "a\r\nb\nc") = bareFeeds ' ' (S "a\r\nb\nc") := by decide +kernel

/-! ## C21 -/

/-- What one line becomes: `n` leading spaces before the first other character turn
into `n / size` tabs and, if a remainder is left, that many spaces (`use-space`) or
one more tab (`round-up`).  A line of spaces only is unchanged. -/
inductive Retabbed (size : Nat) (policy : Str) : Str → Str → Prop
  | blankLine (n : Nat) : Retabbed size policy (List.replicate n ' ') (List.replicate n ' ')
  | whole (k : Nat) (c : Char) (text : Str) (hc : c ≠ ' ') :
      Retabbed size policy (List.replicate (k * size) ' ' ++ c :: text)
        (List.replicate k '\t' ++ c :: text)
  | spaces (k r : Nat) (c : Char) (text : Str) (hc : c ≠ ' ') (hr : 0 < r ∧ r < size)
      (hp : policy = S "use-space") :
      Retabbed size policy (List.replicate (k * size + r) ' ' ++ c :: text)
        (List.replicate k '\t' ++ List.replicate r ' ' ++ c :: text)
  | roundUp (k r : Nat) (c : Char) (text : Str) (hc : c ≠ ' ') (hr : 0 < r ∧ r < size)
      (hp : policy = S "round-up") :
      Retabbed size policy (List.replicate (k * size + r) ' ' ++ c :: text)
        (List.replicate (k + 1) '\t' ++ c :: text)

theorem line_shape (l : Str) :
    (∃ n, l = List.replicate n ' ' ∧ countIndentation l = 0) ∨
    (∃ n c t, l = List.replicate n ' ' ++ c :: t ∧ c ≠ ' ' ∧ countIndentation l = n) := by
  induction l with
  | nil => exact Or.inl ⟨0, rfl, rfl⟩
  | cons a l ih =>
    by_cases ha : a = ' '
    · subst ha
      rcases ih with ⟨n, rfl, _⟩ | ⟨n, c, t, rfl, hc, hn⟩
      · refine Or.inl ⟨n + 1, by simp [List.replicate_succ], ?_⟩
        simp only [countIndentation]
        have : ((' ' : Char) :: List.replicate n ' ') = List.replicate (n + 1) ' ' := by
          simp [List.replicate_succ]
        rw [this]
        simp
      · refine Or.inr ⟨n + 1, c, t, by simp [List.replicate_succ], hc, ?_⟩
        simp only [countIndentation]
        have : ((' ' : Char) :: (List.replicate n ' ' ++ c :: t)) =
            List.replicate (n + 1) ' ' ++ c :: t := by simp [List.replicate_succ]
        rw [this, List.takeWhile_append_of_pos (by simp)]
        simp [hc]
    · exact Or.inr ⟨0, a, l, by simp, ha, by simp [countIndentation, ha]⟩

theorem tabLine_spec (cfg : TabConfig) (l : Str) :
    (cfg.tabSize = 0 ∧ tabLine cfg l = .error .zeroDivision) ∨
    (∃ o, tabLine cfg l = .ok o ∧ Retabbed cfg.tabSize cfg.policy l o) ∨
    (0 < cfg.tabSize ∧ countIndentation l % cfg.tabSize ≠ 0 ∧ cfg.policy ≠ S "use-space" ∧
      cfg.policy ≠ S "round-up" ∧ tabLine cfg l = .error .userError) := by
  by_cases h0 : cfg.tabSize = 0
  · exact Or.inl ⟨h0, by simp [tabLine, h0]⟩
  refine Or.inr ?_
  rcases line_shape l with ⟨n, hl, hn⟩ | ⟨n, c, t, hl, hc, hn⟩
  · refine Or.inl ⟨l, ?_, ?_⟩
    · simp [tabLine, hn, h0]
    · rw [hl]; exact .blankLine n
  · have hd : l.drop n = c :: t := by rw [hl]; simp
    have hdiv : n = n / cfg.tabSize * cfg.tabSize + n % cfg.tabSize := by
      rw [Nat.mul_comm]; exact (Nat.div_add_mod _ _).symm
    have hlt : n % cfg.tabSize < cfg.tabSize := Nat.mod_lt _ (by omega)
    simp only [tabLine, hn, h0, if_false, hd]
    split
    · rename_i hf
      refine Or.inl ⟨_, rfl, ?_⟩
      rw [hl]
      have hk : n = n / cfg.tabSize * cfg.tabSize := by omega
      conv => lhs; rw [hk]
      exact .whole _ c t hc
    · rename_i hf
      split
      · rename_i hp
        refine Or.inl ⟨_, rfl, ?_⟩
        rw [hl]
        conv => lhs; rw [hdiv]
        exact .spaces _ _ c t hc ⟨by omega, hlt⟩ hp
      · rename_i hp1
        split
        · rename_i hp
          refine Or.inl ⟨_, rfl, ?_⟩
          rw [hl]
          conv => lhs; rw [hdiv]
          have e : List.replicate (n / cfg.tabSize) '\t' ++ ['\t'] ++ c :: t =
              List.replicate (n / cfg.tabSize + 1) '\t' ++ c :: t := by
            rw [List.replicate_succ']
          rw [e]
          exact .roundUp _ _ c t hc ⟨by omega, hlt⟩ hp
        · rename_i hp2
          exact Or.inr ⟨by omega, hf, hp1, hp2, rfl⟩

/-- Two lists related element by element. -/
def Pairwise2 (R : Str → Str → Prop) : List Str → List Str → Prop
  | [], [] => True
  | a :: as, b :: bs => R a b ∧ Pairwise2 R as bs
  | _, _ => False

theorem Pairwise2.length {R} : ∀ {as bs : List Str}, Pairwise2 R as bs → as.length = bs.length
  | [], [], _ => rfl
  | _ :: _, _ :: _, h => by simp [Pairwise2.length h.2]
  | [], _ :: _, h => h.elim
  | _ :: _, [], h => h.elim

theorem tabLines_ok {cfg : TabConfig} {ls os : List Str} (h : tabLines cfg ls = .ok os) :
    Pairwise2 (Retabbed cfg.tabSize cfg.policy) ls os := by
  induction ls generalizing os with
  | nil => simp only [tabLines, Except.ok.injEq] at h; subst h; trivial
  | cons l ls ih =>
    simp only [tabLines] at h
    rcases tabLine_spec cfg l with ⟨_, e⟩ | ⟨o, e, hr⟩ | ⟨_, _, _, _, e⟩
    · rw [e] at h; simp at h
    · rw [e] at h
      simp only at h
      cases hls : tabLines cfg ls with
      | error e => rw [hls] at h; simp at h
      | ok os' =>
        rw [hls] at h
        simp only [Except.ok.injEq] at h
        subst h
        exact ⟨hr, ih hls⟩
    · rw [e] at h; simp at h

theorem retabbed_newline {size : Nat} {policy a b : Str} (h : Retabbed size policy a b)
    (ha : '\n' ∉ a) : '\n' ∉ b := by
  cases h <;> simp_all

theorem pairwise2_newline {size : Nat} {policy : Str} : ∀ {as bs : List Str},
    Pairwise2 (Retabbed size policy) as bs → (∀ a ∈ as, '\n' ∉ a) → ∀ b ∈ bs, '\n' ∉ b
  | [], [], _, _ => by simp
  | a :: as, b :: bs, h, ha => by
    intro x hx
    rcases List.mem_cons.1 hx with e | hx
    · subst e; exact retabbed_newline h.1 (ha a (by simp))
    · exact pairwise2_newline h.2 (fun y hy => ha y (by simp [hy])) x hx
  | [], _ :: _, h, _ => h.elim
  | _ :: _, [], h, _ => h.elim

/-- **C21 (what tab conversion does).**  If it returns, then with tabs off the text
is unchanged; with tabs on the result has the same number of lines and each line is
the input line with only its indentation re-encoded as `Retabbed` says. -/
theorem tabs_only_change_indentation (content out : Str) (cfg : TabConfig)
    (h : replaceWithTabs content cfg = .ok out) :
    (cfg.useTabchars = false ∧ out = content) ∨
    (cfg.useTabchars = true ∧ 0 < cfg.tabSize ∧
      Pairwise2 (Retabbed cfg.tabSize cfg.policy) (splitOn '\n' content) (splitOn '\n' out) ∧
      (splitOn '\n' out).length = (splitOn '\n' content).length) := by
  simp only [replaceWithTabs] at h
  split at h
  · rename_i hu; simp only [Except.ok.injEq] at h; exact Or.inl ⟨hu, h.symm⟩
  · rename_i hu
    cases hl : tabLines cfg (splitOn '\n' content) with
    | error e => rw [hl] at h; simp at h
    | ok os =>
      rw [hl] at h
      simp only [Except.ok.injEq] at h
      have hp := tabLines_ok hl
      have hos : splitOn '\n' out = os := by
        rw [← h]
        apply splitOn_join
        · intro e
          have := hp.length
          rw [e] at this
          exact splitOn_ne_nil '\n' content (List.length_eq_zero_iff.1 (by simpa using this))
        · exact pairwise2_newline hp (fun a ha => not_mem_splitOn ha)
      refine Or.inr ⟨by simpa using hu, ?_, by rw [hos]; exact hp, by rw [hos]; exact hp.length.symm⟩
      cases hc : splitOn '\n' content with
      | nil => exact absurd hc (splitOn_ne_nil _ _)
      | cons l ls =>
        rw [hc] at hl
        simp only [tabLines] at hl
        by_cases h0 : cfg.tabSize = 0
        · simp [tabLine, h0] at hl
        · omega

example : replaceWithTabs (S "a\n     b  c\n  \n    d") ⟨true, 4, S "use-space"⟩ =
    .ok (S "a\n\t b  c\n  \n\td") := by decide +kernel

/-- **C21 (it succeeds).**  With a positive tab size and either documented policy
conversion never fails. -/
theorem tabs_total (content : Str) (cfg : TabConfig) (hs : 0 < cfg.tabSize)
    (hp : cfg.policy = S "use-space" ∨ cfg.policy = S "round-up") :
    ∃ out, replaceWithTabs content cfg = .ok out := by
  have key : ∀ ls, ∃ os, tabLines cfg ls = .ok os := by
    intro ls
    induction ls with
    | nil => exact ⟨[], rfl⟩
    | cons l ls ih =>
      obtain ⟨os, hos⟩ := ih
      rcases tabLine_spec cfg l with ⟨h, _⟩ | ⟨o, e, _⟩ | ⟨_, _, h1, h2, _⟩
      · omega
      · exact ⟨o :: os, by simp [tabLines, e, hos]⟩
      · rcases hp with hp | hp
        · exact absurd hp h1
        · exact absurd hp h2
  simp only [replaceWithTabs]
  split
  · exact ⟨_, rfl⟩
  · obtain ⟨os, hos⟩ := key (splitOn '\n' content)
    exact ⟨_, by rw [hos]⟩

example : (0 : Nat) < (TabConfig.mk true 8 (S "round-up")).tabSize := by decide

/-- **C21 (errors).**  Tab size zero always fails with a division error; another
policy name fails only if some line has a fractional indentation. -/
theorem tabs_errors (content : Str) (cfg : TabConfig) (h : cfg.useTabchars = true) :
    (cfg.tabSize = 0 → replaceWithTabs content cfg = .error .zeroDivision) ∧
    (∀ e, replaceWithTabs content cfg = .error e → 0 < cfg.tabSize →
      e = .userError ∧ cfg.policy ≠ S "use-space" ∧ cfg.policy ≠ S "round-up" ∧
      ∃ l ∈ splitOn '\n' content, countIndentation l % cfg.tabSize ≠ 0) := by
  constructor
  · intro h0
    simp only [replaceWithTabs, h]
    cases hc : splitOn '\n' content with
    | nil => exact absurd hc (splitOn_ne_nil _ _)
    | cons l ls => simp [tabLines, tabLine, h0]
  · intro e he hs
    have key : ∀ ls, tabLines cfg ls = .error e → e = .userError ∧ cfg.policy ≠ S "use-space" ∧
        cfg.policy ≠ S "round-up" ∧ ∃ l ∈ ls, countIndentation l % cfg.tabSize ≠ 0 := by
      intro ls
      induction ls with
      | nil => intro h; simp [tabLines] at h
      | cons l ls ih =>
        intro hl
        simp only [tabLines] at hl
        rcases tabLine_spec cfg l with ⟨h, _⟩ | ⟨o, e', _⟩ | ⟨_, hf, h1, h2, e'⟩
        · omega
        · rw [e'] at hl
          simp only at hl
          cases hls : tabLines cfg ls with
          | ok os => rw [hls] at hl; simp at hl
          | error e2 =>
            rw [hls] at hl
            simp only [Except.error.injEq] at hl
            subst hl
            obtain ⟨a, b, c, x, hx, hx'⟩ := ih hls
            exact ⟨a, b, c, x, by simp [hx], hx'⟩
        · rw [e'] at hl
          simp only [Except.error.injEq] at hl
          exact ⟨hl.symm, h1, h2, l, by simp, hf⟩
    simp only [replaceWithTabs, h] at he
    cases hl : tabLines cfg (splitOn '\n' content) with
    | ok os => rw [hl] at he; simp at he
    | error e' =>
      rw [hl] at he
      simp only [Bool.true_eq_false, if_false, Except.error.injEq] at he
      subst he
      exact key _ hl

example : replaceWithTabs (S " a") ⟨true, 4, S "other"⟩ = .error .userError ∧
    replaceWithTabs (S "    a") ⟨true, 4, S "other"⟩ = .ok (S "\ta") := by decide +kernel

theorem countIndentation_replicate_append (n : Nat) (c : Char) (t : Str) (hc : c ≠ ' ') :
    countIndentation (List.replicate n ' ' ++ c :: t) = n := by
  simp only [countIndentation]
  rw [List.takeWhile_append_of_pos (by simp)]
  simp [hc]

theorem tabLine_retabbed {cfg : TabConfig} {a b : Str} (hs : 0 < cfg.tabSize)
    (h : Retabbed cfg.tabSize cfg.policy a b) : tabLine cfg b = .ok b := by
  have hs' : cfg.tabSize ≠ 0 := by omega
  have zero : ∀ (c : Char) (t : Str), c ≠ ' ' → tabLine cfg (c :: t) = .ok (c :: t) := by
    intro c t hc
    have := countIndentation_replicate_append 0 c t hc
    simp only [List.replicate_zero, List.nil_append] at this
    simp [tabLine, this, hs']
  cases h with
  | blankLine n =>
    have : countIndentation (List.replicate n ' ') = 0 := by simp [countIndentation]
    simp [tabLine, this, hs']
  | whole k c t hc =>
    cases k with
    | zero => simpa using zero c t hc
    | succ k => rw [List.replicate_succ, List.cons_append]; exact zero _ _ (by decide)
  | spaces k r c t hc hr hp =>
    cases k with
    | zero =>
      simp only [List.replicate_zero, List.nil_append]
      have hci := countIndentation_replicate_append r c t hc
      have h1 : r / cfg.tabSize = 0 := Nat.div_eq_of_lt hr.2
      have h2 : r % cfg.tabSize = r := Nat.mod_eq_of_lt hr.2
      have h3 : r ≠ 0 := by omega
      have hd : (List.replicate r ' ' ++ c :: t).drop r = c :: t := by simp
      simp only [tabLine, hci, h1, h2, hs', h3, if_false, hp, if_true, hd]
      simp
    | succ k =>
      rw [List.replicate_succ, List.cons_append, List.cons_append]; exact zero _ _ (by decide)
  | roundUp k r c t hc hr hp =>
    rw [List.replicate_succ, List.cons_append]; exact zero _ _ (by decide)

theorem tabLines_fix {cfg : TabConfig} (hs : 0 < cfg.tabSize) : ∀ {as bs : List Str},
    Pairwise2 (Retabbed cfg.tabSize cfg.policy) as bs → tabLines cfg bs = .ok bs
  | [], [], _ => rfl
  | a :: as, b :: bs, h => by
    simp only [tabLines]
    rw [tabLine_retabbed hs h.1, tabLines_fix hs h.2]
  | [], _ :: _, h => h.elim
  | _ :: _, [], h => h.elim

/-- **C21 (idempotence).**  Converting a converted text changes nothing. -/
theorem tabs_idempotent (content out : Str) (cfg : TabConfig)
    (h : replaceWithTabs content cfg = .ok out) : replaceWithTabs out cfg = .ok out := by
  rcases tabs_only_change_indentation content out cfg h with ⟨hu, _⟩ | ⟨hu, hs, hp, _⟩
  · simp [replaceWithTabs, hu]
  · simp only [replaceWithTabs, hu]
    rw [tabLines_fix hs hp]
    simp [join_splitOn]

example : replaceWithTabs (S "      x") ⟨true, 4, S "round-up"⟩ = .ok (S "\t\tx") := by
  decide +kernel

end Verif.Props.Text
