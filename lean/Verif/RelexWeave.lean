import Verif.Relex
import Verif.LayoutSpec

/-!
# Reading back texts at positions
-/

namespace Verif.Layout
open Verif Py Lex Props.Lex

/-! ## Scanning -/

/-- The text is read, after `prev`, as these tokens. -/
def Lexes (prev : Option Char) (s : Str) (out : List (TokType × Str)) : Prop :=
  ∀ fuel, s.length ≤ fuel → (scan fuel prev s).1 = out

theorem lexes_nil (prev : Option Char) : Lexes prev [] [] := by
  intro fuel _
  rw [scan_nil]

theorem lexes_cons {prev : Option Char} {ty : TokType} {a b : Str} {out : List (TokType × Str)}
    (h : lexOne prev (a ++ b) = some (ty, a, b)) (hr : ∀ p, a.getLast? = some p → Lexes (some p) b out) :
    Lexes prev (a ++ b) ((ty, a) :: out) := by
  intro fuel hf
  have hne := lexOne_nonEmpty h
  have hpos : 0 < a.length := List.length_pos_iff.mpr hne
  cases fuel with
  | zero => simp at hf; exact absurd hf.1 hne
  | succ n =>
    obtain ⟨p, hp⟩ : ∃ p, a.getLast? = some p := ⟨_, List.getLast?_eq_some_getLast hne⟩
    simp only [scan, h, hp]
    rw [hr p hp n (by simp at hf; omega)]

/-! ## Gaps -/

/-- Token types that are not program text. -/
def isIdle : TokType → Bool
  | .whitespace | .newline | .comment | .bracketComment | .formatOff | .formatOn => true
  | _ => false

/-- The program part of what was read. -/
def busy (out : List (TokType × Str)) : List (TokType × Str) := out.filter fun x => !isIdle x.1

/-- Blanks before a column. -/
def blankToks (n : Nat) : List (TokType × Str) := if n = 0 then [] else [(.whitespace, List.replicate n ' ')]

/-- The blanks and line ends between two positions. -/
def gapToks (a b : Cur) : List (TokType × Str) :=
  if a.row < b.row then List.replicate (b.row - a.row) (.newline, ['\n']) ++ blankToks b.col
  else blankToks (b.col - a.col)

theorem busy_append (a b : List (TokType × Str)) : busy (a ++ b) = busy a ++ busy b := by simp [busy]

theorem busy_blanks (n : Nat) : busy (blankToks n) = [] := by
  unfold blankToks
  split <;> simp [busy, isIdle]

theorem busy_gap (a b : Cur) : busy (gapToks a b) = [] := by
  unfold gapToks
  split
  · rw [busy_append, busy_blanks, List.append_nil]
    simp [busy, isIdle]
  · exact busy_blanks _

theorem lexes_newlines (n : Nat) (rest : Str) (out : List (TokType × Str)) (h : Lexes (some '\n') rest out) (prev : Option Char) :
    Lexes prev ((List.replicate (n + 1) ['\n']).flatten ++ rest) (List.replicate (n + 1) (.newline, ['\n']) ++ out) := by
  induction n generalizing prev with
  | zero =>
    have e : (List.replicate (0 + 1) ['\n']).flatten ++ rest = ['\n'] ++ rest := by simp
    rw [e]
    show Lexes prev (['\n'] ++ rest) ((.newline, ['\n']) :: out)
    refine lexes_cons (a := ['\n']) (lex_nl prev rest) ?_
    intro p hp
    simp at hp
    subst hp
    exact h
  | succ n ih =>
    have e : (List.replicate (n + 1 + 1) ['\n']).flatten ++ rest = ['\n'] ++ ((List.replicate (n + 1) ['\n']).flatten ++ rest) := by
      rw [List.replicate_succ]; simp
    rw [e, List.replicate_succ (n := n + 1), List.cons_append]
    refine lexes_cons (a := ['\n']) (lex_nl _ _) ?_
    intro p hp
    simp at hp
    subst hp
    exact ih (some '\n')

theorem lexes_spaces (n : Nat) (rest : Str) (out : List (TokType × Str)) (prev : Option Char)
    (hb : ∀ c, rest.head? = some c → isBlank c = false)
    (h : Lexes (if n = 0 then prev else some ' ') rest out) :
    Lexes prev (List.replicate n ' ' ++ rest) (blankToks n ++ out) := by
  cases n with
  | zero => simpa [blankToks] using h
  | succ n =>
    have e : blankToks (n + 1) = [(.whitespace, List.replicate (n + 1) ' ')] := by simp [blankToks]
    rw [e]
    refine lexes_cons (lex_blanks _ _ _ hb) ?_
    intro p hp
    have : p = ' ' := by
      have := List.mem_of_getLast? hp
      exact (List.mem_replicate.1 this).2
    subst this
    simpa using h

/-- The text of a gap is read as blanks and line ends; afterwards the previous character is the
old one if the gap is empty, else a blank or a line end. -/
theorem lexes_space {a b : Cur} (rest : Str) (prev : Option Char) (Q : List (TokType × Str) → Prop)
    (hle : a.le b) (hb : ∀ c, rest.head? = some c → isBlank c = false)
    (h : ∀ p, (a = b ∧ p = prev) ∨ (a.lt b ∧ prevOk p = true ∧ p.isSome = true) → ∃ out, Lexes p rest out ∧ Q out) :
    ∃ out, Lexes prev (space ['\n'] a b ++ rest) (gapToks a b ++ out) ∧ Q out := by
  unfold space gapToks
  split
  · rename_i hlt
    have hab : a.lt b := Or.inl hlt
    obtain ⟨out, hl, hq⟩ : ∃ out, Lexes (if b.col = 0 then some '\n' else some ' ') rest out ∧ Q out := by
      split
      · exact h _ (Or.inr ⟨hab, rfl, rfl⟩)
      · exact h _ (Or.inr ⟨hab, rfl, rfl⟩)
    have h1 := lexes_spaces b.col rest out (some '\n') hb hl
    obtain ⟨n, hn⟩ : ∃ n, b.row - a.row = n + 1 := ⟨b.row - a.row - 1, by omega⟩
    refine ⟨out, ?_, hq⟩
    rw [hn, List.append_assoc, List.append_assoc]
    exact lexes_newlines n _ _ h1 prev
  · rename_i hlt
    have hrow : a.row = b.row ∧ a.col ≤ b.col := by
      unfold Cur.le at hle; omega
    obtain ⟨out, hl, hq⟩ : ∃ out, Lexes (if b.col - a.col = 0 then prev else some ' ') rest out ∧ Q out := by
      split
      · refine h _ (Or.inl ⟨?_, rfl⟩)
        cases a; cases b
        simp_all
        omega
      · refine h _ (Or.inr ⟨Or.inr ⟨hrow.1, by omega⟩, rfl, rfl⟩)
    exact ⟨out, lexes_spaces (b.col - a.col) rest out prev hb hl, hq⟩

/-! ## Texts -/

/-- Does not start with the first word of a format switch. -/
def NotSwitch (s : Str) : Prop := ¬ S "cmf:" <+: s ∧ ¬ S "cmake-format:" <+: s

/-- A text that is read back as one token in its place. -/
def Reads (p : Piece) : Prop :=
  match p.kind with
  | .lparen => p.text = ['(']
  | .rparen => p.text = [')']
  | .name => WordText p.text
  | .word => (∃ c cs, p.text = c :: cs ∧ isSpace c = false) ∧ NotSwitch p.text ∧
      ∀ prev rest, prevOk prev = true → nextOkClose rest = true →
      ∃ ty, isIdle ty = false ∧ lexOne prev (p.text ++ rest) = some (ty, p.text, rest)
  | .line => ∃ t, p.text = '#' :: t ∧ '\n' ∉ t ∧ t.head? ≠ some '['
  | .bracket => (∃ t, p.text = '#' :: t) ∧
      ∀ prev rest, lexOne prev (p.text ++ rest) = some (.bracketComment, p.text, rest)

/-- The character before, where it matters. -/
def PrevFor (p : Piece) (prev : Option Char) : Prop := (p.kind = .name ∨ p.kind = .word) → prevOk prev = true

/-- What follows, where it matters. -/
def NextFor (p : Piece) (rest : Str) : Prop :=
  (p.kind = .name → nextOkParen rest = true) ∧ (p.kind = .word → nextOkClose rest = true) ∧
  (p.kind = .line → ∃ r, rest = '\n' :: r ∧ NoSentinel r)

/-- The token read for a text. -/
def ReadAs (p : Piece) (x : TokType × Str) : Prop :=
  x.2 = p.text ∧ isIdle x.1 = false ∧
    ∃ prev rest, PrevFor p prev ∧ NextFor p rest ∧ lexOne prev (p.text ++ rest) = some (x.1, p.text, rest)

/-- Text by text. -/
def AllRead : List Piece → List (TokType × Str) → Prop
  | [], [] => True
  | p :: ps, x :: xs => ReadAs p x ∧ AllRead ps xs
  | _, _ => False

/-- A command name is followed by a parenthesis. -/
def Named : List Piece → Prop
  | [] => True
  | p :: ps => (p.kind = .name → ∃ q, ps.head? = some q ∧ q.kind = .lparen) ∧ Named ps

theorem wordHead_space {c : Char} (h : isWordHead c = true) : isSpace c = false := by
  simp [isWordHead, isLower] at h
  simp only [isSpace, Bool.or_eq_false_iff, beq_eq_false_iff_ne]
  refine ⟨⟨⟨⟨⟨?_, ?_⟩, ?_⟩, ?_⟩, ?_⟩, ?_⟩ <;> (rintro rfl; revert h; decide)

theorem reads_head {p : Piece} (h : Reads p) : ∃ c cs, p.text = c :: cs ∧ isSpace c = false := by
  unfold Reads at h
  split at h
  · exact ⟨_, _, h, rfl⟩
  · exact ⟨_, _, h, rfl⟩
  · obtain ⟨c, cs, e, hc, _⟩ := h
    exact ⟨c, cs, e, wordHead_space hc⟩
  · exact h.1
  · obtain ⟨t, e, _⟩ := h; exact ⟨_, _, e, rfl⟩
  · obtain ⟨⟨t, e⟩, _⟩ := h; exact ⟨_, _, e, rfl⟩

theorem blank_space {c : Char} (h : isSpace c = false) : isBlank c = false := by
  simp [isSpace] at h
  simp [isBlank, h]

theorem switch_prefix {sw s rest w r : Str} (hsw : ∀ c ∈ sw, isSpace c = false ∧ c ≠ '(' ∧ c ≠ ')')
    (hs : ¬ sw <+: s) (hr : nextOkParen rest = true) (h : stripPrefix? (sw ++ ' ' :: w) (s ++ rest) = some r) : False := by
  have e := stripPrefix_eq h
  rw [List.append_assoc] at e
  rcases List.append_eq_append_iff.1 e with ⟨u, h1, h2⟩ | ⟨u, h1, h2⟩
  · cases u with
    | nil => exact hs ⟨[], by simpa using h1⟩
    | cons x xs =>
      have hx := hsw x (by rw [h1]; simp)
      rw [h2] at hr
      simp [nextOkParen, hx] at hr
  · exact hs ⟨u, h1.symm⟩

theorem sentinel_free {w s rest : Str} (hs : NotSwitch s) (hr : nextOkParen rest = true) :
    sentinelTail w (s ++ rest) = none := by
  have e1 : S "cmake-format: " ++ w = S "cmake-format:" ++ ' ' :: w := by
    have : S "cmake-format: " = S "cmake-format:" ++ [' '] := by decide
    rw [this]; simp
  have e2 : S "cmf: " ++ w = S "cmf:" ++ ' ' :: w := by
    have : S "cmf: " = S "cmf:" ++ [' '] := by decide
    rw [this]; simp
  unfold sentinelTail
  rw [e1, e2]
  split
  · rename_i r h
    exact (switch_prefix (by decide) hs.2 hr h).elim
  · split
    · rename_i r h
      exact (switch_prefix (by decide) hs.1 hr h).elim
    · rfl

theorem sentinel_first {w s : Str} {c : Char} (h : c ≠ 'c') : sentinelTail w (c :: s) = none := by
  have e1 : S "cmake-format: " = 'c' :: S "make-format: " := by decide
  have e2 : S "cmf: " = 'c' :: S "mf: " := by decide
  simp [sentinelTail, e1, e2, stripPrefix?, Ne.symm h]

theorem word_notSwitch {s : Str} (h : WordText s) : NotSwitch s := by
  have : ':' ∉ s := by
    obtain ⟨c, cs, rfl, hc, hcs⟩ := h
    intro hm
    rcases List.mem_cons.1 hm with e | hm
    · rw [← e] at hc; revert hc; decide
    · have := hcs _ hm; revert this; decide
  constructor
  · rintro ⟨t, rfl⟩; exact this (List.mem_append_left _ (by decide))
  · rintro ⟨t, rfl⟩; exact this (List.mem_append_left _ (by decide))

/-- A text that follows a comment sign does not make it a format switch. -/
theorem reads_noSentinel {p : Piece} (h : Reads p) {rest : Str} (hn : NextFor p rest) (w : Str) :
    sentinelTail w (p.text ++ rest) = none := by
  unfold Reads at h
  split at h
  · rw [h]; exact sentinel_first (by decide)
  · rw [h]; exact sentinel_first (by decide)
  · rename_i hk
    exact sentinel_free (word_notSwitch h) (hn.1 hk)
  · rename_i hk
    exact sentinel_free h.2.1 (nextOk_weaken (hn.2.1 hk))
  · obtain ⟨t, e, _⟩ := h; rw [e]; exact sentinel_first (by decide)
  · obtain ⟨⟨t, e⟩, _⟩ := h; rw [e]; exact sentinel_first (by decide)

theorem withEndings_feed (s : Str) : withEndings ['\n'] s = s := by
  induction s with
  | nil => rfl
  | cons c cs ih =>
    simp only [withEndings, ih]
    split
    · rename_i h; subst h; rfl
    · rfl

/-- The type of the token for a text. -/
def KindType (k : PK) (ty : TokType) : Prop :=
  match k with
  | .line => ty = .comment ∨ ty = .formatOff ∨ ty = .formatOn
  | .bracket => ty = .bracketComment
  | _ => isIdle ty = false

theorem KindType.idle {k : PK} {ty : TokType} (h : KindType k ty) : isIdle ty = !k.isProgram := by
  cases k <;> simp only [KindType] at h
  case line => rcases h with rfl | rfl | rfl <;> rfl
  case bracket => subst h; rfl
  all_goals rw [h]; rfl

/-- A text is read as one token. -/
theorem reads_lex {p : Piece} (h : Reads p) {prev : Option Char} {rest : Str} (hp : PrevFor p prev) (hn : NextFor p rest) :
    ∃ ty, lexOne prev (p.text ++ rest) = some (ty, p.text, rest) ∧ KindType p.kind ty := by
  unfold Reads at h
  cases hk : p.kind <;> simp only [hk] at h
  case lparen => rw [h]; exact ⟨_, lex_lparen _ _, rfl⟩
  case rparen => rw [h]; exact ⟨_, lex_rparen _ _, rfl⟩
  case name => exact ⟨_, lex_word h (hp (Or.inl hk)) (hn.1 hk), rfl⟩
  case word =>
    obtain ⟨ty, h1, h2⟩ := h.2.2 prev rest (hp (Or.inr hk)) (hn.2.1 hk)
    exact ⟨ty, h2, h1⟩
  case line =>
    obtain ⟨t, e, h1, h2⟩ := h
    obtain ⟨r, rfl, hr⟩ := hn.2.2 hk
    obtain ⟨ty, hty, h3⟩ := lex_line (prev := prev) h1 h2 hr
    rw [e]
    exact ⟨ty, h3, hty⟩
  case bracket => exact ⟨_, h.2 prev rest, rfl⟩

theorem space_head {a b : Cur} (h : a.lt b) : ∃ c t, space ['\n'] a b = c :: t ∧ (c = ' ' ∨ c = '\n') ∧ (∀ x ∈ t, isSpace x = true) ∧
    (a.row < b.row → c = '\n') := by
  unfold space
  split
  · rename_i hr
    obtain ⟨n, hn⟩ : ∃ n, b.row - a.row = n + 1 := ⟨b.row - a.row - 1, by omega⟩
    rw [hn, List.replicate_succ]
    refine ⟨'\n', (List.replicate n ['\n']).flatten ++ List.replicate b.col ' ', by simp, Or.inr rfl, ?_, fun _ => rfl⟩
    intro x hx
    simp only [List.mem_append, List.mem_flatten, List.mem_replicate] at hx
    rcases hx with ⟨l, hl, hx⟩ | hx
    · rw [hl.2] at hx; simp at hx; subst hx; rfl
    · rw [hx.2]; rfl
  · rename_i hr
    have : a.row = b.row ∧ a.col < b.col := by unfold Cur.lt at h; omega
    obtain ⟨n, hn⟩ : ∃ n, b.col - a.col = n + 1 := ⟨b.col - a.col - 1, by omega⟩
    rw [hn, List.replicate_succ]
    refine ⟨' ', List.replicate n ' ', rfl, Or.inl rfl, ?_, fun h => absurd h hr⟩
    intro x hx
    rw [(List.mem_replicate.1 hx).2]; rfl

theorem space_same (a : Cur) : space ['\n'] a a = [] := by
  simp [space]

theorem eq_or_lt {a b : Cur} (h : a.le b) : a = b ∨ a.lt b := by
  unfold Cur.le at h
  by_cases e : a = b
  · exact Or.inl e
  · right
    unfold Cur.lt
    rcases h with h | h
    · exact Or.inl h
    · right
      refine ⟨h.1, ?_⟩
      rcases Nat.lt_or_eq_of_le h.2 with h' | h'
      · exact h'
      · exfalso
        apply e
        cases a; cases b
        simp_all

/-- What comes after a text is what it needs. -/
theorem next_for {p : Piece} {qs : List Piece} (ho : InOrder p.stop qs) (hl : Linked (p :: qs)) (hnm : Named (p :: qs))
    (hr : ∀ q ∈ qs, Reads q) (hn : ∀ q qs', qs = q :: qs' → NextFor q (weave ['\n'] q.stop qs' ++ ['\n'])) :
    NextFor p (weave ['\n'] p.stop qs ++ ['\n']) := by
  cases qs with
  | nil =>
    refine ⟨fun _ => rfl, fun _ => rfl, fun _ => ⟨[], rfl, ?_⟩⟩
    intro w
    have e1 : S "cmake-format: " = 'c' :: S "make-format: " := by decide
    have e2 : S "cmf: " = 'c' :: S "mf: " := by decide
    simp [sentinelTail, e1, e2, stripPrefix?]
  | cons q qs =>
    have hf := hl.1
    simp only [weave, withEndings_feed, List.append_assoc]
    rcases eq_or_lt ho.1 with he | hlt
    · -- touching
      have hnot : ¬ p.stop.lt q.pos := by rw [← he]; unfold Cur.lt; omega
      have hms : mustSeparate p.kind q.kind = false := by
        cases h : mustSeparate p.kind q.kind with
        | false => rfl
        | true => exact absurd (hf.2 h) hnot
      rw [← he, space_same, List.nil_append]
      have hq := hr q (by simp)
      refine ⟨fun hk => ?_, fun hk => ?_, fun hk => ?_⟩
      · obtain ⟨q', hq', hk'⟩ := hnm.1 hk
        simp only [List.head?_cons, Option.some.injEq] at hq'
        subst hq'
        simp only [Reads, hk'] at hq
        rw [hq]; rfl
      · have hk' : q.kind = .rparen := by
          rw [hk] at hms
          revert hms
          cases q.kind <;> simp [mustSeparate]
        simp only [Reads, hk'] at hq
        rw [hq]; rfl
      · have := hf.1 hk
        rw [← he] at this
        omega
    · obtain ⟨c, t, e, hc, ht, hrow⟩ := space_head hlt
      rw [e, List.cons_append]
      refine ⟨fun _ => ?_, fun _ => ?_, fun hk => ?_⟩
      · rcases hc with rfl | rfl <;> rfl
      · rcases hc with rfl | rfl <;> rfl
      · have := hrow (hf.1 hk)
        subst this
        refine ⟨_, rfl, ?_⟩
        intro w
        obtain ⟨x, xs, ex, hx⟩ := reads_head (hr q (by simp))
        have hd : (t ++ (q.text ++ (weave ['\n'] q.stop qs ++ ['\n']))).dropWhile isSpace =
            q.text ++ (weave ['\n'] q.stop qs ++ ['\n']) := by
          rw [List.dropWhile_append_of_pos ht, ex, List.cons_append, List.dropWhile_cons, hx]
          rfl
        rw [hd]
        exact reads_noSentinel (hr q (by simp)) (hn q qs rfl) w

theorem next_all : ∀ {p : Piece} {qs : List Piece}, InOrder p.stop qs → Linked (p :: qs) → Named (p :: qs) →
    (∀ q ∈ qs, Reads q) → NextFor p (weave ['\n'] p.stop qs ++ ['\n'])
  | p, [], ho, hl, hn, hr => next_for ho hl hn hr (by simp)
  | p, q :: qs, ho, hl, hn, hr =>
    next_for ho hl hn hr (by
      intro q' qs' e
      simp only [List.cons.injEq] at e
      obtain ⟨rfl, rfl⟩ := e
      exact next_all ho.2 hl.2 hn.2 (fun x h => hr x (by simp [h])))

/-- The tokens of texts at positions: each text is a token, with blanks and line ends between. -/
def Woven : Cur → List Piece → List (TokType × Str) → Prop
  | _, [], out => out = [(.newline, ['\n'])]
  | c, p :: ps, out => ∃ ty out', out = gapToks c p.pos ++ (ty, p.text) :: out' ∧
      KindType p.kind ty ∧ Woven p.stop ps out'

/-- **Texts at positions are read back text by text.** -/
theorem lexes_weave : ∀ (ps : List Piece) (c : Cur) (prev : Option Char), InOrder c ps → Linked ps → Named ps →
    (∀ p ∈ ps, Reads p) → (∀ p, ps.head? = some p → c = p.pos → PrevFor p prev) →
    ∃ out, Lexes prev (weave ['\n'] c ps ++ ['\n']) out ∧ Woven c ps out ∧
      AllRead (ps.filter fun p => p.kind.isProgram) (busy out)
  | [], c, prev, _, _, _, _, _ => by
    refine ⟨[(.newline, ['\n'])], ?_, rfl, by simp [busy, isIdle, AllRead]⟩
    have e : weave ['\n'] c [] ++ ['\n'] = ['\n'] ++ [] := rfl
    rw [e]
    exact lexes_cons (lex_nl _ _) (fun _ _ => lexes_nil _)
  | p :: qs, c, prev, ho, hl, hn, hr, hs => by
    have hp := hr p (by simp)
    have hnext := next_all ho.2 hl hn (fun q h => hr q (by simp [h]))
    obtain ⟨x, xs, ex, hx⟩ := reads_head hp
    simp only [weave, withEndings_feed, List.append_assoc]
    have main : ∀ p' : Option Char, PrevFor p p' → ∃ out, Lexes p' (p.text ++ (weave ['\n'] p.stop qs ++ ['\n'])) out ∧
        ((∃ ty out', out = (ty, p.text) :: out' ∧ KindType p.kind ty ∧ Woven p.stop qs out') ∧
        AllRead ((p :: qs).filter fun p => p.kind.isProgram) (busy out)) := by
      intro p' hp'
      obtain ⟨l, hlast⟩ : ∃ l, p.text.getLast? = some l := by
        rw [ex]; exact ⟨_, List.getLast?_eq_some_getLast (by simp)⟩
      obtain ⟨out, h1, hwov, h2⟩ := lexes_weave qs p.stop (some l) ho.2 (by
          cases qs with
          | nil => trivial
          | cons q qs => exact hl.2) hn.2 (fun q h => hr q (by simp [h])) (by
        intro q hq he hk
        cases qs with
        | nil => simp at hq
        | cons q' qs =>
          simp only [List.head?_cons, Option.some.injEq] at hq
          subst hq
          have hnot : ¬ p.stop.lt q'.pos := by rw [← he]; unfold Cur.lt; omega
          have hms : mustSeparate p.kind q'.kind = false := by
            cases h : mustSeparate p.kind q'.kind with
            | false => rfl
            | true => exact absurd (hl.1.2 h) hnot
          have hpk : p.kind = .lparen ∨ p.kind = .name := by
            revert hms
            rcases hk with hk | hk <;> rw [hk] <;> cases p.kind <;> simp [mustSeparate]
          rcases hpk with hpk | hpk
          · simp only [Reads, hpk] at hp
            rw [hp] at hlast
            simp at hlast
            subst hlast
            rfl
          · obtain ⟨q'', e, hk'⟩ := hn.1 hpk
            simp only [List.head?_cons, Option.some.injEq] at e
            subst e
            rw [hk'] at hk
            simp at hk)
      obtain ⟨ty, h3, h4⟩ := reads_lex hp hp' hnext
      refine ⟨(ty, p.text) :: out, lexes_cons h3 (fun q hq => by rw [hlast] at hq; simp at hq; subst hq; exact h1),
        ⟨ty, out, rfl, h4, hwov⟩, ?_⟩
      replace h4 := h4.idle
      cases hprog : p.kind.isProgram with
      | true =>
        rw [hprog] at h4
        have : busy ((ty, p.text) :: out) = (ty, p.text) :: busy out := by simp [busy, h4]
        rw [this, List.filter_cons, if_pos (by simpa using hprog)]
        exact ⟨⟨rfl, by simpa using h4, p', _, hp', hnext, h3⟩, h2⟩
      | false =>
        rw [hprog] at h4
        have : busy ((ty, p.text) :: out) = busy out := by simp [busy, h4]
        rw [this, List.filter_cons, if_neg (by simp [hprog])]
        exact h2
    have hsp := lexes_space (p.text ++ (weave ['\n'] p.stop qs ++ ['\n'])) prev (fun out =>
      ((∃ ty out', out = (ty, p.text) :: out' ∧ KindType p.kind ty ∧ Woven p.stop qs out') ∧
        AllRead ((p :: qs).filter fun p => p.kind.isProgram) (busy out))) ho.1 (by
      intro c hc
      rw [ex] at hc
      simp at hc
      subst hc
      exact blank_space hx) (by
      rintro p' (⟨he, rfl⟩ | ⟨_, hp', _⟩)
      · exact main _ (hs p rfl he)
      · exact main _ (fun _ => hp'))
    obtain ⟨out, hlex, ⟨ty, out', e, hi, hw⟩, hall⟩ := hsp
    exact ⟨_, hlex, ⟨ty, out', by rw [e], hi, hw⟩, by rw [busy_append, busy_gap, List.nil_append]; exact hall⟩

end Verif.Layout
