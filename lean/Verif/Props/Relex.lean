import Verif.RelexPieces
import Verif.Props.Layout

/-!
# The formatted text is read back as the same program (C57)

The specification is the first section: which tokens can be written anywhere (`Portable`),
which texts consist of such tokens (`Steady`), and when a token read back is the one that was
written (`ReadBack`).
-/

namespace Verif.Props.Relex
open Verif Py Layout Props.Layout

/-! ## Specification -/

/-- The types of arguments. -/
def isArgument (ty : Lex.TokType) : Bool := Lex.isArgType ty

/-- How a token may be spelled in the output: as it is, in the case of keywords if it is a
word or an unquoted argument, and in the case of commands or with a configured spelling if it
is a word. -/
def Respelled (cfg : FileCfg) (t : Lex.Token) (s : Str) : Prop :=
  s = t.spelling ∨
  ((t.type = .word ∨ t.type = .unquoted) ∧
    ((cfg.layout.keywordCase = S "lower" ∧ s = lower t.spelling) ∨
     (cfg.layout.keywordCase = S "upper" ∧ s = upper t.spelling))) ∨
  (t.type = .word ∧
    ((cfg.layout.commandCase t.spelling = S "lower" ∧ s = lower t.spelling) ∨
     (cfg.layout.commandCase t.spelling = S "upper" ∧ s = upper t.spelling) ∨
     (cfg.layout.commandCase t.spelling = S "canonical" ∧ knownSpelling cfg.layout cfg.ctx t.spelling s)))

/-- The token `u` of the output is the token `t` of the input: it is spelled as the options
say, and has the same type, except that what was read as an unquoted argument because it
touched its neighbours may be read as another kind of argument. -/
def ReadBack (cfg : FileCfg) (t u : Lex.Token) : Prop :=
  Respelled cfg t u.spelling ∧
  (t.type ≠ .unquoted → u.type = t.type) ∧ (t.type = .unquoted → isArgument u.type = true)

/-- Token by token. -/
def OneByOne (R : Lex.Token → Lex.Token → Prop) : List Lex.Token → List Lex.Token → Prop
  | [], [] => True
  | t :: ts, u :: us => R t u ∧ OneByOne R ts us
  | _, _ => False

/-- A token of the program that is read the same wherever it is written.
* It contains no carriage return and no blank before a line end, which are normalized.
* An unquoted argument is made of `$(...)`, quoted substrings, escapes and plain characters,
  does not start with `'`, `[` or an escaped parenthesis or blank, and contains no escapes if
  keywords are written in upper case.
* It is not the word that makes an empty comment in front of it a format switch.
* It is no byte-order mark.
* A configured spelling of a command is a word. -/
structure Portable (cfg : FileCfg) (t : Lex.Token) : Prop where
  normalized : Text.normalizeLineEndings t.spelling = t.spelling
  unquoted : t.type = .unquoted → Lex.Unquoted t.spelling ∧ Lex.FineStart t.spelling
  escapes : t.type = .unquoted → cfg.layout.keywordCase = S "upper" → '\\' ∉ t.spelling
  noSwitch : NotSwitch (lower t.spelling)
  noMark : t.spelling.head? ≠ some Lex.BOM
  spelling : t.type = .word → cfg.layout.commandCase t.spelling = S "canonical" →
    ∀ s, knownSpelling cfg.layout cfg.ctx t.spelling s → Lex.WordText s

/-- A text whose tokens are portable and whose comments stay line comments when the number of
their `#` changes, formatted with line feeds. -/
structure Steady (cfg : FileCfg) (content : Str) : Prop where
  lineFeed : lineEnd cfg content = S "\n"
  sign : GoodSign cfg.layout.markup.explicitTrailing
  program : ∀ t ∈ Parse.program (Props.Lex.toks content), Portable cfg t
  comments : ∀ t ∈ Props.Lex.toks content, t.type = .comment → NoOpener t.spelling
  brackets : ∀ t ∈ Props.Lex.toks content, t.type = .bracketComment → Text.normalizeLineEndings t.spelling = t.spelling

/-! ## What is written for a token -/

/-- The text written for a token. -/
def Spelt (cfg : Cfg) (ctx : Parse.Ctx) (t : Lex.Token) (p : Piece) : Prop :=
  match p.kind with
  | .lparen => t.spelling = S "(" ∧ p.text = S "("
  | .rparen => t.spelling = S ")" ∧ p.text = S ")"
  | .name => t.type = .word ∧ CaseRule cfg (knownSpelling cfg ctx) t p
  | .word => p.text = Text.normalizeLineEndings t.spelling ∨ ((t.type = .word ∨ t.type = .unquoted) ∧
      ((cfg.keywordCase = S "lower" ∧ p.text = lower t.spelling) ∨
       (cfg.keywordCase = S "upper" ∧ p.text = upper t.spelling)))
  | _ => False

theorem spelt_rule {cfg : Cfg} {ctx : Parse.Ctx} : Rule cfg ctx (Spelt cfg ctx) where
  lparen := fun h => ⟨h, rfl⟩
  rparen := fun h => ⟨h, rfl⟩
  scalar := by
    intro parent ty t text pos pk hty hpk hs h
    have hcase := scalar_case (pos := pos) hty hpk hs h
    have kw : (t.type = .word ∨ t.type = .unquoted) → CaseRule cfg (knownSpelling cfg ctx) t ⟨.word, pos, text⟩ →
        Spelt cfg ctx t ⟨.word, pos, text⟩ := by
      intro h1 h2
      simp only [CaseRule] at h2
      simp only [Spelt]
      rcases h2 with h2 | h2
      · exact Or.inl h2
      · exact Or.inr ⟨h1, h2⟩
    rcases hty with rfl | rfl | rfl | rfl | rfl
    · obtain ⟨t', ht', -, hw, -⟩ := hs
      rw [hpk] at ht'
      simp only [List.cons.injEq, and_true] at ht'
      subst ht'
      exact ⟨hw, hcase⟩
    · simp only [scalarText, Except.ok.injEq] at h
      exact Or.inl h.symm
    · obtain ⟨t', ht', hw⟩ := hs
      rw [hpk] at ht'
      simp only [List.cons.injEq, and_true] at ht'
      subst ht'
      exact kw hw hcase
    · obtain ⟨t', ht', hw⟩ := hs
      rw [hpk] at ht'
      simp only [List.cons.injEq, and_true] at ht'
      subst ht'
      exact kw hw hcase
    · simp only [scalarText, Except.ok.injEq] at h
      exact Or.inl h.symm

theorem allWritten_mem {W : Lex.Token → Piece → Prop} {ts : List Lex.Token} {ps : List Piece} (h : AllWritten W ts ps) :
    ∀ p ∈ ps, ∃ t ∈ ts, W t p := by
  induction ts generalizing ps with
  | nil =>
    cases ps with
    | nil => simp
    | cons p ps => simp [AllWritten] at h
  | cons t ts ih =>
    cases ps with
    | nil => simp
    | cons p ps =>
      simp only [AllWritten] at h
      intro q hq
      rcases List.mem_cons.1 hq with rfl | hq
      · exact ⟨t, by simp, h.1⟩
      · obtain ⟨u, hu, hw⟩ := ih h.2 q hq
        exact ⟨u, by simp [hu], hw⟩

/-! ## Reading single tokens -/

/-- The type a token is read back with. -/
def TypeOk (t : Lex.Token) (ty : Lex.TokType) : Prop :=
  (t.type ≠ .unquoted → ty = t.type) ∧ (t.type = .unquoted → isArgument ty = true)

theorem argType_busy {ty : Lex.TokType} (h : Lex.isArgType ty = true) : isIdle ty = false := by
  cases ty <;> simp_all [Lex.isArgType, isIdle]

theorem wordText_of {s : Str} (h : Lex.Shape .word s) : Lex.WordText s := by
  obtain ⟨c, cs, rfl, h1, h2, h3⟩ := h
  exact ⟨c, cs, rfl, by simp [Lex.isWordHead, h1, h2], fun d hd => Lex.wordChar_of (h3 d hd)⟩

theorem digit_space {c : Char} (h : isDigit c = true) : isSpace c = false := by
  simp [isDigit] at h
  simp only [isSpace, Bool.or_eq_false_iff, beq_eq_false_iff_ne]
  refine ⟨⟨⟨⟨⟨?_, ?_⟩, ?_⟩, ?_⟩, ?_⟩, ?_⟩ <;> (rintro rfl; revert h; decide)

theorem unquoted_space {s : Str} (h : Lex.Unquoted s) (hne : s ≠ []) : ∃ c cs, s = c :: cs ∧ isSpace c = false := by
  have := Lex.unquoted_head (rest := []) h hne
  cases s with
  | nil => exact absurd rfl hne
  | cons c cs =>
    refine ⟨c, cs, rfl, ?_⟩
    simp [Lex.nextOkParen] at this
    exact this.1.1

theorem notSwitch_same {a b : Str} (h : NotSwitch (lower a)) (e : lower b = lower a) : NotSwitch b := by
  constructor
  · rintro ⟨u, rfl⟩
    exact h.1 ⟨lower u, by rw [← e]; simp [lower]; decide⟩
  · rintro ⟨u, rfl⟩
    exact h.2 ⟨lower u, by rw [← e]; simp [lower]; decide⟩

/-- A token is read back from its own spelling. -/
theorem read_same {content : Str} {t : Lex.Token} (ht : t ∈ Props.Lex.toks content) (hb : t.type ≠ .bom)
    (hprog : t ∈ Parse.program (Props.Lex.toks content))
    (hu : t.type = .unquoted → Lex.Unquoted t.spelling ∧ Lex.FineStart t.spelling) :
    (∃ c cs, t.spelling = c :: cs ∧ isSpace c = false) ∧ ∀ prev rest, Lex.prevOk prev = true → Lex.nextOkClose rest = true →
      ∃ ty, isIdle ty = false ∧ TypeOk t ty ∧ Lex.lexOne prev (t.spelling ++ rest) = some (ty, t.spelling, rest) := by
  have htok := Props.Parse.tokenize_toks content
  have hsh := Lex.token_shape content _ htok t ht
  have same : ∀ {s : Str}, (∃ c cs, s = c :: cs ∧ isSpace c = false) → t.spelling = s → t.type ≠ .unquoted → isIdle t.type = false →
      (∀ prev rest, Lex.prevOk prev = true → Lex.nextOkClose rest = true → Lex.lexOne prev (s ++ rest) = some (t.type, s, rest)) →
      (∃ c cs, t.spelling = c :: cs ∧ isSpace c = false) ∧ ∀ prev rest, Lex.prevOk prev = true → Lex.nextOkClose rest = true →
      ∃ ty, isIdle ty = false ∧ TypeOk t ty ∧ Lex.lexOne prev (t.spelling ++ rest) = some (ty, t.spelling, rest) := by
    rintro s hd e hnu hi h
    rw [e]
    exact ⟨hd, fun prev rest hp hr => ⟨t.type, hi, ⟨fun _ => rfl, fun h => absurd h hnu⟩, h prev rest hp hr⟩⟩
  simp only [Parse.program, List.mem_filter] at hprog
  cases hty : t.type <;> rw [hty] at hsh <;> rw [hty] at hprog
  case bom => exact absurd hty hb
  case whitespace => exact absurd hprog.2 (by decide)
  case newline => exact absurd hprog.2 (by decide)
  case comment => exact absurd hprog.2 (by decide)
  case bracketComment => exact absurd hprog.2 (by decide)
  case formatOff => exact absurd hprog.2 (by decide)
  case formatOn => exact absurd hprog.2 (by decide)
  case lparen =>
    exact same ⟨'(', [], rfl, rfl⟩ hsh (by rw [hty]; simp) (by rw [hty]; rfl)
      (fun prev rest _ _ => by rw [hty]; exact Lex.lex_lparen prev rest)
  case rparen =>
    exact same ⟨')', [], rfl, rfl⟩ hsh (by rw [hty]; simp) (by rw [hty]; rfl)
      (fun prev rest _ _ => by rw [hty]; exact Lex.lex_rparen prev rest)
  case word =>
    have hw := wordText_of hsh
    obtain ⟨c, cs, e, hc, _⟩ := id hw
    refine same (s := t.spelling) ⟨c, cs, e, wordHead_space hc⟩ rfl (by rw [hty]; simp) (by rw [hty]; rfl) ?_
    intro prev rest hp hr
    rw [hty]
    exact Lex.lex_word hw hp (Lex.nextOk_weaken hr)
  case number =>
    obtain ⟨d, ds, hs, hd⟩ := hsh
    have hd' : ∀ c ∈ d :: ds, isDigit c = true := fun c hc => Lex.digit_of (hd c hc)
    refine same (s := t.spelling) ?_ rfl (by rw [hty]; simp) (by rw [hty]; rfl) ?_
    · rcases hs with e | e
      · exact ⟨d, ds, e, digit_space (hd' d (by simp))⟩
      · exact ⟨'-', _, e, rfl⟩
    · intro prev rest hp hr
      rw [hty]
      exact Lex.lex_number ⟨d, ds, hs, hd'⟩ hp (Lex.nextOk_weaken hr)
  case atword =>
    obtain ⟨c, cs, e, h1, h2, h3⟩ := hsh
    refine same ⟨'@', _, rfl, rfl⟩ (by simpa using e) (by rw [hty]; simp) (by rw [hty]; rfl) ?_
    intro prev rest hp hr
    rw [hty]
    have := Lex.lex_atword (prev := prev) (c := c) (cs := cs) (rest := rest) (by simp [Lex.isWordHead, h1, h2])
      (fun d hd => Lex.wordChar_of (h3 d hd)) hp (Lex.nextOk_weaken hr)
    simpa using this
  case deref =>
    obtain ⟨c, cs, e, h1, h2, h3⟩ := hsh
    refine same ⟨'$', _, rfl, rfl⟩ (by simpa using e) (by rw [hty]; simp) (by rw [hty]; rfl) ?_
    intro prev rest hp hr
    rw [hty]
    have := Lex.lex_deref (prev := prev) (c := c) (cs := cs) (rest := rest) (by simp [Lex.isWordHead, h1, h2])
      (fun d hd => Lex.wordChar_of (h3 d hd)) hp hr
    simpa using this
  case quoted =>
    obtain ⟨q, body, hq, e, h⟩ := hsh
    refine same ⟨q, _, rfl, by rcases hq with rfl | rfl <;> rfl⟩ e (by rw [hty]; simp) (by rw [hty]; rfl) ?_
    intro prev rest hp hr
    rw [hty]
    exact Lex.lex_quoted hq h hp hr
  case bracketArg =>
    obtain ⟨n, body, e⟩ := hsh
    rcases Lex.mem_tokens htok ht with h | ⟨prev', x, b, h⟩
    · rw [h] at hty; simp [Lex.bomToken] at hty
    rw [hty] at h
    refine same (s := t.spelling) ⟨'[', _, e, rfl⟩ rfl (by rw [hty]; simp) (by rw [hty]; rfl) ?_
    intro prev rest hp hr
    rw [hty]
    exact Lex.lex_bracketArg h hp hr
  case unquoted =>
    obtain ⟨h1, h2⟩ := hu hty
    refine ⟨unquoted_space h1 hsh.1, ?_⟩
    intro prev rest hp hr
    obtain ⟨ty, h3, h4⟩ := Lex.lex_unquoted (prev := prev) h1 hsh.1 h2 hr
    exact ⟨ty, argType_busy h3, ⟨fun h => absurd hty h, fun _ => h3⟩, h4⟩

/-- A token is read back from a respelling of it in another case. -/
theorem read_recased {content : Str} {t : Lex.Token} (ht : t ∈ Props.Lex.toks content) {f : Char → Char} (hf : Recase f)
    (hty : t.type = .word ∨ t.type = .unquoted)
    (hu : t.type = .unquoted → Lex.Unquoted (t.spelling.map f) ∧ Lex.FineStart t.spelling) :
    (∃ c cs, t.spelling.map f = c :: cs ∧ isSpace c = false) ∧
      ∀ prev rest, Lex.prevOk prev = true → Lex.nextOkClose rest = true →
      ∃ ty, isIdle ty = false ∧ TypeOk t ty ∧ Lex.lexOne prev (t.spelling.map f ++ rest) = some (ty, t.spelling.map f, rest) := by
  have hsh := Lex.token_shape content _ (Props.Parse.tokenize_toks content) t ht
  rcases hty with hty | hty <;> rw [hty] at hsh
  · have hw := hf.word (wordText_of hsh)
    obtain ⟨c, cs, e, hc, _⟩ := id hw
    refine ⟨⟨c, cs, e, wordHead_space hc⟩, fun prev rest hp hr => ⟨.word, rfl, ⟨fun _ => hty.symm, fun h => ?_⟩, ?_⟩⟩
    · rw [hty] at h; simp at h
    · exact Lex.lex_word hw hp (Lex.nextOk_weaken hr)
  · obtain ⟨h1, h2⟩ := hu hty
    have hne : t.spelling.map f ≠ [] := by simpa using hsh.1
    refine ⟨unquoted_space h1 hne, ?_⟩
    intro prev rest hp hr
    obtain ⟨ty, h3, h4⟩ := Lex.lex_unquoted (prev := prev) h1 hne (hf.fine h2) hr
    exact ⟨ty, argType_busy h3, ⟨fun h => absurd hty h, fun _ => h3⟩, h4⟩

/-! ## Reading texts -/

section
variable {cfg : FileCfg} {content : Str} {t : Lex.Token} {p : Piece}

/-- A program text is read back as its token. -/
theorem read_piece (ht : t ∈ Parse.program (Props.Lex.toks content)) (hb : t.type ≠ .bom) (hport : Portable cfg t)
    (hs : Spelt cfg.layout cfg.ctx t p) :
    Reads p ∧ p.text.head? ≠ some Lex.BOM ∧ ∀ x, ReadAs p x → Respelled cfg t x.2 ∧ TypeOk t x.1 := by
  have hmem : t ∈ Props.Lex.toks content := by
    simp only [Parse.program, List.mem_filter] at ht; exact ht.1
  have hsame := read_same hmem hb ht hport.unquoted
  unfold Spelt at hs
  cases hk : p.kind <;> simp only [hk] at hs
  case lparen =>
    refine ⟨by simp only [Reads, hk]; exact hs.2, by rw [hs.2]; decide +kernel, ?_⟩
    rintro x ⟨h1, _, prev, rest, _, _, h2⟩
    refine ⟨Or.inl (by rw [h1, hs.2, hs.1]), ?_⟩
    obtain ⟨ty, _, hok, hl⟩ := hsame.2 none [] rfl rfl
    rw [hs.1] at hl
    have e : Lex.lexOne none (S "(" ++ []) = some (.lparen, S "(", []) := Lex.lex_lparen none []
    rw [e] at hl
    rw [hs.2] at h2
    have e2 : Lex.lexOne prev (S "(" ++ rest) = some (.lparen, S "(", rest) := Lex.lex_lparen prev rest
    rw [e2] at h2
    simp only [Option.some.injEq, Prod.mk.injEq] at hl h2
    rw [← h2.1, hl.1]
    exact hok
  case rparen =>
    refine ⟨by simp only [Reads, hk]; exact hs.2, by rw [hs.2]; decide +kernel, ?_⟩
    rintro x ⟨h1, _, prev, rest, _, _, h2⟩
    refine ⟨Or.inl (by rw [h1, hs.2, hs.1]), ?_⟩
    obtain ⟨ty, _, hok, hl⟩ := hsame.2 none [] rfl rfl
    rw [hs.1] at hl
    have e : Lex.lexOne none (S ")" ++ []) = some (.rparen, S ")", []) := Lex.lex_rparen none []
    rw [e] at hl
    rw [hs.2] at h2
    have e2 : Lex.lexOne prev (S ")" ++ rest) = some (.rparen, S ")", rest) := Lex.lex_rparen prev rest
    rw [e2] at h2
    simp only [Option.some.injEq, Prod.mk.injEq] at hl h2
    rw [← h2.1, hl.1]
    exact hok
  case name =>
    obtain ⟨hty, hc⟩ := hs
    simp only [CaseRule, hk] at hc
    have hsh := Lex.token_shape content _ (Props.Parse.tokenize_toks content) t hmem
    rw [hty] at hsh
    have hw := wordText_of hsh
    have hwp : Lex.WordText p.text := by
      rcases hc with ⟨_, e⟩ | ⟨_, e⟩ | ⟨_, e⟩ | ⟨h1, h2⟩
      · rw [e]; exact recase_lower.word hw
      · rw [e]; exact recase_upper.word hw
      · rw [e]; exact hw
      · exact hport.spelling hty h1 _ h2
    refine ⟨by simp only [Reads, hk]; exact hwp, ?_, ?_⟩
    · obtain ⟨c, cs, e, hc, _⟩ := hwp
      rw [e]
      simp only [List.head?_cons, ne_eq, Option.some.injEq]
      rintro rfl
      revert hc; decide +kernel
    · rintro x ⟨h1, _, prev, rest, hp, hn, h2⟩
      rw [Lex.lex_word hwp (hp (Or.inl hk)) (hn.1 hk)] at h2
      simp only [Option.some.injEq, Prod.mk.injEq] at h2
      refine ⟨?_, fun _ => by rw [← h2.1, hty], fun h => by rw [hty] at h; simp at h⟩
      rw [h1]
      rcases hc with ⟨h, e⟩ | ⟨h, e⟩ | ⟨_, e⟩ | ⟨h, e⟩
      · exact Or.inr (Or.inr ⟨hty, Or.inl ⟨h, e⟩⟩)
      · exact Or.inr (Or.inr ⟨hty, Or.inr (Or.inl ⟨h, e⟩)⟩)
      · exact Or.inl e
      · exact Or.inr (Or.inr ⟨hty, Or.inr (Or.inr ⟨h, e⟩)⟩)
  case word =>
    have fin : ∀ {s : Str}, p.text = s → lower s = lower t.spelling → s.head? ≠ some Lex.BOM → Respelled cfg t s →
        ((∃ c cs, s = c :: cs ∧ isSpace c = false) ∧
          ∀ prev rest, Lex.prevOk prev = true → Lex.nextOkClose rest = true →
          ∃ ty, isIdle ty = false ∧ TypeOk t ty ∧ Lex.lexOne prev (s ++ rest) = some (ty, s, rest)) →
        Reads p ∧ p.text.head? ≠ some Lex.BOM ∧ ∀ x, ReadAs p x → Respelled cfg t x.2 ∧ TypeOk t x.1 := by
      rintro s rfl hlow hbom hre ⟨h1, h2⟩
      refine ⟨?_, hbom, ?_⟩
      · simp only [Reads, hk]
        refine ⟨h1, notSwitch_same hport.noSwitch hlow, ?_⟩
        intro prev rest hp hr
        obtain ⟨ty, a, _, b⟩ := h2 prev rest hp hr
        exact ⟨ty, a, b⟩
      · rintro x ⟨h3, _, prev, rest, hp, hn, h4⟩
        obtain ⟨ty, _, a, b⟩ := h2 prev rest (hp (Or.inr hk)) (hn.2.1 hk)
        rw [b] at h4
        simp only [Option.some.injEq, Prod.mk.injEq] at h4
        rw [h3, ← h4.1]
        exact ⟨hre, a⟩
    rcases hs with e | ⟨hty, ⟨hkc, e⟩ | ⟨hkc, e⟩⟩
    · rw [hport.normalized] at e
      exact fin e rfl hport.noMark (Or.inl rfl) hsame
    · exact fin e (lower_lower _) (recase_lower.head (by decide +kernel) hport.noMark) (Or.inr (Or.inl ⟨hty, Or.inl ⟨hkc, rfl⟩⟩))
        (read_recased hmem recase_lower hty fun h => ⟨unquoted_lower (hport.unquoted h).1, (hport.unquoted h).2⟩)
    · exact fin e (lower_upper _) (recase_upper.head (by decide +kernel) hport.noMark) (Or.inr (Or.inl ⟨hty, Or.inr ⟨hkc, rfl⟩⟩))
        (read_recased hmem recase_upper hty fun h =>
          ⟨unquoted_upper (hport.unquoted h).1 (hport.escapes h hkc), (hport.unquoted h).2⟩)

end

/-! ## C57 -/

theorem allRead_backs {W : Lex.Token → Piece → Prop} {Q : Lex.Token → Lex.TokType × Str → Prop} {ts : List Lex.Token} {ps : List Piece}
    {xs : List (Lex.TokType × Str)} (hW : AllWritten W ts ps) (hR : AllRead ps xs)
    (h : ∀ t ∈ ts, ∀ p x, W t p → ReadAs p x → Q t x) (us : List Lex.Token) (hus : us.map (fun u => (u.type, u.spelling)) = xs) :
    OneByOne (fun t u => Q t (u.type, u.spelling)) ts us := by
  induction ts generalizing ps xs us with
  | nil =>
    cases ps with
    | cons => simp [AllWritten] at hW
    | nil =>
      cases xs with
      | cons => simp [AllRead] at hR
      | nil => simp at hus; subst hus; trivial
  | cons t ts ih =>
    cases ps with
    | nil => simp [AllWritten] at hW
    | cons p ps =>
      cases xs with
      | nil => simp [AllRead] at hR
      | cons x xs =>
        cases us with
        | nil => simp at hus
        | cons u us =>
          simp only [List.map_cons, List.cons.injEq] at hus
          simp only [AllWritten, AllRead] at hW hR
          refine ⟨?_, ih hW.2 hR.2 (fun t ht => h t (by simp [ht])) us hus.2⟩
          simp only
          rw [hus.1]
          exact h t (by simp) p x hW.1 hR.1

theorem busy_program (us : List Lex.Token) :
    (Parse.program us).map (fun u => (u.type, u.spelling)) = busy (us.map fun u => (u.type, u.spelling)) := by
  induction us with
  | nil => rfl
  | cons u us ih =>
    have e : (!([Lex.TokType.whitespace, .newline, .comment, .bracketComment, .formatOn, .formatOff].contains u.type)) =
        !isIdle u.type := by cases u.type <;> rfl
    simp only [Parse.program, busy, List.map_cons, List.filter_cons, e] at ih ⊢
    split
    · simp only [List.map_cons, ih]
    · exact ih

theorem hash_mark : some '#' ≠ some Lex.BOM := by decide +kernel

theorem toks_scan {text : Str} (h : text.head? ≠ some Lex.BOM) :
    (Props.Lex.toks text).map (fun u => (u.type, u.spelling)) = (Lex.scan text.length none text).1 := by
  have h1 := Props.Parse.tokenize_toks text
  have : Lex.tokenize text = Lex.tokenizeBody text := by
    cases text with
    | nil => rfl
    | cons c cs =>
      simp only [List.head?_cons, ne_eq, Option.some.injEq] at h
      simp [Lex.tokenize, h]
  rw [this, Lex.tokenizeBody_ok] at h1
  injection h1 with h1
  rw [← h1]
  exact Lex.locate_spellings _ _ _

/-- What the texts of an output are, and that each is read back. -/
theorem pieces_read {cfg : FileCfg} {content text : Str} {b : Box} {l : Laid} {ps : List Piece}
    (hf : Formatted cfg content text b l ps) (hp : Plain cfg.ctx content)
    (hclean : Markup.CleanCfg cfg.layout.markup) (hst : Steady cfg content) :
    (∀ t ∈ progB b, t ∈ Parse.program (Props.Lex.toks content) ∧ t.type ≠ .bom) ∧
      AllWritten (Spelt cfg.layout cfg.ctx) (progB b) (ps.filter fun p => p.kind.isProgram) ∧
      (∀ p ∈ ps, CommentPiece (fun t => t ∈ Props.Lex.toks content) p) ∧
      (∀ p ∈ ps, Reads p ∧ p.text.head? ≠ some Lex.BOM) ∧ Linked ps ∧ Named ps := by
  have hw := hf.rendering (W := Spelt cfg.layout cfg.ctx) spelt_rule
  have hlink := hf.linked hclean
  have h1 := Props.Parse.tokenize_toks content
  have hnb := Props.Parse.no_bom content _ h1 hp.noBom
  have hbusy : ∀ t ∈ progB b, t ∈ Parse.program (Props.Lex.toks content) ∧ t.type ≠ .bom := by
    intro t ht
    have := hf.perm.mem_iff.1 ht
    refine ⟨this, ?_⟩
    simp only [Parse.program, List.mem_filter] at this
    exact hnb t this.1
  -- every text is read back
  obtain ⟨tree, hparse, hbox, hneat, htoks⟩ := hf.tree
  obtain ⟨o, hpl⟩ := hf.placed
  have hcons := Props.Parse.tokens_conserved_partial cfg.ctx _ tree hparse hnb (fun a b hab hb => by
      have := hp.noSwitch b (hab.subset (by simp))
      rcases hb with hb | hb
      · exact absurd hb this.1
      · exact absurd hb this.2)
  have hevery : EveryTok (fun t => t ∈ Props.Lex.toks content) b :=
    everyTok_node (cfg := cfg.cfgFor content (Props.Lex.toks content)) tree
      (fun t ht => hcons.1.mem_iff.1 ht) b (by rw [hbox]; simp)
  have hcom : ∀ p ∈ ps, CommentPiece (fun t => t ∈ Props.Lex.toks content) p :=
    comment_node (cfg := cfg.cfgFor content (Props.Lex.toks content)) hclean hst.sign (fun t ht hty => by
      refine ⟨?_, hst.comments t ht hty⟩
      have hsh := Lex.token_shape content _ h1 t ht
      rw [hty] at hsh
      obtain ⟨u, e, _⟩ := hsh
      exact ⟨u, e⟩) b _ l o none ps hf.tidy hevery hpl hf.pieces
  have hread : ∀ p ∈ ps, Reads p ∧ p.text.head? ≠ some Lex.BOM := by
    intro p hpm
    cases hk : p.kind.isProgram with
    | true =>
      obtain ⟨t, ht, hsp⟩ := allWritten_mem hw.written p (by simp [hpm, hk])
      obtain ⟨ht', hb'⟩ := hbusy t ht
      have := read_piece ht' hb' (hst.program t ht') hsp
      exact ⟨this.1, this.2.1⟩
    | false =>
      have := hcom p hpm
      cases hk' : p.kind <;> rw [hk'] at hk <;> try (simp [PK.isProgram] at hk; done)
      · obtain ⟨t, e, h2, h3⟩ := this.1 hk'
        refine ⟨by simp only [Reads, hk']; exact ⟨t, e, h2, h3⟩, by rw [e]; exact hash_mark⟩
      · obtain ⟨t, ht, hty, e⟩ := this.2 hk'
        rw [hst.brackets t ht hty] at e
        have hsh := Lex.token_shape content _ h1 t ht
        rw [hty] at hsh
        obtain ⟨n, body, e', _⟩ := hsh
        refine ⟨?_, by rw [e, e']; exact hash_mark⟩
        simp only [Reads, hk']
        refine ⟨⟨_, by rw [e, e']; rfl⟩, ?_⟩
        intro prev rest
        rcases Lex.mem_tokens h1 ht with hx | ⟨prev', x, b', hx⟩
        · rw [hx] at hty; simp [Lex.bomToken] at hty
        · rw [hty] at hx
          rw [e]
          exact Lex.lex_bracketComment rest hx
  exact ⟨hbusy, hw.written, hcom, hread, hlink,
    named_node b _ l o none ps hf.tidy hf.framed (by rw [hf.body]; simp) hpl hf.pieces⟩

/-- The tokens of the output. -/
theorem read_text {cfg : FileCfg} {content text : Str} {b : Box} {l : Laid} {ps : List Piece}
    (hf : Formatted cfg content text b l ps) (hp : Plain cfg.ctx content)
    (hclean : Markup.CleanCfg cfg.layout.markup) (hst : Steady cfg content) :
    text.head? ≠ some Lex.BOM ∧
      Woven ⟨0, 0⟩ ps ((Props.Lex.toks text).map fun u => (u.type, u.spelling)) ∧
      OneByOne (ReadBack cfg) (progB b) (Parse.program (Props.Lex.toks text)) := by
  obtain ⟨hbusy, hwritten, -, hread, hlink, hnamed⟩ := pieces_read hf hp hclean hst
  obtain ⟨out, hlex, hwov, hall⟩ := lexes_weave ps ⟨0, 0⟩ none hf.inOrder hlink hnamed (fun p hpm => (hread p hpm).1)
    (fun _ _ _ _ => rfl)
  have htext : text = weave ['\n'] ⟨0, 0⟩ ps ++ ['\n'] := by
    rw [hf.text_eq, hst.lineFeed]; rfl
  have hmark : text.head? ≠ some Lex.BOM := by
    rw [htext]
    cases ps with
    | nil => decide +kernel
    | cons p ps =>
      simp only [weave, withEndings_feed, List.append_assoc]
      rcases eq_or_lt hf.inOrder.1 with he | hlt
      · rw [← he, space_same, List.nil_append]
        obtain ⟨c, cs, e, _⟩ := reads_head (hread p (by simp)).1
        have := (hread p (by simp)).2
        rw [e] at this ⊢
        simpa using this
      · obtain ⟨c, t, e, hc, _⟩ := space_head hlt
        rw [e]
        rcases hc with rfl | rfl <;> (simp only [List.cons_append, List.head?_cons]; decide +kernel)
  have hscan := toks_scan hmark
  rw [htext] at hscan
  rw [hlex _ (Nat.le_refl _), ← htext] at hscan
  refine ⟨hmark, by rw [hscan]; exact hwov, ?_⟩
  refine allRead_backs (Q := fun t x => Respelled cfg t x.2 ∧ TypeOk t x.1) hwritten hall ?_ _ ?_
  · intro t ht p x hsp hx
    obtain ⟨ht', hb'⟩ := hbusy t ht
    exact (read_piece ht' hb' (hst.program t ht') hsp).2.2 x hx
  · rw [busy_program, hscan]

/-- **C57.** The output of formatting a plain, steady text is read back as the same program:
its program tokens are, one by one, those of the input, in the same order unless arguments are
sorted, spelled as the options say. -/
theorem reads_back_partial (cfg : FileCfg) (content text : Str) (valid : Bool)
    (h : processFile cfg content = .ok (text, valid)) (hp : Plain cfg.ctx content)
    (hclean : Markup.CleanCfg cfg.layout.markup) (hst : Steady cfg content)
    (htabs : cfg.tabs.useTabchars = false) (hbom : cfg.bom = false) :
    ∃ ts, ts.Perm (Parse.program (Props.Lex.toks content)) ∧
      (cfg.layout.autosort = false → ts = Parse.program (Props.Lex.toks content)) ∧
      OneByOne (ReadBack cfg) ts (Parse.program (Props.Lex.toks text)) := by
  obtain ⟨b, l, ps, hf, -⟩ := formatted_of h hp htabs hbom
  exact ⟨progB b, hf.perm, hf.same, (read_text hf hp hclean hst).2.2⟩

/-! ### A concrete case -/

/-- All tokens portable, as a check for the default configuration. -/
def portableB (ctx : Parse.Ctx) (t : Lex.Token) : Bool :=
  (Text.normalizeLineEndings t.spelling == t.spelling) &&
  (t.type != .unquoted ||
    ((Lex.legacyMany t.spelling.length t.spelling).1 == t.spelling &&
      t.spelling.head? != some '\'' && t.spelling.head? != some '[' && t.spelling.head? != some '\\')) &&
  !(S "cmf:").isPrefixOf (lower t.spelling) && !(S "cmake-format:").isPrefixOf (lower t.spelling) &&
  t.spelling.head? != some Lex.BOM &&
  (match Parse.cmdSpelling (Parse.lookupParser ctx t.spelling) with
    | some s => (Lex.wordBody s == some (s, []))
    | none => true)

theorem wordText_body {s : Str} (h : Lex.wordBody s = some (s, [])) : Lex.WordText s := by
  obtain ⟨c, cs, e, hc, hcs⟩ := Lex.wordBody_shape h
  exact ⟨c, cs, e, hc, hcs⟩

theorem portable_of {ctx : Parse.Ctx} {content : Str} {t : Lex.Token} (ht : t ∈ Props.Lex.toks content)
    (h : portableB ctx t = true) : Portable { exampleFile with ctx := ctx } t := by
  have hsh := Lex.token_shape content _ (Props.Parse.tokenize_toks content) t ht
  simp only [portableB, Bool.and_eq_true, Bool.or_eq_true, beq_iff_eq, bne_iff_ne, ne_eq, Bool.not_eq_true'] at h
  obtain ⟨⟨⟨⟨⟨h1, h2⟩, h3⟩, h4⟩, h5⟩, h6⟩ := h
  refine ⟨h1, ?_, fun _ h => absurd (show S "unchanged" = S "upper" from h) (by decide), ⟨?_, ?_⟩, h5, ?_⟩
  · intro hty
    rcases h2 with h2 | ⟨⟨⟨h2, a⟩, b⟩, c⟩
    · exact absurd hty h2
    · refine ⟨h2 ▸ Lex.legacyMany_shape _ _, a, b, ?_⟩
      intro d hd
      exfalso
      apply c
      cases hs : t.spelling with
      | nil => rw [hs] at hd; simp at hd
      | cons x xs => rw [hs] at hd; simp at hd; simp [hd.1]
  · intro hp; rw [← List.isPrefixOf_iff_prefix, h3] at hp; simp at hp
  · intro hp; rw [← List.isPrefixOf_iff_prefix, h4] at hp; simp at hp
  · intro hty _ s hs
    rw [hty] at hsh
    rcases hs with rfl | hs
    · exact recase_lower.word (wordText_of hsh)
    · rw [hs] at h6
      exact wordText_body (by simpa using h6)

theorem steady_of {ctx : Parse.Ctx} {content : Str}
    (h1 : (Parse.program (Props.Lex.toks content)).all (portableB ctx) = true)
    (h2 : ∀ t ∈ Props.Lex.toks content, t.type = .comment → (t.spelling.dropWhile (· == '#')).head? ≠ some '[')
    (h3 : ∀ t ∈ Props.Lex.toks content, t.type = .bracketComment → Text.normalizeLineEndings t.spelling = t.spelling) :
    Steady { exampleFile with ctx := ctx } content := by
  refine ⟨rfl, ⟨'<', [], rfl, by decide⟩, ?_, h2, h3⟩
  intro t ht
  refine portable_of (content := content) ?_ (List.all_eq_true.1 h1 t ht)
  simp only [Parse.program, List.mem_filter] at ht
  exact ht.1

/-- Comments of both kinds and arguments of all kinds. -/
def steadyText : Str := S "# hello\nSET(a   ${b} # one\n \"x y\" [[z]] -DA=\"b c\"x #[[q]]\n)\n"

example : formatted steadyText = S "# hello\nset(a ${b} # one\n      \"x y\" [[z]] -DA=\"b c\"x #[[q]])\n" := by decide +kernel

example : (∃ text valid, processFile exampleFile steadyText = .ok (text, valid)) ∧ Plain exampleFile.ctx steadyText ∧
    Markup.CleanCfg exampleFile.layout.markup ∧ Steady exampleFile steadyText ∧ exampleFile.tabs.useTabchars = false ∧
    exampleFile.bom = false ∧ (Parse.program (Props.Lex.toks steadyText)).length = 8 := by
  refine ⟨?_, plain_of (by decide +kernel) (by decide +kernel) (by decide +kernel), default_clean,
    steady_of (by decide +kernel) (by decide +kernel) (by decide +kernel), rfl, rfl, by decide +kernel⟩
  have : (processFile exampleFile steadyText).isOk = true := by decide +kernel
  revert this
  cases processFile exampleFile steadyText with
  | ok r => intro _; exact ⟨r.1, r.2, rfl⟩
  | error e => intro h; simp [Except.isOk, Except.toBool] at h

/-! ### Texts that are not steady -/

/-- The types and spellings of a program. -/
def programOf (s : Str) : List (Lex.TokType × Str) :=
  (Parse.program (Props.Lex.toks s)).map fun t => (t.type, t.spelling)

/-- **C57 fails.** Two arguments become one when the comment that touched them is moved away. -/
theorem quote_appears :
    formatted (S "foo('a b'#c\n)") = S "foo('a b' # c\n)\n" ∧
    programOf (S "foo('a b'#c\n)") =
      [(.word, S "foo"), (.lparen, S "("), (.unquoted, S "'a"), (.unquoted, S "b'"), (.rparen, S ")")] ∧
    programOf (formatted (S "foo('a b'#c\n)")) =
      [(.word, S "foo"), (.lparen, S "("), (.quoted, S "'a b'"), (.rparen, S ")")] := by decide +kernel

/-- **C57 fails.** A comment that starts with `##[[`, taken literally, becomes a bracket comment
that swallows the program. -/
theorem opener_appears :
    ∃ cfg : FileCfg, processFile cfg (S "##[[\nfoo(a)\n# ]]\n") = .ok (S "#[[\nfoo(a)\n# ]]\n", true) ∧
      (programOf (S "##[[\nfoo(a)\n# ]]\n")).length = 4 ∧ programOf (S "#[[\nfoo(a)\n# ]]\n") = [] :=
  ⟨{ exampleFile with layout := { exampleLayout with markup := { Props.Markup.defaultCfg with firstLiteral := true } } },
    by decide +kernel, by decide +kernel, by decide +kernel⟩

/-- An argument with a backslash after a colon becomes two arguments. -/
theorem path_split :
    formatted (S "foo(C:\\foo)") = S "foo(C: \\foo)\n" ∧
    programOf (S "foo(C:\\foo)") =
      [(.word, S "foo"), (.lparen, S "("), (.unquoted, S "C:"), (.unquoted, S "\\foo"), (.rparen, S ")")] := by
  decide +kernel

/-- A comment that is wrapped can become a format switch: the program is still the same, but
the next run leaves what follows as it is. -/
theorem switch_appears :
    let text := S "# aaaaaaaa bbbbbbbbb cccccccccc dddddddddd eeeeeeeeeee fffffffffff ggggggggg cmake-format: off\nbar(x)\n"
    ((Props.Lex.toks text).all fun t => t.type != .formatOff) = true ∧
    ((Props.Lex.toks (formatted text)).any fun t => t.type == .formatOff) = true ∧
    programOf (formatted text) = programOf text := by decide +kernel

end Verif.Props.Relex
