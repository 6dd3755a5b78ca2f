import Verif.TrailPieces
import Verif.Props.Relex
import Verif.Props.Text

/-!
# The lines of the output (C20 and C58)

All lines end with the line end that was configured or detected, and none ends in a blank.
-/

namespace Verif.Props.Endings
open Verif Py Layout Props.Layout Props.Text

/-! ## Specification -/

/-- A text made of lines with this line end, none of which contains another line feed or ends
in a blank or a carriage return. -/
def CleanLines (endl text : Str) : Prop :=
  ∃ lines : List Str, text = (lines.map (· ++ endl)).flatten ∧
    ∀ l ∈ lines, '\n' ∉ l ∧ ∀ u c, l = u ++ [c] → c ∉ S " \t\r\x0b\x0c"

/-- No unquoted argument ends in an escaped blank, the sign of explicit trailing comments is
not empty and does not end in a blank, and configured spellings of commands are words. -/
structure Trimmed (cfg : FileCfg) (content : Str) : Prop where
  sign : cfg.layout.markup.explicitTrailing ≠ [] ∧
    ∀ u c, cfg.layout.markup.explicitTrailing = u ++ [c] → isSpace c = false
  spelling : ∀ t ∈ Parse.program (Props.Lex.toks content), t.type = .word → cfg.layout.commandCase t.spelling = S "canonical" →
    ∀ s, knownSpelling cfg.layout cfg.ctx t.spelling s → Lex.WordText s
  escaped : ∀ t ∈ Parse.program (Props.Lex.toks content), t.type = .unquoted →
    ∀ u c, t.spelling = u ++ [c] → isSpace c = false

/-! ## Normalized texts -/

theorem lines_snoc {c : Char} (h1 : c ≠ '\n') (h2 : c ≠ '\r') : ∀ (n : Nat) (u : Str), u.length ≤ n →
    ∃ ls l, physicalLines (u ++ [c]) = ls ++ [l ++ [c]]
  | n, [], _ => by
    refine ⟨[], [], ?_⟩
    rw [List.nil_append, physicalLines_cons h1 h2]
    simp [physicalLines]
  | 0, _ :: _, h => by simp at h
  | n + 1, x :: u, h => by
    obtain ⟨ls, l, e⟩ := lines_snoc h1 h2 n u (by simpa using h)
    by_cases hx : x = '\n'
    · subst hx
      exact ⟨[] :: ls, l, by simp only [List.cons_append, physicalLines, e]⟩
    · by_cases hr : x = '\r'
      · subst hr
        by_cases hn : ∃ v, u = '\n' :: v
        · obtain ⟨v, rfl⟩ := hn
          obtain ⟨ls, l, e⟩ := lines_snoc h1 h2 n v (by simp at h ⊢; omega)
          exact ⟨[] :: ls, l, by simp only [List.cons_append, physicalLines, e]⟩
        · refine ⟨[] :: ls, l, ?_⟩
          rw [List.cons_append, physicalLines.eq_3, e]
          · rfl
          · intro cs he
            cases u with
            | nil =>
              simp only [List.nil_append, List.cons.injEq] at he
              exact h1 he.1
            | cons y v =>
              simp only [List.cons_append, List.cons.injEq] at he
              exact hn ⟨v, by rw [he.1]⟩
      · rw [List.cons_append, physicalLines_cons hx hr, e]
        cases ls with
        | nil => exact ⟨[], x :: l, rfl⟩
        | cons m ms => exact ⟨(x :: m) :: ms, l, rfl⟩

theorem trimEnded_snoc (ls : List Str) (l : Str) : trimEnded (ls ++ [l]) = ls.map trimEnd ++ [l] := by
  induction ls with
  | nil => rfl
  | cons m ms ih =>
    cases ms with
    | nil => rfl
    | cons p ps =>
      simp only [List.cons_append, trimEnded, List.map_cons] at ih ⊢
      rw [ih]

theorem join_snoc (ls : List Str) (l : Str) : ∃ u, join ['\n'] (ls ++ [l]) = u ++ l := by
  induction ls with
  | nil => exact ⟨[], rfl⟩
  | cons m ms ih =>
    obtain ⟨u, e⟩ := ih
    cases ms with
    | nil => exact ⟨m ++ ['\n'], rfl⟩
    | cons p ps =>
      refine ⟨m ++ ['\n'] ++ u, ?_⟩
      simp only [List.cons_append, join] at e ⊢
      rw [e]; simp

theorem space_feed {c : Char} (h : isSpace c = false) : c ≠ '\n' ∧ c ≠ '\r' := by
  constructor <;> (rintro rfl; revert h; decide)

theorem normalize_stop {s : Str} (hne : s ≠ []) (h : Wrap.Trim s) : Wrap.Trim (Text.normalizeLineEndings s) := by
  obtain ⟨u, c, rfl⟩ : ∃ u c, s = u ++ [c] := ⟨_, _, (List.dropLast_concat_getLast hne).symm⟩
  have hc := h u c rfl
  obtain ⟨ls, l, e⟩ := lines_snoc (space_feed hc).1 (space_feed hc).2 u.length u (Nat.le_refl _)
  rw [(normalize_lines _).2, e, trimEnded_snoc]
  obtain ⟨v, ev⟩ := join_snoc (ls.map trimEnd) (l ++ [c])
  rw [ev, ← List.append_assoc]
  exact Wrap.trim_append (fun a d e => by
    have := (List.append_inj' (e.symm.trans (List.nil_append _).symm) rfl).2
    simp only [List.cons.injEq, and_true] at this
    rw [this]; exact hc) (by simp)

theorem normalize_start {c : Char} {cs : Str} (h : isSpace c = false) :
    ∃ ds, Text.normalizeLineEndings (c :: cs) = c :: ds := by
  have hb : Lex.isBlank c = false := by
    simp only [isSpace] at h
    simp [Lex.isBlank] at h ⊢
    grind
  rw [(normalize_lines _).2, physicalLines_cons (space_feed h).1 (space_feed h).2]
  cases hp : physicalLines cs with
  | nil => exact absurd hp (physicalLines_ne_nil _)
  | cons l ls =>
    cases ls with
    | nil => exact ⟨l, by simp [trimEnded, join]⟩
    | cons m ms =>
      simp only [trimEnded]
      rw [trimEnd_cons (Or.inl hb)]
      cases ht : trimEnded (m :: ms) with
      | nil => exact absurd ht (trimEnded_ne_nil (by simp))
      | cons q qs => exact ⟨_, rfl⟩

theorem normalize_inside (s u : Str) (b : Char) (v : Str) (h : Text.normalizeLineEndings s = u ++ b :: '\n' :: v) :
    trailing b = false := by
  have h1 := normalize_no_trailing_blank s u v b h
  have h2 : b ≠ '\r' := by
    rintro rfl
    exact normalize_no_cr s (by rw [h]; simp)
  simp only [trailing, Bool.and_eq_false_iff, bne_eq_false_iff_eq]
  by_cases h3 : b = '\n'
  · exact Or.inr h3
  · left
    simp only [isSpace]
    grind

theorem trimText_normalized {s : Str} (h1 : ∃ c cs, s = c :: cs ∧ isSpace c = false) (h2 : Wrap.Trim s) :
    TrimText (Text.normalizeLineEndings s) := by
  obtain ⟨c, cs, rfl, hc⟩ := h1
  obtain ⟨ds, e⟩ := normalize_start (cs := cs) hc
  exact ⟨⟨c, ds, e, (space_feed hc).1⟩, normalize_inside _, normalize_stop (by simp) h2⟩

/-! ## Tokens -/

theorem trim_snoc {u : Str} {c : Char} (h : isSpace c = false) : Wrap.Trim (u ++ [c]) := by
  intro a d e
  have := (List.append_inj' e rfl).2
  simp only [List.cons.injEq, and_true] at this
  rw [← this]; exact h

theorem trim_all {s : Str} (h : ∀ c ∈ s, isSpace c = false) : Wrap.Trim s := by
  intro a d e
  exact h d (by rw [e]; simp)

theorem wordChar_space {c : Char} (h : Lex.isWordChar c = true) : isSpace c = false := by
  cases hs : isSpace c with
  | false => rfl
  | true =>
    simp only [isSpace] at hs
    exfalso
    have : ∀ d ∈ [' ', '\t', '\n', '\r', '\x0b', '\x0c'], Lex.isWordChar d = false := by decide
    have hm : c ∈ [' ', '\t', '\n', '\r', '\x0b', '\x0c'] := by
      simp at hs ⊢
      grind
    rw [this c hm] at h
    simp at h

theorem word_ends {s : Str} (h : Lex.WordText s) : ∀ c ∈ s, isSpace c = false := by
  obtain ⟨c, cs, rfl, hc, hcs⟩ := h
  intro d hd
  rcases List.mem_cons.1 hd with rfl | hd
  · exact wordHead_space hc
  · exact wordChar_space (hcs d hd)

/-- Tokens of the program start and end with a character that is not blank. -/
theorem token_ends {content : Str} {t : Lex.Token} (ht : t ∈ Parse.program (Props.Lex.toks content)) (hb : t.type ≠ .bom)
    (hu : t.type = .unquoted → ∀ u c, t.spelling = u ++ [c] → isSpace c = false) :
    (∃ c cs, t.spelling = c :: cs ∧ isSpace c = false) ∧ Wrap.Trim t.spelling := by
  simp only [Parse.program, List.mem_filter] at ht
  have hsh := Lex.token_shape content _ (Props.Parse.tokenize_toks content) t ht.1
  have hno := ht.2
  cases hty : t.type <;> rw [hty] at hsh hno
  case bom => exact absurd hty hb
  case whitespace => exact absurd hno (by decide)
  case newline => exact absurd hno (by decide)
  case comment => exact absurd hno (by decide)
  case bracketComment => exact absurd hno (by decide)
  case formatOff => exact absurd hno (by decide)
  case formatOn => exact absurd hno (by decide)
  case lparen => rw [show t.spelling = S "(" from hsh]; exact ⟨⟨'(', [], rfl, rfl⟩, trim_snoc (u := []) rfl⟩
  case rparen => rw [show t.spelling = S ")" from hsh]; exact ⟨⟨')', [], rfl, rfl⟩, trim_snoc (u := []) rfl⟩
  case word =>
    have hw := Relex.wordText_of hsh
    have := word_ends hw
    obtain ⟨c, cs, e, hc, _⟩ := hw
    exact ⟨⟨c, cs, e, wordHead_space hc⟩, trim_all this⟩
  case number =>
    obtain ⟨d, ds, hs, hd⟩ := hsh
    have hd' : ∀ c ∈ d :: ds, isSpace c = false := fun c hc => Relex.digit_space (Lex.digit_of (hd c hc))
    rcases hs with e | e
    · rw [e]; exact ⟨⟨d, ds, rfl, hd' d (by simp)⟩, trim_all hd'⟩
    · rw [e]
      exact ⟨⟨'-', _, rfl, rfl⟩, Wrap.trim_append (a := ['-']) (trim_all hd') (by simp)⟩
  case atword =>
    obtain ⟨c, cs, e, _⟩ := hsh
    rw [e]; exact ⟨⟨'@', _, rfl, rfl⟩, trim_snoc rfl⟩
  case deref =>
    obtain ⟨c, cs, e, _⟩ := hsh
    rw [e]; exact ⟨⟨'$', _, rfl, rfl⟩, trim_snoc rfl⟩
  case quoted =>
    obtain ⟨q, body, hq, e, _⟩ := hsh
    have hs : isSpace q = false := by rcases hq with rfl | rfl <;> rfl
    rw [e]; exact ⟨⟨q, _, rfl, hs⟩, trim_snoc hs⟩
  case bracketArg =>
    obtain ⟨n, body, e⟩ := hsh
    rw [e]; exact ⟨⟨'[', _, rfl, rfl⟩, trim_snoc rfl⟩
  case unquoted =>
    refine ⟨?_, fun u c e => hu hty u c e⟩
    obtain ⟨hne, h | h⟩ := hsh
    · exact Relex.unquoted_space h hne
    · obtain ⟨c, cs, e⟩ := List.exists_cons_of_ne_nil hne
      refine ⟨c, cs, e, ?_⟩
      have := h c (by rw [e]; simp)
      cases hs : isSpace c with
      | false => rfl
      | true =>
        exfalso
        apply this
        simp only [isSpace] at hs
        have e : S " \t\n\r\x0b\x0c()" = [' ', '\t', '\n', '\r', '\x0b', '\x0c', '(', ')'] := rfl
        rw [e]
        simp at hs ⊢
        grind

theorem recase_space {f : Char → Char} (hf : Recase f) {c : Char} (h : isSpace c = false) : isSpace (f c) = false := by
  cases hs : isSpace (f c) with
  | false => rfl
  | true =>
    have hl : isLetter (f c) = false := by
      have key : ∀ d ∈ [' ', '\t', '\n', '\r', '\x0b', '\x0c'], isLetter d = false := by decide
      apply key
      simp only [isSpace] at hs
      simp at hs ⊢
      grind
    have := hf.back (c := c) (x := f c) hl rfl
    rw [← this] at hs
    rw [h] at hs; simp at hs

theorem recase_ends {f : Char → Char} (hf : Recase f) {s : Str} (h1 : ∃ c cs, s = c :: cs ∧ isSpace c = false)
    (h2 : Wrap.Trim s) : (∃ c cs, s.map f = c :: cs ∧ isSpace c = false) ∧ Wrap.Trim (s.map f) := by
  obtain ⟨c, cs, rfl, hc⟩ := h1
  refine ⟨⟨f c, cs.map f, rfl, recase_space hf hc⟩, ?_⟩
  obtain ⟨u, d, e⟩ : ∃ u d, c :: cs = u ++ [d] := ⟨_, _, (List.dropLast_concat_getLast (by simp)).symm⟩
  rw [e, List.map_append]
  exact trim_snoc (recase_space hf (h2 u d e))

theorem flat_inside {s : Str} (h : '\n' ∉ s) (u : Str) (b : Char) (v : Str) (e : s = u ++ b :: '\n' :: v) : trailing b = false :=
  absurd (by rw [e]; simp) h

/-! ## C58 -/

/-- **C58.** The output of formatting a plain text is made of lines that end with the
configured or detected line end, contain no other line feed, and do not end in a blank or a
carriage return. -/
theorem output_lines_partial (cfg : FileCfg) (content text : Str) (valid : Bool)
    (h : processFile cfg content = .ok (text, valid)) (hp : Plain cfg.ctx content)
    (hclean : Markup.CleanCfg cfg.layout.markup) (hst : Trimmed cfg content)
    (htabs : cfg.tabs.useTabchars = false) (hbom : cfg.bom = false) :
    CleanLines (lineEnd cfg content) text := by
  obtain ⟨b, l, ps, hf, -⟩ := formatted_of h hp htabs hbom
  have hw := hf.rendering (W := Relex.Spelt cfg.layout cfg.ctx) Relex.spelt_rule
  have h1 := Props.Parse.tokenize_toks content
  have hnb := Props.Parse.no_bom content _ h1 hp.noBom
  have hbusy : ∀ t ∈ progB b, t ∈ Parse.program (Props.Lex.toks content) ∧ t.type ≠ .bom := by
    intro t ht
    have := hf.perm.mem_iff.1 ht
    refine ⟨this, ?_⟩
    simp only [Parse.program, List.mem_filter] at this
    exact hnb t this.1
  obtain ⟨tree, hparse, hbox, hneat, htoks⟩ := hf.tree
  obtain ⟨o, hpl⟩ := hf.placed
  have hcons := Props.Parse.tokens_conserved_partial cfg.ctx _ tree hparse hnb (fun a b hab hb => by
      have := hp.noSwitch b (hab.subset (by simp))
      rcases hb with hb | hb
      · exact absurd hb this.1
      · exact absurd hb this.2)
  have hevery : EveryTok (fun t => t ∈ Props.Lex.toks content) b :=
    everyTok_node (cfg := cfg.cfgFor content (Props.Lex.toks content)) tree
      (fun t ht => hcons.1.mem_iff.1 ht) b (by rw [hbox]; simp)
  have horig : ∀ p ∈ ps, Origin (cfg.cfgFor content (Props.Lex.toks content)) (fun t => t ∈ Props.Lex.toks content) p :=
    origin_node (cfg := cfg.cfgFor content (Props.Lex.toks content)) hclean b _ l o none ps hf.tidy hevery hpl hf.pieces
  have hsign : Markup.TrimSign cfg.layout.markup.explicitTrailing := ⟨hst.sign.1, hst.sign.2⟩
  have htext : ∀ p ∈ ps, TrimText p.text := by
    intro p hpm
    have ho := horig p hpm
    cases hk : p.kind.isProgram with
    | false =>
      cases hk' : p.kind <;> rw [hk'] at hk <;> try (simp [PK.isProgram] at hk; done)
      · obtain ⟨ex, first, fs, width, ss, ls, hfc, hl, hone, -⟩ := ho.line hk'
        obtain ⟨h2, t, e⟩ := Markup.formatComment_trim (cfg := cfg.layout.markup) hsign hfc p.text hl
        have hn : '\n' ∉ p.text := hone p.text hl
        refine ⟨?_, flat_inside hn, h2⟩
        have hne : p.text ≠ [] := by
          rw [e]
          have : (if ex = true then cfg.layout.markup.explicitTrailing else S "#") ≠ [] := by
            split
            · exact hst.sign.1
            · decide
          simp [this]
        obtain ⟨c, cs, e'⟩ := List.exists_cons_of_ne_nil hne
        exact ⟨c, cs, e', by rintro rfl; exact hn (by rw [e']; simp)⟩
      · obtain ⟨t, ht, hty, e⟩ := ho.bracket hk'
        rw [e]
        have hsh := Lex.token_shape content _ h1 t ht
        rw [hty] at hsh
        obtain ⟨n, body, e', _⟩ := hsh
        rw [e']
        exact trimText_normalized ⟨'#', _, rfl, rfl⟩ (trim_snoc rfl)
    | true =>
      obtain ⟨t, ht, hsp⟩ := Relex.allWritten_mem hw.written p (by simp [hpm, hk])
      obtain ⟨ht', hb'⟩ := hbusy t ht
      obtain ⟨hs, he⟩ := token_ends ht' hb' (hst.escaped t ht')
      unfold Relex.Spelt at hsp
      cases hk' : p.kind <;> simp only [hk'] at hsp <;> try exact hsp.elim
      case lparen => rw [hsp.2]; exact ⟨⟨'(', [], rfl, by decide⟩, flat_inside (by decide), trim_snoc (u := []) rfl⟩
      case rparen => rw [hsp.2]; exact ⟨⟨')', [], rfl, by decide⟩, flat_inside (by decide), trim_snoc (u := []) rfl⟩
      case name =>
        obtain ⟨hty, hc⟩ := hsp
        have hmem : t ∈ Props.Lex.toks content := by
          simp only [Parse.program, List.mem_filter] at ht'; exact ht'.1
        have hsh := Lex.token_shape content _ h1 t hmem
        rw [hty] at hsh
        have hw := Relex.wordText_of hsh
        simp only [CaseRule, hk'] at hc
        have hwp : Lex.WordText p.text := by
          rcases hc with ⟨_, e⟩ | ⟨_, e⟩ | ⟨_, e⟩ | ⟨h1, h2⟩
          · rw [e]; exact recase_lower.word hw
          · rw [e]; exact recase_upper.word hw
          · rw [e]; exact hw
          · exact hst.spelling t ht' hty h1 _ h2
        have hall := word_ends hwp
        obtain ⟨c, cs, e, hc, _⟩ := id hwp
        refine ⟨⟨c, cs, e, (space_feed (wordHead_space hc)).1⟩, flat_inside ?_, trim_all hall⟩
        intro hn
        have := hall _ hn
        revert this; decide
      case word =>
        obtain ⟨t', _, hw'⟩ := ho.word hk'
        have hin : ∀ u b v, p.text = u ++ b :: '\n' :: v → trailing b = false := by
          rcases hw' with e | ⟨hfl, e⟩
          · intro u b v e'
            rw [e] at e'
            exact normalize_inside _ u b v e'
          · have hn : '\n' ∉ t'.spelling := by
              simp only [flatSpelling, Bool.and_eq_true, Bool.not_eq_true', List.contains_eq_mem, decide_eq_false_iff_not] at hfl
              exact hfl.1
            have : '\n' ∉ p.text := by
              intro hm
              rcases e with e | e <;> rw [e] at hm
              · obtain ⟨c, hc, e2⟩ := List.mem_map.1 hm
                exact hn (by rw [← recase_lower.back (by decide) e2]; exact hc)
              · obtain ⟨c, hc, e2⟩ := List.mem_map.1 hm
                exact hn (by rw [← recase_upper.back (by decide) e2]; exact hc)
            exact flat_inside this
        have fin : (∃ c cs, p.text = c :: cs ∧ isSpace c = false) → Wrap.Trim p.text → TrimText p.text := by
          rintro ⟨c, cs, e, hc⟩ h2
          exact ⟨⟨c, cs, e, (space_feed hc).1⟩, hin, h2⟩
        rcases hsp with e | ⟨_, ⟨_, e⟩ | ⟨_, e⟩⟩
        · rw [e]; exact trimText_normalized hs he
        · have := recase_ends recase_lower hs he
          rw [e] at fin ⊢
          exact fin this.1 this.2
        · have := recase_ends recase_upper hs he
          rw [e] at fin ⊢
          exact fin this.1 this.2
  obtain ⟨hm, hlast⟩ := trimmed_weave ps htext ⟨0, 0⟩ '\n' rfl
  obtain ⟨lines, e, hl⟩ := lines_of (weave ['\n'] ⟨0, 0⟩ ps) [] (by simp) (by
    rw [trimmed_append]
    show (trimmed '\n' _ && trimmed (lastChar '\n' _) ['\n']) = true
    rw [hm, Bool.true_and]
    simp [trimmed, hlast])
  refine ⟨lines, ?_, ?_⟩
  · rw [hf.text_eq, weave_feeds]
    have e1 : lineEnd cfg content = withEndings (lineEnd cfg content) ['\n'] := by simp [withEndings]
    conv => lhs; rhs; rw [e1]
    rw [← withEndings_append]
    rw [List.nil_append] at e
    rw [e]
    clear e
    induction lines with
    | nil => rfl
    | cons x xs ih =>
      simp only [List.map_cons, List.flatten_cons, withEndings_append, withEndings_noFeed _ x (hl x (by simp)).1,
        ih (fun l h => hl l (by simp [h]))]
      rw [← e1]
  · intro x hx
    refine ⟨(hl x hx).1, fun u c e hc => ?_⟩
    have := (hl x hx).2 u c e
    have key : ∀ d ∈ S " \t\r\x0b\x0c", trailing d = true := by decide
    rw [key c hc] at this
    simp at this

/-! ## C20 -/

theorem feeds_line {p : Char} {l : Str} (h : '\n' ∉ l) (r : Str) :
    bareFeeds p (l ++ r) = bareFeeds (lastChar p l) r ∧ feedsAfterCR p (l ++ r) = feedsAfterCR (lastChar p l) r := by
  induction l generalizing p with
  | nil => exact ⟨rfl, rfl⟩
  | cons c l ih =>
    simp only [List.mem_cons, not_or] at h
    have hc : ¬ c = '\n' := fun e => h.1 e.symm
    rw [lastChar_cons]
    simp only [List.cons_append, bareFeeds, feedsAfterCR, hc, false_and, if_false, Nat.zero_add]
    exact ih h.2

/-- Clean lines have one kind of line end. -/
theorem cleanLines_feeds {endl text : Str} (h : CleanLines endl text) :
    (endl = S "\r\n" → bareFeeds ' ' text = 0) ∧ (endl = S "\n" → feedsAfterCR ' ' text = 0) := by
  obtain ⟨lines, rfl, hl⟩ := h
  have key : ∀ p : Char, p ≠ '\r' →
      (endl = S "\r\n" → bareFeeds p (lines.map (· ++ endl)).flatten = 0) ∧
      (endl = S "\n" → feedsAfterCR p (lines.map (· ++ endl)).flatten = 0) := by
    induction lines with
    | nil => intro p _; exact ⟨fun _ => rfl, fun _ => rfl⟩
    | cons l ls ih =>
      intro p hp
      obtain ⟨h1, h2⟩ := hl l (by simp)
      have ih' := ih (fun x hx => hl x (by simp [hx]))
      simp only [List.map_cons, List.flatten_cons, List.append_assoc]
      rw [(feeds_line h1 _).1, (feeds_line h1 _).2]
      constructor
      · rintro rfl
        have := (ih' '\n' (by decide)).1 rfl
        show bareFeeds _ ('\r' :: '\n' :: _) = 0
        simp [bareFeeds, this]
      · rintro rfl
        have := (ih' '\n' (by decide)).2 rfl
        show feedsAfterCR _ ('\n' :: _) = 0
        have hlast : lastChar p l ≠ '\r' := by
          rcases List.eq_nil_or_concat l with rfl | ⟨u, c, rfl⟩
          · exact hp
          · have := h2 u c (by simp)
            intro e
            simp only [lastChar, List.concat_eq_append, List.getLast?_append, List.getLast?_singleton, Option.some_or,
              Option.getD_some] at e
            subst e
            exact this (by decide)
        simp [feedsAfterCR, this, hlast]
  exact key ' ' (by decide)

/-- **C20.** With automatic line ends, every line feed of the output follows a carriage return
if more line feeds of the input do than do not, and none does otherwise. -/
theorem auto_line_ends_partial (cfg : FileCfg) (content text : Str) (valid : Bool) (hauto : cfg.auto = true)
    (h : processFile cfg content = .ok (text, valid)) (hp : Plain cfg.ctx content)
    (hclean : Markup.CleanCfg cfg.layout.markup) (hst : Trimmed cfg content)
    (htabs : cfg.tabs.useTabchars = false) (hbom : cfg.bom = false) :
    if bareFeeds ' ' content < feedsAfterCR ' ' content then bareFeeds ' ' text = 0 else feedsAfterCR ' ' text = 0 := by
  have hc := cleanLines_feeds (output_lines_partial cfg content text valid h hp hclean hst htabs hbom)
  have e : lineEnd cfg content = if bareFeeds ' ' content < feedsAfterCR ' ' content then ['\r', '\n'] else ['\n'] := by
    unfold lineEnd
    rw [hauto, if_pos rfl, detected_line_end content]
  split
  · rename_i h'
    rw [if_pos h'] at e
    exact hc.1 e
  · rename_i h'
    rw [if_neg h'] at e
    exact hc.2 e

/-! ### A concrete case, and a text with an escaped blank -/

def trimmedB (t : Lex.Token) : Bool :=
  (t.type != .unquoted || t.spelling.getLast?.all (fun c => !isSpace c)) &&
  (match Parse.cmdSpelling (Parse.lookupParser exampleFile.ctx t.spelling) with
    | some s => (Lex.wordBody s == some (s, []))
    | none => true)

/-- The default configuration, with automatic line ends. -/
def autoFile : FileCfg := { exampleFile with auto := true }

theorem trimmed_of {content : Str} (h : (Parse.program (Props.Lex.toks content)).all trimmedB = true) :
    Trimmed autoFile content := by
  refine ⟨⟨by decide, ?_⟩, ?_, ?_⟩
  · intro u c e
    have : S "#<" = u ++ [c] := e
    have := congrArg List.getLast? this
    simp only [List.getLast?_append, List.getLast?_singleton, Option.some_or] at this
    have e : (S "#<").getLast? = some '<' := rfl
    rw [e] at this
    simp only [Option.some.injEq] at this
    rw [← this]; rfl
  · intro t ht hty _ s hs
    have hb := List.all_eq_true.1 h t ht
    simp only [trimmedB, Bool.and_eq_true] at hb
    have hmem : t ∈ Props.Lex.toks content := by
      simp only [Parse.program, List.mem_filter] at ht; exact ht.1
    have hsh := Lex.token_shape content _ (Props.Parse.tokenize_toks content) t hmem
    rw [hty] at hsh
    rcases hs with rfl | hs
    · exact recase_lower.word (Relex.wordText_of hsh)
    · have h6 := hb.2
      have hs' : Parse.cmdSpelling (Parse.lookupParser exampleFile.ctx t.spelling) = some s := hs
      rw [hs'] at h6
      exact Relex.wordText_body (by simpa using h6)
  · intro t ht hty u c e
    have hb := List.all_eq_true.1 h t ht
    simp only [trimmedB, hty, Bool.and_eq_true] at hb
    have := hb.1
    rw [e] at this
    simpa using this

/-- Comments, a quoted argument of two lines and two kinds of line end. -/
def mixedText : Str := S "# hello  \r\nSET(a   b # one\r\n  \"x  \r\n y\"\n   c)\r\n\r\n\r\n"

example : (∃ text valid, processFile autoFile mixedText = .ok (text, valid)) ∧ Plain autoFile.ctx mixedText ∧
    Markup.CleanCfg autoFile.layout.markup ∧ Trimmed autoFile mixedText ∧ autoFile.tabs.useTabchars = false ∧
    autoFile.bom = false ∧ autoFile.auto = true ∧ bareFeeds ' ' mixedText < feedsAfterCR ' ' mixedText ∧
    0 < bareFeeds ' ' mixedText := by
  refine ⟨?_, plain_of (by decide +kernel) (by decide +kernel) (by decide +kernel), default_clean,
    trimmed_of (by decide +kernel), rfl, rfl, rfl, by decide +kernel, by decide +kernel⟩
  have : (processFile autoFile mixedText).isOk = true := by decide +kernel
  revert this
  cases processFile autoFile mixedText with
  | ok r => intro _; exact ⟨r.1, r.2, rfl⟩
  | error e => intro h; simp [Except.isOk, Except.toBool] at h

example : (match processFile autoFile mixedText with | .ok (t, _) => t | .error _ => []) =
    S "# hello\r\nset(a\r\n    b # one\r\n    \"x\r\n y\" c)\r\n" := by decide +kernel

/-- **C58 fails.** A line may end in a blank that is the end of an argument. -/
theorem escaped_blank_ends_line : formatted
    (S "foo(aaaaaaaaaaaaaaaaaaaaaaaaaaaaaaaaaaaaaaaa\\  bbbbbbbbbbbbbbbbbbbbbbbbbbbbbbbbbbbbbbbbbbbbbbbbb)") =
    S "foo(aaaaaaaaaaaaaaaaaaaaaaaaaaaaaaaaaaaaaaaa\\ \n    bbbbbbbbbbbbbbbbbbbbbbbbbbbbbbbbbbbbbbbbbbbbbbbbb)\n" := by
  decide +kernel

end Verif.Props.Endings
