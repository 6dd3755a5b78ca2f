import Verif.Tabs
import Verif.Props.Relex
import Verif.Props.LintOutput

/-!
# Output with tabs and with a byte-order mark (C73, C74)
-/

namespace Verif.Props.Tabs
open Verif Py Layout Props.Layout Props.Relex

/-! ## C73 -/

/-- The same configuration without tabs and without a byte-order mark. -/
def bare (cfg : FileCfg) : FileCfg := { cfg with bom := false, tabs := { cfg.tabs with useTabchars := false } }

/-- **C73.** Tabs and the byte-order mark are decided when the text is finished: a run succeeds exactly
if the run without both succeeds and the indentation can be converted, the verdict is the same, and the text is
the other one, after the mark, with its indentation converted. -/
theorem tabs_come_last (cfg : FileCfg) (content text : Str) (valid : Bool) :
    processFile cfg content = .ok (text, valid) ↔
      ∃ text0, processFile (bare cfg) content = .ok (text0, valid) ∧
        Text.replaceWithTabs ((if cfg.bom then [Lex.BOM] else []) ++ text0) cfg.tabs = .ok text := by
  have e : ∀ ts, (bare cfg).cfgFor content ts = cfg.cfgFor content ts := fun _ => rfl
  have e2 : (bare cfg).ctx = cfg.ctx := rfl
  have e3 : (bare cfg).bom = false := rfl
  have e4 : ∀ s, Text.replaceWithTabs s (bare cfg).tabs = .ok s := fun _ => rfl
  simp only [processFile, e, e2, e3, e4]
  cases Lex.tokenize content with
  | error _ => simp
  | ok ts =>
    simp only
    cases Parse.parse cfg.ctx ts with
    | error _ => simp
    | ok tree =>
      simp only
      cases layoutTree (cfg.cfgFor content ts) tree with
      | error _ => simp
      | ok l =>
        simp only
        cases writeTree (cfg.cfgFor content ts) content l with
        | error _ => simp
        | ok out =>
          have hb : (if cfg.bom then Lex.BOM :: out else out) = (if cfg.bom then [Lex.BOM] else []) ++ out := by
            cases cfg.bom <;> rfl
          simp only [Bool.false_eq_true, if_false, Except.ok.injEq, Prod.mk.injEq, hb]
          constructor
          · intro h
            split at h
            · simp at h
            · rename_i text' ht
              simp only [Except.ok.injEq, Prod.mk.injEq] at h
              obtain ⟨rfl, rfl⟩ := h
              exact ⟨out, ⟨rfl, rfl⟩, ht⟩
          · rintro ⟨text0, ⟨rfl, rfl⟩, ht⟩
            rw [ht]

/-- **C73, in lines.** With tabs and without a mark, each line is the line that is written without tabs, with its
indentation converted. -/
theorem tabs_line_by_line (cfg : FileCfg) (content text : Str) (valid : Bool)
    (h : processFile cfg content = .ok (text, valid)) (ht : cfg.tabs.useTabchars = true) (hb : cfg.bom = false) :
    ∃ text0, processFile (bare cfg) content = .ok (text0, valid) ∧
      Props.Text.Pairwise2 (Props.Text.Retabbed cfg.tabs.tabSize cfg.tabs.policy) (splitOn '\n' text0) (splitOn '\n' text) := by
  obtain ⟨text0, h0, hr⟩ := (tabs_come_last cfg content text valid).1 h
  rw [hb] at hr
  rcases Props.Text.tabs_only_change_indentation _ _ _ hr with ⟨hf, _⟩ | ⟨_, _, hp, _⟩
  · rw [ht] at hf; simp at hf
  · exact ⟨text0, h0, by simpa using hp⟩

/-- **C73, it succeeds.** With a positive size and one of the two policies, tabs are no reason to fail. -/
theorem tabs_never_fail (cfg : FileCfg) (content text0 : Str) (valid : Bool) (hs : 0 < cfg.tabs.tabSize)
    (hp : cfg.tabs.policy = S "use-space" ∨ cfg.tabs.policy = S "round-up")
    (h : processFile (bare cfg) content = .ok (text0, valid)) : ∃ text, processFile cfg content = .ok (text, valid) := by
  obtain ⟨text, ht⟩ := Props.Text.tabs_total ((if cfg.bom then [Lex.BOM] else []) ++ text0) cfg.tabs hs hp
  exact ⟨text, (tabs_come_last cfg content text valid).2 ⟨text0, h, ht⟩⟩

/-! ## C74 -/

/-- No line of an argument or of a bracket comment, after its first, starts with a blank. -/
def FlushLines (content : Str) : Prop :=
  ∀ t ∈ Props.Lex.toks content, t.type ≠ .whitespace → t.type ≠ .newline → NoIndent t.spelling

theorem noIndent_flat {s : Str} (h : '\n' ∉ s) : NoIndent s := by
  intro a b e
  rw [e] at h
  simp at h

theorem noIndent_map {s : Str} {f : Char → Char} (hf : Recase f) (h : NoIndent s) : NoIndent (s.map f) := by
  have hl : ∀ c x : Char, isLetter x = false → f c = x → c = x := by
    intro c x hx e
    cases hc : isLetter c with
    | true => have := hf.letter c hc; rw [e, hx] at this; simp at this
    | false => rw [hf.fix c hc] at e; exact e
  intro a b e
  obtain ⟨a', r, rfl, rfl, er⟩ := List.map_eq_append_iff.1 e
  obtain ⟨n, b', rfl, en, rfl⟩ := List.map_eq_cons_iff.1 er
  have := hl n '\n' (by decide) en
  subst this
  obtain ⟨c, b'', rfl, hc⟩ := h a' b' rfl
  exact ⟨f c, b''.map f, rfl, fun e => hc (hl c ' ' (by decide) e)⟩

theorem wordText_flat {s : Str} (h : Lex.WordText s) : '\n' ∉ s := by
  obtain ⟨c, cs, rfl, hc, hcs⟩ := h
  intro hm
  rcases List.mem_cons.1 hm with e | hm
  · rw [← e] at hc; revert hc; decide
  · have := hcs _ hm; revert this; decide

/-- The texts written for a program whose lines are flush are flush. -/
theorem piece_flush {cfg : FileCfg} {t : Lex.Token} {p : Piece} (hport : Portable cfg t)
    (hn : NoIndent t.spelling) (hs : Spelt cfg.layout cfg.ctx t p) : NoIndent p.text := by
  unfold Spelt at hs
  cases hk : p.kind <;> simp only [hk] at hs
  case lparen => rw [hs.2]; exact noIndent_flat (by decide)
  case rparen => rw [hs.2]; exact noIndent_flat (by decide)
  case name =>
    obtain ⟨hty, hc⟩ := hs
    simp only [CaseRule, hk] at hc
    rcases hc with ⟨_, e⟩ | ⟨_, e⟩ | ⟨_, e⟩ | ⟨h1, h2⟩
    · rw [e]; exact noIndent_map recase_lower hn
    · rw [e]; exact noIndent_map recase_upper hn
    · rw [e]; exact hn
    · exact noIndent_flat (wordText_flat (hport.spelling hty h1 _ h2))
  case word =>
    rcases hs with e | ⟨_, ⟨_, e⟩ | ⟨_, e⟩⟩
    · rw [e, hport.normalized]; exact hn
    · rw [e]; exact noIndent_map recase_lower hn
    · rw [e]; exact noIndent_map recase_upper hn

/-- The tokens of an output in which the blanks between the texts were changed. -/
theorem read_loose {cfg : FileCfg} {content text0 text : Str} {b : Box} {l : Laid} {ps : List Piece}
    (hf : Formatted cfg content text0 b l ps) (hp : Plain cfg.ctx content)
    (hclean : Markup.CleanCfg cfg.layout.markup) (hst : Steady cfg content) (hlo : Loose ⟨0, 0⟩ ps text) :
    text.head? ≠ some Lex.BOM ∧
      LooselyWoven ⟨0, 0⟩ ps ((Props.Lex.toks text).map fun u => (u.type, u.spelling)) ∧
      OneByOne (ReadBack cfg) (progB b) (Parse.program (Props.Lex.toks text)) := by
  obtain ⟨hbusy, hwritten, -, hread, hlink, hnamed⟩ := pieces_read hf hp hclean hst
  obtain ⟨out, hlex, hwov, hall⟩ := lexes_loose ps ⟨0, 0⟩ none text hlo hf.inOrder hlink hnamed (fun p hpm => (hread p hpm).1)
    (fun _ _ _ _ => rfl)
  have hmark : text.head? ≠ some Lex.BOM := by
    cases hlo with
    | nil => decide +kernel
    | @cons _ p ps s rest hg hlo' =>
      rcases eq_or_lt hf.inOrder.1 with he | hlt
      · rw [← he] at hg
        rw [gap_same hg, List.nil_append]
        obtain ⟨c, cs, e, _⟩ := reads_head (hread p (by simp)).1
        have := (hread p (by simp)).2
        rw [e] at this ⊢
        simpa using this
      · obtain ⟨c, t, e, hc, _⟩ := gap_head hlt hg
        rw [e]
        rcases hc with rfl | rfl | rfl <;> (simp only [List.cons_append, List.head?_cons]; decide +kernel)
  have hscan := toks_scan hmark
  rw [hlex _ (Nat.le_refl _)] at hscan
  refine ⟨hmark, by rw [hscan]; exact hwov, ?_⟩
  refine allRead_backs (Q := fun t x => Respelled cfg t x.2 ∧ TypeOk t x.1) hwritten hall ?_ _ ?_
  · intro t ht p x hsp hx
    obtain ⟨ht', hb'⟩ := hbusy t ht
    exact (read_piece ht' hb' (hst.program t ht') hsp).2.2 x hx
  · rw [busy_program, hscan]

/-- The output with tabs is the texts of the output without, with other blanks between them. -/
theorem loose_of {cfg : FileCfg} {content text0 text : Str} {b : Box} {l : Laid} {ps : List Piece}
    (hf : Formatted cfg content text0 b l ps) (hp : Plain cfg.ctx content)
    (hclean : Markup.CleanCfg cfg.layout.markup) (hst : Steady cfg content) (hfl : FlushLines content)
    {tabs : Text.TabConfig} (hr : Text.replaceWithTabs text0 tabs = .ok text) (ht : tabs.useTabchars = true) :
    Loose ⟨0, 0⟩ ps text := by
  obtain ⟨hbusy, hwritten, hcom, hread, -, -⟩ := pieces_read hf hp hclean hst
  have htext : text0 = weave ['\n'] ⟨0, 0⟩ ps ++ ['\n'] := by
    rw [hf.text_eq, hst.lineFeed]; rfl
  have hstart := start_tabs hr ht
  rw [htext] at hstart
  refine loose_start ?_ hstart
  intro p hpm
  refine ⟨?_, ?_⟩
  · cases hk : p.kind.isProgram with
    | true =>
      obtain ⟨t, ht, hsp⟩ := allWritten_mem hwritten p (by simp [hpm, hk])
      obtain ⟨ht', -⟩ := hbusy t ht
      refine piece_flush (hst.program t ht') (hfl t (List.mem_filter.1 ht').1 ?_ ?_) hsp <;>
      · intro e
        have := (List.mem_filter.1 ht').2
        rw [e] at this
        exact absurd this (by decide)
    | false =>
      have := hcom p hpm
      cases hk' : p.kind <;> rw [hk'] at hk <;> try (simp [PK.isProgram] at hk; done)
      · obtain ⟨t, e, h2, -⟩ := this.1 hk'
        rw [e]
        exact noIndent_flat (by simp [h2])
      · obtain ⟨t, ht, hty, e⟩ := this.2 hk'
        rw [e, hst.brackets t ht hty]
        exact hfl t ht (by rw [hty]; simp) (by rw [hty]; simp)
  · obtain ⟨c, cs, e, hc⟩ := reads_head (hread p hpm).1
    refine ⟨c, cs, e, ?_⟩
    rintro rfl
    simp [isSpace] at hc

/-- Tabs and the mark do not matter for steadiness. -/
theorem steady_tabs {cfg : FileCfg} {content : Str} (hst : Steady cfg content) {m : Bool} {tabs : Text.TabConfig} :
    Steady { cfg with bom := m, tabs := tabs } content :=
  ⟨hst.lineFeed, hst.sign, fun t ht => ⟨(hst.program t ht).normalized,
    (hst.program t ht).unquoted, (hst.program t ht).escapes, (hst.program t ht).noSwitch, (hst.program t ht).noMark,
    (hst.program t ht).spelling⟩, hst.comments, hst.brackets⟩

/-- **C74.** With tabs, too, the output is read back as the same program, if no line within an argument or a
bracket comment is indented: the program tokens of the output are, one by one, those of the
input, in the same order unless arguments are sorted, spelled as the options say. -/
theorem tabs_read_back_partial (cfg : FileCfg) (content text : Str) (valid : Bool)
    (h : processFile cfg content = .ok (text, valid)) (hp : Plain cfg.ctx content)
    (hclean : Markup.CleanCfg cfg.layout.markup) (hst : Steady cfg content) (hfl : FlushLines content)
    (ht : cfg.tabs.useTabchars = true) (hb : cfg.bom = false) :
    ∃ ts, ts.Perm (Parse.program (Props.Lex.toks content)) ∧
      (cfg.layout.autosort = false → ts = Parse.program (Props.Lex.toks content)) ∧
      OneByOne (ReadBack cfg) ts (Parse.program (Props.Lex.toks text)) := by
  obtain ⟨text0, h0, hr⟩ := (tabs_come_last cfg content text valid).1 h
  rw [hb] at hr
  simp only [Bool.false_eq_true, if_false, List.nil_append] at hr
  have hst0 : Steady (bare cfg) content := steady_tabs hst
  obtain ⟨b, l, ps, hf, -⟩ := formatted_of h0 hp rfl rfl
  have hlo := loose_of (cfg := bare cfg) hf hp hclean hst0 hfl hr ht
  exact ⟨progB b, hf.perm, hf.same, (read_loose hf hp hclean hst0 hlo).2.2⟩

/-! ## C16, C58 and C69 with tabs -/

section
variable {size : Nat} {policy l l' : Str}

theorem retab_length (hs : 0 < size) (h : Props.Text.Retabbed size policy l l') : l'.length ≤ l.length := by
  have key : ∀ k, k ≤ k * size := fun k => Nat.le_mul_of_pos_right k hs
  cases h with
  | blankLine => simp
  | whole k => have := key k; simp; omega
  | spaces k => have := key k; simp; omega
  | roundUp k => have := key k; simp; omega

theorem last_cons (w : Str) (c : Char) (text : Str) : (w ++ c :: text).getLast? = (c :: text).getLast? := by
  rw [List.getLast?_append, List.getLast?_cons]; rfl

theorem retab_last (h : Props.Text.Retabbed size policy l l') : l'.getLast? = l.getLast? := by
  cases h with
  | blankLine => rfl
  | whole k c text => rw [last_cons, last_cons]
  | spaces k r c text => rw [last_cons, last_cons]
  | roundUp k r c text => rw [last_cons, last_cons]

theorem last_mid : ∀ (m : Nat) {s t : Str}, s.length ≤ m → Mid s t → s.getLast? = some '\n' → t.getLast? = some '\n'
  | _, [], _, _, _, h => by simp at h
  | 0, _ :: _, _, hlen, _, _ => by simp at hlen
  | m + 1, c :: s, t, hlen, hm, h => by
    have hlen' : s.length ≤ m := by simpa using hlen
    cases hm with
    | char hc hm =>
      cases s with
      | nil => simp at h; exact absurd h hc
      | cons d s =>
        have := last_mid m hlen' hm (by simpa using h)
        rw [List.getLast?_cons, this]; rfl
    | feed hm =>
      generalize hx : s = x at hm h
      cases hm with
      | @line n w r r' hs hw hm =>
        by_cases hr : r = []
        · subst hr
          cases hm
          cases n with
          | zero =>
            have : w = [] := hw.2.2 rfl
            subst this
            rfl
          | succ n =>
            rw [List.append_nil, List.getLast?_cons] at h
            simp [List.getLast?_replicate] at h
        · obtain ⟨d, ds, rfl⟩ := List.exists_cons_of_ne_nil hr
          rw [List.getLast?_cons, last_cons, List.getLast?_cons] at h
          have hl : (d :: ds).length ≤ m := by
            rw [hx] at hlen'
            simp at hlen' ⊢
            omega
          have := last_mid m hl hm (by rw [List.getLast?_cons]; simpa using h)
          rw [List.getLast?_cons, List.getLast?_append, this]; rfl

theorem mem_join : ∀ {ls : List Str} {l : Str} {c : Char}, l ∈ ls → c ∈ l → c ∈ join ['\n'] ls
  | [], _, _, h, _ => by simp at h
  | [a], l, c, h, hc => by simp at h; subst h; exact hc
  | a :: b :: ls, l, c, h, hc => by
    have e : join ['\n'] (a :: b :: ls) = a ++ ['\n'] ++ join ['\n'] (b :: ls) := rfl
    rw [e]
    rcases List.mem_cons.1 h with rfl | h
    · simp [hc]
    · exact List.mem_append_right _ (mem_join h hc)

theorem pairs_mem {R : Str → Str → Prop} : ∀ {ls ls' : List Str}, Props.Text.Pairwise2 R ls ls' → ∀ x ∈ ls', ∃ y ∈ ls, R y x
  | [], [], _, x, hx => by simp at hx
  | a :: as, b :: bs, h, x, hx => by
    rcases List.mem_cons.1 hx with rfl | hx
    · exact ⟨a, by simp, h.1⟩
    · obtain ⟨y, hy, hr⟩ := pairs_mem h.2 x hx
      exact ⟨y, by simp [hy], hr⟩
  | [], _ :: _, h, _, _ => h.elim
  | _ :: _, [], h, _, _ => h.elim

end

/-- **C16 with tabs.** If the layout is reported valid, no line of the output has more characters than the
line width; a tab counts as one. -/
theorem tabs_fit_partial (cfg : FileCfg) (content text : Str) (h : processFile cfg content = .ok (text, true))
    (hp : Plain cfg.ctx content) (ht : cfg.tabs.useTabchars = true) (hb : cfg.bom = false)
    (hend : lineEnd cfg content = S "\n") : ∀ line ∈ splitOn '\n' text, (line.length : Int) ≤ cfg.layout.linewidth := by
  obtain ⟨text0, h0, hr⟩ := (tabs_come_last cfg content text true).1 h
  rw [hb] at hr
  simp only [Bool.false_eq_true, if_false, List.nil_append] at hr
  rcases Props.Text.tabs_only_change_indentation _ _ _ hr with ⟨hf, _⟩ | ⟨_, hs, hpair, _⟩
  · rw [ht] at hf; simp at hf
  intro line hline
  obtain ⟨l, hl, hrl⟩ := pairs_mem hpair line hline
  have h1 := Width.unix_fits_partial (bare cfg) content text0 h0 hp rfl rfl hend l hl
  have h2 := retab_length hs hrl
  have e : (bare cfg).layout.linewidth = cfg.layout.linewidth := rfl
  omega

theorem last_start {s t : Str} (h : AtStart (s ++ S "\n") t) : t.getLast? = some '\n' := by
  obtain ⟨n, w, r, r', rfl, hn, hm⟩ : ∃ n w r r', t = w ++ r' ∧ s ++ S "\n" = List.replicate n ' ' ++ r ∧ Mid r r' := by
    generalize e : s ++ S "\n" = u at h
    cases h with
    | @line n w r r' hs hw hm => exact ⟨n, w, r, r', rfl, rfl, hm⟩
  have hr : r.getLast? = some '\n' := by
    have h1 : (s ++ S "\n").getLast? = some '\n' := by
      show (s ++ ['\n']).getLast? = some '\n'
      simp
    rw [hn, List.getLast?_append] at h1
    cases e : r.getLast? with
    | some x => rw [e] at h1; simpa using h1
    | none =>
      rw [e, Option.none_or] at h1
      have := (List.mem_replicate.1 (List.mem_of_getLast? h1)).2
      revert this; decide
  rw [List.getLast?_append, last_mid _ (Nat.le_refl _) hm hr]
  rfl

/-- **C58 with tabs.** No line of the output ends in a blank or a carriage return. -/
theorem tabs_output_lines_partial (cfg : FileCfg) (content text : Str) (valid : Bool)
    (h : processFile cfg content = .ok (text, valid)) (hp : Plain cfg.ctx content)
    (hclean : Markup.CleanCfg cfg.layout.markup) (hst : Endings.Trimmed cfg content)
    (ht : cfg.tabs.useTabchars = true) (hb : cfg.bom = false) (hend : lineEnd cfg content = S "\n") :
    text.getLast? = some '\n' ∧
    ∀ line ∈ splitOn '\n' text, ∀ c, line.getLast? = some c → c ∉ S " \t\r\x0b\x0c" := by
  obtain ⟨text0, h0, hr⟩ := (tabs_come_last cfg content text valid).1 h
  rw [hb] at hr
  simp only [Bool.false_eq_true, if_false, List.nil_append] at hr
  obtain ⟨lines, htext, hl⟩ := Endings.output_lines_partial (bare cfg) content text0 valid h0 hp hclean
    ⟨hst.sign, hst.spelling, hst.escaped⟩ rfl rfl
  have e : lineEnd (bare cfg) content = S "\n" := hend
  rw [e] at htext
  have hs : splitOn '\n' text0 = lines ++ [[]] := by rw [htext]; exact LintOutput.split_lines lines fun l hl' => (hl l hl').1
  rcases Props.Text.tabs_only_change_indentation _ _ _ hr with ⟨hf, _⟩ | ⟨_, hsz, hpair, _⟩
  · rw [ht] at hf; simp at hf
  refine ⟨?_, ?_⟩
  · have hstart := start_tabs hr ht
    obtain ⟨b, l, ps, hf, -⟩ := formatted_of h0 hp rfl rfl
    rw [hf.text_eq, e] at hstart
    exact last_start hstart
  · intro line hline c hc
    obtain ⟨l, hlm, hrl⟩ := pairs_mem hpair line hline
    rw [retab_last hrl] at hc
    rw [hs] at hlm
    rcases List.mem_append.1 hlm with hin | hin
    · obtain ⟨u, hu⟩ := List.getLast?_eq_some_iff.1 hc
      exact (hl l hin).2 u c hu
    · simp only [List.mem_singleton] at hin
      subst hin
      simp at hc

/-- The two tools are configured alike, with tabs. -/
structure AlikeTabs (cfg : FileCfg) (lint : Lint.Cfg) : Prop where
  width : cfg.layout.linewidth = lint.lineWidth
  tabs : lint.useTabchars = true
  policy : lint.fractionalTabPolicy = cfg.tabs.policy
  ends : lint.lineEnding ≠ S "windows"

theorem rstrip_last {p : Char → Bool} (s : Str) :
    (rstripBy p s).length = s.length ↔ ∀ c, s.getLast? = some c → p c = false := by
  rcases List.eq_nil_or_concat s with rfl | ⟨u, x, rfl⟩
  · simp [rstripBy]
  · rw [List.concat_eq_append, rstripBy, List.reverse_append]
    cases hx : p x with
    | false => simp [hx]
    | true =>
      simp only [List.reverse_cons, List.reverse_nil, List.nil_append, List.cons_append, List.dropWhile_cons, hx, if_true,
        List.length_reverse, List.length_append, List.length_cons, List.length_nil, List.getLast?_append, List.getLast?_singleton,
        Option.some_or, Option.some.injEq]
      have := (List.dropWhile_suffix p (l := u.reverse)).length_le
      simp at this
      constructor
      · intro h; omega
      · intro h; have := h x rfl; rw [hx] at this; simp at this

/-- A line that passes the checks without tabs passes them with tabs. -/
theorem quiet_tabs {lint : Lint.Cfg} {n size : Nat} {l l' : Str} (hs : 0 < size)
    (hr : Props.Text.Retabbed size lint.fractionalTabPolicy l l') (htab : '\t' ∉ l)
    (hcr : Lint.endsCR l = false) (ht : lint.useTabchars = true)
    (h : Lint.checkLine { lint with useTabchars := false } n l = []) : Lint.checkLine lint n l' = [] := by
  have hlast := retab_last hr
  have hlen := retab_length hs hr
  have hcr' : Lint.endsCR l' = false := by simpa [Lint.endsCR, hlast] using hcr
  have hchop : Lint.chopCR l = l := by simp [Lint.chopCR, hcr]
  have hchop' : Lint.chopCR l' = l' := by simp [Lint.chopCR, hcr']
  simp only [Lint.checkLine, List.append_eq_nil_iff, hchop, hchop'] at h ⊢
  obtain ⟨⟨⟨h1, h2⟩, h3⟩, -⟩ := h
  have hblank : ∀ c, l.getLast? = some c → Lint.isBlank c = false := by
    refine (rstrip_last l).1 ?_
    simp only [Lint.checkTrailing] at h3
    split at h3
    · simp at h3
    · rename_i hh; simpa using hh
  refine ⟨⟨⟨?_, ?_⟩, ?_⟩, ?_⟩
  · simp only [Lint.checkLength] at h1 ⊢
    split at h1
    · simp at h1
    · rw [if_neg (by omega)]
  · simp only [Lint.checkEnding, hcr, hcr'] at h2 ⊢
    exact h2
  · simp only [Lint.checkTrailing]
    rw [if_neg]
    intro hh
    exact hh ((rstrip_last l').2 (by rw [hlast]; exact hblank))
  · have ind : ∀ (w : Str) (c : Char) (text : Str), (∀ x ∈ w, x = ' ' ∨ x = '\t') → c ≠ ' ' → c ≠ '\t' →
        (w ++ c :: text).takeWhile (fun c => c == ' ' || c == '\t') = w := by
      intro w c text hw h1 h2
      rw [List.takeWhile_append_of_pos (by intro x hx; rcases hw x hx with rfl | rfl <;> rfl)]
      simp [h1, h2]
    simp only [Lint.checkIndent, ht, Bool.not_true, Bool.false_eq_true, if_false]
    have nt : ∀ (w : Str) (c : Char) (text : Str), l = w ++ c :: text → c ≠ '\t' := by
      rintro w c text rfl rfl
      exact htab (by simp)
    have tabsOnly : ∀ k, ' ' ∉ List.replicate k '\t' := by
      intro k hm; have := (List.mem_replicate.1 hm).2; revert this; decide
    have strip : ∀ (k : Nat) (w : Str), '\t' ∉ w → '\t' ∉ lstripBy (· == '\t') (List.replicate k '\t' ++ w) := by
      intro k w hw
      rw [lstripBy, List.dropWhile_append_of_pos (by intro x hx; rw [(List.mem_replicate.1 hx).2]; rfl)]
      exact fun hm => hw ((List.dropWhile_sublist _).mem hm)
    generalize hpol : lint.fractionalTabPolicy = pol at hr
    cases hr with
    | blankLine m =>
      cases m with
      | zero => simp [lstripBy]
      | succ m =>
        exfalso
        have := hblank ' ' (by simp [List.getLast?_replicate])
        revert this; decide
    | whole k c text hc =>
      rw [ind _ c text (by intro x hx; exact Or.inr (List.mem_replicate.1 hx).2) hc (nt _ _ _ rfl)]
      have := strip k [] (by simp)
      rw [List.append_nil] at this
      simp [this]
    | spaces k r c text hc hr hp =>
      rw [ind _ c text (by
        intro x hx
        rcases List.mem_append.1 hx with hx | hx
        · exact Or.inr (List.mem_replicate.1 hx).2
        · exact Or.inl (List.mem_replicate.1 hx).2) hc (nt _ _ _ rfl)]
      have := strip k (List.replicate r ' ') (by intro hm; have := (List.mem_replicate.1 hm).2; revert this; decide)
      rw [hp, if_neg (by decide), if_neg this]
    | roundUp k r c text hc hr hp =>
      rw [ind _ c text (by intro x hx; exact Or.inr (List.mem_replicate.1 hx).2) hc (nt _ _ _ rfl)]
      rw [hp, if_pos rfl, if_neg (tabsOnly _)]

theorem quiet_pairs {lint : Lint.Cfg} {size : Nat} (hs : 0 < size) (ht : lint.useTabchars = true) :
    ∀ {ls ls' : List Str} {n : Nat}, Props.Text.Pairwise2 (Props.Text.Retabbed size lint.fractionalTabPolicy) ls ls' →
    (∀ l ∈ ls, '\t' ∉ l ∧ Lint.endsCR l = false) →
    Lint.checkLines { lint with useTabchars := false } n ls = [] → Lint.checkLines lint n ls' = []
  | [], [], n, _, _, _ => rfl
  | a :: as, b :: bs, n, h, hl, hq => by
    rw [Lint.checkLines, List.append_eq_nil_iff] at hq
    rw [Lint.checkLines, quiet_tabs hs h.1 (hl a (by simp)).1 (hl a (by simp)).2 ht hq.1,
      quiet_pairs hs ht h.2 (fun l hm => hl l (by simp [hm])) hq.2]
    rfl
  | [], _ :: _, _, h, _, _ => h.elim
  | _ :: _, [], _, h, _, _ => h.elim

/-- **C69 with tabs.** If both tools are told to use tabs, and the input leads to no other tab in the output, the
linter records nothing about the lines of the output. -/
theorem tabs_pass_line_checks_partial (cfg : FileCfg) (lint : Lint.Cfg) (content text : Str)
    (h : processFile cfg content = .ok (text, true)) (hp : Plain cfg.ctx content)
    (hclean : Markup.CleanCfg cfg.layout.markup) (hst : Endings.Trimmed cfg content)
    (ht : cfg.tabs.useTabchars = true) (hb : cfg.bom = false) (hend : lineEnd cfg content = S "\n")
    (ha : AlikeTabs cfg lint)
    (hpb : ∀ text0, processFile (bare cfg) content = .ok (text0, true) → LintOutput.PlainBlanks text0) :
    Lint.checkBasics lint text = [] := by
  obtain ⟨text0, h0, hr⟩ := (tabs_come_last cfg content text true).1 h
  rw [hb] at hr
  simp only [Bool.false_eq_true, if_false, List.nil_append] at hr
  have hst0 : Endings.Trimmed (bare cfg) content := ⟨hst.sign, hst.spelling, hst.escaped⟩
  have hq := LintOutput.output_passes_line_checks_partial (bare cfg) { lint with useTabchars := false } content text0 h0 hp hclean
    hst0 rfl rfl hend ⟨ha.width, rfl, ha.ends⟩ (hpb text0 h0)
  obtain ⟨lines, htext, hl⟩ := Endings.output_lines_partial (bare cfg) content text0 true h0 hp hclean hst0 rfl rfl
  have e : lineEnd (bare cfg) content = S "\n" := hend
  rw [e] at htext
  have hs : splitOn '\n' text0 = lines ++ [[]] := by rw [htext]; exact LintOutput.split_lines lines fun l hl' => (hl l hl').1
  rcases Props.Text.tabs_only_change_indentation _ _ _ hr with ⟨hf, _⟩ | ⟨_, hsz, hpair, _⟩
  · rw [ht] at hf; simp at hf
  have hlast := (tabs_output_lines_partial cfg content text true h hp hclean hst ht hb hend).1
  simp only [Lint.checkBasics, hlast, if_true, List.append_nil]
  rw [← ha.policy] at hpair
  refine quiet_pairs hsz ha.tabs hpair ?_ ?_
  · intro l hlm
    refine ⟨?_, ?_⟩
    · intro hm
      have hmem : '\t' ∈ text0 := by
        rw [← join_splitOn '\n' text0]
        exact mem_join hlm hm
      have := hpb text0 h0 '\t' hmem (by decide)
      revert this; decide
    · rw [hs] at hlm
      rcases List.mem_append.1 hlm with hin | hin
      · cases e : Lint.endsCR l with
        | false => rfl
        | true =>
          simp only [Lint.endsCR, beq_iff_eq] at e
          obtain ⟨u, hu⟩ := List.getLast?_eq_some_iff.1 e
          exact absurd (by decide) ((hl l hin).2 u '\r' hu)
      · simp only [List.mem_singleton] at hin
        subst hin
        rfl
  · simp only [Lint.checkBasics, List.append_eq_nil_iff] at hq
    exact hq.1

/-! ### Concrete cases -/

/-- The example configuration with tabs of size 4. -/
def tabFile : FileCfg := { exampleFile with tabs := ⟨true, 4, S "use-space"⟩ }

/-- Blocks, comments of both kinds, arguments of more than one line. -/
def tabText : Str := S "if(a)\nif(b)\n#[[c\nd]]\nSET(a   ${b} # one\n \"x y\" [[z\nw]])\nendif()\nendif()\n"

/-- Its output. -/
def tabOutput : Str :=
  S "if(a)\n  if(b)\n\t#[[c\nd]]\n\tset(a\n\t\t${b} # one\n\t\t\"x y\" [[z\nw]])\n  endif()\nendif()\n"

theorem tab_run : processFile tabFile tabText = .ok (tabOutput, true) := by decide +kernel

/-- `NoIndent`, computed. -/
def noIndentB : Str → Bool
  | [] => true
  | c :: cs => (c != '\n' || cs.head?.any (· != ' ')) && noIndentB cs

theorem noIndent_of {s : Str} (h : noIndentB s = true) : NoIndent s := by
  intro a b e
  induction a generalizing s with
  | nil =>
    subst e
    simp only [List.nil_append, noIndentB, bne_self_eq_false, Bool.false_or, Bool.and_eq_true] at h
    cases b with
    | nil => simp at h
    | cons c b => exact ⟨c, b, rfl, by simpa using h.1⟩
  | cons x a ih =>
    subst e
    rw [List.cons_append, noIndentB, Bool.and_eq_true] at h
    exact ih h.2 rfl

theorem flush_of {content : Str}
    (h : (Props.Lex.toks content).all (fun t => t.type == .whitespace || t.type == .newline || noIndentB t.spelling) = true) :
    FlushLines content := by
  intro t ht h1 h2
  have := List.all_eq_true.1 h t ht
  simp only [Bool.or_eq_true, beq_iff_eq] at this
  rcases this with (e | e) | e
  · exact absurd e h1
  · exact absurd e h2
  · exact noIndent_of e

example : processFile tabFile tabText = .ok (tabOutput, true) ∧ Plain tabFile.ctx tabText ∧
    Markup.CleanCfg tabFile.layout.markup ∧ Steady tabFile tabText ∧ FlushLines tabText ∧
    tabFile.tabs.useTabchars = true ∧ tabFile.bom = false ∧ (Parse.program (Props.Lex.toks tabText)).length = 21 :=
  ⟨tab_run, plain_of (by decide +kernel) (by decide +kernel) (by decide +kernel), default_clean,
    steady_tabs (cfg := exampleFile) (steady_of (by decide +kernel) (by decide +kernel) (by decide +kernel)),
    flush_of (by decide +kernel), rfl, rfl, by decide +kernel⟩

/-- Without tabs. -/
def plainOutput : Str :=
  S "if(a)\n  if(b)\n    #[[c\nd]]\n    set(a\n        ${b} # one\n        \"x y\" [[z\nw]])\n  endif()\nendif()\n"

theorem plain_run : processFile (bare tabFile) tabText = .ok (plainOutput, true) := by decide +kernel

theorem plain_blanks : plainOutput.all (fun c => !Lint.isBlank c || [' ', '\n', '\r', '\x0b', '\x0c'].contains c) = true := by
  decide +kernel

/-- The linter with tabs. -/
def tabLint : Lint.Cfg := { useTabchars := true }

example : Endings.Trimmed tabFile tabText ∧ lineEnd tabFile tabText = S "\n" ∧ AlikeTabs tabFile tabLint ∧
    (∀ text0, processFile (bare tabFile) tabText = .ok (text0, true) → LintOutput.PlainBlanks text0) ∧
    Lint.checkBasics {} tabOutput ≠ [] := by
  have h : Endings.Trimmed Endings.autoFile tabText := Endings.trimmed_of (by decide +kernel)
  refine ⟨⟨h.sign, h.spelling, h.escaped⟩, rfl, ⟨rfl, rfl, rfl, by decide⟩, ?_, by decide +kernel⟩
  intro text0 e
  rw [plain_run] at e
  simp only [Except.ok.injEq, Prod.mk.injEq, and_true] at e
  subst e
  intro c hc hbl
  have := List.all_eq_true.1 plain_blanks c hc
  simp only [hbl, Bool.not_true, Bool.false_or] at this
  simpa using this

/-- **C74 fails without `FlushLines`.** The indentation within a string is converted: the argument changes. -/
theorem tabs_change_argument :
    processFile tabFile (S "foo(\"a\n    b\")\n") = .ok (S "foo(\"a\n\tb\")\n", true) ∧
    programOf (S "foo(\"a\n    b\")\n") =
      [(.word, S "foo"), (.lparen, S "("), (.quoted, S "\"a\n    b\""), (.rparen, S ")")] ∧
    programOf (S "foo(\"a\n\tb\")\n") =
      [(.word, S "foo"), (.lparen, S "("), (.quoted, S "\"a\n\tb\""), (.rparen, S ")")] := by decide +kernel

/-- **C18 fails with tabs.** What stands between the switches is changed. -/
theorem tabs_change_region :
    processFile tabFile (S "# cmake-format: off\nfoo(\n    a)\n# cmake-format: on\n") =
      .ok (S "# cmake-format: off\nfoo(\n\ta)\n# cmake-format: on\n", true) := by decide +kernel

end Verif.Props.Tabs
