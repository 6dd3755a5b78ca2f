import Verif.Props.Endings
import Verif.Props.Width
import Verif.Props.LintLines

/-!
# cmake-lint has nothing to say about the lines that cmake-format wrote (C69)
-/

namespace Verif.Props.LintOutput
open Verif Py Layout Props.Layout Props.Endings

/-! ## Specification -/

/-- The two tools are configured alike: the same width, no tabs for indentation, and the linter
does not ask for CR LF. -/
structure Alike (cfg : FileCfg) (lint : Lint.Cfg) : Prop where
  width : cfg.layout.linewidth = lint.lineWidth
  tabs : lint.useTabchars = false
  ends : lint.lineEnding ≠ S "windows"

/-- The text has no tab and none of the rarer blanks of Unicode. -/
def PlainBlanks (text : Str) : Prop := ∀ c ∈ text, Lint.isBlank c = true → c = ' ' ∨ c = '\n' ∨ c = '\r' ∨ c = '\x0b' ∨ c = '\x0c'

/-! ## Lemmas -/

theorem split_lines : ∀ (lines : List Str), (∀ l ∈ lines, '\n' ∉ l) →
    splitOn '\n' (lines.map (· ++ S "\n")).flatten = lines ++ [[]]
  | [], _ => rfl
  | l :: ls, h => by
    have e : ((l :: ls).map (· ++ S "\n")).flatten = l ++ '\n' :: (ls.map (· ++ S "\n")).flatten := by
      simp only [List.map_cons, List.flatten_cons]
      show l ++ ['\n'] ++ _ = _
      simp
    rw [e, splitOn_append_sep (h l (by simp)), split_lines ls fun x hx => h x (by simp [hx])]
    rfl

theorem quiet_line {lint : Lint.Cfg} {n : Nat} {line : Str} (hw : line.length ≤ lint.lineWidth) (ht : lint.useTabchars = false)
    (he : lint.lineEnding ≠ S "windows") (hend : ∀ u c, line = u ++ [c] → c ∉ S " \t\r\x0b\x0c") (hnl : '\n' ∉ line)
    (hb : PlainBlanks line) : Lint.checkLine lint n line = [] := by
  have hcr : Lint.endsCR line = false := by
    cases e : Lint.endsCR line with
    | false => rfl
    | true =>
      simp only [Lint.endsCR, beq_iff_eq] at e
      obtain ⟨u, hu⟩ := List.getLast?_eq_some_iff.1 e
      exact absurd (by decide) (hend u '\r' hu)
  have hchop : Lint.chopCR line = line := by simp [Lint.chopCR, hcr]
  have htab : '\t' ∉ line := by
    intro hm
    have := hb '\t' hm (by decide)
    revert this; decide
  have hstrip : rstripBy Lint.isBlank line = line := by
    rcases List.eq_nil_or_concat line with rfl | ⟨u, c, rfl⟩
    · rfl
    · have hc := hend u c (by simp)
      have hcb : Lint.isBlank c = false := by
        cases e : Lint.isBlank c with
        | false => rfl
        | true =>
          have h1 := hb c (by simp) e
          have h2 : c ≠ '\n' := fun e => hnl (by simp [e])
          exfalso
          rcases h1 with rfl | rfl | rfl | rfl | rfl
          · exact hc (by decide)
          · exact h2 rfl
          · exact hc (by decide)
          · exact hc (by decide)
          · exact hc (by decide)
      rw [List.concat_eq_append, rstripBy, List.reverse_append]
      simp [hcb]
  have hind : '\t' ∉ line.takeWhile (fun c => c == ' ' || c == '\t') := fun h => htab (List.takeWhile_subset _ h)
  simp only [Lint.checkLine, Lint.checkLength, Lint.checkEnding, hchop, Lint.checkTrailing, Lint.checkIndent, hcr, hstrip, ht]
  rw [if_neg (by omega), if_neg he]
  simp [hind]

/-! ## C69 -/

/-- **C69.** If cmake-format reports a valid layout and writes line feeds, then cmake-lint,
configured alike, records nothing about the lines of the output: no long line, no wrong line end,
no trailing blank, no bad indentation, no missing final line feed.  Missing: the hypotheses of C16
and C58; texts with tabs. -/
theorem output_passes_line_checks_partial (cfg : FileCfg) (lint : Lint.Cfg) (content text : Str)
    (h : processFile cfg content = .ok (text, true)) (hp : Plain cfg.ctx content)
    (hclean : Markup.CleanCfg cfg.layout.markup) (hst : Trimmed cfg content)
    (htabs : cfg.tabs.useTabchars = false) (hbom : cfg.bom = false) (hend : lineEnd cfg content = S "\n")
    (ha : Alike cfg lint) (hb : PlainBlanks text) :
    Lint.checkBasics lint text = [] := by
  obtain ⟨lines, htext, hl⟩ := output_lines_partial cfg content text true h hp hclean hst htabs hbom
  rw [hend] at htext
  have hne : text ≠ [] := by
    obtain ⟨b, l, ps, hf, -⟩ := formatted_of h hp htabs hbom
    rw [hf.text_eq, hend]
    intro e
    exact absurd (List.append_eq_nil_iff.1 e).2 (by decide)
  have hw := Width.unix_fits_partial cfg content text h hp htabs hbom hend
  have hs : splitOn '\n' text = lines ++ [[]] := by rw [htext]; exact split_lines lines fun l hl' => (hl l hl').1
  rw [hs] at hw
  have hlast : text.getLast? = some '\n' := by
    rcases List.eq_nil_or_concat lines with rfl | ⟨ls, l, rfl⟩
    · exact absurd (by simpa using htext) hne
    · rw [htext, List.concat_eq_append, List.map_append, List.flatten_append]
      simp only [List.map_cons, List.map_nil, List.flatten_cons, List.flatten_nil, List.append_nil]
      rw [List.getLast?_append, List.getLast?_append]
      rfl
  have hmem : ∀ l ∈ lines, ∀ c ∈ l, c ∈ text := by
    intro l hl' c hc
    rw [htext]
    exact List.mem_flatten.2 ⟨l ++ S "\n", List.mem_map.2 ⟨l, hl', rfl⟩, by simp [hc]⟩
  have key : ∀ (ls : List Str) (n : Nat), (∀ l ∈ ls, (l.length : Int) ≤ cfg.layout.linewidth ∧ '\n' ∉ l ∧
      (∀ u c, l = u ++ [c] → c ∉ S " \t\r\x0b\x0c") ∧ PlainBlanks l) → Lint.checkLines lint n ls = [] := by
    intro ls
    induction ls with
    | nil => intro n _; rfl
    | cons l ls ih =>
      intro n hh
      obtain ⟨h1, h2, h3, h4⟩ := hh l (by simp)
      rw [ha.width] at h1
      simp only [Lint.checkLines]
      rw [quiet_line (by omega) ha.tabs ha.ends h3 h2 h4, ih (n + 1) fun x hx => hh x (by simp [hx])]
      rfl
  simp only [Lint.checkBasics, hs, hlast, if_true, List.append_nil]
  apply key
  intro l hl'
  refine ⟨hw l hl', ?_⟩
  rcases List.mem_append.1 hl' with hin | hin
  · exact ⟨(hl l hin).1, (hl l hin).2, fun c hc => hb c (hmem l hin c hc)⟩
  · simp only [List.mem_singleton] at hin
    subst hin
    exact ⟨by simp, by simp, by intro c hc; simp at hc⟩

/-- A text in need of formatting. -/
def untidy : Str := S "# hello  \nSET(a   b # one\n  \"x  \n y\"\n   c)\n\n\n"

example : (∃ text, processFile autoFile untidy = .ok (text, true) ∧ PlainBlanks text ∧
      Lint.checkBasics {} text = []) ∧ Lint.checkBasics {} untidy ≠ [] := by
  refine ⟨?_, by decide +kernel⟩
  have hr : (match processFile autoFile untidy with | .ok r => r.2 && r.1.all (fun c => !Lint.isBlank c ||
      [' ', '\n', '\r', '\x0b', '\x0c'].contains c) | .error _ => false) = true := by decide +kernel
  cases e : processFile autoFile untidy with
  | error _ => rw [e] at hr; simp at hr
  | ok r =>
    obtain ⟨text, valid⟩ := r
    rw [e] at hr
    simp only [Bool.and_eq_true] at hr
    obtain ⟨rfl, h2⟩ := hr
    have hb : PlainBlanks text := by
      intro c hc hbl
      have := List.all_eq_true.1 h2 c hc
      simp only [hbl, Bool.not_true, Bool.false_or] at this
      simpa using this
    refine ⟨text, rfl, hb, ?_⟩
    exact output_passes_line_checks_partial autoFile {} untidy text e
      (plain_of (by decide +kernel) (by decide +kernel) (by decide +kernel)) default_clean
      (trimmed_of (by decide +kernel)) rfl rfl (by decide +kernel) ⟨rfl, rfl, by decide⟩ hb

/-- A finding: with CR LF the linter counts the carriage return, so it rejects a line that is as
wide as the formatter may make it. -/
theorem carriage_return_counts :
    Lint.checkBasics { lineWidth := 8, lineEnding := S "auto" } (S "foo(abc)\r\n") =
      [⟨S "C0301", [1], [S "9", S "8"]⟩] := by decide +kernel

end Verif.Props.LintOutput
