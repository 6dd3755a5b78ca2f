import Verif.Props.Layout
import Verif.Width

/-!
# C16: a valid layout fits the line width
-/

namespace Verif.Props.Width
open Verif Py Layout Props.Layout

theorem colext_valid {cfg : Cfg} {b : Box} {c : Cur} {l : Laid} {o : Cur} (h : Placed cfg b c l o) (hv : l.valid = true) :
    (l.colext : Int) ≤ cfg.linewidth := by
  cases b; cases l
  simp only [Placed] at h
  exact h.2.2.2.2.1.1 hv

/-- **C16.** If the formatter reports a valid layout for a plain text, then no line of the
output, read with the line ends it was written with, is longer than the line width.
Missing: texts with format switches (whose verbatim parts can be of any width), byte-order
marks, tab characters and comments or keywords that are not settled. -/
theorem valid_fits_partial (cfg : FileCfg) (content text : Str) (h : processFile cfg content = .ok (text, true))
    (hp : Plain cfg.ctx content) (htabs : cfg.tabs.useTabchars = false) (hbom : cfg.bom = false) :
    ∃ out, text = withEndings (lineEnd cfg content) out ∧
      ∀ line ∈ splitOn '\n' out, (line.length : Int) ≤ cfg.layout.linewidth := by
  obtain ⟨b, l, ps, hf, hv⟩ := formatted_of h hp htabs hbom
  obtain ⟨o, hpl⟩ := hf.placed
  have hw : (l.colext : Int) ≤ cfg.layout.linewidth := colext_valid (cfg := cfg.cfgFor content (Props.Lex.toks content)) hpl hv
  have hin := within_node b _ l o none ps hf.tidy hpl hf.pieces
  have hpair := paired_node b _ l o none none ps hf.tidy hf.framed hf.sourced (by rw [hf.body]; simp) hpl hf.pieces
  have hall := names_within hf.inOrder hpair hin
  have hext := extent_weave (Nat.zero_le l.colext) hf.inOrder hall
  refine ⟨weave (S "\n") ⟨0, 0⟩ ps ++ S "\n", ?_, ?_⟩
  · have : withEndings (lineEnd cfg content) (S "\n") = lineEnd cfg content :=
      (by simp [withEndings] : withEndings (lineEnd cfg content) ['\n'] = lineEnd cfg content)
    rw [hf.text_eq, weave_endings, withEndings_append, this]
  · intro line hline
    have hx : extent ⟨0, 0⟩ (weave (S "\n") ⟨0, 0⟩ ps ++ S "\n") ≤ l.colext := by
      rw [extent_append]
      refine Nat.max_le.2 ⟨hext, ?_⟩
      exact Nat.max_le.2 ⟨Nat.le_trans (advance_col _ _) hext, Nat.zero_le _⟩
    obtain ⟨a, as, e, h1, h2⟩ := line_extent _ _ _ hx
    rw [e] at hline
    rcases List.mem_cons.1 hline with rfl | hline
    · simp only [Nat.zero_add] at h1; omega
    · have := h2 _ hline; omega

/-- With unix line ends: no line is longer than the line width. -/
theorem unix_fits_partial (cfg : FileCfg) (content text : Str) (h : processFile cfg content = .ok (text, true))
    (hp : Plain cfg.ctx content) (htabs : cfg.tabs.useTabchars = false) (hbom : cfg.bom = false)
    (hend : lineEnd cfg content = S "\n") : ∀ line ∈ splitOn '\n' text, (line.length : Int) ≤ cfg.layout.linewidth := by
  obtain ⟨out, e, h⟩ := valid_fits_partial cfg content text h hp htabs hbom
  rw [hend, withEndings_nl] at e
  rw [e]; exact h

/-- The default configuration with 20 columns. -/
def narrow : FileCfg := { exampleFile with layout := { exampleLayout with linewidth := 20 } }

/-- The result of a run. -/
def result (cfg : FileCfg) (s : Str) : Str × Bool :=
  match processFile cfg s with
  | .ok r => r
  | .error _ => (S "error", false)

example : result narrow (S "set(aaaaaaaa bbbbbbbb cccccccc)\nfoo(a)\n") =
    (S "set(aaaaaaaa\n    bbbbbbbb\n    cccccccc)\nfoo(a)\n", true) := by decide +kernel

/-- An argument that is too wide: the layout is reported as not valid. -/
example : result narrow (S "set(aaaaaaaaaaaaaaaaaaaaaaaaa)\n") =
    (S "set(aaaaaaaaaaaaaaaaaaaaaaaaa\n)\n", false) := by decide +kernel

example : Plain narrow.ctx (S "set(aaaaaaaa bbbbbbbb cccccccc)\nfoo(a)\n") ∧ narrow.tabs.useTabchars = false ∧
    narrow.bom = false ∧ lineEnd narrow (S "set(aaaaaaaa bbbbbbbb cccccccc)\nfoo(a)\n") = S "\n" :=
  ⟨plain_of (by decide +kernel) (by decide +kernel) (by decide +kernel), rfl, rfl, rfl⟩

/-- Text that is switched off is copied at any width. -/
theorem switched_off_too_wide :
    result narrow (S "# cmake-format: off\nset(a                        b)\n# cmake-format: on\n") =
      (S "# cmake-format: off\nset(a                        b)\n# cmake-format: on\n", true) := by decide +kernel

end Verif.Props.Width
