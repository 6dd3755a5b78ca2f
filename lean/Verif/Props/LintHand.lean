import Verif.LintHand
import Verif.Props.LintParams

/-!
# What cmake-lint reports about arguments that are parsed by hand (C96)
-/

namespace Verif.Props.LintHand
open Verif Py Verif.Lex Verif.Lint Verif.Props.LintTree
open Verif.Parse hiding Rec Ctx

/-- For every definition of a function or macro, the places of the loops that parse arguments by hand. -/
def definitionLoops (limit : Int) (cmds : List Node) : List (List (List Nat)) :=
  ((places [] cmds).filter (·.defines)).map fun p => handLoops limit (inside (nameOf p.cmd) p.later)

/-- C0201 at a place. -/
def byHand (l : List Nat) : Rec := ⟨S "C0201", l, []⟩

theorem definitionLoops_eq (limit : Int) (cmds : List Node) :
    definitionLoops limit cmds = (places [] cmds).flatMap (handG limit) :=
  Props.LintParams.flatMap_if _ _ _

theorem oneOfEach_length {α : Type} {ls : List (List α)} {xs : List α} (h : OneOfEach ls xs) :
    xs.length = (ls.filter fun l => !l.isEmpty).length := by
  induction h with
  | nil => rfl
  | skip _ ih => simpa using ih
  | @pick l ls x xs hx _ ih =>
    cases l with
    | nil => simp at hx
    | cons y l => simpa using ih

theorem report_hand {o : Opts} {cfg : Cfg} {parseLint : List Token → List Rec} {ctx : Parse.Ctx} {text : Str}
    {rs : List Rec} (h : lintText o cfg parseLint ctx text = some rs) (hpl : ParserLint parseLint) :
    ∃ xs, OneOfEach (definitionLoops o.maxConditionals (commands ctx text)) xs ∧
      (Plain text → S "C0201" ∉ cfg.disabled → (rs.filter fun r => r.id == S "C0201").Perm (xs.map byHand)) ∧
      (∀ r, r.id = S "C0201" → rs.count r ≤ (xs.map byHand).count r) := by
  obtain ⟨calls, c, h1, _⟩ := lintText_ok h
  obtain ⟨ts, c1, tree, c2, hts, _, htree, hcheck, _⟩ := checkFile_ok h1
  rw [Props.Parse.tokenize_toks] at hts
  injection hts with hts
  subst hts
  obtain ⟨xs, hx, hperm⟩ := hand_calls htree hcheck
  have hcmds : commands ctx text = stmtsOf tree := by simp [commands, htree]
  refine ⟨xs, by rw [hcmds, definitionLoops_eq]; exact hx, ?_⟩
  refine report_tree (spec := fun _ => xs.map byHand) h hpl ⟨by decide, by decide, by decide, by decide⟩ ?_
  intro tree' calls' ht hc
  rw [htree] at ht
  injection ht with ht
  subst ht
  rw [hcheck] at hc
  injection hc with hc
  subst hc
  rw [List.map_map]
  exact hperm

/-! ## C96 -/

/-- **C96.** Every definition of a function or macro in which arguments are parsed by hand is reported once, at one
of the loops that do so, and nothing else is reported with this code. -/
theorem parsed_by_hand {o : Opts} {cfg : Cfg} {parseLint : List Token → List Rec} {ctx : Parse.Ctx} {text : Str}
    {rs : List Rec} (h : lintText o cfg parseLint ctx text = some rs) (hpl : ParserLint parseLint) (hp : Plain text)
    (hd : S "C0201" ∉ cfg.disabled) :
    ∃ xs, OneOfEach (definitionLoops o.maxConditionals (commands ctx text)) xs ∧
      (rs.filter fun r => r.id == S "C0201").Perm (xs.map byHand) := by
  obtain ⟨xs, h1, h2, _⟩ := report_hand h hpl
  exact ⟨xs, h1, h2 hp hd⟩

/-- There are as many reports as such definitions. -/
theorem parsed_by_hand_number {o : Opts} {cfg : Cfg} {parseLint : List Token → List Rec} {ctx : Parse.Ctx} {text : Str}
    {rs : List Rec} (h : lintText o cfg parseLint ctx text = some rs) (hpl : ParserLint parseLint) (hp : Plain text)
    (hd : S "C0201" ∉ cfg.disabled) :
    (rs.filter fun r => r.id == S "C0201").length =
      ((definitionLoops o.maxConditionals (commands ctx text)).filter fun l => !l.isEmpty).length := by
  obtain ⟨xs, h1, h2⟩ := parsed_by_hand h hpl hp hd
  rw [h2.length_eq, List.length_map, oneOfEach_length h1]

/-- With pragmas and any other text, only these are reported. -/
theorem parsed_by_hand_sound {o : Opts} {cfg : Cfg} {parseLint : List Token → List Rec} {ctx : Parse.Ctx} {text : Str}
    {rs : List Rec} (h : lintText o cfg parseLint ctx text = some rs) (hpl : ParserLint parseLint) :
    ∃ xs, OneOfEach (definitionLoops o.maxConditionals (commands ctx text)) xs ∧
      ∀ r, r.id = S "C0201" → rs.count r ≤ (xs.map byHand).count r := by
  obtain ⟨xs, h1, _, h3⟩ := report_hand h hpl
  exact ⟨xs, h1, h3⟩

/-! ## A file that meets the hypotheses -/

/-- Two loops of the same kind in the first definition, and `cmake_parse_arguments` in the second. -/
def demo : Str := S "function(f)\n  foreach(x ${ARGN})\n    if(x STREQUAL A AND x MATCHES B)\n    endif()\n  endforeach()\n  foreach(y ${ARGN})\n    if(y STREQUAL A AND y MATCHES B)\n    endif()\n  endforeach()\nendfunction()\nmacro(m)\n  cmake_parse_arguments(A B C D ${ARGN})\n  foreach(x ${ARGN})\n    if(x STREQUAL A AND x MATCHES B)\n    endif()\n  endforeach()\nendmacro()\n"

theorem demo_plain : Plain demo where
  bom := by decide +kernel
  apart := Props.Parse.switchesApart_of (by decide +kernel)
  pragma := noPragma_of (by decide +kernel)

/-- One condition is allowed. -/
def opts : Opts := { demoOpts with maxConditionals := 1, maxBranches := 50, maxStatements := 50 }

theorem demo_lint : lintText opts {} (fun _ => []) Props.Parse.exampleCtx demo = some
    [⟨S "C0111", [1, 0, 0], []⟩, ⟨S "C0201", [2, 2, 14], []⟩, ⟨S "C0111", [11, 0, 196], []⟩] := by
  decide +kernel

theorem demo_loops : definitionLoops 1 (commands Props.Parse.exampleCtx demo) = [[[2, 2, 14], [6, 2, 99]], []] := by
  decide +kernel

example : ∃ xs, OneOfEach [[[2, 2, 14], [6, 2, 99]], []] xs ∧ ([⟨S "C0201", [2, 2, 14], []⟩] : List Rec).Perm (xs.map byHand) := by
  have := parsed_by_hand demo_lint demo_parser demo_plain (by simp)
  rw [show opts.maxConditionals = 1 from rfl, demo_loops] at this
  exact this

example : OneOfEach [[[2, 2, 14], [6, 2, 99]], []] [[2, 2, 14]] := .pick (by simp) (.skip .nil)

/-- Another loop may not be reported instead. -/
example : ¬ OneOfEach [[[2, 2, 14], [6, 2, 99]], []] [[13, 2, 0]] := by
  intro h
  cases h with
  | pick hx _ => simp at hx

/-- A condition that is the loop variable alone makes cmake-lint crash. -/
theorem lone_variable_crashes : lintText opts {} (fun _ => []) Props.Parse.exampleCtx
    (S "function(f)\n  foreach(x ${ARGN})\n    if(x)\n    endif()\n  endforeach()\nendfunction()\n") = none := by
  decide +kernel

/-- A loop variable in quotes, as in most such loops, is not seen. -/
theorem quoted_variable_missed : definitionLoops 1 (commands Props.Parse.exampleCtx
    (S "function(f)\n  foreach(x ${ARGN})\n    if(\"${x}\" STREQUAL A AND \"${x}\" MATCHES B)\n    endif()\n  endforeach()\nendfunction()\n")) = [[]] := by
  decide +kernel

end Verif.Props.LintHand
