import Verif.LintSpacing
import Verif.Props.LintVarNames

/-!
# What cmake-lint reports about the blanks between commands (C82)
-/

namespace Verif.Props.LintSpacing
open Verif Py Verif.Lex Verif.Lint Verif.Props.LintTree
open Verif.Parse hiding Rec Ctx

/-- The expected records: for every command but those that end a part of a block. -/
def spacingFaults (o : Opts) (text : Str) (cmds : List Node) : List Rec :=
  ((places [] cmds).filter fun p => !endsPart p.blocks (nameOf p.cmd)).flatMap fun p => spacingRecs o text p.cmd

/-- Those with one code. -/
def withCode (code : Str) (rs : List Rec) : List Rec := rs.filter fun r => r.id == code

theorem faults_calls (o : Opts) (text code : Str) (cmds : List Node) :
    (places [] cmds).flatMap (placeF (codeRecs o text code)) = (withCode code (spacingFaults o text cmds)).map .record := by
  unfold spacingFaults withCode
  induction places [] cmds with
  | nil => rfl
  | cons p ps ih =>
    rw [List.flatMap_cons, ih, placeF, List.filter_cons]
    cases endsPart p.blocks (nameOf p.cmd) with
    | true => simp
    | false => simp [codeRecs, record_only]

theorem report_spacing {o : Opts} {cfg : Cfg} {parseLint : List Token → List Rec} {user : Spec} {explicit : Str → Bool}
    {vt : List ((Str → Bool) × List Str)} {text : Str} {rs : List Rec}
    (h : lintText o cfg parseLint (commandCtx user explicit vt) text = some rs) (hpl : ParserLint parseLint)
    (hb : text.head? ≠ some BOM) {code : Str} (hc : code = S "C0321" ∨ code = S "C0305") :
    (LintTree.Plain text → code ∉ cfg.disabled →
      (rs.filter fun r => r.id == code).Perm (withCode code (spacingFaults o text (commands (commandCtx user explicit vt) text)))) ∧
      (∀ r, r.id = code → rs.count r ≤ (withCode code (spacingFaults o text (commands (commandCtx user explicit vt) text))).count r) := by
  refine report_tree (spec := fun cmds => withCode code (spacingFaults o text cmds)) h hpl
    (by rcases hc with rfl | rfl <;> exact ⟨by decide, by decide, by decide, by decide⟩) ?_
  intro tree calls h1 h2
  rw [← faults_calls]
  exact spacing_calls (command_flat user explicit vt) hb hc h1 h2

/-! ## C82 -/

/-- **C82.** cmake-lint reports C0321 exactly for the commands with something before them in the file and no
newline in the blanks right before them, and C0305 exactly for those with too few or too many newlines
there; commands that end a part of a block are not looked at. -/
theorem spacing {o : Opts} {cfg : Cfg} {parseLint : List Token → List Rec} {user : Spec} {explicit : Str → Bool}
    {vt : List ((Str → Bool) × List Str)} {text : Str} {rs : List Rec}
    (h : lintText o cfg parseLint (commandCtx user explicit vt) text = some rs) (hpl : ParserLint parseLint)
    (hp : LintTree.Plain text) {code : Str} (hc : code = S "C0321" ∨ code = S "C0305") (hd : code ∉ cfg.disabled) :
    (rs.filter fun r => r.id == code).Perm
      ((spacingFaults o text (commands (commandCtx user explicit vt) text)).filter fun r => r.id == code) :=
  (report_spacing h hpl hp.bom hc).1 hp hd

/-- With pragmas, only these are reported. -/
theorem spacing_sound {o : Opts} {cfg : Cfg} {parseLint : List Token → List Rec} {user : Spec} {explicit : Str → Bool}
    {vt : List ((Str → Bool) × List Str)} {text : Str} {rs : List Rec}
    (h : lintText o cfg parseLint (commandCtx user explicit vt) text = some rs) (hpl : ParserLint parseLint)
    (hb : text.head? ≠ some BOM) (r : Rec) (hr : r.id = S "C0321" ∨ r.id = S "C0305") :
    rs.count r ≤ (spacingFaults o text (commands (commandCtx user explicit vt) text)).count r := by
  refine Nat.le_trans ((report_spacing h hpl hb hr).2 r rfl) ?_
  exact (List.filter_sublist (l := spacingFaults o text _)).count_le r

/-- **C82.** A command with the accepted number of newlines before it is not reported. -/
theorem well_spaced {o : Opts} {text : Str} {s : Node} (h1 : 1 ≤ newlinesBefore text s)
    (h2 : o.minSpacing ≤ newlinesBefore text s) (h3 : (newlinesBefore text s : Int) ≤ o.maxSpacing) : spacingRecs o text s = [] := by
  unfold spacingRecs
  split
  · rfl
  · rw [if_neg (by omega), if_neg (by omega), if_neg (by omega)]

/-! ## Examples -/

/-- A file with blanks of all kinds. -/
def demo : Str := S "set(a b) set(c d)\n\n\n\n# Note  \nset(e f)\nif(a)  set(g h)\n\n\n\n\n  set(i j) endif()\n#[[x\n]] set(k l)\n"

/-- What is reported. -/
def demoBad : List Rec :=
  [⟨c! "C0321", [1, 9, 9], []⟩, ⟨c! "C0303", [5], []⟩, ⟨c! "C0321", [7, 7, 46], []⟩,
   ⟨c! "C0305", [12, 2, 61], [c! "too many"]⟩, ⟨c! "C0321", [14, 3, 86], []⟩]

theorem demo_lint : lintText LintTree.demoOpts {} (parserLint .root LintForms.demoCtx) LintForms.demoCtx demo = some demoBad := by
  unfold LintForms.demoCtx commandCtx
  rw [Props.Gen.root_fast]
  decide +kernel

theorem demo_plain : LintTree.Plain demo where
  bom := by decide +kernel
  apart := Props.Parse.switchesApart_of (by decide +kernel)
  pragma := noPragma_of (by decide +kernel)

/-- The hypotheses are met, and the records are not empty. -/
example : (demoBad.filter fun r => r.id == S "C0321").Perm
    ((spacingFaults LintTree.demoOpts demo (commands LintForms.demoCtx demo)).filter fun r => r.id == S "C0321") :=
  spacing demo_lint (LintForms.parser_lint _ _) demo_plain (Or.inl rfl) (by simp)

end Verif.Props.LintSpacing
