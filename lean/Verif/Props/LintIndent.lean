import Verif.LintIndent
import Verif.Props.LintTree

/-!
# Which lines cmake-lint finds badly indented (C92)

A file is a sequence of commands and of what stands between them: comments, blanks and newlines.
`marksFrom` (in `Verif.LintIndent`) gives every token of it the number of blocks that are open at its
place, where a command that ends a block or a branch does not count the block it ends.
-/

namespace Verif.Props.LintIndent
open Verif Py Verif.Lex Verif.Lint
open Verif.Parse hiding Rec Ctx
open Verif.Props.LintTree (Plain lint_parses plain_tree)

/-- The commands of a text and what stands between them; none if it cannot be parsed. -/
def pieces (ctx : Parse.Ctx) (text : Str) : List Node :=
  match parse ctx (Props.Lex.toks text) with
  | .error _ => []
  | .ok tree => piecesOf tree

/-- **C92.** cmake-lint reports C0307 exactly once for every token that follows blanks at the start of
its line, if these blanks are not as wide as the blocks around the token ask for, or, among arguments, not
even as wide; with the place of the token, the blanks, the token and the blanks that should be there. -/
theorem indentation {o : Opts} {cfg : Cfg} {parseLint : List Token → List Rec} {ctx : Parse.Ctx} {text : Str}
    {rs : List Rec} (h : lintText o cfg parseLint ctx text = some rs) (hpl : ParserLint parseLint)
    (hp : Plain text) (hd : S "C0307" ∉ cfg.disabled) :
    (rs.filter fun r => r.id == S "C0307").Perm (badIndents o.tabSize (marksFrom [] (pieces ctx text))) := by
  obtain ⟨ts, tree, calls, h1, h2, h3, h4⟩ := report_code h hpl
  rw [Props.Parse.tokenize_toks] at h1
  injection h1 with h1
  subst h1
  have k := h4 (S "C0307") ⟨by decide, by decide, by decide, by decide⟩ (plain_tree hp h2).1 hd
  rw [indent_calls h2 h3] at k
  rw [show pieces ctx text = piecesOf tree by simp [pieces, h2]]
  have := k.filterMap fun c => match c with | .record r => some r | _ => none
  simpa [List.filterMap_map, Function.comp_def] using this

/-- With pragmas and any other text, only these are reported. -/
theorem indentation_sound {o : Opts} {cfg : Cfg} {parseLint : List Token → List Rec} {ctx : Parse.Ctx} {text : Str}
    {rs : List Rec} (h : lintText o cfg parseLint ctx text = some rs) (hpl : ParserLint parseLint)
    (r : Rec) (hr : r.id = S "C0307") :
    rs.count r ≤ (badIndents o.tabSize (marksFrom [] (pieces ctx text))).count r := by
  obtain ⟨ts, tree, calls, h1, h2, h3, h4⟩ := report_le h hpl
  rw [Props.Parse.tokenize_toks] at h1
  injection h1 with h1
  subst h1
  rw [show pieces ctx text = piecesOf tree by simp [pieces, h2]]
  have k := h4 r (hr ▸ ⟨by decide, by decide, by decide, by decide⟩)
  rw [hr, indent_calls h2 h3] at k
  refine Nat.le_trans k (Nat.le_of_eq ?_)
  have : ∀ l : List Rec, (l.map Call.record).count (.record r) = l.count r := by
    intro l
    induction l with
    | nil => rfl
    | cons x l ih =>
      simp only [List.map_cons, List.count_cons, ih]
      by_cases e : x = r <;> simp [e]
  exact this _

/-- The pieces are the commands and the tokens between them, and their tokens are those of the text. -/
theorem pieces_are_the_text {o : Opts} {cfg : Cfg} {parseLint : List Token → List Rec} {ctx : Parse.Ctx} {text : Str}
    {rs : List Rec} (h : lintText o cfg parseLint ctx text = some rs) (hp : Plain text) :
    ((marksFrom [] (pieces ctx text)).map (·.tok)).Perm (Props.Lex.toks text) ∧
      (pieces ctx text).filter (hasType .statement) = Props.LintTree.commands ctx text := by
  obtain ⟨tree, e⟩ := lint_parses h
  have hc : pieces ctx text = piecesOf tree := by simp [pieces, e]
  rw [hc, marksFrom_toks, pieces_toks]
  refine ⟨(Props.Parse.tokens_conserved_partial ctx _ tree e
      (Props.Parse.no_bom text _ (Props.Parse.tokenize_toks text) hp.bom) hp.apart).1, ?_⟩
  rw [show Props.LintTree.commands ctx text = stmtsOf tree by simp [Props.LintTree.commands, e]]
  obtain ⟨a, cs, c, rfl, hs⟩ := parse_seq e
  simp only [piecesOf, true_or, if_true, stmtsOf, reduceCtorEq, if_false]
  exact seq_pieces hs

/-! ## A file -/

def demo : Str :=
  S "if(a)\n    x(a\n    b\n c)\n  else()\n # z\n\t\tfoo()\n  bar()\n  endif()\n"

theorem demo_plain : Plain demo where
  bom := by decide +kernel
  apart := Props.Parse.switchesApart_of (by decide +kernel)
  pragma := Props.LintTree.noPragma_of (by decide +kernel)

/-- What is reported about the file. -/
def demoRecs : List Rec :=
  [⟨S "C0307", [2, 4, 10], [S "    ", S "x", S "  "]⟩, ⟨S "C0307", [4, 1, 21], [S " ", S "c", S "  "]⟩,
   ⟨S "C0307", [5, 2, 26], [S "  ", S "else", S ""]⟩, ⟨S "C0307", [6, 1, 34], [S " ", S "# z", S "  "]⟩,
   ⟨S "C0306", [7, 0], [S "tab", S "space"]⟩, ⟨S "C0307", [7, 2, 40], [S "\t\t", S "foo", S "  "]⟩, ⟨S "C0307", [9, 2, 56], [S "  ", S "endif", S ""]⟩]

theorem demo_lint : lintText Props.LintTree.demoOpts {} (fun _ => []) Props.Parse.exampleCtx demo = some demoRecs := by
  decide +kernel

/-- The hypotheses are met, and the records are not empty: the second argument of `x` may stand further
to the right, but the third may not stand to the left. -/
example : (demoRecs.filter fun r => r.id == S "C0307").Perm (badIndents Props.LintTree.demoOpts.tabSize (marksFrom [] (pieces Props.Parse.exampleCtx demo))) :=
  indentation demo_lint Props.LintTree.demo_parser demo_plain (by simp)

/-! ## What the check does not see, and what it should not -/

/-- The reports about the indentation of a text. -/
def found (text : Str) : Option (List (List Nat)) :=
  (lintText Props.LintTree.demoOpts {} (fun _ => []) Props.Parse.exampleCtx text).map fun rs =>
    (rs.filter fun r => r.id == S "C0307").map (·.loc)

/-- A line that is not indented at all is never reported. -/
theorem flush_left_unseen : found (S "if(a)\nx()\nendif()\n") = some [] := by decide +kernel

/-- An empty line with blanks is reported. -/
theorem blank_line_seen : found (S "x()\n   \ny()\n") = some [[2, 3, 7]] := by decide +kernel

/-- A trailing comment of two lines is reported, although cmake-format aligns its lines like this. -/
theorem aligned_comment_seen : found (S "x()  # a\n     # b\n") = some [[2, 5, 14]] := by decide +kernel

end Verif.Props.LintIndent
