import Verif.LintSpec
import Verif.LintTree

/-!
# Groups with too few words (specification for C98)
-/

namespace Verif.Lint
open Verif Py Lex Parse

/-- The fewest words that a number of arguments allows: `3`, `3+`, `*`, `?` and `+`. -/
def fewest : Nargs → Int
  | .int n => n
  | .str s =>
    if s = c! "*" then 0
    else if s = c! "?" then 0
    else if s = c! "+" then 1
    else match s.getLast? with
      | some '+' => intOf s.dropLast
      | _ => intOf s

/-- The group of words has fewer than were declared for it. -/
def tooFew (a : Attr) (cs : List Node) : Bool :=
  a.nargs.any fun k => decide (((program (toksL cs)).length : Int) < fewest k)

/-- Where a group begins; a group without words has no place. -/
def groupPlace (cs : List Node) : List Nat :=
  match program (toksL cs) with
  | [] => []
  | t :: _ => tokStart t

mutual
/-- The places of the groups of words in a command, nested ones too, that have too few of them. -/
def shortGroups : Node → List (List Nat)
  | .tok _ => []
  | .node ty a cs => (if ty = .pargGroup ∧ tooFew a cs = true then [groupPlace cs] else []) ++ shortGroupsL cs
/-- Those of some trees. -/
def shortGroupsL : List Node → List (List Nat)
  | [] => []
  | n :: ns => shortGroups n ++ shortGroupsL ns
end

/-- Where the first thing after the opening parenthesis of a command stands, comments included. -/
def afterOpening (s : Node) : List Nat :=
  match ((s.toks.dropWhile fun t => t.type != .lparen).drop 1).find? fun t => t.type != .whitespace && t.type != .newline with
  | none => []
  | some t => tokStart t

/-- The commands that say nothing without a first word.  (On `list()` the linter fails before it reports: `crash_on_list`.) -/
def needsWord : List Str := [c! "file", c! "list", c! "add_custom_command"]

/-- The place in a command without words, if it is one of these and not declared by the user. -/
def lacksWord (user : List Str) (s : Node) : List (List Nat) :=
  if nameOf s ∈ needsWord ∧ nameOf s ∉ user ∧ (((program s.toks).drop 2).head?.any fun t => t.type == .rparen) = true
  then [afterOpening s] else []

end Verif.Lint
