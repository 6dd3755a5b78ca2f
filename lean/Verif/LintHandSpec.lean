import Verif.LintSpec

/-!
# Argument parsers written by hand (specification for C96)
-/

namespace Verif.Lint
open Verif Py Lex Parse

mutual
/-- The conditions in a command: the words of every group that is read as a condition. -/
def conditions : Node → List (List Token)
  | .tok _ => []
  | .node ty a cs => (if ty = .argGroup ∧ a.role = .conditional then [program (toksL cs)] else []) ++ conditionsL cs
/-- Those of some trees. -/
def conditionsL : List Node → List (List Token)
  | [] => []
  | n :: ns => conditions n ++ conditionsL ns
end

/-- The condition begins with the word, and `STREQUAL` or `MATCHES` comes next. -/
def compares (word : Str) : List Token → Bool
  | t :: u :: _ => t.spelling == word && [c! "STREQUAL", c! "MATCHES"].contains u.spelling
  | _ => false

/-- The commands inside a loop compare its first argument in more conditions than allowed, and `${ARGN}` is an
argument of the loop. -/
def parsesByHand (limit : Int) (loop : Node) (body : List Node) : Bool :=
  ((argsOf loop).any fun t => t.type == .deref && t.spelling == c! "${ARGN}") &&
    match argsOf loop with
    | [] => false
    | v :: _ => decide ((((body.flatMap conditions).countP (compares v.spelling) : Nat) : Int) > limit)

/-- The loops among some commands, with the commands inside them. -/
def loopsOf (cmds : List Node) : List (Node × List Node) :=
  ((places [] cmds).filter fun p => [c! "foreach", c! "while"].contains (nameOf p.cmd)).map fun p =>
    (p.cmd, inside (nameOf p.cmd) p.later)

/-- Where the commands of a definition parse arguments by hand: at such loops, unless `cmake_parse_arguments` is
called. -/
def handLoops (limit : Int) (cmds : List Node) : List (List Nat) :=
  if cmds.any fun s => nameOf s == c! "cmake_parse_arguments" then []
  else ((loopsOf cmds).filter fun q => parsesByHand limit q.1 q.2).map fun q => startOf q.1

/-- One from every list that is not empty, in order. -/
inductive OneOfEach {α : Type} : List (List α) → List α → Prop
  | nil : OneOfEach [] []
  | skip {ls : List (List α)} {xs : List α} : OneOfEach ls xs → OneOfEach ([] :: ls) xs
  | pick {l : List α} {ls : List (List α)} {x : α} {xs : List α} : x ∈ l → OneOfEach ls xs → OneOfEach (l :: ls) (x :: xs)

end Verif.Lint
