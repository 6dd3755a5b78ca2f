import Verif.Props.Config

/-!
# Reading the statements of a Python configuration file

A small reader for the part of Python in which configuration files are dumped: lines, comments, blocks by indentation,
`with section("...")` and assignments.  Reading an expression is a parameter (`value`): it takes the rest of the line and
the lines below and gives the value and the lines not used.
-/

namespace Verif.PyBlocks
open Verif Py Verif.Config
open Verif.Props.Config (Stmt)

/-- A line without a statement. -/
def idle (line : Str) : Bool :=
  match line.dropWhile (· == ' ') with
  | [] => true
  | c :: _ => c == '#'

/-- The indentation of a line. -/
def depth (line : Str) : Nat := (line.takeWhile (· == ' ')).length

/-- A character of a name. -/
def nameChar (c : Char) : Bool := isLower c || isUpper c || isDigit c || c == '_'

/-- `name = ...`: the name and what follows. -/
def assignment (s : Str) : Option (Str × Str) :=
  match stripPrefix? (S " = ") (s.dropWhile nameChar) with
  | some rest => if s.takeWhile nameChar = [] then none else some (s.takeWhile nameChar, rest)
  | none => none

/-- `with section("name"):`. -/
def sectionHead (s : Str) : Option Str :=
  match stripPrefix? (S "with section(\"") s with
  | some rest => if rest.dropWhile (· != '"') = S "\"):" then some (rest.takeWhile (· != '"')) else none
  | none => none

/-- The indentation of the first line with a statement. -/
def nextDepth : List Str → Option Nat
  | [] => none
  | l :: ls => if idle l then nextDepth ls else some (depth l)

/-- The statements of a block of a given indentation, and the lines after it.  The first argument bounds the number of
steps; `none` is a syntax error. -/
def readBlock (value : List Str → Option (Val × List Str)) : Nat → Nat → List Str → Option (List Stmt × List Str)
  | 0, _, _ => none
  | _ + 1, _, [] => some ([], [])
  | n + 1, d, l :: ls =>
    if idle l then readBlock value n d ls
    else if depth l < d then some ([], l :: ls)
    else if depth l > d then none
    else
      match assignment (l.drop d) with
      | some (name, rest) =>
        match value (rest :: ls) with
        | none => none
        | some (v, ls') =>
          match readBlock value n d ls' with
          | none => none
          | some (ss, r) => some (.assign name v :: ss, r)
      | none =>
        match sectionHead (l.drop d), nextDepth ls with
        | some name, some d' =>
          if d' ≤ d then none
          else
            match readBlock value n d' ls with
            | none => none
            | some (body, ls') =>
              match readBlock value n d ls' with
              | none => none
              | some (ss, r) => some (.sect name body :: ss, r)
        | _, _ => none

/-- The statements of a whole file. -/
def ReadsAs (value : List Str → Option (Val × List Str)) (text : Str) (prog : List Stmt) : Prop :=
  ∃ n, readBlock value n 0 (splitOn '\n' text) = some (prog, [])

end Verif.PyBlocks
