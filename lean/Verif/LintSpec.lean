import Verif.ParseSpec
import Verif.GroupSpec
import Verif.SpecTables

/-!
# The commands of a listfile and the blocks around them (specification for the lint checks)

`Verif.Parse.stmtsOf` lists the commands of a file in the order of the text.  Nothing here refers to
the checks of cmake-lint.
-/

namespace Verif.Lint
open Verif Py Lex Parse

/-- The name of a command, in lower case: its first word. -/
def nameOf (s : Node) : Str :=
  match program s.toks with
  | [] => []
  | t :: _ => lower t.spelling

/-- Where a command starts: line, column, offset. -/
def startOf (s : Node) : List Nat :=
  match s.toks with
  | [] => [0, 0, 0]
  | t :: _ => [t.begin_.line, t.begin_.col, t.begin_.offset]

/-- Commands that open a block. -/
def openers : List Str := [c! "if", c! "while", c! "foreach", c! "function", c! "macro"]

/-- The open blocks after a command, the innermost first.  Only the end command of the innermost block
closes it; an end command that matches nothing changes nothing. -/
def after (st : List Str) (name : Str) : List Str :=
  if openers.contains name then name :: st
  else
    match st with
    | [] => []
    | top :: rest => if name = c! "end" ++ top then rest else top :: rest

/-- A command, the blocks that are open before it, and the commands after it. -/
structure Place where
  cmd : Node
  blocks : List Str
  later : List Node

/-- Every command of a list with its place; `st` are the blocks that are open before the first. -/
def places (st : List Str) : List Node → List Place
  | [] => []
  | s :: ss => ⟨s, st, ss⟩ :: places (after st (nameOf s)) ss

/-- A `break` or `continue` outside of loops. -/
def Place.strayBreak (p : Place) : Bool :=
  [c! "break", c! "continue"].contains (nameOf p.cmd) && !p.blocks.any fun b => [c! "foreach", c! "while"].contains b

/-- The command ends a part of the innermost block: its end command, or another branch of an `if`. -/
def endsPart (st : List Str) (name : Str) : Bool :=
  match st with
  | [] => false
  | top :: _ => name == c! "end" ++ top || (top == c! "if" && [c! "else", c! "elseif"].contains name)

/-- A command that ends the control flow, with another command right after it in the same part of a
block. -/
def Place.deadEnd (p : Place) : Bool :=
  [c! "break", c! "continue", c! "return"].contains (nameOf p.cmd) &&
    match p.later with
    | [] => false
    | next :: _ => !endsPart p.blocks (nameOf next)

/-- The commands inside a block with this name, given those after its opening command: all up to the
end command that comes while no other block is open. -/
def inside (name : Str) (later : List Node) : List Node :=
  ((places [name] later).takeWhile fun p => !(p.blocks == [name] && nameOf p.cmd == c! "end" ++ name)).map (·.cmd)

/-- The definition of a function or macro. -/
def Place.defines (p : Place) : Bool := [c! "function", c! "macro"].contains (nameOf p.cmd)

/-- How many commands inside the block have such a name. -/
def Place.countInside (counts : Str → Bool) (p : Place) : Nat :=
  ((inside (nameOf p.cmd) p.later).filter fun s => counts (nameOf s)).length

/-- The line after the last token of a command, which may be a comment. -/
def lineAfter (s : Node) : Nat :=
  match s.toks.getLast? with
  | none => 0
  | some t => t.begin_.line + 1

/-! ## Parameters -/

/-- What stands between the parentheses of a command. -/
def argsOf (s : Node) : List Token := ((program s.toks).drop 2).dropLast

/-- The parameters of a definition: all that comes after its name. -/
def paramsOf (s : Node) : List Token := (argsOf s).drop 1

/-- Those before a closing parenthesis among them. -/
def properParams (s : Node) : List Token := (paramsOf s).takeWhile fun t => t.type != .rparen

/-- Every token of a list, after those before it. -/
def withEarlier (earlier : List Token) : List Token → List (List Token × Token)
  | [] => []
  | t :: ts => (earlier, t) :: withEarlier (earlier ++ [t]) ts

/-- The token is a word, and so is an earlier one with the same spelling. -/
def repeats (q : List Token × Token) : Bool :=
  q.2.type == .word && q.1.any fun u => u.type == .word && u.spelling == q.2.spelling

/-- The token is a word, and so is an earlier one with the same spelling but for the letter case. -/
def repeatsAnyCase (q : List Token × Token) : Bool :=
  q.2.type == .word && q.1.any fun u => u.type == .word && lower u.spelling == lower q.2.spelling

/-- Where a token starts: line, column, offset. -/
def tokStart (t : Token) : List Nat := [t.begin_.line, t.begin_.col, t.begin_.offset]

end Verif.Lint
