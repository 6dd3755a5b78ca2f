import Verif.LintSpec

/-!
# Names and assignments (specification for the naming checks)

Nothing here refers to the checks of cmake-lint.
-/

namespace Verif.Lint
open Verif Py Lex Parse

/-- What stands between the opening and the closing parenthesis of a command, blanks included. -/
def between (s : Node) : List Token :=
  ((((s.toks.dropWhile fun t => t.type != .lparen).drop 1).reverse.dropWhile fun t => t.type != .rparen).drop 1).reverse

/-- No parentheses there: only arguments, blanks, comments and format switches. -/
def simpleArgs (s : Node) : Bool :=
  (between s).all fun t => !([.lparen, .rparen].contains t.type)

/-- No comments there. -/
def uncommented (s : Node) : Bool :=
  (between s).all fun t => !([.comment, .bracketComment].contains t.type)

/-- A word, in any letter case. -/
def wordIs (w : Str) (t : Token) : Bool := upper t.spelling == w

/-- What comes after the last `CACHE`. -/
def afterCache : List Token → Option (List Token)
  | [] => none
  | t :: ts =>
    match afterCache ts with
    | some r => some r
    | none => if wordIs (c! "CACHE") t then some ts else none

/-- Where a variable lives, as the message says it. -/
inductive Home
  | cache | internal | parent | inFunction | directory
  deriving DecidableEq, Repr

/-- A variable that is assigned inside these blocks: in a function it is local, in a macro it belongs to
the caller. -/
def homeIn (blocks : List Str) : Home :=
  match blocks.find? fun b => [c! "function", c! "macro"].contains b with
  | none => .directory
  | some b => if b = c! "function" then .inFunction else .parent

/-- A variable that `set` assigns, given the arguments after its name. -/
def homeOfSet (blocks : List Str) (args : List Token) : Home :=
  match afterCache args with
  | some (t :: _) => if t.spelling = c! "INTERNAL" then .internal else .cache
  | some [] => .cache
  | none => if args.any (wordIs (c! "PARENT_SCOPE")) then .parent else homeIn blocks

/-- The variable that a `list` command assigns: its last argument, where the forms with a fixed number of
arguments stop after these. -/
def listResult (args : List Token) : Option Token :=
  match args with
  | [] => none
  | t :: _ =>
    if wordIs (c! "LENGTH") t then (args.take 3).getLast?
    else if wordIs (c! "GET") t then args.getLast?
    else if wordIs (c! "JOIN") t then (args.take 4).getLast?
    else if wordIs (c! "SUBLIST") t then (args.take 5).getLast?
    else none

/-- The assignment that a command makes: the name, and where the variable lives. -/
def assignment (p : Place) : Option (Token × Home) :=
  if nameOf p.cmd = c! "set" then (argsOf p.cmd).head?.map fun t => (t, homeOfSet p.blocks (argsOf p.cmd).tail)
  else if nameOf p.cmd = c! "list" then (listResult (argsOf p.cmd)).map fun t => (t, homeIn p.blocks)
  else none

end Verif.Lint
