import Verif.LintNameSpec

/-!
# Files that cmake-lint gets through (specification)

Nothing here refers to the checks of cmake-lint.
-/

namespace Verif.Lint
open Verif Py Lex Parse

/-- The commands that end a block or a branch of one. -/
def enders : List Str :=
  [c! "else", c! "elseif", c! "endif", c! "endwhile", c! "endforeach", c! "endfunction", c! "endmacro"]

/-- The name of such a command. -/
def isEnder (t : Token) : Bool := t.type == .word && enders.contains (lower t.spelling)

/-- The end of a command, or a comment. -/
def isClosing (t : Token) : Bool := t.type == .rparen || t.type == .comment || t.type == .bracketComment

/-- No such command starts right behind a command or comment: there is a blank or a new line between. -/
def spacedEnds : List Token → Bool
  | t :: u :: ts => !(isClosing t && isEnder u) && spacedEnds (u :: ts)
  | _ => true

/-- The blocks that are open after some commands. -/
def openAfter (cmds : List Node) : List Str := cmds.foldl (fun st s => after st (nameOf s)) []

/-- A character of the name of a variable, as in a reference: `a`-`z`, `A`-`Z`, `0`-`9` and `_./+-`. -/
def isVarChar (c : Char) : Bool := isLower c || isUpper c || isDigit c || "_./+-".toList.contains c

/-- Every `${` has its `}`, with a name in between that may itself have references in it; `depth` are
open already. -/
def wholeRefs (depth : Nat) : Str → Bool
  | [] => depth == 0
  | '$' :: '{' :: cs => cs.head? != some '}' && wholeRefs (depth + 1) cs
  | c :: cs => if depth = 0 then wholeRefs 0 cs else if c = '}' then wholeRefs (depth - 1) cs else isVarChar c && wholeRefs depth cs

end Verif.Lint
