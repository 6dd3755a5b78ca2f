import Verif.LintSpec

/-!
# Keywords that come twice (specification for C97)
-/

namespace Verif.Lint
open Verif Py Lex Parse

/-- The keyword of a group: its first word, if the group is one of a keyword. -/
def keywordOf : Node → Option Token
  | .node .kwargGroup _ cs => (program (toksL cs)).head?
  | _ => none

mutual
/-- The keywords of every list of arguments in a command, those inside other arguments too. -/
def keywordLists : Node → List (List Token)
  | .tok _ => []
  | .node ty _ cs => (if ty = .argGroup then [cs.filterMap keywordOf] else []) ++ keywordListsL cs
/-- Those of some trees. -/
def keywordListsL : List Node → List (List Token)
  | [] => []
  | n :: ns => keywordLists n ++ keywordListsL ns
end

/-- Keywords that may come any number of times. -/
def mayRepeat (t : Token) : Bool :=
  [c! "AND", c! "OR", c! "COMMAND", c! "PATTERN", c! "REGEX"].contains (upper t.spelling)

/-- The keywords that came before in the same list, whatever the case of their letters; `before` are those that
came before the rest of the list. -/
def saidAgain (before : List Token) : List Token → List Token
  | [] => []
  | t :: ts =>
    (if !mayRepeat t && before.any fun u => upper u.spelling == upper t.spelling then [t] else []) ++
      saidAgain (before ++ [t]) ts

/-- The repeated keywords of some commands. -/
def repeatedKeywords (cmds : List Node) : List Token := (cmds.flatMap keywordLists).flatMap (saidAgain [])

end Verif.Lint
