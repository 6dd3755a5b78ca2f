import Verif.Render
import Verif.LintTree

/-!
# What `--dump lex` and `--dump parse` print

Models `Token.__repr__` (lex/__init__.py:89-94), `TreeNode.__repr__` (parse/common.py:96-97),
`CommentNode.__repr__` (parse/simple_nodes.py:47-54), `dump_tree` (parse/printer.py:12-44; the one in
format/formatter.py:1783-1813 is the same) and their use in `process_file`, format/__main__.py:144-161.
-/

namespace Verif.Dump
open Verif Py Lex Parse

/-! ## `repr` of a string (CPython, `unicode_repr`) -/

/-- A digit of a hexadecimal number. -/
def hexDigit (n : Nat) : Char := ['0', '1', '2', '3', '4', '5', '6', '7', '8', '9', 'a', 'b', 'c', 'd', 'e', 'f'].getD n '0'

/-- A number in a given number of hexadecimal digits. -/
def hex : Nat → Nat → Str
  | 0, _ => []
  | w + 1, n => hex w (n / 16) ++ [hexDigit (n % 16)]

/-- How `repr` shows a character between quotes `q`.  `printable` is Unicode's table (`str.isprintable`). -/
def escape (printable : Char → Bool) (q c : Char) : Str :=
  if c = q then ['\\', q]
  else if c = '\\' then ['\\', '\\']
  else if c = '\t' then ['\\', 't']
  else if c = '\n' then ['\\', 'n']
  else if c = '\r' then ['\\', 'r']
  else if c.toNat < 32 ∨ c.toNat = 127 then '\\' :: 'x' :: hex 2 c.toNat
  else if c.toNat < 127 ∨ printable c = true then [c]
  else if c.toNat < 256 then '\\' :: 'x' :: hex 2 c.toNat
  else if c.toNat < 65536 then '\\' :: 'u' :: hex 4 c.toNat
  else '\\' :: 'U' :: hex 8 c.toNat

/-- The quotes `repr` uses for a string. -/
def quoteOf (s : Str) : Char := if '\'' ∈ s ∧ '"' ∉ s then '"' else '\''

/-- `repr(s)`. -/
def pyRepr (printable : Char → Bool) (s : Str) : Str :=
  quoteOf s :: (s.flatMap (escape printable (quoteOf s)) ++ [quoteOf s])

/-! ## Labels -/

/-- `Token.__repr__`, lex/__init__.py:89-94. -/
def tokLabel (printable : Char → Bool) (t : Token) : Str :=
  S "Token(type=" ++ Render.tokName t.type ++ S ", content=" ++ pyRepr printable t.spelling ++
    S ", line=" ++ Lint.natStr t.begin_.line ++ S ", col=" ++ Lint.natStr t.begin_.col ++ S ")"

/-- `SourceLocation.__repr__`, lex/__init__.py:58-59. -/
def locLabel : List Nat → Str
  | line :: col :: _ => Lint.natStr line ++ S ":" ++ Lint.natStr col
  | _ => []

/-- `TreeNode.__repr__`, parse/common.py:96-97, and `CommentNode.__repr__`, parse/simple_nodes.py:47-54.
`cls` gives the name of the class, which the model of the parser does not keep. -/
def nodeLabel (cls : Node → Str) (n : Node) : Str :=
  cls n ++ S ": " ++ locLabel (Lint.nodeLoc n) ++
    match n with
    | .node .comment a _ =>
      match a.trailing with
      | .explicit => S "(explicit trailing)"
      | .implicit => S "(implicit trailing)"
      | .no => []
    | _ => []

/-! ## Drawing a tree -/

/-- A tree of labels. -/
inductive Drawn
  | node (label : Str) (kids : List Drawn)

mutual
/-- What `repr` shows of a parse tree. -/
def drawn (printable : Char → Bool) (cls : Node → Str) : Node → Drawn
  | .tok t => .node (tokLabel printable t) []
  | .node ty a cs => .node (nodeLabel cls (.node ty a cs)) (drawnL printable cls cs)
/-- The same for several nodes. -/
def drawnL (printable : Char → Bool) (cls : Node → Str) : List Node → List Drawn
  | [] => []
  | n :: ns => drawn printable cls n :: drawnL printable cls ns
end

mutual
/-- One round of the loop of `dump_tree`, parse/printer.py:24-44. -/
def dumpNode (indent : Str) (last : Bool) : Drawn → Str
  | .node label kids =>
    indent ++ (if last then S "└─ " else S "├─ ") ++ label ++
      '\n' :: dumpTree (indent ++ if last then S "    " else S "│   ") kids
/-- `dump_tree`, parse/printer.py:12-44. -/
def dumpTree (indent : Str) : List Drawn → Str
  | [] => []
  | n :: ns => dumpNode indent ns.isEmpty n ++ dumpTree indent ns
end

/-- `--dump parse`, format/__main__.py:159-161. -/
def dumpParse (printable : Char → Bool) (cls : Node → Str) (tree : Node) : Str := dumpTree [] [drawn printable cls tree]

/-- `--dump lex`, format/__main__.py:145-148. -/
def dumpLex (printable : Char → Bool) : List Token → Str
  | [] => []
  | t :: ts => tokLabel printable t ++ '\n' :: dumpLex printable ts

end Verif.Dump
