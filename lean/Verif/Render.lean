import Verif.Tree

/-!
# The html rendering: `cmakelang/render.py`, lines 18-44

Only the markup itself (`fullpage=False`); the page around it is made by jinja.
-/

namespace Verif.Render
open Verif Py Lex Parse

/-- `node_type.name`: the name the value is assigned to, parse/common.py:24-46. -/
def nodeName : NT → Str
  | .body => S "BODY"
  | .whitespace => S "WHITESPACE"
  | .comment => S "COMMENT"
  | .statement => S "STATEMENT"
  | .flowControl => S "FLOW_CONTROL"
  | .funname => S "FUNNAME"
  | .argGroup => S "ARGGROUP"
  | .kwargGroup => S "KWARGGROUP"
  | .pargGroup => S "PARGGROUP"
  | .flagGroup => S "FLAGGROUP"
  | .parenGroup => S "PARENGROUP"
  | .argument => S "ARGUMENT"
  | .keyword => S "KEYWORD"
  | .flag => S "FLAG"
  | .onoff => S "ONOFFSWITCH"
  | .atwordStatement => S "ATWORDSTATEMENT"
  | .atword => S "ATWORD"
  | .lparen => S "LPAREN"
  | .rparen => S "RPAREN"

/-- `token.type.name`, lex/__init__.py:20-35. -/
def tokName : TokType → Str
  | .quoted => S "QUOTED_LITERAL"
  | .lparen => S "LEFT_PAREN"
  | .rparen => S "RIGHT_PAREN"
  | .word => S "WORD"
  | .number => S "NUMBER"
  | .deref => S "DEREF"
  | .whitespace => S "WHITESPACE"
  | .newline => S "NEWLINE"
  | .comment => S "COMMENT"
  | .unquoted => S "UNQUOTED_LITERAL"
  | .formatOff => S "FORMAT_OFF"
  | .formatOn => S "FORMAT_ON"
  | .bracketArg => S "BRACKET_ARGUMENT"
  | .bracketComment => S "BRACKET_COMMENT"
  | .bom => S "BYTEORDER_MARK"
  | .atword => S "ATWORD"

/-- `'<span class="cmf-{}">'.format(name)`, render.py:25 and 30. -/
def openTag (name : Str) : Str := S "<span class=\"cmf-" ++ name ++ S "\">"

/-- `'</span>'`, render.py:28 and 32. -/
def closeTag : Str := S "</span>"

mutual
/-- `dump_html`, render.py:18-32: what it writes. -/
def dumpHtml : Node → Str
  | .node ty _ cs => openTag (nodeName ty) ++ dumpAll cs ++ closeTag
  | .tok t => openTag (tokName t.type) ++ t.spelling ++ closeTag
/-- The loop over the children, render.py:26-27. -/
def dumpAll : List Node → Str
  | [] => []
  | n :: ns => dumpHtml n ++ dumpAll ns
end

/-- `get_html(node)`, render.py:35-44. -/
def getHtml (tree : Node) : Str := dumpHtml tree

end Verif.Render
