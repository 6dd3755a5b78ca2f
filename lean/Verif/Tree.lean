import Verif.Lex

/-!
# The parse tree and the helpers of the parser

`cmakelang/parse/common.py`, `cmakelang/parse/util.py` and the comment
consumers of `cmakelang/parse/simple_nodes.py`.  Recording lint is left out
(it has no influence on the tree), as are line/column texts of messages.
-/

namespace Verif.Parse
open Verif Py Lex

/-- `NodeType`, parse/common.py:17-47. -/
inductive NT
  | body | whitespace | comment | statement | flowControl | funname | argGroup
  | kwargGroup | pargGroup | flagGroup | parenGroup | argument | keyword | flag
  | onoff | atwordStatement | atword | lparen | rparen
  deriving DecidableEq, Repr

/-- `is_explicit_trailing` / `is_implicit_trailing` of a `CommentNode`,
parse/simple_nodes.py:39-46. -/
inductive Trailing
  | no | explicit | implicit
  deriving DecidableEq, Repr

/-- A number of positional arguments as written: a Python int or a string. -/
inductive Nargs
  | int (n : Int)
  | str (s : Str)
  deriving DecidableEq, Repr

/-- The classes of nodes that cmake-lint tells apart within a node type: the argument groups
`StandardArgTree` (argument_nodes.py:43-61), `ConditionalGroupNode` (argument_nodes.py:533) and
`SetFnNode` (funs/set.py:17-23); and comments that are no `CommentNode` but made by
`TreeNode(NodeType.COMMENT)` (e.g. funs/set.py:76): `bare`. -/
inductive Role
  | other | standard | conditional | set | bare
  deriving DecidableEq, Repr

/-- The attributes of tree nodes that later stages read: `sortable`, `tags`,
`spec.max_pargs_hwrap` and `spec.npargs` of a positional group (argument_nodes.py:327-333,
util.py:70-81), the trailing marks of a comment, `cmdspec.spelling` /
`cmdspec.max_subgroups_hwrap` of a statement or argument tree (statement_node.py:37-40,
argument_nodes.py:57-61), and the class of an argument group. -/
structure Attr where
  sortable : Bool := false
  tags : List Str := []
  maxPargs : Option Int := none
  trailing : Trailing := .no
  spelling : Option Str := none
  maxSubgroups : Option Int := none
  nargs : Option Nargs := none
  role : Role := .other
  deriving DecidableEq, Repr

/-- `TreeNode`, parse/common.py:62-71; a child is a token or a node. -/
inductive Node where
  | tok (t : Token)
  | node (ty : NT) (attr : Attr) (children : List Node)

mutual
/-- `TreeNode.get_tokens`, parse/common.py:103-126, kind "all". -/
def Node.toks : Node → List Token
  | .tok t => [t]
  | .node _ _ cs => toksL cs
/-- The tokens of a list of children. -/
def toksL : List Node → List Token
  | [] => []
  | n :: ns => n.toks ++ toksL ns
end

/-- `TreeNode.get_location().col`, parse/common.py:80-88: the first child's, or 0
when there is none. -/
def Node.col : Node → Nat
  | .tok t => t.begin_.col
  | .node _ _ [] => 0
  | .node _ _ (c :: _) => c.col

/-- A node without attributes. -/
def mk (ty : NT) (cs : List Node) : Node := .node ty {} cs

/-- A positional group made without a parser: `PositionalGroupNode()` with
`spec = PositionalSpec(n)`, e.g. additional_nodes.py:82-83, 174-175. -/
def mkPos (n : Nargs) (cs : List Node) : Node := .node .pargGroup { nargs := some n } cs

/-- A comment made by `TreeNode(NodeType.COMMENT)`. -/
def mkBare (cs : List Node) : Node := .node .comment { role := .bare } cs

/-- An argument group of a given class. -/
def mkArg (r : Role) (cs : List Node) : Node := .node .argGroup { role := r } cs

/-- Exceptions of the parser. `fuel` is the model's own: the code is still
running. -/
inductive Err
  | index | value | user | internal | assertion | attribute | fuel
  deriving DecidableEq, Repr

/-- `WHITESPACE_TOKENS`, parse/util.py:24-25. -/
def isWs (t : Token) : Bool := t.type == .whitespace || t.type == .newline

/-- `COMMENT_TOKENS`, parse/util.py:30. -/
def isComment (t : Token) : Bool := t.type == .comment

/-- A line or bracket comment. -/
def isAnyComment (t : Token) : Bool := t.type == .comment || t.type == .bracketComment

/-- `ONOFF_TOKENS`, parse/util.py:32-33. -/
def isOnOff (t : Token) : Bool := t.type == .formatOn || t.type == .formatOff

/-- `is_semantic_token`, parse/util.py:107-111 (NON_SEMANTIC_TOKENS 35-42). -/
def isSemantic (t : Token) : Bool := !(isWs t || isAnyComment t || isOnOff t)

/-- `str.strip()`, on the ASCII blanks. -/
def strip (s : Str) : Str := rstripBy isSpace (lstripBy isSpace s)

/-- `(cmake-format|cmf)` and what follows it. -/
def tagWord (s : Str) : Option Str :=
  match stripPrefix? (S "cmake-format") s with
  | some r => some r
  | none => stripPrefix? (S "cmf") s

/-- `LINE_TAG`, parse/util.py:253: `#\s*(cmake-format|cmf): ([^\n]*)`; group 2. -/
def lineTag : Str → Option Str
  | '#' :: s =>
    match tagWord (s.dropWhile isSpace) with
    | some r =>
      match stripPrefix? (S ": ") r with
      | some x => some (x.takeWhile (· != '\n'))
      | none => none
    | none => none
  | _ => none

/-- The text before the last occurrence of `p`. -/
def beforeLast (p : Str) : Str → Option Str
  | [] => if p = [] then some [] else none
  | c :: cs =>
    match beforeLast p cs with
    | some a => some (c :: a)
    | none => if startsWith p (c :: cs) then some [] else none

/-- `BRACKET_TAG`, parse/util.py:254: `#\[(=*)\[(cmake-format|cmf):(.*)\]\1\]`, group 3.
`.` stops at a line end and `.*` is greedy, so the last closing bracket of the
line ends the group. -/
def bracketTag : Str → Option Str
  | '#' :: '[' :: s =>
    let eqs := s.takeWhile (· == '=')
    match s.dropWhile (· == '=') with
    | '[' :: r =>
      match tagWord r with
      | some (':' :: x) => beforeLast (']' :: eqs ++ [']']) (x.takeWhile (· != '\n'))
      | _ => none
    | _ => none
  | _ => none

/-- `get_tag`, parse/util.py:257-271. -/
def getTag (t : Token) : Option Str :=
  if t.type = .comment then (lineTag t.spelling).map (fun x => lower (strip x))
  else if t.type = .bracketComment then (bracketTag t.spelling).map (fun x => lower (strip x))
  else none

/-- `get_tag(token) in words`. -/
def tagIn (t : Token) (ws : List Str) : Bool :=
  match getTag t with
  | some x => ws.contains x
  | none => false

/-- `get_normalized_kwarg`, parse/util.py:274-286. -/
def normKwarg (t : Token) : Option Str :=
  if t.type = .unquoted ∧ startsWith ['-'] t.spelling = true then some (lower t.spelling)
  else if t.type ≠ .word then none
  else some (upper t.spelling)

/-- `get_normalized_kwarg(token) in words`. -/
def kwargIn (t : Token) (ws : List Str) : Bool :=
  match normKwarg t with
  | some x => ws.contains x
  | none => false

/-- `ParenBreaker` and `KwargBreaker`, parse/common.py:130-152; the words are stored
upper-cased. -/
inductive Breaker
  | paren
  | kwargs (ws : List Str)
  deriving DecidableEq, Repr

/-- `KwargBreaker.__init__`, parse/common.py:145-146. -/
def kwBreaker (ws : List Str) : Breaker := .kwargs (ws.map upper)

/-- `__call__` of the breakers, parse/common.py:134-135, 148-149. -/
def Breaker.fires (t : Token) : Breaker → Bool
  | .paren => t.type == .rparen
  | .kwargs ws => ws.contains (upper t.spelling)

/-- `should_break`, parse/util.py:289-297. -/
def shouldBreak (t : Token) (brk : List Breaker) : Bool := brk.any (Breaker.fires t)

/-- `int(s)` succeeds; only plain digit strings with an optional sign (Python also
accepts blanks and underscores). -/
def isIntLit : Str → Bool
  | '-' :: s => !s.isEmpty && s.all isDigit
  | '+' :: s => !s.isEmpty && s.all isDigit
  | s => !s.isEmpty && s.all isDigit

/-- `pargs_are_full`, parse/util.py:194-212. -/
def pargsFull (nargs : Nargs) (n : Nat) : Except Err Bool :=
  match nargs with
  | .int k => .ok (decide (k ≤ (n : Int)))
  | .str s =>
    if s = S "?" then .ok (decide (1 ≤ n))
    else if s = S "*" ∨ s = S "+" then .ok false
    else if s.getLast? = some '+' then
      if isIntLit s.dropLast then .ok false else .error .value
    else .ok false

/-- `npargs_is_exact`, parse/util.py:215-219. -/
def Nargs.exact : Nargs → Bool
  | .int _ => true
  | .str _ => false

/-- `PositionalSpec`, parse/util.py:45-98 (`always_wrap` is never read). -/
structure PSpec where
  nargs : Nargs
  sortable : Bool := false
  tags : List Str := []
  flags : List Str := []
  legacy : Bool := false
  maxPargs : Option Int := none
  deriving DecidableEq, Repr

/-- The part of `CommandSpec` (parse/util.py:465-490) that a tree keeps. -/
structure CmdInfo where
  spelling : Str
  maxSubgroups : Option Int := none
  deriving DecidableEq, Repr

/-- An argument parser: the callables found in `parse_db` and as values of `kwargs`.
`standard` is `StandardArgTree.parse2`; `cmd` is present exactly for a
`StandardParser2`.  `choose` is a dispatcher that only looks at the tokens. -/
inductive ArgP where
  | standard (cmd : Option CmdInfo) (pargs : List PSpec) (kwargs : List (Str × ArgP))
  | positional (spec : PSpec)
  | conditional
  | tuple (npargs : Nargs) (ntup : Nat) (flags : List Str)
  | shell
  | null
  | setFn
  | emptyFn
  | foreachStandard
  | foreachIn
  | addSources (lib : Bool) (sortable : Bool)
  | addLibraryObject
  | customTarget
  | fileWrite
  | installTargets
  | choose (f : List Token → Except Err ArgP)

/-- `StandardParser(npargs, kwargs, flags)` and `StandardArgTree.parse`,
argument_nodes.py:198-225, 228-245: one legacy specification. -/
def std (nargs : Nargs) (kwargs : List (Str × ArgP) := []) (flags : List Str := []) : ArgP :=
  .standard none [{ nargs := nargs, flags := flags, legacy := true }] kwargs

/-- `PositionalParser(npargs, flags)`, argument_nodes.py:452-465. -/
def pos (nargs : Nargs) (flags : List Str := []) : ArgP :=
  .positional { nargs := nargs, flags := flags }

/-- What the parser reads from its context: the command database, the
`explicit_trailing_pattern` test and the `vartags` patterns (user-supplied regular
expressions are parameters). -/
structure Ctx where
  db : Str → Option ArgP
  explicit : Str → Bool
  vartags : List ((Str → Bool) × List Str) := []

/-- `iter_semantic_tokens`, parse/util.py:342-351. -/
def semantics (ts : List Token) : List Token := ts.filter isSemantic

/-- `next_is_explicit_trailing_comment`, parse/util.py:139-148. -/
def nextExplicit (ctx : Ctx) : List Token → Bool
  | [] => false
  | t :: ts => if isWs t then nextExplicit ctx ts else t.type == .comment && ctx.explicit t.spelling

/-- `is_valid_trailing_comment`, parse/util.py:118-124. -/
def validTrailing (t : Token) : Bool := isAnyComment t && (getTag t).isNone

/-- `next_is_trailing_comment`, parse/util.py:158-179. -/
def nextTrailing (ctx : Ctx) (ts : List Token) : Bool :=
  match ts with
  | [] => false
  | t :: ts' =>
    nextExplicit ctx (t :: ts') || validTrailing t ||
      match ts' with
      | [] => false
      | u :: _ => t.type == .whitespace && validTrailing u

/-- `are_column_aligned` with the previous comment of the run, if any,
parse/util.py:151-155. -/
def aligned (last : Option Nat) (t : Token) : Bool :=
  match last with
  | none => true
  | some c => c == t.begin_.col

/-- The loops of `CommentNode.consume` (simple_nodes.py:74-103) and of
`consume_implicit_trailing` (simple_nodes.py:142-167): a run of column-aligned comments,
absorbing one newline and indentation between two comments.  Returns what was taken and
what is left. -/
def commentRun (ok : Token → Bool) (last : Option Nat) : List Token → List Token × List Token
  | [] => ([], [])
  | t :: ts =>
    if ok t && aligned last t then
      match ts with
      | [] => ([t], [])
      | a :: ts1 =>
        match ts1 with
        | [] => let r := commentRun ok (some t.begin_.col) (a :: [])
                (t :: r.1, r.2)
        | b :: ts2 =>
          if a.type == .newline && ok b then
            let r := commentRun ok (some t.begin_.col) (b :: ts2)
            (t :: a :: r.1, r.2)
          else
            match ts2 with
            | [] => let r := commentRun ok (some t.begin_.col) (a :: b :: [])
                    (t :: r.1, r.2)
            | c :: ts3 =>
              if a.type == .newline && b.type == .whitespace && ok c then
                let r := commentRun ok (some t.begin_.col) (c :: ts3)
                (t :: a :: b :: r.1, r.2)
              else
                let r := commentRun ok (some t.begin_.col) (a :: b :: c :: ts3)
                (t :: r.1, r.2)
    else ([], t :: ts)

/-- `CommentNode.consume`, simple_nodes.py:56-107, for a non-empty token list that
starts with a comment: the comment node and what is left. -/
def consumeComment (t : Token) (ts : List Token) : Node × List Token :=
  if t.type = .bracketComment ∨ t.type = .formatOff ∨ t.type = .formatOn then
    (mk .comment [.tok t], ts)
  else
    let r := commentRun isComment none (t :: ts)
    (mk .comment (r.1.map .tok), r.2)

/-- The loop of `consume_explicit_trailing`, simple_nodes.py:122-124: tokens are taken one
by one while the next non-blank token is an explicit trailing comment. -/
def explicitRun (ctx : Ctx) : List Token → List Token × List Token
  | [] => ([], [])
  | t :: ts =>
    if nextExplicit ctx (t :: ts) then
      let r := explicitRun ctx ts
      (t :: r.1, r.2)
    else ([], t :: ts)

/-- `CommentNode.consume_trailing`, simple_nodes.py:109-181: what is appended to the
parent's children, and what is left. -/
def consumeTrailing (ctx : Ctx) (ts : List Token) : List Node × List Token :=
  if !nextTrailing ctx ts then ([], ts)
  else if nextExplicit ctx ts then
    let ws := ts.takeWhile isWs
    let r := explicitRun ctx (ts.dropWhile isWs)
    (ws.map .tok ++ [.node .comment { trailing := .explicit } (r.1.map .tok)], r.2)
  else
    match ts with
    | [] => ([], [])
    | t :: ts' =>
      let ws := if t.type = .whitespace then [t] else []
      let r := commentRun validTrailing none (if t.type = .whitespace then ts' else t :: ts')
      (ws.map .tok ++ [.node .comment { trailing := .implicit } (r.1.map .tok)], r.2)

/-- `comment_belongs_up_tree`, parse/util.py:367-412.  `up` says whether `ctx.argstack` is
non-empty; `children` are the children the node has so far. -/
def belongsUp (up : Bool) (ts : List Token) (children : List Node) (brk : List Breaker) : Bool :=
  match (semantics ts).head?, ts with
  | some nxt, t :: _ =>
    shouldBreak nxt brk && up && decide (t.begin_.col < (mk .argGroup children).col)
  | _, _ => false

/-- `only_comments_and_whitespace_remain`, parse/util.py:300-314. -/
def onlyCommentsRemain (brk : List Breaker) : List Token → Bool
  | [] => true
  | t :: ts => if isWs t || isAnyComment t then onlyCommentsRemain brk ts else shouldBreak t brk

end Verif.Parse
