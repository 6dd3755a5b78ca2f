import Verif.Lint
import Verif.LintVars
import Verif.Markup
import Verif.Parse

/-!
# cmake-lint: the checks on tokens and on the parse tree

Models cmakelang/lint/basic_checker.py:24-185 and 257-825.  Every check makes calls on the file
context (`Verif.Lint.Call`); an exception is a `Crash`.  The regular expressions of the
configuration are a parameter.  `logger` messages are left out.
-/

namespace Verif.Lint
open Verif Py Lex Parse

/-- Exceptions of the checks: `IndexError`, `AttributeError`, `InternalError`,
`UnboundLocalError`, `ValueError`, `TypeError`. -/
inductive Crash
  | index | attribute | internal | unbound | value | type
  deriving DecidableEq, Repr

/-- Results of the checks. -/
abbrev Res (α : Type) := Except Crash α

/-- The options that the checks read, configuration.py:95-177 and 207-210.  `reMatch p s` is
`re.match(p, s) is not None`. -/
structure Opts where
  tabSize : Nat := 2
  functionPattern : Str := S "[0-9a-z_]+"
  macroPattern : Str := S "[0-9A-Z_]+"
  globalVar : Str := S "[A-Z][0-9A-Z_]+"
  internalVar : Str := S "_[A-Z][0-9A-Z_]+"
  localVar : Str := S "[a-z][a-z0-9_]+"
  privateVar : Str := S "_[0-9a-z_]+"
  publicVar : Str := S "[A-Z][0-9A-Z_]+"
  argumentVar : Str := S "[a-z][a-z0-9_]+"
  maxConditionals : Int := 2
  minSpacing : Int := 1
  maxSpacing : Int := 2
  maxReturns : Int := 6
  maxBranches : Int := 12
  maxArguments : Int := 5
  maxStatements : Int := 50
  markup : Markup.Cfg
  reMatch : Str → Str → Bool

/-! ## Tokens and nodes -/

/-- A location as a tuple of numbers, lex/__init__.py:38-57. -/
def locOf (l : Loc) : List Nat := [l.line, l.col, l.offset]

/-- `Token.get_location()`, lex/__init__.py:82-83. -/
def tokLoc (t : Token) : List Nat := locOf t.begin_

/-- `TreeNode.get_location()`, parse/common.py:80-88. -/
def nodeLoc : Node → List Nat
  | .tok t => tokLoc t
  | .node _ _ [] => [0, 0, 0]
  | .node _ _ (c :: _) => nodeLoc c

/-- `node.children`. -/
def kidsOf : Node → List Node
  | .tok _ => []
  | .node _ _ cs => cs

/-- `get_semantic_tokens()`, parse/common.py:128-132. -/
def semToks (n : Node) : List Token := semantics n.toks

/-- `count_newlines()`, parse/common.py:90-94 and lex/__init__.py:85-86. -/
def newlines (n : Node) : Nat := (n.toks.map fun t => t.spelling.count '\n').sum

/-- `isinstance(n, TreeNode)`. -/
def isNode : Node → Bool
  | .tok _ => false
  | .node _ _ _ => true

/-- `node.node_type is ty`. -/
def hasType (ty : NT) : Node → Bool
  | .tok _ => false
  | .node ty' _ _ => ty' == ty

/-- `get_funname()`, parse/statement_node.py:42-43: the token of the first child.  Empty for a
node that is no statement. -/
def funName : Node → Str
  | .node .statement _ (.node .funname _ (.tok t :: _) :: _) => lower t.spelling
  | _ => []

/-- `isinstance(n, StatementNode) and n.get_funname() in names`. -/
def isCall (names : List Str) (n : Node) : Bool := hasType .statement n && names.contains (funName n)

/-- `stmt.argtree`, statement_node.py:89-90: the child after the name and the opening
parenthesis. -/
def argTree (n : Node) : Node := (((kidsOf n).filter isNode).drop 2).headD (mk .argGroup [])

/-- A node in a list of children. -/
structure Spot where
  kids : List Node
  idx : Nat
  node : Node

/-- The children of a node, in their places. -/
def spotsFrom (all : List Node) : Nat → List Node → List Spot
  | _, [] => []
  | i, n :: ns => ⟨all, i, n⟩ :: spotsFrom all (i + 1) ns

/-- The children of a node, in their places. -/
def spots (n : Node) : List Spot := spotsFrom (kidsOf n) 0 (kidsOf n)

mutual
/-- The number of nodes and tokens of a tree. -/
def sizeOf : Node → Nat
  | .tok _ => 1
  | .node _ _ cs => sizeOfL cs + 1
/-- The number of nodes and tokens of some trees. -/
def sizeOfL : List Node → Nat
  | [] => 0
  | n :: ns => sizeOf n + sizeOfL ns
end

/-- The loops of `find_statements_in_subtree` and `find_nodes_in_subtree`,
basic_checker.py:34-41 and 53-60: the nodes in the order in which they leave the queue.  The fuel is
the number of nodes.  The first loop does not put tokens into the queue; nothing depends on that. -/
def bfs : Nat → List Spot → List Spot
  | 0, _ => []
  | _ + 1, [] => []
  | n + 1, s :: q => s :: bfs n (q ++ spots s.node)

/-- The nodes of a tree, in the order of the loops. -/
def under (n : Node) : List Spot := bfs (sizeOf n) [⟨[], 0, n⟩]

/-- `find_statements_in_subtree(n, names)`, basic_checker.py:24-41. -/
def callsIn (names : List Str) (n : Node) : List Spot := (under n).filter fun s => isCall names s.node

/-! ## Blocks -/

/-- `get_block_with`, parse/body_nodes.py:97-102, for the child at an index: the opening statement
and the body of the first block that has the child.  The blocks of a flow-control node are its
statements and bodies `2i`, `2i+1`, `2i+2` (body_nodes.py:127-131, 148-166); the last body of an
`if` without `endif` belongs to none. -/
def blockOf (kids : List Node) (idx : Nat) : Option (Node × Node) :=
  let i := if idx = 0 then 0 else (idx - 1) / 2
  match kids[2 * i]?, kids[2 * i + 1]?, kids[2 * i + 2]? with
  | some o, some b, some _ => some (o, b)
  | _, _, _ => none

/-- An ancestor of a node, with the index of the child on the way down to it. -/
structure Frame where
  ty : NT
  attr : Attr
  kids : List Node
  idx : Nat

/-! ## Pragmas -/

/-- `parse_pragmas_from_comment`, basic_checker.py:468-487: the codes, and what is recorded. -/
def pragmas : List Node → List Str × List Rec
  | [] => ([], [])
  | .tok t :: ns =>
    let r := pragmas ns
    if t.type = .comment then
      let p := pragmaComment t.begin_.line t.begin_.col t.spelling
      (p.1 ++ r.1, p.2 ++ r.2)
    else r
  | .node _ _ _ :: ns => pragmas ns

/-- `node.get_tokens()[0].get_location().line`. -/
def firstLine (n : Node) : Res Nat :=
  match n.toks with
  | [] => .error .index
  | t :: _ => .ok t.begin_.line

/-- `node.get_tokens()[-1].get_location().line`. -/
def lastLine (n : Node) : Res Nat :=
  match n.toks.getLast? with
  | none => .error .index
  | some t => .ok t.begin_.line

/-! ## Bodies, basic_checker.py:489-548 -/

/-- `statement_is_fundef`, basic_checker.py:71-78. -/
def isFundef (n : Node) : Bool :=
  match semToks n with
  | [] => false
  | t :: _ => [S "function", S "macro"].contains (lower t.spelling)

/-- `get_prefix_comment`, basic_checker.py:81-100: the previous node and the one before. -/
def prefixComment : Option Node → Option Node → Option Node
  | some p0, some p1 =>
    if !hasType .whitespace p0 then none
    else if newlines p0 > 1 then none
    else if hasType .comment p1 then some p1 else none
  | _, _ => none

/-- `"".join(get_comment_lines(cfg, node)).strip()` is empty, basic_checker.py:516.
formatter.py:45-72: only the line comments have lines. -/
def emptyComment (o : Opts) : Node → Bool
  | .node _ a cs =>
    let lines := (toksL cs).filterMap fun t =>
      if t.type = .comment then some (Markup.commentText o.markup (a.trailing == .explicit) t.spelling) else none
    lines.flatten.all isBlank
  | .tok _ => true

/-- `node.get_semantic_tokens()[0].get_location()`. -/
def firstSem (n : Node) : Res (List Nat) :=
  match semToks n with
  | [] => .error .index
  | t :: _ => .ok (tokLoc t)

/-- The docstring of a definition, basic_checker.py:506-518. -/
def checkDoc (o : Opts) (prev0 prev1 : Option Node) (child : Node) : Res (List Call) :=
  match child with
  | .node .flowControl _ [] => .error .index
  | .node .flowControl _ (stmt :: _) =>
    if isFundef stmt then
      match prefixComment prev0 prev1 with
      | none => do return [.record ⟨S "C0111", ← firstSem child, []⟩]
      | some c =>
        if emptyComment o c then do return [.record ⟨S "C0112", ← firstSem child, []⟩] else .ok []
    else .ok []
  | _ => .ok []

/-- The blanks before a statement or a block, basic_checker.py:520-535. -/
def checkSpacing (o : Opts) (prev : Option Node) (child : Node) : List Call :=
  if hasType .flowControl child || hasType .statement child then
    match prev with
    | none => []
    | some p =>
      if !hasType .whitespace p then [.record ⟨S "C0321", nodeLoc child, []⟩]
      else if newlines p < 1 then [.record ⟨S "C0321", nodeLoc child, []⟩]
      else if (newlines p : Int) < o.minSpacing then [.record ⟨S "C0305", nodeLoc child, [S "not enough"]⟩]
      else if (newlines p : Int) > o.maxSpacing then [.record ⟨S "C0305", nodeLoc child, [S "too many"]⟩]
      else []
  else []

/-- Unreachable statements, basic_checker.py:537-541; `later` are the children after this one. -/
def checkReach (child : Node) (later : List Node) : List Call :=
  if isCall [S "break", S "continue", S "return"] child then
    if (bfs (sizeOfL later) (spotsFrom later 0 later)).any fun s => hasType .statement s.node then
      [.record ⟨S "W0101", nodeLoc child, []⟩]
    else []
  else []

/-- Pragmas of a comment in a body, basic_checker.py:499-504: what is recorded and requested, and the
codes that are suppressed from here on.  `supp` are those of this body so far; between bodies nothing
is suppressed (`Verif.Props.LintTree.suppressions_restored`), so these are all. -/
def checkBodyComment (supp : List Str) (child : Node) : Res (List Call × List Str) :=
  if hasType .comment child then
    let p := pragmas (kidsOf child)
    if p.1 = [] then .ok (p.2.map .record, [])
    else do
      let line ← firstLine child
      return (p.2.map .record ++ [.suppress line p.1], (addNew supp p.1).2)
  else .ok ([], [])

/-- The loop of `check_body`, basic_checker.py:494-544: the calls, and the codes it has suppressed.
A child that is a token is skipped. -/
def checkItems (o : Opts) (prev0 prev1 : Option Node) (supp : List Str) : List Node → Res (List Call × List Str)
  | [] => .ok ([], supp)
  | .tok _ :: rest => checkItems o prev0 prev1 supp rest
  | .node ty a cs :: rest => do
    let (c1, new) ← checkBodyComment supp (.node ty a cs)
    let c2 ← checkDoc o prev0 prev1 (.node ty a cs)
    let c3 := checkSpacing o prev0 (.node ty a cs)
    let c4 := checkReach (.node ty a cs) rest
    let (more, supp') ← checkItems o (some (.node ty a cs)) prev0 (supp ++ new) rest
    return (c1 ++ c2 ++ c3 ++ c4 ++ more, supp')

/-- `check_body`, basic_checker.py:489-548. -/
def checkBody (o : Opts) (n : Node) : Res (List Call) := do
  let (calls, supp) ← checkItems o none none [] (kidsOf n)
  let line ← lastLine n
  return calls ++ (if supp = [] then [] else [.unsuppress line supp])

/-! ## Definitions and loops, basic_checker.py:299-441 -/

/-- `loop_contains_argn`, basic_checker.py:63-68. -/
def loopsOverArgn (stmt : Node) : Bool :=
  (semToks (argTree stmt)).any fun t => t.type == .deref && t.spelling == S "${ARGN}"

/-- The conditions of a loop body on the loop variable, basic_checker.py:318-325. -/
def countConds (var : Str) : List Spot → Res Nat
  | [] => .ok 0
  | s :: rest =>
    match s.node with
    | .node .argGroup a _ =>
      if a.role = .conditional then
        match semToks s.node with
        | [] => countConds var rest
        | t :: ts =>
          if t.spelling = var then
            match ts with
            | [] => .error .index
            | u :: _ => do
              let n ← countConds var rest
              return if [S "STREQUAL", S "MATCHES"].contains u.spelling then n + 1 else n
          else countConds var rest
      else countConds var rest
    | _ => countConds var rest

/-- The loops over `${ARGN}`, basic_checker.py:312-328. -/
def checkLoops (o : Opts) : List Spot → Res (List Call)
  | [] => .ok []
  | s :: rest =>
    if loopsOverArgn s.node then
      match semToks (argTree s.node), blockOf s.kids s.idx with
      | [], _ => .error .index
      | _, none => .error .attribute
      | t :: _, some (_, body) => do
        let n ← countConds t.spelling (under body)
        if (n : Int) > o.maxConditionals then return [.record ⟨S "C0201", nodeLoc s.node, []⟩]
        else checkLoops o rest
    else checkLoops o rest

/-- `check_for_custom_parse_logic`, basic_checker.py:299-328. -/
def checkCustomParser (o : Opts) (body : Node) : Res (List Call) :=
  if (callsIn [S "cmake_parse_arguments"] body).isEmpty then
    checkLoops o (callsIn [S "foreach", S "while"] body)
  else .ok []

/-- The loop of `check_argument_names`, basic_checker.py:337-355. -/
def checkParams (o : Opts) (seen uncased : List Str) : List Token → List Call
  | [] => []
  | t :: ts =>
    if t.type = .rparen then []
    else if t.type ≠ .word then
      .record ⟨S "E0109", tokLoc t, [t.spelling]⟩ :: checkParams o seen uncased ts
    else
      let c :=
        if seen.contains t.spelling then [Call.record ⟨S "E0108", tokLoc t, [t.spelling]⟩]
        else if uncased.contains (lower t.spelling) then [.record ⟨S "C0202", tokLoc t, [t.spelling]⟩]
        else if !o.reMatch o.argumentVar t.spelling then
          [.record ⟨S "C0103", tokLoc t, [S "argument", t.spelling, o.argumentVar]⟩]
        else []
      c ++ checkParams o (t.spelling :: seen) (lower t.spelling :: uncased) ts

/-- A number in a message. -/
def intStr (n : Int) : Str := (toString n).toList

/-- `check_argument_names`, basic_checker.py:330-359. -/
def checkArgNames (o : Opts) (stmt : Node) : List Call :=
  let tokens := (semToks (argTree stmt)).drop 1
  checkParams o [] [] tokens ++
  (if (tokens.length : Int) > o.maxArguments then
    [.record ⟨S "R0913", nodeLoc stmt, [natStr tokens.length, intStr o.maxArguments]⟩] else [])

/-- `check_name_against_pattern`, basic_checker.py:361-372: the third token is the name. -/
def checkDefName (o : Opts) (pattern : Str) (stmt : Node) : Res (List Call) :=
  match semToks stmt with
  | f :: _ :: t :: _ =>
    .ok (if o.reMatch pattern t.spelling then []
      else [.record ⟨S "C0103", tokLoc t, [lower f.spelling, t.spelling, pattern]⟩])
  | _ => .error .index

/-- One of the counts, basic_checker.py:389-406. -/
def checkCount (code : Str) (line : Nat) (limit : Int) (n : Nat) : List Call :=
  if (n : Int) > limit then [.record ⟨code, [line], [natStr n, intStr limit]⟩] else []

/-- `check_defn`, basic_checker.py:374-406; `body` is the body of the definition. -/
def checkDefn (o : Opts) (pattern : Str) (stmt body : Node) : Res (List Call) := do
  let c1 ← checkCustomParser o body
  let c2 ← checkDefName o pattern stmt
  let c3 := checkArgNames o stmt
  let line ← lastLine stmt
  let line := line + 1
  return c1 ++ c2 ++ c3 ++
    checkCount (S "R0911") line o.maxReturns (callsIn [S "return"] body).length ++
    checkCount (S "R0912") line o.maxBranches (callsIn [S "if", S "elseif", S "else"] body).length ++
    checkCount (S "R0915") line o.maxStatements ((under body).filter fun s => hasType .statement s.node).length

/-- `check_foreach`, basic_checker.py:418-430. -/
def checkForeach (o : Opts) (stmt : Node) : Res (List Call) :=
  match semToks stmt with
  | _ :: _ :: t :: _ =>
    .ok (if o.reMatch o.argumentVar t.spelling then []
      else [.record ⟨S "C0103", tokLoc t, [S "argument", t.spelling, o.argumentVar]⟩])
  | _ => .error .index

/-- `check_flow_control`, basic_checker.py:432-441. -/
def checkFlow (o : Opts) (kids : List Node) : Res (List Call) :=
  match kids with
  | [] => .error .index
  | stmt :: _ =>
    if funName stmt = S "function" then
      match blockOf kids 0 with
      | none => .error .attribute
      | some (_, body) => checkDefn o o.functionPattern stmt body
    else if funName stmt = S "macro" then
      match blockOf kids 0 with
      | none => .error .attribute
      | some (_, body) => checkDefn o o.macroPattern stmt body
    else if funName stmt = S "foreach" then checkForeach o stmt
    else .ok []

/-! ## Arguments, basic_checker.py:550-575 -/

/-- Keywords that may come more than once, basic_checker.py:557. -/
def repeatable : List Str := [S "AND", S "OR", S "COMMAND", S "PATTERN", S "REGEX"]

/-- `check_arggroup`, basic_checker.py:550-562. -/
def checkKeywords (seen : List Str) : List Node → Res (List Call)
  | [] => .ok []
  | n :: ns =>
    if hasType .kwargGroup n then
      match semToks n with
      | [] => .error .index
      | t :: _ =>
        let k := upper t.spelling
        if repeatable.contains k then checkKeywords seen ns
        else do
          let more ← checkKeywords (k :: seen) ns
          return (if seen.contains k then [.record ⟨S "E1122", tokLoc t, [k]⟩] else []) ++ more
    else checkKeywords seen ns

/-- The value of a numeral with an optional sign; `int(s)` on what `isIntLit` accepts. -/
def intOf (s : Str) : Int :=
  let digits (s : Str) : Nat := s.foldl (fun n c => 10 * n + (c.toNat - 48)) 0
  match s with
  | '-' :: r => -(digits r : Int)
  | '+' :: r => digits r
  | r => digits r

/-- `get_min_npargs`, parse/util.py:222-249. -/
def minArgs : Nargs → Res Int
  | .int n => .ok n
  | .str s =>
    if s = S "*" ∨ s = S "?" then .ok 0
    else if s = S "+" then .ok 1
    else if s.getLast? = some '+' ∧ isIntLit s.dropLast = true then .ok (intOf s.dropLast)
    else if isIntLit s then .ok (intOf s)
    else .error .value

/-- `check_positional_group`, basic_checker.py:564-575. -/
def checkPositional (a : Attr) (n : Node) : Res (List Call) :=
  match a.nargs with
  | none => .error .internal
  | some k => do
    let least ← minArgs k
    let ts := semToks n
    return if (ts.length : Int) < least then
      [.record ⟨S "E1120", match ts with | [] => [] | t :: _ => tokLoc t, []⟩] else []

/-! ## Statements, basic_checker.py:103-152 and 577-676 -/

/-- The ancestors that are blocks of a loop, basic_checker.py:584-600. -/
def inLoop : List Frame → Bool
  | [] => false
  | f :: fs =>
    if f.ty = .flowControl then
      match blockOf f.kids f.idx with
      | none => inLoop fs
      | some (o, _) => [S "foreach", S "while"].contains (funName o) || inLoop fs
    else inLoop fs

/-- `check_is_in_loop`, basic_checker.py:577-602. -/
def checkInLoop (anc : List Frame) (n : Node) : List Call :=
  if inLoop anc then [] else [.record ⟨S "E0103", nodeLoc n, [funName n]⟩]

/-- `Scope`, basic_checker.py:114-121, without the two that are never computed. -/
inductive Scope
  | cache | internal | parent | local | directory
  deriving DecidableEq, Repr

/-- The last `CACHE` group of a `set`, funs/set.py:83-114: `tree.cache.type`, which may be `None`. -/
def cacheOf (args : Node) : Option (Option Str) :=
  ((kidsOf args).filter (hasType .kwargGroup)).getLast?.map fun g => (semToks g)[1]?.map (·.spelling)

/-- Whether a later group of a `set` starts with `PARENT_SCOPE`, funs/set.py:116-120. -/
def parentScope (args : Node) : Bool :=
  (((kidsOf args).filter (hasType .pargGroup)).drop 1).any fun g =>
    match semToks g with
    | [] => false
    | t :: _ => normKwarg t == some (S "PARENT_SCOPE")

/-- `tree.varname` of a `set`, funs/set.py:55-57. -/
def varName (args : Node) : Option Token :=
  match (kidsOf args).find? (hasType .pargGroup) with
  | none => none
  | some g => (semToks g).head?

/-- The class of the arguments of a statement. -/
def roleOf : Node → Role
  | .node .argGroup a _ => a.role
  | _ => .other

/-- The walk up from an assignment, basic_checker.py:136-152. -/
def scopeAbove : List Frame → Res Scope
  | [] => .ok .directory
  | f :: fs =>
    if f.ty = .flowControl then
      match blockOf f.kids f.idx with
      | none => .error .attribute
      | some (o, _) =>
        if funName o = S "function" then .ok .local
        else if funName o = S "macro" then .ok .parent
        else scopeAbove fs
    else scopeAbove fs

/-- `get_scope_of_assignment`, basic_checker.py:124-152. -/
def scopeOf (anc : List Frame) (n : Node) : Res Scope :=
  let args := argTree n
  if roleOf args = .set then
    match cacheOf args with
    | some ty => .ok (if ty = some (S "INTERNAL") then .internal else .cache)
    | none => if parentScope args then .ok .parent else scopeAbove anc
  else scopeAbove anc

/-- The tokens of `stmt.argtree.parg_groups[0]`, argument_nodes.py:56; only a `StandardArgTree`
has the attribute. -/
def firstGroup (n : Node) : Res (List Token) :=
  if roleOf (argTree n) = .standard then
    match (kidsOf (argTree n)).find? (hasType .pargGroup) with
    | none => .error .index
    | some g => .ok (semToks g)
  else .error .attribute

/-- `get_list_outvar`, basic_checker.py:103-111. -/
def listOutvar (n : Node) : Res (Option Token) := do
  match ← firstGroup n with
  | [] => .error .index
  | t :: ts =>
    return if [S "LENGTH", S "GET", S "JOIN", S "SUBLIST"].contains (upper t.spelling) then (t :: ts).getLast? else none

/-- `[A-Za-z0-9_./+-]`. -/
def isNameChar (c : Char) : Bool := isLower c || isUpper c || isDigit c || "_./+-".toList.contains c

/-- `(?:(?:[A-Za-z0-9_./+-])|(?:\\[^A-Za-z0-9_./+-]))*`, greedy: the match and the rest.  The two
alternatives start with different characters, so there is only one way to match. -/
def nameRun : Str → Str × Str
  | '\\' :: d :: s =>
    if isNameChar d then ([], '\\' :: d :: s)
    else let r := nameRun s; ('\\' :: d :: r.1, r.2)
  | c :: s => if isNameChar c then let r := nameRun s; (c :: r.1, r.2) else ([], c :: s)
  | [] => ([], [])

/-- `\$\{(...)+\}` at the front: what follows it. -/
def varRef? : Str → Option Str
  | '$' :: '{' :: s =>
    let r := nameRun s
    if r.1 = [] then none
    else
      match r.2 with
      | '}' :: rest => some rest
      | _ => none
  | _ => none

/-- `re.sub` in `mock_varrefs`, basic_checker.py:177-184: references that come after an even number
of backslashes are replaced; `odd` says that the backslashes just read are odd in number.  Also
whether there was one. -/
def mockOnce (repl : Str) (n : Nat) (odd : Bool) (s : Str) : Str × Bool :=
  match n with
  | 0 => (s, false)
  | n + 1 =>
    match s with
    | [] => ([], false)
    | c :: cs =>
      match (if odd then none else varRef? (c :: cs)) with
      | some rest =>
        let r := mockOnce repl n false rest
        (repl ++ r.1, true)
      | none =>
        let r := mockOnce repl n (c == '\\' && !odd) cs
        (c :: r.1, r.2)

/-- The loop of `mock_varrefs`, basic_checker.py:183-185, while there is a reference.  Every round
makes the text shorter, so its length is enough fuel. -/
def mockVarrefs (repl : Str) : Nat → Str → Str
  | 0, s => s
  | n + 1, s =>
    let r := mockOnce repl s.length false s
    if r.2 then mockVarrefs repl n r.1 else s

/-- What an assignment in a scope must match, and how the message calls it,
basic_checker.py:626-669. -/
def scopeRule (o : Opts) : Scope → Str × Str
  | .cache => (S "CACHE variable", o.globalVar)
  | .internal => (S "INTERNAL variable", o.internalVar)
  | .parent => (S "PARENT_SCOPE variable", join (S "|") [o.publicVar, o.privateVar, o.localVar])
  | .local => (S "local variable", o.localVar)
  | .directory => (S "directory variable", join (S "|") [o.publicVar, o.privateVar])

/-- The name against the rule of its scope, basic_checker.py:619-669. -/
def checkAssigned (o : Opts) (scope : Scope) (v : Token) : List Call :=
  let resolved := mockVarrefs [] v.spelling.length v.spelling
  if resolved = [] then []
  else
    let rule := scopeRule o scope
    if o.reMatch rule.2 resolved then []
    else [.record ⟨S "C0103", tokLoc v, [rule.1, v.spelling, rule.2]⟩]

/-- `check_assignment`, basic_checker.py:604-669. -/
def checkAssignment (o : Opts) (anc : List Frame) (n : Node) : Res (List Call) := do
  let scope ← scopeOf anc n
  if funName n = S "set" then
    if roleOf (argTree n) = .set then
      match varName (argTree n) with
      | none => .error .attribute
      | some v => return checkAssigned o scope v
    else .error .attribute
  else
    match ← listOutvar n with
    | none => return []
    | some v => return checkAssigned o scope v

/-- `check_statement`, basic_checker.py:671-676. -/
def checkStatement (o : Opts) (anc : List Frame) (n : Node) : Res (List Call) :=
  if [S "break", S "continue"].contains (funName n) then .ok (checkInLoop anc n)
  else if [S "set", S "list"].contains (funName n) then checkAssignment o anc n
  else .ok []

/-! ## The traversal, basic_checker.py:731-820 -/

/-- `am_in_statement`, basic_checker.py:744-748. -/
def inStatement (anc : List Frame) : Bool := anc.any fun f => f.ty == .statement

/-- `am_in_arggroup`, basic_checker.py:750-754. -/
def inArgGroup (anc : List Frame) : Bool := anc.any fun f => f.ty == .argGroup

/-- `get_scope_depth`, basic_checker.py:756-761. -/
def scopeDepth (anc : List Frame) : Nat := (anc.filter fun f => f.ty == .body).length

/-- `check_comment`, basic_checker.py:731-742; nothing is suppressed at this time, see
`checkBodyComment`. -/
def checkComment (anc : List Frame) (n : Node) : Res (List Call) :=
  if inStatement anc then
    let p := pragmas (kidsOf n)
    if p.1 = [] then .ok (p.2.map .record)
    else do
      let line ← firstLine n
      return p.2.map .record ++ [.suppress line p.1, .unsuppress (line + 1) (addNew [] p.1).2]
  else .ok []

/-- The indentation of a line against the depth of its first token, basic_checker.py:772-794.  The
last argument of the message, `>` or a list of nodes, is left out. -/
def checkIndentation (o : Opts) (anc : List Frame) (indent t : Token) : List Call :=
  let desired : Int := ((scopeDepth anc : Int) - 1) * o.tabSize
  let actual : Int := indent.spelling.length + (indent.spelling.count '\t' : Int) * ((o.tabSize : Int) - 1)
  let bad := if inArgGroup anc then decide (actual < desired) else decide (actual ≠ desired)
  if bad then
    [.record ⟨S "C0307", tokLoc t, [indent.spelling, t.spelling, List.replicate desired.toNat ' ']⟩]
  else []

/-- `check_token`, basic_checker.py:763-794: the calls, and the indentation that waits for its
first token. -/
def checkToken (o : Opts) (anc : List Frame) (pending : Option Token) (t : Token) : List Call × Option Token :=
  if t.type = .whitespace ∧ t.begin_.col = 0 then ([], some t)
  else
    match pending with
    | none => ([], none)
    | some i => (checkIndentation o anc i t, none)

/-- The check of a node by its class, basic_checker.py:805-816. -/
def checkNode (o : Opts) (anc : List Frame) : Node → Res (List Call)
  | .tok _ => .ok []
  | .node .body a cs => checkBody o (.node .body a cs)
  | .node .flowControl _ cs => checkFlow o cs
  | .node .argGroup _ cs => checkKeywords [] cs
  | .node .statement a cs => checkStatement o anc (.node .statement a cs)
  | .node .pargGroup a cs => checkPositional a (.node .pargGroup a cs)
  | .node .comment a cs => if a.role = .bare then .ok [] else checkComment anc (.node .comment a cs)
  | .node _ _ _ => .ok []

mutual
/-- `check_tree`, basic_checker.py:796-820.  `anc` is `_node_stack`, the nearest first. -/
def checkTree (o : Opts) (anc : List Frame) (pending : Option Token) : Node → Res (List Call × Option Token)
  | .tok t => .ok (checkToken o anc pending t)
  | .node ty a cs => do
    let c ← checkNode o anc (.node ty a cs)
    let (more, p) ← checkKids o anc ty a cs 0 pending cs
    return (c ++ more, p)
/-- The loop over the children, basic_checker.py:818-819. -/
def checkKids (o : Opts) (anc : List Frame) (ty : NT) (a : Attr) (all : List Node) (idx : Nat)
    (pending : Option Token) : List Node → Res (List Call × Option Token)
  | [] => .ok ([], pending)
  | n :: ns => do
    let (c, p) ← checkTree o (⟨ty, a, all, idx⟩ :: anc) pending n
    let (more, q) ← checkKids o anc ty a all (idx + 1) p ns
    return (c ++ more, q)
end

/-! ## Names of variables, basic_checker.py:678-729 and parse/variables.py -/

/-- The text occurs somewhere in the first line of `s`. -/
def occursInLine (p : Str) : Str → Bool
  | [] => startsWith p []
  | c :: s => startsWith p (c :: s) || (c != '\n' && occursInLine p s)

/-- `re.match` of one pattern of the table: the name starts with a match. -/
def patternMatches (name : Str) (p : Str × Option Str) : Bool :=
  match p.2 with
  | none => startsWith p.1 name
  | some post =>
    match stripPrefix? p.1 name with
    | none => false
    | some rest => occursInLine post rest

/-- `CASE_SENSITIVE_REGEX.match(name)`, parse/variables.py:497-498. -/
def isBuiltin (name : Str) : Bool := builtinPatterns.any (patternMatches name)

/-- `CASE_INSENSITIVE_REGEX.match(name)`, parse/variables.py:499-500: the first alternative that
matches.  Only ASCII letters have cases here. -/
def builtinAnyCase (name : Str) : Option (Str × Option Str) :=
  builtinPatterns.find? fun p => patternMatches (upper name) p

/-- `check_varname`, basic_checker.py:678-700.  A group that took part in the match is not `None`. -/
def checkVarname (name : Str) (t : Token) (context : Str) : List Call :=
  match builtinAnyCase name with
  | none => []
  | some (_, some _) => []
  | some (_, none) => if isBuiltin name then [] else [.record ⟨S "W0105", tokLoc t, [context, name]⟩]

/-- The loop of `check_variable_assignments`, basic_checker.py:707-714. -/
def checkAssigns : List Spot → Res (List Call)
  | [] => .ok []
  | s :: rest => do
    let t ← (if funName s.node = S "set" then
        if roleOf (argTree s.node) = .set then
          match varName (argTree s.node) with
          | none => .error .attribute
          | some v => .ok v
        else .error .attribute
      else do
        match (← firstGroup s.node)[1]? with
        | none => .error .index
        | some v => .ok v)
    let more ← checkAssigns rest
    return checkVarname t.spelling t (S "Assignment to") ++ more

/-- `\w` for ASCII. -/
def isWordChar (c : Char) : Bool := isLower c || isUpper c || isDigit c || c == '_'

/-- `re.findall(r"\$\{([\w_]+)\}", s)`, basic_checker.py:728: from left to right, without overlaps. -/
def refsIn (n : Nat) (s : Str) : List Str :=
  match n with
  | 0 => []
  | n + 1 =>
    match s with
    | [] => []
    | '$' :: '{' :: cs =>
      let w := cs.takeWhile isWordChar
      if w = [] then refsIn n ('{' :: cs)
      else
        match cs.dropWhile isWordChar with
        | '}' :: rest => w :: refsIn n rest
        | _ => refsIn n ('{' :: cs)
    | _ :: cs => refsIn n cs

/-- `check_variable_references`, basic_checker.py:716-729. -/
def checkRefs (ts : List Token) : List Call :=
  (semantics ts).flatMap fun t =>
    if t.type = .quoted ∨ t.type = .deref then
      (refsIn t.spelling.length t.spelling).flatMap fun name => checkVarname name t (S "Reference to")
    else []

/-- `check_parse_tree`, basic_checker.py:822-825. -/
def checkParseTree (o : Opts) (tree : Node) : Res (List Call) := do
  let c1 ← checkAssigns (callsIn [S "set", S "list"] tree)
  let c2 := checkRefs tree.toks
  let (c3, _) ← checkTree o [] none tree
  return c1 ++ c2 ++ c3

/-! ## Tokens, basic_checker.py:257-297 -/

/-- A search for the first place with an even number of backslashes before it where `f` matches. -/
def searchUnescaped (f : Str → Option (Str × Str)) : Bool → Str → Option (Str × Str)
  | _, [] => none
  | odd, c :: cs =>
    match (if odd then none else f (c :: cs)) with
    | some r => some r
    | none => searchUnescaped f (c == '\\' && !odd) cs

/-- `(\$|\{)((?:...)+)` at the front: the two groups, basic_checker.py:265-267. -/
def missingPrefix? : Str → Option (Str × Str)
  | c :: s =>
    if c = '$' ∨ c = '{' then
      let r := nameRun s
      if r.1 = [] then none else some ([c], r.1)
    else none
  | [] => none

/-- `(\$\{)((?:...)+)` at the front, basic_checker.py:261-263. -/
def missingSuffix? : Str → Option (Str × Str)
  | '$' :: '{' :: s =>
    let r := nameRun s
    if r.1 = [] then none else some (S "${", r.1)
  | _ => none

/-- The loop of `check_tokens`, basic_checker.py:275-297.  `cat` is the local variable `catmatch`,
which keeps its value from one token to the next. -/
def checkTokens (cat : Option Str) : List Token → Res (List Call)
  | [] => .ok []
  | t :: ts =>
    if t.type = .quoted ∨ t.type = .unquoted ∨ t.type = .bracketArg then
      let resolved := mockVarrefs (S "foo") t.spelling.length t.spelling
      let plain : Res (List Call) :=
        match searchUnescaped missingSuffix? false resolved with
        | some (_, name) =>
          if isBuiltin name then
            match cat with
            | none => .error .unbound
            | some c => do
              let more ← checkTokens cat ts
              return .record ⟨S "W0106", tokLoc t, [S "closing", c]⟩ :: more
          else checkTokens cat ts
        | none => checkTokens cat ts
      match searchUnescaped missingPrefix? false resolved with
      | some (pre, name) =>
        if isBuiltin name then
          if pre ++ name = S "$ENV" then checkTokens (some (pre ++ name)) ts
          else do
            let more ← checkTokens (some (pre ++ name)) ts
            return .record ⟨S "W0106", tokLoc t, [S "open", pre ++ name]⟩ :: more
        else plain
      | none => plain
    else checkTokens cat ts

/-- The checks after the line checks, lint/__main__.py:39-47: the tokens, what the parser records
(`parseLint`, a parameter), the tree. -/
def checkFile (o : Opts) (parseLint : List Token → List Rec) (ctx : Parse.Ctx) (text : Str) :
    Except (Sum Parse.Err Crash) (List Call) :=
  match tokenize text with
  | .error _ => .error (.inr .value)
  | .ok ts =>
    match checkTokens none ts with
    | .error e => .error (.inr e)
    | .ok c1 =>
      match Parse.parse ctx ts with
      | .error e => .error (.inl e)
      | .ok tree =>
        match checkParseTree o tree with
        | .error e => .error (.inr e)
        | .ok c2 => .ok (c1 ++ (parseLint ts).map .record ++ c2)

end Verif.Lint
