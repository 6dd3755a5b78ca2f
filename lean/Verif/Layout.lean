import Verif.Tree
import Verif.Text
import Verif.ArgSort
import Verif.Markup

/-!
# The layout stage: `cmakelang/format/formatter.py`, lines 149-1781

A layout node of the code is mutable: `reflow` stores the position, pass number, wrap
decision, validity and extent of the node and may be called several times, the last
call winning.  Here `reflow` is a function that returns a new tree, `Laid`, carrying
what the last call stored; the caller keeps the result of the call it made last.
Cursors are values: in the code no cursor object is changed after another name for it
has been handed out (`reflow` clones its argument, lines 545 and 559).
`statement_terminal`, which is only ever set to true and by the parent just before the
call, is an argument.
-/

namespace Verif.Layout
open Verif Py Lex Parse

/-- Exceptions of the layout and writing stages: `ValueError`, `IndexError`,
`AssertionError`. -/
abbrev Err := Wrap.Err

/-- `assert cond`. -/
def check (cond : Bool) (e : Err := .assertion) : Except Err Unit :=
  if cond then .ok () else .error e

/-- `Cursor`, formatter.py:215-270; never negative here. -/
structure Cur where
  row : Nat
  col : Nat
  deriving DecidableEq, Repr

/-- `cursor + (0, n)`. -/
def Cur.right (c : Cur) (n : Nat) : Cur := ⟨c.row, c.col + n⟩

/-- The configuration values the layout and writing stages read.  `layoutPasses` is
`layout_passes.get`, `commandCase` and `spelling` are
`resolve_for_command(_, "format.command_case")` and
`resolve_for_command(_, "spelling", _)`, `firstToken` is
`StackContext.first_token`.  A negative `tab_size` is not modelled. -/
structure Cfg where
  linewidth : Int
  tabSize : Nat
  maxSubgroupsHwrap : Int
  maxPargsHwrap : Int
  maxRowsCmdline : Int
  separateCtrl : Bool
  separateFn : Bool
  dangleParens : Bool
  dangleAlign : Str
  minPrefixChars : Int
  maxPrefixChars : Int
  maxLinesHwrap : Int
  alwaysWrap : List Str
  autosort : Bool
  layoutPasses : Str → Option (List (Int × Bool))
  commandCase : Str → Str
  spelling : Str → Str
  keywordCase : Str
  endl : Str
  markup : Markup.Cfg
  firstToken : Option Token

/-! ## Boxes -/

/-- A `LayoutNode` before `reflow`, formatter.py:311-367: the parse node (type,
attributes, children) and the layout children. -/
inductive Box where
  | mk (ty : NT) (attr : Attr) (pkids : List Node) (kids : List Box)

/-- `node_type`. -/
def Box.ty : Box → NT
  | .mk ty _ _ _ => ty
/-- The attributes of `pnode`. -/
def Box.attr : Box → Attr
  | .mk _ a _ _ => a
/-- `pnode.children`. -/
def Box.pkids : Box → List Node
  | .mk _ _ p _ => p
/-- `children`. -/
def Box.kids : Box → List Box
  | .mk _ _ _ k => k

mutual
/-- `count_newlines` of a node, parse/common.py:90-94. -/
def newlines : Node → Nat
  | .tok t => t.spelling.count '\n'
  | .node _ _ cs => newlinesL cs
/-- The sum over children. -/
def newlinesL : List Node → Nat
  | [] => 0
  | n :: ns => newlines n + newlinesL ns
end

mutual
/-- `create_box_tree`, formatter.py:1743-1762, for one child: tokens and short
whitespace are skipped.  Every node type is in `MATCH_TYPES`. -/
def boxOf : Node → List Box
  | .tok _ => []
  | .node ty attr cs =>
    if ty = .whitespace ∧ newlinesL cs < 2 then [] else [.mk ty attr cs (boxesOf cs)]
/-- The loop over the children. -/
def boxesOf : List Node → List Box
  | [] => []
  | n :: ns => boxOf n ++ boxesOf ns
end

/-- `SCALAR_TYPES`, formatter.py:28-29. -/
def isScalar : NT → Bool
  | .funname | .argument | .keyword | .flag | .atword => true
  | _ => false

/-- The spelling of `pnode.children[0]`, or nothing when that is not a token (the code
then fails with an attribute error). -/
def headSpelling : List Node → Str
  | .tok t :: _ => t.spelling
  | _ => []

/-- `filename_node_key`, formatter.py:1152-1157. -/
def sortKey (b : Box) : Str := lower (headSpelling b.pkids)

mutual
/-- `lock`, formatter.py:472-496 and 1220-1232: sortable positional groups are sorted. -/
def lock (cfg : Cfg) : Box → Box
  | .mk ty attr pkids kids =>
    let kids' := lockL cfg kids
    if (ty = .pargGroup ∨ ty = .flagGroup) ∧ cfg.autosort = true ∧ attr.sortable = true then
      .mk ty attr pkids (ArgSort.sortArguments (fun b => b.ty == .argument) sortKey kids')
    else .mk ty attr pkids kids'
/-- The children. -/
def lockL (cfg : Cfg) : List Box → List Box
  | [] => []
  | b :: bs => lock cfg b :: lockL cfg bs
end

/-! ## Questions about boxes -/

/-- `is_line_comment`, formatter.py:167-181 (false for a node child, where the code
fails). -/
def isLineComment (b : Box) : Bool :=
  b.ty == .comment && match b.pkids.getLast? with
    | some (.tok t) => t.type == .comment
    | _ => false

/-- `pnode.children[0].type == TokenType.COMMENT`. -/
def headIsComment (pkids : List Node) : Bool :=
  match pkids with
  | .tok t :: _ => t.type == .comment
  | _ => false

/-- What follows the first `)` of a parenthesised group, formatter.py:1491-1496. -/
def afterRparen : List Box → List Box
  | [] => []
  | b :: bs => if b.ty = .rparen then bs else afterRparen bs

mutual
/-- `has_terminal_comment` of the node types, formatter.py:451-457, 641-649, 741-742,
1072-1075, 1213-1218, 1378-1385, 1490-1499. -/
def hasTerminal : Box → Bool
  | .mk ty _ _ kids =>
    match ty with
    | .funname | .argument | .keyword | .flag | .atword =>
      match kids.getLast? with
      | some k => headIsComment k.pkids
      | none => false
    | .onoff => true
    | .kwargGroup | .pargGroup | .flagGroup | .argGroup => lastTerminal kids
    | .parenGroup =>
      match (afterRparen kids).getLast? with
      | some k => headIsComment k.pkids
      | none => false
    | _ => false
/-- `children[-1]` is a comment or has a terminal comment. -/
def lastTerminal : List Box → Bool
  | [] => false
  | [b] => b.ty == .comment || hasTerminal b
  | _ :: b :: bs => lastTerminal (b :: bs)
end

/-- `CommentNode.is_tag`, formatter.py:1667-1668. -/
def isTag (b : Box) : Bool :=
  match b.pkids with
  | .tok t :: _ => (getTag t).isSome
  | _ => false

/-- A line break is required after this node: the condition of formatter.py:1260-1262,
1406-1408 and 1530-1532 but for `self._wrap`. -/
def endsLine (b : Box) : Bool := isLineComment b || hasTerminal b

/-- `FlowType.get(upper) is not None`, parse/common.py:49-60. -/
def isFlow (s : Str) : Bool :=
  s == S "IF" || s == S "WHILE" || s == S "FOREACH" || s == S "FUNCTION" || s == S "MACRO"

/-- `need_paren_space`, formatter.py:149-164. -/
def needParenSpace (cfg : Cfg) (spelling : Str) : Bool :=
  let u := upper spelling
  if isFlow u then cfg.separateCtrl
  else if startsWith (S "END") u && isFlow (u.drop 3) then cfg.separateCtrl
  else if u == S "ELSE" || u == S "ELSEIF" then cfg.separateCtrl
  else cfg.separateFn

/-- The spelling of the first token of the first child: `StatementNode.name` and
`KwargGroupNode.name` before the change of case, formatter.py:816-818 and 1077-1079. -/
def firstName (kids : List Box) : Str :=
  match kids with
  | k :: _ => headSpelling k.pkids
  | [] => []

/-- `get_prefix_width`, formatter.py:810-814. -/
def prefixWidth (cfg : Cfg) (kids : List Box) : Nat :=
  let name := lower (firstName kids)
  name.length + 1 + if needParenSpace cfg name then 1 else 0

/-- The class name of the layout node, `LayoutNode.create`, formatter.py:578-611. -/
def className : NT → Str
  | .funname | .argument | .keyword | .flag | .atword => S "ScalarNode"
  | .onoff => S "OnOffSwitchNode"
  | .statement => S "StatementNode"
  | .atwordStatement => S "AtWordStatementNode"
  | .kwargGroup => S "KwargGroupNode"
  | .argGroup => S "ArgGroupNode"
  | .pargGroup | .flagGroup => S "PargGroupNode"
  | .parenGroup => S "ParenGroupNode"
  | .body => S "BodyNode"
  | .flowControl => S "FlowControlNode"
  | .comment => S "CommentNode"
  | .whitespace => S "WhitespaceNode"
  | .lparen | .rparen => S "ParenNode"

/-- `name` of the node types, formatter.py:383-388, 617-619, 737-739, 816-818, 1077-1079,
with the counter of `get_pathstr`; nothing for the types `get_pathstr` leaves out
(formatter.py:184-212).  `idx` is the number of earlier positional-group siblings. -/
def pathName (idx : Nat) (b : Box) : Option Str :=
  match b.ty with
  | .body | .argGroup => none
  | .pargGroup | .flagGroup => some (S "PargGroupNode[" ++ (Nat.repr idx).toList ++ S "]")
  | .statement => some (lower (firstName b.kids))
  | .kwargGroup => some (upper (firstName b.kids))
  | .lparen => some (S "LPAREN")
  | .rparen => some (S "RPAREN")
  | .onoff =>
    match b.pkids with
    | .tok t :: _ => some (if t.type = .formatOn then S "FORMAT_ON" else S "FORMAT_OFF")
    | _ => some []
  | t => some (className t)

/-- `_layout_passes` of the node types: formatter.py:357, 796-803, 999-1001, 1063-1070,
1205-1211, 1360-1367, 1481-1488. -/
def defaultPasses : NT → List (Int × Bool)
  | .statement => [(0, false), (1, true), (2, true), (3, true), (4, true), (5, true)]
  | .kwargGroup | .parenGroup =>
    [(0, false), (1, false), (2, false), (3, false), (4, false), (5, true)]
  | .pargGroup | .flagGroup => [(0, false), (1, false), (2, false), (3, false), (4, true)]
  | .argGroup => [(0, false), (1, false), (2, false), (3, false), (4, true), (5, true)]
  | _ => [(0, false)]

/-! ## The result of `reflow` -/

/-- What `reflow` stores in a node: `_position`, `_passno`, `_wrap`, `_reflow_valid`,
`_colextent`. -/
structure Info where
  pos : Cur
  passno : Int
  wrap : Bool
  valid : Bool
  colext : Nat
  deriving DecidableEq, Repr

/-- A layout node after `reflow`; `lines` is `CommentNode._lines`. -/
inductive Laid where
  | mk (ty : NT) (attr : Attr) (pkids : List Node) (info : Info) (lines : List Str)
    (kids : List Laid)

/-- The stored layout. -/
def Laid.info : Laid → Info
  | .mk _ _ _ i _ _ => i
/-- `node_type`. -/
def Laid.ty : Laid → NT
  | .mk ty _ _ _ _ _ => ty
/-- `colextent`. -/
def Laid.colext (l : Laid) : Nat := l.info.colext
/-- `reflow_valid`. -/
def Laid.valid (l : Laid) : Bool := l.info.valid

/-- `reflow` of one child, waiting for the names on the path of its parent,
`statement_terminal`, the cursor and the parent's pass number. -/
abbrev Run := List Str → Bool → Cur → Int → Except Err (Laid × Cur)

/-- A child: its box and how to reflow it. -/
structure Child where
  box : Box
  run : Run

/-- What one call of `_reflow` leaves behind. -/
structure Out where
  kids : List Laid
  cur : Cur
  colext : Nat
  valid : Bool
  wrap : Bool
  lines : List Str := []

/-! ## `_reflow` of the node types -/

/-- The remaining lines of a text, formatter.py:667-672. -/
def walk : Cur → Nat → List Str → Cur × Nat
  | c, ext, [] => (c, ext)
  | c, ext, l :: ls => walk ⟨c.row + 1, l.length⟩ (max ext l.length) ls

/-- A text flowed at a cursor, formatter.py:662-672 and 1682-1692: the end cursor and
the extent. -/
def flow (c : Cur) (text : Str) : Cur × Nat :=
  match splitOn '\n' text with
  | [] => (c, c.col)
  | l :: ls => walk (c.right l.length) (c.col + l.length) ls

/-- `pnode.children[0]`, asserted to be a token. -/
def headTok : List Node → Except Err Token
  | .tok t :: _ => .ok t
  | _ => .error .assertion

/-- `ParenNode._reflow`, formatter.py:621-624. -/
def reflowParen (c : Cur) (wrap : Bool) : Except Err Out :=
  .ok { kids := [], cur := c.right 1, colext := c.col + 1, valid := true, wrap := wrap }

/-- `ScalarNode._reflow`, formatter.py:651-691. -/
def reflowScalar (path : List Str) (passno : Int) (wrap : Bool) (pkids : List Node)
    (kids : List Child) (c : Cur) : Except Err Out := do
  let t ← headTok pkids
  let f := flow c (Text.normalizeLineEndings t.spelling)
  match kids with
  | [] => .ok { kids := [], cur := f.1, colext := f.2, valid := true, wrap := wrap }
  | [k] =>
    check (k.box.ty == .comment)
    let r ← k.run path false (f.1.right 1) passno
    .ok { kids := [r.1], cur := r.2, colext := max f.2 r.1.colext, valid := r.1.valid, wrap := wrap }
  | _ => .error .assertion

/-- The canonical text of a switch, formatter.py:754-757; the parser puts nothing but
`off` and `on` tokens into such a node. -/
def switchText (t : Token) : Str :=
  if t.type = .formatOn then S "# cmake-format: on" else S "# cmake-format: off"

/-- `OnOffSwitchNode._reflow`, formatter.py:744-761. -/
def reflowOnOff (pkids : List Node) (wrap : Bool) (c : Cur) : Except Err Out := do
  let t ← headTok pkids
  let e := c.right (switchText t).length
  .ok { kids := [], cur := e, colext := e.col, valid := true, wrap := wrap }

/-- The column of a dangling parenthesis, formatter.py:925-936. -/
def dangleCol (cfg : Cfg) (startCol childCol : Nat) : Except Err Nat :=
  if cfg.dangleAlign = S "prefix" then .ok startCol
  else if cfg.dangleAlign = S "prefix-indent" then .ok (startCol + cfg.tabSize)
  else if cfg.dangleAlign = S "child" then .ok childCol
  else .error .value

/-- The end of a statement: `)` and a trailing comment. -/
structure Tail where
  kids : List Laid
  cur : Cur
  colext : Nat
  valid : Bool

/-- The trailing comment of a statement, formatter.py:948-982.  `rp0` is `)` as laid out
at `rc`, `dc` the dangling position, `start` the column of the statement. -/
def reflowTail (cfg : Cfg) (path : List Str) (passno : Int) (start : Nat) (dangle : Bool)
    (rp : Child) (rc dc : Cur) (rp0 : Laid × Cur) (cm : Child) : Except Err Tail := do
  check (cm.box.ty == .comment)
  let save := rp0.2.right 1
  let c1 ← cm.run path false save passno
  if !dangle && decide ((c1.1.colext : Int) > cfg.linewidth) then
    let rp1 ← rp.run path false dc passno
    let c2 ← cm.run path false rp1.2 passno
    if (c2.1.colext : Int) > cfg.linewidth then
      let rp2 ← rp.run path false rc passno
      let c3 ← cm.run path false ⟨rp1.2.row + 1, start⟩ passno
      .ok { kids := [rp2.1, c3.1], cur := c3.2, colext := max c3.1.colext rp2.1.colext,
            valid := rp0.1.valid && rp1.1.valid && c3.1.valid }
    else
      .ok { kids := [rp1.1, c2.1], cur := c2.2, colext := max c2.1.colext rp1.1.colext,
            valid := rp0.1.valid && rp1.1.valid && c2.1.valid }
  else if (c1.1.colext : Int) > cfg.linewidth then
    let rp2 ← rp.run path false rc passno
    let c3 ← cm.run path false ⟨save.row + 1, start⟩ passno
    .ok { kids := [rp2.1, c3.1], cur := c3.2, colext := max c3.1.colext rp2.1.colext,
          valid := rp0.1.valid && c3.1.valid }
  else
    .ok { kids := [rp0.1, c1.1], cur := c1.2, colext := max c1.1.colext rp0.1.colext,
          valid := rp0.1.valid && c1.1.valid }

/-- The closing parenthesis of a statement and what follows, formatter.py:900-983.  `c3`
is the cursor after the arguments, `argCol` their column. -/
def reflowClose (cfg : Cfg) (path : List Str) (passno : Int) (wrap : Bool) (start : Cur)
    (argCol : Nat) (args : Box) (c3 : Cur) (rest : List Child) : Except Err Tail :=
  match rest with
  | [] => .error .assertion
  | rp :: rest' => do
    check (rp.box.ty == .rparen)
    let asked := cfg.dangleParens && decide (c3.row > start.row)
    let full := decide ((c3.col : Int) ≥ cfg.linewidth)
    let dangle := asked || full || hasTerminal args
    let ok := !(!asked && full && !wrap)
    let dcol ← dangleCol cfg start.col argCol
    let dc : Cur := ⟨c3.row + 1, dcol⟩
    let rc := if dangle then dc else c3
    let rp0 ← rp.run path false rc passno
    match rest' with
    | [] => .ok { kids := [rp0.1], cur := rp0.2, colext := rp0.1.colext, valid := ok && rp0.1.valid }
    | [cm] =>
      let t ← reflowTail cfg path passno start.col dangle rp rc dc rp0 cm
      .ok { t with valid := ok && t.valid }
    | _ => .error .assertion

/-- `StatementNode._reflow`, formatter.py:839-983. -/
def reflowStatement (cfg : Cfg) (path : List Str) (passno : Int) (wrap0 : Bool) (boxes : List Box)
    (kids : List Child) (c : Cur) : Except Err Out :=
  match kids with
  | [] => .error .assertion
  | fn :: rest => do
    check (fn.box.ty == .funname)
    let r0 ← fn.run path false c passno
    let t ← headTok fn.box.pkids
    let c1 := if needParenSpace cfg (lower t.spelling) then r0.2.right 1 else r0.2
    let wrap := if (prefixWidth cfg boxes : Int) ≤ cfg.minPrefixChars then false else wrap0
    match rest with
    | [] => .error .assertion
    | lp :: rest' =>
      check (lp.box.ty == .lparen)
      let r1 ← lp.run path false c1 passno
      let ac : Cur := if wrap then ⟨c.row + 1, c.col + cfg.tabSize⟩ else r1.2
      match rest' with
      | [] => .error .index
      | ag :: rest'' =>
        check (ag.box.ty == .argGroup)
        let r2 ← ag.run path true ac passno
        let t ← reflowClose cfg path passno wrap c ac.col ag.box r2.2 rest''
        .ok { kids := r0.1 :: r1.1 :: r2.1 :: t.kids, cur := t.cur,
              colext := max (max (max (max c.col r0.1.colext) r1.1.colext) r2.1.colext) t.colext,
              valid := r0.1.valid && r1.1.valid && r2.1.valid && t.valid, wrap := wrap }

/-- `AtWordStatementNode._reflow`, formatter.py:1008-1048. -/
def reflowAtWord (cfg : Cfg) (path : List Str) (passno : Int) (wrap : Bool)
    (kids : List Child) (c : Cur) : Except Err Out :=
  match kids with
  | [] => .error .assertion
  | w :: rest => do
    check (w.box.ty == .atword)
    let r0 ← w.run path false c passno
    match rest with
    | [] =>
      .ok { kids := [r0.1], cur := r0.2, colext := max c.col r0.1.colext, valid := r0.1.valid, wrap := wrap }
    | [cm] =>
      check (cm.box.ty == .comment)
      let save := r0.2.right 1
      let c1 ← cm.run path false save passno
      if (c1.1.colext : Int) > cfg.linewidth then
        let c2 ← cm.run path false ⟨save.row + 1, c.col⟩ passno
        .ok { kids := [r0.1, c2.1], cur := c2.2, colext := max (max c.col r0.1.colext) c2.1.colext,
              valid := r0.1.valid && c2.1.valid, wrap := wrap }
      else
        .ok { kids := [r0.1, c1.1], cur := c1.2, colext := max (max c.col r0.1.colext) c1.1.colext,
              valid := r0.1.valid && c1.1.valid, wrap := wrap }
    | _ => .error .assertion

/-- `KwargGroupNode._reflow`, formatter.py:1099-1149. -/
def reflowKwarg (cfg : Cfg) (path : List Str) (passno : Int) (wrap0 term : Bool) (boxes : List Box)
    (kids : List Child) (c : Cur) : Except Err Out :=
  match kids with
  | [] => .error .index
  | kw :: rest => do
    check (decide (rest.length ≤ 1))
    check (kw.box.ty == .keyword)
    let wrap := if ((firstName boxes).length : Int) ≤ cfg.minPrefixChars then false else wrap0
    let r0 ← kw.run path false c passno
    match rest with
    | [] => .ok { kids := [r0.1], cur := r0.2, colext := r0.1.colext, valid := r0.1.valid, wrap := wrap }
    | ag :: _ =>
      let ac : Cur := if wrap then ⟨r0.2.row + 1, c.col + cfg.tabSize⟩ else r0.2.right 1
      let r1 ← ag.run path term ac passno
      .ok { kids := [r0.1, r1.1], cur := r1.2, colext := max r0.1.colext r1.1.colext,
            valid := r0.1.valid && r1.1.valid, wrap := wrap }

/-- The state of the loop over the children of a group: the previous child, the cursor,
the row of the column cursor, the number of rows, the extent and the validity. -/
structure Loop where
  prev : Option Box
  cur : Cur
  colRow : Nat
  rows : Nat
  colext : Nat
  valid : Bool

/-- Continue a loop after its step. -/
def andThen (r : Except Err (Laid × Loop)) (k : Loop → Except Err (List Laid × Loop)) :
    Except Err (List Laid × Loop) :=
  match r with
  | .error e => .error e
  | .ok (l, s) =>
    match k s with
    | .error e => .error e
    | .ok (ls, s') => .ok (l :: ls, s')

/-- The reasons to move an argument to the next line, formatter.py:1278-1303. -/
def pargNeedsWrap (cfg : Cfg) (term : Bool) (prev : Option Box) (child : Box) (r : Laid × Cur) : Bool :=
  decide ((r.1.colext : Int) > cfg.linewidth)
    || (term && decide ((r.2.col : Int) + 1 > cfg.linewidth))
    || (match prev with
        | some p => isScalar p.ty && child.ty == .comment && !isTag child
        | none => false)

/-- One round of the loop of `PargGroupNode._reflow`, formatter.py:1251-1314; `col` is
the column of the group, `last` that no child follows. -/
def pargStep (cfg : Cfg) (path : List Str) (passno : Int) (wrap term : Bool) (col : Nat)
    (last : Bool) (k : Child) (s : Loop) : Except Err (Laid × Loop) :=
  let t := term && last
  let done (r : Laid × Cur) (rows : Nat) : Laid × Loop :=
    (r.1, { prev := some k.box, cur := r.2, colRow := s.colRow, rows := rows,
            colext := max s.colext r.1.colext, valid := s.valid && r.1.valid })
  match s.prev with
  | none => do
    let r ← k.run path t s.cur passno
    .ok (done r 1)
  | some p =>
    if endsLine p || wrap then do
      let r ← k.run path t ⟨s.cur.row + 1, col⟩ passno
      .ok (done r (s.rows + 1))
    else do
      let r ← k.run path t (s.cur.right 1) passno
      if pargNeedsWrap cfg term (some p) k.box r then
        let r' ← k.run path t ⟨s.cur.row + 1, col⟩ passno
        .ok (done r' (s.rows + 1))
      else .ok (done r s.rows)

/-- The loop. -/
def pargLoop (cfg : Cfg) (path : List Str) (passno : Int) (wrap term : Bool) (col : Nat) :
    List Child → Loop → Except Err (List Laid × Loop)
  | [], s => .ok ([], s)
  | k :: ks, s =>
    andThen (pargStep cfg path passno wrap term col ks.isEmpty k s)
      (pargLoop cfg path passno wrap term col ks)

/-- `count_arguments`, formatter.py:1183-1194. -/
def countArguments (kids : List Child) : Nat :=
  (kids.filter fun k => k.box.ty != .comment).length

/-- `PargGroupNode._reflow`, formatter.py:1234-1328. -/
def reflowParg (cfg : Cfg) (path : List Str) (passno : Int) (wrap0 term : Bool) (attr : Attr)
    (kids : List Child) (c : Cur) : Except Err Out := do
  let cmdline := attr.tags.contains (S "cmdline")
  let wrap := if cmdline then false else wrap0
  let r ← pargLoop cfg path passno wrap term c.col kids
    { prev := none, cur := c, colRow := c.row, rows := 0, colext := c.col, valid := true }
  let limit := match attr.maxPargs with
    | some n => n
    | none => cfg.maxPargsHwrap
  let ok := if cmdline then decide ((r.2.rows : Int) ≤ cfg.maxRowsCmdline)
    else if (countArguments kids : Int) > limit then wrap else true
  .ok { kids := r.1, cur := r.2.cur, colext := r.2.colext, valid := r.2.valid && ok, wrap := wrap }

/-- `count_subgroups`, formatter.py:1331-1347. -/
def countSubgroups : List Child → Except Err Nat
  | [] => .ok 0
  | k :: ks =>
    match k.box.ty with
    | .kwargGroup | .pargGroup | .parenGroup =>
      match countSubgroups ks with
      | .ok n => .ok (n + 1)
      | .error e => .error e
    | .comment | .onoff => countSubgroups ks
    | _ => .error .value

/-- One round of the loop of `ArgGroupNode._reflow`, formatter.py:1398-1454. -/
def argStep (cfg : Cfg) (path : List Str) (passno : Int) (wrap term : Bool) (col : Nat)
    (last : Bool) (k : Child) (s : Loop) : Except Err (Laid × Loop) :=
  let t := term && last
  let done (r : Laid × Cur) : Laid × Loop :=
    (r.1, { prev := some k.box, cur := r.2, colRow := r.2.row, rows := 0,
            colext := max s.colext r.1.colext, valid := s.valid && r.1.valid })
  match s.prev with
  | none => do
    let r ← k.run path t s.cur passno
    .ok (done r)
  | some p =>
    if endsLine p || wrap then do
      let r ← k.run path t ⟨s.colRow + 1, col⟩ passno
      .ok (done r)
    else do
      let r ← k.run path t (s.cur.right 1) passno
      if (t && decide ((r.2.col : Int) + 1 > cfg.linewidth))
          || decide ((r.1.colext : Int) > cfg.linewidth) || decide (r.2.row > s.cur.row + 1) then
        let r' ← k.run path t ⟨s.colRow + 1, col⟩ passno
        .ok (done r')
      else .ok (done r)

/-- The loop. -/
def argLoop (cfg : Cfg) (path : List Str) (passno : Int) (wrap term : Bool) (col : Nat) :
    List Child → Loop → Except Err (List Laid × Loop)
  | [], s => .ok ([], s)
  | k :: ks, s =>
    andThen (argStep cfg path passno wrap term col ks.isEmpty k s)
      (argLoop cfg path passno wrap term col ks)

/-- `ArgGroupNode._reflow`, formatter.py:1387-1465. -/
def reflowArg (cfg : Cfg) (path : List Str) (passno : Int) (wrap term : Bool) (attr : Attr)
    (kids : List Child) (c : Cur) : Except Err Out := do
  let n ← countSubgroups kids
  let r ← argLoop cfg path passno wrap term c.col kids
    { prev := none, cur := c, colRow := c.row, rows := 0, colext := c.col, valid := true }
  let limit := match attr.maxSubgroups with
    | some n => n
    | none => cfg.maxSubgroupsHwrap
  let ok := if (n : Int) > limit then wrap else true
  .ok { kids := r.1, cur := r.2.cur, colext := r.2.colext, valid := r.2.valid && ok, wrap := wrap }

/-- Where a child of a parenthesised group is tried first, formatter.py:1522-1539. -/
def parenPlace (wrap : Bool) (col : Nat) (child : Box) (s : Loop) : Cur :=
  match s.prev with
  | none => s.cur
  | some p =>
    if p.ty = .lparen then s.cur
    else if endsLine p || wrap then ⟨s.cur.row + 1, col⟩
    else if child.ty = .rparen then s.cur
    else s.cur.right 1

/-- One round of the loop of `ParenGroupNode._reflow`, formatter.py:1518-1572. -/
def parenStep (cfg : Cfg) (path : List Str) (passno : Int) (wrap term : Bool) (col : Nat)
    (last : Bool) (k : Child) (s : Loop) : Except Err (Laid × Loop) :=
  let t := term && last
  let done (r : Laid × Cur) : Laid × Loop :=
    (r.1, { prev := some k.box, cur := r.2, colRow := r.2.row, rows := 0,
            colext := max s.colext r.1.colext, valid := s.valid && r.1.valid })
  do
    let r ← k.run path t (parenPlace wrap col k.box s) passno
    if !wrap && ((t && decide ((r.2.col : Int) + 1 > cfg.linewidth))
        || decide ((r.1.colext : Int) > cfg.linewidth) || !r.1.valid) then
      let r' ← k.run path t ⟨s.colRow + 1, col⟩ passno
      .ok (done r')
    else .ok (done r)

/-- The loop. -/
def parenLoop (cfg : Cfg) (path : List Str) (passno : Int) (wrap term : Bool) (col : Nat) :
    List Child → Loop → Except Err (List Laid × Loop)
  | [], s => .ok ([], s)
  | k :: ks, s =>
    andThen (parenStep cfg path passno wrap term col ks.isEmpty k s)
      (parenLoop cfg path passno wrap term col ks)

/-- `ParenGroupNode._reflow`, formatter.py:1501-1573. -/
def reflowParenGroup (cfg : Cfg) (path : List Str) (passno : Int) (wrap term : Bool)
    (kids : List Child) (c : Cur) : Except Err Out := do
  check (kids.length == 3 || kids.length == 4)
  let r ← parenLoop cfg path passno wrap term c.col kids
    { prev := none, cur := c, colRow := c.row, rows := 0, colext := c.col, valid := true }
  .ok { kids := r.1, cur := r.2.cur, colext := r.2.colext, valid := r.2.valid, wrap := wrap }

/-- The loop of `BodyNode._reflow`, formatter.py:1593-1598: `cur` is the cursor to
return, `row` the row of the column cursor. -/
def bodyLoop (path : List Str) (passno : Int) (col : Nat) :
    List Child → Loop → Except Err (List Laid × Loop)
  | [], s => .ok ([], s)
  | k :: ks, s => do
    let r ← k.run path false ⟨s.colRow, col⟩ passno
    let rest ← bodyLoop path passno col ks
      { prev := some k.box, cur := r.2, colRow := r.2.row + 1, rows := 0,
        colext := max s.colext r.1.colext, valid := s.valid && r.1.valid }
    .ok (r.1 :: rest.1, rest.2)

/-- `BodyNode._reflow`, formatter.py:1587-1599. -/
def reflowBody (path : List Str) (passno : Int) (wrap : Bool) (kids : List Child) (c : Cur) :
    Except Err Out := do
  let r ← bodyLoop path passno c.col kids
    { prev := none, cur := c, colRow := c.row, rows := 0, colext := 0, valid := true }
  .ok { kids := r.1, cur := r.2.cur, colext := r.2.colext, valid := r.2.valid, wrap := wrap }

/-- `FlowControlNode._reflow`, formatter.py:1616-1651: a statement, then bodies and
statements in turn.  `stmt` says that a statement is due and `rows` counts the children seen;
a list that ends after a body, or after the first statement, fails the assertion of line
1635 or 1625. -/
def flowLoop (cfg : Cfg) (path : List Str) (passno : Int) (col : Nat) (stmt : Bool) :
    List Child → Loop → Except Err (List Laid × Loop)
  | [], s => if stmt || decide (s.rows < 2) then .error .assertion else .ok ([], s)
  | k :: ks, s => do
    check (k.box.ty == if stmt then .statement else .body)
    let r ← k.run path false ⟨s.colRow, if stmt then col else col + cfg.tabSize⟩ passno
    let rest ← flowLoop cfg path passno col (!stmt) ks
      { prev := some k.box, cur := r.2, colRow := r.2.row + 1, rows := s.rows + 1,
        colext := max s.colext r.1.colext, valid := s.valid && r.1.valid }
    .ok (r.1 :: rest.1, rest.2)

/-- `FlowControlNode._reflow`, formatter.py:1608-1653: at least a statement, a body and a
statement. -/
def reflowFlow (cfg : Cfg) (path : List Str) (passno : Int) (wrap : Bool) (kids : List Child) (c : Cur) :
    Except Err Out := do
  let r ← flowLoop cfg path passno c.col true kids
    { prev := none, cur := c, colRow := c.row, rows := 0, colext := 0, valid := true }
  .ok { kids := r.1, cur := r.2.cur, colext := r.2.colext, valid := r.2.valid, wrap := wrap }

/-- The tokens of a comment, asserted to be tokens, formatter.py:49-51. -/
def commentToks : List Node → Except Err (List Token)
  | [] => .ok []
  | .tok t :: ns =>
    match commentToks ns with
    | .ok ts => .ok (t :: ts)
    | .error e => .error e
  | .node .. :: _ => .error .assertion

/-- The single bracket comment of a comment node, formatter.py:1675-1677 and 1708-1710. -/
def bracketOf : List Node → Option Token
  | [.tok t] => if t.type = .bracketComment then some t else none
  | _ => none

/-- The length of the longest line. -/
def maxLen : List Str → Nat
  | [] => 0
  | l :: ls => max l.length (maxLen ls)

/-- `node.children[0] is stack_context.first_token`, formatter.py:94. -/
def isFirstToken (cfg : Cfg) (pkids : List Node) : Bool :=
  match pkids, cfg.firstToken with
  | .tok t :: _, some f => t == f
  | _, _ => false

/-- `CommentNode._reflow`, formatter.py:1670-1702. -/
def reflowComment (cfg : Cfg) (wrap : Bool) (attr : Attr) (pkids : List Node) (c : Cur) : Except Err Out :=
  match bracketOf pkids with
  | some t =>
    let f := flow c (Text.normalizeLineEndings t.spelling)
    .ok { kids := [], cur := f.1, colext := f.2, valid := true, wrap := wrap }
  | none => do
    let ts ← commentToks pkids
    let spellings := (ts.filter isComment).map (·.spelling)
    let lines ← Markup.formatComment cfg.markup (attr.trailing == .explicit) (isFirstToken cfg pkids)
      (headSpelling pkids) (cfg.linewidth - c.col) spellings
    match lines.getLast? with
    | none => .error .value
    | some l =>
      .ok { kids := [], cur := ⟨c.row + (lines.length - 1), c.col + l.length⟩,
            colext := c.col + maxLen lines, valid := true, wrap := wrap, lines := lines }

/-- `WhitespaceNode._reflow`, formatter.py:1723-1727. -/
def reflowWhitespace (wrap : Bool) (c : Cur) : Except Err Out :=
  .ok { kids := [], cur := c, colext := 0, valid := true, wrap := wrap }

/-- `_reflow` by node type, `LayoutNode.create`, formatter.py:578-611. -/
def attempt (cfg : Cfg) (b : Box) (kids : List Child) (path : List Str) (term : Bool) (c : Cur)
    (p : Int × Bool) : Except Err Out :=
  match b.ty with
  | .funname | .argument | .keyword | .flag | .atword => reflowScalar path p.1 p.2 b.pkids kids c
  | .onoff => reflowOnOff b.pkids p.2 c
  | .statement => reflowStatement cfg path p.1 p.2 b.kids kids c
  | .atwordStatement => reflowAtWord cfg path p.1 p.2 kids c
  | .kwargGroup => reflowKwarg cfg path p.1 p.2 term b.kids kids c
  | .argGroup => reflowArg cfg path p.1 p.2 term b.attr kids c
  | .pargGroup | .flagGroup => reflowParg cfg path p.1 p.2 term b.attr kids c
  | .parenGroup => reflowParenGroup cfg path p.1 p.2 term kids c
  | .body => reflowBody path p.1 p.2 kids c
  | .flowControl => reflowFlow cfg path p.1 p.2 kids c
  | .comment => reflowComment cfg p.2 b.attr b.pkids c
  | .whitespace => reflowWhitespace p.2 c
  | .lparen | .rparen => reflowParen c p.2

/-! ## `reflow` -/

/-- `_validate_layout`, formatter.py:504-534, 820-837 and 1081-1097. -/
def validate (cfg : Cfg) (b : Box) (path : List Str) (c : Cur) (o : Out) : Bool :=
  let rows := o.cur.row - c.row
  if (o.colext : Int) > cfg.linewidth then false
  else
    match b.ty with
    | .statement =>
      !(!o.wrap && decide (rows > 1) && decide ((prefixWidth cfg b.kids : Int) > cfg.maxPrefixChars))
    | .kwargGroup =>
      !(!o.wrap && decide (rows > 1) && decide (((firstName b.kids).length : Int) > cfg.maxPrefixChars))
    | t =>
      if o.wrap then true
      else if (rows : Int) > cfg.maxLinesHwrap ∧ t ≠ .body ∧ t ≠ .comment ∧ t ≠ .flowControl then false
      else !cfg.alwaysWrap.contains (join ['/'] path)

/-- The loop over the layout passes, formatter.py:553-567: passes numbered above the
parent's are not tried, the first valid one is kept, else the last one tried; none at all
fails the assertion of line 567. -/
def runPasses (parent : Int) (attempt : Int × Bool → Except Err Out)
    (validate : Out → Bool) : Option (Int × Out) → List (Int × Bool) → Except Err (Int × Out)
  | best, [] =>
    match best with
    | some r => .ok r
    | none => .error .assertion
  | best, p :: ps =>
    if p.1 > parent then
      match best with
      | some r => .ok r
      | none => .error .assertion
    else
      match attempt p with
      | .error e => .error e
      | .ok o =>
        let ok := o.valid && validate o
        let r := (p.1, { o with valid := ok })
        if ok then .ok r else runPasses parent attempt validate (some r) ps

/-- `layout_passes.get(class name, self._layout_passes)`, formatter.py:548-550. -/
def passesOf (cfg : Cfg) (ty : NT) : List (Int × Bool) :=
  match cfg.layoutPasses (className ty) with
  | some ps => ps
  | none => defaultPasses ty

/-- The pass number that limits the passes: the parent's, but the highest one for
statements (formatter.py:805-808 and 1003-1006). -/
def limitOf (ty : NT) (parent : Int) : Int :=
  match ty with
  | .statement => 5
  | .atwordStatement => 0
  | _ => parent

/-- `reflow`, formatter.py:536-568, over already prepared children. -/
def reflowNode (cfg : Cfg) (b : Box) (idx : Nat) (kids : List Child) : Run :=
  fun path term c parent =>
    let path' := path ++ (pathName idx b).toList
    match runPasses (limitOf b.ty parent) (attempt cfg b kids path' term c) (validate cfg b path' c) none
        (passesOf cfg b.ty) with
    | .error e => .error e
    | .ok (n, o) =>
      .ok (.mk b.ty b.attr b.pkids
        { pos := c, passno := n, wrap := o.wrap, valid := o.valid, colext := o.colext }
        o.lines o.kids, o.cur)

/-- Does the box count in `get_pathstr`, formatter.py:198-208? -/
def isParg (b : Box) : Bool := b.ty == .pargGroup || b.ty == .flagGroup

mutual
/-- `reflow` of a box with `idx` earlier positional-group siblings. -/
def reflow (cfg : Cfg) : Box → Nat → Run
  | .mk ty attr pkids kids, idx =>
    reflowNode cfg (.mk ty attr pkids kids) idx (children cfg 0 kids)
/-- The children of a box. -/
def children (cfg : Cfg) : Nat → List Box → List Child
  | _, [] => []
  | n, b :: bs => ⟨b, reflow cfg b n⟩ :: children cfg (if isParg b then n + 1 else n) bs
end

/-- `layout_tree`, formatter.py:1765-1780: the boxes of the tree, sorted and laid out from
the origin. -/
def layoutTree (cfg : Cfg) (tree : Node) : Except Err Laid :=
  match tree with
  | .tok _ => .error .assertion
  | .node ty attr cs =>
    match reflow cfg (lock cfg (.mk ty attr cs (boxesOf cs))) 0 [] false ⟨0, 0⟩ 0 with
    | .ok (l, _) => .ok l
    | .error e => .error e

end Verif.Layout
