import Verif.Tree

/-!
# The parser: `cmakelang/parse/{argument_nodes,additional_nodes,statement_node,body_nodes}.py`
and the hand-written command parsers of `cmakelang/parse/funs/*.py`

The functions of the code call each other recursively and loop while tokens are
left.  Every function, and every loop, is a `Job`; `step` performs one function body or
one loop iteration, calling `rec` for the others; `exec` ties the knot with fuel.
Running out of fuel is the error `fuel`: the code is still running.  The loops carry the
children collected so far.
-/

namespace Verif.Parse
open Verif Py Lex

/-- Result of a job: a node and the tokens left. -/
abbrev R := Except Err (Node × List Token)

/-- The functions and loops of the parser. -/
inductive Job where
  /-- call an argument parser -/
  | arg (p : ArgP) (brk : List Breaker)
  /-- loop of `StandardArgTree.parse2`, argument_nodes.py:121-196 -/
  | stdLoop (cmd : Option CmdInfo) (specs : List PSpec) (dflt : PSpec)
      (kwargs : List (Str × ArgP)) (brk kbrk : List Breaker) (acc : List Node)
  /-- `PositionalGroupNode.parse2`, argument_nodes.py:335-433 -/
  | pos (spec : PSpec) (brk : List Breaker)
  | posLoop (spec : PSpec) (brk : List Breaker) (sortable : Bool) (acc : List Node) (n : Nat)
  /-- `KeywordGroupNode.parse`, argument_nodes.py:297-321 -/
  | kwGroup (word : Str) (p : ArgP) (brk : List Breaker)
  /-- `ParenGroupNode.parse`, argument_nodes.py:474-505 -/
  | paren
  /-- loop of `ConditionalGroupNode.parse`, argument_nodes.py:562-622 -/
  | condLoop (brk : List Breaker) (acc : List Node)
  /-- loop of `TupleGroupNode.parse`, additional_nodes.py:46-102 -/
  | tupleLoop (npargs : Nargs) (ntup : Nat) (flags : List Str) (brk : List Breaker)
      (acc : List Node) (grp : Option (List Node)) (after : List Node) (np nt : Nat)
  /-- `FlagGroupNode.parse`, additional_nodes.py:165-199 -/
  | flagLoop (flags : List Str) (brk : List Breaker) (acc : List Node)
  /-- loop of `parse_set`, funs/set.py:59-129 -/
  | setLoop (varname : Option Str) (brk : List Breaker) (acc : List Node)
  /-- loop of `parse_empty`, funs/break.py:31-57 -/
  | emptyLoop (brk : List Breaker) (acc : List Node)
  /-- loop of `parse_foreach_in`, funs/foreach.py:99-134 -/
  | foreachInLoop (brk : List Breaker) (acc : List Node)
  /-- loops of `parse_add_executable_standard`, funs/add_executable.py:79-142, and
  `parse_add_library_standard`, funs/add_library.py:53-122 -/
  | srcLoop (lib : Bool) (brk : List Breaker) (state : Nat) (sortable srcSortable inAfter : Bool)
      (before parg src after : List Node)
  /-- loop of `parse_add_library_object`, funs/add_library.py:161-187 -/
  | objLoop (brk : List Breaker) (acc : List Node)
  /-- loop of `parse_add_custom_target`, funs/add_xxx.py:190-259 -/
  | targetLoop (state : Nat) (brk : List Breaker) (acc : List Node)
  /-- loop of `parse_install_targets`, funs/install.py:114-152 -/
  | installLoop (brk : List Breaker) (acc : List Node)
  /-- `StatementNode.consume`, statement_node.py:45-126 -/
  | statement
  /-- `FlowControlNode.consume`, body_nodes.py:104-127 -/
  | flow
  /-- loop of `IfBlockNode.consume`, body_nodes.py:148-166 -/
  | ifLoop (acc : List Node)
  /-- loop of `BodyNode.consume`, body_nodes.py:45-80 -/
  | body (breakset : List Str) (acc : List Node)

/-- The recursive call: a job, whether `ctx.argstack` is non-empty, and the tokens. -/
abbrev Rec := Job → Bool → List Token → R

/-- Tokens as children. -/
def leaves (ts : List Token) : List Node := ts.map .tok

/-- The attributes of a positional group made from a specification,
argument_nodes.py:327-333, 347-348. -/
def posAttr (spec : PSpec) (sortable : Bool) : Attr :=
  { sortable := sortable, tags := spec.tags, maxPargs := spec.maxPargs,
    nargs := some spec.nargs }

/-- The first semantic token decides sortability if it is a tag,
argument_nodes.py:357-362. -/
def annotated (spec : PSpec) : List Token → Bool
  | [] => spec.sortable
  | t :: _ =>
    if tagIn t [S "sortable", S "sort"] then true
    else if tagIn t [S "unsortable", S "unsort"] then false
    else spec.sortable

/-- `PositionalGroupNode.parse2` before its loop, argument_nodes.py:347-362. -/
def posStart (rec : Rec) (spec : PSpec) (brk : List Breaker) (up : Bool) (ts : List Token) : R :=
  let rest := ts.dropWhile isWs
  rec (.posLoop spec brk (annotated spec rest) (leaves (ts.takeWhile isWs)) 0) up rest

/-- One iteration of the loop of `PositionalGroupNode.parse2`,
argument_nodes.py:364-433. -/
def posIter (ctx : Ctx) (rec : Rec) (spec : PSpec) (brk : List Breaker) (sortable : Bool)
    (acc : List Node) (n : Nat) (up : Bool) : List Token → R
  | [] => .ok (.node .pargGroup (posAttr spec sortable) acc, [])
  | t :: ts => do
    if ← pargsFull spec.nargs n then
      return (.node .pargGroup (posAttr spec sortable) acc, t :: ts)
    if shouldBreak t brk && (!spec.nargs.exact || t.type == .rparen) then
      return (.node .pargGroup (posAttr spec sortable) acc, t :: ts)
    if t.type == .lparen then
      let (sub, rest) ← rec .paren true (t :: ts)
      rec (.posLoop spec brk sortable (acc ++ [sub]) n) up rest
    else if isWs t then
      rec (.posLoop spec brk sortable (acc ++ [.tok t]) n) up ts
    else if isAnyComment t then
      if belongsUp up (t :: ts) acc brk then
        return (.node .pargGroup (posAttr spec sortable) acc, t :: ts)
      let (c, rest) := consumeComment t ts
      rec (.posLoop spec brk sortable (acc ++ [c]) n) up rest
    else if isOnOff t then
      rec (.posLoop spec brk sortable (acc ++ [mk .onoff [.tok t]]) n) up ts
    else
      let (trail, rest) := consumeTrailing ctx ts
      let child := mk (if kwargIn t spec.flags then .flag else .argument) (.tok t :: trail)
      rec (.posLoop spec brk sortable (acc ++ [child]) (n + 1)) up rest

/-- `DEFAULT_PSPEC`, argument_nodes.py:33. -/
def defaultSpec : PSpec := { nargs := .str (S "*") }

/-- The default specification and the specifications still to be used,
argument_nodes.py:103-112. -/
def splitSpecs : List PSpec → PSpec × List PSpec
  | [s] => if s.legacy && !s.nargs.exact then (s, []) else (defaultSpec, [s])
  | specs => (defaultSpec, specs)

/-- The names of a keyword table. -/
def keys (kwargs : List (Str × ArgP)) : List Str := kwargs.map (·.1)

/-- `StandardArgTree.parse2` before its loop, argument_nodes.py:92-119. -/
def stdStart (rec : Rec) (cmd : Option CmdInfo) (specs : List PSpec) (kwargs : List (Str × ArgP))
    (brk : List Breaker) (up : Bool) (ts : List Token) : R :=
  let ds := splitSpecs specs
  let flags := ds.1.flags ++ ds.2.flatMap (·.flags)
  rec (.stdLoop cmd ds.2 ds.1 kwargs brk (brk ++ [kwBreaker (keys kwargs ++ flags)])
    (leaves (ts.takeWhile isWs))) up (ts.dropWhile isWs)

/-- The finished argument tree: `tree.cmdspec`, argument_nodes.py:95. -/
def stdNode (cmd : Option CmdInfo) (acc : List Node) : Node :=
  .node .argGroup { maxSubgroups := cmd.bind (·.maxSubgroups), role := .standard } acc

/-- One iteration of the loop of `StandardArgTree.parse2`, argument_nodes.py:121-196. -/
def stdIter (rec : Rec) (cmd : Option CmdInfo) (specs : List PSpec) (dflt : PSpec)
    (kwargs : List (Str × ArgP)) (brk kbrk : List Breaker) (acc : List Node) (up : Bool) :
    List Token → R
  | [] => .ok (stdNode cmd acc, [])
  | t :: ts =>
    let next (specs' : List PSpec) (acc' : List Node) (rest : List Token) : R :=
      rec (.stdLoop cmd specs' dflt kwargs brk kbrk acc') up rest
    if isWs t then next specs (acc ++ [.tok t]) ts
    else if isAnyComment t then
      if belongsUp up (t :: ts) acc brk then .ok (stdNode cmd acc, t :: ts)
      else
        let c := consumeComment t ts
        next specs (acc ++ [c.1]) c.2
    else if isOnOff t then next specs (acc ++ [mk .onoff [.tok t]]) ts
    else
      let spec := specs.headD dflt
      if shouldBreak t brk && (!spec.nargs.exact || spec.nargs == .int 0) then
        .ok (stdNode cmd acc, t :: ts)
      else
        match (normKwarg t).bind (fun w => (kwargs.lookup w).map (fun p => (w, p))) with
        | some (w, p) => do
          let (sub, rest) ← rec (.kwGroup w p kbrk) true (t :: ts)
          if rest.length ≥ (t :: ts).length then .error .internal
          else next specs (acc ++ [sub]) rest
        | none => do
          let others := specs.tail.flatMap (fun o => o.flags.filter (fun f => !spec.flags.contains f))
          let (sub, rest) ← rec (.pos spec (brk ++ [kwBreaker (keys kwargs ++ others)])) true (t :: ts)
          if rest.length ≥ (t :: ts).length then .error .internal
          else next specs.tail (acc ++ [sub]) rest

/-- `KeywordGroupNode.parse`, argument_nodes.py:297-321. -/
def kwIter (rec : Rec) (word : Str) (p : ArgP) (brk : List Breaker) : List Token → R
  | [] => .error .index
  | t :: ts =>
    if upper t.spelling ≠ upper word then .error .assertion
    else do
      let ws := ts.takeWhile isWs
      let rest := ts.dropWhile isWs
      let (sub, rest') ← rec (.arg p brk) true rest
      let body := if rest'.length < rest.length then [sub] else []
      return (mk .kwargGroup (mk .keyword [.tok t] :: leaves ws ++ body), rest')

/-- `ParenGroupNode.parse`, argument_nodes.py:474-505. -/
def parenIter (ctx : Ctx) (rec : Rec) : List Token → R
  | [] => .error .index
  | t :: ts =>
    if t.type ≠ .lparen then .error .assertion
    else do
      let (sub, rest) ← rec (.arg .conditional [.paren]) true ts
      match rest with
      | [] => .error .index
      | r :: rest' =>
        if r.type ≠ .rparen then .error .value
        else
          let (trail, rest'') := consumeTrailing ctx rest'
          return (mk .parenGroup ([mk .lparen [.tok t], sub, mk .rparen [.tok r]] ++ trail), rest'')

/-- `CONDITIONAL_FLAGS`, argument_nodes.py:508-530. -/
def conditionalFlags : List Str :=
  [S "COMMAND", S "DEFINED", S "EQUAL", S "EXISTS", S "GREATER", S "LESS", S "IS_ABSOLUTE",
   S "IS_DIRECTORY", S "IS_NEWER_THAN", S "IS_SYMLINK", S "MATCHES", S "NOT", S "POLICY",
   S "STRLESS", S "STRGREATER", S "STREQUAL", S "TARGET", S "TEST", S "VERSION_EQUAL",
   S "VERSION_GREATER", S "VERSION_LESS"]

/-- One iteration of the loop of `ConditionalGroupNode.parse`, argument_nodes.py:562-622. -/
def condIter (rec : Rec) (brk : List Breaker) (acc : List Node) (up : Bool) : List Token → R
  | [] => .ok (mkArg .conditional acc, [])
  | t :: ts =>
    let cbrk := brk ++ [kwBreaker [S "AND", S "OR"]]
    if shouldBreak t brk then .ok (mkArg .conditional acc, t :: ts)
    else if isWs t then rec (.condLoop brk (acc ++ [.tok t])) up ts
    else if isAnyComment t then rec (.condLoop brk (acc ++ [mk .comment [.tok t]])) up ts
    else if isOnOff t then rec (.condLoop brk (acc ++ [mk .onoff [.tok t]])) up ts
    else if t.type == .lparen then do
      let (sub, rest) ← rec .paren true (t :: ts)
      rec (.condLoop brk (acc ++ [sub])) up rest
    else if kwargIn t [S "AND", S "OR"] then do
      let (sub, rest) ← rec (.kwGroup (upper t.spelling) .conditional cbrk) true (t :: ts)
      if rest.length < (t :: ts).length then rec (.condLoop brk (acc ++ [sub])) up rest
      else .error .assertion
    else do
      let (sub, rest) ← rec (.pos { nargs := .str (S "+"), flags := conditionalFlags } cbrk) true
        (t :: ts)
      rec (.condLoop brk (acc ++ [sub])) up rest

/-- The children of a tuple group: `tree.children` with the currently open tuple put
where it was appended. -/
def tupleChildren (acc : List Node) (grp : Option (List Node)) (after : List Node) : List Node :=
  match grp with
  | none => acc ++ after
  | some g => acc ++ [mkPos (.int 2) g] ++ after

/-- One iteration of the loop of `TupleGroupNode.parse`, additional_nodes.py:46-102.
Blanks and comments go to the tree, arguments to the open tuple, which was
appended to the tree when it was opened: `acc` is what precedes it, `after` what was
appended since.  Line 76 looks at the token after the one just popped. -/
def tupleIter (ctx : Ctx) (rec : Rec) (npargs : Nargs) (ntup : Nat) (flags : List Str)
    (brk : List Breaker) (acc : List Node) (grp : Option (List Node)) (after : List Node)
    (np nt : Nat) (up : Bool) : List Token → R
  | [] => .ok (mk .argGroup (tupleChildren acc grp after), [])
  | t :: ts => do
    if ← pargsFull npargs np then
      return (mk .argGroup (tupleChildren acc grp after), t :: ts)
    if shouldBreak t brk then
      return (mk .argGroup (tupleChildren acc grp after), t :: ts)
    if isWs t then
      rec (.tupleLoop npargs ntup flags brk acc grp (after ++ [.tok t]) np nt) up ts
    else if isAnyComment t then
      rec (.tupleLoop npargs ntup flags brk acc grp (after ++ [mk .comment [.tok t]]) np nt) up ts
    else
      match ts with
      | [] => .error .index
      | u :: us =>
        if isOnOff u then
          rec (.tupleLoop npargs ntup flags brk acc grp (after ++ [mk .onoff [.tok u]]) np nt) up us
        else
          let (trail, rest) := consumeTrailing ctx (u :: us)
          let child := mk (if kwargIn t flags then .flag else .argument) (.tok t :: trail)
          match grp with
          | none =>
            if 1 ≥ ntup then
              rec (.tupleLoop npargs ntup flags brk
                (acc ++ after ++ [mkPos (.int 2) [child]]) none [] (np + 1) 1) up rest
            else rec (.tupleLoop npargs ntup flags brk (acc ++ after) (some [child]) [] np 1) up rest
          | some g =>
            if nt + 1 ≥ ntup then
              rec (.tupleLoop npargs ntup flags brk
                (acc ++ [mkPos (.int 2) (g ++ [child])] ++ after) none [] (np + 1) (nt + 1)) up rest
            else
              rec (.tupleLoop npargs ntup flags brk acc (some (g ++ [child])) after np (nt + 1)) up rest

/-- One iteration of `FlagGroupNode.parse`, additional_nodes.py:176-199. -/
def flagIter (ctx : Ctx) (rec : Rec) (flags : List Str) (brk : List Breaker) (acc : List Node)
    (up : Bool) : List Token → R
  | [] => .ok (mkPos (.str (S "+")) acc, [])
  | t :: ts =>
    if shouldBreak t brk then .ok (mkPos (.str (S "+")) acc, t :: ts)
    else if isWs t then rec (.flagLoop flags brk (acc ++ [.tok t])) up ts
    else if !flags.contains (upper t.spelling) then .ok (mkPos (.str (S "+")) acc, t :: ts)
    else
      let (trail, rest) := consumeTrailing ctx ts
      rec (.flagLoop flags brk (acc ++ [mk .flag (.tok t :: trail)])) up rest

/-- `ShellCommandNode.parse`, additional_nodes.py:121-141: the tag "cmdline" is added to
the positional groups of the tree. -/
def tagGroups : Node → Node
  | .node ty a cs => .node ty a (cs.map fun c =>
      match c with
      | .node .pargGroup b ds => .node .pargGroup { b with tags := b.tags ++ [S "cmdline"] } ds
      | c => c)
  | n => n

/-- Run a sub-parser that must consume something: `assert len(tokens) < ntokens`. -/
def must (r : R) (ts : List Token) : R := do
  let (sub, rest) ← r
  if rest.length < ts.length then return (sub, rest) else .error .assertion

/-- `consume_whitespace_and_comments`, simple_nodes.py:203-228.  The fuel is the number
of tokens; each round takes at least one. -/
def wsComments : Nat → List Token → List Node × List Token
  | 0, ts => ([], ts)
  | _ + 1, [] => ([], [])
  | n + 1, t :: ts =>
    if isWs t then
      let r := wsComments n ts
      (.tok t :: r.1, r.2)
    else if isAnyComment t then
      let c := consumeComment t ts
      let r := wsComments n c.2
      (c.1 :: r.1, r.2)
    else if isOnOff t then
      let r := wsComments n ts
      (mk .onoff [.tok t] :: r.1, r.2)
    else ([], t :: ts)

/-- The `kwargs` of `parse_set`, funs/set.py:43-45. -/
def setCache : ArgP := pos (.str (S "2+")) [S "FORCE"]

/-- `parse_set` before its loop, funs/set.py:35-57. -/
def setStart (rec : Rec) (brk : List Breaker) (up : Bool) (ts : List Token) : R := do
  let ws := ts.takeWhile isWs
  let rest := ts.dropWhile isWs
  let (sub, rest') ← must (rec (.pos { nargs := .int 1, flags := [S "PARENT_SCOPE"] }
    (brk ++ [kwBreaker [S "CACHE"]])) up rest) rest
  rec (.setLoop ((semantics sub.toks).head?.map (·.spelling)) brk (leaves ws ++ [sub])) up rest'

/-- The tags of the `vartags` patterns matching a variable name, funs/set.py:122-124. -/
def varTags (ctx : Ctx) (name : Str) : List Str :=
  ctx.vartags.flatMap fun p => if p.1 name then p.2 else []

/-- Add tags to a positional group. -/
def addTags (tags : List Str) : Node → Node
  | .node ty a cs => .node ty { a with tags := a.tags ++ tags } cs
  | n => n

/-- One iteration of the loop of `parse_set`, funs/set.py:59-129.  Recording lint for
`CACHE` reads `tokens[0]` when fewer than two values follow (lines 94-99). -/
def setIter (ctx : Ctx) (rec : Rec) (varname : Option Str) (brk : List Breaker) (acc : List Node)
    (up : Bool) : List Token → R
  | [] => .ok (mkArg .set acc, [])
  | t :: ts =>
    let kbrk := brk ++ [kwBreaker [S "CACHE", S "PARENT_SCOPE"]]
    let pbrk := brk ++ [kwBreaker [S "CACHE"]]
    let next (sub : Node) (rest : List Token) : R := rec (.setLoop varname brk (acc ++ [sub])) up rest
    if shouldBreak t brk then .ok (mkArg .set acc, t :: ts)
    else if isWs t then next (.tok t) ts
    else if isAnyComment t && !tagIn t [S "sort", S "sortable"] then next (mkBare [.tok t]) ts
    else if normKwarg t = some (S "CACHE") then do
      let (sub, rest) ← rec (.kwGroup (S "CACHE") setCache kbrk) true (t :: ts)
      if ((semantics sub.toks).length < 3 && rest.isEmpty) = true then .error .index
      else if rest.length < (t :: ts).length then next sub rest else .error .assertion
    else if normKwarg t = some (S "PARENT_SCOPE") then do
      let (sub, rest) ← must (rec (.pos { nargs := .str (S "+"), flags := [S "PARENT_SCOPE"] } pbrk)
        true (t :: ts)) (t :: ts)
      next sub rest
    else do
      let (sub, rest) ← rec (.pos { nargs := .str (S "+") } kbrk) true (t :: ts)
      match varname with
      | none =>
        if ctx.vartags.isEmpty then
          if rest.length < (t :: ts).length then next sub rest else .error .assertion
        else .error .attribute
      | some name =>
        if rest.length < (t :: ts).length then next (addTags (varTags ctx name) sub) rest
        else .error .assertion

/-- One iteration of the loop of `parse_empty`, funs/break.py:31-57. -/
def emptyIter (rec : Rec) (brk : List Breaker) (acc : List Node) (up : Bool) : List Token → R
  | [] => .ok (mk .argGroup acc, [])
  | t :: ts =>
    if shouldBreak t brk then .ok (mk .argGroup acc, t :: ts)
    else if isWs t then rec (.emptyLoop brk (acc ++ [.tok t])) up ts
    else if isAnyComment t then rec (.emptyLoop brk (acc ++ [mkBare [.tok t]])) up ts
    else do
      let (sub, rest) ← must (rec (.pos { nargs := .str (S "+") } brk) up (t :: ts)) (t :: ts)
      rec (.emptyLoop brk (acc ++ [sub])) up rest

/-- `parse_foreach_standard`, funs/foreach.py:24-52. -/
def foreachStdStart (rec : Rec) (brk : List Breaker) (up : Bool) (ts : List Token) : R := do
  let ws := ts.takeWhile isWs
  let rest := ts.dropWhile isWs
  let (sub, rest1) ← must (rec (.pos { nargs := .int 1 } brk) up rest) rest
  let (sub2, rest2) ← must (rec (.pos { nargs := .str (S "+") } brk) up rest1) rest1
  return (mk .argGroup (leaves ws ++ [sub, sub2]), rest2)

/-- `parse_foreach_in` before its loop, funs/foreach.py:79-97. -/
def foreachInStart (rec : Rec) (brk : List Breaker) (up : Bool) (ts : List Token) : R := do
  let ws := ts.takeWhile isWs
  let rest := ts.dropWhile isWs
  let (sub, rest1) ← must (rec (.pos { nargs := .int 2, flags := [S "IN"] } brk) up rest) rest
  rec (.foreachInLoop brk (leaves ws ++ [sub])) up rest1

/-- One iteration of the loop of `parse_foreach_in`, funs/foreach.py:99-134. -/
def foreachInIter (rec : Rec) (brk : List Breaker) (acc : List Node) (up : Bool) : List Token → R
  | [] => .ok (mk .argGroup acc, [])
  | t :: ts =>
    let sbrk := brk ++ [kwBreaker [S "LISTS", S "ITEMS"]]
    if shouldBreak t brk then .ok (mk .argGroup acc, t :: ts)
    else if isWs t then rec (.foreachInLoop brk (acc ++ [.tok t])) up ts
    else if isAnyComment t && !tagIn t [S "sort", S "sortable"] then
      rec (.foreachInLoop brk (acc ++ [mkBare [.tok t]])) up ts
    else if kwargIn t [S "LISTS", S "ITEMS"] then do
      let (sub, rest) ← must (rec (.kwGroup (upper t.spelling) (Parse.pos (.str (S "+"))) sbrk) up
        (t :: ts)) (t :: ts)
      rec (.foreachInLoop brk (acc ++ [sub])) up rest
    else do
      let (sub, rest) ← must (rec (.pos { nargs := .str (S "+") } sbrk) up (t :: ts)) (t :: ts)
      rec (.foreachInLoop brk (acc ++ [sub])) up rest

/-- The tree built by the source-list parsers: the name group exists once the
name was read, the source group from state `last` on. -/
def srcNode (last state : Nat) (srcSortable : Bool) (before parg src after : List Node) : Node :=
  mk .argGroup (before ++ (if state > 1 then [mkPos (.str (S "+")) parg] else []) ++
    (if state ≥ last then
      [.node .pargGroup
        { sortable := srcSortable, tags := [S "file-list"], nargs := some (.str (S "+")) } src]
      else []) ++ after)

/-- The state in which sources are read: 3 for executables, 4 for libraries. -/
def lastState (lib : Bool) : Nat := if lib then 4 else 3

/-- One iteration of the loops of `parse_add_executable_standard`
(funs/add_executable.py:79-142, `lib = false`) and `parse_add_library_standard`
(funs/add_library.py:53-122, `lib = true`).  `before`, `parg`, `src`, `after` are the
children of the tree before the name group, of the name group, of the source group, and
of the tree after it; `inAfter` says that `active_depth` is the tree again. -/
def srcIter (ctx : Ctx) (rec : Rec) (lib : Bool) (brk : List Breaker) (state : Nat)
    (sortable srcSortable inAfter : Bool) (before parg src after : List Node) (up : Bool) :
    List Token → R
  | [] => .ok (srcNode (lastState lib) state srcSortable before parg src after, [])
  | t :: ts =>
    let last := lastState lib
    let put (sortable : Bool) (n : Node) : R :=
      if state ≤ 1 then
        rec (.srcLoop lib brk state sortable srcSortable inAfter (before ++ [n]) parg src after) up ts
      else if inAfter then
        rec (.srcLoop lib brk state sortable srcSortable inAfter before parg src (after ++ [n])) up ts
      else if state < last then
        rec (.srcLoop lib brk state sortable srcSortable inAfter before (parg ++ [n]) src after) up ts
      else
        rec (.srcLoop lib brk state sortable srcSortable inAfter before parg (src ++ [n]) after) up ts
    if t.type == .rparen then
      .ok (srcNode last state srcSortable before parg src after, t :: ts)
    else if isWs t then put sortable (.tok t)
    else if isAnyComment t then
      let sortable' :=
        if state > 1 && tagIn t [S "unsort", S "unsortable"] then false
        else if state > 1 && lib && tagIn t [S "sort", S "sortable"] then true
        else sortable
      put sortable' (mkBare [.tok t])
    else
      let (trail, rest) := consumeTrailing ctx ts
      let leaf (ty : NT) : Node := mk ty (.tok t :: trail)
      if state ≤ 1 then
        rec (.srcLoop lib brk 2 sortable srcSortable inAfter before [leaf .argument] src after) up rest
      else if state < last then
        let flags : List Str :=
          if lib then (if state = 2 then [S "STATIC", S "SHARED", S "MODULE", S "OBJECT"]
            else [S "EXCLUDE_FROM_ALL"])
          else [S "WIN32", S "MACOSX_BUNDLE", S "EXCLUDE_FROM_ALL"]
        if kwargIn t flags then
          -- libraries move to the next state; executables accept more flags
          let state' := if lib then state + 1 else state
          rec (.srcLoop lib brk state' sortable (if state' ≥ last then sortable else srcSortable)
            inAfter before (parg ++ [leaf .flag]) src after) up rest
        else
          let state' := state + 1
          rec (.srcLoop lib brk state' sortable (if state' ≥ last then sortable else srcSortable)
            inAfter before parg src after) up (t :: ts)
      else
        rec (.srcLoop lib brk state sortable srcSortable (inAfter || onlyCommentsRemain brk rest)
          before parg (src ++ [leaf .argument]) after) up rest

/-- `parse_add_library_object` before its loop, funs/add_library.py:148-159. -/
def objStart (rec : Rec) (brk : List Breaker) (up : Bool) (ts : List Token) : R := do
  let ws := ts.takeWhile isWs
  let rest := ts.dropWhile isWs
  let (sub, rest1) ← must (rec (.pos { nargs := .int 2, flags := [S "OBJECT"] } brk) up rest) rest
  rec (.objLoop brk (leaves ws ++ [sub])) up rest1

/-- One iteration of the loop of `parse_add_library_object`, funs/add_library.py:161-187. -/
def objIter (rec : Rec) (brk : List Breaker) (acc : List Node) (up : Bool) : List Token → R
  | [] => .ok (mk .argGroup acc, [])
  | t :: ts =>
    if shouldBreak t brk then .ok (mk .argGroup acc, t :: ts)
    else if isWs t then rec (.objLoop brk (acc ++ [.tok t])) up ts
    else if isAnyComment t && !tagIn t [S "sort", S "sortable"] then
      rec (.objLoop brk (acc ++ [mkBare [.tok t]])) up ts
    else do
      let (sub, rest) ← must (rec (.pos { nargs := .str (S "+") } brk) up (t :: ts)) (t :: ts)
      rec (.objLoop brk (acc ++ [sub])) up rest

/-- The keywords of `add_custom_target`, funs/add_xxx.py:160-168. -/
def targetKwargs : List (Str × ArgP) :=
  [(S "BYPRODUCTS", pos (.str (S "+"))), (S "COMMAND", .shell), (S "COMMENT", pos (.int 1)),
   (S "DEPENDS", pos (.str (S "+"))), (S "JOB_POOL", pos (.int 1)), (S "SOURCES", pos (.str (S "+"))),
   (S "WORKING_DIRECTORY", pos (.int 1))]

/-- The flags of `add_custom_target`, funs/add_xxx.py:175. -/
def targetFlags : List Str := [S "VERBATIM", S "USES_TERMINAL", S "COMMAND_EXPAND_LISTS"]

/-- One iteration of the loop of `parse_add_custom_target`, funs/add_xxx.py:190-259.
States: 0 name, 1 first command, 2 keywords. -/
def targetIter (rec : Rec) (state : Nat) (brk : List Breaker) (acc : List Node) (up : Bool) :
    List Token → R
  | [] => .ok (mk .argGroup acc, [])
  | t :: ts =>
    let cbrk := brk ++ [kwBreaker (keys targetKwargs ++ targetFlags)]
    if shouldBreak t brk then .ok (mk .argGroup acc, t :: ts)
    else if isWs t then rec (.targetLoop state brk (acc ++ [.tok t])) up ts
    else if isAnyComment t then rec (.targetLoop state brk (acc ++ [mkBare [.tok t]])) up ts
    else if state = 0 then do
      let npargs : Int :=
        match (semantics ts).head? with
        | some u => if normKwarg u = some (S "ALL") then 2 else 1
        | none => 1
      let (sub, rest) ← must (rec (.pos { nargs := .int npargs, flags := [S "ALL"] } cbrk) up (t :: ts))
        (t :: ts)
      rec (.targetLoop 1 brk (acc ++ [sub])) up rest
    else if state = 1 then
      if kwargIn t (keys targetKwargs ++ targetFlags) then rec (.targetLoop 2 brk acc) up (t :: ts)
      else do
        let (sub, rest) ← must (rec (.pos { nargs := .str (S "+") } cbrk) up (t :: ts)) (t :: ts)
        rec (.targetLoop 2 brk (acc ++ [sub])) up rest
    else if kwargIn t targetFlags then do
      let (sub, rest) ← must (rec (.flagLoop targetFlags (brk ++ [kwBreaker (keys targetKwargs)]) []) up
        (t :: ts)) (t :: ts)
      rec (.targetLoop 2 brk (acc ++ [sub])) up rest
    else
      match (normKwarg t).bind (fun w => (targetKwargs.lookup w).map (fun p => (w, p))) with
      | some (w, p) => do
        let (sub, rest) ← must (rec (.kwGroup w p cbrk) up (t :: ts)) (t :: ts)
        rec (.targetLoop 2 brk (acc ++ [sub])) up rest
      | none => do
        let (sub, rest) ← must (rec (.pos { nargs := .str (S "+") } cbrk) up (t :: ts)) (t :: ts)
        rec (.targetLoop 2 brk (acc ++ [sub])) up rest

/-- `parse_file_write`, funs/file.py:122-140. -/
def fileWriteStart (rec : Rec) (brk : List Breaker) (up : Bool) (ts : List Token) : R := do
  let a := wsComments ts.length ts
  let (sub, rest1) ← rec (.pos { nargs := .int 2, flags := [S "WRITE", S "APPEND"] } brk) up a.2
  let b := wsComments rest1.length rest1
  let (sub2, rest2) ← rec (.pos { nargs := .str (S "+") } brk) up b.2
  return (mk .argGroup (a.1 ++ [sub] ++ b.1 ++ [sub2]), rest2)

/-- The keywords of `install(TARGETS)`, funs/install.py:63-73. -/
def installKwargs : List (Str × ArgP) :=
  [(S "TARGETS", pos (.str (S "+"))), (S "EXPORT", pos (.int 1)),
   (S "INCLUDES", pos (.str (S "+")) [S "DESTINATION"]), (S "DESTINATION", pos (.int 1)),
   (S "PERMISSIONS", pos (.str (S "+"))), (S "CONFIGURATIONS", pos (.str (S "+"))),
   (S "COMPONENT", pos (.int 1)), (S "NAMELINK_COMPONENT", pos (.int 1))]

/-- funs/install.py:74-79. -/
def installFlags : List Str :=
  [S "OPTIONAL", S "EXCLUDE_FROM_ALL", S "NAMELINK_ONLY", S "NAMELINK_SKIP"]

/-- funs/install.py:80-83. -/
def installDesignated : List Str :=
  [S "ARCHIVE", S "LIBRARY", S "RUNTIME", S "OBJECTS", S "FRAMEWORK", S "BUNDLE",
   S "PRIVATE_HEADER", S "PUBLIC_HEADER", S "RESOURCE"]

/-- One iteration of the loop of `parse_install_targets`, funs/install.py:114-152. -/
def installIter (rec : Rec) (brk : List Breaker) (acc : List Node) (up : Bool) : List Token → R
  | [] => .ok (stdNode none acc, [])
  | t :: ts =>
    let sbrk := brk ++ [kwBreaker (installDesignated ++ [S "INCLUDES"])]
    let kbrk := brk ++ [kwBreaker (keys installKwargs ++ installDesignated ++ installFlags)]
    let pbrk := brk ++ [kwBreaker (keys installKwargs ++ installDesignated)]
    if shouldBreak t brk then .ok (stdNode none acc, t :: ts)
    else if isWs t then rec (.installLoop brk (acc ++ [.tok t])) up ts
    else if isAnyComment t then rec (.installLoop brk (acc ++ [mk .comment [.tok t]])) up ts
    else if kwargIn t installDesignated then do
      let (sub, rest) ← must (rec (.kwGroup (upper t.spelling) .installTargets sbrk) up (t :: ts))
        (t :: ts)
      rec (.installLoop brk (acc ++ [sub])) up rest
    else
      match (normKwarg t).bind (fun w => (installKwargs.lookup w).map (fun p => (w, p))) with
      | some (w, p) => do
        let (sub, rest) ← must (rec (.kwGroup w p kbrk) up (t :: ts)) (t :: ts)
        rec (.installLoop brk (acc ++ [sub])) up rest
      | none => do
        let (sub, rest) ← must (rec (.pos { nargs := .str (S "+"), flags := installFlags } pbrk) up
          (t :: ts)) (t :: ts)
        rec (.installLoop brk (acc ++ [sub])) up rest

/-- Calling an argument parser: the part of each parse function before its loop. -/
def argStart (rec : Rec) (p : ArgP) (brk : List Breaker) (up : Bool) (ts : List Token) : R :=
  match p with
  | .standard cmd specs kwargs => stdStart rec cmd specs kwargs brk up ts
  | .positional spec => rec (.pos spec brk) up ts
  | .conditional => rec (.condLoop brk (leaves (ts.takeWhile isWs))) up (ts.dropWhile isWs)
  | .tuple npargs ntup flags => rec (.tupleLoop npargs ntup flags brk [] none [] 0 0) up ts
  | .shell => do
    let (n, rest) ← rec (.arg (std (.str (S "+"))) brk) up ts
    return (tagGroups n, rest)
  -- `null_parser` (funs/list.py:12-13) returns `None`; every caller drops it because nothing
  -- was consumed
  | .null => .ok (mk .argGroup [], ts)
  | .setFn => setStart rec brk up ts
  | .emptyFn => rec (.emptyLoop brk []) up ts
  | .foreachStandard => foreachStdStart rec brk up ts
  | .foreachIn => foreachInStart rec brk up ts
  | .addSources lib sortable =>
    rec (.srcLoop lib brk 1 sortable false false (leaves (ts.takeWhile isWs)) [] [] []) up
      (ts.dropWhile isWs)
  | .addLibraryObject => objStart rec brk up ts
  | .customTarget => rec (.targetLoop 0 brk (leaves (ts.takeWhile isWs))) up (ts.dropWhile isWs)
  | .fileWrite => fileWriteStart rec brk up ts
  | .installTargets => rec (.installLoop brk (leaves (ts.takeWhile isWs))) up (ts.dropWhile isWs)
  | .choose f =>
    match f ts with
    | .error e => .error e
    | .ok q => rec (.arg q brk) up ts

/-- The loop after the arguments, statement_node.py:92-108: blanks and line comments are
taken; anything else before the closing parenthesis is an error. -/
def stmtTail : Nat → List Token → Except Err (List Node × List Token)
  | 0, ts => .ok ([], ts)
  | _ + 1, [] => .ok ([], [])
  | n + 1, t :: ts =>
    if t.type == .rparen then .ok ([], t :: ts)
    else if isWs t then do
      let (ns, rest) ← stmtTail n ts
      return (.tok t :: ns, rest)
    else if isComment t then do
      let c := consumeComment t ts
      let (ns, rest) ← stmtTail n c.2
      return (c.1 :: ns, rest)
    else .error .user

/-- `ctx.parse_db.get(fnname)`, then "_default", then `StandardParser()`,
statement_node.py:80-84. -/
def lookupParser (ctx : Ctx) (name : Str) : ArgP :=
  match ctx.db (lower name) with
  | some p => p
  | none => (ctx.db (S "_default")).getD (std (.str (S "*")))

/-- `node.cmdspec.spelling`, statement_node.py:86-87. -/
def cmdSpelling : ArgP → Option Str
  | .standard (some c) _ _ => some c.spelling
  | _ => none

/-- `StatementNode.consume`, statement_node.py:45-126. -/
def stmtIter (ctx : Ctx) (rec : Rec) : List Token → R
  | [] => .error .index
  | t :: ts =>
    let ws := ts.takeWhile isWs
    match ts.dropWhile isWs with
    | [] => .error .index
    | l :: ts1 =>
      if l.type ≠ .lparen then .error .value
      else do
        let ws1 := ts1.takeWhile isWs
        let p := lookupParser ctx t.spelling
        let (sub, rest) ← rec (.arg p [.paren]) false (ts1.dropWhile isWs)
        let (tail, rest1) ← stmtTail rest.length rest
        match rest1 with
        | [] => .error .user
        | r :: rest2 =>
          let (trail, rest3) := consumeTrailing ctx rest2
          return (.node .statement { spelling := cmdSpelling p }
            ([mk .funname [.tok t]] ++ leaves ws ++ [mk .lparen [.tok l]] ++ leaves ws1 ++ [sub] ++ tail
              ++ [mk .rparen [.tok r]] ++ trail), rest3)

/-- `FlowType`, parse/common.py:56-60. -/
def flowNames : List Str := [S "IF", S "WHILE", S "FOREACH", S "FUNCTION", S "MACRO"]

/-- `FlowControlNode.consume`, body_nodes.py:104-127, and the head of
`IfBlockNode.consume`. -/
def flowIter (rec : Rec) : List Token → R
  | [] => .error .index
  | t :: ts =>
    if upper t.spelling = S "IF" then rec (.ifLoop []) false (t :: ts)
    else do
      let (o, rest1) ← rec .statement false (t :: ts)
      let (b, rest2) ← rec (.body [S "END" ++ upper t.spelling] []) false rest1
      let (c, rest3) ← rec .statement false rest2
      return (mk .flowControl [o, b, c], rest3)

/-- One round of the loop of `IfBlockNode.consume`, body_nodes.py:148-166. -/
def ifIter (rec : Rec) (acc : List Node) : List Token → R
  | [] => .ok (mk .flowControl acc, [])
  | t :: ts =>
    if upper t.spelling = S "ENDIF" then do
      let (c, rest) ← rec .statement false (t :: ts)
      return (mk .flowControl (acc ++ [c]), rest)
    else do
      let (o, rest1) ← rec .statement false (t :: ts)
      let (b, rest2) ← rec (.body [S "ELSE", S "ELSEIF", S "ENDIF"] []) false rest1
      rec (.ifLoop (acc ++ [o, b])) false rest2

/-- One round of the loop of `BodyNode.consume`, body_nodes.py:45-80.  An at-word
statement is `AtWordStatementNode.consume`, statement_node.py:149-163. -/
def bodyIter (ctx : Ctx) (rec : Rec) (breakset : List Str) (acc : List Node) : List Token → R
  | [] => .ok (mk .body acc, [])
  | t :: ts =>
    if isWs t then
      rec (.body breakset (acc ++ [mk .whitespace (leaves ((t :: ts).takeWhile isWs))])) false
        ((t :: ts).dropWhile isWs)
    else if isAnyComment t then
      let c := consumeComment t ts
      rec (.body breakset (acc ++ [c.1])) false c.2
    else if isOnOff t then rec (.body breakset (acc ++ [mk .onoff [.tok t]])) false ts
    else if t.type == .word then
      if breakset.contains (upper t.spelling) then .ok (mk .body acc, t :: ts)
      else if flowNames.contains (upper t.spelling) then do
        let (sub, rest) ← rec .flow false (t :: ts)
        rec (.body breakset (acc ++ [sub])) false rest
      else do
        let (sub, rest) ← rec .statement false (t :: ts)
        rec (.body breakset (acc ++ [sub])) false rest
    else if t.type == .atword then
      let (trail, rest) := consumeTrailing ctx ts
      rec (.body breakset (acc ++ [mk .atwordStatement (mk .atword [.tok t] :: trail)])) false rest
    else if t.type == .bom then rec (.body breakset acc) false ts
    else .error .internal

/-- One function body or loop iteration. -/
def step (ctx : Ctx) (rec : Rec) : Rec := fun job up ts =>
  match job with
  | .arg p brk => argStart rec p brk up ts
  | .stdLoop cmd specs dflt kwargs brk kbrk acc => stdIter rec cmd specs dflt kwargs brk kbrk acc up ts
  | .pos spec brk => posStart rec spec brk up ts
  | .posLoop spec brk sortable acc n => posIter ctx rec spec brk sortable acc n up ts
  | .kwGroup word p brk => kwIter rec word p brk ts
  | .paren => parenIter ctx rec ts
  | .condLoop brk acc => condIter rec brk acc up ts
  | .tupleLoop npargs ntup flags brk acc grp after np nt =>
    tupleIter ctx rec npargs ntup flags brk acc grp after np nt up ts
  | .flagLoop flags brk acc => flagIter ctx rec flags brk acc up ts
  | .setLoop varname brk acc => setIter ctx rec varname brk acc up ts
  | .emptyLoop brk acc => emptyIter rec brk acc up ts
  | .foreachInLoop brk acc => foreachInIter rec brk acc up ts
  | .srcLoop lib brk state sortable srcSortable inAfter before parg src after =>
    srcIter ctx rec lib brk state sortable srcSortable inAfter before parg src after up ts
  | .objLoop brk acc => objIter rec brk acc up ts
  | .targetLoop state brk acc => targetIter rec state brk acc up ts
  | .installLoop brk acc => installIter rec brk acc up ts
  | .statement => stmtIter ctx rec ts
  | .flow => flowIter rec ts
  | .ifLoop acc => ifIter rec acc ts
  | .body breakset acc => bodyIter ctx rec breakset acc ts

/-- Run a job with at most `n` nested calls. -/
def exec (ctx : Ctx) : Nat → Rec
  | 0 => fun _ _ _ => .error .fuel
  | n + 1 => step ctx (exec ctx n)

/-- The parser with bounded depth, as a function of the fuel. -/
def parseN (ctx : Ctx) (n : Nat) (ts : List Token) : Except Err Node :=
  match exec ctx n (.body [] []) false ts with
  | .error e => .error e
  | .ok (tree, _) => .ok tree

/-- `parse.parse`, parse/__init__.py:61-68.  The fuel is a number of nested calls that is
never exhausted unless the code itself loops (theorem `parse_terminates_partial`). -/
def parse (ctx : Ctx) (ts : List Token) : Except Err Node :=
  parseN ctx (12 * ts.length + 12) ts

end Verif.Parse
