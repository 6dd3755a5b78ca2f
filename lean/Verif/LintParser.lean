import Verif.LintTree
import Verif.GroupSpec
import Verif.ParseDb

/-!
# What the parser itself records for cmake-lint

The parse functions of `cmakelang/parse/funs/*.py` that call `ctx.lint_ctx.record_lint`, and
`StandardArgTree.check_required_kwargs`, parse/argument_nodes.py:61-75.

The code records while it parses; here the records of a command are read off its finished part of the
parse tree.  What a function looks at before it parses is the tokens of the command after its opening
parenthesis; what it looks at afterwards is the tree of its arguments.  Nothing is suppressed while the
parser runs, and all records are made in the order of the commands.
-/

namespace Verif.Lint
open Verif Py Lex Parse

/-- The parse functions that record something. -/
inductive Recorder
  | file | list | customCommand | customTarget | empty | buildCommand | policy | set
  deriving DecidableEq, Repr

/-- Their entries in the command database: the `populate_db` functions. -/
def recorders : List (Str × Recorder) :=
  [(c! "file", .file), (c! "list", .list), (c! "add_custom_command", .customCommand),
   (c! "add_custom_target", .customTarget), (c! "break", .empty), (c! "continue", .empty),
   (c! "enable_testing", .empty), (c! "return", .empty), (c! "build_command", .buildCommand),
   (c! "cmake_policy", .policy), (c! "set", .set)]

/-- The user's specification has a command with this name, which replaces the entry:
`parse_db.update(get_funtree(config.parse.fn_spec))`, lint/__main__.py:43-44. -/
def overridden (user : Spec) (name : Str) : Bool := ((funtree user.kwargs).lookup name).isSome

/-- The function for a command. -/
def recorderOf (user : Spec) (name : Str) : Option Recorder :=
  if overridden user name then none else recorders.lookup name

/-- The tokens that a parse function gets, statement_node.py:64-84, up to the end of the command. -/
def givenTo (s : Node) : List Token :=
  ((s.toks.dropWhile fun t => t.type != .lparen).drop 1).dropWhile isWs

/-- `tokens[0].get_location()`, or `()` if there is none. -/
def headLoc : List Token → List Nat
  | [] => []
  | t :: _ => tokLoc t

/-- The choice by the first word, in `parse_file`, funs/file.py:365-419, and `parse_list`,
funs/list.py:80-127. -/
def firstWordRecs (words : List Str) (given : List Token) : List Rec :=
  match nthSem 0 given with
  | none => [⟨c! "E1120", headLoc given, []⟩]
  | some t =>
    if t.type = .rparen then [⟨c! "E1120", headLoc given, []⟩]
    else if t.type = .deref then [⟨c! "C0114", tokLoc t, []⟩]
    else if words.contains (upper t.spelling) then []
    else [⟨c! "E1126", tokLoc t, []⟩]

/-- `kwargnode.keyword.token` of the keyword groups among the children. -/
def keywordsOf (n : Node) : List Token :=
  (kidsOf n).filterMap fun k => if hasType .kwargGroup k then k.toks.head? else none

/-- The location of the first word with a meaning, or `loc`. -/
def placeOf (loc : List Nat) : List Token → List Nat
  | [] => loc
  | t :: _ => tokLoc t

/-- `check_required_kwargs`, argument_nodes.py:61-75, and the end of `parse_add_custom_target`,
funs/add_xxx.py:261-270.  The required keywords are given in the order of the records; `loc` is the
location if the arguments have no word. -/
def requiredRecs (loc : List Nat) (required : List (Str × Str)) (n : Node) : List Rec :=
  required.flatMap fun p =>
    if (keywordsOf n).any fun t => normKwarg t == some p.2 then []
    else [⟨p.1, placeOf loc (semantics n.toks), [p.2]⟩]

/-- The required keywords of `add_custom_command`, funs/add_xxx.py:52-57, 100-105, sorted by code. -/
def commandRequired : List (Str × Str) := [(c! "C0113", c! "COMMENT"), (c! "E1125", c! "COMMAND")]

/-- `parse_add_custom_command`, funs/add_xxx.py:110-141, with the checks at the end of the two
functions that it calls. -/
def customCommandRecs (given : List Token) (args : Node) : List Rec :=
  let required := requiredRecs (nodeLoc args) commandRequired args
  match nthSem 0 given with
  | none => [⟨c! "E1120", headLoc given, []⟩]
  | some t =>
    if t.type = .rparen then [⟨c! "E1120", headLoc given, []⟩]
    else if t.type = .deref then ⟨c! "C0114", tokLoc t, []⟩ :: required
    else if normKwarg t = some (c! "TARGET") ∨ normKwarg t = some (c! "OUTPUT") then required
    else ⟨c! "E1126", tokLoc t, []⟩ :: required

/-- The loop of `parse_add_custom_target`, funs/add_xxx.py:190-259: positional groups after the first
keyword or flag.  States as in `Parse.targetIter`.  The message of E1122 needs an argument, and none is
given. -/
def strayRecs : Nat → List Node → List Rec
  | _, [] => []
  | state, k :: ks =>
    if hasType .pargGroup k || hasType .kwargGroup k then
      let known := k.toks.head?.any fun t => kwargIn t (keys targetKwargs ++ targetFlags)
      if state = 0 then strayRecs 1 ks
      else if known || state = 1 then strayRecs 2 ks
      else ⟨c! "E1122", headLoc k.toks, []⟩ :: strayRecs 2 ks
    else strayRecs state ks

/-- `parse_add_custom_target`, funs/add_xxx.py:144-271. -/
def customTargetRecs (args : Node) : List Rec :=
  strayRecs 0 (kidsOf args) ++ requiredRecs [] [(c! "C0113", c! "COMMENT")] args

/-- The loop of `parse_empty`, funs/break.py:31-57: every group of arguments is too many. -/
def emptyRecs (args : Node) : List Rec :=
  (kidsOf args).flatMap fun k => if hasType .pargGroup k then [⟨c! "E1121", headLoc k.toks, []⟩] else []

/-- `parse_build_command`, funs/miscellaneous.py:31-38.  The method `upper` is not called, so the test
holds if there are two tokens at all, those after the command included.  The message of W0106 needs two
arguments, and one is given. -/
def buildCommandRecs (given more : List Token) : List Rec :=
  match nthSem 1 (given ++ more) with
  | none => []
  | some _ => [⟨c! "W0106", headLoc given, [c! "build_command(<cachevariable> <makecommand>)"]⟩]

/-- `parse_cmake_policy`, funs/miscellaneous.py:76-101. -/
def policyRecs (given : List Token) : List Rec :=
  match nthSem 0 given with
  | none => []
  | some t =>
    if t.type = .deref then [⟨c! "C0114", tokLoc t, []⟩]
    else if [c! "VERSION", c! "SET", c! "GET", c! "PUSH", c! "POP"].contains (upper t.spelling) then []
    else [⟨c! "E1126", tokLoc t, []⟩]

/-- The words after `CACHE`, funs/set.py:87-111; `after` are the tokens after the group. -/
def cacheRecs (group : Node) (after : List Token) : List Rec :=
  match (semantics group.toks).drop 1 with
  | [] => [⟨c! "E1120", headLoc after, [c! "<variable>"]⟩]
  | [_] => [⟨c! "E1120", headLoc after, [c! "<value>"]⟩]
  | [_, _] => []
  | _ :: _ :: third :: rest =>
    if rest.length > 1 then [⟨c! "E1121", tokLoc third, []⟩]
    else if upper third.spelling = c! "FORCE" then []
    else [⟨c! "E1121", tokLoc third, []⟩]

/-- The loop of `parse_set`, funs/set.py:59-129; `after` are the tokens after the arguments. -/
def setRecs (after : List Token) : List Node → List Rec
  | [] => []
  | k :: ks => (if hasType .kwargGroup k then cacheRecs k (toksL ks ++ after) else []) ++ setRecs after ks

/-- What a parse function records for a command; `more` are the tokens after the command. -/
def Recorder.recs (s : Node) (more : List Token) : Recorder → List Rec
  | .file => firstWordRecs (keys fileTable) (givenTo s)
  | .list => firstWordRecs (keys listTable) (givenTo s)
  | .customCommand => customCommandRecs (givenTo s) (argTree s)
  | .customTarget => customTargetRecs (argTree s)
  | .empty => emptyRecs (argTree s)
  | .buildCommand => buildCommandRecs (givenTo s) more
  | .policy => policyRecs (givenTo s)
  | .set => setRecs ((givenTo s).drop (argTree s).toks.length) (kidsOf (argTree s))

/-- What the parser records for a command. -/
def stmtRecs (user : Spec) (s : Node) (more : List Token) : List Rec :=
  match recorderOf user (funName s) with
  | none => []
  | some rc => rc.recs s more

/-- The commands one after the other.  Only those after a command count as the tokens after it. -/
def parserRecs (user : Spec) : List Node → List Rec
  | [] => []
  | s :: ss => stmtRecs user s (toksL ss) ++ parserRecs user ss

/-- What the parser records for the tokens of a file. -/
def parserLint (user : Spec) (ctx : Parse.Ctx) (ts : List Token) : List Rec :=
  match parse ctx ts with
  | .error _ => []
  | .ok tree => parserRecs user (stmtsOf tree)

end Verif.Lint
