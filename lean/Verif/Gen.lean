import Verif.LintTree
import Verif.CmdSpec

/-!
# cmake-genparsers: `cmakelang/genparsers.py`

From the definitions of functions and macros in a listfile the program generates the entries of
`additional_commands` that describe them.  The model starts from the parse tree and ends at the
dictionary; the files are in `GenMain`.  The
loop of `replace_varrefs` need not end; it has fuel here, and a run that uses it up ends in
`Exc.endless`.
-/

namespace Verif.Gen
open Verif Py Lex Parse
open Verif.Lint (Spot spots kidsOf semToks isNode hasType funName isCall argTree roleOf varName natStr)

/-- `IndexError`, `AttributeError`, `AssertionError`, and no end within the fuel. -/
inductive Exc
  | index | attribute | assertion | endless
  deriving DecidableEq, Repr

/-! ## References to variables, genparsers.py:58-75 -/

/-- A match of `\$\{([\w_]+)\}` at the start of a text, genparsers.py:71: the name, and what comes
after the match.  `\w` is modelled for ASCII. -/
def refAt : Str → Option (Str × Str)
  | '$' :: '{' :: cs =>
    let w := cs.takeWhile Lint.isWordChar
    if w = [] then none
    else
      match cs.dropWhile Lint.isWordChar with
      | '}' :: rest => some (w, rest)
      | _ => none
  | _ => none

/-- `regex.search(value)` is not `None`, genparsers.py:73. -/
def hasRef : Str → Bool
  | [] => false
  | c :: cs => (refAt (c :: cs)).isSome || hasRef cs

/-- The variables that have a value, in the order in which they first got one. -/
abbrev Vars := List (Str × Str)

/-- `VarSub.__call__`, genparsers.py:58-63. -/
def valueOf (vars : Vars) (name : Str) : Str := (vars.lookup name).getD []

/-- `regex.sub(repl, value)`, genparsers.py:74: from left to right, without overlaps.  The fuel is the
length of the text. -/
def subRefs (vars : Vars) : Nat → Str → Str
  | 0, s => s
  | _ + 1, [] => []
  | n + 1, c :: cs =>
    match refAt (c :: cs) with
    | some (w, rest) => valueOf vars w ++ subRefs vars n rest
    | none => c :: subRefs vars n cs

/-- `replace_varrefs`, genparsers.py:66-75; `none` if the rounds do not suffice. -/
def replaceRefs (vars : Vars) : Nat → Str → Option Str
  | 0, _ => none
  | n + 1, s => if hasRef s then replaceRefs vars n (subRefs vars s.length s) else some s

/-! ## What is read off the tree -/

/-- `find_statements_in_subtree`, genparsers.py:31-55: a queue of nodes; what is found is not looked
into.  The fuel is the number of nodes. -/
def find (names : List Str) : Nat → List Spot → List Spot
  | 0, _ => []
  | _ + 1, [] => []
  | n + 1, s :: q =>
    if (roleOf s.node = .set ∧ names.contains (S "set")) ∨ isCall names s.node then s :: find names n q
    else find names n (q ++ (spots s.node).filter fun k => isNode k.node)

/-- The statements with some names in a tree. -/
def findIn (names : List Str) (n : Node) : List Spot := find names (Lint.sizeOf n) [⟨[], 0, n⟩]

/-- `tree.value_group` of a `set`, funs/set.py:116-127: the last group that neither starts with
`PARENT_SCOPE` nor is the first one. -/
def valueGroup (args : Node) : Option Node :=
  ((((kidsOf args).filter (hasType .pargGroup)).drop 1).filter fun g =>
    match semToks g with
    | [] => true
    | t :: _ => normKwarg t != some (S "PARENT_SCOPE")).getLast?

/-- `s.strip('"')`. -/
def stripQuotes (s : Str) : Str := rstripBy (· == '"') (lstripBy (· == '"') s)

/-- A statement that `process_defn_body` looks at: a `set` (its variable and, if there are any, its
values), one whose tree has no `varname`, a `cmake_parse_arguments`, or anything else. -/
inductive Found
  | set (name : Str) (values : Option (List Str))
  | noName
  | parseArgs (args : List Str)
  | other
  deriving DecidableEq, Repr

/-- genparsers.py:98-108, and 82-88: what is read from a statement. -/
def found (n : Node) : Found :=
  if hasType .statement n = false then .other
  else if funName n = S "set" then
    if roleOf (argTree n) = .set then
      match varName (argTree n) with
      | none => .noName
      | some t => .set t.spelling ((valueGroup (argTree n)).map fun g => (semToks g).map (·.spelling))
    else .noName
  else if funName n = S "list" then .other
  else if funName n = S "cmake_parse_arguments" then .parseArgs ((semToks (argTree n)).map (·.spelling))
  else .other

/-- The statements of a body that matter, genparsers.py:95-97. -/
def bodyFound (body : Node) : List Found :=
  (findIn [S "list", S "cmake_parse_arguments", S "set"] body).map fun s => found s.node

/-- A definition: the words of its first group, and what is found in its body. -/
structure Defn where
  words : Except Exc (List Str)
  body : Except Exc (List Found)

/-- `statement.argtree.parg_groups[0].get_tokens(kind="semantic")`, genparsers.py:148; only a
`StandardArgTree` has the attribute. -/
def firstWords (n : Node) : Except Exc (List Str) :=
  if roleOf (argTree n) = .standard then
    match (kidsOf (argTree n)).find? (hasType .pargGroup) with
    | none => .error .index
    | some g => .ok ((semToks g).map (·.spelling))
  else .error .attribute

/-- `statement.parent.children[1]`, genparsers.py:165, which must be a body, line 93. -/
def defnOf (s : Spot) : Defn :=
  ⟨firstWords s.node,
    match s.kids[1]? with
    | none => .error .index
    | some b => if hasType .body b then .ok (bodyFound b) else .error .assertion⟩

/-- The definitions of a file, in the order in which they are found, genparsers.py:174-175. -/
def defnsOf (tree : Node) : List Defn := (findIn [S "function", S "macro"] tree).map defnOf

/-! ## What is generated -/

/-- An entry of the dictionary: `pargs["nargs"]`, `pargs["flags"]`, `kwargs` and `spelling`, where the
last three may be missing. -/
structure Entry where
  nargs : Nargs
  flags : Option (List Str) := none
  kwargs : Option (List (Str × Nargs)) := none
  spelling : Option Str := none
  deriving DecidableEq, Repr

/-- `replace_varrefs` with fuel. -/
def replaced (fuel : Nat) (vars : Vars) (s : Str) : Except Exc Str :=
  match replaceRefs vars fuel s with
  | none => .error .endless
  | some v => .ok v

/-- `variables.pop(name, None)`. -/
def popKey (k : Str) (vars : Vars) : Vars := vars.filter fun p => p.1 != k

/-- `process_set_statement`, genparsers.py:78-89. -/
def setVar (fuel : Nat) (vars : Vars) (name : Str) (values : Option (List Str)) : Except Exc Vars := do
  let name ← replaced fuel vars name
  match values with
  | none => return popKey name vars
  | some vs =>
    let v ← replaced fuel vars (join (S ";") (vs.map stripQuotes))
    return setKey name v vars

/-- `pargs.pop(0).spelling.strip('"')` with references replaced, split at semicolons,
genparsers.py:110-115. -/
def popList (fuel : Nat) (vars : Vars) : List Str → Except Exc (List Str × List Str)
  | [] => .error .index
  | a :: more => do
    let s ← replaced fuel vars (stripQuotes a)
    return (splitOn ';' s, more)

/-- `x.strip().upper()` for the elements of a list, without the empty ones, genparsers.py:125-139. -/
def listNames (l : List Str) : List Str :=
  (l.map fun x => upper (rstripBy isSpace (lstripBy isSpace x))).filter fun x => x != []

/-- genparsers.py:117-122. -/
def atLeast (n : Nat) : Nargs := if n = 0 then .str (S "*") else .str (natStr n ++ S "+")

/-- genparsers.py:108-140: the entry for a `cmake_parse_arguments` with these arguments. -/
def parseEntry (fuel : Nat) (vars : Vars) (n : Nat) (args : List Str) : Except Exc Entry :=
  match args with
  | [] => .error .index
  | _ :: args => do
    let (flags, args) ← popList fuel vars args
    let (ones, args) ← popList fuel vars args
    let (many, _) ← popList fuel vars args
    return {
      nargs := atLeast n
      flags := some (listNames flags)
      kwargs := some ((listNames many).foldl (fun d k => setKey k (.str (S "+")) d)
        ((listNames ones).foldl (fun d k => setKey k (.int 1) d) [])) }

/-- The loop of `process_defn_body`, genparsers.py:92-141. -/
def bodyEntry (fuel : Nat) (n : Nat) : Vars → List Found → Except Exc Entry
  | _, [] => .ok { nargs := .int n }
  | vars, .set name values :: fs => do
    let vars ← setVar fuel vars name values
    bodyEntry fuel n vars fs
  | _, .noName :: _ => .error .attribute
  | vars, .other :: fs => bodyEntry fuel n vars fs
  | vars, .parseArgs args :: _ => parseEntry fuel vars n args

/-- `process_defn`, genparsers.py:144-166: the name and the entry. -/
def defnEntry (fuel : Nat) (d : Defn) : Except Exc (Str × Entry) := do
  let words ← d.words
  match words with
  | [] => .error .index
  | w :: params =>
    let fs ← d.body
    let e ← bodyEntry fuel params.length [] fs
    return (lower w, { e with spelling := if lower w ≠ w ∧ upper w ≠ w then some w else none })

/-- The dictionary. -/
abbrev Table := List (Str × Entry)

/-- The loop of `process_tree`, genparsers.py:169-180. -/
def tableOf (fuel : Nat) : Table → List Defn → Except Exc Table
  | out, [] => .ok out
  | out, d :: ds => do
    let (name, e) ← defnEntry fuel d
    tableOf fuel (if startsWith (S "_") name then out else setKey name e out) ds

/-- `process_tree`, genparsers.py:169-180. -/
def processTree (fuel : Nat) (tree : Node) : Except Exc Table := tableOf fuel [] (defnsOf tree)

/-- The dictionary as an element of `additional_commands`. -/
def Entry.decl (e : Entry) : Decl :=
  .dict (some (.dict { nargs := some e.nargs, flags := e.flags.getD [] })) []
    ((e.kwargs.getD []).map fun k => (k.1, .scalar k.2)) e.spelling none

end Verif.Gen
