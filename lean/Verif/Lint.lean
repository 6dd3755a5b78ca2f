import Verif.Main
import Verif.SpecTables

/-!
# cmake-lint: recording, suppressing, reporting

Models cmakelang/lint/lint_util.py:36-174, the line checks and the pragma reader of
cmakelang/lint/basic_checker.py, and the driver cmakelang/lint/__main__.py:27-203.  The checks on
tokens and on the parse tree are a parameter of the driver here: a list of calls.
-/

namespace Verif.Lint
open Verif Py

/-- `str.isspace` for one character: what `str.rstrip()` and `str.split()` use. -/
def isBlank (c : Char) : Bool :=
  let n := c.toNat
  (9 ≤ n && n ≤ 13) || (28 ≤ n && n ≤ 32) || n == 0x85 || n == 0xA0 || n == 0x1680 ||
  (0x2000 ≤ n && n ≤ 0x200A) || n == 0x2028 || n == 0x2029 || n == 0x202F || n == 0x205F ||
  n == 0x3000

/-- The identifiers of the lint database, lint/lintdb.py:32-267. -/
def lintIds : List Str :=
  [S "C0102", S "C0103", S "C0111", S "C0112", S "C0113", S "C0114", S "C0201", S "C0202",
   S "C0301", S "C0303", S "C0304", S "C0305", S "C0306", S "C0307", S "C0321", S "C0327",
   S "E0011", S "E0012", S "E0103", S "E0108", S "E0109", S "E1120", S "E1121", S "E1122",
   S "E1125", S "E1126", S "R0911", S "R0912", S "R0913", S "R0914", S "R0915", S "W0101",
   S "W0104", S "W0105", S "W0106"]

/-- How many arguments the message of a code needs, lint/lintdb.py:32-267.  The fourth field of C0307
is left out, here and where it is recorded. -/
def fieldsOf (id : Str) : Nat :=
  if id ∈ [c! "C0103", c! "C0307"] then 3
  else if id ∈ [c! "C0301", c! "C0306", c! "R0911", c! "R0912", c! "R0913", c! "R0914", c! "R0915",
    c! "W0105", c! "W0106"] then 2
  else if id ∈ [c! "C0102", c! "C0113", c! "C0202", c! "C0305", c! "C0327", c! "E0011", c! "E0012",
    c! "E0103", c! "E0108", c! "E0109", c! "E1122", c! "E1125", c! "W0104"] then 1
  else 0

/-- `LintRecord`, lint_util.py:10-30.  A location is a tuple of numbers, empty by
default; the message is kept as the arguments of its format. -/
structure Rec where
  id : Str
  loc : List Nat
  args : List Str := []
  deriving DecidableEq, Repr

/-- `SuppressionEvent`, lint_util.py:33-34. -/
structure Event where
  line : Nat
  add : Bool
  ids : List Str
  deriving DecidableEq, Repr

/-- `FileContext`, lint_util.py:37-51, without the counter that nothing reads. -/
structure Ctx where
  lint : List Rec := []
  supp : List Str := []
  events : List Event := []
  deriving DecidableEq, Repr

/-- The calls that the checkers make. -/
inductive Call
  | suppress (line : Nat) (ids : List Str)
  | unsuppress (line : Nat) (ids : List Str)
  | record (r : Rec)
  deriving DecidableEq, Repr

/-- The loop of `suppress`, lint_util.py:60-64: the set after, and the new ones. -/
def addNew : List Str → List Str → List Str × List Str
  | supp, [] => (supp, [])
  | supp, i :: rest =>
    if i ∈ supp then addNew supp rest
    else
      let r := addNew (i :: supp) rest
      (r.1, i :: r.2)

/-- One call on the context, lint_util.py:56-92; `none` is the `KeyError` for an unknown
code, or the `IndexError` of `msgfmt.format` when the message needs more arguments than were given;
arguments beyond those are ignored. -/
def Ctx.call (disabled : List Str) (c : Ctx) : Call → Option Ctx
  | .suppress line ids =>
    let r := addNew c.supp ids
    some { c with supp := r.1, events := c.events ++ [⟨line, true, r.2⟩] }
  | .unsuppress line ids =>
    some { c with supp := c.supp.filter (· ∉ ids), events := c.events ++ [⟨line, false, ids⟩] }
  | .record r =>
    if r.id ∈ disabled then some c
    else if r.id ∈ c.supp then some c
    else if r.id ∈ lintIds ∧ fieldsOf r.id ≤ r.args.length then some { c with lint := c.lint ++ [r] }
    else none

/-- A sequence of calls. -/
def Ctx.run (disabled : List Str) : Ctx → List Call → Option Ctx
  | c, [] => some c
  | c, x :: rest => (c.call disabled x).bind (fun c' => c'.run disabled rest)

/-- Comparison of tuples of numbers. -/
def locLe : List Nat → List Nat → Bool
  | [], _ => true
  | _ :: _, [] => false
  | a :: as, b :: bs => a < b || (a == b && locLe as bs)

/-- The order of `get_lint`, lint_util.py:96-99; the index makes the sort stable. -/
def recLe (a b : Rec) : Bool :=
  if a.loc = b.loc then strLe a.id b.id else locLe a.loc b.loc

/-- One suppression event, lint_util.py:110-117. -/
def applyEvent (active : List Str) (e : Event) : List Str :=
  if e.add then active ++ e.ids else active.filter (· ∉ e.ids)

/-- The `while` loop, lint_util.py:108-117: the active set and the events left. -/
def popEvents (line : Nat) : List Str → List Event → List Str × List Event
  | active, [] => (active, [])
  | active, e :: rest =>
    if e.line ≤ line then popEvents line (applyEvent active e) rest else (active, e :: rest)

/-- The loop over the records, lint_util.py:106-122. -/
def sweep : List Str → List Event → List Rec → List Rec
  | _, _, [] => []
  | active, events, r :: rest =>
    let s := match r.loc with
      | [] => (active, events)
      | line :: _ => popEvents line active events
    if r.id ∈ s.1 then sweep s.1 s.2 rest else r :: sweep s.1 s.2 rest

/-- `get_lint`, lint_util.py:94-123. -/
def Ctx.getLint (c : Ctx) : List Rec := sweep [] c.events (sortBy recLe c.lint)

/-- `has_lint`, lint_util.py:129-130. -/
def Ctx.hasLint (c : Ctx) : Bool := !c.getLint.isEmpty

/-! ## The line checks, basic_checker.py:208-254 -/

/-- The options that the line checks and the recorder read. -/
structure Cfg where
  lineWidth : Nat := 80
  lineEnding : Str := S "unix"
  useTabchars : Bool := false
  fractionalTabPolicy : Str := S "use-space"
  disabled : List Str := []
  deriving Repr

def natStr (n : Nat) : Str := (Nat.repr n).toList

/-- Line length, basic_checker.py:219-221. -/
def checkLength (cfg : Cfg) (lineno : Nat) (line : Str) : List Rec :=
  if line.length > cfg.lineWidth then
    [⟨S "C0301", [lineno], [natStr line.length, natStr cfg.lineWidth]⟩]
  else []

/-- `line.endswith("\r")`. -/
def endsCR (line : Str) : Bool := line.getLast? == some '\r'

/-- Line ending, basic_checker.py:223-232. -/
def checkEnding (cfg : Cfg) (lineno : Nat) (line : Str) : List Rec :=
  if endsCR line then
    if cfg.lineEnding = S "unix" then [⟨S "C0327", [lineno], [S "windows"]⟩] else []
  else if cfg.lineEnding = S "windows" then [⟨S "C0327", [lineno], [S "unix"]⟩] else []

/-- `line[:-1]` in the first branch, basic_checker.py:227. -/
def chopCR (line : Str) : Str := if endsCR line then line.dropLast else line

/-- Trailing whitespace, basic_checker.py:234-235. -/
def checkTrailing (lineno : Nat) (line : Str) : List Rec :=
  if (rstripBy isBlank line).length ≠ line.length then [⟨S "C0303", [lineno], []⟩] else []

/-- Indentation, basic_checker.py:237-252; `match.group(1)` of `([ \t]*)(.*)`. -/
def checkIndent (cfg : Cfg) (lineno : Nat) (line : Str) : List Rec :=
  let indentation := line.takeWhile (fun c => c == ' ' || c == '\t')
  if !cfg.useTabchars then
    if '\t' ∈ indentation then
      [⟨S "C0306", [lineno, indentation.idxOf '\t'], [S "tab", S "space"]⟩]
    else []
  else if cfg.fractionalTabPolicy = S "round-up" then
    if ' ' ∈ indentation then
      [⟨S "C0306", [lineno, indentation.idxOf ' '], [S "space", S "tab"]⟩]
    else []
  else
    let subindent := lstripBy (· == '\t') indentation
    if '\t' ∈ subindent then
      [⟨S "C0306", [lineno, indentation.length - subindent.length], [S "space", S "tab"]⟩]
    else []

/-- The body of the loop, basic_checker.py:215-252. -/
def checkLine (cfg : Cfg) (lineno : Nat) (line : Str) : List Rec :=
  checkLength cfg lineno line ++ checkEnding cfg lineno line ++
  checkTrailing lineno (chopCR line) ++ checkIndent cfg lineno (chopCR line)

/-- The loop; line numbers start at one. -/
def checkLines (cfg : Cfg) : Nat → List Str → List Rec
  | _, [] => []
  | n, l :: ls => checkLine cfg n l ++ checkLines cfg (n + 1) ls

/-- `check_basics`, basic_checker.py:208-256. -/
def checkBasics (cfg : Cfg) (content : Str) : List Rec :=
  let lines := splitOn '\n' content
  checkLines cfg 1 lines ++
  (if content.getLast? = some '\n' then [] else [⟨S "C0304", [lines.length], []⟩])

/-! ## Pragmas, basic_checker.py:443-487 -/

/-- `str.split()`. -/
def splitBlank : Str → List Str
  | [] => []
  | c :: cs =>
    if isBlank c then splitBlank cs
    else
      match cs with
      | [] => [[c]]
      | d :: _ =>
        if isBlank d then [c] :: splitBlank cs
        else
          match splitBlank cs with
          | [] => [[c]]
          | w :: ws => (c :: w) :: ws

/-- The loop over the identifiers of one `disable=` item, basic_checker.py:457-463. -/
def pragmaIds (row col : Nat) : List Str → List Str × List Rec
  | [] => ([], [])
  | i :: rest =>
    let r := pragmaIds row col rest
    if i ∈ lintIds then (i :: r.1, r.2) else (r.1, ⟨S "E0012", [row, col], [i]⟩ :: r.2)

/-- `parse_pragmas_from_token`, basic_checker.py:443-466; the column moves only past items
without `=`.  Locations keep line and column, not the offset. -/
def pragmaItems (row : Nat) : Nat → List Str → List Str × List Rec
  | _, [] => ([], [])
  | col, item :: rest =>
    if '=' ∉ item then
      let r := pragmaItems row (col + item.length + 1) rest
      (r.1, ⟨S "E0011", [row, col], [item]⟩ :: r.2)
    else
      let key := item.takeWhile (· ≠ '=')
      let value := (item.dropWhile (· ≠ '=')).drop 1
      let r := pragmaItems row col rest
      if key = S "disable" then
        let p := pragmaIds row col (splitOn ',' value)
        (p.1 ++ r.1, p.2 ++ r.2)
      else (r.1, ⟨S "E0011", [row, col], [key]⟩ :: r.2)

/-- One line comment in `parse_pragmas_from_comment`, basic_checker.py:468-487. -/
def pragmaComment (row col : Nat) (spelling : Str) : List Str × List Rec :=
  match stripPrefix? (S "# cmake-lint: ") spelling with
  | none => ([], [])
  | some content => pragmaItems row (col + (S "# cmake-lint: ").length) (splitBlank content)

/-! ## The driver, lint/__main__.py -/

/-- Reading one file, lint/__main__.py:150-165. -/
inductive ReadResult
  | unreadable   -- IOError, OSError
  | undecodable  -- UnicodeDecodeError
  | text (content : Str)
  deriving DecidableEq, Repr

/-- What the driver relies on. -/
structure Env where
  /-- The configuration of a path, lint/__main__.py:140-146. -/
  config : Str → Except Main.Exc Cfg
  read : Str → Cfg → ReadResult
  /-- The checks after the line checks, lint/__main__.py:39-47. -/
  check : Cfg → Str → Except Main.Exc (List Call)

/-- `process_file`, lint/__main__.py:27-47.  `config.set_line_ending` does not exist on the
configuration object, so `auto` raises `AttributeError`. -/
def processFile (env : Env) (cfg : Cfg) (content : Str) : Except Main.Exc (List Call) :=
  if cfg.lineEnding = S "auto" then .error .other
  else
    match env.check cfg content with
    | .error e => .error e
    | .ok calls => .ok ((checkBasics cfg content).map .record ++ calls)

/-- What is written to the output. -/
inductive Out
  | title (path : Str)
  | record (path : Str) (r : Rec)
  | blank
  | summary (files : Nat) (counts : List (Char × Nat))
  deriving DecidableEq, Repr

/-- `global_ctx.file_ctxs`, a dictionary in order of insertion. -/
abbrev Ctxs := List (Str × Ctx)

/-- `get_file_ctx`, lint_util.py:146-151. -/
def Ctxs.get (cs : Ctxs) (path : Str) : Ctx := ((cs.lookup path).getD {})

/-- The dictionary after the context of `path` has changed. -/
def Ctxs.put (c : Ctx) (path : Str) : Ctxs → Ctxs
  | [] => [(path, c)]
  | (p, d) :: rest => if p = path then (p, c) :: rest else (p, d) :: Ctxs.put c path rest

/-- One count, lint_util.py:157-160: a dictionary from the first character of the code. -/
def bump (k : Char) : List (Char × Nat) → List (Char × Nat)
  | [] => [(k, 1)]
  | (c, n) :: rest => if c = k then (c, n + 1) :: rest else (c, n) :: bump k rest

/-- `record.spec.idstr[0]`; every code of the database is non-empty. -/
def category (r : Rec) : Char := r.id.headD ' '

/-- `get_category_counts`, lint_util.py:153-161. -/
def categoryCounts (cs : Ctxs) : List (Char × Nat) :=
  (sortBy (fun a b => strLe a.1 b.1) cs).foldl
    (fun acc pc => pc.2.getLint.foldl (fun acc r => bump (category r) acc) acc) []

/-- `category_names`, lint_util.py:134-139. -/
def categoryKnown (c : Char) : Bool := c ∈ ['C', 'E', 'R', 'W']

/-- `write_summary`, lint_util.py:163-174; an unknown category is a `KeyError`.  The counts are
kept as numbers. -/
def summary (cs : Ctxs) : Except Main.Exc Out :=
  let counts := sortBy (fun a b => decide (a.1.toNat ≤ b.1.toNat)) (categoryCounts cs)
  if counts.all (fun kc => categoryKnown kc.1) then .ok (.summary cs.length counts)
  else .error .other

/-- A run: the output, the contexts at the end, the return code or exception. -/
structure Run where
  out : List Out
  ctxs : Ctxs
  result : Except Main.Exc Nat

/-- The loop of `inner_main`, lint/__main__.py:137-175.  For `-` the path has become a file
number, on which `len` and the format `{:s}` raise. -/
def loop (env : Env) (decorate : Bool) : List Str → Ctxs → Nat → Run
  | [], cs, rc => ⟨[], cs, .ok rc⟩
  | f :: rest, cs, rc =>
    match env.config f with
    | .error e => ⟨[], cs, .error e⟩
    | .ok cfg =>
      match env.read f cfg with
      | .unreadable => loop env decorate rest cs 1
      | .undecodable => loop env decorate rest cs 1
      | .text content =>
        match processFile env cfg content with
        | .error e => ⟨[], cs, .error e⟩
        | .ok calls =>
          match (cs.get f).run cfg.disabled calls with
          | none => ⟨[], cs, .error .other⟩
          | some c =>
            if f = S "-" ∧ (decorate ∨ c.hasLint) then ⟨[], Ctxs.put c f cs, .error .other⟩
            else
              let r := loop env decorate rest (Ctxs.put c f cs) (if c.hasLint then 1 else rc)
              ⟨(if decorate then [Out.title f] else []) ++ c.getLint.map (Out.record f) ++
                (if decorate then [Out.blank] else []) ++ r.out, r.ctxs, r.result⟩

/-- `inner_main`, lint/__main__.py:120-180, after the arguments have been parsed and without
`--dump-config`. -/
def innerMain (env : Env) (decorate : Bool) (infiles : List Str) : Run :=
  if S "-" ∈ infiles ∧ infiles.length ≠ 1 then ⟨[], [], .error .assertionError⟩
  else
    let r := loop env decorate infiles [] 0
    match r.result with
    | .error _ => r
    | .ok _ =>
      if decorate then
        match summary r.ctxs with
        | .ok s => { r with out := r.out ++ [s] }
        | .error e => { r with result := .error e }
      else r

/-- `main`, lint/__main__.py:183-203: the status for each way to end.  Not shown:
`SystemExit` gives 0, also for a bad command line. -/
def exitStatus (r : Run) : Nat :=
  match r.result with
  | .ok rc => rc
  | .error .userError => 1
  | .error _ => 2

end Verif.Lint
