import Verif.Gen
import Verif.Main

/-!
# The command line of cmake-genparsers

Models cmakelang/genparsers.py:184-293.  As in `Main`, the file system is a map from paths to files.
Decoding, and what the json, yaml and pprint modules write for a dictionary, are parameters; so is the
parse context of the default configuration.  Every file is read with the default configuration,
genparsers.py:250.
-/

namespace Verif.Gen
open Verif Py Lex
open Verif.Main (Bytes File FS Op)

/-- `--output-format`, genparsers.py:215-217. -/
inductive OutFmt
  | json | yaml | python
  deriving DecidableEq, Repr

/-- What the program relies on. -/
structure MainEnv where
  /-- The default input encoding; `none` is a UnicodeDecodeError. -/
  decode : Bytes → Option Str
  stdin : Bytes
  /-- The parse context of the default configuration, genparsers.py:196-198. -/
  ctx : Parse.Ctx
  /-- For the loop that need not end, see `replaceRefs`. -/
  fuel : Nat
  /-- The writes of `json.dump`, `yaml.dump` or `pformat` for a dictionary, encoded, and whether they end
  without an exception (yaml need not be installed), genparsers.py:274-288. -/
  dump : OutFmt → Table → List Bytes × Bool

/-- The options, genparsers.py:204-218. -/
structure MainArgs where
  outfile : Option Str := none
  fmt : OutFmt := .python
  infiles : List Str
  deriving Repr

/-- How the program ends: by returning an exit status, by an exception, or not at all. -/
inductive End
  | exit (code : Nat) | raised | endless
  deriving DecidableEq, Repr

/-- The variables that one round of the loop leaves to the next: `outdict`, and `intext` if it is
bound. -/
structure Loop where
  out : Table := []
  text : Option Str := none

/-- `outdict.update(cmd_spec)`, genparsers.py:268. -/
def update (out table : Table) : Table := table.foldl (fun out p => Parse.setKey p.1 p.2 out) out

/-- `process_file` and `process_tree`, genparsers.py:184-201 and 169-181.  Exceptions are raised again,
genparsers.py:269-271. -/
def tableFor (env : MainEnv) (text : Str) : Except End Table :=
  match tokenize text with
  | .error _ => .error .raised
  | .ok ts =>
    match Parse.parse env.ctx ts with
    | .error _ => .error .raised
    | .ok tree =>
      match processTree env.fuel tree with
      | .error .endless => .error .endless
      | .error _ => .error .raised
      | .ok table => .ok table

/-- The bytes of an input; `none` if it cannot be opened, genparsers.py:251-259. -/
def source (env : MainEnv) (fs : FS) (path : Str) : Option Bytes :=
  if path = S "-" then some env.stdin else (fs path).map (·.content)

/-- One round of the loop, genparsers.py:248-271.  If the file cannot be opened, `with infile` is reached
nevertheless, and either `infile` is not bound or it is the file of the round before, which is closed:
an exception in both cases.  If the file cannot be decoded, `intext` is that of the round before, if
there is one. -/
def oneFile (env : MainEnv) (fs : FS) (st : Loop) (path : Str) : List Op × Except End Loop :=
  match source env fs path with
  | none => ([], .error .raised)
  | some b =>
    match (env.decode b).or st.text with
    | none => ([.read path], .error .raised)
    | some t =>
      match tableFor env t with
      | .error e => ([.read path], .error e)
      | .ok table => ([.read path], .ok ⟨update st.out table, some t⟩)

/-- The loop, genparsers.py:248-271.  Reading does not change a file. -/
def files (env : MainEnv) (fs : FS) : List Str → Loop → List Op × Except End Loop
  | [], st => ([], .ok st)
  | p :: ps, st =>
    let r := oneFile env fs st p
    match r.2 with
    | .error e => (r.1, .error e)
    | .ok st' =>
      let r' := files env fs ps st'
      (r.1 ++ r'.1, r'.2)

/-- Where the output goes: standard output or a file, genparsers.py:239-244 and 273. -/
def putTo (out : Option Str) (b : Bytes) : Op :=
  match out with
  | none => .stdout b
  | some p => .append p b

/-- Opening the output, genparsers.py:273. -/
def openTo : Option Str → List Op
  | none => []
  | some p => [.openTrunc p]

/-- `main`, genparsers.py:225-293, after the arguments are read.  The exit status 1 is never returned,
see `oneFile`.  The names of the files, which are printed to standard output (genparsers.py:249) through
a buffer of its own, are left out. -/
def main (env : MainEnv) (args : MainArgs) (fs : FS) : List Op × End :=
  if S "-" ∈ args.infiles ∧ args.infiles.length ≠ 1 then ([], .raised)
  else
    let r := files env fs args.infiles {}
    match r.2 with
    | .error e => (r.1, e)
    | .ok st =>
      let out := if args.outfile = some (S "-") then none else args.outfile
      let d := env.dump args.fmt st.out
      let written := openTo out ++ d.1.map (putTo out)
      if d.2 then (r.1 ++ (written ++ [putTo out [10]]), .exit 0) else (r.1 ++ written, .raised)

end Verif.Gen
