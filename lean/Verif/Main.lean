import Verif.Config

/-!
# The command line driver of cmake-format

Models cmakelang/format/__main__.py:469-644.  Parsing, layout and encoding are
parameters here (`Env`): the driver's own logic is which configuration is used for which
file, what is read and written, in which order, and which exit status results.

The file system is a map from paths to files without links or directories.
-/

namespace Verif.Main
open Verif Py Verif.Config

abbrev Bytes := List UInt8

/-- A regular file. -/
structure File where
  content : Bytes
  mode : Nat
  deriving DecidableEq, Repr

abbrev FS := Str → Option File

/-- The mode of a newly created file. -/
def newMode : Nat := 420

/-- System calls of the driver. -/
inductive Op
  | read (path : Str)
  | openTrunc (path : Str)               -- io.open(path, 'w')
  | append (path : Str) (chunk : Bytes)  -- part of outfile.write / close
  | copymode (src dst : Str)
  | rename (src dst : Str)
  | unlink (path : Str)
  | stdout (chunk : Bytes)
  deriving DecidableEq, Repr

def FS.set (fs : FS) (p : Str) (f : Option File) : FS := fun q => if q = p then f else fs q

/-- The effect of one system call. -/
def Op.apply (fs : FS) : Op → FS
  | .read _ => fs
  | .openTrunc p => fs.set p (some ⟨[], match fs p with | some f => f.mode | none => newMode⟩)
  | .append p b =>
    match fs p with
    | some f => fs.set p (some { f with content := f.content ++ b })
    | none => fs
  | .copymode s d =>
    match fs s, fs d with
    | some f, some g => fs.set d (some { g with mode := f.mode })
    | _, _ => fs
  | .rename s d => (fs.set d (fs s)).set s none
  | .unlink p => fs.set p none
  | .stdout _ => fs

def applyAll (fs : FS) (ops : List Op) : FS := ops.foldl Op.apply fs

/-- Exceptions, by how the driver treats them: `common.FormatError`, `common.UserError`,
`common.InternalError`, `AssertionError`, and every other (`OSError`, `UnicodeError`,
`ValueError`, ...), which nothing catches. -/
inductive Exc
  | formatError | userError | internalError | assertionError | other
  deriving DecidableEq, Repr

/-- What the driver relies on.  `chunks` is how the text layer splits what it writes. -/
structure Env where
  /-- `get_config`, format/__main__.py:347-359, for the current `--config-files`. -/
  getConfig : Str → Except Exc Dict
  /-- `os.getcwd()`. -/
  cwd : Str
  /-- `process_file`, format/__main__.py:134-176. -/
  process : Obj → Str → Except Exc (Str × Bool)
  decode : Obj → Bytes → Except Exc Str
  encode : Obj → Str → Except Exc Bytes
  stdin : Bytes
  chunks : Bytes → List Bytes
  chunks_flatten : ∀ b, (chunks b).flatten = b
  /-- Whether `os.rename` works within a directory; if not, `shutil.move` copies. -/
  renameWorks : Bool
  /-- The configuration class. -/
  cls : Obj

/-- The options of the driver, format/__main__.py:405-466. -/
structure Args where
  check : Bool := false
  inPlace : Bool := false
  outfile : Option Str := none
  dump : Bool := false
  infiles : List Str
  deriving Repr

/-- `get_argdict`, format/__main__.py:469-496.  `attrs` are the attributes of the class
`Configuration`; `argVars` is `vars(args)`. -/
def getArgdict (attrs : List Str) : Dict → Dict
  | [] => []
  | (k, v) :: rest =>
    if startsWith (S "_") k then getArgdict attrs rest
    else if k ∈ attrs then getArgdict attrs rest
    else if k ∈ [S "log_level", S "outfile_path", S "infilepaths", S "config_files",
        S "dump_config", S "with_help", S "with_defaults", S "dump", S "check", S "in_place",
        S "suppress_decorations"] then getArgdict attrs rest
    else
      match v with
      | .none => getArgdict attrs rest
      | v => (k, v) :: getArgdict attrs rest

/-- A boolean option is in force when its value is truthy. -/
def truthy : Option Val → Bool
  | some (.bool b) => b
  | some (.int n) => n ≠ 0
  | some (.str s) => !s.isEmpty
  | some (.list l) => !l.isEmpty
  | some (.dict d) => !d.isEmpty
  | _ => false

/-- What one call of `onefile_main` did: the system calls, what is left of the command
line options, and how it ended. -/
structure FileRun where
  ops : List Op
  argdict : Dict
  outcome : Except Exc Unit

/-- `infile_path + ".cmf-temp"`, format/__main__.py:540. -/
def tempPath (infile : Str) : Str := infile ++ S ".cmf-temp"

/-- `outfile.write(outtext)` and closing it, format/__main__.py:559-560. -/
def writeOps (env : Env) (p : Str) (b : Bytes) : List Op := (env.chunks b).map (Op.append p)

/-- `shutil.move` within a directory, format/__main__.py:564; the second case is its
fallback, `copy2` then `unlink`. -/
def moveOps (env : Env) (src dst : Str) (b : Bytes) : List Op :=
  if env.renameWorks then [.rename src dst]
  else .openTrunc dst :: writeOps env dst b ++ [.copymode src dst, .unlink src]

/-- Writing the result, format/__main__.py:535-565.  `exists_` says whether the input path
names a file (it does not for `-`, and then `copymode` raises). -/
def writeResult (env : Env) (args : Args) (cfg : Obj) (exists_ : Bool) (infile intext outtext : Str) :
    List Op × Except Exc Unit :=
  if args.inPlace then
    if intext = outtext then ([], .ok ())
    else
      let tmp := tempPath infile
      match env.encode cfg outtext with
      | .error e => ([.openTrunc tmp], .error e)
      | .ok b =>
        if exists_ then
          (.openTrunc tmp :: writeOps env tmp b ++ [.copymode infile tmp] ++ moveOps env tmp infile b,
            .ok ())
        else (.openTrunc tmp :: writeOps env tmp b, .error .other)
  else
    match args.outfile with
    | none =>
      match env.encode cfg outtext with
      | .error e => ([], .error e)
      | .ok b => ((env.chunks b).map Op.stdout, .ok ())
    | some out =>
      match env.encode cfg outtext with
      | .error e => ([.openTrunc out], .error e)
      | .ok b => (.openTrunc out :: writeOps env out b, .ok ())

/-- After the text has been read, format/__main__.py:524-533 and on. -/
def handleText (env : Env) (args : Args) (cfg : Obj) (exists_ : Bool) (infile intext : Str) :
    List Op × Except Exc Unit :=
  match env.process cfg intext with
  | .error e => ([], .error e)
  | .ok (outtext, valid) =>
    if truthy (getOption cfg (S "format") (S "require_valid_layout")) && !valid then
      ([], .error .formatError)
    else if args.check then
      if intext ≠ outtext then ([], .error .formatError) else ([], .ok ())
    else writeResult env args cfg exists_ infile intext outtext

/-- The configuration of one file, format/__main__.py:505-511; also what is left of the
command line options, which are consumed. -/
def fileConfig (env : Env) (infile : Str) (argdict : Dict) : Except Exc (Obj × Dict) :=
  match env.getConfig (if infile = S "-" then env.cwd else infile) with
  | .error e => .error e
  | .ok d =>
    match construct env.cls d with
    | .error _ => .error .other
    | .ok cfg =>
      match legacyConsume cfg argdict with
      | .error _ => .error .other
      | .ok r => .ok r

/-- `onefile_main`, format/__main__.py:499-566.  When building the configuration raises,
the loop is left, so what remains of `argdict` does not matter then. -/
def onefile (env : Env) (args : Args) (fs : FS) (infile : Str) (argdict : Dict) : FileRun :=
  match fileConfig env infile argdict with
  | .error e => ⟨[], argdict, .error e⟩
  | .ok (cfg, argdict') =>
    if truthy (getOption cfg (S "format") (S "disable")) then ⟨[], argdict', .ok ()⟩
    else
      let content : Option Bytes := if infile = S "-" then some env.stdin else (fs infile).map (·.content)
      match content with
      | none => ⟨[.read infile], argdict', .error .other⟩
      | some b =>
        match env.decode cfg b with
        | .error e => ⟨[.read infile], argdict', .error e⟩
        | .ok intext =>
          let r := handleText env args cfg (fs infile).isSome infile intext
          ⟨.read infile :: r.1, argdict', r.2⟩

/-- A finished or aborted run: all system calls, the files attempted with how each
ended, and the return code or the exception that ended it. -/
structure Run where
  ops : List Op
  log : List (Str × Except Exc Unit)
  result : Except Exc Nat

/-- The loop of `inner_main`, format/__main__.py:613-621. -/
def loop (env : Env) (args : Args) : List Str → FS → Dict → Nat → Run
  | [], _, _, rc => ⟨[], [], .ok rc⟩
  | f :: rest, fs, argdict, rc =>
    let r := onefile env args fs f argdict
    match r.outcome with
    | .ok () =>
      let r' := loop env args rest (applyAll fs r.ops) r.argdict rc
      ⟨r.ops ++ r'.ops, (f, .ok ()) :: r'.log, r'.result⟩
    | .error .formatError =>
      let r' := loop env args rest (applyAll fs r.ops) r.argdict 1
      ⟨r.ops ++ r'.ops, (f, .error .formatError) :: r'.log, r'.result⟩
    | .error e => ⟨r.ops, [(f, .error e)], .error e⟩

/-- The assertions on the arguments, format/__main__.py:591-609. -/
def argsOk (args : Args) : Bool :=
  !(args.dump && args.inPlace) &&
  (!args.inPlace || args.outfile.isNone) &&
  (args.infiles.length == 1 || (args.inPlace || args.outfile.isNone)) &&
  (!(S "-" ∈ args.infiles) ||
    (args.infiles.length == 1 && (args.outfile.isNone || args.outfile == some (S "-"))))

/-- `inner_main`, format/__main__.py:569-621, without `--dump-config`, which formats
nothing.  An output path `-` is standard output. -/
def innerMain (env : Env) (args : Args) (fs : FS) (argdict : Dict) : Run :=
  if argsOk args then
    loop env { args with outfile := if args.outfile = some (S "-") then none else args.outfile }
      args.infiles fs argdict 0
  else ⟨[], [], .error .assertionError⟩

/-- The exit status of the process: `main`, format/__main__.py:624-644; an exception that
is not caught there makes the interpreter exit with status 1 too. -/
def exitStatus (r : Run) : Nat :=
  match r.result with
  | .ok rc => rc
  | .error _ => 1

end Verif.Main
