import Verif.Main
import Verif.Render

/-!
# The command line of cmake-annotate

Models cmakelang/annotate.py:28-181.  As in `Main`, the file system is a map from paths to files; reading
configuration files, building the configuration, decoding, encoding, parsing and the page around the html
(made by jinja) are parameters.
-/

namespace Verif.Annotate
open Verif Py Verif.Config
open Verif.Main (Bytes File FS Op Exc applyAll)

/-- `--format`, annotate.py:97-100. -/
inductive OutFmt
  | page | stub | iframe
  deriving DecidableEq, Repr

/-- What the program relies on. -/
structure Env where
  /-- `get_one_config_dict`, format/__main__.py:260-303, with its `include` list. -/
  readConfig : Str → Except Exc (List Str × Dict)
  /-- `os.path.expanduser`. -/
  expand : Str → Str
  /-- `find_config_file`, format/__main__.py:179-206. -/
  findConfig : Str → Option Str
  /-- The number of configuration files read at most. -/
  fuel : Nat
  /-- `os.getcwd()`. -/
  cwd : Str
  /-- `configuration.Configuration(**config_dict)`. -/
  mkConfig : Dict → Except Exc Obj
  decode : Obj → Bytes → Except Exc Str
  /-- The bytes of one `write`. -/
  encode : Obj → Str → Except Exc Bytes
  /-- `tokenize`, `parse` and `get_html(tree, fullpage=False)`, annotate.py:49-64. -/
  html : Obj → Str → Except Exc Str
  /-- The page around the html, render.py:45-69; `none` if jinja is not installed. -/
  page : Str → Option Str
  stdin : Bytes

/-- The options, annotate.py:91-107. -/
structure Args where
  fmt : OutFmt := .stub
  outfile : Option Str := none
  configFile : Option Str := none
  infiles : List Str
  deriving Repr

/-- `get_config`, format/__main__.py:347-359, called with a path where a list of paths is expected
(annotate.py:144 and 146): `list(configfile_paths)` at format/__main__.py:307 makes it the list of its
characters. -/
def getConfig (env : Env) (infile : Str) : Option Str → Except Exc Dict
  | some path => result (getConfigdict env.readConfig env.expand env.fuel (path.map fun c => [c]) [])
  | none =>
    match env.findConfig infile with
    | none => .ok []
    | some path => result (getConfigdict env.readConfig env.expand env.fuel [path] [])
where
  result : Except (LoadError Exc) Dict → Except Exc Dict
    | .ok d => .ok d
    | .error (.raised e) => .error e
    | .error .outOfFuel => .error .other

/-- The lines of `EMBED_TPL`, annotate.py:28-39, before and after the content. -/
def tplBefore : List Str := [S "", S "<template id=\"renderedcontent\">"]

/-- See `tplBefore`. -/
def tplAfter : List Str :=
  [S "</template>", S "<iframe id=\"renderframe\" style=\"width:100%;\"></iframe>", S "<script type=\"text/javascript\">",
   S "  var frame = document.getElementById(\"renderframe\");", S "  frame.addEventListener(\"load\", function() {",
   S "    frame.height = frame.contentWindow.document.body.scrollHeight + 30;", S "  });",
   S "  frame.srcdoc = document.getElementById(\"renderedcontent\").innerHTML;", S "</script>", S ""]

/-- A line and its end, written one after the other, annotate.py:70-72 and 74-76. -/
def lineWrites (lines : List Str) : List Str := lines.flatMap fun l => [l, S "\n"]

/-- `annotate_file`, annotate.py:42-79, after reading: what it writes, and how it ends.  Writing `None`
raises TypeError. -/
def annotateText (env : Env) (cfg : Obj) (fmt : OutFmt) (text : Str) : List Str × Except Exc Unit :=
  match env.html cfg text with
  | .error e => ([], .error e)
  | .ok html =>
    match fmt with
    | .stub => ([html], .ok ())
    | .page =>
      match env.page html with
      | none => ([], .error .other)
      | some p => ([p], .ok ())
    | .iframe =>
      match env.page html with
      | none => (lineWrites tplBefore, .error .other)
      | some p => (lineWrites tplBefore ++ p :: lineWrites tplAfter, .ok ())

/-- The bytes that reach the output: every `write` up to the first that cannot be encoded. -/
def encodeAll (env : Env) (cfg : Obj) : List Str → Bytes × Except Exc Unit
  | [] => ([], .ok ())
  | s :: ss =>
    match env.encode cfg s with
    | .error e => ([], .error e)
    | .ok b => (b ++ (encodeAll env cfg ss).1, (encodeAll env cfg ss).2)

/-- What is done with the text of a file, and how it ends: `outfile.close()` flushes in any case,
annotate.py:172-179. -/
def writeText (env : Env) (cfg : Obj) (fmt : OutFmt) (text : Str) : Bytes × Except Exc Unit :=
  let w := annotateText env cfg fmt text
  let e := encodeAll env cfg w.1
  (e.1, match e.2 with
    | .error x => .error x
    | .ok () => w.2)

/-- Where the output goes: standard output or a file. -/
def putOp (out : Option Str) (b : Bytes) : Op :=
  match out with
  | none => .stdout b
  | some p => .append p b

/-- Opening the output, annotate.py:150-163.  Standard output is always open. -/
def openOps : Option Str → List Op
  | none => []
  | some p => [.openTrunc p]

/-- One round of the loop of `main`, annotate.py:140-179: the output is opened before the input. -/
def onefile (env : Env) (args : Args) (fs : FS) (infile : Str) : List Op × Except Exc Unit :=
  match getConfig env (if infile = S "-" then env.cwd else infile) args.configFile with
  | .error e => ([], .error e)
  | .ok d =>
    match env.mkConfig d with
    | .error e => ([], .error e)
    | .ok cfg =>
      let opened := applyAll fs (openOps args.outfile)
      let content : Option Bytes := if infile = S "-" then some env.stdin else (opened infile).map (·.content)
      match content with
      | none => (openOps args.outfile, .error .other)
      | some b =>
        match env.decode cfg b with
        | .error e => (openOps args.outfile ++ [.read infile], .error e)
        | .ok text =>
          let w := writeText env cfg args.fmt text
          (openOps args.outfile ++ [.read infile, putOp args.outfile w.1], w.2)

/-- The loop of `main`, annotate.py:140-181: an exception ends it. -/
def loop (env : Env) (args : Args) : List Str → FS → List Op × Except Exc Unit
  | [], _ => ([], .ok ())
  | f :: rest, fs =>
    let r := onefile env args fs f
    match r.2 with
    | .error e => (r.1, .error e)
    | .ok () =>
      let r' := loop env args rest (applyAll fs r.1)
      (r.1 ++ r'.1, r'.2)

/-- The assertions on the arguments, annotate.py:123-135. -/
def argsOk (args : Args) : Bool :=
  (args.infiles.length == 1 || args.outfile.isNone) &&
  (!(S "-" ∈ args.infiles) || (args.infiles.length == 1 && (args.outfile.isNone || args.outfile == some (S "-"))))

/-- `main`, annotate.py:110-181.  An output path `-` is standard output. -/
def main (env : Env) (args : Args) (fs : FS) : List Op × Except Exc Unit :=
  if argsOk args then
    loop env { args with outfile := if args.outfile = some (S "-") then none else args.outfile } args.infiles fs
  else ([], .error .assertionError)

end Verif.Annotate
