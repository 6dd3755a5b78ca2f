import Verif.Config

/-!
# `--dump-config`

Models `ConfigObject._as_dict` and `ConfigObject.dump` (config_util.py:381-411 and 425-470) with help texts, and `dump_config`
(format/__main__.py:376-402).  `textwrap.wrap`, `pprint.pformat` and the help texts are parameters.
-/

namespace Verif.DumpConfig
open Verif Py Verif.Config

/-- What the dump relies on. -/
structure Env where
  /-- The docstring of a section class; `none` also for the empty one. -/
  sectionHelp : Str → Option Str
  /-- The help text of an option of a section; `none` also for the empty one. -/
  fieldHelp : Str → Str → Option Str
  /-- `textwrap.wrap(text, width)`. -/
  wrap : Nat → Str → List Str
  /-- `pprint.PrettyPrinter(indent=2, width).pformat(value)`. -/
  pformat : Nat → Val → Str

/-! ## As a dictionary (json and yaml) -/

/-- The key of a help text, config_util.py:393 and 401. -/
def helpKey (name : Str) : Str := S "_help_" ++ name

/-- `serialize_docstring`, config_util.py:309-315. -/
def docValue (doc : Str) : Val := if '\n' ∈ doc then .list ((splitOn '\n' doc).map .str) else .str doc

/-- The entry of the help text of an option, config_util.py:399-401. -/
def fieldHelpEntry (env : Env) (withHelp : Bool) (sec name : Str) : Dict :=
  match withHelp, env.fieldHelp sec name with
  | true, some h => [(helpKey name, .list ((env.wrap 60 h).map .str))]
  | _, _ => []

/-- `_as_dict` of a section, config_util.py:381-405. -/
def fieldsDictH (env : Env) (withHelp withDefaults : Bool) (sec : Str) : List Field → Dict
  | [] => []
  | f :: fs =>
    if withDefaults || f.override.isSome then
      fieldHelpEntry env withHelp sec f.name ++ (f.name, f.value) :: fieldsDictH env withHelp withDefaults sec fs
    else fieldsDictH env withHelp withDefaults sec fs

/-- The entry of the help text of a section, config_util.py:392-393. -/
def sectionHelpEntry (env : Env) (withHelp : Bool) (name : Str) : Dict :=
  if withHelp then [(helpKey name, docValue ((env.sectionHelp name).getD []))] else []

/-- `as_odict(with_help, with_defaults)`, config_util.py:381-411. -/
def asDictH (env : Env) (withHelp withDefaults : Bool) : Obj → Dict
  | [] => []
  | s :: ss =>
    if withDefaults || hasOverride s.fields then
      sectionHelpEntry env withHelp s.name ++
        (s.name, .dict (fieldsDictH env withHelp withDefaults s.name s.fields)) :: asDictH env withHelp withDefaults ss
    else asDictH env withHelp withDefaults ss

/-! ## As Python text -/

/-- A line of a comment, config_util.py:445 and 461: `# ` and the line without the blanks at its end. -/
def commentLine (line : Str) : Str := S "# " ++ rstripBy isSpace line

/-- The lines for one option at depth one, config_util.py:456-467. -/
def fieldLines (env : Env) (withHelp : Bool) (sec : Str) (f : Field) : List Str :=
  (match withHelp, env.fieldHelp sec f.name with
    | true, some h => [] :: (env.wrap 76 h).map fun l => S "  " ++ commentLine l
    | _, _ => []) ++
  (splitOn '\n' (f.name ++ S " = " ++ env.pformat 78 f.value)).map fun l => S "  " ++ l

/-- `dump` of a section at depth one, config_util.py:425-470. -/
def sectionLines (env : Env) (withHelp withDefaults : Bool) (sec : Str) : List Field → List Str
  | [] => []
  | f :: fs =>
    if withDefaults || f.override.isSome then fieldLines env withHelp sec f ++ sectionLines env withHelp withDefaults sec fs
    else sectionLines env withHelp withDefaults sec fs

/-- The docstring of a section, config_util.py:439-446. -/
def docLines (env : Env) (withHelp : Bool) (name : Str) : List Str :=
  match withHelp, env.sectionHelp name with
  | true, some doc =>
    let ruler := S "# " ++ List.replicate (((splitOn '\n' doc).map List.length).foldl max 0) '-'
    ruler :: (splitOn '\n' doc).map commentLine ++ [ruler]
  | _, _ => []

/-- `dump` of the configuration, config_util.py:425-470. -/
def objLines (env : Env) (withHelp withDefaults : Bool) : Obj → List Str
  | [] => []
  | s :: ss =>
    if withDefaults || hasOverride s.fields then
      docLines env withHelp s.name ++ (S "with section(\"" ++ s.name ++ S "\"):") ::
        (sectionLines env withHelp withDefaults s.name s.fields ++ [] :: objLines env withHelp withDefaults ss)
    else objLines env withHelp withDefaults ss

/-- The text: every line with its end. -/
def unlines : List Str → Str
  | [] => []
  | l :: ls => l ++ '\n' :: unlines ls

/-- The text of `cfg.dump(outfile, with_help, with_defaults)`. -/
def dumpPython (env : Env) (withHelp withDefaults : Bool) (o : Obj) : Str := unlines (objLines env withHelp withDefaults o)

/-! ## The program -/

/-- `dict.update`. -/
def update (d e : Dict) : Dict := e.foldl (fun d p => setKey p.1 p.2 d) d

/-- `for key in ...: cfg.misc.per_command.pop(key, None)`, format/__main__.py:384-386, on the options of a section. -/
def dropBuiltin (fs : List Field) : List Field :=
  fs.map fun f =>
    if f.name = S "per_command" then
      match f.override with
      | some (.dict d) => { f with override := some (.dict (defaultPerCommand.foldl (fun d p => delKey p.1 d) d)) }
      | _ => f
    else f

/-- The configuration that is dumped, format/__main__.py:376-386. -/
def dumped (cls : Obj) (configDict argDict : Dict) : Except CfgError Obj :=
  match construct cls (update configDict argDict) with
  | .error e => .error e
  | .ok o => .ok (o.map fun s => if s.name = S "misc" then { s with fields := dropBuiltin s.fields } else s)

end Verif.DumpConfig
