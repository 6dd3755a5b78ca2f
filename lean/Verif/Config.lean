import Verif.Py

/-!
# Configuration: `format/__main__.py`, `config_util.py`, `configuration.py`
-/

namespace Verif.Config
open Verif Py

/-! ## Values and dictionaries -/

/-- A configuration value: what json/yaml/python configuration files produce. -/
inductive Val
  | none
  | bool (b : Bool)
  | int (i : Int)
  | str (s : Str)
  | list (l : List Val)
  | dict (d : List (Str × Val))
  deriving Inhabited

/-- A Python `dict` with string keys: insertion order, unique keys (`WF` below). -/
abbrev Dict := List (Str × Val)

/-- `d.get(k)`. -/
def lookup {α : Type} (k : Str) : List (Str × α) → Option α
  | [] => .none
  | (k', v) :: rest => if k' = k then some v else lookup k rest

/-- `d[k] = v`: replace in place, or append. -/
def setKey {α : Type} (k : Str) (v : α) : List (Str × α) → List (Str × α)
  | [] => [(k, v)]
  | (k', v') :: rest => if k' = k then (k', v) :: rest else (k', v') :: setKey k v rest

/-- `d.pop(k)`: the dictionary without the key. -/
def delKey (k : Str) : Dict → Dict
  | [] => []
  | (k', v) :: rest => if k' = k then delKey k rest else (k', v) :: delKey k rest

/-! ## Merging, format/__main__.py:323-344 -/

mutual
/-- The branch for an existing dictionary, lines 333-340: merge a dictionary into it,
warn and leave it alone otherwise. -/
def mergeInto (existing : Dict) : Val → Dict
  | .dict increment => mapMerge existing increment
  | _ => existing

/-- One iteration of the loop, lines 327-342. -/
def mergeItem (output : Dict) : Str × Val → Dict
  | (key, increment) =>
    match lookup key output with
    | .none => setKey key increment output
    | some (.dict existing) => setKey key (.dict (mergeInto existing increment)) output
    | some _ => setKey key increment output

/-- `map_merge`, format/__main__.py:323-344. -/
def mapMerge (output : Dict) : Dict → Dict
  | [] => output
  | item :: rest => mapMerge (mergeItem output item) rest
end

/-! ## Paths (posixpath) -/

/-- `p.rfind('/') + 1`. -/
def afterLastSlash (p : Str) : Nat := p.length - (p.reverse.takeWhile (· != '/')).length

/-- `os.path.split(p)[0]` and `os.path.dirname(p)`. -/
def dirname (p : Str) : Str :=
  let head := p.take (afterLastSlash p)
  if head.all (· == '/') then head else rstripBy (· == '/') head

/-- `os.path.join(a, b)`. -/
def pathJoin (a b : Str) : Str :=
  if startsWith ['/'] b then b
  else if a.isEmpty || a.getLast? == some '/' then a ++ b
  else a ++ ['/'] ++ b

/-- `os.path.isabs`. -/
def isAbs (p : Str) : Bool := startsWith ['/'] p

/-! ## Loading, format/__main__.py:306-320 -/

/-- Outcomes that are not a value. -/
inductive LoadError (ε : Type)
  | raised (e : ε)
  | outOfFuel
  deriving DecidableEq, Repr

/-- `include_path` made relative to the including file, lines 314-318. -/
def resolveInclude (configfile includePath : Str) : Str :=
  if isAbs includePath then includePath else pathJoin (dirname configfile) includePath

/-- `get_configdict`, format/__main__.py:306-320.  `read p` is
`get_one_config_dict(p)` with its `include` list popped; `expand` is
`os.path.expanduser`.  The loop runs until the queue is empty; `fuel` bounds the
number of files read. -/
def getConfigdict {ε : Type} (read : Str → Except ε (List Str × Dict)) (expand : Str → Str) :
    Nat → List Str → Dict → Except (LoadError ε) Dict
  | _, [], acc => .ok acc
  | 0, _ :: _, _ => .error .outOfFuel
  | fuel + 1, path :: queue, acc =>
    let p := expand path
    match read p with
    | .error e => .error (.raised e)
    | .ok (includes, d) =>
      getConfigdict read expand fuel (queue ++ includes.map (resolveInclude p)) (mapMerge acc d)

/-- The candidate names, format/__main__.py:191-197, in order. -/
def candidateNames : List Str :=
  [S ".cmake-format", S ".cmake-format.py", S ".cmake-format.json", S ".cmake-format.yaml",
   S "cmake-format.py", S "cmake-format.json", S "cmake-format.yaml"]

/-- The loop of `find_config_file`, lines 190-205; `fuel` bounds the number of
directories visited. -/
def findFrom (exists_ : Str → Bool) : Nat → Str → Option Str
  | 0, _ => none
  | fuel + 1, head =>
    if head.isEmpty then none
    else
      match (candidateNames.map (pathJoin head)).find? exists_ with
      | some p => some p
      | none =>
        let head2 := dirname head
        if head = head2 then none else findFrom exists_ fuel head2

/-- `find_config_file`, format/__main__.py:179-205.  `realpath` and `isdir` are the
operating system's. -/
def findConfigFile (exists_ isdir : Str → Bool) (realpath : Str → Str) (infile : Str) : Option Str :=
  let head := if isdir infile then infile else dirname (realpath infile)
  findFrom exists_ (head.length + 1) head

/-! ## Configuration objects, config_util.py:175-492

`Configuration` (configuration.py:445-454) consists of sections only, and every section
class (configuration.py:13-442) of plain fields only, so the recursive `ConfigObject`
is modelled at these two levels. -/

/-- A `FieldDescriptor` (config_util.py:232-306) with its default and the override the
object stores in `_name`. -/
structure Field where
  name : Str
  default : Val
  override : Option Val := .none
  deriving Inhabited

/-- `FieldDescriptor.__get__`, config_util.py:244-245. -/
def Field.value (f : Field) : Val := f.override.getD f.default

/-- A `SubtreeDescriptor` (config_util.py:175-223) with the nested object.  Derived
values (`_update_derived`, e.g. `endl`, `fn_spec`, `per_command_`) are functions of the
option values and are not stored; exceptions they raise for ill-typed option values are
not modelled. -/
structure Section where
  name : Str
  fields : List Field
  deriving Inhabited

/-- A `Configuration` object. -/
abbrev Obj := List Section

/-- Exceptions of configuration objects: a section value that is no dictionary,
config_util.py:209-212. -/
inductive CfgError
  | valueError
  deriving DecidableEq, Repr

/-- A freshly constructed section. -/
def freshFields (fs : List Field) : List Field := fs.map (fun f => { f with override := .none })

/-- A freshly constructed object of the same class. -/
def fresh (o : Obj) : Obj := o.map (fun s => { s with fields := freshFields s.fields })

/-- `consume_known` of a section, config_util.py:360-366: each field in registry order
pops its own name.  Returns the fields and what is left of the dictionary. -/
def consumeFields : List Field → Dict → List Field × Dict
  | [], kw => ([], kw)
  | f :: fs, kw =>
    match lookup f.name kw with
    | .none => let r := consumeFields fs kw; (f :: r.1, r.2)
    | some v =>
      let r := consumeFields fs (delKey f.name kw)
      ({ f with override := some v } :: r.1, r.2)

/-- `SubtreeDescriptor.consume_value`, config_util.py:206-214: what the section does not
know is only warned about. -/
def consumeSection (s : Section) : Val → Except CfgError Section
  | .dict kw => .ok { s with fields := (consumeFields s.fields kw).1 }
  | _ => .error .valueError

/-- `consume_known` of the configuration, config_util.py:360-366. -/
def consumeKnown : Obj → Dict → Except CfgError (Obj × Dict)
  | [], kw => .ok ([], kw)
  | s :: ss, kw =>
    match lookup s.name kw with
    | .none =>
      match consumeKnown ss kw with
      | .error x => .error x
      | .ok (ss', kw') => .ok (s :: ss', kw')
    | some v =>
      match consumeSection s v with
      | .error x => .error x
      | .ok s' =>
        match consumeKnown ss (delKey s.name kw) with
        | .error x => .error x
        | .ok (ss', kw') => .ok (s' :: ss', kw')

/-- The loop of `legacy_consume`, config_util.py:373-375 with `legacy_shim_consume`,
config_util.py:216-220: every section takes what it knows from the root dictionary. -/
def legacySections : Obj → Dict → Obj × Dict
  | [], kw => ([], kw)
  | s :: ss, kw =>
    let r := consumeFields s.fields kw
    let r' := legacySections ss r.2
    ({ s with fields := r.1 } :: r'.1, r'.2)

/-- `legacy_consume`, config_util.py:369-375. -/
def legacyConsume (o : Obj) (kw : Dict) : Except CfgError (Obj × Dict) :=
  match consumeKnown o kw with
  | .error x => .error x
  | .ok (o', kw') => .ok (legacySections o' kw')

/-- `Configuration(**kwargs)`, config_util.py:350-358; `cls` is any object of the class. -/
def construct (cls : Obj) (kw : Dict) : Except CfgError Obj :=
  match consumeKnown (fresh cls) kw with
  | .error x => .error x
  | .ok (o, kw') =>
    match legacyConsume o kw' with
    | .error x => .error x
    | .ok (o', _) => .ok o'

/-- `_as_dict` of a section, config_util.py:381-405 without help text. -/
def fieldsDict (withDefaults : Bool) : List Field → Dict
  | [] => []
  | f :: fs =>
    if withDefaults || f.override.isSome then (f.name, f.value) :: fieldsDict withDefaults fs
    else fieldsDict withDefaults fs

/-- `has_override` of a section, config_util.py:413-423. -/
def hasOverride (fs : List Field) : Bool := fs.any (fun f => f.override.isSome)

/-- `as_dict`, config_util.py:381-408 without help text. -/
def asDict (withDefaults : Bool) : Obj → Dict
  | [] => []
  | s :: ss =>
    if withDefaults || hasOverride s.fields then
      (s.name, .dict (fieldsDict withDefaults s.fields)) :: asDict withDefaults ss
    else asDict withDefaults ss

/-- `clone`, config_util.py:488-492. -/
def clone (o : Obj) : Except CfgError Obj := construct o (asDict true o)

/-- Read one option, `getattr(getattr(cfg, section), name)`. -/
def getOption (o : Obj) (section_ name : Str) : Option Val :=
  match o.find? (fun s => s.name = section_) with
  | .none => .none
  | some s =>
    match s.fields.find? (fun f => f.name = name) with
    | .none => .none
    | some f => some f.value

/-! ## Per-command options, configuration.py:427-438 and 456-488 -/

/-- `per_command_` being updated with the user's table, configuration.py:428-438;
entries that are not dictionaries are skipped. -/
def perCommand (table : List (Str × Dict)) : List (Str × Val) → List (Str × Dict)
  | [] => table
  | (command, .dict cdict) :: rest =>
    let key := lower command
    let old := (lookup key table).getD []
    let new := cdict.foldl (fun d p => setKey p.1 p.2 d) old
    perCommand (setKey key new table) rest
  | _ :: rest => perCommand table rest

/-- `get_default_config`, parse/funs/standard_funs.py:11-33. -/
def defaultPerCommand : List (Str × Dict) :=
  ["FetchContent_Declare", "FetchContent_MakeAvailable", "FetchContent_GetProperties",
   "FetchContent_Populate", "ExternalProject_Add", "ExternalProject_Add_Step",
   "ExternalProject_Add_StepDependencies", "ExternalProject_Add_StepTargets",
   "ExternalProject_Get_Property"].map
    (fun s => (lower (S s), [(S "spelling", Val.str (S s))]))

/-- The last component of a dotted key. -/
def fieldName (key : Str) : Str := (splitOn '.' key).getLast?.getD []

/-- `resolve_for_command`, configuration.py:456-488.  `global` is the value the dotted
key has in the global configuration, or the caller's default. -/
def resolveForCommand (table : List (Str × Dict)) (global : Option Val) (command key : Str) :
    Option Val :=
  let cdict := (lookup (lower command) table).getD []
  match lookup key cdict with
  | some v => some v
  | .none =>
    match lookup (fieldName key) cdict with
    | some v => some v
    | .none => global

/-! ## Booleans, config_util.py:50-60 -/

/-- `parse_bool`, config_util.py:50-60. -/
def parseBool (s : Str) : Bool :=
  if lower s ∈ [S "y", S "yes", S "t", S "true", S "1", S "yup", S "yeah", S "yada"] then true
  else if lower s ∈ [S "n", S "no", S "f", S "false", S "0", S "nope", S "nah", S "nada"] then false
  else false

/-! ## Python configuration files, config_util.py:73-138 -/

/-- `ExecGlobal`: the root dictionary and the section stack.  The Python stack holds
references to nested dictionaries; here each is the path of keys leading to it, innermost
last. -/
structure ExecGlobal where
  root : Dict
  stack : List (List Str)

/-- Failures while executing a configuration file. -/
inductive ExecError
  | indexError      -- pop from an empty stack
  | notADict        -- a section name that already holds something else
  deriving DecidableEq, Repr

/-- The dictionary at a path. -/
def dictAt : List Str → Dict → Option Dict
  | [], d => some d
  | k :: ks, d =>
    match lookup k d with
    | some (.dict e) => dictAt ks e
    | _ => .none

/-- Replace the dictionary at a path. -/
def updateAt (f : Dict → Dict) : List Str → Dict → Dict
  | [], d => f d
  | k :: ks, d =>
    match lookup k d with
    | some (.dict e) => setKey k (.dict (updateAt f ks e)) d
    | _ => d

/-- `key.replace("-", "_")`, config_util.py:96. -/
def normKey (k : Str) : Str := k.map (fun c => if c = '-' then '_' else c)

/-- `stacktop`, config_util.py:97-100. -/
def ExecGlobal.top (g : ExecGlobal) : List Str := g.stack.getLast?.getD []

/-- `push_section`, config_util.py:95-105.  Python only fails when something is later
assigned in a "section" that is no dictionary; the model reports it here. -/
def ExecGlobal.push (g : ExecGlobal) (key : Str) : Except ExecError ExecGlobal :=
  let key := normKey key
  match dictAt g.top g.root with
  | .none => .error .notADict
  | some d =>
    match lookup key d with
    | .none =>
      .ok { root := updateAt (setKey key (.dict [])) g.top g.root
            stack := g.stack ++ [g.top ++ [key]] }
    | some (.dict _) => .ok { g with stack := g.stack ++ [g.top ++ [key]] }
    | some _ => .error .notADict

/-- `pop_section`, config_util.py:107-108. -/
def ExecGlobal.pop (g : ExecGlobal) : Except ExecError ExecGlobal :=
  if g.stack.isEmpty then .error .indexError else .ok { g with stack := g.stack.dropLast }

/-- `__setitem__`, config_util.py:134-138. -/
def ExecGlobal.assign (g : ExecGlobal) (key : Str) (v : Val) : Except ExecError ExecGlobal :=
  match dictAt g.top g.root with
  | .none => .error .notADict
  | some _ => .ok { g with root := updateAt (setKey key v) g.top g.root }

end Verif.Config
