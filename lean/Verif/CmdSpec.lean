import Verif.Parse

/-!
# Command specifications: `cmakelang/parse/util.py`, lines 413-588, `get_funtree`,
`cmakelang/parse/funs/__init__.py`, lines 28-46, and the derived values of `ParseConfig`,
`cmakelang/configuration.py`, lines 377-415

The tables of commands (the tool's own and the user's `additional_commands`) are Python
dictionaries; here they are values of `Decl`.  Values of a Python type that makes no sense
for a key (a number as the list of flags, ...) are outside the model, as is `always_wrap`,
which nothing reads.
-/

namespace Verif.Parse
open Verif Py

/-- What goes wrong in a specification: `UserError` (which also replaces a `TypeError` raised
by a positional specification), `IndexError`, `TypeError` and `InternalError`. -/
inductive SpecErr
  | user | index | type | internal
  deriving DecidableEq, Repr

/-- A dictionary of positional-group options as written; `npargs` and `unknown` say that the
dictionary has that key, or a key that `PositionalSpec` does not know. -/
structure PDict where
  nargs : Option Nargs := none
  npargs : Bool := false
  unknown : Bool := false
  sortable : Bool := false
  tags : List Str := []
  flags : List Str := []
  legacy : Bool := false
  maxPargs : Option Int := none
  deriving DecidableEq, Repr

/-- One element of a list of positional specifications: a number, a dictionary, or a list of
a number and a dictionary, either of which may be missing. -/
inductive PDecl
  | scalar (n : Nargs)
  | dict (d : PDict)
  | seq (n : Option Nargs) (d : Option PDict)
  deriving DecidableEq, Repr

/-- The value of `pargs`. -/
inductive Pargs
  | scalar (n : Nargs)
  | dict (d : PDict)
  | list (ps : List PDecl)
  deriving DecidableEq, Repr

/-- A command or keyword as written: a number of arguments, or a dictionary. -/
inductive Decl where
  | scalar (n : Nargs)
  | dict (pargs : Option Pargs) (flags : List Str) (kwargs : List (Str × Decl))
      (spelling : Option Str) (maxSubgroups : Option Int)

/-- `CommandSpec`, parse/util.py:465-512. -/
inductive Spec where
  | mk (name spelling : Str) (maxSubgroups : Option Int) (pargs : List PSpec) (kwargs : List (Str × Spec))

/-- `spec.name`. -/
def Spec.name : Spec → Str
  | .mk n _ _ _ _ => n
/-- `spec.spelling`. -/
def Spec.spelling : Spec → Str
  | .mk _ s _ _ _ => s
/-- `spec.max_subgroups_hwrap`. -/
def Spec.maxSubgroups : Spec → Option Int
  | .mk _ _ m _ _ => m
/-- `spec.pargs`. -/
def Spec.pargs : Spec → List PSpec
  | .mk _ _ _ p _ => p
/-- `spec.kwargs`. -/
def Spec.kwargs : Spec → List (Str × Spec)
  | .mk _ _ _ _ k => k

/-- `PositionalSpec(nargs, **d)`, parse/util.py:60-68. -/
def PDict.spec (n : Nargs) (d : PDict) : PSpec :=
  { nargs := n, sortable := d.sortable, tags := d.tags, flags := d.flags, legacy := d.legacy,
    maxPargs := d.maxPargs }

/-- The dictionary case of `parse_pspec`, parse/util.py:444-450: without a key "npargs" the
number of arguments is overwritten; with one `PositionalSpec` does not accept it. -/
def PDict.parse (d : PDict) : Except SpecErr PSpec :=
  if d.npargs || d.unknown then .error .user else .ok (d.spec (.str (S "*")))

/-- One element of the list, parse/util.py:438-458.  `args[-1]` of an empty list is an
`IndexError`, which is not turned into a `UserError`. -/
def PDecl.parse : PDecl → Except SpecErr PSpec
  | .scalar n => .ok { nargs := n }
  | .dict d => d.parse
  | .seq none none => .error .index
  | .seq (some n) none => .ok { nargs := n }
  | .seq n (some d) =>
    if d.npargs || d.unknown then .error .user
    else match n, d.nargs with
      | some n, none => .ok (d.spec n)
      | none, some n => .ok (d.spec n)
      | _, _ => .error .user

/-- `[f x for x in xs]` with exceptions. -/
def mapE {α β : Type} (f : α → Except SpecErr β) : List α → Except SpecErr (List β)
  | [] => .ok []
  | x :: xs =>
    match f x with
    | .error e => .error e
    | .ok y =>
      match mapE f xs with
      | .error e => .error e
      | .ok ys => .ok (y :: ys)

/-- `parse_pspec`, parse/util.py:413-462. -/
def parsePspec (pargs : Option Pargs) (flags : List Str) : Except SpecErr (List PSpec) :=
  match pargs with
  | none => .ok [{ nargs := .str (S "*"), flags := flags, legacy := true }]
  | some (.scalar n) => .ok [{ nargs := n, flags := flags, legacy := true }]
  | some (.dict d) => if flags ≠ [] then .error .user else mapE PDict.parse [d]
  | some (.list ps) => if flags ≠ [] then .error .user else mapE PDecl.parse ps

/-- `d[k] = v`: in place, or at the end. -/
def setKey {α : Type} (k : Str) (v : α) : List (Str × α) → List (Str × α)
  | [] => [(k, v)]
  | (k', v') :: xs => if k' = k then (k, v) :: xs else (k', v') :: setKey k v xs

mutual
/-- `CommandSpec.__init__`, parse/util.py:472-512; a number is `CommandSpec(name, pargs=n)`,
line 506. -/
def Decl.spec (name : Str) : Decl → Except SpecErr Spec
  | .scalar n =>
    match parsePspec (some (.scalar n)) [] with
    | .error e => .error e
    | .ok ps => .ok (.mk name name none ps [])
  | .dict pargs flags kwargs spelling maxSub =>
    match parsePspec pargs flags with
    | .error e => .error e
    | .ok ps =>
      match Decl.kwspecs kwargs [] with
      | .error e => .error e
      | .ok ks => .ok (.mk name (spelling.getD name) maxSub ps ks)
/-- The loop over the keywords, parse/util.py:502-512. -/
def Decl.kwspecs : List (Str × Decl) → List (Str × Spec) → Except SpecErr (List (Str × Spec))
  | [], acc => .ok acc
  | (k, d) :: ds, acc =>
    match Decl.spec k d with
    | .error e => .error e
    | .ok s => Decl.kwspecs ds (setKey k s acc)
end

/-- `CommandSpec("<root>")`. -/
def Spec.root : Spec := .mk (S "<root>") (S "<root>") none
  [{ nargs := .str (S "*"), legacy := true }] []

/-- `CommandSpec.add`, parse/util.py:529-531, called as `add(name, **spec)`: a number is not a
mapping. -/
def Spec.add (name : Str) (d : Decl) : Spec → Except SpecErr Spec
  | .mk n s m ps ks =>
    match d with
    | .scalar _ => .error .type
    | .dict pargs flags kwargs spelling maxSub =>
      match Decl.spec name (.dict pargs flags kwargs spelling maxSub) with
      | .error e => .error e
      | .ok sp => .ok (.mk n s m ps (setKey (lower name) sp ks))

/-- The loops that fill a specification: `get_fn_spec`, funs/standard_funs.py:36-46, and
configuration.py:401-403. -/
def Spec.addAll : List (Str × Decl) → Spec → Except SpecErr Spec
  | [], s => .ok s
  | (n, d) :: ds, s =>
    match s.add n d with
    | .error e => .error e
    | .ok s' => Spec.addAll ds s'

mutual
/-- One entry of `get_funtree`, funs/__init__.py:31-42. -/
def Spec.parser (k : Str) : Spec → ArgP
  | .mk _ spelling maxSub pargs kwargs =>
    if k = S "if" ∨ k = S "elseif" ∨ k = S "while" then .conditional
    else if k = S "COMMAND" then .shell
    else .standard (some ⟨spelling, maxSub⟩) pargs (funtree kwargs)
/-- `get_funtree`, funs/__init__.py:28-46. -/
def funtree : List (Str × Spec) → List (Str × ArgP)
  | [] => []
  | (k, s) :: ks => (k, Spec.parser k s) :: funtree ks
end

/-! ## `override_spec` -/

/-- A value of `override_spec`. -/
inductive OVal
  | int (n : Int)
  | str (s : Str)
  | bool (b : Bool)
  | strs (l : List Str)
  | none
  deriving DecidableEq, Repr

/-- `PositionalSpec.replace(**{key: value})`, parse/util.py:81-92. -/
def replaceKey (key : Str) (v : OVal) (p : PSpec) : Except SpecErr PSpec :=
  if key = S "nargs" then
    match v with
    | .int n => .ok { p with nargs := .int n }
    | .str s => .ok { p with nargs := .str s }
    | _ => .error .type
  else if key = S "sortable" then
    match v with
    | .bool b => .ok { p with sortable := b }
    | _ => .error .type
  else if key = S "tags" then
    match v with
    | .strs l => .ok { p with tags := l }
    | _ => .error .type
  else if key = S "flags" then
    match v with
    | .strs l => .ok { p with flags := l }
    | _ => .error .type
  else if key = S "legacy" then
    match v with
    | .bool b => .ok { p with legacy := b }
    | _ => .error .type
  else if key = S "max_pargs_hwrap" then
    match v with
    | .int n => .ok { p with maxPargs := some n }
    | .none => .ok { p with maxPargs := Option.none }
    | _ => .error .type
  else if key = S "always_wrap" then .ok p
  else .error .type

/-- `l[i] = f(l[i])` for an index counted from the end when negative. -/
def updateAt (f : PSpec → Except SpecErr PSpec) (i : Int) (l : List PSpec) :
    Except SpecErr (List PSpec) :=
  let j : Int := if i < 0 then i + l.length else i
  if j < 0 then .error .index
  else
    match l[j.toNat]? with
    | none => .error .index
    | some p =>
      match f p with
      | .error e => .error e
      | .ok p' => .ok (l.set j.toNat p')

/-- `int(s)` on plain digits with an optional sign. -/
def intOf (s : Str) : Option Int :=
  if isIntLit s then
    match s with
    | '-' :: r => some (-((r.foldl (fun n c => n * 10 + (c.toNat - 48)) 0 : Nat) : Int))
    | '+' :: r => some ((r.foldl (fun n c => n * 10 + (c.toNat - 48)) 0 : Nat) : Int)
    | r => some ((r.foldl (fun n c => n * 10 + (c.toNat - 48)) 0 : Nat) : Int)
  else none

/-- `s.strip("[]")`. -/
def stripBrackets (s : Str) : Str :=
  let b := fun c => c == '[' || c == ']'
  rstripBy b (lstripBy b s)

/-- `setattr(spectree, key, value)`, parse/util.py:575-585, for the attributes that take a
scalar; replacing the lists themselves (`pargs`, `kwargs`) is outside the model, and the
remaining names are not attributes. -/
def setAttr (key : Str) (v : OVal) : Spec → Except SpecErr Spec
  | .mk n s m ps ks =>
    if key = S "spelling" then
      match v with
      | .str x => .ok (.mk n x m ps ks)
      | _ => .error .type
    else if key = S "name" then
      match v with
      | .str x => .ok (.mk x s m ps ks)
      | _ => .error .type
    else if key = S "max_subgroups_hwrap" then
      match v with
      | .int x => .ok (.mk n s (some x) ps ks)
      | .none => .ok (.mk n s Option.none ps ks)
      | _ => .error .type
    else if key = S "always_wrap" then .ok (.mk n s m ps ks)
    else .error .user

/-- The loop of `apply_overrides`, parse/util.py:543-585, on the parts of the path. -/
def overridePath (key : Str) (v : OVal) : List Str → Spec → Except SpecErr Spec
  | [], s => setAttr key v s
  | p :: rest, .mk n s m ps ks =>
    if startsWith (S "parg") p then
      if rest ≠ [] then .error .user
      else
        match intOf (stripBrackets (p.drop 4)) with
        | none => .error .user
        | some i =>
          if i > (ps.length : Int) then .error .user
          else
            match updateAt (replaceKey key v) i ps with
            | .error e => .error e
            | .ok ps' => .ok (.mk n s m ps' ks)
    else
      match ks.lookup p with
      | none => .error .user
      | some sub =>
        match overridePath key v rest sub with
        | .error e => .error e
        | .ok sub' => .ok (.mk n s m ps (setKey p sub' ks))

/-- The parts before and after the last dot. -/
def rsplitDot (s : Str) : Option (Str × Str) :=
  match beforeLast ['.'] s with
  | none => none
  | some a => some (a, s.drop (a.length + 1))

/-- `apply_overrides`, parse/util.py:534-585. -/
def applyOverride (path : Str) (v : OVal) (s : Spec) : Except SpecErr Spec :=
  match rsplitDot path with
  | none => .error .user
  | some (p, key) => overridePath key v (splitOn '/' p) s

/-- The loop over `override_spec`, configuration.py:405-406. -/
def applyOverrides : List (Str × OVal) → Spec → Except SpecErr Spec
  | [], s => .ok s
  | (p, v) :: os, s =>
    match applyOverride p v s with
    | .error e => .error e
    | .ok s' => applyOverrides os s'

/-- `ParseConfig._update_derived`, configuration.py:400-406: `fn_spec`. -/
def userSpec (commands : List (Str × Decl)) (overrides : List (Str × OVal)) : Except SpecErr Spec :=
  match Spec.addAll commands .root with
  | .error e => .error e
  | .ok s => applyOverrides overrides s

end Verif.Parse
