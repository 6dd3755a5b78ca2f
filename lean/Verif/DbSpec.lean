import Verif.ParseDb

/-!
# What the properties of command declarations say

Nothing here is taken from the code: these are the words in which C55 and C56 are stated.
-/

namespace Verif.Parse
open Verif Py

/-- The last declaration for a command, whatever the letter case of its name. -/
def declared (ds : List (Str × Decl)) (k : Str) : Option (Str × Decl) :=
  ds.reverse.find? fun nd => lower nd.1 = k

/-- The last declaration of a keyword; the letter case matters. -/
def declaredKeyword (ds : List (Str × Decl)) (k : Str) : Option (Str × Decl) :=
  ds.reverse.find? fun nd => nd.1 = k

/-- The command or keyword at a path. -/
def Spec.at : List Str → Spec → Option Spec
  | [], s => some s
  | k :: path, s =>
    match s.kwargs.lookup k with
    | none => none
    | some sub => Spec.at path sub

/-- The two commands or keywords agree in everything but what is inside their own keywords. -/
def SameHere (a b : Spec) : Prop :=
  a.name = b.name ∧ a.spelling = b.spelling ∧ a.maxSubgroups = b.maxSubgroups ∧ a.pargs = b.pargs

/-- The same with "there is none" on both sides. -/
def SameAt : Option Spec → Option Spec → Prop
  | none, none => True
  | some a, some b => SameHere a b
  | _, _ => False

/-- The attributes of a command or keyword that have a plain value. -/
def attr (key : Str) (s : Spec) : Option OVal :=
  if key = S "name" then some (.str s.name)
  else if key = S "spelling" then some (.str s.spelling)
  else if key = S "max_subgroups_hwrap" then
    some (match s.maxSubgroups with | some n => .int n | none => .none)
  else none

/-- The attributes of a positional group. -/
def pattr (key : Str) (p : PSpec) : Option OVal :=
  if key = S "nargs" then some (match p.nargs with | .int n => .int n | .str s => .str s)
  else if key = S "sortable" then some (.bool p.sortable)
  else if key = S "tags" then some (.strs p.tags)
  else if key = S "flags" then some (.strs p.flags)
  else if key = S "legacy" then some (.bool p.legacy)
  else if key = S "max_pargs_hwrap" then
    some (match p.maxPargs with | some n => .int n | none => .none)
  else none

end Verif.Parse
