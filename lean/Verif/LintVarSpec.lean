import Verif.LintVars
import Verif.LintSpec

/-!
# Names of variables (specification for the check of built-in names)

Nothing here refers to the checks of cmake-lint; `builtinPatterns` is the table of the names of
built-in variables.
-/

namespace Verif.Lint
open Verif Py Lex Parse

/-- A name starts with a built-in one: with the whole of it, or with its beginning and, before the end of the
line, its end. -/
def BuiltinAt (name : Str) (p : Str × Option Str) : Prop :=
  match p.2 with
  | none => ∃ rest, name = p.1 ++ rest
  | some post => ∃ mid rest, name = p.1 ++ mid ++ post ++ rest ∧ '\n' ∉ mid

/-- A misspelt built-in variable: in capital letters the first entry of the table that fits is one without
a variable part, and as it is written no entry fits. -/
def Misspelt (name : Str) : Prop :=
  (∃ before p after, builtinPatterns = before ++ p :: after ∧ p.2 = none ∧ BuiltinAt (upper name) p ∧
    ∀ q ∈ before, ¬ BuiltinAt (upper name) q) ∧ ∀ q ∈ builtinPatterns, ¬ BuiltinAt name q

/-- Letters, digits and the underscore. -/
def nameLetter (c : Char) : Bool := ('a' ≤ c && c ≤ 'z') || ('A' ≤ c && c ≤ 'Z') || ('0' ≤ c && c ≤ '9') || c == '_'

/-- The reference `${name}` at the front of a text. -/
def referenceAt : Str → Option Str
  | '$' :: '{' :: s =>
    if s.takeWhile nameLetter ≠ [] ∧ (s.dropWhile nameLetter).head? = some '}' then some (s.takeWhile nameLetter) else none
  | _ => none

/-- The references in a text, one for each place where one starts. -/
def references : Str → List Str
  | [] => []
  | c :: s => (referenceAt (c :: s)).toList ++ references s

/-- The name that the check takes for the variable which a command assigns: the first argument of `set`,
the second of `list`. -/
def target (s : Node) : Option Token :=
  if nameOf s = c! "set" then (argsOf s).head?
  else if nameOf s = c! "list" then (argsOf s)[1]?
  else none

end Verif.Lint
