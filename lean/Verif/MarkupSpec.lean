import Verif.Markup

/-!
# Specification of comment reflow (C24 - C27)
-/

namespace Verif.Wrap
open Verif Py

/-- The words of a text, separated by blanks (`str.split()`); `cur` is the
word being read. -/
def splitWords (cur : Str) : Str → List Str
  | [] => if cur.isEmpty then [] else [cur]
  | c :: cs =>
    if isWhite c then (if cur.isEmpty then [] else [cur]) ++ splitWords [] cs
    else splitWords (cur ++ [c]) cs

/-- The words of a text. -/
def words (s : Str) : List Str := splitWords [] s

/-- The only blanks are the ASCII ones. -/
def PlainBlanks (s : Str) : Prop := ∀ c ∈ s, isWhite c = true → isSpace c = true

/-- How many blanks a text has, after tabs are expanded, beyond one between two words. -/
def surplus (t : Str) : Nat := (munge t).length - (join [' '] (words t)).length

end Verif.Wrap

namespace Verif.Markup
open Verif Py Verif.Wrap

/-- The non-blank characters of a text. -/
def ink (s : Str) : Str := s.filter fun c => !isWhite c

/-- The non-blank characters of the items, in order. -/
def itemsInk (items : List Item) : Str := items.flatMap fun i => i.lines.flatMap ink

/-- The words of the items, in order. -/
def itemsWords (items : List Item) : List Str := items.flatMap fun i => i.lines.flatMap words

/-- A list marker: a bullet, or digits and at most one more character. -/
def IsMarker (m : Str) : Prop :=
  m = ['*'] ∨ m = ['-'] ∨
    ∃ ds tail : Str, m = ds ++ tail ∧ ds ≠ [] ∧ (∀ c ∈ ds, isDigit c = true) ∧ tail.length ≤ 1

/-- What is kept of a line that has these characters: everything, or everything but one
list marker; only on a fence line may something come before the marker. -/
def Kept (cfg : Cfg) (line piece : Str) : Prop :=
  ink line = piece ∨
    ∃ a m b, IsMarker m ∧ ink line = a ++ m ++ b ∧ piece = a ++ b ∧
      (a ≠ [] → cfg.fence line ≠ none)

/-- What is kept of the words of a line. -/
def KeptWords (line : Str) (ws : List Str) : Prop :=
  words line = ws ∨ ∃ m, IsMarker m ∧ words line = m :: ws

/-- A comment line the tool takes for a directive: `# cmake-format: ...`. -/
def Directive (line : Str) : Prop :=
  ∃ ws name rest : Str, line = '#' :: ws ++ name ++ S ": " ++ rest ∧
    (∀ c ∈ ws, isWhite c = true) ∧ (name = S "cmake-format" ∨ name = S "cmf")

/-- The words to be found in the output for an item. -/
def outWords (cfg : Cfg) (width : Int) (i : Item) : List Str :=
  match i.kind with
  | .separator => []
  | .fence => [S "~~~"]
  | .bulletList => i.lines.flatMap fun l => words cfg.bulletChar ++ words l
  | .enumList => (i.lines.zipIdx 1).flatMap fun lk =>
      words (padNum (digitsOf i.lines.length) lk.2 ++ cfg.enumChar) ++ words lk.1
  | .ruler =>
    if isHashruler i && cfg.canonHashrulers then [List.replicate width.toNat '#']
    else i.lines.flatMap words
  | _ => i.lines.flatMap words

end Verif.Markup
