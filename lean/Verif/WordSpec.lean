import Verif.FormSpec

/-!
# Commands that are read word by word: a specification without code (C94)

`set`, `foreach`, `add_custom_target`, `add_library`, `add_executable`, `file(WRITE)` and the commands without
arguments are not described by a table.  Each of them is described here as a function from its words to their
groups: some words at the start belong together, and from there on every group says where it ends.
-/

namespace Verif.Parse
open Verif Py Lex

/-- An open group: what it takes, and the words at which it ends. -/
structure Open where
  slot : Slot
  stops : Token → Bool

/-- How a word opens a group: a keyword group or not, as what the word is read, and what the group takes. -/
structure Opening where
  keyword : Bool
  kind : NT
  group : Open

/-- The words of a command, one after the other: each of them joins the open group, or opens one. -/
def sections (opening : Token → Opening) : Open → List Token → List Mark
  | _, [] => []
  | o, t :: ts =>
    let start : List Mark := ⟨some (opening t).keyword, (opening t).kind, t⟩ :: sections opening (opening t).group ts
    if o.slot.forced ≠ 0 then
      ⟨none, kindOf o.slot.fflags t, t⟩ :: sections opening { o with slot := o.slot.pred } ts
    else
      match o.slot.more with
      | none => start
      | some flags => if o.stops t then start else ⟨none, kindOf flags t, t⟩ :: sections opening o ts

/-- The first `n` words belong together, whatever they are. -/
def firstWords (n : Nat) (flags : List Str) (opening : Token → Opening) : List Token → List Mark
  | [] => []
  | t :: ts => ⟨some false, kindOf flags t, t⟩ :: sections opening ⟨exactly (n - 1) flags, fun _ => true⟩ ts

/-- The word is one of these, in any letter case. -/
def named (t : Token) (ws : List Str) : Bool :=
  match keywordText t with
  | some w => ws.contains w
  | none => false

/-- All words that are left belong together. -/
def oneGroup (_ : Token) : Opening := ⟨false, .argument, ⟨any [], fun _ => false⟩⟩

/-- A positional group that ends at these words. -/
def until_ (flags stops : List Str) (t : Token) : Opening := ⟨false, kindOf flags t, ⟨any flags, fun u => spelledIn u stops⟩⟩

/-- A keyword with what follows it, up to these words. -/
def keyed (slot : Slot) (stops : List Str) : Opening := ⟨true, .keyword, ⟨slot, fun u => spelledIn u stops⟩⟩

/-! ## `set` -/

/-- `CACHE` is a keyword; `PARENT_SCOPE` opens a positional group, which goes on up to `CACHE`. -/
def setOpening (t : Token) : Opening :=
  if named t [S "CACHE"] then keyed (any [S "FORCE"]) [S "CACHE", S "PARENT_SCOPE"]
  else if named t [S "PARENT_SCOPE"] then until_ [S "PARENT_SCOPE"] [S "CACHE"] t
  else until_ [] [S "CACHE", S "PARENT_SCOPE"] t

/-- The name of the variable, then its values. -/
def setMarks : List Token → List Mark := firstWords 1 [S "PARENT_SCOPE"] setOpening

/-! ## `foreach` -/

/-- `LISTS` and `ITEMS` are keywords. -/
def inOpening (t : Token) : Opening :=
  if named t [S "LISTS", S "ITEMS"] then keyed (any []) [S "LISTS", S "ITEMS"]
  else until_ [] [S "LISTS", S "ITEMS"] t

/-- `foreach(var IN ...)`, or `foreach(var item ...)`. -/
def foreachMarks (ws : List Token) : List Mark :=
  if (ws[1]?.map fun t => upper t.spelling) = some (S "IN") then firstWords 2 [S "IN"] inOpening ws
  else firstWords 1 [] oneGroup ws

/-! ## `add_custom_target` -/

/-- The keywords and what follows them. -/
def targetKeywords : List (Str × Slot) :=
  [(S "BYPRODUCTS", any []), (S "COMMAND", any []), (S "COMMENT", exactly 1 []), (S "DEPENDS", any []),
   (S "JOB_POOL", exactly 1 []), (S "SOURCES", any []), (S "WORKING_DIRECTORY", exactly 1 [])]

/-- The flags. -/
def targetSwitches : List Str := [S "VERBATIM", S "USES_TERMINAL", S "COMMAND_EXPAND_LISTS"]

/-- All of them. -/
def targetWords : List Str := targetKeywords.map (·.1) ++ targetSwitches

/-- Flags that follow each other are a group; so are the words up to the next keyword or flag. -/
def targetOpening (t : Token) : Opening :=
  match (keywordText t).bind fun w => targetKeywords.lookup w with
  | some slot => keyed slot targetWords
  | none =>
    if named t targetSwitches then ⟨false, .flag, ⟨any targetSwitches, fun u => !spelledIn u targetSwitches⟩⟩
    else until_ [] targetWords t

/-- The name of the target, with `ALL` if it is the next word; then the rest. -/
def targetMarks (ws : List Token) : List Mark :=
  firstWords (if (ws[1]?.any fun u => named u [S "ALL"]) = true then 2 else 1) [S "ALL"] targetOpening ws

/-! ## Libraries and executables with sources -/

/-- The words of a group. -/
def grouped (words : List (NT × Token)) : List Mark := marked false words

/-- The name with all the flags that follow it; then the sources. -/
def executableMarks : List Token → List Mark
  | [] => []
  | n :: ws =>
    let isFlag := fun t => named t [S "WIN32", S "MACOSX_BUNDLE", S "EXCLUDE_FROM_ALL"]
    grouped ((.argument, n) :: (ws.takeWhile isFlag).map fun t => (.flag, t)) ++
      grouped ((ws.dropWhile isFlag).map fun t => (.argument, t))

/-- The words of a library after its name: at most one flag for its type, at most one more, and the sources. -/
def libraryParts (ws : List Token) : List Token × List Token :=
  let kind := (ws.take 1).takeWhile fun t => named t [S "STATIC", S "SHARED", S "MODULE", S "OBJECT"]
  let rest := ws.drop kind.length
  let excluded := (rest.take 1).takeWhile fun t => named t [S "EXCLUDE_FROM_ALL"]
  (kind ++ excluded, rest.drop excluded.length)

/-- The name with its flags; then the sources. -/
def libraryMarks : List Token → List Mark
  | [] => []
  | n :: ws =>
    grouped ((.argument, n) :: (libraryParts ws).1.map fun t => (.flag, t)) ++
      grouped ((libraryParts ws).2.map fun t => (.argument, t))

/-! ## The rest -/

/-- `file(WRITE)` and `file(APPEND)`: the file, then the text. -/
def writeMarks : List Token → List Mark := firstWords 2 [S "WRITE", S "APPEND"] oneGroup

/-- `add_library(x OBJECT ...)`: the name, then the sources. -/
def objectMarks : List Token → List Mark := firstWords 2 [S "OBJECT"] oneGroup

/-- A command that takes no arguments. -/
def emptyMarks (ws : List Token) : List Mark := grouped (ws.map fun t => (.argument, t))

/-! ## By command -/

/-- The `n`-th word, in upper case. -/
def wordAt (n : Nat) (ws : List Token) : Option Str := ws[n]?.map fun t => upper t.spelling

/-- The groups of a command that is read word by word, where this is one of these. -/
def wordMarks (command : Str) (ws : List Token) : Option (List Mark) :=
  if command = S "set" then some (setMarks ws)
  else if command = S "add_custom_target" then some (targetMarks ws)
  else if command ∈ [S "break", S "continue", S "enable_testing", S "return"] then some (emptyMarks ws)
  else if command = S "foreach" then
    if ws = [] ∨ wordAt 1 ws = some (S "RANGE") then none else some (foreachMarks ws)
  else if command = S "file" then
    if wordAt 0 ws = some (S "WRITE") ∨ wordAt 0 ws = some (S "APPEND") then some (writeMarks ws) else none
  else if command = S "add_executable" then
    if ws = [] ∨ wordAt 1 ws = some (S "ALIAS") ∨ wordAt 1 ws = some (S "IMPORTED") then none else some (executableMarks ws)
  else if command = S "add_library" then
    if ws.length < 2 then none
    else if wordAt 1 ws = some (S "OBJECT") then some (objectMarks ws)
    else if wordAt 1 ws = some (S "ALIAS") ∨ wordAt 1 ws = some (S "INTERFACE") ∨ wordAt 1 ws = some (S "IMPORTED") ∨
        wordAt 2 ws = some (S "IMPORTED") then none
    else some (libraryMarks ws)
  else none

/-- The words that start a new group in such a command. -/
def wordStops (command : Str) : List Str :=
  if command = S "set" then [S "CACHE", S "PARENT_SCOPE"]
  else if command = S "add_custom_target" then targetWords
  else if command = S "foreach" then [S "LISTS", S "ITEMS"]
  else []

end Verif.Parse
