import Verif.ParseDb

/-!
# How the words of a command are grouped: a specification without code (C62)

A command is described by its keywords, its flags and the number of words that the command
itself and each keyword take.  `place` goes through the words of an argument list from left
to right and says for each of them whether it opens a group or joins the open one, and whether
it is a keyword, a flag or an argument.
-/

namespace Verif.Parse
open Verif Py Lex

/-- How a word of an argument list is read: `opens` is `some true` if it opens a keyword group,
`some false` if it opens a positional group, and `none` if it joins the open group. -/
structure Mark where
  opens : Option Bool
  kind : NT
  word : Token
  deriving DecidableEq

/-- What a group takes: the first `forced` words whatever they are, with the flags `fflags`
among them; then, if `more` is there, the words up to the next keyword, with these flags. -/
structure Slot where
  forced : Nat
  fflags : List Str
  more : Option (List Str)
  deriving DecidableEq

/-- A command: its keywords and what follows them, its flags, and what its first positional
group and the later ones take. -/
structure Command where
  keywords : List (Str × Slot)
  flags : List Str
  first : Slot
  later : Slot
  deriving DecidableEq

/-- The way a word is looked up: a word in upper case, an unquoted argument that starts with
a dash in lower case, anything else not at all. -/
def keywordText (t : Token) : Option Str :=
  if t.type = .word then some (upper t.spelling)
  else if t.type = .unquoted ∧ t.spelling.head? = some '-' then some (lower t.spelling)
  else none

/-- The slot of the keyword that a word is. -/
def Command.keyword (c : Command) (t : Token) : Option Slot := (keywordText t).bind fun w => c.keywords.lookup w

/-- A word is spelled like one of these, in any letter case. -/
def spelledIn (t : Token) (ws : List Str) : Bool := ws.any fun w => upper w == upper t.spelling

/-- A flag, or an argument. -/
def kindOf (flags : List Str) (t : Token) : NT :=
  match keywordText t with
  | some w => if w ∈ flags then .flag else .argument
  | none => .argument

/-- Between two words: what the open group still takes, whether it is a keyword group, and whether
the first positional group is still to come. -/
structure Stage where
  slot : Slot
  inKeyword : Bool
  fresh : Bool

/-- One word less is forced. -/
def Slot.pred (s : Slot) : Slot := { s with forced := s.forced - 1 }

/-- The words of an argument list, one after the other. -/
def place (c : Command) : Stage → List Token → List Mark
  | _, [] => []
  | s, t :: ts =>
    let begin : List Mark :=
      let slot := if s.fresh then c.first else c.later
      if slot.forced = 0 then
        ⟨some false, kindOf (slot.more.getD []) t, t⟩ :: place c ⟨slot, false, false⟩ ts
      else ⟨some false, kindOf slot.fflags t, t⟩ :: place c ⟨slot.pred, false, false⟩ ts
    if s.slot.forced ≠ 0 then
      ⟨none, kindOf s.slot.fflags t, t⟩ :: place c { s with slot := s.slot.pred } ts
    else
      match c.keyword t with
      | some slot => ⟨some true, .keyword, t⟩ :: place c ⟨slot, true, s.fresh⟩ ts
      | none =>
        match s.slot.more with
        | none => begin
        | some flags =>
          if s.inKeyword && spelledIn t c.flags then begin
          else ⟨none, kindOf flags t, t⟩ :: place c s ts

/-- Nothing is open. -/
def closed : Slot := ⟨0, [], none⟩

/-- All the words of an argument list. -/
def Command.place (c : Command) (ws : List Token) : List Mark := Parse.place c ⟨closed, false, true⟩ ws

/-! ## From the tables of the tool -/

/-- What a positional group takes: a number is exact; `"*"`, `"+"` and `"n+"` take any number.
(`"?"` is left out.) -/
def posSlot (s : PSpec) : Option Slot :=
  match s.nargs with
  | .int k => some ⟨k.toNat, s.flags, none⟩
  | .str x => if x = S "?" then none else some ⟨0, [], some s.flags⟩

/-- What follows a keyword.  After an exact number of words, a `standard` parser goes on up to the
next keyword, a `positional` one stops.  A tuple is a group within the group. -/
def keySlot : ArgP → Option Slot
  | .positional s => posSlot s
  | .standard _ [s] [] =>
    match s.nargs with
    | .int k => if k < 0 then none else if k = 0 then some closed else some ⟨k.toNat, s.flags, some []⟩
    | .str x => if x = S "?" then none else some ⟨0, [], some s.flags⟩
  | .tuple (.str x) _ flags => if x = S "?" then none else some ⟨0, [], some flags⟩
  | .shell => some ⟨0, [], some []⟩
  | .null => some closed
  | _ => none

/-- All keywords. -/
def keySlots : List (Str × ArgP) → Option (List (Str × Slot))
  | [] => some []
  | (k, p) :: kps =>
    match keySlot p, keySlots kps with
    | some s, some ss => some ((k, s) :: ss)
    | _, _ => none

/-- The operators within a condition. -/
def operators : List Str :=
  [S "COMMAND", S "DEFINED", S "EQUAL", S "EXISTS", S "GREATER", S "LESS", S "IS_ABSOLUTE", S "IS_DIRECTORY",
   S "IS_NEWER_THAN", S "IS_SYMLINK", S "MATCHES", S "NOT", S "POLICY", S "STRLESS", S "STRGREATER", S "STREQUAL",
   S "TARGET", S "TEST", S "VERSION_EQUAL", S "VERSION_GREATER", S "VERSION_LESS"]

/-- What a group of operands takes. -/
def operands : Slot := ⟨0, [], some operators⟩

/-- The description of a command whose keywords have no keywords of their own.  A specification
in the old style is used for all positional groups, another one for the first group only. -/
def commandOf : ArgP → Option Command
  | .standard _ [s] kwargs =>
    match keySlots kwargs, s.nargs with
    | some ks, .int k => if k < 0 then none else some ⟨ks, s.flags, ⟨k.toNat, s.flags, none⟩, ⟨0, [], some []⟩⟩
    | some ks, .str x =>
      if x = S "?" then none
      else some ⟨ks, s.flags, ⟨0, [], some s.flags⟩, ⟨0, [], some (if s.legacy then s.flags else [])⟩⟩
    | none, _ => none
  | .conditional => some ⟨[(S "AND", operands), (S "OR", operands)], [], operands, operands⟩
  | _ => none

/-! ## From a declaration of the user's -/

/-- The number of words in a declaration; without one, any number. -/
def countOf : Option Pargs → Option Nargs
  | none => some (.str (S "*"))
  | some (.scalar n) => some n
  | _ => none

/-- What a declared keyword takes: no words; at least so many, the first ones whatever they are; or any
number. -/
def valueSlot (flags : List Str) : Nargs → Option Slot
  | .int k => if k < 0 then none else if k = 0 then some closed else some ⟨k.toNat, flags, some []⟩
  | .str x => if x = S "?" then none else some ⟨0, [], some flags⟩

/-- A declared keyword without keywords of its own.  `COMMAND` takes any number of words. -/
def declSlot (k : Str) (d : Decl) : Option Slot :=
  if k = S "if" ∨ k = S "elseif" ∨ k = S "while" then none
  else if k = S "COMMAND" then some ⟨0, [], some []⟩
  else
    match d with
    | .scalar n => valueSlot [] n
    | .dict pargs flags [] _ _ => (countOf pargs).bind (valueSlot flags)
    | _ => none

/-- All of them. -/
def declSlots : List (Str × Decl) → Option (List (Str × Slot))
  | [] => some []
  | (k, d) :: ds =>
    match declSlot k d, declSlots ds with
    | some s, some ss => some ((k, s) :: ss)
    | _, _ => none

/-- A declared command. -/
def declCommand : Decl → Option Command
  | .scalar _ => none
  | .dict pargs flags kwargs _ _ =>
    match countOf pargs, declSlots kwargs with
    | some (.int k), some ks => if k < 0 then none else some ⟨ks, flags, ⟨k.toNat, flags, none⟩, ⟨0, [], some []⟩⟩
    | some (.str x), some ks =>
      if x = S "?" then none else some ⟨ks, flags, ⟨0, [], some flags⟩, ⟨0, [], some flags⟩⟩
    | _, _ => none

/-- The keywords of a declaration. -/
def declKeywords : Decl → List Str
  | .scalar _ => []
  | .dict _ _ kwargs _ _ => kwargs.map (·.1)

/-- The parser that is used for these tokens. -/
def resolve (p : ArgP) (ts : List Token) : Option ArgP :=
  match p with
  | .choose f => match f ts with
    | .ok q => some q
    | .error _ => none
  | p => some p

/-! ## What is seen in a tree -/

mutual
/-- The keywords, flags and arguments of a tree. -/
def leafs : Node → List (NT × Token)
  | .tok _ => []
  | .node ty _ cs =>
    if ty = .keyword ∨ ty = .flag ∨ ty = .argument then
      match cs with
      | .tok t :: _ => [(ty, t)]
      | _ => []
    else leafsL cs
/-- All of them. -/
def leafsL : List Node → List (NT × Token)
  | [] => []
  | n :: ns => leafs n ++ leafsL ns
end

/-- The words of a group. -/
def marked (keyword : Bool) : List (NT × Token) → List Mark
  | [] => []
  | (k, t) :: l => ⟨some keyword, k, t⟩ :: l.map fun p => ⟨none, p.1, p.2⟩

/-- The marks of a child of an argument tree. -/
def groupMarks : Node → List Mark
  | .node .pargGroup _ cs => marked false (leafsL cs)
  | .node .kwargGroup _ cs => marked true (leafsL cs)
  | _ => []

/-- The marks of a statement. -/
def argMarks : Node → List Mark
  | .node .statement _ cs => cs.flatMap fun
    | .node .argGroup _ ds => ds.flatMap groupMarks
    | _ => []
  | _ => []

/-- The tokens of a command up to its closing parenthesis; a comment may follow that. -/
def upToClose (s : Node) : List Token := (s.toks.reverse.dropWhile fun t => t.type != .rparen).reverse

/-- No comments and no format switches in a command. -/
def Commentless (s : Node) : Prop :=
  ∀ t ∈ upToClose s, t.type ∉ [.comment, .bracketComment, .formatOn, .formatOff]

mutual
/-- The statements of a tree. -/
def stmtsOf : Node → List Node
  | .tok _ => []
  | .node ty a cs => if ty = .statement then [.node ty a cs] else stmtsL cs
/-- All of them. -/
def stmtsL : List Node → List Node
  | [] => []
  | n :: ns => stmtsOf n ++ stmtsL ns
end

end Verif.Parse
