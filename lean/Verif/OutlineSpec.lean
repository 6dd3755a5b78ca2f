import Verif.LayoutSpec

/-!
# The blocks of a listfile (specification for C28 and C53)

A listfile is a sequence of blank lines and blocks.  A block is a statement with its
arguments, or a comment between statements; it has a nesting depth, which counts the
`if`, `foreach`, `function`, ... blocks around it.
-/

namespace Verif.Layout
open Verif Py Lex Parse

/-- A blank line, or a block at a depth. -/
inductive Event
  | blank
  | block (depth : Nat) (n : Node)

/-- The text of some nodes. -/
def sourceOf (cs : List Node) : Str := (toksL cs).flatMap (·.spelling)

/-- A body inside a flow-control block. -/
def isBody : Node → Bool
  | .node .body _ _ => true
  | _ => false

mutual
/-- The blank lines and blocks of a part of a parse tree at a depth.  Blanks between blocks
count if they contain two line feeds, that is an empty line.  An empty body takes a line. -/
def outline (d : Nat) : Node → List Event
  | .tok _ => []
  | .node .whitespace _ cs => if (sourceOf cs).count '\n' < 2 then [] else [.blank]
  | .node .body _ cs => if (outlineBody d cs).isEmpty then [.blank] else outlineBody d cs
  | .node .flowControl _ cs => outlineFlow d cs
  | .node ty a cs => [.block d (.node ty a cs)]
/-- The parts of a body are at its depth. -/
def outlineBody (d : Nat) : List Node → List Event
  | [] => []
  | n :: ns => outline d n ++ outlineBody d ns
/-- Bodies inside a flow-control block are one deeper than its statements. -/
def outlineFlow (d : Nat) : List Node → List Event
  | [] => []
  | n :: ns => outline (if isBody n then d + 1 else d) n ++ outlineFlow d ns
end

/-- No two neighbouring blank lines. -/
def singleBlanks : List Event → Bool
  | .blank :: .blank :: _ => false
  | _ :: es => singleBlanks es
  | [] => true

/-- What is printed for a blank line, or for a block at a depth. -/
inductive Shown
  | blank
  | block (depth : Nat) (text : Str)

/-- Without the blank lines at the end. -/
def trimBlanks : List Shown → List Shown
  | [] => []
  | .blank :: es =>
    match trimBlanks es with
    | [] => []
    | rest => .blank :: rest
  | .block d s :: es => .block d s :: trimBlanks es

/-- Blank lines and blocks, one below the other, each block indented by its depth. -/
def page (endl : Str) (tab : Nat) : List Shown → Str
  | [] => []
  | .blank :: es => endl ++ page endl tab es
  | .block d s :: es => List.replicate (d * tab) ' ' ++ s ++ endl ++ page endl tab es

/-- The text of a block that starts in a column: the texts of the block, in order, with
nothing but line ends and blanks between them, starting with the first; those that are not
comments are the tokens of the block, in order unless arguments are sorted. -/
def BlockText (endl : Str) (sorted : Bool) (W : Token → Piece → Prop) (col : Nat) (n : Node) (s : Str) : Prop :=
  ∃ row ts ps p, ps.head? = some p ∧ p.pos = ⟨row, col⟩ ∧ s = weave endl ⟨row, col⟩ ps ∧ InOrder ⟨row, col⟩ ps ∧
    Linked ps ∧ ts.Perm (program n.toks) ∧ (sorted = false → ts = program n.toks) ∧
    AllWritten W ts (ps.filter fun p => p.kind.isProgram)

/-- Event by event. -/
def Shows (B : Nat → Node → Str → Prop) : List Event → List Shown → Prop
  | [], [] => True
  | .blank :: es, .blank :: ss => Shows B es ss
  | .block d n :: es, .block d' s :: ss => d' = d ∧ B d n s ∧ Shows B es ss
  | _, _ => False

end Verif.Layout
