import Verif.Py

/-!
# Sorting an argument list: `format/formatter.py:1152-1180`
-/

namespace Verif.ArgSort
open Verif Py

variable {α : Type _}

/-- The loop of `sort_arguments`, formatter.py:1171-1179, over children paired with
their identity (`id(child)`); `rank` is `nodemap`. -/
def sortLoop (rank : Nat → Option Nat) : Nat → Nat → List (α × Nat) → List (Nat × Nat × α × Nat)
  | _, _, [] => []
  | keyidx, posidx, child :: rest =>
    match rank child.2 with
    | some r => (r, 0, child) :: sortLoop rank r 1 rest
    | none => (keyidx, posidx, child) :: sortLoop rank keyidx (posidx + 1) rest

/-- Tuple comparison on the first two components; they are unique in `sortlist`, so
the third is never compared. -/
def pairLe (a b : Nat × Nat × α × Nat) : Bool :=
  a.1 < b.1 || (a.1 == b.1 && a.2.1 ≤ b.2.1)

/-- `nodemap`, formatter.py:1166-1168: identity to position in the sorted list,
counted from one. -/
def nodemap (sortedArgs : List (α × Nat)) (i : Nat) : Option Nat :=
  (sortedArgs.findIdx? (fun n => n.2 == i)).map (· + 1)

/-- `sort_arguments`, formatter.py:1160-1180.  `isArg` is
`pnode.node_type is NodeType.ARGUMENT` and `key` is `filename_node_key`
(formatter.py:1152-1157).  Children are told apart by their position, which stands
for `id(child)`. -/
def sortArguments (isArg : α → Bool) (key : α → Str) (children : List α) : List α :=
  let tagged := children.zipIdx
  let argumentNodes := tagged.filter (fun n => isArg n.1)
  let sortedArgs := sortBy (fun a b => strLe (key a.1) (key b.1)) argumentNodes
  let sortlist := sortLoop (nodemap sortedArgs) 0 0 tagged
  (sortBy pairLe sortlist).map (fun t => t.2.2.1)

end Verif.ArgSort
