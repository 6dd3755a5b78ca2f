import Verif.LintSpec
import Verif.LintTree

/-!
# Documentation comments (specification for C86)
-/

namespace Verif.Lint
open Verif Py Lex Parse

mutual
/-- What the bodies of a file consist of: the file itself and the parts of its blocks. -/
def bodiesOf : Node → List (List Node)
  | .tok _ => []
  | .node ty _ cs => (if ty = .body then [cs] else []) ++ bodiesOfL cs
/-- The same for several nodes. -/
def bodiesOfL : List Node → List (List Node)
  | [] => []
  | n :: ns => bodiesOf n ++ bodiesOfL ns
end

/-- The command that begins the definition of a function or macro. -/
def definition : Node → Option Node
  | .node .flowControl _ (s :: _) => if nameOf s = S "function" ∨ nameOf s = S "macro" then some s else none
  | _ => none

/-- The comment right above, given what stands before, nearest first: between it and the place there is nothing
but blanks with at most one newline. -/
def commentAbove : List Node → Option Node
  | .node .whitespace _ w :: .node .comment a c :: _ =>
    if ((toksL w).map fun t => t.spelling.count '\n').sum ≤ 1 then some (.node .comment a c) else none
  | _ => none

/-- A line comment without words: nothing but blanks after its comment sign; with markup, the sign may be any
number of `#` short of a ruler. -/
def wordless (o : Opts) (explicit : Bool) (s : Str) : Bool :=
  let line := Wrap.strip s
  if explicit then (line.drop o.markup.explicitTrailing.length).all isBlank
  else if o.markup.enableMarkup && !startsWith (List.replicate o.markup.hashrulerMin '#') line then
    (line.dropWhile (· == '#')).all isBlank
  else (line.drop 1).all isBlank

/-- A comment that says nothing: no line comment in it has words. -/
def saysNothing (o : Opts) : Node → Bool
  | .node _ a cs =>
    ((toksL cs).filter fun t => t.type == .comment).all fun t => wordless o (a.trailing == .explicit) t.spelling
  | .tok _ => true

/-- The definitions among the parts of a body, each with the comment right above it. -/
def definitions (before : List Node) : List Node → List (Node × Option Node)
  | [] => []
  | n :: ns => ((definition n).toList.map fun s => (s, commentAbove before)) ++ definitions (n :: before) ns

/-- What is to be reported about one definition. -/
def docFault (o : Opts) (d : Node × Option Node) : List Rec :=
  match d.2 with
  | none => [⟨S "C0111", startOf d.1, []⟩]
  | some c => if saysNothing o c then [⟨S "C0112", startOf d.1, []⟩] else []

/-- What is to be reported about a file. -/
def docFaults (o : Opts) (tree : Node) : List Rec :=
  (bodiesOf tree).flatMap fun cs => (definitions [] cs).flatMap (docFault o)

end Verif.Lint
