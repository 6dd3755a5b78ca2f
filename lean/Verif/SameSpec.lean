import Verif.ParseSpec
import Verif.ParseDb

/-!
# Reading does not depend on blanks and letter case (specification for C59)
-/

namespace Verif.Parse
open Verif Py Lex

/-- What matters about a token: its type and its letters. -/
def word (t : Token) : TokType × Str := (t.type, lower t.spelling)

/-- The same words: the texts differ in blanks, line ends and letter case. -/
def SameWords (text text' : List Token) : Prop := (program text).map word = (program text').map word

/-- No comments and no format switches. -/
def NoComments (ts : List Token) : Prop :=
  ∀ t ∈ ts, t.type ∉ [.comment, .bracketComment, .formatOn, .formatOff]

/-- Every `foreach(` is followed by at least two words. -/
def ForeachNamed (ts : List Token) : Prop :=
  ∀ a t l x b, program ts = a ++ t :: l :: x :: b → lower t.spelling = S "foreach" → l.type = .lparen →
    x.type ≠ .lparen ∧ ∀ y, b.head? = some y → y.type ≠ .rparen

/-- The structure of a tree: the types and properties of its nodes, and its words. -/
inductive Skeleton
  | word (w : TokType × Str)
  | group (type : NT) (attr : Attr) (parts : List Skeleton)

mutual
/-- A tree without its blanks, places and letter case. -/
def skeleton : Node → List Skeleton
  | .tok t => if t.type ∈ [.whitespace, .newline] then [] else [.word (word t)]
  | .node ty a cs => if ty = .whitespace then [] else [.group ty a (skeletons cs)]
/-- All of them. -/
def skeletons : List Node → List Skeleton
  | [] => []
  | n :: ns => skeleton n ++ skeletons ns
end

mutual
/-- A structure without the words of its comments. -/
def Skeleton.hush : Skeleton → Skeleton
  | .word w => .word w
  | .group ty a parts => .group ty a (if ty = .comment then [] else hushAll parts)
/-- All of them. -/
def hushAll : List Skeleton → List Skeleton
  | [] => []
  | s :: ss => s.hush :: hushAll ss
end

/-- The structure of a tree: what `skeleton` says, and where the comments are, but not what they say. -/
def frame (n : Node) : List Skeleton := hushAll (skeleton n)

/-- A word with a character that is no blank. -/
def inked (w : Str) : Bool := w.any fun c => !isSpace c

mutual
/-- A specification of commands none of whose keywords and flags is blank. -/
def Spec.named : Spec → Bool
  | .mk _ _ _ pargs kwargs => pargs.all (fun s => s.flags.all inked) && specsNamed kwargs
/-- The keywords. -/
def specsNamed : List (Str × Spec) → Bool
  | [] => true
  | (k, s) :: ks => inked k && s.named && specsNamed ks
end

end Verif.Parse
