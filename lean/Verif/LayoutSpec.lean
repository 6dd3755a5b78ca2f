import Verif.Write
import Verif.ParseSpec

/-!
# What formatted output looks like (specification for C12 - C16, C28 and C29)

Formatted output is a sequence of texts, each at a row and column, with nothing but line
ends and blanks between them.  Nothing here refers to passes, wrapping or the writer.
-/

namespace Verif.Layout
open Verif Py Lex Parse

/-- What a text of the output is: a command name, an argument (or keyword, or flag), a
parenthesis, a line of a comment, a bracket comment. -/
inductive PK
  | name | word | lparen | rparen | line | bracket
  deriving DecidableEq, Repr

/-- A text and where it starts; rows and columns count from 0. -/
structure Piece where
  kind : PK
  pos : Cur
  text : Str
  deriving DecidableEq, Repr

/-- The position after a text. -/
def advance : Cur → Str → Cur
  | c, [] => c
  | c, x :: xs => advance (if x = '\n' then ⟨c.row + 1, 0⟩ else ⟨c.row, c.col + 1⟩) xs

/-- Where a text ends. -/
def Piece.stop (p : Piece) : Cur := advance p.pos p.text

/-- Earlier, or the same position. -/
def Cur.le (a b : Cur) : Prop := a.row < b.row ∨ (a.row = b.row ∧ a.col ≤ b.col)

/-- Strictly earlier. -/
def Cur.lt (a b : Cur) : Prop := a.row < b.row ∨ (a.row = b.row ∧ a.col < b.col)

/-- A text with each line feed written as the configured line end. -/
def withEndings (endl : Str) : Str → Str
  | [] => []
  | x :: xs => (if x = '\n' then endl else [x]) ++ withEndings endl xs

/-- Line ends down to the row, then blanks up to the column. -/
def space (endl : Str) (a b : Cur) : Str :=
  if a.row < b.row then (List.replicate (b.row - a.row) endl).flatten ++ List.replicate b.col ' '
  else List.replicate (b.col - a.col) ' '

/-- The output made of texts at their positions, from a position on. -/
def weave (endl : Str) : Cur → List Piece → Str
  | _, [] => []
  | c, p :: ps => space endl c p.pos ++ withEndings endl p.text ++ weave endl p.stop ps

/-- No text starts before the end of the previous one. -/
def InOrder : Cur → List Piece → Prop
  | _, [] => True
  | c, p :: ps => c.le p.pos ∧ InOrder p.stop ps

/-- Two neighbouring texts that must not touch: all but `(` and what follows it, `)` and what
precedes it, a command name and its parenthesis, and a comment directly after `)`. -/
def mustSeparate (p q : PK) : Bool :=
  match p, q with
  | .lparen, _ | .name, _ | _, .rparen | .rparen, .line | .rparen, .bracket => false
  | _, _ => true

/-- What holds between neighbouring texts: after a line comment the next text is on a later
line, and texts that must not touch do not. -/
def Follows (p q : Piece) : Prop :=
  (p.kind = .line → p.stop.row < q.pos.row) ∧ (mustSeparate p.kind q.kind = true → p.stop.lt q.pos)

/-- Neighbours follow each other. -/
def Linked : List Piece → Prop
  | p :: q :: ps => Follows p q ∧ Linked (q :: ps)
  | _ => True

/-- Program text as opposed to comments. -/
def PK.isProgram : PK → Bool
  | .line | .bracket => false
  | _ => true

/-- The same text up to letter case. -/
def SameLetters (a b : Str) : Prop := lower a = lower b

/-- The text written for a token: its own, with normalized line ends; for unquoted words up
to letter case; for the name of a command possibly the configured spelling of that command. -/
def Written (spellings : Str → Str → Prop) (t : Token) (p : Piece) : Prop :=
  p.text = Text.normalizeLineEndings t.spelling ∨
  (p.kind = .word ∧ (t.type = .word ∨ t.type = .unquoted) ∧ SameLetters p.text t.spelling) ∨
  (p.kind = .name ∧ (SameLetters p.text t.spelling ∨ spellings t.spelling p.text))

/-- What the letter-case options say about the text of a token.  A command name is written
in lower case, in upper case, unchanged or with a configured spelling, as `command_case` of
that command says; other words are unchanged, or in the case `keyword_case` says. -/
def CaseRule (cfg : Cfg) (spellings : Str → Str → Prop) (t : Token) (p : Piece) : Prop :=
  match p.kind with
  | .name =>
    (cfg.commandCase t.spelling = S "lower" ∧ p.text = lower t.spelling) ∨
    (cfg.commandCase t.spelling = S "upper" ∧ p.text = upper t.spelling) ∨
    (cfg.commandCase t.spelling = S "unchanged" ∧ p.text = t.spelling) ∨
    (cfg.commandCase t.spelling = S "canonical" ∧ spellings t.spelling p.text)
  | .word =>
    p.text = Text.normalizeLineEndings t.spelling ∨
    (cfg.keywordCase = S "lower" ∧ p.text = lower t.spelling) ∨
    (cfg.keywordCase = S "upper" ∧ p.text = upper t.spelling)
  | _ => p.text = t.spelling

/-- Token by token. -/
def AllWritten (W : Token → Piece → Prop) : List Token → List Piece → Prop
  | [], [] => True
  | t :: ts, p :: ps => W t p ∧ AllWritten W ts ps
  | _, _ => False

/-- `text` consists of the texts `ps` at their positions, with nothing but line ends and
blanks between them, and the texts that are not comments are those of the tokens `ts`, as
`W` says. -/
structure Rendering (endl : Str) (W : Token → Piece → Prop) (ts : List Token) (text : Str)
    (ps : List Piece) : Prop where
  text_eq : text = weave endl ⟨0, 0⟩ ps ++ endl
  inOrder : InOrder ⟨0, 0⟩ ps
  written : AllWritten W ts (ps.filter fun p => p.kind.isProgram)

/-! ## Comments and keywords the layout can deal with -/

/-- The children of a comment: one bracket comment. -/
def bracketOnly : List Node → Bool
  | [.tok t] => t.type == .bracketComment
  | _ => false

/-- They start with a line comment. -/
def startsWithLine : List Node → Bool
  | .tok t :: _ => t.type == .comment
  | _ => false

/-- They end with a line comment (not with the line end in front of a further comment). -/
def endsWithLine (cs : List Node) : Bool :=
  match cs.getLast? with
  | some (.tok t) => t.type == .comment
  | _ => false

/-- A comment that ends with a line comment, or a bracket comment. -/
def settledComment : Node → Bool
  | .node .comment _ cs => bracketOnly cs || endsWithLine cs
  | _ => true

/-- They start with a token that contains no line end. -/
def startsFlat : List Node → Bool
  | .tok t :: _ => !t.spelling.contains '\n' && !t.spelling.contains '\r'
  | _ => true

/-- A node without a comment that starts with a bracket comment and goes on, and, for the
nodes of an argument list, without a comment that ends with a blank: a line comment
followed, on the next line, by a comment in another column.  Keywords and flags (such as
`-Dx="..."`) are on one line. -/
def settledHere (ty : NT) (cs : List Node) : Bool :=
  match ty with
  | .keyword | .flag => startsFlat cs
  | .comment => bracketOnly cs || startsWithLine cs
  | .argGroup | .pargGroup => cs.all settledComment
  | .statement => cs.dropLast.all settledComment
  | _ => true

mutual
/-- No comment, keyword or flag of the tree is of the kinds the layout mistreats. -/
def settled : Node → Bool
  | .tok _ => true
  | .node ty _ cs => settledHere ty cs && settledL cs
/-- All of them. -/
def settledL : List Node → Bool
  | [] => true
  | n :: ns => settled n && settledL ns
end

end Verif.Layout
