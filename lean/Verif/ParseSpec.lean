import Verif.Tree

/-!
# What a well-formed parse tree is (specification for C09 and C10)

Nothing here refers to how the parser works.
-/

namespace Verif.Parse
open Verif Py Lex

/-- `m` is `n` or lies below it. -/
inductive Sub : Node → Node → Prop
  | refl (n : Node) : Sub n n
  | child {m c : Node} {ty : NT} {a : Attr} {cs : List Node} : c ∈ cs → Sub m c → Sub m (.node ty a cs)

/-- A child that is blank. -/
def BlankLeaf (n : Node) : Prop := ∃ t, n = .tok t ∧ isWs t = true

/-- A child without program text: only blanks and comments. -/
def NoText (n : Node) : Prop := ∀ t ∈ n.toks, isWs t = true ∨ isAnyComment t = true

/-- Name, opening parenthesis, arguments, closing parenthesis; blanks and
comments between them. -/
def StatementShape (cs : List Node) : Prop :=
  ∃ (f l r : Token) (ws1 ws2 mid trail : List Node) (args : Node),
    cs = [mk .funname [.tok f]] ++ ws1 ++ [mk .lparen [.tok l]] ++ ws2 ++ [args] ++ mid
      ++ [mk .rparen [.tok r]] ++ trail ∧
    f.type = .word ∧ l.type = .lparen ∧ r.type = .rparen ∧
    (∀ n ∈ ws1, BlankLeaf n) ∧ (∀ n ∈ ws2, BlankLeaf n) ∧
    (∀ n ∈ mid, NoText n) ∧ (∀ n ∈ trail, NoText n)

/-- The upper-cased command name of a statement node. -/
def stmtName : Node → Option Str
  | .node .statement _ (.node .funname _ [.tok t] :: _) => some (upper t.spelling)
  | _ => none

/-- A body node. -/
def IsBody : Node → Prop
  | .node .body _ _ => True
  | _ => False

/-- What follows the first body of an if block: nothing (unclosed), `endif`, or another
branch. -/
inductive IfRest : List Node → Prop
  | unclosed : IfRest []
  | closed {e : Node} : stmtName e = some (S "ENDIF") → IfRest [e]
  | branch {s b : Node} {rest : List Node} :
      stmtName s = some (S "ELSE") ∨ stmtName s = some (S "ELSEIF") → IsBody b → IfRest rest →
      IfRest (s :: b :: rest)

/-- An if block, or an opening statement, a body and the matching end statement. -/
inductive FlowShape : List Node → Prop
  | ifBlock {o b : Node} {rest : List Node} : stmtName o = some (S "IF") → IsBody b → IfRest rest →
      FlowShape (o :: b :: rest)
  | loop {o b e : Node} {name : Str} :
      name ∈ [S "WHILE", S "FOREACH", S "FUNCTION", S "MACRO"] →
      stmtName o = some name → IsBody b → stmtName e = some (S "END" ++ name) → FlowShape [o, b, e]

/-- Statement and flow-control nodes have their shape. -/
def Shape : Node → Prop
  | .node .statement _ cs => StatementShape cs
  | .node .flowControl _ cs => FlowShape cs
  | _ => True

/-- Every node of a tree has its shape. -/
def WellFormed (n : Node) : Prop := ∀ m, Sub m n → Shape m

/-- The tokens that are neither blanks nor comments nor format switches, in order. -/
def program (ts : List Token) : List Token :=
  ts.filter fun t =>
    !([.whitespace, .newline, .comment, .bracketComment, .formatOn, .formatOff].contains t.type)

/-- Every format switch comes directly after a blank or a comment. -/
def SwitchesApart (ts : List Token) : Prop :=
  ∀ a b, [a, b] <:+: ts → b.type = .formatOn ∨ b.type = .formatOff →
    a.type ∈ [.whitespace, .newline, .comment, .bracketComment]

/-- A parser that contains no tuple parser, and source-list parsers only directly under a
statement (`top`). -/
inductive NoTuple : Bool → ArgP → Prop
  | standard {top : Bool} (cmd : Option CmdInfo) (specs : List PSpec) (kwargs : List (Str × ArgP)) :
      (∀ kp ∈ kwargs, NoTuple false kp.2) → NoTuple top (.standard cmd specs kwargs)
  | positional {top : Bool} (spec : PSpec) : NoTuple top (.positional spec)
  | conditional {top : Bool} : NoTuple top .conditional
  | shell {top : Bool} : NoTuple top .shell
  | null {top : Bool} : NoTuple top .null
  | setFn {top : Bool} : NoTuple top .setFn
  | emptyFn {top : Bool} : NoTuple top .emptyFn
  | foreachStandard {top : Bool} : NoTuple top .foreachStandard
  | foreachIn {top : Bool} : NoTuple top .foreachIn
  | addSources (lib sortable : Bool) : NoTuple true (.addSources lib sortable)
  | addLibraryObject {top : Bool} : NoTuple top .addLibraryObject
  | customTarget {top : Bool} : NoTuple top .customTarget
  | fileWrite {top : Bool} : NoTuple top .fileWrite
  | installTargets {top : Bool} : NoTuple top .installTargets
  | choose {top : Bool} (f : List Token → Except Err ArgP) :
      (∀ ts q, f ts = .ok q → NoTuple top q) → NoTuple top (.choose f)

/-- The parser registered for a command name, or the default one. -/
def registered (ctx : Ctx) (name : Str) : ArgP :=
  match ctx.db (lower name) with
  | some p => p
  | none =>
    match ctx.db (S "_default") with
    | some p => p
    | none => std (.str (S "*"))

/-- Only word tokens are spelled AND or OR, in any letter case. -/
def PlainAndOr (ts : List Token) : Prop :=
  ∀ t ∈ ts, t.type ≠ .word → upper t.spelling ≠ S "AND" ∧ upper t.spelling ≠ S "OR"

/-- The tokens of a child that is an argument, or a flag. -/
def isArgument : Node → Bool
  | .node .argument _ _ => true
  | .node .flag _ _ => true
  | _ => false

/-- The children of a node. -/
def Node.children : Node → List Node
  | .tok _ => []
  | .node _ _ cs => cs

/-- The first token of a child. -/
def Node.firstTok (n : Node) : Option Token := n.toks.head?

/-- How many arguments an arity allows: an integer allows that many, `?` one, everything
else any number. -/
def Allows : Nargs → Nat → Prop
  | .int k, n => (n : Int) ≤ max k 0
  | .str s, n => s = S "?" → n ≤ 1

/-- The arity allows no further argument. -/
def Full : Nargs → Nat → Prop
  | .int k, n => k ≤ (n : Int)
  | .str s, n => s = S "?" ∧ 1 ≤ n

/-- A token one of the breakers names: the closing parenthesis, or a keyword in any
letter case. -/
def Breaks (brk : List Breaker) (t : Token) : Prop :=
  (.paren ∈ brk ∧ t.type = .rparen) ∨ ∃ ws, .kwargs ws ∈ brk ∧ upper t.spelling ∈ ws

end Verif.Parse
