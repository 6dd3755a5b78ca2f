import Verif.ParseFuel
import Verif.Props.Lex

/-!
# `ctest-to`, cmakelang/ctest_to.py

The tool reads `CTestTestfile.cmake` in a directory, follows `subdirs()` into further
directories, and prints the tests as JSON or XML.  It hands `parse.parse` a dictionary of
callbacks (ctest_to.py:206) where the parser wants a context object with the attributes
`parse_db` and `config`.  A Python dictionary has neither, so the first use of either
attribute raises `AttributeError`.  What the parser does before that use is modelled here.
The callbacks (ctest_to.py:102-184) and the printing of a test (ctest_to.py:36-83) come
after it and are therefore never reached; they are not modelled.
-/

namespace Verif.Ctest
open Verif Py Lex Parse

/-- What can end the tool. -/
inductive Fail
  /-- `ctx.parse_db` or `ctx.config` on a dictionary. -/
  | attribute
  /-- `tokens[0]` on an empty list, statement_node.py:64. -/
  | index
  /-- no `(` after a command name, statement_node.py:64-68. -/
  | value
  /-- `InternalError`, body_nodes.py:75-78. -/
  | internal
  /-- the tokenizer fails. -/
  | lexer
  /-- the bound on the number of rounds of a loop of the model. -/
  | fuel
  deriving DecidableEq, Repr

/-- `StatementNode.consume`, statement_node.py:46-80, when `ctx` is a dictionary.  The
function name and the blanks after it are consumed, then `(`, then `ctx.parse_db` is
read. -/
def statement : List Token → Fail
  | [] => .index
  | _ :: ts =>
    match ts.dropWhile isWs with
    | [] => .index
    | p :: _ => if p.type == .lparen then .attribute else .value

/-- `BodyNode.consume`, body_nodes.py:33-80, when `ctx` is a dictionary and there is no
breakset.  The tree is dropped by the caller (ctest_to.py:206) and is not built here.  A
flow-control block begins with `StatementNode.consume` (body_nodes.py:114, 144), so both
kinds of word are the same here.  After an at-word `CommentNode.consume_trailing` reads
`ctx.config` (simple_nodes.py:175).  The number bounds the rounds of the loop. -/
def body : Nat → List Token → Except Fail Unit
  | 0, _ => .error .fuel
  | _ + 1, [] => .ok ()
  | n + 1, t :: ts =>
    if isWs t then body n ((t :: ts).dropWhile isWs)
    else if isAnyComment t then body n (consumeComment t ts).2
    else if isOnOff t then body n ts
    else if t.type == .word then .error (statement (t :: ts))
    else if t.type == .atword then .error .attribute
    else if t.type == .bom then body n ts
    else .error .internal

/-- The state of `ParseContext`, ctest_to.py:96-99: the directories still to be read and
the names of the tests found.  `cwd` is only read by the callbacks. -/
structure State where
  queue : List Str
  tests : List Str
  deriving DecidableEq, Repr

/-- The files: the text of a path, `none` when it does not exist.  A path that exists and
cannot be read or decoded is not modelled. -/
abbrev Files := Str → Option Str

/-- `parse_file`, ctest_to.py:197-206.  The state changes only through the callbacks. -/
def parseFile (files : Files) (path : Str) (st : State) : Except Fail State :=
  match files path with
  | none => .ok st
  | some text =>
    match tokenize text with
    | .error _ => .error .lexer
    | .ok ts =>
      match body (ts.length + 1) ts with
      | .error e => .error e
      | .ok () => .ok st

/-- The loop of `start`, ctest_to.py:213-216, for at most `n` directories.  `testFile` is
`os.path.join(_, "CTestTestfile.cmake")`. -/
def drain (files : Files) (testFile : Str → Str) : Nat → State → Except Fail State
  | 0, _ => .error .fuel
  | n + 1, st =>
    match st.queue with
    | [] => .ok st
    | d :: ds =>
      match parseFile files (testFile d) { st with queue := ds } with
      | .error e => .error e
      | .ok st' => drain files testFile n st'

/-- `--json`, `--xml` or neither, ctest_to.py:238-242. -/
inductive Format
  | json
  | xml
  deriving DecidableEq, Repr

/-- What is written to standard output. -/
inductive Output
  /-- nothing at all, ctest_to.py:268-269. -/
  | nothing
  /-- a list of tests, by name; their order and text are not modelled. -/
  | tests (fmt : Format) (names : List Str)
  deriving DecidableEq, Repr

/-- `main`, ctest_to.py:246-269, with the steps bounded by `n`.  `abspath` is
`os.path.abspath`.  With neither option `args.out_type` is present and `None`, so the
default `"json"` of `getattr` (ctest_to.py:255) is not used. -/
def run (files : Files) (testFile abspath : Str → Str) (n : Nat) (fmt : Option Format) (dir : Str) : Except Fail Output :=
  match drain files testFile n { queue := [abspath dir], tests := [] } with
  | .error e => .error e
  | .ok st =>
    match fmt with
    | none => .ok .nothing
    | some f => .ok (.tests f st.tests)

/-! ## Lemmas -/

/-- A token that is no command, no at-word and no stray argument. -/
def quiet (t : Token) : Bool := isWs t || isAnyComment t || isOnOff t || t.type == .bom

theorem comment_quiet {u : Token} {ok : Token → Bool} (hok : ∀ t, ok t = true → quiet t = true) :
    ∀ (last : Option Nat) (ts : List Token), u ∈ (commentRun ok last ts).1 → quiet u = true := by
  intro last ts
  induction last, ts using commentRun.induct ok <;> rw [commentRun.eq_def] <;> simp_all [quiet, isWs]
  all_goals grind

theorem comment_rest (t : Token) (ts : List Token) (h : isAnyComment t = true) :
    ((t :: ts).all quiet = true ↔ (consumeComment t ts).2.all quiet = true) := by
  have e := consumeComment_splits t ts
  rw [← e, List.all_append, Bool.and_eq_true]
  refine ⟨And.right, fun h2 => ⟨?_, h2⟩⟩
  rw [List.all_eq_true]
  intro u hu
  simp only [consumeComment] at hu
  split at hu
  · simp at hu
    subst hu
    simp [quiet, h]
  · simp at hu
    refine comment_quiet ?_ none (t :: ts) hu
    intro v hv
    simp only [quiet, isAnyComment, Bool.or_eq_true]
    grind [isComment]

theorem ws_rest (ts : List Token) : (ts.all quiet = true ↔ (ts.dropWhile isWs).all quiet = true) := by
  induction ts with
  | nil => simp
  | cons t ts ih =>
    rw [List.dropWhile_cons]
    split
    · rename_i h
      rw [← ih, List.all_cons]
      simp [quiet, h]
    · rfl

/-- The loop succeeds exactly when it meets nothing but blanks, comments and switches. -/
theorem body_iff (n : Nat) : ∀ (ts : List Token), ts.length < n → (body n ts = .ok () ↔ ts.all quiet = true) := by
  induction n with
  | zero => intro ts h; omega
  | succ n ih =>
    intro ts hl
    cases ts with
    | nil => simp [body]
    | cons t ts =>
      rw [body]
      simp only [List.length_cons] at hl
      by_cases h1 : isWs t = true
      · rw [if_pos h1, ih _ (by
          rw [List.dropWhile_cons, if_pos h1]
          have := (List.dropWhile_suffix (l := ts) isWs).length_le
          omega)]
        exact (ws_rest _).symm
      rw [if_neg h1]
      by_cases h2 : isAnyComment t = true
      · rw [if_pos h2, ih _ (by have := (comment_short t ts h2).2; omega)]
        exact (comment_rest t ts h2).symm
      rw [if_neg h2]
      by_cases h3 : isOnOff t = true
      · rw [if_pos h3, ih _ (by omega), List.all_cons]
        simp [quiet, h3]
      rw [if_neg h3]
      by_cases h6 : (t.type == .bom) = true
      · have h4 : t.type = .bom := by simpa using h6
        simp only [h4, List.all_cons]
        rw [if_neg (by decide), if_neg (by decide), if_pos (by decide), ih _ (by omega)]
        simp [quiet, h4]
      · have hq : quiet t = false := by simp [quiet, h1, h2, h3, h6]
        rw [if_neg h6]
        simp only [List.all_cons, hq, Bool.false_and]
        grind

end Verif.Ctest
