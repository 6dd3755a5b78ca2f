import Verif.ParseSpec
import Verif.SpecTables

/-!
# Reading one file after another (specification for C68)

Nothing here refers to how the parser works, except for the table of the commands whose parse
functions look ahead.
-/

namespace Verif.Parse
open Verif Py Lex

/-- The commands whose parse functions look past the first token after the opening parenthesis,
and how many tokens they look at: funs/foreach.py:147-162, funs/add_executable.py:161-172,
funs/add_library.py:238-262, funs/miscellaneous.py:26-31, 165-171, 439-446, funs/random.py:177-181,
funs/deprecated.py:46-58, 68-80.  Blanks and comments do not count; the closing parenthesis does. -/
def looksAt : List (Str × Nat) :=
  [(c! "add_executable", 2), (c! "add_library", 3), (c! "install_files", 3), (c! "install_programs", 3),
   (c! "foreach", 2), (c! "build_command", 2), (c! "get_filename_component", 3), (c! "source_group", 2),
   (c! "ctest_sleep", 2)]

/-- What such a command looks at lies within the file: after its opening parenthesis there are as
many tokens as it looks at. -/
def Decided (ts : List Token) : Prop :=
  ∀ (before : List Token) (name : Token) (blanks : List Token) (paren : Token) (after : List Token),
    ts = before ++ name :: (blanks ++ paren :: after) →
    (∀ b ∈ blanks, b.type = .whitespace ∨ b.type = .newline) → paren.type = .lparen →
    ∀ k, (lower name.spelling, k) ∈ looksAt → k ≤ (program after).length

/-- The file begins with program text: neither a blank nor a comment. -/
def BeginsWithText (ts : List Token) : Prop :=
  ∀ t rest, ts = t :: rest → program [t] = [t]

/-- The parts of a file. -/
def parts : Node → List Node
  | .node _ _ cs => cs
  | .tok _ => []

/-- No block of the file is left open: the last part of every block is a command. -/
def NothingOpen (tree : Node) : Prop :=
  ∀ a cs, .node .flowControl a cs ∈ parts tree → ∃ init b c, cs = init ++ [.node .statement b c]

/-- A file whose parts are those of two files. -/
def joined (first second : Node) : Node := .node .body {} (parts first ++ parts second)

end Verif.Parse
