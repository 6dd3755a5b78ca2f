import Verif.LintSpec

/-!
# Commands with a fixed first word (specification for the lint checks)

Nothing here refers to the parser's functions or to the checks of cmake-lint.
-/

namespace Verif.Lint
open Verif Py Lex Parse

/-- The words with which a command may start, for the commands that need one of a few. -/
def firstWords : List (Str × List Str) :=
  [(c! "file", [c! "READ", c! "STRINGS", c! "TIMESTAMP", c! "WRITE", c! "APPEND", c! "TOUCH", c! "TOUCH_NOCREATE",
      c! "GENERATE", c! "GLOB", c! "GLOB_RECURSE", c! "RENAME", c! "REMOVE", c! "REMOVE_RECURSE", c! "MAKE_DIRECTORY",
      c! "COPY", c! "INSTALL", c! "SIZE", c! "READ_SYMLINK", c! "CREATE_LINK", c! "RELATIVE_PATH", c! "TO_CMAKE_PATH",
      c! "TO_NATIVE_PATH", c! "DOWNLOAD", c! "UPLOAD", c! "LOCK", c! "MD5", c! "SHA1", c! "SHA224", c! "SHA256",
      c! "SHA384", c! "SHA512", c! "SHA3_224", c! "SHA3_256", c! "SHA3_384", c! "SHA3_512"]),
   (c! "list", [c! "LENGTH", c! "GET", c! "JOIN", c! "SUBLIST", c! "FIND", c! "APPEND", c! "FILTER", c! "INSERT",
      c! "POP_BACK", c! "POP_FRONT", c! "PREPEND", c! "REMOVE_ITEM", c! "REMOVE_AT", c! "REMOVE_DUPLICATES",
      c! "TRANSFORM", c! "REVERSE", c! "SORT"]),
   (c! "add_custom_command", [c! "OUTPUT", c! "TARGET"]),
   (c! "cmake_policy", [c! "VERSION", c! "SET", c! "GET", c! "PUSH", c! "POP"])]

/-- What comes after the opening parenthesis of a command: its first argument, or the closing
parenthesis. -/
def opening (s : Node) : Option Token := ((program s.toks).drop 2).head?

/-- The token is one of the words, in any letter case. -/
def oneOf (words : List Str) (t : Token) : Bool := words.contains (upper t.spelling)

/-- The words, if the command needs one of a few and the user's configuration does not declare a
command with its name. -/
def wordsFor (user : List Str) (s : Node) : Option (List Str) :=
  if user.contains (nameOf s) then none else firstWords.lookup (nameOf s)

/-- The first argument is a variable reference, where one of a few words is needed. -/
def computed (user : List Str) (s : Node) : Option Token :=
  match wordsFor user s, opening s with
  | some _, some t => if t.type = .deref then some t else none
  | _, _ => none

/-- The first argument is neither a variable reference nor one of the words that are needed.  For
`add_custom_command` it has to be a plain word.  Without arguments this is so for `cmake_policy`
only. -/
def unknown (user : List Str) (s : Node) : Option Token :=
  match wordsFor user s, opening s with
  | some words, some t =>
    if t.type = .deref then none
    else if t.type = .rparen ∧ nameOf s ≠ c! "cmake_policy" then none
    else if oneOf words t && (nameOf s != c! "add_custom_command" || t.type == .word) then none
    else some t
  | _, _ => none

end Verif.Lint
