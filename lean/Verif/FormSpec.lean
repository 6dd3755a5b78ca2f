import Verif.GroupSpec

/-!
# Commands with several forms: a specification without code (C63)

Which word of the command tells its forms apart, and the shape of each form.
-/

namespace Verif.Parse
open Verif Py Lex

/-- Any number of words, up to the next keyword. -/
def any (flags : List Str) : Slot := ⟨0, [], some flags⟩
/-- Exactly so many words. -/
def exactly (n : Nat) (flags : List Str) : Slot := ⟨n, flags, none⟩
/-- So many words whatever they are, and more up to the next keyword. -/
def atLeast (n : Nat) (flags : List Str) : Slot := ⟨n, flags, some []⟩

/-- A command that takes any number of words. -/
def anyWords (flags : List Str) (keywords : List (Str × Slot)) : Command := ⟨keywords, flags, any flags, any flags⟩
/-- A command whose first so many words belong together. -/
def numWords (n : Nat) (flags : List Str) (keywords : List (Str × Slot)) : Command :=
  ⟨keywords, flags, exactly n flags, any []⟩

/-- A command with several forms: the word at `position` (counted from 0) decides, unless one of the
words in `exceptFor` stands at its place.  Forms that cannot be described are `none`. -/
structure Forms where
  command : Str
  position : Nat
  exceptFor : List (Nat × Str)
  cases : List (Str × Option Command)
  otherwise : Option Command

/-- The form of a word, looked up in upper case. -/
def Forms.shape (f : Forms) (w : Str) : Option Command :=
  match f.cases.lookup w with
  | some o => o
  | none => f.otherwise

/-- The names of hashes. -/
def hashes : List Str :=
  [S "MD5", S "SHA1", S "SHA224", S "SHA256", S "SHA384", S "SHA512", S "SHA3_224", S "SHA3_256", S "SHA3_384",
   S "SHA3_512"]

/-- The commands with several forms. -/
def forms : List Forms :=
 [⟨S "file", 0, [],
   [(S "READ", some (anyWords [S "READ", S "HEX"] [(S "OFFSET", exactly 1 []), (S "LIMIT", exactly 1 [])])),
    (S "STRINGS", some (anyWords [S "STRINGS", S "NEWLINE_CONSUME", S "NO_HEX_CONVERSION"]
      [(S "LENGTH_MAXIMUM", exactly 1 []), (S "LENGTH_MINIMUM", exactly 1 []), (S "LIMIT_COUNT", exactly 1
      []), (S "LIMIT_INPUT", exactly 1 []), (S "LIMIT_OUTPUT", exactly 1 []), (S "REGEX", exactly 1 []),
      (S "ENCODING", exactly 1 [S "UTF-8", S "UTF-16LE", S "UTF-16BE", S "UTF-32LE", S "UTF-32BE"])])),
    (S "TIMESTAMP", some (anyWords [S "TIMESTAMP", S "UTC"] [])),
    (S "WRITE", none),
    (S "APPEND", none),
    (S "TOUCH", some (anyWords [S "TOUCH"] [])),
    (S "TOUCH_NOCREATE", some (anyWords [S "TOUCH_NOCREATE"] [])),
    (S "GENERATE", none),
    (S "GLOB", some (anyWords [S "GLOB", S "GLOB_RECURSE", S "CONFIGURE_DEPENDS", S "FOLLOW_SYMLINKS"]
      [(S "LIST_DIRECTORIES", exactly 1 []), (S "RELATIVE", exactly 1 [])])),
    (S "GLOB_RECURSE", some (anyWords [S "GLOB", S "GLOB_RECURSE", S "CONFIGURE_DEPENDS",
      S "FOLLOW_SYMLINKS"] [(S "LIST_DIRECTORIES", exactly 1 []), (S "RELATIVE", exactly 1 [])])),
    (S "RENAME", some (numWords 3 [S "RENAME"] [])),
    (S "REMOVE", some (anyWords [S "REMOVE"] [])),
    (S "REMOVE_RECURSE", some (anyWords [S "REMOVE_RECURSE"] [])),
    (S "MAKE_DIRECTORY", some (anyWords [S "MAKE_DIRECTORY"] [])),
    (S "COPY", none),
    (S "INSTALL", none),
    (S "SIZE", some (numWords 3 [S "SIZE"] [])),
    (S "READ_SYMLINK", some (numWords 3 [S "READ_SYMLINK"] [])),
    (S "CREATE_LINK", some (anyWords [S "COPY_ON_ERROR", S "SYMBOLIC"] [(S "RESULT", exactly 1 [])])),
    (S "RELATIVE_PATH", some (numWords 4 [S "RELATIVE_PATH"] [])),
    (S "TO_CMAKE_PATH", some (numWords 3 [S "TO_CMAKE_PATH"] [])),
    (S "TO_NATIVE_PATH", some (numWords 3 [S "TO_NATIVE_PATH"] [])),
    (S "DOWNLOAD", some (numWords 3 [S "DOWNLOAD", S "UPLOAD", S "SHOW_PROGRESS"] [(S "INACTIVITY_TIMEOUT",
      exactly 1 []), (S "LOG", exactly 1 []), (S "STATUS", exactly 1 []), (S "TIMEOUT", exactly 1 []),
      (S "USERPWD", exactly 1 []), (S "HTTPHEADER", exactly 1 []), (S "NETRC", exactly 1 [S "CMAKE_NETRC",
      S "IGNORED", S "OPTIONAL", S "REQUIRED"]), (S "NETRC_FILE", exactly 1 []), (S "EXPECTED_HASH", exactly
      1 []), (S "EXPECTED_MD5", exactly 1 []), (S "TLS_VERIFY", exactly 1 []), (S "TLS_CAINFO", exactly 1
      [])])),
    (S "UPLOAD", some (numWords 3 [S "DOWNLOAD", S "UPLOAD", S "SHOW_PROGRESS"] [(S "INACTIVITY_TIMEOUT",
      exactly 1 []), (S "LOG", exactly 1 []), (S "STATUS", exactly 1 []), (S "TIMEOUT", exactly 1 []),
      (S "USERPWD", exactly 1 []), (S "HTTPHEADER", exactly 1 []), (S "NETRC", exactly 1 [S "CMAKE_NETRC",
      S "IGNORED", S "OPTIONAL", S "REQUIRED"]), (S "NETRC_FILE", exactly 1 []), (S "EXPECTED_HASH", exactly
      1 []), (S "EXPECTED_MD5", exactly 1 []), (S "TLS_VERIFY", exactly 1 []), (S "TLS_CAINFO", exactly 1
      [])])),
    (S "LOCK", some (anyWords [S "LOCK", S "DIRECTORY", S "RELEASE"] [(S "GUARD", exactly 1 [S "FUNCTION",
      S "FILE", S "PROCESS"]), (S "RESULT_VARIABLE", exactly 1 []), (S "TIMEOUT", exactly 1 [])]))] ++
      hashes.map fun h => (h, some (numWords 3 hashes [])),
   some (anyWords [] [])⟩,
  ⟨S "list", 0, [],
   [(S "LENGTH", some (numWords 3 [S "LENGTH"] [])),
    (S "GET", some (anyWords [S "GET"] [])),
    (S "JOIN", some (numWords 4 [S "JOIN"] [])),
    (S "SUBLIST", some (numWords 5 [S "SUBLIST"] [])),
    (S "FIND", some (numWords 4 [S "FIND"] [])),
    (S "APPEND", some (anyWords [S "APPEND"] [])),
    (S "FILTER", some (numWords 5 [S "FILTER", S "INCLUDE", S "EXCLUDE", S "REGEX"] [])),
    (S "INSERT", some (anyWords [S "INSERT"] [])),
    (S "POP_BACK", some (anyWords [S "POP_BACK"] [])),
    (S "POP_FRONT", some (anyWords [S "POP_FRONT"] [])),
    (S "PREPEND", some (anyWords [S "PREPEND"] [])),
    (S "REMOVE_ITEM", some (anyWords [S "REMOVE_ITEM"] [])),
    (S "REMOVE_AT", some (anyWords [S "REMOVE_AT"] [])),
    (S "REMOVE_DUPLICATES", some (numWords 2 [S "REMOVE_DUPLICATES"] [])),
    (S "TRANSFORM", some (numWords 2 [S "TRANSFORM"] [(S "APPEND", atLeast 1 []), (S "PREPEND", atLeast 1
      []), (S "TOLOWER", exactly 0 []), (S "TOUPPER", exactly 0 []), (S "STRIP", exactly 0 []),
      (S "GENEX_STRIP", exactly 0 []), (S "REPLACE", atLeast 2 []), (S "AT", any []), (S "FOR", any []),
      (S "REGEX", atLeast 1 [])])),
    (S "REVERSE", some (numWords 2 [S "REVERSE"] [])),
    (S "SORT", some (numWords 2 [S "SORT"] [(S "COMPARE", atLeast 1 [S "STRING", S "FILE_BASENAME"]),
      (S "CASE", atLeast 1 [S "SENSITIVE", S "INSENSITIVE"]), (S "ORDER", atLeast 1 [S "ASCENDING",
      S "DESCENDING"])]))],
   some (anyWords [] [])⟩,
  ⟨S "install", 0, [],
   [(S "TARGETS", none),
    (S "FILES", some (anyWords [S "OPTIONAL", S "EXCLUDE_FROM_ALL"] [(S "FILES", any []), (S "PROGRAMS", any
      []), (S "TYPE", exactly 1 []), (S "DESTINATION", exactly 1 []), (S "PERMISSIONS", any []),
      (S "CONFIGURATIONS", any []), (S "COMPONENT", exactly 1 []), (S "RENAME", exactly 1 [])])),
    (S "PROGRAMS", some (anyWords [S "OPTIONAL", S "EXCLUDE_FROM_ALL"] [(S "FILES", any []), (S "PROGRAMS",
      any []), (S "TYPE", exactly 1 []), (S "DESTINATION", exactly 1 []), (S "PERMISSIONS", any []),
      (S "CONFIGURATIONS", any []), (S "COMPONENT", exactly 1 []), (S "RENAME", exactly 1 [])])),
    (S "DIRECTORY", none),
    (S "SCRIPT", some (anyWords [S "EXCLUDE_FROM_ALL"] [(S "SCRIPT", exactly 1 []), (S "CODE", exactly 1
      []), (S "COMPONENT", exactly 1 [])])),
    (S "CODE", some (anyWords [S "EXCLUDE_FROM_ALL"] [(S "SCRIPT", exactly 1 []), (S "CODE", exactly 1 []),
      (S "COMPONENT", exactly 1 [])])),
    (S "EXPORT", some (anyWords [S "EXCLUDE_FROM_ALL"] [(S "EXPORT", exactly 1 []), (S "DESTINATION",
      exactly 1 []), (S "NAMESPACE", exactly 1 []), (S "FILE", exactly 1 []), (S "PERMISSIONS", any []),
      (S "CONFIGURATIONS", any []), (S "COMPONENT", exactly 1 [])]))],
   some (anyWords [] [])⟩,
  ⟨S "add_custom_command", 0, [],
   [(S "TARGET", some (anyWords [S "APPEND", S "VERBATIM", S "USES_TERMINAL", S "COMMAND_EXPAND_LISTS",
      S "PRE_BUILD", S "PRE_LINK", S "POST_BUILD"] [(S "BYPRODUCTS", any []), (S "COMMAND", any []),
      (S "COMMENT", any []), (S "TARGET", exactly 1 []), (S "WORKING_DIRECTORY", exactly 1 [])]))],
   some (anyWords [S "APPEND", S "VERBATIM", S "USES_TERMINAL", S "COMMAND_EXPAND_LISTS"] [(S "BYPRODUCTS",
      any []), (S "COMMAND", any []), (S "COMMENT", any []), (S "DEPENDS", any []), (S "DEPFILE", exactly 1
      []), (S "JOB_POOL", exactly 1 []), (S "IMPLICIT_DEPENDS", any []), (S "MAIN_DEPENDENCY", exactly 1
      []), (S "OUTPUT", any []), (S "WORKING_DIRECTORY", exactly 1 [])])⟩,
  ⟨S "foreach", 1, [],
   [(S "RANGE", some (numWords 1 [] [(S "RANGE", exactly 3 [])]))],
   none⟩,
  ⟨S "add_executable", 1, [],
   [(S "ALIAS", some (numWords 3 [S "ALIAS"] [])),
    (S "IMPORTED", some (anyWords [S "IMPORTED", S "GLOBAL"] []))],
   none⟩,
  ⟨S "add_library", 1, [],
   [(S "ALIAS", some (numWords 3 [S "ALIAS"] [])),
    (S "INTERFACE", some (anyWords [S "INTERFACE", S "IMPORTED", S "GLOBAL"] [])),
    (S "IMPORTED", some (anyWords [S "SHARED", S "STATIC", S "MODULE", S "OBJECT", S "UNKOWN", S "IMPORTED",
      S "GLOBAL"] []))],
   none⟩,
  ⟨S "add_library", 2, [(1, S "OBJECT"), (1, S "ALIAS"), (1, S "INTERFACE"), (1, S "IMPORTED")],
   [(S "IMPORTED", some (anyWords [S "SHARED", S "STATIC", S "MODULE", S "OBJECT", S "UNKOWN", S "IMPORTED",
      S "GLOBAL"] []))],
   none⟩,
  ⟨S "cmake_policy", 0, [],
   [(S "VERSION", some (anyWords [S "VERSION"] [])),
    (S "SET", some (numWords 3 [S "SET", S "OLD", S "NEW"] [])),
    (S "GET", some (numWords 3 [S "GET"] []))],
   some (numWords 1 [S "PUSH", S "POP"] [])⟩,
  ⟨S "get_filename_component", 2, [],
   [(S "PROGRAM", some (anyWords [S "PROGRAM", S "PROGRAM_ARGS", S "CACHE"] []))],
   some (anyWords [S "DIRECTORY", S "NAME", S "EXT", S "NAME_WE", S "ABSOLUTE", S "REALPATH", S "PATH"] [])⟩,
  ⟨S "source_group", 0, [],
   [(S "TREE", some (numWords 2 [] [(S "PREFIX", exactly 1 []), (S "FILES", any [])]))],
   none⟩,
  ⟨S "source_group", 1, [(0, S "TREE")],
   [(S "FILES", some (numWords 1 [] [(S "FILES", any []), (S "REGULAR_EXPRESSION", exactly 1 [])])),
    (S "REGULAR_EXPRESSION", some (numWords 1 [] [(S "FILES", any []), (S "REGULAR_EXPRESSION", exactly 1
      [])]))],
   some (numWords 2 [] [])⟩,
  ⟨S "install_files", 1, [],
   [(S "FILES", some (anyWords [S "FILES"] []))],
   none⟩,
  ⟨S "install_programs", 1, [],
   [(S "FILES", some (anyWords [S "FILES"] []))],
   none⟩
 ]

/-- A word decides in favour of a form. -/
def Forms.decides (f : Forms) (ws : List Token) (c : Command) : Prop :=
  (∃ t, ws[f.position]? = some t ∧ t.type = .word ∧ f.shape (upper t.spelling) = some c) ∧
  ∀ u ∈ f.exceptFor, ∀ t, ws[u.1]? = some t → upper t.spelling ≠ u.2

end Verif.Parse
