import Verif.Py

/-!
# The lexer: `cmakelang/lex/__init__.py`
-/

namespace Verif.Lex
open Verif Py

/-- `TokenType`, lex/__init__.py:16-35. -/
inductive TokType
  | quoted | lparen | rparen | word | number | deref | whitespace | newline
  | comment | unquoted | formatOff | formatOn | bracketArg | bracketComment
  | bom | atword
  deriving DecidableEq, Repr

/-- `SourceLocation`, lex/__init__.py:38-59. -/
structure Loc where
  line : Nat
  col : Nat
  offset : Nat
  deriving DecidableEq, Repr

/-- `Token`, lex/__init__.py:62-94. -/
structure Token where
  type : TokType
  spelling : Str
  index : Int
  begin_ : Loc
  end_ : Loc
  deriving DecidableEq, Repr

/-! ## Scanner rules, lex/__init__.py:135-186

Each rule is a function from the rest of the input to the matched text and what
follows it.  `re.Scanner` tries them in order at the current position. -/

/-- The result of a rule: matched text and remaining text. -/
abbrev Match := Option (Str × Str)

/-- `(?<![^\s\(])`: the previous character, if any, is blank or `(`. -/
def prevOk : Option Char → Bool
  | none => true
  | some c => isSpace c || c == '('

/-- `(?![^\s\)])`. -/
def nextOkClose : Str → Bool
  | [] => true
  | c :: _ => isSpace c || c == ')'

/-- `(?![^\s\)\(])`. -/
def nextOkParen : Str → Bool
  | [] => true
  | c :: _ => isSpace c || c == ')' || c == '('

/-- Add text in front of a match. -/
def pre (p : Str) : Match → Match
  | none => none
  | some (a, b) => some (p ++ a, b)

/-- Keep a match only if what follows satisfies the look-ahead. -/
def lookahead (ok : Str → Bool) : Match → Match
  | none => none
  | some (a, b) => if ok b then some (a, b) else none

/-- `[^q\\]*(?:\\.[^q\\]*)*q` after an opening quote `q`; DOTALL, so `\\.`
matches a backslash and any character. -/
def quotedRest (q : Char) : Str → Match
  | [] => none
  | c :: cs =>
    if c = q then some ([c], cs)
    else if c = '\\' then
      match cs with
      | [] => none
      | d :: ds => pre [c, d] (quotedRest q ds)
    else pre [c] (quotedRest q cs)

/-- A quoted string starting here with quote `q`. -/
def quotedStr (q : Char) : Str → Match
  | [] => none
  | c :: cs => if c = q then pre [c] (quotedRest q cs) else none

/-- `.*?` followed by `close` followed by look-ahead `ok`: the first position at
which `close` occurs and is followed by something acceptable. -/
def findClose (close : Str) (ok : Str → Bool) : Str → Match
  | [] => none
  | c :: cs =>
    match stripPrefix? close (c :: cs) with
    | some rest => if ok rest then some (close, rest) else pre [c] (findClose close ok cs)
    | none => pre [c] (findClose close ok cs)

/-- `\[(=*)\[.*?\]\1\]` and a look-ahead. -/
def bracketStr (ok : Str → Bool) : Str → Match
  | '[' :: cs =>
    let eqs := cs.takeWhile (· == '=')
    match cs.dropWhile (· == '=') with
    | '[' :: body => pre ('[' :: eqs ++ ['[']) (findClose (']' :: eqs ++ [']']) ok body)
    | _ => none
  | _ => none

/-- Rule 1, line 139. -/
def ruleDQuoted (prev : Option Char) (s : Str) : Match :=
  if prevOk prev then lookahead nextOkClose (quotedStr '"' s) else none

/-- Rule 2, line 142. -/
def ruleSQuoted (prev : Option Char) (s : Str) : Match :=
  if prevOk prev then lookahead nextOkClose (quotedStr '\'' s) else none

/-- Rule 3, line 145. -/
def ruleBracketArg (prev : Option Char) (s : Str) : Match :=
  if prevOk prev then bracketStr nextOkClose s else none

/-- `[0-9]+`. -/
def digits (s : Str) : Match :=
  match s.takeWhile isDigit with
  | [] => none
  | d :: ds => some (d :: ds, s.dropWhile isDigit)

/-- `-?[0-9]+`. -/
def numberBody : Str → Match
  | '-' :: cs => pre ['-'] (digits cs)
  | s => digits s

/-- Rule 4, line 147.  Backtracking to fewer digits would leave a digit next,
which the look-ahead rejects, so the greedy match is the only candidate. -/
def ruleNumber (prev : Option Char) (s : Str) : Match :=
  if prevOk prev then lookahead nextOkParen (numberBody s) else none

/-- `[a-zA-z_]` as written: the range `A-z` also contains `[`, `\`, `]`, `^`,
`_` and the backquote. -/
def isWordHead (c : Char) : Bool := isLower c || (65 ≤ c.toNat && c.toNat ≤ 122)

/-- `[a-zA-Z0-9_]`. -/
def isWordChar (c : Char) : Bool := isLower c || isUpper c || isDigit c || c == '_'

/-- `[a-zA-z_][a-zA-Z0-9_]*`. -/
def wordBody : Str → Match
  | [] => none
  | c :: cs =>
    if isWordHead c then some (c :: cs.takeWhile isWordChar, cs.dropWhile isWordChar) else none

/-- Rule 5, line 150. -/
def ruleWord (prev : Option Char) (s : Str) : Match :=
  if prevOk prev then lookahead nextOkParen (wordBody s) else none

/-- A word followed by one closing character. -/
def wordThen (close : Char) (s : Str) : Match :=
  match wordBody s with
  | some (w, c :: rest) => if c = close then some (w ++ [c], rest) else none
  | _ => none

/-- Rule 6, line 154. -/
def ruleAtWord (prev : Option Char) (s : Str) : Match :=
  if prevOk prev then
    match s with
    | '@' :: cs => lookahead nextOkParen (pre ['@'] (wordThen '@' cs))
    | _ => none
  else none

/-- Rule 7, line 157. -/
def ruleDeref (prev : Option Char) (s : Str) : Match :=
  if prevOk prev then
    match s with
    | '$' :: '{' :: cs => lookahead nextOkClose (pre ['$', '{'] (wordThen '}' cs))
    | _ => none
  else none

/-- `\$\([^\$\(\)]+\)`, line 108. -/
def makeVar : Str → Match
  | '$' :: '(' :: cs =>
    let f := fun c => c != '$' && c != '(' && c != ')'
    match cs.takeWhile f, cs.dropWhile f with
    | d :: ds, ')' :: rest => some ('$' :: '(' :: d :: ds ++ [')'], rest)
    | _, _ => none
  | _ => none

/-- `[^\s\(\)#"\\]`, lines 112 and 125. -/
def isUnquotedChar (c : Char) : Bool :=
  !(isSpace c) && c != '(' && c != ')' && c != '#' && c != '"' && c != '\\'

/-- The characters allowed after a backslash, lines 116 and 129. -/
def isEscapable (c : Char) : Bool :=
  c == '(' || c == ')' || c == '#' || c == '"' || c == ' ' || c == '\\' || c == '$' ||
  c == '@' || c == '^' || c == 't' || c == 'r' || c == 'n' || c == ';'

/-- One repetition of the legacy unquoted pattern, lines 105-118: the first
alternative that matches. -/
def legacyOne (s : Str) : Match :=
  match makeVar s with
  | some m => some m
  | none =>
    match quotedStr '"' s with
    | some m => some m
    | none =>
      match s with
      | [] => none
      | c :: cs =>
        if isUnquotedChar c then some ([c], cs)
        else match c, cs with
          | '\\', d :: ds => if isEscapable d then some ([c, d], ds) else none
          | _, _ => none

/-- `(…)*` greedily; every repetition consumes at least one character, so
`fuel = length` repetitions are enough. -/
def legacyMany : Nat → Str → Str × Str
  | 0, s => ([], s)
  | fuel + 1, s =>
    match legacyOne s with
    | none => ([], s)
    | some (a, b) => let r := legacyMany fuel b; (a ++ r.1, r.2)

/-- Rule 8, lines 160-161.  Rule 9 (lines 163-164) matches only where rule 8
does, so it can never fire and is omitted. -/
def ruleLegacy (s : Str) : Match :=
  match legacyMany s.length s with
  | ([], _) => none
  | (c :: cs, rest) => some (c :: cs, rest)

/-- Rules 10 and 11, lines 165-166. -/
def ruleChar (c : Char) : Str → Match
  | [] => none
  | d :: ds => if d = c then some ([d], ds) else none

/-- Rules 12 and 13, lines 170-171: `\r?\n`, then `\r\n?`. -/
def ruleNewline : Str → Match
  | '\n' :: cs => some (['\n'], cs)
  | '\r' :: '\n' :: cs => some (['\r', '\n'], cs)
  | '\r' :: cs => some (['\r'], cs)
  | _ => none

/-- `[ \t\f\v]`, line 174. -/
def isBlank (c : Char) : Bool := c == ' ' || c == '\t' || c == '\x0c' || c == '\x0b'

/-- Rule 14, line 174. -/
def ruleBlank (s : Str) : Match :=
  match s.takeWhile isBlank with
  | [] => none
  | d :: ds => some (d :: ds, s.dropWhile isBlank)

/-- The rest of a line, `[^\n]*`. -/
def restOfLine (s : Str) : Str × Str := (s.takeWhile (· != '\n'), s.dropWhile (· != '\n'))

/-- `(cmake-format|cmf): ` followed by `word`. -/
def sentinelTail (word : Str) (s : Str) : Match :=
  match stripPrefix? (S "cmake-format: " ++ word) s with
  | some r => some (S "cmake-format: " ++ word, r)
  | none =>
    match stripPrefix? (S "cmf: " ++ word) s with
    | some r => some (S "cmf: " ++ word, r)
    | none => none

/-- Rules 15 and 16, lines 175-178.  `\s*` may run over line ends. -/
def ruleSentinel (word : Str) : Str → Match
  | '#' :: cs =>
    match sentinelTail word (cs.dropWhile isSpace) with
    | some (a, r) =>
      some ('#' :: cs.takeWhile isSpace ++ a ++ (restOfLine r).1, (restOfLine r).2)
    | none => none
  | _ => none

/-- Rule 17, line 180. -/
def ruleBracketComment : Str → Match
  | '#' :: cs => pre ['#'] (bracketStr (fun _ => true) cs)
  | _ => none

/-- Rule 18, line 182. -/
def ruleComment : Str → Match
  | '#' :: cs => some ('#' :: (restOfLine cs).1, (restOfLine cs).2)
  | _ => none

/-- `[^\s\(\)]`, line 184. -/
def isCatchChar (c : Char) : Bool := !(isSpace c) && c != '(' && c != ')'

/-- Rule 19, line 184, first alternative.  The other two alternatives need a
first character that is blank or a parenthesis; earlier rules take those. -/
def ruleCatchAll (s : Str) : Match :=
  match s.takeWhile isCatchChar with
  | [] => none
  | d :: ds => some (d :: ds, s.dropWhile isCatchChar)

/-- Tag a match with its token type and fall through to the next rule. -/
def tryRule (t : TokType) (m : Match) (k : Option (TokType × Str × Str)) :
    Option (TokType × Str × Str) :=
  match m with
  | some (a, b) => some (t, a, b)
  | none => k

/-- All rules in priority order, lines 135-186. -/
def lexOne (prev : Option Char) (s : Str) : Option (TokType × Str × Str) :=
  tryRule .quoted (ruleDQuoted prev s) <|
  tryRule .quoted (ruleSQuoted prev s) <|
  tryRule .bracketArg (ruleBracketArg prev s) <|
  tryRule .number (ruleNumber prev s) <|
  tryRule .word (ruleWord prev s) <|
  tryRule .atword (ruleAtWord prev s) <|
  tryRule .deref (ruleDeref prev s) <|
  tryRule .unquoted (ruleLegacy s) <|
  tryRule .lparen (ruleChar '(' s) <|
  tryRule .rparen (ruleChar ')' s) <|
  tryRule .newline (ruleNewline s) <|
  tryRule .whitespace (ruleBlank s) <|
  tryRule .formatOff (ruleSentinel (S "off") s) <|
  tryRule .formatOn (ruleSentinel (S "on") s) <|
  tryRule .bracketComment (ruleBracketComment s) <|
  tryRule .comment (ruleComment s) <|
  tryRule .unquoted (ruleCatchAll s) none

/-- `scanner.scan`: repeat until no rule matches; returns the tokens and the
remainder.  `fuel` bounds the number of tokens. -/
def scan : Nat → Option Char → Str → List (TokType × Str) × Str
  | 0, _, s => ([], s)
  | fuel + 1, prev, s =>
    match lexOne prev s with
    | none => ([], s)
    | some (t, a, b) =>
      let r := scan fuel (match a.getLast? with | some c => some c | none => prev) b
      ((t, a) :: r.1, r.2)

/-- One step of the location loop, lines 209-226. -/
def advance (l : Loc) (sp : Str) : Loc :=
  let newlines := sp.count '\n'
  { line := l.line + newlines
    col := if newlines = 0 then l.col + sp.length
           else (sp.reverse.takeWhile (· != '\n')).length
    offset := l.offset + utf8Len sp }

/-- The location loop, lines 206-226. -/
def locate : Nat → Loc → List (TokType × Str) → List Token
  | _, _, [] => []
  | i, l, (t, sp) :: rest =>
    { type := t, spelling := sp, index := i, begin_ := l, end_ := advance l sp }
      :: locate (i + 1) (advance l sp) rest

/-- The byte-order mark. -/
def BOM : Char := Char.ofNat 0xfeff

/-- The token for a byte-order mark, lines 190-195. -/
def bomToken : Token :=
  { type := .bom, spelling := [BOM], index := -1, begin_ := ⟨0, 0, 0⟩, end_ := ⟨0, 0, 0⟩ }

/-- The exception of line 229. -/
inductive LexError
  | remainder
  deriving DecidableEq, Repr

/-- The body of `tokenize` after byte-order-mark removal, lines 198-233. -/
def tokenizeBody (s : Str) : Except LexError (List Token) :=
  let r := scan s.length none s
  if r.2.isEmpty then .ok (locate 0 ⟨1, 0, 0⟩ r.1) else .error .remainder

/-- `tokenize`, lines 97-233. -/
def tokenize (contents : Str) : Except LexError (List Token) :=
  match contents with
  | c :: cs =>
    if c = BOM then
      match tokenizeBody cs with
      | .ok ts => .ok (bomToken :: ts)
      | .error e => .error e
    else tokenizeBody (c :: cs)
  | [] => tokenizeBody []

/-- `get_first_non_whitespace_token`, lines 250-257. -/
def firstNonWhitespace : List Token → Option Token
  | [] => none
  | t :: ts => if t.type = .whitespace ∨ t.type = .newline then firstNonWhitespace ts else some t

end Verif.Lex
