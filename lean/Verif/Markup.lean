import Verif.Wrap

/-!
# Comment markup: `cmakelang/markup.py` and `format_comment_lines`

Lines never contain a line feed: they come from line-comment tokens.
`\d` and `\w` are ASCII in the concrete patterns.  The two patterns a user can configure
are parameters.
-/

namespace Verif.Markup
open Verif Py Verif.Wrap

/-- `CommentType`, markup.py:31-44. -/
inductive Kind
  | paragraph | bulletList | enumList | note | ruler | separator | fence | verbatim
  deriving DecidableEq, Repr

/-- `CommentItem`, markup.py:47-55. -/
structure Item where
  kind : Kind
  indent : Nat := 0
  lines : List Str := []
  deriving DecidableEq, Repr

/-- What comment formatting reads from the configuration (`config.markup`).  `fence` gives
the two groups of `fence_pattern`, `ruler` whether `ruler_pattern` matches, `ruler0` whether
the module's own `RULER_REGEX` does. -/
structure Cfg where
  fence : Str → Option (Str × Str)
  ruler : Str → Bool
  ruler0 : Str → Bool
  bulletChar : Str := S "*"
  enumChar : Str := S "."
  canonHashrulers : Bool := true
  enableMarkup : Bool := true
  hashrulerMin : Nat := 10
  explicitTrailing : Str := S "#<"
  literal : Option (Str → Bool) := none
  firstLiteral : Bool := false

/-! ## The patterns -/

/-- `FENCE_PATTERN`, markup.py:27: ``^\s*([`~]{3}[`~]*)(.*)$``. -/
def defaultFence (line : Str) : Option (Str × Str) :=
  let s := line.dropWhile isWhite
  let t := s.takeWhile fun c => c == '`' || c == '~'
  if t.length ≥ 3 then some (t, s.dropWhile fun c => c == '`' || c == '~') else none

/-- `[^\w\s]`, ASCII. -/
def isPunct (c : Char) : Bool := !(isWhite c || isDigit c || isLower c || isUpper c || c == '_')

/-- `RULER_PATTERN`, markup.py:17: `^\s*[^\w\s]{3}.*[^\w\s]{3}$`. -/
def defaultRuler (line : Str) : Bool :=
  let s := line.dropWhile isWhite
  decide (s.length ≥ 6) && (s.take 3).all isPunct && (s.reverse.take 3).all isPunct

/-- `NOTE_REGEX`, markup.py:12: `^\s*[A-Z_]+\([^)]+\):.*`. -/
def isNote (line : Str) : Bool :=
  let s := line.dropWhile isWhite
  let name := fun c => isUpper c || c == '_'
  if (s.takeWhile name).isEmpty then false
  else match s.dropWhile name with
    | '(' :: r =>
      if (r.takeWhile (· != ')')).isEmpty then false
      else match r.dropWhile (· != ')') with
        | ')' :: ':' :: _ => true
        | _ => false
    | _ => false

/-- `BULLET_REGEX`, markup.py:21: `^(\s*)([\*-])( .+)$`; the three groups. -/
def bulletMatch (line : Str) : Option (Str × Char × Str) :=
  match line.dropWhile isWhite with
  | c :: ' ' :: x :: xs =>
    if c == '*' || c == '-' then some (line.takeWhile isWhite, c, ' ' :: x :: xs) else none
  | _ => none

/-- `ENUM_REGEX`, markup.py:24: `^(\s*)\d+([.:])( .+)$`; the three groups. -/
def enumMatch (line : Str) : Option (Str × Char × Str) :=
  let s := line.dropWhile isWhite
  if (s.takeWhile isDigit).isEmpty then none
  else match s.dropWhile isDigit with
    | c :: ' ' :: x :: xs =>
      if c == '.' || c == ':' then some (line.takeWhile isWhite, c, ' ' :: x :: xs) else none
    | _ => none

/-- The pattern for further bullets, markup.py:113-114: `^{indent}{bullet}( .*)$`. -/
def bulletNext (ind : Str) (p : Char) (line : Str) : Option Str :=
  match stripPrefix? ind line with
  | some (c :: ' ' :: xs) => if c = p then some (' ' :: xs) else none
  | _ => none

/-- The pattern for further enumerators, markup.py:128-129: `^{indent}\d+{punct}( .*)$`.
The punctuation is not escaped, so `.` matches any character; `\d+` backtracks by one
digit if that makes the match succeed. -/
def enumNext (ind : Str) (p : Char) (line : Str) : Option Str :=
  match stripPrefix? ind line with
  | some s =>
    let ds := s.takeWhile isDigit
    if ds.isEmpty then none
    else match s.dropWhile isDigit with
      | c :: ' ' :: xs =>
        if c = p || p == '.' then some (' ' :: xs)
        else none
      | ' ' :: xs => if p == '.' && decide (ds.length ≥ 2) then some (' ' :: xs) else none
      | _ => none
  | none => none

/-! ## Parsing -/

/-- The local `state` of `parse`, with the pattern for list continuation. -/
inductive State
  | none | paragraph | note | ruler | separator | verbatim
  | bullet (ind : Str) (p : Char)
  | enum (ind : Str) (p : Char)
  deriving DecidableEq, Repr

/-- Apply a function to the last item, `obj_list[-1]`. -/
def onLast (f : Item → Item) : List Item → List Item
  | [] => []
  | [x] => [f x]
  | x :: xs => x :: onLast f xs

/-- `obj_list[-1].lines.append(line)`. -/
def addLine (line : Str) (items : List Item) : List Item :=
  onLast (fun i => { i with lines := i.lines ++ [line] }) items

/-- `obj_list[-1].lines[-1] += '\n' + line`. -/
def extendLine (line : Str) (items : List Item) : List Item :=
  onLast (fun i => { i with lines :=
    match i.lines.getLast? with
    | some l => i.lines.dropLast ++ [l ++ ['\n'] ++ line]
    | none => i.lines }) items

/-- A line outside of a list, paragraph or verbatim block, markup.py:102-149. -/
def freshLine (cfg : Cfg) (items : List Item) (line : Str) : List Item × State :=
  match bulletMatch line with
  | some (ind, p, text) =>
    (items ++ [{ kind := .bulletList, indent := ind.length, lines := [text] }], .bullet ind p)
  | none =>
    match enumMatch line with
    | some (ind, p, text) =>
      (items ++ [{ kind := .enumList, indent := ind.length, lines := [strip text] }], .enum ind p)
    | none =>
      if isNote line then (items ++ [{ kind := .note, lines := [strip line] }], .note)
      else if cfg.ruler line then (items ++ [{ kind := .ruler, lines := [strip line] }], .ruler)
      else (items ++ [{ kind := .paragraph, lines := [strip line] }], .paragraph)

/-- The loop body of `parse` after the fence test, markup.py:84-170. -/
def plainLine (cfg : Cfg) (items : List Item) (st : State) (line : Str) : List Item × State :=
  if st = .verbatim then
    (addLine (match line with | ' ' :: l => l | l => l) items, .verbatim)
  else if line.isEmpty then
    if st = .separator then (items, st) else (items ++ [{ kind := .separator }], .separator)
  else if cfg.ruler line then (items ++ [{ kind := .ruler, lines := [strip line] }], .ruler)
  else
    match st with
    | .none | .separator | .ruler | .verbatim => freshLine cfg items line
    | .paragraph | .note =>
      if isNote line then (items ++ [{ kind := .note, lines := [strip line] }], .note)
      else if cfg.ruler0 line then (items ++ [{ kind := .ruler, lines := [strip line] }], .ruler)
      else (addLine (strip line) items, st)
    | .bullet ind p =>
      match bulletNext ind p line with
      | some t => (addLine (strip t) items, st)
      | none => (extendLine (strip line) items, st)
    | .enum ind p =>
      match enumNext ind p line with
      | some t => (addLine (strip t) items, st)
      | none => (extendLine (strip line) items, st)

/-- The loop body of `parse`, markup.py:73-170. -/
def parseLine (cfg : Cfg) (acc : List Item × State) (line : Str) : List Item × State :=
  match cfg.fence line with
  | some (g1, g2) =>
    let items := acc.1 ++ [{ kind := .fence, lines := [strip g1] }]
    let content := strip g2
    if acc.2 = .verbatim then
      if content.isEmpty then (items, .none) else plainLine cfg items .none content
    else
      let items' := items ++ [{ kind := .verbatim }]
      if content.isEmpty then (items', .verbatim) else plainLine cfg items' .verbatim content
  | none => plainLine cfg acc.1 acc.2 line

/-- `parse`, markup.py:56-172. -/
def parse (cfg : Cfg) (lines : List Str) : List Item :=
  (lines.foldl (parseLine cfg) ([], .none)).1

/-! ## Formatting -/

/-- `is_hashruler`, markup.py:175-189. -/
def isHashruler (i : Item) : Bool :=
  decide (i.kind = .ruler) &&
    match i.lines with
    | [l] => l.all (· == '#')
    | _ => false

/-- Blanks. -/
def spaces (n : Nat) : Str := List.replicate n ' '

/-- `int(math.ceil(math.log(n, 10)))`, taken as the smallest `d` with `n ≤ 10 ^ d` (no
floating-point error). -/
def digitsOf (n : Nat) : Nat := ((List.range n).find? fun d => decide (n ≤ 10 ^ d)).getD 0

/-- The decimal digits of a number, with fuel. -/
def decimal : Nat → Nat → Str
  | 0, _ => []
  | f + 1, n =>
    (if n < 10 then [] else decimal f (n / 10)) ++ [Char.ofNat (48 + n % 10)]

/-- `'{:%dd}'.format(n)`: right-aligned. -/
def padNum (digits n : Nat) : Str :=
  let s := decimal (n + 1) n
  spaces (digits - s.length) ++ s

/-- The lines of one list entry: `lead` before the first line, `pad` before the others,
markup.py:222-226, 237-241; `increment_lines[0]` fails if there is no line. -/
def entry (lead pad : Str) (r : Except Err (List Str)) : Except Err (List Str) :=
  match r with
  | .error e => .error e
  | .ok [] => .error .index
  | .ok (l :: ls) => .ok ((lead ++ l) :: ls.map (pad ++ ·))

/-- All entries of a list. -/
def entries (width : Int) (lead : Nat → Str) (pad : Str) : Nat → List Str → Except Err (List Str)
  | _, [] => .ok []
  | k, l :: ls =>
    match entry (lead k) pad (stableWrap width (strip l)) with
    | .error e => .error e
    | .ok a =>
      match entries width lead pad (k + 1) ls with
      | .error e => .error e
      | .ok b => .ok (a ++ b)

/-- `format_item`, markup.py:201-244. -/
def formatItem (cfg : Cfg) (width : Int) (i : Item) : Except Err (List Str) :=
  match i.kind with
  | .separator => .ok [[]]
  | .fence => .ok [S "~~~"]
  | .verbatim => .ok (i.lines.map (rstripBy isWhite))
  | .paragraph | .note => stableWrap width (strip (join ['\n'] i.lines))
  | .ruler =>
    if isHashruler i && cfg.canonHashrulers then .ok [List.replicate width.toNat '#']
    else stableWrap width (strip (join ['\n'] i.lines))
  | .bulletList =>
    if width ≤ 2 then .error .assertion
    else entries (width - 2) (fun _ => cfg.bulletChar ++ [' ']) (S "  ") 0 i.lines
  | .enumList =>
    if width ≤ 2 then .error .assertion
    else
      let d := digitsOf i.lines.length
      entries (width - 2) (fun k => padNum d (k + 1) ++ cfg.enumChar ++ [' ']) (spaces (d + 2)) 0 i.lines

/-- Pop deeper or equal indentations, markup.py:256-257; the history is kept newest
first. -/
def popIndent (n : Nat) (hist : List Nat) : List Nat := hist.dropWhile fun h => decide (h ≥ n)

/-- `format_items`, markup.py:247-267. -/
def formatItems (cfg : Cfg) (width : Int) (hist : List Nat) : List Item → Except Err (List Str)
  | [] => .ok []
  | i :: is =>
    let isList := decide (i.kind = .bulletList ∨ i.kind = .enumList)
    let hist' :=
      if isList then i.indent :: popIndent i.indent hist
      else if i.kind = .separator then hist else []
    let nindent := if isList then 2 * (hist'.length - 1) else 0
    match formatItem cfg (width - nindent) i with
    | .error e => .error e
    | .ok ls =>
      match formatItems cfg width hist' is with
      | .error e => .error e
      | .ok rest => .ok (ls.map (spaces nindent ++ ·) ++ rest)

/-- `inline` stripped of its comment sign for one token, formatter.py:49-71. -/
def commentText (cfg : Cfg) (explicitTrailing : Bool) (spelling : Str) : Str :=
  let inline := strip spelling
  if explicitTrailing then inline.drop cfg.explicitTrailing.length
  else if !cfg.enableMarkup then inline.drop 1
  else if startsWith (List.replicate cfg.hashrulerMin '#') inline then inline.drop 1
  else inline.dropWhile (· == '#')

/-- `literal_comment_pattern` matches the joined lines, formatter.py:89-92. -/
def isLiteral (cfg : Cfg) (inlines : List Str) : Bool :=
  match cfg.literal with
  | some f => f (join ['\n'] inlines)
  | none => false

/-- `format_comment_lines`, formatter.py:75-102, for the spellings of the line-comment
tokens of a comment (`get_comment_lines`, formatter.py:45-72, skips other tokens).
`first` says that the first child is the first token of the file. -/
def formatComment (cfg : Cfg) (explicitTrailing first : Bool) (firstSpelling : Str) (width : Int)
    (spellings : List Str) : Except Err (List Str) :=
  let inlines := spellings.map (commentText cfg explicitTrailing)
  let pre := if explicitTrailing then cfg.explicitTrailing else S "#"
  let literally := inlines.map fun l => pre ++ rstripBy isWhite l
  if !cfg.enableMarkup then .ok literally
  else if isLiteral cfg inlines then .ok literally
  else if first && (cfg.firstLiteral || startsWith (S "#!") firstSpelling) then .ok literally
  else
    match formatItems cfg (max 10 (width - 2)) [] (parse cfg inlines) with
    | .error e => .error e
    | .ok ls => .ok (ls.map fun l => pre ++ spaces (l.take 1).length ++ l)

end Verif.Markup
