import Verif.Layout
import Verif.Parse

/-!
# Writing the laid out tree: `cmakelang/format/formatter.py`, lines 626-729, 763-786 and
1910-2014, and `process_file`, `cmakelang/format/__main__.py`, lines 134-176

Warnings (lines 770-773 and 2009-2013) are not modelled.
-/

namespace Verif.Layout
open Verif Py Lex Parse

/-! ## The output -/

/-- `CursorFile` and `WriteContext`, formatter.py:1910-2000: the text so far, the cursor
and the byte offset of the end of the open `off` switch (`offswitch_location`). -/
structure W where
  out : Str
  cur : Cur
  off : Option Nat
  deriving DecidableEq, Repr

/-- `assert_lt`, formatter.py:1927-1932. -/
def before (a b : Cur) : Bool := decide (a.row < b.row) || (a.row == b.row && decide (a.col ≤ b.col))

/-- `s * n`. -/
def times (s : Str) : Nat → Str
  | 0 => []
  | n + 1 => s ++ times s n

/-- The line ends and blanks that lead from one cursor to a later one,
formatter.py:1942-1950. -/
def gap (endl : Str) (a b : Cur) : Str :=
  if b.row - a.row = 0 then Markup.spaces (b.col - a.col)
  else times endl (b.row - a.row) ++ Markup.spaces b.col

/-- The lines of a text with the configured line ends, formatter.py:1952-1964. -/
def render (endl : Str) (text : Str) : Str := join endl (splitOn '\n' text)

/-- `CursorFile.write_at`, formatter.py:1937-1964. -/
def writeAt (cfg : Cfg) (w : W) (c : Cur) (text : Str) : Except Err W :=
  if before w.cur c then
    .ok { w with out := w.out ++ gap cfg.endl w.cur c ++ render cfg.endl text, cur := (flow c text).1 }
  else .error .assertion

/-- `infile.seek(n)` on the UTF-8 bytes of a text; nothing when that is inside a
character (decoding then fails, formatter.py:779). -/
def dropBytes : Nat → Str → Option Str
  | 0, s => some s
  | _, [] => some []
  | n + 1, c :: cs => if c.utf8Size ≤ n + 1 then dropBytes (n + 1 - c.utf8Size) cs else none

/-- `infile.read(n)`, decoded. -/
def takeBytes : Nat → Str → Option Str
  | 0, _ => some []
  | _, [] => some []
  | n + 1, c :: cs =>
    if c.utf8Size ≤ n + 1 then (takeBytes (n + 1 - c.utf8Size) cs).map (c :: ·) else none

/-- The bytes from one offset to another, formatter.py:775-779; `read` with a negative
size reads to the end. -/
def copyBytes (content : Str) (a b : Nat) : Option Str :=
  if a = b then some []
  else match dropBytes a content with
    | none => none
    | some s => if b < a then some s else takeBytes (b - a) s

/-- `ScalarNode.write`, the text, formatter.py:701-719.  `parent` is
`self._parent.pnode.cmdspec.spelling`. -/
def scalarText (cfg : Cfg) (ty : NT) (parent : Option Str) (t : Token) : Except Err Str :=
  match ty with
  | .funname =>
    let cc := cfg.commandCase t.spelling
    if cc = S "lower" then .ok (lower t.spelling)
    else if cc = S "upper" then .ok (upper t.spelling)
    else if cc = S "canonical" then
      match parent with
      | some s => .ok s
      | none => .ok (cfg.spelling t.spelling)
    else if cc = S "unchanged" then .ok (Text.normalizeLineEndings t.spelling)
    else .error .assertion
  | .keyword | .flag =>
    if cfg.keywordCase = S "lower" then .ok (lower t.spelling)
    else if cfg.keywordCase = S "upper" then .ok (upper t.spelling)
    else .ok (Text.normalizeLineEndings t.spelling)
  | _ => .ok (Text.normalizeLineEndings t.spelling)

/-- The lines of a comment, formatter.py:1714-1715. -/
def writeLines (cfg : Cfg) : Cur → List Str → W → Except Err W
  | _, [], w => .ok w
  | c, l :: ls, w =>
    match writeAt cfg w c l with
    | .error e => .error e
    | .ok w' => writeLines cfg ⟨c.row + 1, c.col⟩ ls w'

/-- `OnOffSwitchNode.write`, formatter.py:763-786. -/
def writeSwitch (cfg : Cfg) (content : Str) (pos : Cur) (t : Token) (w : W) : Except Err W :=
  if t.type = .formatOn then
    match w.off with
    | none => writeAt cfg w pos (switchText t)
    | some o =>
      match copyBytes content o t.begin_.offset with
      | none => .error .value
      | some text => writeAt cfg { out := w.out ++ text, cur := pos, off := none } pos (switchText t)
  else writeAt cfg { w with off := some t.end_.offset } pos (switchText t)

mutual
/-- `write` of the node types, formatter.py:570-575, 626-633, 693-728, 763-786, 985-988,
1050-1053, 1467-1470, 1575-1578, 1704-1715, 1729-1730.  `parent` is the canonical spelling
known to the parent node.  The assertions of lines 723 and 726 are checked before the
comment is written instead of around it. -/
def writeNode (cfg : Cfg) (content : Str) : Option Str → Laid → W → Except Err W
  | parent, .mk ty attr pkids info lines kids, w =>
    match ty with
    | .lparen => writeAt cfg w info.pos (S "(")
    | .rparen => writeAt cfg w info.pos (S ")")
    | .funname | .argument | .keyword | .flag | .atword =>
      if w.off.isSome then .ok w
      else
        match headTok pkids with
        | .error e => .error e
        | .ok t =>
          match scalarText cfg ty parent t with
          | .error e => .error e
          | .ok text =>
            match writeAt cfg w info.pos text with
            | .error e => .error e
            | .ok w' =>
              if kids.length ≤ 1 ∧ kids.all (fun k => k.ty == .comment) = true then
                writeL cfg content none kids w'
              else .error .assertion
    | .onoff =>
      match headTok pkids with
      | .error e => .error e
      | .ok t => writeSwitch cfg content info.pos t w
    | .comment =>
      if w.off.isSome then .ok w
      else
        match bracketOf pkids with
        | some t => writeAt cfg w info.pos (Text.normalizeLineEndings t.spelling)
        | none => writeLines cfg info.pos lines w
    | .whitespace => .ok w
    | .statement | .atwordStatement | .argGroup | .parenGroup =>
      if w.off.isSome then .ok w else writeL cfg content attr.spelling kids w
    | .body | .flowControl | .pargGroup | .flagGroup | .kwargGroup => writeL cfg content none kids w
/-- The children in order. -/
def writeL (cfg : Cfg) (content : Str) : Option Str → List Laid → W → Except Err W
  | _, [], w => .ok w
  | parent, l :: ls, w =>
    match writeNode cfg content parent l w with
    | .error e => .error e
    | .ok w' => writeL cfg content parent ls w'
end

/-- The writer at the start. -/
def W.start : W := { out := [], cur := ⟨0, 0⟩, off := none }

/-- `write_tree`, formatter.py:2002-2013, with `getvalue`, 1977-1978. -/
def writeTree (cfg : Cfg) (content : Str) (l : Laid) : Except Err Str :=
  match writeNode cfg content none l .start with
  | .error e => .error e
  | .ok w => .ok (w.out ++ cfg.endl)

/-! ## A whole file -/

/-- What can go wrong with a file. -/
inductive FormatErr
  | lex
  | parse (e : Parse.Err)
  | layout (e : Err)
  | tabs (e : Text.TabError)
  deriving DecidableEq, Repr

/-- The configuration of a run: layout and writing, parsing, `line_ending = auto`,
`emit_byteorder_mark` and the tab policy. -/
structure FileCfg where
  layout : Cfg
  ctx : Ctx
  auto : Bool
  bom : Bool
  tabs : Text.TabConfig

/-- The layout configuration for one file: the detected line ending
(format/__main__.py:140-143) and the first token (line 149). -/
def FileCfg.cfgFor (cfg : FileCfg) (content : Str) (ts : List Token) : Cfg :=
  { cfg.layout with
    endl := if cfg.auto then Text.endl (Text.detectLineEndings content) else cfg.layout.endl
    firstToken := firstNonWhitespace ts }

/-- `process_file`, format/__main__.py:134-176, without the dump options: the new text and
whether the layout is valid. -/
def processFile (cfg : FileCfg) (content : Str) : Except FormatErr (Str × Bool) :=
  match tokenize content with
  | .error _ => .error .lex
  | .ok ts =>
    match parse cfg.ctx ts with
    | .error e => .error (.parse e)
    | .ok tree =>
      match layoutTree (cfg.cfgFor content ts) tree with
      | .error e => .error (.layout e)
      | .ok l =>
        match writeTree (cfg.cfgFor content ts) content l with
        | .error e => .error (.layout e)
        | .ok out =>
          match Text.replaceWithTabs (if cfg.bom then BOM :: out else out) cfg.tabs with
          | .error e => .error (.tabs e)
          | .ok text => .ok (text, l.valid)

end Verif.Layout
