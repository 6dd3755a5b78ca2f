import Verif.Py

/-!
# `textwrap.TextWrapper.wrap` and `cmakelang/common.py` `stable_wrap`

`textwrap` is the Python standard library (3.x `Lib/textwrap.py`); it is modelled for the
options the code uses (`COMMON_KWARGS`, markup.py:192-198): tabs are expanded, blanks
replaced by spaces, blanks dropped at line ends, no word is broken, no indentation, no
line limit.
-/

namespace Verif.Wrap
open Verif Py

/-- Exceptions of the comment formatter. -/
inductive Err
  | value | index | assertion
  deriving DecidableEq, Repr

/-- `str.isspace` for one character: what `str.strip()` removes and `\s` matches in a `str`
pattern. -/
def isWhite (c : Char) : Bool :=
  isSpace c || (28 ≤ c.toNat && c.toNat ≤ 31) ||
    [0x85, 0xa0, 0x1680, 0x2028, 0x2029, 0x202f, 0x205f, 0x3000].contains c.toNat ||
    (0x2000 ≤ c.toNat && c.toNat ≤ 0x200a)

/-- `str.strip()`. -/
def strip (s : Str) : Str := rstripBy isWhite (lstripBy isWhite s)

/-- `str.expandtabs(8)`; `col` is the current column. -/
def expandTabs (col : Nat) : Str → Str
  | [] => []
  | c :: cs =>
    if c = '\t' then List.replicate (8 - col % 8) ' ' ++ expandTabs (col + (8 - col % 8)) cs
    else c :: expandTabs (if c = '\n' ∨ c = '\r' then 0 else col + 1) cs

/-- `TextWrapper._munge_whitespace`. -/
def munge (s : Str) : Str := (expandTabs 0 s).map fun c => if isSpace c then ' ' else c

/-- `TextWrapper._split` with `wordsep_simple_re`: the maximal runs of blanks and of
non-blanks, in order.  The text is munged, so the only blank is the space. -/
def chunks : Str → List Str
  | [] => []
  | c :: cs =>
    match chunks cs with
    | (d :: ds) :: rest =>
      if (c == ' ') = (d == ' ') then (c :: d :: ds) :: rest else [c] :: (d :: ds) :: rest
    | rest => [c] :: rest

/-- `chunk.strip() == ''`. -/
def blankChunk (c : Str) : Bool := c.all isWhite

/-- The inner loop of `_wrap_chunks`: chunks are taken while they fit. -/
def takeFit (width cur : Nat) : List Str → List Str × List Str
  | [] => ([], [])
  | c :: cs =>
    if cur + c.length ≤ width then
      let r := takeFit width (cur + c.length) cs
      (c :: r.1, r.2)
    else ([], c :: cs)

/-- The chunks of the next line before trailing blanks are dropped, and the chunks left: the
body of the outer loop of `_wrap_chunks` with `_handle_long_word` for
`break_long_words = False`. -/
def nextLine (width : Nat) (cs : List Str) : List Str × List Str :=
  let r := takeFit width 0 cs
  match r.2 with
  | c :: rest => if c.length > width && r.1.isEmpty then ([c], rest) else r
  | [] => r

/-- Drop the last chunk if it is blank. -/
def dropBlank (cs : List Str) : List Str :=
  match cs.getLast? with
  | some c => if blankChunk c then cs.dropLast else cs
  | none => cs

/-- `TextWrapper._wrap_chunks`; `first` says that no line was produced yet.  Every round
takes a chunk, so the number of chunks is enough fuel. -/
def wrapChunks (width : Nat) : Nat → Bool → List Str → List Str
  | 0, _, _ => []
  | _ + 1, _, [] => []
  | n + 1, first, c :: cs =>
    let cs' := if !first && blankChunk c then cs else c :: cs
    let r := nextLine width cs'
    let line := dropBlank r.1
    if line.isEmpty then wrapChunks width n first r.2
    else line.flatten :: wrapChunks width n false r.2

/-- `TextWrapper(width).wrap(text)`. -/
def wrap (width : Int) (text : Str) : Except Err (List Str) :=
  if width ≤ 0 then .error .value
  else
    let cs := chunks (munge text)
    .ok (wrapChunks width.toNat cs.length true cs)

/-- The loop of `stable_wrap`, common.py:78-94, for `rounds` more rounds; the wrapper has
no indentation, so `wrap_text` is the previous round's text.  `lines[0]` fails if there
is no line. -/
def stableLoop (width : Int) : Nat → Str → Except Err (List Str)
  | 0, _ => .error .assertion
  | n + 1, prev =>
    match wrap width prev with
    | .error e => .error e
    | .ok lines =>
      let next := join ['\n'] lines
      if next = prev then .ok lines
      else if lines.isEmpty then .error .index
      else stableLoop width n next

/-- `stable_wrap`, common.py:72-95: eight rounds. -/
def stableWrap (width : Int) (text : Str) : Except Err (List Str) := stableLoop width 8 text

end Verif.Wrap
