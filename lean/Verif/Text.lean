import Verif.Lex

/-!
# Text passes of the formatter: `format/formatter.py`, `format/__main__.py`
-/

namespace Verif.Text
open Verif Py Lex

/-! ## Line endings -/

/-- One attempt to match `[ \t\f\v]*((\r?\n)|(\r\n?))` at the current position,
formatter.py:110; the result is what follows the match.  Backtracking to fewer
blanks leaves a blank next, which is no line end, so only the greedy run counts. -/
def matchEnding (s : Str) : Option Str :=
  match ruleNewline (s.dropWhile isBlank) with
  | some (_, r) => some r
  | none => none

/-- `re.sub(pattern, '\n', instr)`: leftmost matches, left to right; `fuel` bounds
the number of steps. -/
def subEndings : Nat → Str → Str
  | 0, s => s
  | fuel + 1, s =>
    match matchEnding s with
    | some r => '\n' :: subEndings fuel r
    | none =>
      match s with
      | [] => []
      | c :: cs => c :: subEndings fuel cs

/-- `normalize_line_endings`, formatter.py:105-110. -/
def normalizeLineEndings (s : Str) : Str := subEndings (s.length + 1) s

/-- `str.count('\r\n')`. -/
def countCRLF : Str → Nat
  | '\r' :: '\n' :: cs => countCRLF cs + 1
  | _ :: cs => countCRLF cs
  | [] => 0

/-- The two values `detect_line_endings` can return. -/
inductive Ending
  | unix | windows
  deriving DecidableEq, Repr

/-- `detect_line_endings`, format/__main__.py:48-54. -/
def detectLineEndings (s : Str) : Ending :=
  let windows := countCRLF s
  let unix := s.count '\n' - windows
  if windows > unix then .windows else .unix

/-- `FormattingConfig.set_line_ending` / `_update_derived`, configuration.py:352-365:
the text written for a line end. -/
def endl : Ending → Str
  | .unix => ['\n']
  | .windows => ['\r', '\n']

/-! ## Tabs -/

/-- The exceptions `replace_with_tabs` can raise. -/
inductive TabError
  | zeroDivision
  | userError
  deriving DecidableEq, Repr

/-- The options read by `replace_with_tabs`. -/
structure TabConfig where
  useTabchars : Bool
  tabSize : Nat
  policy : Str
  deriving DecidableEq, Repr

/-- `count_indentation`, formatter.py:113-118: index of the first character that is
not a space; 0 when there is none. -/
def countIndentation (line : Str) : Nat :=
  let n := (line.takeWhile (· == ' ')).length
  if n < line.length then n else 0

/-- The body of the loop of `replace_with_tabs`, formatter.py:131-145. -/
def tabLine (cfg : TabConfig) (inline : Str) : Except TabError Str :=
  let n := countIndentation inline
  if cfg.tabSize = 0 then .error .zeroDivision
  else
    let tabs := List.replicate (n / cfg.tabSize) '\t'
    let frac := n % cfg.tabSize
    if frac = 0 then .ok (tabs ++ inline.drop n)
    else if cfg.policy = S "use-space" then
      .ok (tabs ++ List.replicate frac ' ' ++ inline.drop n)
    else if cfg.policy = S "round-up" then
      .ok (tabs ++ ['\t'] ++ inline.drop n)
    else .error .userError

/-- The loop of `replace_with_tabs`, stopping at the first exception. -/
def tabLines (cfg : TabConfig) : List Str → Except TabError (List Str)
  | [] => .ok []
  | l :: ls =>
    match tabLine cfg l with
    | .error e => .error e
    | .ok o =>
      match tabLines cfg ls with
      | .error e => .error e
      | .ok os => .ok (o :: os)

/-- `replace_with_tabs`, formatter.py:121-146. -/
def replaceWithTabs (content : Str) (cfg : TabConfig) : Except TabError Str :=
  if cfg.useTabchars = false then .ok content
  else
    match tabLines cfg (splitOn '\n' content) with
    | .error e => .error e
    | .ok ls => .ok (join ['\n'] ls)

end Verif.Text
