import Verif.LayoutSpec

/-!
# What the layout options promise (specification for C84 and C85)

A laid out file is a tree of parts, each with the position of its first text.  The writer
puts every text at exactly the position of its part (C15).
-/

namespace Verif.Layout
open Verif Py Lex Parse

/-- The position of a part. -/
def Laid.pos (l : Laid) : Cur := l.info.pos
/-- The parts it consists of. -/
def Laid.kids : Laid → List Laid
  | .mk _ _ _ _ _ ks => ks
/-- The attributes of its command or group. -/
def Laid.attr : Laid → Attr
  | .mk _ a _ _ _ _ => a
/-- The word of the source that it stands for. -/
def Laid.word : Laid → Str
  | .mk _ _ pk _ _ _ => headSpelling pk

mutual
/-- Where the last text of a part ends. -/
def stopOf : Laid → Cur
  | .mk ty _ pkids info lines kids =>
    match ty with
    | .lparen | .rparen => info.pos.right 1
    | .whitespace => info.pos
    | .onoff =>
      info.pos.right
        (match pkids with
          | .tok t :: _ => if t.type = .formatOn then 18 else 19
          | _ => 0)
    | .comment =>
      match bracketOf pkids with
      | some t => advance info.pos (Text.normalizeLineEndings t.spelling)
      | none => ⟨info.pos.row + (lines.length - 1), info.pos.col + (lines.getLast?.getD []).length⟩
    | .funname | .argument | .keyword | .flag | .atword =>
      stopLast (advance info.pos (Text.normalizeLineEndings (headSpelling pkids))) kids
    | .body | .statement | .flowControl | .argGroup | .kwargGroup | .pargGroup | .flagGroup
    | .parenGroup | .atwordStatement => stopLast info.pos kids
/-- Where the last of several parts ends. -/
def stopLast : Cur → List Laid → Cur
  | c, [] => c
  | _, l :: ls => stopLast (stopOf l) ls
end

/-- The number of further lines that a part takes. -/
def moreLines (l : Laid) : Nat := (stopOf l).row - l.pos.row

/-- The last of several parts is a line comment. -/
def lastLineComment (ls : List Laid) : Bool :=
  match ls.getLast? with
  | some (.mk _ _ pk _ _ _) => headIsComment pk
  | none => false

mutual
/-- The last text of a part is a comment or a format switch, so that nothing may follow on
its line. -/
def endsLoud : Laid → Bool
  | .mk ty _ _ _ _ kids =>
    match ty with
    | .onoff => true
    | .funname | .argument | .keyword | .flag | .atword => lastLineComment kids
    | .parenGroup => lastLineComment ((kids.dropWhile (fun k => k.ty != .rparen)).drop 1)
    | .kwargGroup | .pargGroup | .flagGroup | .argGroup => lastLoud kids
    | _ => false
/-- The last of several parts is a comment or ends in one. -/
def lastLoud : List Laid → Bool
  | [] => false
  | [l] => l.ty == .comment || endsLoud l
  | _ :: l :: ls => lastLoud (l :: ls)
end

/-- The commands of control blocks. -/
def controlNames : List Str :=
  [S "IF", S "ELSEIF", S "ELSE", S "ENDIF", S "FOREACH", S "ENDFOREACH", S "WHILE", S "ENDWHILE",
   S "FUNCTION", S "ENDFUNCTION", S "MACRO", S "ENDMACRO"]

/-- The number of blanks wanted between a command name and its parenthesis:
`separate_ctrl_name_with_space` and `separate_fn_name_with_space`. -/
def nameGap (cfg : Cfg) (name : Str) : Nat :=
  if controlNames.contains (upper name) then (if cfg.separateCtrl then 1 else 0)
  else (if cfg.separateFn then 1 else 0)

/-- The column of a parenthesis on a line of its own, by `dangle_align`. -/
def danglingColumn (cfg : Cfg) (command args : Nat) : Option Nat :=
  if cfg.dangleAlign = S "prefix" then some command
  else if cfg.dangleAlign = S "prefix-indent" then some (command + cfg.tabSize)
  else if cfg.dangleAlign = S "child" then some args
  else none

/-- The first column of the next line, counted from the end of a part. -/
def below (l : Laid) (col : Nat) : Cur := ⟨(stopOf l).row + 1, col⟩

/-- The closing parenthesis must stand on a line of its own: `dangle_parens` asks for it, the
line is full, or the arguments end in a comment. -/
def MustDangle (cfg : Cfg) (l args : Laid) : Prop :=
  (cfg.dangleParens = true ∧ l.pos.row < (stopOf args).row) ∨ cfg.linewidth ≤ (stopOf args).col ∨
    endsLoud args = true

/-- A command.  The parenthesis follows the name after the wanted number of blanks.  The
arguments follow the parenthesis or stand on the next line, indented by `tab_size`; the
latter only if name and parenthesis are longer than `min_prefix_chars`, and it must be so in
a valid layout if they are longer than `max_prefix_chars` and the command takes more than
two lines.  The closing parenthesis follows the arguments, or stands on the line after them
in the column given by `dangle_align`: always when it must, else only to make room for a
comment after it. -/
def CommandPlaced (cfg : Cfg) (strict : Bool) (l : Laid) : Prop :=
  ∃ name lp args rp rest dcol,
    l.kids = name :: lp :: args :: rp :: rest ∧
    danglingColumn cfg l.pos.col args.pos.col = some dcol ∧
    name.pos = l.pos ∧
    lp.pos = (stopOf name).right (nameGap cfg name.word) ∧
    (args.pos = stopOf lp ∨ args.pos = ⟨l.pos.row + 1, l.pos.col + cfg.tabSize⟩) ∧
    (((name.word.length + 1 + nameGap cfg name.word : Nat) : Int) ≤ cfg.minPrefixChars → args.pos = stopOf lp) ∧
    (strict = true → moreLines l > 1 →
      ((name.word.length + 1 + nameGap cfg name.word : Nat) : Int) > cfg.maxPrefixChars →
      args.pos = ⟨l.pos.row + 1, l.pos.col + cfg.tabSize⟩) ∧
    (MustDangle cfg l args → rp.pos = below args dcol) ∧
    (¬ MustDangle cfg l args → rp.pos = stopOf args ∨ rest ≠ [] ∧ rp.pos = below args dcol) ∧
    (rest = [] ∨ ∃ comment, rest = [comment] ∧
      (comment.pos = (stopOf rp).right 1 ∨ rp.pos = below args dcol ∧ comment.pos = stopOf rp ∨
        comment.pos.col = l.pos.col ∧ (stopOf rp).row < comment.pos.row))

/-- A keyword with its arguments: they follow after one blank or stand on the next line,
indented by `tab_size`; the latter only for a keyword longer than `min_prefix_chars`, and it
must be so in a valid layout for one longer than `max_prefix_chars` if the group takes more
than two lines. -/
def KeywordPlaced (cfg : Cfg) (strict : Bool) (l : Laid) : Prop :=
  ∃ keyword rest,
    l.kids = keyword :: rest ∧ keyword.pos = l.pos ∧
    (rest = [] ∨ ∃ args, rest = [args] ∧
      (args.pos = (stopOf keyword).right 1 ∨ args.pos = below keyword (l.pos.col + cfg.tabSize)) ∧
      ((keyword.word.length : Int) ≤ cfg.minPrefixChars → args.pos = (stopOf keyword).right 1) ∧
      (strict = true → moreLines l > 1 → (keyword.word.length : Int) > cfg.maxPrefixChars →
        args.pos = below keyword (l.pos.col + cfg.tabSize)))

/-- Each part follows the previous one after a blank, or stands on the next line in the
given column. -/
def Running (col : Nat) : List Laid → Prop
  | a :: b :: ls => (b.pos = (stopOf a).right 1 ∨ b.pos = below a col) ∧ Running col (b :: ls)
  | _ => True

/-- Each part stands on the line after the previous one, in the given column. -/
def Vertical (col : Nat) : List Laid → Prop
  | a :: b :: ls => b.pos = below a col ∧ Vertical col (b :: ls)
  | _ => True

/-- The number of lines on which several parts start. -/
def startLines : List Laid → Nat
  | [] => 0
  | [_] => 1
  | a :: b :: ls => (if (stopOf a).row < b.pos.row then 1 else 0) + startLines (b :: ls)

/-- A list of arguments.  In a valid layout it is vertical if it has more arguments than
`max_pargs_hwrap` (or the limit of the command), takes more lines than `max_lines_hwrap`
or is listed in `always_wrap`; command lines are never vertical but start on at most
`max_rows_cmdline` lines. -/
def ListPlaced (cfg : Cfg) (strict : Bool) (path : Str) (l : Laid) : Prop :=
  (∀ k, l.kids.head? = some k → k.pos = l.pos) ∧ Running l.pos.col l.kids ∧
  (strict = true →
    if l.attr.tags.contains (S "cmdline") then
      (startLines l.kids : Int) ≤ cfg.maxRowsCmdline ∧ (moreLines l : Int) ≤ cfg.maxLinesHwrap ∧
        path ∉ cfg.alwaysWrap
    else
      ((l.kids.filter (fun k => k.ty != .comment)).length : Int) > l.attr.maxPargs.getD cfg.maxPargsHwrap ∨
        (moreLines l : Int) > cfg.maxLinesHwrap ∨ path ∈ cfg.alwaysWrap → Vertical l.pos.col l.kids)

/-- The arguments of a command or keyword as a whole.  In a valid layout its groups are
vertical if there are more than `max_subgroups_hwrap` (or the limit of the command), if it
takes more lines than `max_lines_hwrap` or if it is listed in `always_wrap`. -/
def GroupsPlaced (cfg : Cfg) (strict : Bool) (path : Str) (l : Laid) : Prop :=
  (∀ k, l.kids.head? = some k → k.pos = l.pos) ∧ Running l.pos.col l.kids ∧
  (strict = true →
    ((l.kids.filter (fun k => k.ty == .kwargGroup || k.ty == .pargGroup || k.ty == .parenGroup)).length : Int)
        > l.attr.maxSubgroups.getD cfg.maxSubgroupsHwrap ∨
      (moreLines l : Int) > cfg.maxLinesHwrap ∨ path ∈ cfg.alwaysWrap → Vertical l.pos.col l.kids)

/-- What holds for a part of a laid out file with the given path; `strict` says that the
layout is reported as valid. -/
def Arranged (cfg : Cfg) (strict : Bool) (path : Str) (l : Laid) : Prop :=
  match l.ty with
  | .statement => CommandPlaced cfg strict l
  | .kwargGroup => KeywordPlaced cfg strict l
  | .pargGroup | .flagGroup => ListPlaced cfg strict path l
  | .argGroup => GroupsPlaced cfg strict path l
  | _ => True

/-- The name of a part in the paths that `always_wrap` lists: a command name in lower case, a
keyword in upper case, `PargGroupNode[i]` for the lists of arguments of one parent. -/
def partName (idx : Nat) (l : Laid) : List Str :=
  match l.ty with
  | .body | .argGroup => []
  | .pargGroup | .flagGroup => [S "PargGroupNode[" ++ (Nat.repr idx).toList ++ S "]"]
  | .statement =>
    match l.kids with
    | k :: _ => [lower k.word]
    | [] => [[]]
  | .kwargGroup =>
    match l.kids with
    | k :: _ => [upper k.word]
    | [] => [[]]
  | .lparen => [S "LPAREN"]
  | .rparen => [S "RPAREN"]
  | .onoff =>
    match l with
    | .mk _ _ (.tok t :: _) _ _ _ => [if t.type = .formatOn then S "FORMAT_ON" else S "FORMAT_OFF"]
    | _ => [[]]
  | .funname | .argument | .keyword | .flag | .atword => [S "ScalarNode"]
  | .atwordStatement => [S "AtWordStatementNode"]
  | .parenGroup => [S "ParenGroupNode"]
  | .flowControl => [S "FlowControlNode"]
  | .comment => [S "CommentNode"]
  | .whitespace => [S "WhitespaceNode"]

mutual
/-- All parts of a laid out file, each with its path. -/
def partsFrom (path : List Str) (idx : Nat) : Laid → List (List Str × Laid)
  | .mk ty a pk i ls kids =>
    let path' := path ++ partName idx (.mk ty a pk i ls kids)
    (path', .mk ty a pk i ls kids) :: partsFromL path' 0 kids
/-- The parts of several, numbering the lists of arguments. -/
def partsFromL (path : List Str) : Nat → List Laid → List (List Str × Laid)
  | _, [] => []
  | n, l :: ls =>
    partsFrom path n l ++ partsFromL path (if l.ty == .pargGroup || l.ty == .flagGroup then n + 1 else n) ls
end

end Verif.Layout
