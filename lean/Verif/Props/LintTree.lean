import Verif.LintReport
import Verif.Props.LintMain

/-!
# What cmake-lint reports about the commands of a file (C64, C65, C66)

The commands of a file are `stmtsOf tree`, where `tree` is its parse tree; `commands_are_the_program`
says that they are the program text.
-/

namespace Verif.Props.LintTree
open Verif Py Verif.Lex Verif.Lint
open Verif.Parse hiding Rec Ctx

/-! ## The setting -/

/-- A text without a byte-order mark, without format switches glued to words and without pragmas. -/
structure Plain (text : Str) : Prop where
  bom : text.head? ≠ some BOM
  apart : SwitchesApart (Props.Lex.toks text)
  pragma : NoPragma (Props.Lex.toks text)

/-- The commands of a text; none if it cannot be parsed. -/
def commands (ctx : Parse.Ctx) (text : Str) : List Node :=
  match parse ctx (Props.Lex.toks text) with
  | .error _ => []
  | .ok tree => stmtsOf tree

theorem plain_tree {ctx : Parse.Ctx} {text : Str} (h : Plain text) {tree : Node}
    (hp : parse ctx (Props.Lex.toks text) = .ok tree) : NoPragma tree.toks ∧ program tree.toks = program (Props.Lex.toks text) := by
  obtain ⟨h1, h2⟩ := Props.Parse.tokens_conserved_partial ctx _ tree hp
    (Props.Parse.no_bom text _ (Props.Parse.tokenize_toks text) h.bom) h.apart
  exact ⟨fun t ht => h.pragma t (h1.mem_iff.1 ht), h2⟩

theorem lint_parses {o : Opts} {cfg : Cfg} {parseLint : List Token → List Rec} {ctx : Parse.Ctx} {text : Str}
    {rs : List Rec} (h : lintText o cfg parseLint ctx text = some rs) :
    ∃ tree, parse ctx (Props.Lex.toks text) = .ok tree := by
  obtain ⟨calls, c, h1, _⟩ := lintText_ok h
  obtain ⟨ts, c1, tree, c2, hts, _, htree, _⟩ := checkFile_ok h1
  rw [Props.Parse.tokenize_toks] at hts
  injection hts with hts
  exact ⟨tree, hts ▸ htree⟩

/-- Every command is a name, an opening parenthesis, words and a closing parenthesis, and the commands
together are the text without comments, blanks and newlines. -/
theorem commands_are_the_program {o : Opts} {cfg : Cfg} {parseLint : List Token → List Rec} {ctx : Parse.Ctx} {text : Str}
    {rs : List Rec} (h : lintText o cfg parseLint ctx text = some rs) (hp : Plain text)
    (ha : ∀ t ∈ Props.Lex.toks text, t.type ≠ .atword) :
    program (Props.Lex.toks text) = (commands ctx text).flatMap (fun s => program s.toks) ∧
      ∀ s ∈ commands ctx text, ∃ name l ws r, program s.toks = name :: l :: (ws ++ [r]) ∧
        name.type = .word ∧ l.type = .lparen ∧ r.type = .rparen ∧ nameOf s = lower name.spelling := by
  obtain ⟨tree, e⟩ := lint_parses h
  have hc : commands ctx text = stmtsOf tree := by simp [commands, e]
  rw [hc]
  constructor
  · have k := Props.Parse.tokens_conserved_partial ctx _ tree e
      (Props.Parse.no_bom text _ (Props.Parse.tokenize_toks text) hp.bom) hp.apart
    rw [← k.2]
    obtain ⟨hn, hb⟩ := parse_neat (ctx := ctx) e
    exact cover_node tree hn (.inr hb) fun t ht => ha t (k.1.mem_iff.1 ht)
  · intro s hs
    obtain ⟨name, l, ws, r, k, k1, k2, k3⟩ := Props.Groups.statement_words e hs
    exact ⟨name, l, ws, r, k, k1, k2, k3, by simp [nameOf, k]⟩

theorem report_tree {o : Opts} {cfg : Cfg} {parseLint : List Token → List Rec} {ctx : Parse.Ctx} {text : Str}
    {rs : List Rec} (h : lintText o cfg parseLint ctx text = some rs) (hpl : ParserLint parseLint)
    {code : Str} (hcode : TreeCode code) {spec : List Node → List Rec}
    (hspec : ∀ tree calls, parse ctx (Props.Lex.toks text) = .ok tree → checkParseTree o tree = .ok calls →
      (only code calls).Perm ((spec (stmtsOf tree)).map .record)) :
    (Plain text → code ∉ cfg.disabled → (rs.filter fun r => r.id == code).Perm (spec (commands ctx text))) ∧
      (∀ r, r.id = code → rs.count r ≤ (spec (commands ctx text)).count r) := by
  have inj : ∀ a b : List Rec, (a.map Call.record).Perm (b.map .record) → a.Perm b := by
    intro a b hab
    have := hab.filterMap fun c => match c with | .record r => some r | _ => none
    simpa [List.filterMap_map, Function.comp_def] using this
  constructor
  · intro hp hd
    obtain ⟨ts, tree, calls, h1, h2, h3, h4⟩ := report_code h hpl
    rw [Props.Parse.tokenize_toks] at h1
    injection h1 with h1
    subst h1
    rw [show commands ctx text = stmtsOf tree by simp [commands, h2]]
    exact inj _ _ ((h4 code hcode (plain_tree hp h2).1 hd).trans (hspec _ _ h2 h3))
  · intro r hr
    obtain ⟨ts, tree, calls, h1, h2, h3, h4⟩ := report_le h hpl
    rw [Props.Parse.tokenize_toks] at h1
    injection h1 with h1
    subst h1
    rw [show commands ctx text = stmtsOf tree by simp [commands, h2]]
    have k := h4 r (hr ▸ hcode)
    rw [hr, (hspec _ _ h2 h3).count_eq] at k
    refine Nat.le_trans k (Nat.le_of_eq ?_)
    have : ∀ l : List Rec, (l.map Call.record).count (.record r) = l.count r := by
      intro l
      induction l with
      | nil => rfl
      | cons x l ih =>
        simp only [List.map_cons, List.count_cons, ih]
        by_cases e : x = r <;> simp [e]
    exact this _

theorem report_of {o : Opts} {cfg : Cfg} {parseLint : List Token → List Rec} {ctx : Parse.Ctx} {text : Str}
    {rs : List Rec} (h : lintText o cfg parseLint ctx text = some rs) (hpl : ParserLint parseLint)
    {code : Str} (hcode : TreeCode code) {spec : List Node → List Rec}
    (hspec : ∀ ts tree calls, parse ctx ts = .ok tree → checkParseTree o tree = .ok calls →
      (only code calls).Perm ((spec (stmtsOf tree)).map .record)) :
    (Plain text → code ∉ cfg.disabled → (rs.filter fun r => r.id == code).Perm (spec (commands ctx text))) ∧
      (∀ r, r.id = code → rs.count r ≤ (spec (commands ctx text)).count r) :=
  report_tree h hpl hcode fun tree calls => hspec _ tree calls

/-! ## C64: `break` and `continue` outside of loops -/

/-- The expected records. -/
def strayBreaks (cmds : List Node) : List Rec :=
  ((places [] cmds).filter (·.strayBreak)).map fun p => ⟨S "E0103", startOf p.cmd, [nameOf p.cmd]⟩

/-- **C64.** cmake-lint reports E0103 exactly once for every `break` and `continue` outside of all
`foreach` and `while` blocks, at its place and with its name, and for nothing else. -/
theorem stray_breaks {o : Opts} {cfg : Cfg} {parseLint : List Token → List Rec} {ctx : Parse.Ctx} {text : Str}
    {rs : List Rec} (h : lintText o cfg parseLint ctx text = some rs) (hpl : ParserLint parseLint)
    (hp : Plain text) (hd : S "E0103" ∉ cfg.disabled) :
    (rs.filter fun r => r.id == S "E0103").Perm (strayBreaks (commands ctx text)) := by
  refine (report_of h hpl ⟨by decide, by decide, by decide, by decide⟩ ?_).1 hp hd
  intro ts tree calls h1 h2
  rw [break_calls h1 h2, strayBreaks, List.map_map]
  exact .refl _

/-- With pragmas and any other text, only these are reported. -/
theorem stray_breaks_sound {o : Opts} {cfg : Cfg} {parseLint : List Token → List Rec} {ctx : Parse.Ctx} {text : Str}
    {rs : List Rec} (h : lintText o cfg parseLint ctx text = some rs) (hpl : ParserLint parseLint)
    (r : Rec) (hr : r.id = S "E0103") : rs.count r ≤ (strayBreaks (commands ctx text)).count r := by
  refine (report_of h hpl ⟨by decide, by decide, by decide, by decide⟩ ?_).2 r hr
  intro ts tree calls h1 h2
  rw [break_calls h1 h2, strayBreaks, List.map_map]
  exact .refl _

/-! ## C65: commands after the end of the control flow -/

/-- The expected records. -/
def deadEnds (cmds : List Node) : List Rec :=
  ((places [] cmds).filter (·.deadEnd)).map fun p => ⟨S "W0101", startOf p.cmd, []⟩

theorem deadEnds_calls (cmds : List Node) : (places [] cmds).flatMap deadRec = (deadEnds cmds).map .record := by
  simp only [deadEnds, List.map_map]
  induction places [] cmds with
  | nil => rfl
  | cons p ps ih =>
    rw [List.flatMap_cons, ih, deadRec]
    cases e : p.deadEnd <;> simp [e]

/-- **C65.** cmake-lint reports W0101 exactly once for every `return`, `break` and `continue` that is
followed by another command in the same part of a block. -/
theorem dead_ends {o : Opts} {cfg : Cfg} {parseLint : List Token → List Rec} {ctx : Parse.Ctx} {text : Str}
    {rs : List Rec} (h : lintText o cfg parseLint ctx text = some rs) (hpl : ParserLint parseLint)
    (hp : Plain text) (hd : S "W0101" ∉ cfg.disabled) :
    (rs.filter fun r => r.id == S "W0101").Perm (deadEnds (commands ctx text)) := by
  refine (report_of h hpl ⟨by decide, by decide, by decide, by decide⟩ ?_).1 hp hd
  intro ts tree calls h1 h2
  rw [← deadEnds_calls]
  exact dead_calls h1 h2

/-- With pragmas and any other text, only these are reported. -/
theorem dead_ends_sound {o : Opts} {cfg : Cfg} {parseLint : List Token → List Rec} {ctx : Parse.Ctx} {text : Str}
    {rs : List Rec} (h : lintText o cfg parseLint ctx text = some rs) (hpl : ParserLint parseLint)
    (r : Rec) (hr : r.id = S "W0101") : rs.count r ≤ (deadEnds (commands ctx text)).count r := by
  refine (report_of h hpl ⟨by decide, by decide, by decide, by decide⟩ ?_).2 r hr
  intro ts tree calls h1 h2
  rw [← deadEnds_calls]
  exact dead_calls h1 h2

/-! ## C66: limits on the size of functions and macros -/

/-- The limits: code, the largest accepted number, the commands that count. -/
def limits (o : Opts) : List (Str × Int × (Str → Bool)) :=
  [(S "R0911", o.maxReturns, fun n => [c! "return"].contains n),
   (S "R0912", o.maxBranches, fun n => [c! "if", c! "elseif", c! "else"].contains n),
   (S "R0915", o.maxStatements, fun _ => true)]

/-- The expected records: on the line after the opening command, with the count and the limit. -/
def tooMany (code : Str) (limit : Int) (counts : Str → Bool) (cmds : List Node) : List Rec :=
  ((places [] cmds).filter fun p => p.defines && decide ((p.countInside counts : Int) > limit)).map fun p =>
    ⟨code, [lineAfter p.cmd], [natStr (p.countInside counts), intStr limit]⟩

theorem tooMany_calls (code : Str) (limit : Int) (counts : Str → Bool) (cmds : List Node) :
    (places [] cmds).flatMap (limitRec code limit counts) = (tooMany code limit counts cmds).map .record := by
  simp only [tooMany, List.map_map]
  induction places [] cmds with
  | nil => rfl
  | cons p ps ih =>
    have e : limitRec code limit counts p = if p.defines = true then
        (if (p.countInside counts : Int) > limit then
          [.record ⟨code, [lineAfter p.cmd], [natStr (p.countInside counts), intStr limit]⟩] else []) else [] := rfl
    rw [List.flatMap_cons, ih, e, List.filter_cons]
    by_cases h1 : p.defines = true
    · rw [if_pos h1]
      by_cases h2 : (p.countInside counts : Int) > limit
      · rw [if_pos h2, if_pos (by simp [h1, h2])]
        rfl
      · rw [if_neg h2, if_neg (by simp [h2])]
        rfl
    · rw [if_neg h1, if_neg (by simp [h1])]
      rfl

/-- **C66.** For the number of `return`s, of branches and of commands, cmake-lint reports exactly the
functions and macros that have more than the limit inside them, nested blocks included. -/
theorem too_many {o : Opts} {cfg : Cfg} {parseLint : List Token → List Rec} {ctx : Parse.Ctx} {text : Str}
    {rs : List Rec} (h : lintText o cfg parseLint ctx text = some rs) (hpl : ParserLint parseLint)
    (hp : Plain text) {code : Str} {limit : Int} {counts : Str → Bool} (hl : (code, limit, counts) ∈ limits o)
    (hd : code ∉ cfg.disabled) :
    (rs.filter fun r => r.id == code).Perm (tooMany code limit counts (commands ctx text)) := by
  refine (report_of h hpl ?_ ?_).1 hp hd
  · simp only [limits, List.mem_cons, List.not_mem_nil, or_false, Prod.mk.injEq] at hl
    rcases hl with ⟨rfl, _⟩ | ⟨rfl, _⟩ | ⟨rfl, _⟩ <;> exact ⟨by decide, by decide, by decide, by decide⟩
  · intro ts tree calls h1 h2
    rw [← tooMany_calls]
    exact count_calls (l := (code, limit, counts)) hl h1 h2

/-- With pragmas and any other text, only these are reported. -/
theorem too_many_sound {o : Opts} {cfg : Cfg} {parseLint : List Token → List Rec} {ctx : Parse.Ctx} {text : Str}
    {rs : List Rec} (h : lintText o cfg parseLint ctx text = some rs) (hpl : ParserLint parseLint)
    {code : Str} {limit : Int} {counts : Str → Bool} (hl : (code, limit, counts) ∈ limits o)
    (r : Rec) (hr : r.id = code) : rs.count r ≤ (tooMany code limit counts (commands ctx text)).count r := by
  refine (report_of h hpl ?_ ?_).2 r hr
  · simp only [limits, List.mem_cons, List.not_mem_nil, or_false, Prod.mk.injEq] at hl
    rcases hl with ⟨rfl, _⟩ | ⟨rfl, _⟩ | ⟨rfl, _⟩ <;> exact ⟨by decide, by decide, by decide, by decide⟩
  · intro ts tree calls h1 h2
    rw [← tooMany_calls]
    exact count_calls (l := (code, limit, counts)) hl h1 h2

/-! ## The driver -/

/-- The driver with these checks. -/
def linter (opts : Cfg → Opts) (parseLint : List Token → List Rec) (ctx : Cfg → Parse.Ctx) (env : Env) : Env :=
  { env with
    check := fun cfg text =>
      match checkFile (opts cfg) parseLint (ctx cfg) text with
      | .error _ => .error .other
      | .ok calls => .ok calls }

/-- What the driver reports for a file (see C42, C44) is what the theorems of this file speak about. -/
theorem reported_lints {opts : Cfg → Opts} {parseLint : List Token → List Rec} {ctx : Cfg → Parse.Ctx} {env : Env}
    {f : Str} {rs : List Rec} (h : Reported (linter opts parseLint ctx env) f rs) :
    ∃ cfg text, env.config f = .ok cfg ∧ env.read f cfg = .text text ∧
      lintText (opts cfg) cfg parseLint (ctx cfg) text = some rs := by
  obtain ⟨cfg, text, calls, c, h1, h2, h3, h4, h5⟩ := h
  refine ⟨cfg, text, h1, h2, ?_⟩
  unfold processFile at h3
  split at h3
  · simp at h3
  · split at h3
    · simp at h3
    · rename_i cs hcs
      simp only [Except.ok.injEq] at h3
      subst h3
      simp only [linter] at hcs
      split at hcs
      · simp at hcs
      · rename_i cs' hcs'
        simp only [Except.ok.injEq] at hcs
        subst hcs
        simp [lintText, hcs', h4, h5]

/-! ## Pragmas do not outlive their place -/

/-- After all checks of the tree no suppression is in force, so the pragmas of one body or comment are
independent of those of another; `checkBodyComment` and `checkComment` start from no suppressions. -/
theorem suppressions_restored {o : Opts} {d : List Str} {tree : Node} {calls : List Call} {p : Option Token} {c : Lint.Ctx}
    (h : checkTree o [] none tree = .ok (calls, p)) (hr : Ctx.run d {} calls = some c) : c.supp = [] :=
  tree_supp o d tree [] none p calls {} c h rfl hr

/-! ## A file that meets the hypotheses -/

/-- A function with a loop, branches and dead ends, and a stray `continue`. -/
def demo : Str :=
  S "function(f a)\n  foreach(i 1 2)\n    break()\n    set(x y)\n  endforeach()\n  break()\n  if(a)\n    return()\n  elseif(b)\n    return()\n    set(x y)\n  endif()\nendfunction()\ncontinue()\n"

def demoMarkup : Markup.Cfg := { fence := fun _ => none, ruler := fun _ => false, ruler0 := fun _ => false }

def demoOpts : Opts :=
  { maxReturns := 1, maxBranches := 1, maxStatements := 3, markup := demoMarkup, reMatch := fun _ _ => true }

/-- No comment of the tokens is a pragma. -/
def noPragmaB (ts : List Token) : Bool :=
  ts.all fun t => t.type != .comment || !(c! "# cmake-lint: ").isPrefixOf t.spelling

theorem noPragma_of {ts : List Token} (h : noPragmaB ts = true) : NoPragma ts := by
  intro t ht hc rest e
  have := List.all_eq_true.1 h t ht
  simp only [hc, bne_self_eq_false, Bool.false_or, Bool.not_eq_true', e] at this
  rw [List.isPrefixOf_iff_prefix.2 (List.prefix_append _ _)] at this
  exact absurd this (by decide)

theorem demo_plain : Plain demo where
  bom := by decide +kernel
  apart := Props.Parse.switchesApart_of (by decide +kernel)
  pragma := noPragma_of (by decide +kernel)

theorem demo_lint : lintText demoOpts {} (fun _ => []) Props.Parse.exampleCtx demo = some
    [⟨S "C0111", [1, 0, 0], []⟩, ⟨S "R0911", [2], [S "2", S "1"]⟩, ⟨S "R0912", [2], [S "2", S "1"]⟩,
     ⟨S "R0915", [2], [S "11", S "3"]⟩, ⟨S "W0101", [3, 4, 35], []⟩, ⟨S "E0103", [6, 2, 73], [S "break"]⟩,
     ⟨S "W0101", [6, 2, 73], []⟩, ⟨S "W0101", [10, 4, 118], []⟩, ⟨S "E0103", [14, 0, 164], [S "continue"]⟩] := by
  decide +kernel

theorem demo_parser : ParserLint (fun _ => []) := fun _ r hr => by simp at hr

/-- The hypotheses are met, and the records are not empty. -/
example : ([⟨S "E0103", [6, 2, 73], [S "break"]⟩, ⟨S "E0103", [14, 0, 164], [S "continue"]⟩] : List Rec).Perm
    (strayBreaks (commands Props.Parse.exampleCtx demo)) :=
  stray_breaks demo_lint demo_parser demo_plain (by simp)

example : ([⟨S "W0101", [3, 4, 35], []⟩, ⟨S "W0101", [6, 2, 73], []⟩, ⟨S "W0101", [10, 4, 118], []⟩] : List Rec).Perm
    (deadEnds (commands Props.Parse.exampleCtx demo)) :=
  dead_ends demo_lint demo_parser demo_plain (by simp)

example : ([⟨S "R0912", [2], [S "2", S "1"]⟩] : List Rec).Perm
    (tooMany (S "R0912") 1 (fun n => [c! "if", c! "elseif", c! "else"].contains n) (commands Props.Parse.exampleCtx demo)) :=
  too_many demo_lint demo_parser demo_plain (.tail _ (.head _)) (by simp)

example : (commands Props.Parse.exampleCtx demo).length = 14 := by decide +kernel

/-! ## Files that cmake-lint does not survive

Each of these files is parsed, and then a check raises an exception. -/

/-- The outcome for a file that is parsed: the exception of a check, if any. -/
def crash (text : Str) : Option Crash :=
  match checkFile demoOpts (fun _ => []) Props.Parse.exampleCtx text with
  | .error (.inr e) => some e
  | _ => none

/-- An empty file: the last token of its body is looked up. -/
theorem crash_on_empty : crash [] = some .index ∧ parse Props.Parse.exampleCtx (Props.Lex.toks []) = .ok (mk .body []) := by
  exact ⟨by decide +kernel, rfl⟩

/-- The keyword-parser check looks at the second word after `if`, which `if(arg)` does not have. -/
theorem crash_on_short_condition : crash
    (S "function(f)\nforeach(arg ${ARGN})\nif(arg)\nx()\nendif()\nendforeach()\nendfunction()\n") = some .index := by
  decide +kernel

/-- `list()` without arguments. -/
theorem crash_on_list : crash (S "list()\n") = some .index := by decide +kernel

/-- A reference without its closing brace after a `$` before some other name: the message wants the text of
an earlier match. -/
theorem crash_on_half_reference : crash (S "set(x \"$foo ${CMAKE_BINARY_DIR\")\n") = some .unbound := by decide +kernel

/-- A `set` in an `if` that is not closed. -/
theorem crash_on_unclosed : (crash (S "if(a)\nset(b c)\n")).isSome = true := by decide +kernel

/-- A `break` in a function that is defined inside a loop is accepted, although the function can be
called from anywhere. -/
theorem break_in_function : (lintText demoOpts {} (fun _ => []) Props.Parse.exampleCtx
    (S "foreach(i a)\nfunction(f)\nbreak()\nendfunction()\nendforeach()\n")).map (·.map (·.id)) = some [S "C0111"] := by
  decide +kernel

end Verif.Props.LintTree
