import Verif.LintFine
import Verif.LintFull
import Verif.LintHalf
import Verif.LintHand
import Verif.LintOk
import Verif.LintSpaced
import Verif.Props.LintForms
import Verif.Props.LintVarNames

/-!
# cmake-lint gets to the end (C81)

C78 lists files that cmake-lint fails on.  Here: a file that parses and has none of those is linted
to the end, with a report.
-/

namespace Verif.Props.LintDone
open Verif Py Verif.Lex Verif.Lint Verif.Props.LintTree Verif.Props.LintParams Verif.Props.LintNames
open Verif.Parse hiding Rec Ctx

/-- The arguments that are looked at for half references. -/
def isLiteral (t : Token) : Bool := t.type == .quoted || t.type == .unquoted || t.type == .bracketArg

/-- A file without the things that cmake-lint fails on.  `cmds` are its commands, `disabled` the codes
that are switched off. -/
structure Sound (user : Spec) (disabled : List Str) (text : Str) (cmds : List Node) : Prop where
  /-- there is something in it -/
  some_text : text ≠ []
  bom : text.head? ≠ some BOM
  apart : SwitchesApart (Props.Lex.toks text)
  /-- every block that is opened is closed -/
  closed : openAfter cmds = []
  /-- every `${` has its `}` -/
  whole : ∀ t ∈ Props.Lex.toks text, isLiteral t = true → wholeRefs 0 t.spelling = true
  /-- `set` and `list` are what they are in CMake, and there are no parentheses in them -/
  assign : ∀ n ∈ [c! "set", c! "list"], n ∉ userNames user
  simple : SimpleAssignments cmds
  /-- `set` has an argument, not just a comment -/
  sets : ∀ s ∈ cmds, nameOf s = c! "set" → argsOf s ≠ []
  /-- `list(SORT …)` and `list(TRANSFORM …)` have no comments -/
  sorts : ∀ s ∈ cmds, nameOf s = c! "list" →
    (∀ t, (argsOf s).head? = some t → wordIs (c! "SORT") t = false ∧ wordIs (c! "TRANSFORM") t = false) ∨ uncommented s = true
  /-- `list` has two arguments or more -/
  lists : ∀ s ∈ cmds, nameOf s = c! "list" → 2 ≤ (argsOf s).length
  /-- no condition in a loop over `${ARGN}` is just the variable of the loop -/
  argn : ∀ q ∈ loopsOf cmds, ((argsOf q.1).any fun t => t.type == .deref && t.spelling == c! "${ARGN}") = true →
    ∀ v, (argsOf q.1).head? = some v → ∀ w ∈ q.2.flatMap conditions, w.map (·.spelling) ≠ [v.spelling]
  /-- the two commands whose findings cannot be printed -/
  builds : (∃ s ∈ cmds, nameOf s = c! "build_command") → c! "build_command" ∈ userNames user ∨ c! "W0106" ∈ disabled
  targets : ∀ s ∈ cmds, nameOf s = c! "add_custom_target" →
    c! "add_custom_target" ∈ userNames user ∨ c! "E1122" ∈ disabled ∨ noStray s = true
  /-- the numbers of arguments in the user's own commands can be read as such -/
  counted : user.counted = true

theorem toks_ne {text : Str} (h : text ≠ []) : Props.Lex.toks text ≠ [] := by
  intro e
  obtain ⟨ts, h1, h2⟩ := Props.Lex.tokenize_total_lossless text
  rw [Props.Parse.tokenize_toks text, e] at h1
  simp only [Except.ok.injEq] at h1
  subst h1
  exact h (by simpa using h2.symm)

/-- **C81.** A sound file that parses is linted to the end. -/
theorem lint_finishes_partial {o : Opts} {cfg : Cfg} {user : Spec} {explicit : Str → Bool}
    {vt : List ((Str → Bool) × List Str)} {text : Str} {tree : Node}
    (hp : parse (commandCtx user explicit vt) (Props.Lex.toks text) = .ok tree)
    (h : Sound user cfg.disabled text (commands (commandCtx user explicit vt) text)) :
    ∃ rs, lintText o cfg (parserLint user (commandCtx user explicit vt)) (commandCtx user explicit vt) text = some rs := by
  have hcmds : commands (commandCtx user explicit vt) text = stmtsOf tree := by simp [commands, hp]
  rw [hcmds] at h
  have nobom := Props.Parse.no_bom text _ (Props.Parse.tokenize_toks text) h.bom
  have cons := Props.Parse.tokens_conserved_partial _ _ tree hp nobom h.apart
  have shape : ∀ s ∈ stmtsOf tree, ∀ u ∈ s.toks, Props.Lex.Shape u.type u.spelling := by
    intro s hs u hu
    obtain ⟨k1, _, _, _⟩ := Props.Groups.stmtsOf_sub tree hs
    exact Props.Lex.token_shape text _ (Props.Parse.tokenize_toks text) u (cons.1.mem_iff.1 (sub_toks k1 u hu))
  have names : ∀ s ∈ stmtsOf tree, funName s = nameOf s := by
    intro s hs
    obtain ⟨x, hx⟩ := stmt_of hp hs
    rw [stmt_funName hx, stmt_nameOf hx]
  have asg : ∀ s ∈ stmtsOf tree, _ := fun s hs =>
    assigners_ok hp (fun n hn => by simpa using h.assign n hn) hs
      fun hn => simple_tame hp hs (shape s hs) (h.simple s hs hn)
  have fil := parse_filled (command_flat user explicit vt) hp (text_spaced h.bom) nobom (toks_ne h.some_text)
  have smooth : Smooth (commandCtx user explicit vt) (Props.Lex.toks text) tree :=
    { parsed := hp
      closed := parse_closed hp h.closed
      filled := fil.1
      nonempty := fil.2
      counted := parse_counted (command_counts h.counted explicit vt) hp
      sets := fun s hs hf => ⟨((asg s hs).1 hf).1, ((asg s hs).1 hf).2 (h.sets s hs (names s hs ▸ hf))⟩
      lists := fun s hs hf => (asg s hs).2 hf (h.lists s hs (names s hs ▸ hf)) ((h.sorts s hs (names s hs ▸ hf)).imp_right (by
        intro hc u hu
        have := List.all_eq_true.1 hc u (stmt_between hp hs u hu)
        simp only [List.contains_eq_mem, List.mem_cons, List.not_mem_nil, or_false, Bool.not_eq_true', decide_eq_false_iff_not,
          not_or] at this
        simp [isAnyComment, this.1, this.2]))
      loops := fun a kids b bd hsub hbl hk => loops_count hp h.argn hsub hbl hk }
  obtain ⟨c2, e2⟩ := checkParseTree_ok smooth o
  obtain ⟨c1, e1⟩ := checkTokens_ok (Props.Lex.toks text) none fun t ht hl => h.whole t ht (by
    rcases hl with e | e | e <;> simp [isLiteral, e])
  have pl : parserLint user (commandCtx user explicit vt) (Props.Lex.toks text) = parserRecs user (stmtsOf tree) := by
    simp [parserLint, hp]
  have file : checkFile o (parserLint user (commandCtx user explicit vt)) (commandCtx user explicit vt) text =
      .ok (c1 ++ (parserRecs user (stmtsOf tree)).map .record ++ c2) := by
    unfold checkFile
    rw [Props.Parse.tokenize_toks text]
    simp only [e1, hp, e2, pl]
  have runs : Runs cfg.disabled ((checkBasics cfg text).map .record ++ (c1 ++ (parserRecs user (stmtsOf tree)).map .record ++ c2)) := by
    intro r hr
    simp only [List.mem_append, List.mem_map, Call.record.injEq, exists_eq_right] at hr
    rcases hr with hr | (hr | hr) | hr
    · exact Or.inr (basics_fine cfg text r hr)
    · exact (tokens_fine _ _ e1).runs r hr
    · refine parserRecs_fine _ (fun s hs => ⟨fun hn => ?_, fun hn => ?_⟩) r hr
      · exact h.builds ⟨s, hs, names s hs ▸ hn⟩
      · exact h.targets s hs (names s hs ▸ hn)
    · exact (parseTree_fine e2).runs r hr
  obtain ⟨c, ec⟩ := run_ok _ {} runs
  exact ⟨c.getLint, by unfold lintText; rw [file]; simp only [ec, Option.map_some]⟩

/-! ## Examples -/

/-- A file with a definition, a loop, branches, lists and nested references. -/
def demo : Str := S "# A file\nfunction(foo a b)\n  if(a)\n    set(x_${a} # c\n      \"${${b}_DIR}/y\")\n  else()\n    list(APPEND Xs # d\n ${a} $x)\n  endif()\n  foreach(i ${Xs})\n    message(STATUS ${i})\n  endforeach()\n  foreach(j a ${ARGN})\n    if(j STREQUAL b OR NOT j)\n    endif()\n  endforeach()\nendfunction()\n\nfoo(1 2)\nadd_custom_target(t ALL c d DEPENDS e)\n"

theorem demo_commands : openAfter (commands LintForms.demoCtx demo) = [] ∧
    (commands LintForms.demoCtx demo).all (fun s => simpleArgs s &&
      (nameOf s != c! "list" || decide (2 ≤ (argsOf s).length)) &&
      (nameOf s != c! "set" || decide (argsOf s ≠ [])) &&
      (nameOf s != c! "list" || (argsOf s).head?.all fun t => !wordIs (c! "SORT") t && !wordIs (c! "TRANSFORM") t) &&
      nameOf s != c! "build_command" && (nameOf s != c! "add_custom_target" || noStray s)) = true ∧
    ((loopsOf (commands LintForms.demoCtx demo)).all fun q => (argsOf q.1).head?.all fun v =>
      (q.2.flatMap conditions).all fun w => w.map (·.spelling) != [v.spelling]) = true ∧
    (commands LintForms.demoCtx demo).length = 16 := by
  unfold LintForms.demoCtx commandCtx
  rw [Props.Gen.root_fast]
  decide +kernel

theorem demo_apart : SwitchesApart (Props.Lex.toks demo) := Props.Parse.switchesApart_of (by decide +kernel)

theorem demo_whole : ((Props.Lex.toks demo).all fun t => !isLiteral t || wholeRefs 0 t.spelling) = true := by decide +kernel

theorem demo_sound (d : List Str) : Sound .root d demo (commands LintForms.demoCtx demo) := by
  obtain ⟨h1, h2, h3, _⟩ := demo_commands
  generalize commands LintForms.demoCtx demo = cmds at h1 h2 h3 ⊢
  have each := List.all_eq_true.1 h2
  simp only [Bool.and_eq_true, Bool.or_eq_true, bne_iff_ne, decide_eq_true_eq] at each
  exact
    { some_text := by decide +kernel
      bom := by decide +kernel
      apart := demo_apart
      closed := h1
      whole := fun t ht hl => by
        have := List.all_eq_true.1 demo_whole t ht
        rw [hl] at this
        exact this
      assign := by decide
      simple := fun s hs _ => (each s hs).1.1.1.1.1
      sets := fun s hs hn => (each s hs).1.1.1.2.resolve_left fun h => h hn
      sorts := fun s hs hn => by
        left
        intro t ht
        have := (each s hs).1.1.2.resolve_left fun h => h hn
        rw [ht] at this
        simpa using this
      lists := fun s hs hn => (each s hs).1.1.1.1.2.resolve_left fun h => h hn
      argn := fun q hq _ v hv w hw => by
        have := List.all_eq_true.1 h3 q hq
        rw [hv] at this
        simp only [Option.all_some, List.all_eq_true, bne_iff_ne] at this
        exact this w hw
      builds := fun ⟨s, hs, hn⟩ => absurd hn (each s hs).1.2
      targets := fun s hs hn => Or.inr (Or.inr ((each s hs).2.resolve_left fun h => h hn))
      counted := by decide }

theorem demo_parses : (parse LintForms.demoCtx (Props.Lex.toks demo)).isOk = true := by
  unfold LintForms.demoCtx commandCtx
  rw [Props.Gen.root_fast]
  decide +kernel

/-- The hypotheses are met: whatever the options are, there is a report. -/
example (o : Opts) (cfg : Cfg) :
    ∃ rs, lintText o cfg (parserLint .root LintForms.demoCtx) LintForms.demoCtx demo = some rs := by
  have h := demo_parses
  cases e : parse LintForms.demoCtx (Props.Lex.toks demo) with
  | error _ => rw [e] at h; simp [Except.isOk, Except.toBool] at h
  | ok tree => exact lint_finishes_partial e (demo_sound cfg.disabled)

/-- Files where one condition fails, and cmake-lint too: an empty file, an open block, half a reference, a `list` with one argument,
a `set` with just a comment, a comment in a `list(SORT …)`, a condition that is just the variable of a loop over
`${ARGN}`, `build_command`, arguments of `add_custom_target` after a keyword. -/
def failing : List Str :=
  [[], c! "if(a)\nset(x y)\n", c! "foo(\"$x ${CMAKE_C_FLAGS\")\n", c! "list(APPEND)\n",
   c! "set(# c\n)\n", c! "list(SORT\n# c\nORDER ASCENDING)\n",
   c! "function(a)\nforeach(i ${ARGN})\nif(i)\nendif()\nendforeach()\nendfunction()\n", c! "build_command(x)\n",
   c! "add_custom_target(a DEPENDS b # c\n VERBATIM d)\n"]

theorem failing_fail : failing.all (fun text =>
    (parse LintForms.demoCtx (Props.Lex.toks text)).isOk &&
    (lintText LintTree.demoOpts {} (parserLint .root LintForms.demoCtx) LintForms.demoCtx text).isNone) = true := by
  unfold LintForms.demoCtx commandCtx
  rw [Props.Gen.root_fast]
  decide +kernel

end Verif.Props.LintDone
