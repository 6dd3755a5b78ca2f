import Verif.LintEmpty
import Verif.Props.LintTree
import Verif.Props.Gen

/-!
# What the parser reports to cmake-lint about the form of commands (C75, C76, C77, C78)

`parserLint user ctx` is what the parser itself records, `userNames user` are the commands that the
user's configuration declares, and `commands ctx text` are the commands of a file.
-/

namespace Verif.Props.LintForms
open Verif Py Verif.Lex Verif.Lint Verif.Props.LintTree
open Verif.Parse hiding Rec Ctx

/-- What the parser records meets the assumption of C64 to C67, which hold for the whole of cmake-lint
in this way. -/
theorem parser_lint (user : Spec) (ctx : Parse.Ctx) : ParserLint (parserLint user ctx) := parserLint_codes user ctx

/-! ## From the report to the records of the parser -/

theorem of_report {o : Opts} {cfg : Cfg} {user : Spec} {ctx : Parse.Ctx} {text : Str} {rs : List Rec}
    (h : lintText o cfg (parserLint user ctx) ctx text = some rs) {code : Str} (hc : code ∈ parserOnly) :
    ∃ tree, parse ctx (Props.Lex.toks text) = .ok tree ∧ commands ctx text = stmtsOf tree ∧
      (Plain text → code ∉ cfg.disabled → (rs.filter fun r => r.id == code).Perm
        ((stmtsOf tree).flatMap fun s => (stmtRecs user s []).filter fun r => r.id == code)) ∧
      ∀ r, r.id = code → rs.count r ≤
        ((stmtsOf tree).flatMap fun s => (stmtRecs user s []).filter fun r => r.id == code).count r := by
  obtain ⟨ts, tree, h1, h2, h3⟩ := report_parser h
  obtain ⟨ts', tree', h1', h2', h3'⟩ := report_parser_le h
  rw [Props.Parse.tokenize_toks] at h1 h1'
  injection h1 with h1
  injection h1' with h1'
  subst h1 h1'
  rw [h2] at h2'
  injection h2' with h2'
  subst h2'
  have e : parserLint user ctx (Props.Lex.toks text) = parserRecs user (stmtsOf tree) := by simp [parserLint, h2]
  rw [e] at h3 h3'
  refine ⟨tree, h2, by simp [commands, h2], ?_, ?_⟩
  · intro hp hd
    rw [← parserRecs_filter user (parserOnly_ne hc).2]
    exact h3 code hc (plain_tree hp h2).1 hd
  · intro r hr
    rw [← parserRecs_filter user (parserOnly_ne hc).2]
    refine Nat.le_trans (h3' r (hr ▸ hc)) (Nat.le_of_eq ?_)
    rw [List.count_filter (by simpa using hr)]

/-- A record of the report comes from a command. -/
theorem mem_report {o : Opts} {cfg : Cfg} {user : Spec} {ctx : Parse.Ctx} {text : Str} {rs : List Rec}
    (h : lintText o cfg (parserLint user ctx) ctx text = some rs) {r : Rec} (hr : r ∈ rs) (hc : r.id ∈ parserOnly) :
    ∃ tree s, parse ctx (Props.Lex.toks text) = .ok tree ∧ commands ctx text = stmtsOf tree ∧ s ∈ stmtsOf tree ∧
      r ∈ stmtRecs user s [] := by
  obtain ⟨tree, h1, h2, _, h3⟩ := of_report h hc
  have : 0 < rs.count r := List.count_pos_iff.2 hr
  have k := List.count_pos_iff.1 (Nat.lt_of_lt_of_le this (h3 r rfl))
  obtain ⟨s, hs, k⟩ := List.mem_flatMap.1 k
  exact ⟨tree, s, h1, h2, hs, (List.mem_filter.1 k).1⟩

/-- A record of a command is reported. -/
theorem report_mem {o : Opts} {cfg : Cfg} {user : Spec} {ctx : Parse.Ctx} {text : Str} {rs : List Rec}
    (h : lintText o cfg (parserLint user ctx) ctx text = some rs) (hp : Plain text) {r : Rec} (hc : r.id ∈ parserOnly)
    (hd : r.id ∉ cfg.disabled) {s : Node} (hs : s ∈ commands ctx text) (hr : r ∈ stmtRecs user s []) : r ∈ rs := by
  obtain ⟨tree, h1, h2, h3, _⟩ := of_report h hc
  rw [h2] at hs
  have := (h3 hp hd).mem_iff.2 (List.mem_flatMap.2 ⟨s, hs, List.mem_filter.2 ⟨hr, by simp⟩⟩)
  exact (List.mem_filter.1 this).1

theorem flatMap_mark (code : Str) (f : Node → Option Token) (l : List Node) :
    (l.flatMap fun s => mark code (f s)) = (l.filterMap f).map fun t => ⟨code, tokStart t, []⟩ := by
  induction l with
  | nil => rfl
  | cons s l ih =>
    rw [List.flatMap_cons, ih, List.filterMap_cons]
    cases f s <;> rfl

/-! ## C75: commands that start with one of a few words -/

/-- The expected records for words that are not known. -/
def unknownWords (user : List Str) (cmds : List Node) : List Rec :=
  (cmds.filterMap (unknown user)).map fun t => ⟨c! "E1126", tokStart t, []⟩

/-- The expected records for variable references. -/
def computedWords (user : List Str) (cmds : List Node) : List Rec :=
  (cmds.filterMap (computed user)).map fun t => ⟨c! "C0114", tokStart t, []⟩

theorem flatMap_eq {α β : Type} {f g : α → List β} : ∀ {l : List α}, (∀ a ∈ l, f a = g a) → l.flatMap f = l.flatMap g
  | [], _ => rfl
  | a :: l, h => by
    rw [List.flatMap_cons, List.flatMap_cons, h a (by simp), flatMap_eq fun b hb => h b (List.mem_cons_of_mem _ hb)]

theorem unknown_eq {ctx : Parse.Ctx} {ts : List Token} {tree : Node} {user : Spec} (h : parse ctx ts = .ok tree) :
    ((stmtsOf tree).flatMap fun s => (stmtRecs user s []).filter fun r => r.id == c! "E1126") =
      unknownWords (userNames user) (stmtsOf tree) := by
  rw [unknownWords, ← flatMap_mark]
  exact flatMap_eq fun s hs => (unknown_recs h hs).1

theorem computed_eq {ctx : Parse.Ctx} {ts : List Token} {tree : Node} {user : Spec} (h : parse ctx ts = .ok tree) :
    ((stmtsOf tree).flatMap fun s => (stmtRecs user s []).filter fun r => r.id == c! "C0114") =
      computedWords (userNames user) (stmtsOf tree) := by
  rw [computedWords, ← flatMap_mark]
  exact flatMap_eq fun s hs => (unknown_recs h hs).2

/-- **C75.** `file`, `list`, `add_custom_command` and `cmake_policy` have to start with one of a few
words.  cmake-lint reports E1126 exactly once for every such command that starts with something else,
at that place, and for nothing else. -/
theorem unknown_words {o : Opts} {cfg : Cfg} {user : Spec} {ctx : Parse.Ctx} {text : Str} {rs : List Rec}
    (h : lintText o cfg (parserLint user ctx) ctx text = some rs) (hp : Plain text) (hd : c! "E1126" ∉ cfg.disabled) :
    (rs.filter fun r => r.id == c! "E1126").Perm (unknownWords (userNames user) (commands ctx text)) := by
  obtain ⟨tree, h1, h2, h3, _⟩ := of_report h (code := c! "E1126") (by decide)
  rw [h2, ← unknown_eq h1]
  exact h3 hp hd

/-- With pragmas and any other text, only these are reported. -/
theorem unknown_words_sound {o : Opts} {cfg : Cfg} {user : Spec} {ctx : Parse.Ctx} {text : Str} {rs : List Rec}
    (h : lintText o cfg (parserLint user ctx) ctx text = some rs) (r : Rec) (hr : r.id = c! "E1126") :
    rs.count r ≤ (unknownWords (userNames user) (commands ctx text)).count r := by
  obtain ⟨tree, h1, h2, _, h3⟩ := of_report h (code := c! "E1126") (by decide)
  rw [h2, ← unknown_eq h1]
  exact h3 r hr

/-- **C75.** The same for C0114 and the commands that start with a variable reference. -/
theorem computed_words {o : Opts} {cfg : Cfg} {user : Spec} {ctx : Parse.Ctx} {text : Str} {rs : List Rec}
    (h : lintText o cfg (parserLint user ctx) ctx text = some rs) (hp : Plain text) (hd : c! "C0114" ∉ cfg.disabled) :
    (rs.filter fun r => r.id == c! "C0114").Perm (computedWords (userNames user) (commands ctx text)) := by
  obtain ⟨tree, h1, h2, h3, _⟩ := of_report h (code := c! "C0114") (by decide)
  rw [h2, ← computed_eq h1]
  exact h3 hp hd

/-- With pragmas and any other text, only these are reported. -/
theorem computed_words_sound {o : Opts} {cfg : Cfg} {user : Spec} {ctx : Parse.Ctx} {text : Str} {rs : List Rec}
    (h : lintText o cfg (parserLint user ctx) ctx text = some rs) (r : Rec) (hr : r.id = c! "C0114") :
    rs.count r ≤ (computedWords (userNames user) (commands ctx text)).count r := by
  obtain ⟨tree, h1, h2, _, h3⟩ := of_report h (code := c! "C0114") (by decide)
  rw [h2, ← computed_eq h1]
  exact h3 r hr

/-! ## C76: commands that take no arguments -/

/-- They are these. -/
def noArguments : List Str := [c! "break", c! "continue", c! "enable_testing", c! "return"]

theorem no_arguments {user : Spec} {name : Str} :
    recorderOf user name = some .empty ↔ name ∈ noArguments ∧ name ∉ userNames user := by
  have key : recorders.lookup name = some .empty ↔ name ∈ noArguments := by
    constructor
    · intro h
      have k := lookup_pair_mem h
      simp only [recorders, List.mem_cons, Prod.mk.injEq, List.not_mem_nil, or_false, reduceCtorEq, and_false, and_true,
        false_or] at k
      rcases k with rfl | rfl | rfl | rfl <;> decide
    · intro h
      simp only [noArguments, List.mem_cons, List.not_mem_nil, or_false] at h
      rcases h with rfl | rfl | rfl | rfl <;> decide
  rw [recorderOf, overridden_eq, ← key]
  by_cases hu : name ∈ userNames user <;> simp [hu]

theorem no_switch {t : Token} (h : t.type ≠ .formatOn ∧ t.type ≠ .formatOff) : isOnOff t = false := by
  simp [isOnOff, h.1, h.2]

theorem set_recorder {user : Spec} {name : Str} (h : recorderOf user name = some .set) :
    name = c! "set" ∧ name ∉ userNames user := by
  rw [recorderOf, overridden_eq] at h
  split at h
  · simp at h
  · rename_i hu
    have k := lookup_pair_mem h
    simp only [recorders, List.mem_cons, Prod.mk.injEq, List.not_mem_nil, or_false, reduceCtorEq, and_false, and_true,
      false_or] at k
    exact ⟨k, by simpa using hu⟩

theorem mem_toksL {c : Node} {cs : List Node} {t : Token} (hc : c ∈ cs) (ht : t ∈ c.toks) : t ∈ toksL cs := by
  induction cs with
  | nil => simp at hc
  | cons d cs ih =>
    rw [toksL_cons, List.mem_append]
    rcases List.mem_cons.1 hc with rfl | hc
    · exact .inl ht
    · exact .inr (ih hc)

/-- The tokens of the arguments are tokens of the file. -/
theorem args_sub {ctx : Parse.Ctx} {ts : List Token} {tree s : Node} (h : parse ctx ts = .ok tree) (hs : s ∈ stmtsOf tree) :
    ∀ t ∈ (argTree s).toks, t ∈ tree.toks := by
  obtain ⟨hsub, a, cs, rfl⟩ := Props.Groups.stmtsOf_sub tree hs
  intro t ht
  refine sub_toks hsub t ?_
  rw [toks_node]
  simp only [argTree, kidsOf] at ht
  cases e : (cs.filter isNode).drop 2 with
  | nil => rw [e] at ht; simp [mk, toksL] at ht
  | cons c rest =>
    rw [e] at ht
    simp only [List.headD_cons] at ht
    have hc : c ∈ cs := (List.mem_filter.1 (List.mem_of_mem_drop (e ▸ List.mem_cons_self))).1
    exact mem_toksL hc ht

/-- **C76.** A `break`, `continue`, `enable_testing` or `return` with arguments is reported with E1121
at its first argument. -/
theorem surplus_arguments {o : Opts} {cfg : Cfg} {user : Spec} {explicit : Str → Bool} {vt : List ((Str → Bool) × List Str)}
    {text : Str} {rs : List Rec}
    (h : lintText o cfg (parserLint user (commandCtx user explicit vt)) (commandCtx user explicit vt) text = some rs)
    (hp : Plain text) (hsw : ∀ t ∈ Props.Lex.toks text, t.type ≠ .formatOn ∧ t.type ≠ .formatOff) (hd : c! "E1121" ∉ cfg.disabled)
    {s : Node} (hs : s ∈ commands (commandCtx user explicit vt) text) (hn : nameOf s ∈ noArguments)
    (hu : nameOf s ∉ userNames user) {t : Token} (ht : (argsOf s).head? = some t) :
    (⟨c! "E1121", tokStart t, []⟩ : Rec) ∈ rs := by
  obtain ⟨tree, h1⟩ := lint_parses h
  have e : commands (commandCtx user explicit vt) text = stmtsOf tree := by simp [commands, h1]
  refine report_mem h hp (by dsimp only; decide) hd hs ?_
  rw [e] at hs
  have hrec : recorderOf user (funName s) = some .empty := by rw [cmd_name h1 hs]; exact no_arguments.2 ⟨hn, hu⟩
  have htok : ∀ t ∈ (argTree s).toks, isOnOff t = false := fun t ht => no_switch (hsw t
    ((Props.Parse.tokens_conserved_partial _ _ tree h1
      (Props.Parse.no_bom text _ (Props.Parse.tokenize_toks text) hp.bom) hp.apart).1.mem_iff.1 (args_sub h1 hs t ht)))
  exact (many_recs h1 hs htok hrec).2 t ht

/-- With pragmas too, every E1121 is at an argument of such a command, or at one of at least four
arguments of a `set`. -/
theorem surplus_arguments_sound {o : Opts} {cfg : Cfg} {user : Spec} {explicit : Str → Bool}
    {vt : List ((Str → Bool) × List Str)} {text : Str} {rs : List Rec}
    (h : lintText o cfg (parserLint user (commandCtx user explicit vt)) (commandCtx user explicit vt) text = some rs)
    (hb : text.head? ≠ some BOM) (hsw : ∀ t ∈ Props.Lex.toks text, t.type ≠ .formatOn ∧ t.type ≠ .formatOff) {r : Rec} (hr : r ∈ rs)
    (hid : r.id = c! "E1121") :
    r.args = [] ∧ ∃ s ∈ commands (commandCtx user explicit vt) text, nameOf s ∉ userNames user ∧
      (nameOf s ∈ noArguments ∨ nameOf s = c! "set" ∧ 4 ≤ (argsOf s).length) ∧ ∃ t ∈ argsOf s, r.loc = tokStart t := by
  obtain ⟨tree, s, h1, h2, hs, hrec⟩ := mem_report h hr (by rw [hid]; decide)
  have hap : SwitchesApart (Props.Lex.toks text) := by
    intro a b hab hb
    have k := hsw b (hab.subset (by simp))
    rcases hb with hb | hb <;> simp [hb] at k
  have htok : ∀ t ∈ (argTree s).toks, isOnOff t = false := fun t ht => no_switch (hsw t
    ((Props.Parse.tokens_conserved_partial _ _ tree h1
      (Props.Parse.no_bom text _ (Props.Parse.tokenize_toks text) hb) hap).1.mem_iff.1 (args_sub h1 hs t ht)))
  rw [h2]
  have hrec' := hrec
  simp only [stmtRecs] at hrec
  split at hrec
  · simp at hrec
  · rename_i rc hrc
    have hcode := recs_codes rc s [] r hrec
    rw [hid] at hcode
    have : rc = .empty ∨ rc = .set := by
      revert hcode
      cases rc <;> decide
    rcases this with rfl | rfl
    · obtain ⟨k1, t, k2, k3⟩ := (many_recs h1 hs htok hrc).1 r hrec'
      rw [cmd_name h1 hs] at hrc
      obtain ⟨k4, k5⟩ := no_arguments.1 hrc
      exact ⟨k1, s, hs, k5, .inl k4, t, k2, k3⟩
    · rw [cmd_name h1 hs] at hrc
      obtain ⟨k4, k5⟩ := set_recorder hrc
      simp only [Recorder.recs] at hrec
      have go : ∀ (after : List Token) (ns : List Node), r ∈ setRecs after ns → r.args = [] ∧
          4 ≤ (semantics (toksL ns)).length ∧ ∃ t ∈ semantics (toksL ns), r.loc = tokStart t := by
        intro after ns
        induction ns with
        | nil => intro h; simp [setRecs] at h
        | cons k ks ih =>
          intro h
          rw [toksL_cons, Parse.semantics_append, List.length_append]
          simp only [setRecs, List.mem_append] at h
          rcases h with h | h
          · split at h
            · have third : ∀ (a b c : Token) (l : List Token), (semantics k.toks).drop 1 = a :: b :: c :: l →
                  4 ≤ (semantics k.toks).length ∧ c ∈ semantics k.toks := by
                intro a b c l e
                have e' := congrArg List.length e
                simp only [List.length_drop, List.length_cons] at e'
                refine ⟨by omega, List.mem_of_mem_drop (i := 1) ?_⟩
                rw [e]
                simp
              unfold cacheRecs at h
              split at h
              · simp only [List.mem_singleton] at h
                subst h
                exact absurd hid (by dsimp only; decide)
              · simp only [List.mem_singleton] at h
                subst h
                exact absurd hid (by dsimp only; decide)
              · simp at h
              · rename_i a b c l e
                obtain ⟨q1, q2⟩ := third a b c l e
                have : r = ⟨c! "E1121", tokLoc c, []⟩ := by
                  repeat' split at h
                  all_goals first | exact List.mem_singleton.1 h | simp at h
                subst this
                exact ⟨rfl, by omega, c, List.mem_append_left _ q2, rfl⟩
            · simp at h
          · obtain ⟨q1, q2, t, q3, q4⟩ := ih h
            exact ⟨q1, by omega, t, List.mem_append_right _ q3, q4⟩
      obtain ⟨k1, k2, t, k3, k6⟩ := go _ _ hrec
      have e : semantics (toksL (kidsOf (argTree s))) = argsOf s := by
        rw [← stmt_args h1 hs, semToks]
        obtain ⟨_, _, _, _, _, _, _, hg⟩ := stmt_args' h1 hs
        cases ht : argTree s with
        | tok t => rw [ht] at hg; exact absurd hg (by simp [Grp])
        | node ty a cs => rw [toks_node]; rfl
      rw [e] at k2 k3
      exact ⟨k1, s, hs, k5, .inr ⟨k4, k2⟩, t, k3, k6⟩

/-! ## C77: required keywords -/

/-- The keywords that a command has to have, and the code for a missing one. -/
def requiredWords : List (Str × Str × Str) :=
  [(c! "add_custom_command", c! "COMMENT", c! "C0113"), (c! "add_custom_command", c! "COMMAND", c! "E1125"),
   (c! "add_custom_target", c! "COMMENT", c! "C0113")]

/-- **C77.** A custom command or target without a required keyword anywhere among its arguments is
reported at its first argument, with the keyword. -/
theorem missing_keyword_partial {o : Opts} {cfg : Cfg} {user : Spec} {ctx : Parse.Ctx} {text : Str} {rs : List Rec}
    (h : lintText o cfg (parserLint user ctx) ctx text = some rs) (hp : Plain text) {word code : Str}
    (hd : code ∉ cfg.disabled) {s : Node} (hs : s ∈ commands ctx text) (hn : (nameOf s, word, code) ∈ requiredWords)
    (hu : nameOf s ∉ userNames user) {t : Token} (ht : (argsOf s).head? = some t) (hpar : t.type ≠ .rparen)
    (habs : ∀ u ∈ argsOf s, u.type = .word → upper u.spelling ≠ word) :
    (⟨code, tokStart t, [word]⟩ : Rec) ∈ rs := by
  obtain ⟨tree, h1⟩ := lint_parses h
  have e : commands ctx text = stmtsOf tree := by simp [commands, h1]
  have hcode : code ∈ parserOnly := by
    simp only [requiredWords, List.mem_cons, Prod.mk.injEq, List.not_mem_nil, or_false] at hn
    rcases hn with ⟨_, _, rfl⟩ | ⟨_, _, rfl⟩ | ⟨_, _, rfl⟩ <;> decide
  have hlow : lower word ≠ word := by
    simp only [requiredWords, List.mem_cons, Prod.mk.injEq, List.not_mem_nil, or_false] at hn
    rcases hn with ⟨_, rfl, _⟩ | ⟨_, rfl, _⟩ | ⟨_, rfl, _⟩ <;> decide
  refine report_mem h hp hcode hd hs ?_
  rw [e] at hs
  have ea : semantics (argTree s).toks = argsOf s := stmt_args h1 hs
  have hno : ∀ u ∈ semantics (argTree s).toks, normKwarg u ≠ some word := by
    intro u hu' hk
    rw [ea] at hu'
    obtain ⟨k1, k2⟩ := (normKwarg_first hlow).1 hk
    exact habs u hu' k1 k2
  have place : ∀ loc : List Nat, placeOf loc (semantics (argTree s).toks) = tokStart t := by
    intro loc
    rw [ea]
    cases el : argsOf s with
    | nil => rw [el] at ht; simp at ht
    | cons a l => rw [el] at ht; simp only [List.head?_cons, Option.some.injEq] at ht; subst ht; rfl
  have hfirst : nthSem 0 (givenTo s) = some t := by
    rw [given_first h1 hs]
    obtain ⟨f, l, r, k, _⟩ := stmt_args' h1 hs
    have ea' : semToks (argTree s) = argsOf s := ea
    rw [k, ea']
    cases el : argsOf s with
    | nil => rw [el] at ht; simp at ht
    | cons a l => rw [el] at ht; simp only [List.head?_cons, Option.some.injEq] at ht; subst ht; rfl
  have hover : overridden user (nameOf s) = false := by rw [overridden_eq]; simpa using hu
  simp only [requiredWords, List.mem_cons, Prod.mk.injEq, List.not_mem_nil, or_false] at hn
  have command : ∀ {p : Str × Str}, p ∈ commandRequired → p = (code, word) → nameOf s = c! "add_custom_command" →
      (⟨code, tokStart t, [word]⟩ : Rec) ∈ stmtRecs user s [] := by
    intro p hp' ep en
    have k := required_complete (loc := nodeLoc (argTree s)) hp' (n := argTree s) (by rw [ep]; exact hno)
    rw [place, ep] at k
    have er : recorderOf user (funName s) = some .customCommand := by
      rw [cmd_name h1 hs, recorderOf, hover, en]
      decide
    simp only [stmtRecs, er, Recorder.recs, customCommandRecs, hfirst, hpar, if_false]
    repeat' split
    all_goals first
      | exact k
      | exact List.mem_cons_of_mem _ k
  rcases hn with ⟨n1, rfl, rfl⟩ | ⟨n1, rfl, rfl⟩ | ⟨n1, rfl, rfl⟩
  · exact command (p := (c! "C0113", c! "COMMENT")) (by decide) rfl n1
  · exact command (p := (c! "E1125", c! "COMMAND")) (by decide) rfl n1
  · have k := required_complete (loc := []) (required := [(c! "C0113", c! "COMMENT")]) (n := argTree s)
      (p := (c! "C0113", c! "COMMENT")) (by decide) hno
    rw [place] at k
    have er : recorderOf user (funName s) = some .customTarget := by
      rw [cmd_name h1 hs, recorderOf, hover, n1]
      decide
    simp only [stmtRecs, er, Recorder.recs, customTargetRecs]
    exact List.mem_append_right _ k

/-- With pragmas and any other text, C0113 and E1125 are reported for these commands only, with a
required keyword and at the first argument. -/
theorem missing_keyword_sound {o : Opts} {cfg : Cfg} {user : Spec} {ctx : Parse.Ctx} {text : Str} {rs : List Rec}
    (h : lintText o cfg (parserLint user ctx) ctx text = some rs) {r : Rec} (hr : r ∈ rs)
    (hid : r.id = c! "C0113" ∨ r.id = c! "E1125") :
    ∃ s ∈ commands ctx text, ∃ word, (nameOf s, word, r.id) ∈ requiredWords ∧ nameOf s ∉ userNames user ∧
      r.args = [word] ∧ ∀ t, (argsOf s).head? = some t → r.loc = tokStart t := by
  obtain ⟨tree, s, h1, h2, hs, hrec⟩ := mem_report h hr (by rcases hid with h | h <;> rw [h] <;> decide)
  have ea : semantics (argTree s).toks = argsOf s := stmt_args h1 hs
  have place : ∀ (loc : List Nat) (t : Token), (argsOf s).head? = some t →
      placeOf loc (semantics (argTree s).toks) = tokStart t := by
    intro loc t ht
    rw [ea]
    cases el : argsOf s with
    | nil => rw [el] at ht; simp at ht
    | cons a l => rw [el] at ht; simp only [List.head?_cons, Option.some.injEq] at ht; subst ht; rfl
  rw [h2]
  simp only [stmtRecs] at hrec
  split at hrec
  · simp at hrec
  · rename_i rc hrc
    have hcode := recs_codes rc s [] r hrec
    have : rc = .customCommand ∨ rc = .customTarget := by
      rcases hid with hid | hid <;> rw [hid] at hcode <;> revert hcode <;> cases rc <;> decide
    rw [cmd_name h1 hs, recorderOf, overridden_eq] at hrc
    split at hrc
    · simp at hrc
    · rename_i hu
      have hu' : nameOf s ∉ userNames user := by simpa using hu
      have k := lookup_pair_mem hrc
      rcases this with rfl | rfl
      · simp only [recorders, List.mem_cons, Prod.mk.injEq, List.not_mem_nil, or_false, reduceCtorEq, and_false, and_true,
          false_or] at k
        have hreq : r ∈ requiredRecs (nodeLoc (argTree s)) commandRequired (argTree s) := by
          simp only [Recorder.recs, customCommandRecs] at hrec
          repeat' split at hrec
          all_goals first
            | exact hrec
            | (rcases List.mem_cons.1 hrec with e | hrec
               · rw [e] at hid; exact absurd hid (by dsimp only; decide)
               · first | exact hrec | simp at hrec)
        obtain ⟨p, hp, e, _⟩ := required_sound hreq
        refine ⟨s, hs, p.2, ?_, hu', by rw [e], fun t ht => by rw [e]; exact place _ t ht⟩
        rw [k, e]
        simp only [commandRequired, List.mem_cons, List.not_mem_nil, or_false] at hp
        rcases hp with rfl | rfl <;> dsimp only <;> decide
      · simp only [recorders, List.mem_cons, Prod.mk.injEq, List.not_mem_nil, or_false, reduceCtorEq, and_false, and_true,
          false_or] at k
        simp only [Recorder.recs, customTargetRecs, List.mem_append] at hrec
        have hreq : r ∈ requiredRecs [] [(c! "C0113", c! "COMMENT")] (argTree s) := by
          rcases hrec with hrec | hrec
          · have := stray_id (code := r.id) (by rcases hid with h | h <;> rw [h] <;> decide) (kidsOf (argTree s)) 0
            rw [List.filter_eq_nil_iff] at this
            exact absurd (this r hrec) (by simp)
          · exact hrec
        obtain ⟨p, hp, e, _⟩ := required_sound hreq
        refine ⟨s, hs, p.2, ?_, hu', by rw [e], fun t ht => by rw [e]; exact place _ t ht⟩
        rw [k, e]
        simp only [List.mem_cons, List.not_mem_nil, or_false] at hp
        subst hp
        dsimp only
        decide

/-! ## C78: what cmake-lint does not survive -/

/-- All records up to the end of parsing are accepted or disabled. -/
theorem run_accepts (d : List Str) (rest : List Call) : ∀ (rs : List Rec) (c c' : Ctx), c.supp = [] →
    c.run d (rs.map .record ++ rest) = some c' → ∀ r ∈ rs, r.id ∈ d ∨ fieldsOf r.id ≤ r.args.length
  | [], _, _, _, _, r, hr => by simp at hr
  | x :: rs, c, c', hs, h, r, hr => by
    simp only [List.map_cons, List.cons_append, Ctx.run, Ctx.call, hs, List.not_mem_nil, if_false] at h
    split at h
    · rename_i hd
      rcases List.mem_cons.1 hr with rfl | hr
      · exact .inl hd
      · exact run_accepts d rest rs c c' hs (by simpa using h) r hr
    · split at h
      · rename_i hf
        rcases List.mem_cons.1 hr with rfl | hr
        · exact .inr hf.2
        · exact run_accepts d rest rs { c with lint := c.lint ++ [x] } c' hs (by simpa [hs] using h) r hr
      · simp at h

theorem stmt_in_parser {user : Spec} {ss : List Node} {s : Node} (h : s ∈ ss) :
    ∃ more, ∀ r ∈ stmtRecs user s more, r ∈ parserRecs user ss := by
  induction ss with
  | nil => simp at h
  | cons x ss ih =>
    rcases List.mem_cons.1 h with rfl | h
    · exact ⟨toksL ss, fun r hr => List.mem_append_left _ hr⟩
    · obtain ⟨more, hm⟩ := ih h
      exact ⟨more, fun r hr => List.mem_append_right _ (hm r hr)⟩

/-- **C78.** cmake-lint does not finish for a file with a `build_command` that has an argument, unless
W0106 is disabled by the configuration; a pragma in the file does not help. -/
theorem build_command_crashes (o : Opts) {cfg : Cfg} {user : Spec} {ctx : Parse.Ctx} {text : Str}
    (hd : c! "W0106" ∉ cfg.disabled) {s : Node} (hs : s ∈ commands ctx text) (hn : nameOf s = c! "build_command")
    (hu : nameOf s ∉ userNames user) (ha : argsOf s ≠ []) : lintText o cfg (parserLint user ctx) ctx text = none := by
  cases h : lintText o cfg (parserLint user ctx) ctx text with
  | none => rfl
  | some rs =>
    exfalso
    obtain ⟨calls, c, h1, h2, h3⟩ := lintText_ok h
    obtain ⟨ts, c1, tree, c2, hts, hc1, htree, hc2, rfl⟩ := checkFile_ok h1
    rw [Props.Parse.tokenize_toks] at hts
    injection hts with hts
    subst hts
    obtain ⟨r1, rfl, hr1⟩ := tokens_codes _ _ hc1
    have e : commands ctx text = stmtsOf tree := by simp [commands, htree]
    rw [e] at hs
    have e' : parserLint user ctx (Props.Lex.toks text) = parserRecs user (stmtsOf tree) := by simp [parserLint, htree]
    rw [e'] at h2
    have h4 : Ctx.run cfg.disabled {} ((checkBasics cfg text ++ r1 ++ parserRecs user (stmtsOf tree)).map .record ++ c2) = some c := by
      simpa using h2
    have acc := run_accepts _ _ _ _ _ rfl h4
    obtain ⟨more, hm⟩ := stmt_in_parser (user := user) hs
    have er : recorderOf user (funName s) = some .buildCommand := by
      have hover : overridden user (nameOf s) = false := by rw [overridden_eq]; simpa using hu
      rw [cmd_name htree hs, recorderOf, hover, hn]
      decide
    have hsem : ∃ x, nthSem 1 (givenTo s ++ more) = some x := by
      obtain ⟨f, l, r, k, _⟩ := stmt_args' htree hs
      have ea : semToks (argTree s) = argsOf s := stmt_args htree hs
      rw [nthSem, Parse.semantics_append, given_words htree hs, k, ea]
      cases el : argsOf s with
      | nil => exact absurd el ha
      | cons a as => cases as <;> simp
    obtain ⟨x, hx⟩ := hsem
    have hin := hm ⟨c! "W0106", headLoc (givenTo s), [c! "build_command(<cachevariable> <makecommand>)"]⟩ (by
      simp only [stmtRecs, er, Recorder.recs, buildCommandRecs, hx, List.mem_singleton])
    rcases acc _ (List.mem_append_right _ hin) with k | k
    · exact hd k
    · exact absurd k (by dsimp only; decide)

/-! ## Examples -/

/-- The context of the command without a configuration. -/
def demoCtx : Parse.Ctx := commandCtx .root (startsWith (S "#<")) []

/-- A file. -/
def demo : Str := S "# A file\nfile(GET a)\nlist(${op} x)\nenable_testing(on (off))\nadd_custom_command(OUTPUT a DEPENDS b)\nset(a b CACHE c d e)\n"

theorem demo_lint : lintText demoOpts {} (parserLint .root demoCtx) demoCtx demo = some
    [⟨c! "E1126", [2, 5, 14], []⟩, ⟨c! "C0114", [3, 5, 26], []⟩, ⟨c! "E1121", [4, 15, 50], []⟩,
     ⟨c! "C0113", [5, 19, 79], [c! "COMMENT"]⟩, ⟨c! "E1125", [5, 19, 79], [c! "COMMAND"]⟩, ⟨c! "E1121", [6, 18, 117], []⟩] := by
  unfold demoCtx commandCtx
  rw [Props.Gen.root_fast]
  decide +kernel

theorem demo_plain : LintTree.Plain demo where
  bom := by decide +kernel
  apart := Props.Parse.switchesApart_of (by decide +kernel)
  pragma := noPragma_of (by decide +kernel)

theorem demo_switches : ∀ t ∈ Props.Lex.toks demo, t.type ≠ .formatOn ∧ t.type ≠ .formatOff := by decide +kernel

/-- The hypotheses are met, and the records are not empty. -/
example : ([⟨c! "E1126", [2, 5, 14], []⟩] : List Rec).Perm (unknownWords (userNames .root) (commands demoCtx demo)) :=
  unknown_words demo_lint demo_plain (by simp)

example : ([⟨c! "C0114", [3, 5, 26], []⟩] : List Rec).Perm (computedWords (userNames .root) (commands demoCtx demo)) :=
  computed_words demo_lint demo_plain (by simp)

/-- What the commands of the file are, for C76 and C77. -/
theorem demo_commands : (commands demoCtx demo).map (fun s => (nameOf s, (argsOf s).map fun t => (t.type, t.spelling, tokStart t))) =
    [(c! "file", [(.word, c! "GET", [2, 5, 14]), (.word, c! "a", [2, 9, 18])]),
     (c! "list", [(.deref, c! "${op}", [3, 5, 26]), (.word, c! "x", [3, 11, 32])]),
     (c! "enable_testing", [(.word, c! "on", [4, 15, 50]), (.lparen, c! "(", [4, 18, 53]), (.word, c! "off", [4, 19, 54]),
       (.rparen, c! ")", [4, 22, 57])]),
     (c! "add_custom_command", [(.word, c! "OUTPUT", [5, 19, 79]), (.word, c! "a", [5, 26, 86]), (.word, c! "DEPENDS", [5, 28, 88]),
       (.word, c! "b", [5, 36, 96])]),
     (c! "set", [(.word, c! "a", [6, 4, 103]), (.word, c! "b", [6, 6, 105]), (.word, c! "CACHE", [6, 8, 107]),
       (.word, c! "c", [6, 14, 113]), (.word, c! "d", [6, 16, 115]), (.word, c! "e", [6, 18, 117])])] := by
  unfold demoCtx commandCtx
  rw [Props.Gen.root_fast]
  decide +kernel

/-- The hypotheses of C76 are met. -/
example : ∃ s ∈ commands demoCtx demo, nameOf s ∈ noArguments ∧ nameOf s ∉ userNames .root ∧ ∃ t, (argsOf s).head? = some t := by
  have h : (c! "enable_testing", [(TokType.word, c! "on", [4, 15, 50]), (.lparen, c! "(", [4, 18, 53]), (.word, c! "off", [4, 19, 54]),
       (.rparen, c! ")", [4, 22, 57])]) ∈ (commands demoCtx demo).map (fun s => (nameOf s, (argsOf s).map fun t => (t.type, t.spelling, tokStart t))) := by
    rw [demo_commands]; simp
  obtain ⟨s, hs, e⟩ := List.mem_map.1 h
  simp only [Prod.mk.injEq] at e
  refine ⟨s, hs, by rw [e.1]; decide, by rw [e.1]; decide, ?_⟩
  cases ha : argsOf s with
  | nil => rw [ha] at e; simp at e
  | cons t ts => exact ⟨t, rfl⟩

/-- The hypotheses of C77 are met. -/
example : ∃ s ∈ commands demoCtx demo, (nameOf s, c! "COMMENT", c! "C0113") ∈ requiredWords ∧ nameOf s ∉ userNames .root ∧
    (∃ t, (argsOf s).head? = some t ∧ t.type ≠ .rparen) ∧ ∀ u ∈ argsOf s, u.type = .word → upper u.spelling ≠ c! "COMMENT" := by
  have h : (c! "add_custom_command", [(TokType.word, c! "OUTPUT", [5, 19, 79]), (.word, c! "a", [5, 26, 86]), (.word, c! "DEPENDS", [5, 28, 88]),
       (.word, c! "b", [5, 36, 96])]) ∈ (commands demoCtx demo).map (fun s => (nameOf s, (argsOf s).map fun t => (t.type, t.spelling, tokStart t))) := by
    rw [demo_commands]; simp
  obtain ⟨s, hs, e⟩ := List.mem_map.1 h
  simp only [Prod.mk.injEq] at e
  refine ⟨s, hs, by rw [e.1]; decide, by rw [e.1]; decide, ?_, ?_⟩
  · cases ha : argsOf s with
    | nil => rw [ha] at e; simp at e
    | cons t ts =>
      rw [ha] at e
      simp only [List.map_cons, List.cons.injEq, Prod.mk.injEq] at e
      exact ⟨t, rfl, by rw [e.2.1.1]; decide⟩
  · intro u hu _
    have : (u.type, u.spelling, tokStart u) ∈ [(TokType.word, c! "OUTPUT", [5, 19, 79]), (.word, c! "a", [5, 26, 86]),
        (.word, c! "DEPENDS", [5, 28, 88]), (.word, c! "b", [5, 36, 96])] := by
      rw [← e.2]; exact List.mem_map.2 ⟨u, hu, rfl⟩
    simp only [List.mem_cons, Prod.mk.injEq, List.not_mem_nil, or_false] at this
    rcases this with h | h | h | h <;> rw [h.2.1] <;> decide

/-- The hypotheses of C78 are met. -/
theorem crash_file : ∃ s ∈ commands demoCtx (S "build_command(x)\n"), nameOf s = c! "build_command" ∧
    nameOf s ∉ userNames .root ∧ argsOf s ≠ [] := by
  have h : (c! "build_command", [c! "x"]) ∈ (commands demoCtx (S "build_command(x)\n")).map
      (fun s => (nameOf s, (argsOf s).map (·.spelling))) := by
    unfold demoCtx commandCtx
    rw [Props.Gen.root_fast]
    decide +kernel
  obtain ⟨s, hs, e⟩ := List.mem_map.1 h
  simp only [Prod.mk.injEq] at e
  refine ⟨s, hs, e.1, by rw [e.1]; decide, ?_⟩
  intro h
  rw [h] at e
  simp at e

/-- The file is parsed; only cmake-lint fails. -/
theorem crash_file_parses : (commands demoCtx (S "build_command(x)\n")).length = 1 ∧
    lintText demoOpts {} (parserLint .root demoCtx) demoCtx (S "build_command(x)\n") = none := by
  refine ⟨?_, ?_⟩
  · unfold demoCtx commandCtx
    rw [Props.Gen.root_fast]
    decide +kernel
  · obtain ⟨s, h1, h2, h3, h4⟩ := crash_file
    exact build_command_crashes _ (by simp) h1 h2 h3 h4

/-- Even without arguments, if another command follows. -/
theorem crash_on_next : lintText demoOpts {} (parserLint .root demoCtx) demoCtx (S "build_command()\nx()\n") = none := by
  unfold demoCtx commandCtx
  rw [Props.Gen.root_fast]
  decide +kernel

/-- A positional argument after the keywords of `add_custom_target`. -/
theorem crash_on_stray : lintText demoOpts {} (parserLint .root demoCtx) demoCtx
    (S "add_custom_target(foo DEPENDS a COMMENT \"c\" stray)\n") = none := by
  unfold demoCtx commandCtx
  rw [Props.Gen.root_fast]
  decide +kernel

end Verif.Props.LintForms
