import Verif.LintShort
import Verif.Props.LintKeywords

/-!
# What cmake-lint reports about missing arguments (C98)
-/

namespace Verif.Props.LintShort
open Verif Py Verif.Lex Verif.Lint Verif.Props.LintTree
open Verif.Parse hiding Rec Ctx

/-- The commands for which the parser itself looks for missing words. -/
def choosy : List Str := [c! "file", c! "list", c! "add_custom_command", c! "set"]

theorem recorder_choosy {user : Spec} {name : Str} {rc : Recorder} (h : recorderOf user name = some rc)
    (hc : c! "E1120" ∈ rc.codes) : name ∈ choosy ∧ name ∉ userNames user := by
  rw [recorderOf, overridden_eq] at h
  split at h
  · simp at h
  · rename_i hu
    have key : ∀ p ∈ recorders, c! "E1120" ∈ p.2.codes → p.1 ∈ choosy := by decide +kernel
    exact ⟨key _ (lookup_pair_mem h) hc, by simpa using hu⟩

theorem parser_choosy {user : Spec} {ss : List Node} (hs : ∀ s ∈ ss, funName s ∈ choosy → funName s ∈ userNames user) :
    (parserRecs user ss).filter (fun r => r.id == c! "E1120") = [] := by
  rw [List.filter_eq_nil_iff]
  induction ss with
  | nil => simp [parserRecs]
  | cons s ss ih =>
    intro r hr e
    have e := beq_iff_eq.1 e
    rw [parserRecs, List.mem_append] at hr
    rcases hr with hr | hr
    · simp only [stmtRecs] at hr
      split at hr
      · simp at hr
      · rename_i rc hrc
        have k := recs_codes _ _ _ r hr
        rw [e] at k
        obtain ⟨h1, h2⟩ := recorder_choosy hrc k
        exact h2 (hs s (by simp) h1)
    · exact ih (fun s h => hs s (by simp [h])) r hr (beq_iff_eq.2 e)

theorem count_records (l : List (List Nat)) (x : List Nat) : (l.map shortRec).count (shortRec x) = l.count x := by
  induction l with
  | nil => rfl
  | cons y l ih =>
    simp only [List.map_cons, List.count_cons, ih]
    by_cases e : y = x <;> simp [e, shortRec]

/-! ## Commands without words -/

theorem headLoc_given (s : Node) : headLoc (givenTo s) = afterOpening s := by
  unfold givenTo afterOpening
  have key : ∀ l : List Token, headLoc (l.dropWhile isWs) =
      match l.find? fun t => t.type != .whitespace && t.type != .newline with
      | none => []
      | some t => tokStart t := by
    intro l
    induction l with
    | nil => rfl
    | cons t l ih =>
      by_cases e : isWs t = true
      · rw [List.dropWhile_cons_of_pos e, List.find?_cons_of_neg, ih]
        simp only [isWs, Bool.or_eq_true, beq_iff_eq] at e
        rcases e with e | e <;> simp [e]
      · rw [List.dropWhile_cons_of_neg e, List.find?_cons_of_pos]
        · rfl
        · simp only [isWs, Bool.or_eq_true, beq_iff_eq, not_or] at e
          simp [e.1, e.2]
  exact key _

/-- A record with this code and no argument. -/
def bare (r : Rec) : Bool := r.id == c! "E1120" && r.args == []

theorem first_bare (words : List Str) {given : List Token} {t : Token} (h : nthSem 0 given = some t) :
    (firstWordRecs words given).filter bare = if t.type = .rparen then [shortRec (headLoc given)] else [] := by
  simp only [firstWordRecs, h]
  repeat' split
  all_goals first | rfl | simp_all [bare]

theorem required_bare {loc : List Nat} {n : Node} : (requiredRecs loc commandRequired n).filter bare = [] := by
  have k := required_id (loc := loc) (req := commandRequired) (n := n) (code := c! "E1120") (by decide)
  rw [List.filter_eq_nil_iff] at k ⊢
  intro r hr hb
  simp only [bare, Bool.and_eq_true] at hb
  exact k r hr hb.1

theorem custom_bare {given : List Token} {args : Node} {t : Token} (h : nthSem 0 given = some t) :
    (customCommandRecs given args).filter bare = if t.type = .rparen then [shortRec (headLoc given)] else [] := by
  have d1 : bare ⟨c! "C0114", tokLoc t, []⟩ = false := rfl
  have d2 : bare ⟨c! "E1126", tokLoc t, []⟩ = false := rfl
  simp only [customCommandRecs, h]
  by_cases a1 : t.type = .rparen
  · simp only [a1, if_true]
    rfl
  · simp only [a1, if_false]
    repeat' split
    all_goals simp [d1, d2, required_bare]

theorem set_bare (after : List Token) : ∀ ns, (setRecs after ns).filter bare = []
  | [] => rfl
  | k :: ks => by
    rw [setRecs, List.filter_append, set_bare after ks, List.append_nil]
    split
    · unfold cacheRecs
      repeat' split
      all_goals rfl
    · rfl

theorem codes_bare {rc : Recorder} (h : c! "E1120" ∉ rc.codes) (s : Node) : (rc.recs s []).filter bare = [] := by
  rw [List.filter_eq_nil_iff]
  intro r hr hb
  simp only [bare, Bool.and_eq_true, beq_iff_eq] at hb
  exact h (hb.1 ▸ recs_codes rc s [] r hr)

theorem stmt_bare {ctx : Parse.Ctx} {ts : List Token} {tree s : Node} {user : Spec} (h : parse ctx ts = .ok tree)
    (hs : s ∈ stmtsOf tree) : (stmtRecs user s []).filter bare = (lacksWord (userNames user) s).map shortRec := by
  obtain ⟨f, l, r, hprog, _⟩ := stmt_args' h hs
  obtain ⟨t, ht⟩ : ∃ t, ((program s.toks).drop 2).head? = some t := by
    rw [hprog]
    simp only [List.drop_succ_cons, List.drop_zero]
    cases semToks (argTree s) with
    | nil => exact ⟨r, rfl⟩
    | cons t ts => exact ⟨t, rfl⟩
  have hf : nthSem 0 (givenTo s) = some t := by rw [given_first h hs]; exact ht
  simp only [stmtRecs, recorderOf, cmd_name h hs, overridden_eq, lacksWord, ht, Option.any_some, beq_iff_eq, ← headLoc_given]
  cases hu : (userNames user).contains (nameOf s) with
  | true =>
    have hu' : nameOf s ∈ userNames user := by simpa using hu
    simp [hu']
  | false =>
    have hu' : nameOf s ∉ userNames user := by simpa using hu
    simp only [Bool.false_eq_true, if_false, hu', not_false_eq_true, true_and]
    by_cases hn : nameOf s ∈ needsWord
    · have hn' := hn
      simp only [needsWord, List.mem_cons, List.not_mem_nil, or_false] at hn'
      have go : ∀ {rc : Recorder}, recorders.lookup (nameOf s) = some rc →
          (rc.recs s []).filter bare = (if t.type = .rparen then [shortRec (headLoc (givenTo s))] else []) →
          (match recorders.lookup (nameOf s) with | none => [] | some rc => rc.recs s []).filter bare =
            (if nameOf s ∈ needsWord ∧ t.type = .rparen then [headLoc (givenTo s)] else []).map shortRec := by
        intro rc e1 e2
        rw [e1]
        simp only [e2, hn, true_and]
        split <;> rfl
      rcases hn' with e | e | e
      · exact go (rc := .file) (by rw [e]; decide) (first_bare _ hf)
      · exact go (rc := .list) (by rw [e]; decide) (first_bare _ hf)
      · exact go (rc := .customCommand) (by rw [e]; decide) (custom_bare hf)
    · simp only [hn, false_and, if_false, List.map_nil]
      cases hl : recorders.lookup (nameOf s) with
      | none => rfl
      | some rc =>
        have hm := lookup_pair_mem hl
        cases rc with
        | set => exact set_bare _ _
        | file =>
          have key : ∀ p ∈ recorders, p.2 = .file → p.1 ∈ needsWord := by decide
          exact absurd (key _ hm rfl) hn
        | list =>
          have key : ∀ p ∈ recorders, p.2 = .list → p.1 ∈ needsWord := by decide
          exact absurd (key _ hm rfl) hn
        | customCommand =>
          have key : ∀ p ∈ recorders, p.2 = .customCommand → p.1 ∈ needsWord := by decide
          exact absurd (key _ hm rfl) hn
        | customTarget => exact codes_bare (by decide) s
        | empty => exact codes_bare (by decide) s
        | buildCommand => exact codes_bare (by decide) s
        | policy => exact codes_bare (by decide) s

theorem parser_bare {ctx : Parse.Ctx} {ts : List Token} {tree : Node} {user : Spec} (h : parse ctx ts = .ok tree) :
    (parserRecs user (stmtsOf tree)).filter bare = ((stmtsOf tree).flatMap (lacksWord (userNames user))).map shortRec := by
  have e : ∀ l : List Rec, l.filter bare = (l.filter fun r => r.id == c! "E1120").filter fun r => r.args == [] := by
    intro l
    rw [List.filter_filter]
    congr 1
    funext r
    rw [Bool.and_comm]
    rfl
  rw [e, parserRecs_filter user (by decide), List.filter_flatMap, List.map_flatMap]
  refine Props.LintForms.flatMap_eq fun s hs => ?_
  rw [← e]
  exact stmt_bare h hs

/-! ## C98 -/

/-- **C98.** Every group of words that has fewer than its command declares is reported, at its first word. -/
theorem short_groups {o : Opts} {cfg : Cfg} {user : Spec} {ctx : Parse.Ctx} {text : Str} {rs : List Rec}
    (h : lintText o cfg (parserLint user ctx) ctx text = some rs) (hp : Plain text) (hd : c! "E1120" ∉ cfg.disabled)
    (l : List Nat) : ((commands ctx text).flatMap shortGroups).count l ≤ rs.count ⟨c! "E1120", l, []⟩ := by
  obtain ⟨tree, calls, h1, h2, _, h4⟩ := Props.LintKeywords.report_split h hp (code := c! "E1120") (by decide) (by decide) hd
  have k := h4 (((stmtsOf tree).flatMap shortGroups).map shortRec) ((short_calls h1 h2).trans (by rw [List.map_map]; rfl))
  have c := k.count_eq (shortRec l)
  rw [List.count_filter (by rfl), List.count_append, count_records] at c
  rw [show commands ctx text = stmtsOf tree by simp [commands, h1]]
  show _ ≤ rs.count (shortRec l)
  omega

/-- **C98.** In a file without the commands for which the parser makes its own records, nothing else is reported with
this code, and each group once. -/
theorem short_groups_only {o : Opts} {cfg : Cfg} {user : Spec} {ctx : Parse.Ctx} {text : Str} {rs : List Rec}
    (h : lintText o cfg (parserLint user ctx) ctx text = some rs) (hp : Plain text) (hd : c! "E1120" ∉ cfg.disabled)
    (hc : ∀ s ∈ commands ctx text, nameOf s ∈ choosy → nameOf s ∈ userNames user) :
    (rs.filter fun r => r.id == c! "E1120").Perm
      (((commands ctx text).flatMap shortGroups).map fun l => ⟨c! "E1120", l, []⟩) := by
  obtain ⟨tree, calls, h1, h2, _, h4⟩ := Props.LintKeywords.report_split h hp (code := c! "E1120") (by decide) (by decide) hd
  have k := h4 (((stmtsOf tree).flatMap shortGroups).map shortRec) ((short_calls h1 h2).trans (by rw [List.map_map]; rfl))
  have hcmd : commands ctx text = stmtsOf tree := by simp [commands, h1]
  rw [hcmd] at hc ⊢
  rw [show parserLint user ctx (Props.Lex.toks text) = parserRecs user (stmtsOf tree) by simp [parserLint, h1],
    parser_choosy fun s hs => by rw [cmd_name h1 hs]; exact hc s hs] at k
  exact k

/-- **C98.** The reports with this code that name nothing are, one for one, those of the groups with too few words and of the
commands `file`, `list` and `add_custom_command` without words. -/
theorem missing_words {o : Opts} {cfg : Cfg} {user : Spec} {ctx : Parse.Ctx} {text : Str} {rs : List Rec}
    (h : lintText o cfg (parserLint user ctx) ctx text = some rs) (hp : Plain text) (hd : c! "E1120" ∉ cfg.disabled) :
    (rs.filter fun r => r.id == c! "E1120" && r.args == []).Perm
      (((commands ctx text).flatMap (lacksWord (userNames user)) ++ (commands ctx text).flatMap shortGroups).map
        fun l => ⟨c! "E1120", l, []⟩) := by
  obtain ⟨tree, calls, h1, h2, _, h4⟩ := Props.LintKeywords.report_split h hp (code := c! "E1120") (by decide) (by decide) hd
  have k := h4 (((stmtsOf tree).flatMap shortGroups).map shortRec) ((short_calls h1 h2).trans (by rw [List.map_map]; rfl))
  have hcmd : commands ctx text = stmtsOf tree := by simp [commands, h1]
  have e : ∀ l : List Rec, l.filter bare = (l.filter fun r => r.id == c! "E1120").filter fun r => r.args == [] := by
    intro l
    rw [List.filter_filter]
    congr 1
    funext r
    rw [Bool.and_comm]
    rfl
  have e3 : (((stmtsOf tree).flatMap shortGroups).map shortRec).filter (fun r => r.args == []) =
      ((stmtsOf tree).flatMap shortGroups).map shortRec := List.filter_eq_self.2 (by
    intro r hr
    obtain ⟨l, _, rfl⟩ := List.mem_map.1 hr
    rfl)
  have k2 := k.filter fun r => r.args == []
  rw [← e, List.filter_append, ← e, show parserLint user ctx (Props.Lex.toks text) = parserRecs user (stmtsOf tree) by
    simp [parserLint, h1], parser_bare h1, e3, ← List.map_append] at k2
  rw [hcmd]
  exact k2

/-- **C98.** Any other report with this code is about a `set` that the user has not declared, and says that its variable or
its value is missing. -/
theorem missing_words_named {o : Opts} {cfg : Cfg} {user : Spec} {ctx : Parse.Ctx} {text : Str} {rs : List Rec}
    (h : lintText o cfg (parserLint user ctx) ctx text = some rs) (hp : Plain text) (hd : c! "E1120" ∉ cfg.disabled) {r : Rec}
    (hr : r ∈ rs) (hid : r.id = c! "E1120") (ha : r.args ≠ []) :
    (r.args = [c! "<variable>"] ∨ r.args = [c! "<value>"]) ∧
      ∃ s ∈ commands ctx text, nameOf s = c! "set" ∧ nameOf s ∉ userNames user := by
  obtain ⟨tree, calls, h1, h2, _, h4⟩ := Props.LintKeywords.report_split h hp (code := c! "E1120") (by decide) (by decide) hd
  have k := h4 (((stmtsOf tree).flatMap shortGroups).map shortRec) ((short_calls h1 h2).trans (by rw [List.map_map]; rfl))
  have hcmd : commands ctx text = stmtsOf tree := by simp [commands, h1]
  have hm := k.mem_iff.1 (List.mem_filter.2 ⟨hr, beq_iff_eq.2 hid⟩)
  rw [List.mem_append] at hm
  rcases hm with hm | hm
  · rw [show parserLint user ctx (Props.Lex.toks text) = parserRecs user (stmtsOf tree) by simp [parserLint, h1],
      parserRecs_filter user (by decide)] at hm
    obtain ⟨s, hs, hm⟩ := List.mem_flatMap.1 hm
    have hm := (List.mem_filter.1 hm).1
    simp only [stmtRecs] at hm
    split at hm
    · simp at hm
    · rename_i rc hrc
      have hcode := recs_codes rc s [] r hm
      rw [hid] at hcode
      have first : ∀ words given, r ∈ firstWordRecs words given → False := by
        intro words given hq
        unfold firstWordRecs at hq
        repeat' split at hq
        all_goals first
          | (simp only [List.mem_singleton] at hq; subst hq; exact ha rfl)
          | simp at hq
      cases rc with
      | file => exact (first _ _ hm).elim
      | list => exact (first _ _ hm).elim
      | customCommand =>
        have req : r ∉ requiredRecs (nodeLoc (argTree s)) commandRequired (argTree s) := by
          have q := required_id (loc := nodeLoc (argTree s)) (req := commandRequired) (n := argTree s) (code := c! "E1120") (by decide)
          rw [List.filter_eq_nil_iff] at q
          intro hq
          exact q r hq (beq_iff_eq.2 hid)
        simp only [Recorder.recs, customCommandRecs] at hm
        repeat' split at hm
        all_goals simp only [List.mem_cons, List.not_mem_nil, or_false, req] at hm
        all_goals (subst hm; exact (ha rfl).elim)
      | set =>
        rw [cmd_name h1 hs] at hrc
        obtain ⟨k4, k5⟩ := Props.LintForms.set_recorder hrc
        refine ⟨?_, s, hcmd ▸ hs, k4, k5⟩
        simp only [Recorder.recs] at hm
        revert hm
        generalize (givenTo s).drop (argTree s).toks.length = after
        induction kidsOf (argTree s) with
        | nil => intro hm; simp [setRecs] at hm
        | cons c cs ih =>
          intro hm
          rw [setRecs, List.mem_append] at hm
          rcases hm with hm | hm
          · split at hm
            · unfold cacheRecs at hm
              repeat' split at hm
              all_goals simp only [List.mem_singleton, List.not_mem_nil] at hm
              · exact .inl (by rw [hm])
              · exact .inr (by rw [hm])
              all_goals (subst hm; exact (ha rfl).elim)
            · simp at hm
          · exact ih hm
      | customTarget => exact absurd hcode (by decide)
      | empty => exact absurd hcode (by decide)
      | buildCommand => exact absurd hcode (by decide)
      | policy => exact absurd hcode (by decide)
  · obtain ⟨l, _, rfl⟩ := List.mem_map.1 hm
    exact (ha rfl).elim

theorem set_group {r : Rec} {k : Node} {after : List Token} (hc : ∀ after, ∃ l, (⟨r.id, l, r.args⟩ : Rec) ∈ cacheRecs k after)
    (ht : hasType .kwargGroup k = true) : ∀ ns, k ∈ ns → ∃ l, (⟨r.id, l, r.args⟩ : Rec) ∈ setRecs after ns
  | [], h => by simp at h
  | n :: ns, h => by
    rw [setRecs]
    rcases List.mem_cons.1 h with rfl | h
    · obtain ⟨l, hl⟩ := hc (toksL ns ++ after)
      exact ⟨l, List.mem_append_left _ (by rw [if_pos ht]; exact hl)⟩
    · obtain ⟨l, hl⟩ := set_group hc ht ns h
      exact ⟨l, List.mem_append_right _ hl⟩

/-- **C98.** A keyword of a `set` that is followed by no word, or by one, is reported: the variable, or the value, is
missing. -/
theorem missing_words_set {o : Opts} {cfg : Cfg} {user : Spec} {ctx : Parse.Ctx} {text : Str} {rs : List Rec}
    (h : lintText o cfg (parserLint user ctx) ctx text = some rs) (hp : Plain text) (hd : c! "E1120" ∉ cfg.disabled) {s k : Node}
    (hs : s ∈ commands ctx text) (hn : nameOf s = c! "set") (hu : nameOf s ∉ userNames user) (hk : k ∈ kidsOf (argTree s))
    (ht : hasType .kwargGroup k = true) :
    ((program k.toks).length = 1 → ∃ l, (⟨c! "E1120", l, [c! "<variable>"]⟩ : Rec) ∈ rs) ∧
      ((program k.toks).length = 2 → ∃ l, (⟨c! "E1120", l, [c! "<value>"]⟩ : Rec) ∈ rs) := by
  obtain ⟨tree, calls, h1, h2, _, h4⟩ := Props.LintKeywords.report_split h hp (code := c! "E1120") (by decide) (by decide) hd
  have p := h4 (((stmtsOf tree).flatMap shortGroups).map shortRec) ((short_calls h1 h2).trans (by rw [List.map_map]; rfl))
  have hcmd : commands ctx text = stmtsOf tree := by simp [commands, h1]
  rw [hcmd] at hs
  have hsem : semantics k.toks = program k.toks := program_semantics _
  have hrec : recorderOf user (funName s) = some .set := by
    rw [cmd_name h1 hs, recorderOf, overridden_eq, hn, if_neg (by rw [hn] at hu; simpa using hu)]
    decide
  have up : ∀ r : Rec, r.id = c! "E1120" → (∀ after, ∃ l, (⟨r.id, l, r.args⟩ : Rec) ∈ cacheRecs k after) →
      ∃ l, (⟨r.id, l, r.args⟩ : Rec) ∈ rs := by
    intro r hid hr
    obtain ⟨l, hl⟩ := set_group (after := (givenTo s).drop (argTree s).toks.length) hr ht _ hk
    refine ⟨l, (List.mem_filter.1 (p.mem_iff.2 (List.mem_append_left _ ?_))).1⟩
    rw [show parserLint user ctx (Props.Lex.toks text) = parserRecs user (stmtsOf tree) by simp [parserLint, h1],
      parserRecs_filter user (by decide)]
    refine List.mem_flatMap.2 ⟨s, hs, List.mem_filter.2 ⟨?_, by simpa using hid⟩⟩
    simp only [stmtRecs, hrec]
    exact hl
  constructor
  · intro hl
    refine up ⟨c! "E1120", [], [c! "<variable>"]⟩ rfl fun after => ⟨headLoc after, ?_⟩
    have : (semantics k.toks).drop 1 = [] := List.drop_eq_nil_of_le (by rw [hsem, hl]; exact Nat.le_refl _)
    simp [cacheRecs, this]
  · intro hl
    refine up ⟨c! "E1120", [], [c! "<value>"]⟩ rfl fun after => ⟨headLoc after, ?_⟩
    obtain ⟨a, b, e⟩ : ∃ a b, program k.toks = [a, b] := by
      match hq : program k.toks, hl with
      | [a, b], _ => exact ⟨a, b, rfl⟩
    have : (semantics k.toks).drop 1 = [b] := by rw [hsem, e]; rfl
    simp [cacheRecs, this]

/-! ## A file that meets the hypotheses -/

/-- `add_dependencies` needs two words; a comment is none. -/
def demo : Str := S "add_dependencies(a)\nif(x)\n  add_dependencies( # c\n    b)\n  add_dependencies(a b)\nendif()\nadd_dependencies()\n"

theorem demo_plain : Plain demo where
  bom := by decide +kernel
  apart := Props.Parse.switchesApart_of (by decide +kernel)
  pragma := noPragma_of (by decide +kernel)

theorem demo_lint : lintText demoOpts {} (parserLint .root Props.LintForms.demoCtx) Props.LintForms.demoCtx demo = some
    [⟨c! "E1120", [1, 17, 17], []⟩, ⟨c! "E1120", [4, 4, 54], []⟩] := by
  unfold Props.LintForms.demoCtx commandCtx
  rw [Props.Gen.root_fast]
  decide +kernel

theorem demo_names : (commands Props.LintForms.demoCtx demo).map nameOf =
    [c! "add_dependencies", c! "if", c! "add_dependencies", c! "add_dependencies", c! "endif", c! "add_dependencies"] := by
  unfold Props.LintForms.demoCtx commandCtx
  rw [Props.Gen.root_fast]
  decide +kernel

/-- **Finding.** A command without any words has no group, so that nothing is reported: the last one of the file. -/
theorem demo_short : (commands Props.LintForms.demoCtx demo).map shortGroups = [[[1, 17, 17]], [], [[4, 4, 54]], [], [], []] := by
  unfold Props.LintForms.demoCtx commandCtx
  rw [Props.Gen.root_fast]
  decide +kernel

theorem demo_calm : ∀ s ∈ commands Props.LintForms.demoCtx demo, nameOf s ∈ choosy → nameOf s ∈ userNames .root := by
  intro s hs hc
  have : nameOf s ∈ (commands Props.LintForms.demoCtx demo).map nameOf := List.mem_map_of_mem hs
  rw [demo_names] at this
  have no : ∀ n ∈ [c! "add_dependencies", c! "if", c! "add_dependencies", c! "add_dependencies", c! "endif",
      c! "add_dependencies"], n ∉ choosy := by decide
  exact absurd hc (no _ this)

example : ([⟨c! "E1120", [1, 17, 17], []⟩, ⟨c! "E1120", [4, 4, 54], []⟩] : List Rec).Perm
    (((commands Props.LintForms.demoCtx demo).flatMap shortGroups).map fun l => ⟨c! "E1120", l, []⟩) :=
  short_groups_only demo_lint demo_plain (by simp) demo_calm

/-- Commands without words, one with a comment only, and a `CACHE` without words. -/
def demo2 : Str := S "file( # none\n)\nset(a b CACHE)\nadd_custom_command()\nadd_dependencies(a)\n"

theorem demo2_plain : Plain demo2 where
  bom := by decide +kernel
  apart := Props.Parse.switchesApart_of (by decide +kernel)
  pragma := noPragma_of (by decide +kernel)

theorem demo2_lint : lintText demoOpts {} (parserLint .root Props.LintForms.demoCtx) Props.LintForms.demoCtx demo2 = some
    [⟨c! "E1120", [1, 6, 6], []⟩, ⟨c! "E1120", [3, 13, 28], [c! "<variable>"]⟩, ⟨c! "E1120", [4, 19, 49], []⟩,
     ⟨c! "E1120", [5, 17, 68], []⟩] := by
  unfold Props.LintForms.demoCtx commandCtx
  rw [Props.Gen.root_fast]
  decide +kernel

/-- Two of the reports are those of commands without words. -/
example : (commands Props.LintForms.demoCtx demo2).map (lacksWord (userNames .root)) = [[[1, 6, 6]], [], [[4, 19, 49]], []] := by
  unfold Props.LintForms.demoCtx commandCtx
  rw [Props.Gen.root_fast]
  decide +kernel

example : ([⟨c! "E1120", [1, 6, 6], []⟩, ⟨c! "E1120", [4, 19, 49], []⟩, ⟨c! "E1120", [5, 17, 68], []⟩] : List Rec).Perm
    (((commands Props.LintForms.demoCtx demo2).flatMap (lacksWord (userNames .root)) ++
      (commands Props.LintForms.demoCtx demo2).flatMap shortGroups).map fun l => ⟨c! "E1120", l, []⟩) :=
  missing_words demo2_lint demo2_plain (by simp)

example : ∃ s ∈ commands Props.LintForms.demoCtx demo2, nameOf s = c! "set" ∧ nameOf s ∉ userNames .root :=
  (missing_words_named demo2_lint demo2_plain (by simp) (r := ⟨c! "E1120", [3, 13, 28], [c! "<variable>"]⟩) (by simp) rfl
    (by simp)).2

/-- Its `set` has such a keyword. -/
example : ((commands Props.LintForms.demoCtx demo2).map fun s => (nameOf s, ((kidsOf (argTree s)).filter (hasType .kwargGroup)).map
      fun k => (program k.toks).length)) =
    [(c! "file", []), (c! "set", [1]), (c! "add_custom_command", []), (c! "add_dependencies", [])] := by
  unfold Props.LintForms.demoCtx commandCtx
  rw [Props.Gen.root_fast]
  decide +kernel

end Verif.Props.LintShort
