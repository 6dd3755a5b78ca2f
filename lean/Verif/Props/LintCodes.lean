import Verif.Props.LintForms

/-!
# Which codes cmake-lint reports (C100)
-/

namespace Verif.Props.LintCodes
open Verif Py Verif.Lex Verif.Lint Verif.Props.LintTree
open Verif.Parse hiding Rec Ctx

/-- The codes of the documentation that no check uses: names on a black list, too many local variables, deprecated
commands. -/
def unused : List Str := [c! "C0102", c! "R0914", c! "W0104"]

/-- A record that can be shown: it has a code of the documentation that is not switched off, and all that the message of this
code needs. -/
def Shown (disabled : List Str) (r : Rec) : Prop := r.id ∈ lintIds ∧ r.id ∉ disabled ∧ fieldsOf r.id ≤ r.args.length

theorem run_shown {d : List Str} : ∀ (calls : List Call) (c c' : Lint.Ctx), c.run d calls = some c' → (∀ r ∈ c.lint, Shown d r) →
    ∀ r ∈ c'.lint, Shown d r
  | [], c, c', h, hc => by
    simp only [Ctx.run, Option.some.injEq] at h
    subst h
    exact hc
  | x :: calls, c, c', h, hc => by
    simp only [Ctx.run, Option.bind_eq_some_iff] at h
    obtain ⟨c1, h1, h2⟩ := h
    refine run_shown calls c1 c' h2 ?_
    cases x with
    | suppress line ids =>
      simp only [Ctx.call, Option.some.injEq] at h1
      subst h1
      exact hc
    | unsuppress line ids =>
      simp only [Ctx.call, Option.some.injEq] at h1
      subst h1
      exact hc
    | record r =>
      simp only [Ctx.call] at h1
      split at h1
      · simp only [Option.some.injEq] at h1; subst h1; exact hc
      split at h1
      · simp only [Option.some.injEq] at h1; subst h1; exact hc
      split at h1
      · rename_i n1 _ n3
        simp only [Option.some.injEq] at h1
        subst h1
        intro x hx
        rcases List.mem_append.1 hx with hx | hx
        · exact hc x hx
        · rw [List.mem_singleton.1 hx]
          exact ⟨n3.1, n1, n3.2⟩
      · simp at h1

theorem node_unused {o : Opts} {anc : List Frame} {n : Node} {c : List Call} {code : Str} (hc : code ∈ unused)
    (h : checkNode o anc n = .ok c) : only code c = [] := by
  have no : ∀ {cs : List Str} {c : List Call}, (∀ x ∈ unused, x ∉ cs) → Codes cs c → only code c = [] :=
    fun h1 h2 => h2.only (h1 code hc)
  unfold checkNode at h
  split at h
  · simp only [Except.ok.injEq] at h; subst h; rfl
  · exact no (by decide) (body_codes h)
  · exact no (by decide) (flow_codes h)
  · exact no (by decide) (keywords_codes _ _ h)
  · exact no (by decide) (statement_codes h)
  · exact no (by decide) (positional_codes h)
  · split at h
    · simp only [Except.ok.injEq] at h; subst h; rfl
    · exact no (by decide) (comment_codes h)
  · simp only [Except.ok.injEq] at h; subst h; rfl

/-! ## C100 -/

/-- **C100.** Whatever the file, the commands declared by the user and the options: each record of a report has a documented
code that is not disabled, and what its message needs. -/
theorem reported_shown {o : Opts} {cfg : Cfg} {user : Spec} {ctx : Parse.Ctx} {text : Str} {rs : List Rec}
    (h : lintText o cfg (parserLint user ctx) ctx text = some rs) : ∀ r ∈ rs, Shown cfg.disabled r := by
  obtain ⟨calls, c, _, h2, h3⟩ := lintText_ok h
  intro r hr
  refine run_shown _ _ _ h2 (by intro r hr; simp at hr) r ?_
  rw [← h3, Ctx.getLint] at hr
  exact (sortBy_perm recLe c.lint).mem_iff.1 ((sweep_sublist _ _ _).subset hr)

/-- **C100.** Three documented codes are never reported. -/
theorem unused_codes {o : Opts} {cfg : Cfg} {user : Spec} {ctx : Parse.Ctx} {text : Str} {rs : List Rec}
    (h : lintText o cfg (parserLint user ctx) ctx text = some rs) : ∀ r ∈ rs, r.id ∉ unused := by
  intro r hr hc
  obtain ⟨ts, tree, calls, _, _, h3, h4⟩ := report_le h (Props.LintForms.parser_lint user ctx)
  have ne : ∀ x ∈ unused, x ∉ lineCodes ∧ x ∉ parserCodes ∧ x ≠ S "W0106" ∧ x ≠ [] ∧ x ≠ S "C0307" ∧ x ≠ S "W0105" := by decide
  obtain ⟨n1, n2, n3, n4, n5, n6⟩ := ne _ hc
  have k := h4 r ⟨n1, n2, n3, n4⟩
  obtain ⟨h5, h6⟩ := parseTree_calls n5 n6 h3
  have e : only r.id calls = [] := by
    rw [h5, List.flatMap_eq_nil_iff]
    intro v hv
    obtain ⟨c, e⟩ := h6 v hv
    rw [e]
    exact node_unused hc e
  rw [e] at k
  have : 0 < rs.count r := List.count_pos_iff.2 hr
  simp at k
  omega

/-! ## A file that meets the hypotheses -/

/-- All six records of this report are such. -/
example : ∀ r ∈ ([⟨c! "E1126", [2, 5, 14], []⟩, ⟨c! "C0114", [3, 5, 26], []⟩, ⟨c! "E1121", [4, 15, 50], []⟩,
    ⟨c! "C0113", [5, 19, 79], [c! "COMMENT"]⟩, ⟨c! "E1125", [5, 19, 79], [c! "COMMAND"]⟩, ⟨c! "E1121", [6, 18, 117], []⟩] : List Rec),
    Shown [] r ∧ r.id ∉ unused := fun r hr =>
  ⟨reported_shown Props.LintForms.demo_lint r hr, unused_codes Props.LintForms.demo_lint r hr⟩

/-- The three codes are documented. -/
example : ∀ code ∈ unused, code ∈ lintIds := by decide

end Verif.Props.LintCodes
