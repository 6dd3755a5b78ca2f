import Verif.LintKeywords
import Verif.Props.LintRefs

/-!
# What cmake-lint reports about keywords that come twice (C97)
-/

namespace Verif.Props.LintKeywords
open Verif Py Verif.Lex Verif.Lint Verif.Props.LintTree
open Verif.Parse hiding Rec Ctx

/-! ## The records of the parser -/

theorem stray_args : ∀ (ks : List Node) (st : Nat), ∀ r ∈ strayRecs st ks, r.args = []
  | [], st => by simp [strayRecs]
  | k :: ks, st => by
    have ih := stray_args ks
    simp only [strayRecs]
    repeat' split
    all_goals first
      | exact ih _
      | (intro r hr
         rcases List.mem_cons.1 hr with rfl | hr
         · rfl
         · exact ih _ r hr)

theorem parser_args (user : Spec) (ctx : Parse.Ctx) (ts : List Token) :
    ∀ r ∈ parserLint user ctx ts, r.id = c! "E1122" → r.args = [] := by
  intro r hr e
  unfold parserLint at hr
  split at hr
  · simp at hr
  · rename_i tree _
    have key : ∀ ss, r ∈ parserRecs user ss → r.args = [] := by
      intro ss
      induction ss with
      | nil => simp [parserRecs]
      | cons s ss ih =>
        intro h
        simp only [parserRecs, List.mem_append] at h
        rcases h with h | h
        · simp only [stmtRecs] at h
          split at h
          · simp at h
          · rename_i rc _
            cases hrc : rc with
            | customTarget =>
              subst hrc
              simp only [Recorder.recs, customTargetRecs, List.mem_append] at h
              rcases h with h | h
              · exact stray_args _ _ r h
              · simp only [requiredRecs, List.flatMap_cons, List.flatMap_nil, List.append_nil] at h
                split at h
                · simp at h
                · simp only [List.mem_singleton] at h
                  rw [h] at e
                  simp at e
            | _ =>
              have k := recs_codes _ _ _ r h
              subst hrc
              rw [e] at k
              exact absurd k (by decide)
        · exact ih h
    exact key _ hr

/-- What is recorded has enough arguments for its message. -/
theorem run_args (d : List Str) (rs : List Rec) : ∀ (c c' : Lint.Ctx), c.supp = [] → c.run d (rs.map .record) = some c' →
    ∀ r ∈ rs, r.id ∉ d → fieldsOf r.id ≤ r.args.length := by
  induction rs with
  | nil => simp
  | cons x rs ih =>
    intro c c' hs h r hr hd
    simp only [List.map_cons, Ctx.run, Ctx.call, hs, List.not_mem_nil, if_false] at h
    rcases List.mem_cons.1 hr with rfl | hr
    · rw [if_neg hd] at h
      split at h
      · rename_i hk
        exact hk.2
      · simp at h
    · split at h
      · exact ih _ _ hs h r hr hd
      · split at h
        · exact ih _ _ (by simpa using hs) h r hr hd
        · simp at h

/-! ## From the report to the records -/

theorem inj_records {a b : List Rec} (h : a.map Call.record = b.map .record) : a = b := by
  have := congrArg (List.filterMap fun c => match c with | .record r => some r | _ => none) h
  simpa [List.filterMap_map, Function.comp_def] using this

/-- The records of a code that the parser and the checks of the tree share. -/
theorem report_split {o : Opts} {cfg : Cfg} {user : Spec} {ctx : Parse.Ctx} {text : Str} {rs : List Rec}
    (h : lintText o cfg (parserLint user ctx) ctx text = some rs) (hp : Plain text) {code : Str}
    (hl : code ∉ lineCodes) (ht : code ≠ S "W0106") (hd : code ∉ cfg.disabled) :
    ∃ tree calls, parse ctx (Props.Lex.toks text) = .ok tree ∧ checkParseTree o tree = .ok calls ∧
      (∀ r ∈ parserLint user ctx (Props.Lex.toks text), r.id ∉ cfg.disabled → fieldsOf r.id ≤ r.args.length) ∧
      ∀ recs : List Rec, only code calls = recs.map .record →
        (rs.filter fun r => r.id == code).Perm
          ((parserLint user ctx (Props.Lex.toks text)).filter (fun r => r.id == code) ++ recs) := by
  obtain ⟨calls, c, h1, h2, h3⟩ := lintText_ok h
  obtain ⟨ts, c1, tree, c2, hts, hc1, htree, hc2, rfl⟩ := checkFile_ok h1
  rw [Props.Parse.tokenize_toks] at hts
  injection hts with hts
  subst hts
  obtain ⟨r1, rfl, hr1⟩ := tokens_codes _ _ hc1
  obtain ⟨r2, rfl⟩ := records_of_quiet (tree_quiet (plain_tree hp htree).1 hc2)
  have e : (checkBasics cfg text).map Call.record ++ (r1.map Call.record ++
      (parserLint user ctx (Props.Lex.toks text)).map Call.record ++ r2.map Call.record) =
      (checkBasics cfg text ++ (r1 ++ parserLint user ctx (Props.Lex.toks text) ++ r2)).map .record := by
    simp
  rw [e] at h2
  refine ⟨tree, _, htree, hc2, fun r hr hd => run_args _ _ _ _ rfl h2 r (by simp [hr]) hd, ?_⟩
  intro recs hrecs
  obtain ⟨k1, k2, _⟩ := run_records _ _ _ _ rfl h2
  have e3 : rs = sortBy recLe c.lint := by
    rw [← h3, Ctx.getLint, k2]
    exact sweep_free _
  have hperm : rs.Perm c.lint := by rw [e3]; exact sortBy_perm _ _
  refine (hperm.filter _).trans (List.Perm.of_eq ?_)
  rw [k1]
  simp only [List.nil_append, List.filter_filter, List.filter_append]
  have zero : ∀ (l : List Rec), (∀ r ∈ l, r.id ≠ code) →
      l.filter (fun r => r.id == code && decide (r.id ∉ cfg.disabled)) = [] := by
    intro l hl
    rw [List.filter_eq_nil_iff]
    intro r hr
    have := beq_eq_false_iff_ne.2 (hl r hr)
    rw [this]
    simp
  have same : ∀ (l : List Rec), l.filter (fun r => r.id == code && decide (r.id ∉ cfg.disabled)) =
      l.filter fun r => r.id == code := by
    intro l
    apply List.filter_congr
    intro r hr
    by_cases e : r.id = code
    · rw [e, decide_eq_true hd, Bool.and_true]
    · rw [beq_eq_false_iff_ne.2 e]
      rfl
  rw [zero (checkBasics cfg text) fun r hr e => hl (e ▸ basics_codes _ _ r hr),
    zero r1 fun r hr e => ht (e.symm.trans (hr1 r hr)), same, same]
  simp only [List.nil_append]
  rw [record_only] at hrecs
  rw [inj_records hrecs]

/-! ## C97 -/

/-- **C97.** cmake-lint reports a repeated keyword exactly once for every keyword that came before in the same list
of arguments, in any case of letters, at its place and with its name in capitals, unless it is one of those that may
be repeated. -/
theorem repeated_keywords {o : Opts} {cfg : Cfg} {user : Spec} {ctx : Parse.Ctx} {text : Str} {rs : List Rec}
    (h : lintText o cfg (parserLint user ctx) ctx text = some rs) (hp : Plain text) (hd : c! "E1122" ∉ cfg.disabled) :
    (rs.filter fun r => r.id == c! "E1122").Perm ((repeatedKeywords (commands ctx text)).map againRec) := by
  obtain ⟨tree, calls, h1, h2, h3, h4⟩ := report_split h hp (code := c! "E1122") (by decide) (by decide) hd
  have e : (parserLint user ctx (Props.Lex.toks text)).filter (fun r => r.id == c! "E1122") = [] := by
    rw [List.filter_eq_nil_iff]
    intro r hr e
    have e := beq_iff_eq.1 e
    have a := parser_args _ _ _ r hr e
    have b := h3 r hr (by rw [e]; exact hd)
    rw [e, a] at b
    revert b
    decide
  have k := h4 ((repeatedKeywords (stmtsOf tree)).map againRec) ((keywords_calls h1 h2).trans (by rw [List.map_map]; rfl))
  rw [e] at k
  rw [show commands ctx text = stmtsOf tree by simp [commands, h1]]
  exact k

/-- What `saidAgain` lists: the keywords with another of the same name before them. -/
theorem again_iff {ks : List Token} {t : Token} :
    t ∈ saidAgain [] ks ↔ mayRepeat t = false ∧
      ∃ pre post u, ks = pre ++ t :: post ∧ u ∈ pre ∧ upper u.spelling = upper t.spelling := by
  have key : ∀ (ks before : List Token), t ∈ saidAgain before ks ↔ mayRepeat t = false ∧
      ∃ pre post u, ks = pre ++ t :: post ∧ u ∈ before ++ pre ∧ upper u.spelling = upper t.spelling := by
    intro ks
    induction ks with
    | nil => simp [saidAgain]
    | cons x ks ih =>
      intro before
      rw [saidAgain, List.mem_append, ih]
      constructor
      · rintro (h | ⟨h1, pre, post, u, rfl, hu, hs⟩)
        · split at h
          · rename_i hc
            simp only [List.mem_singleton] at h
            subst h
            simp only [Bool.and_eq_true, Bool.not_eq_true', List.any_eq_true, beq_iff_eq] at hc
            obtain ⟨h1, u, hu, hs⟩ := hc
            exact ⟨h1, [], ks, u, rfl, by simpa using hu, hs⟩
          · simp at h
        · exact ⟨h1, x :: pre, post, u, rfl, by simpa using hu, hs⟩
      · rintro ⟨h1, pre, post, u, he, hu, hs⟩
        cases pre with
        | nil =>
          simp only [List.nil_append, List.cons.injEq] at he
          obtain ⟨rfl, rfl⟩ := he
          left
          rw [if_pos]
          · simp
          · simp only [Bool.and_eq_true, Bool.not_eq_true', List.any_eq_true, beq_iff_eq]
            exact ⟨h1, u, by simpa using hu, hs⟩
        | cons y pre =>
          simp only [List.cons_append, List.cons.injEq] at he
          obtain ⟨rfl, rfl⟩ := he
          exact Or.inr ⟨h1, pre, post, u, rfl, by simpa using hu, hs⟩
  simpa using key ks []

/-! ## A file that meets the hypotheses -/

/-- `PUBLIC` and `DEPENDS` come twice; `AND` and `COMMAND` may; the two `DESTINATION`s belong to different lists. -/
def demo : Str := S "target_link_libraries(a PUBLIC b Public c)\nif(a AND b AND c)\n  install(TARGETS a RUNTIME DESTINATION b COMPONENT c LIBRARY DESTINATION d)\nendif()\nadd_custom_command(OUTPUT a COMMAND b COMMAND c DEPENDS d DEPENDS e COMMENT f)\n"

theorem demo_plain : Plain demo where
  bom := by decide +kernel
  apart := Props.Parse.switchesApart_of (by decide +kernel)
  pragma := noPragma_of (by decide +kernel)

theorem demo_lint : lintText demoOpts {} (parserLint .root Props.LintForms.demoCtx) Props.LintForms.demoCtx demo = some
    [⟨c! "E1122", [1, 33, 33], [c! "PUBLIC"]⟩, ⟨c! "E1122", [5, 58, 204], [c! "DEPENDS"]⟩] := by
  unfold Props.LintForms.demoCtx commandCtx
  rw [Props.Gen.root_fast]
  decide +kernel

example : ([⟨c! "E1122", [1, 33, 33], [c! "PUBLIC"]⟩, ⟨c! "E1122", [5, 58, 204], [c! "DEPENDS"]⟩] : List Rec).Perm
    ((repeatedKeywords (commands Props.LintForms.demoCtx demo)).map againRec) :=
  repeated_keywords demo_lint demo_plain (by simp)

/-- The lists of the command `install`. -/
theorem demo_lists : ((commands Props.LintForms.demoCtx demo).flatMap keywordLists).map (fun ks => ks.map (·.spelling)) =
    [[c! "PUBLIC", c! "Public"], [], [], [c! "AND", c! "AND"], [], [],
     [c! "TARGETS", c! "RUNTIME", c! "LIBRARY"], [c! "DESTINATION", c! "COMPONENT"], [c! "DESTINATION"], [],
     [c! "OUTPUT", c! "COMMAND", c! "COMMAND", c! "DEPENDS", c! "DEPENDS", c! "COMMENT"], [], []] := by
  unfold Props.LintForms.demoCtx commandCtx
  rw [Props.Gen.root_fast]
  decide +kernel

end Verif.Props.LintKeywords
