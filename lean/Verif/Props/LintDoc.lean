import Verif.LintDoc
import Verif.Props.LintSpacing

/-!
# What cmake-lint reports about documentation comments (C86)
-/

namespace Verif.Props.LintDoc
open Verif Py Verif.Lex Verif.Lint Verif.Props.LintTree
open Verif.Parse hiding Rec Ctx

/-- The parse tree of a text that can be parsed. -/
def treeOf (ctx : Parse.Ctx) (text : Str) : Node :=
  match parse ctx (Props.Lex.toks text) with
  | .error _ => .node .body {} []
  | .ok tree => tree

theorem report_node {o : Opts} {cfg : Cfg} {parseLint : List Token → List Rec} {ctx : Parse.Ctx} {text : Str}
    {rs : List Rec} (h : lintText o cfg parseLint ctx text = some rs) (hpl : ParserLint parseLint)
    {code : Str} (hcode : TreeCode code) {spec : Node → List Rec}
    (hspec : ∀ tree calls, parse ctx (Props.Lex.toks text) = .ok tree → checkParseTree o tree = .ok calls →
      (only code calls).Perm ((spec tree).map .record)) :
    (LintTree.Plain text → code ∉ cfg.disabled → (rs.filter fun r => r.id == code).Perm (spec (treeOf ctx text))) ∧
      (∀ r, r.id = code → rs.count r ≤ (spec (treeOf ctx text)).count r) := by
  obtain ⟨tree, e⟩ := lint_parses h
  have ht : treeOf ctx text = tree := by simp [treeOf, e]
  rw [ht]
  have key := report_tree h hpl hcode (spec := fun _ => spec tree) fun tree' calls h1 h2 => by
    rw [e] at h1
    injection h1 with h1
    subst h1
    exact hspec _ _ e h2
  exact key

/-- Those with one code. -/
def docOnly (code : Str) (rs : List Rec) : List Rec := rs.filter fun r => r.id == code

theorem only_records (code : Str) : ∀ rs : List Rec, only code (rs.map .record) = (docOnly code rs).map .record
  | [] => rfl
  | r :: rs => by
    have ih := only_records code rs
    simp only [only, docOnly, List.map_cons, List.filter_cons, codeOf] at ih ⊢
    by_cases e : r.id = code <;> simp [e, ih]

theorem report_doc {o : Opts} {cfg : Cfg} {parseLint : List Token → List Rec} {ctx : Parse.Ctx} {text : Str}
    {rs : List Rec} (h : lintText o cfg parseLint ctx text = some rs) (hpl : ParserLint parseLint)
    {code : Str} (hc : code = S "C0111" ∨ code = S "C0112") :
    (LintTree.Plain text → code ∉ cfg.disabled →
      (rs.filter fun r => r.id == code).Perm (docOnly code (docFaults o (treeOf ctx text)))) ∧
      (∀ r, r.id = code → rs.count r ≤ (docOnly code (docFaults o (treeOf ctx text))).count r) := by
  refine report_node (spec := fun tree => docOnly code (docFaults o tree)) h hpl
    (by rcases hc with rfl | rfl <;> exact ⟨by decide, by decide, by decide, by decide⟩) ?_
  intro tree calls h1 h2
  rw [doc_calls hc h1 h2, only_records]

/-! ## C86 -/

/-- **C86.** cmake-lint reports C0111 exactly for the definitions of functions and macros with no comment right above
them, and C0112 exactly for those with a comment that says nothing. -/
theorem docstrings {o : Opts} {cfg : Cfg} {parseLint : List Token → List Rec} {ctx : Parse.Ctx} {text : Str}
    {rs : List Rec} (h : lintText o cfg parseLint ctx text = some rs) (hpl : ParserLint parseLint)
    (hp : LintTree.Plain text) {code : Str} (hc : code = S "C0111" ∨ code = S "C0112") (hd : code ∉ cfg.disabled) :
    (rs.filter fun r => r.id == code).Perm ((docFaults o (treeOf ctx text)).filter fun r => r.id == code) :=
  (report_doc h hpl hc).1 hp hd

/-- With pragmas and any other text, only these are reported. -/
theorem docstrings_sound {o : Opts} {cfg : Cfg} {parseLint : List Token → List Rec} {ctx : Parse.Ctx} {text : Str}
    {rs : List Rec} (h : lintText o cfg parseLint ctx text = some rs) (hpl : ParserLint parseLint)
    (r : Rec) (hr : r.id = S "C0111" ∨ r.id = S "C0112") : rs.count r ≤ (docFaults o (treeOf ctx text)).count r := by
  refine Nat.le_trans ((report_doc h hpl hr).2 r rfl) ?_
  exact (List.filter_sublist (l := docFaults o _)).count_le r

/-- **C86.** The definitions that are looked at are the `function` and `macro` commands of the file, all of them. -/
theorem every_definition {o : Opts} {cfg : Cfg} {parseLint : List Token → List Rec} {ctx : Parse.Ctx} {text : Str}
    {rs : List Rec} (h : lintText o cfg parseLint ctx text = some rs) :
    ((bodiesOf (treeOf ctx text)).flatMap fun cs => (definitions [] cs).map Prod.fst).Perm
      ((commands ctx text).filter fun s => nameOf s == S "function" || nameOf s == S "macro") := by
  obtain ⟨tree, e⟩ := lint_parses h
  rw [show treeOf ctx text = tree by simp [treeOf, e], show commands ctx text = stmtsOf tree by simp [commands, e]]
  simp only [definitions_fst]
  exact tree_defs e

theorem fault_mem {o : Opts} {cs : List Node} {d : Node × Option Node} {tree : Node} (h1 : cs ∈ bodiesOf tree)
    (h2 : d ∈ definitions [] cs) (h3 : d.2 = none) : ⟨S "C0111", startOf d.1, []⟩ ∈ docFaults o tree := by
  unfold docFaults
  refine List.mem_flatMap.2 ⟨cs, h1, List.mem_flatMap.2 ⟨d, h2, ?_⟩⟩
  unfold docFault
  rw [h3]
  exact List.mem_singleton.2 rfl

mutual
theorem body_sub : ∀ (n : Node) (cs : List Node), cs ∈ bodiesOf n → ∃ a, Sub (.node .body a cs) n
  | .tok t, cs, h => by simp [bodiesOf] at h
  | .node ty a ks, cs, h => by
    rw [bodiesOf, List.mem_append] at h
    rcases h with h | h
    · split at h
      · rename_i e
        subst e
        rw [List.mem_singleton.1 h]
        exact ⟨a, .refl _⟩
      · simp at h
    · obtain ⟨c, b, hc, hs⟩ := body_subL ks cs h
      exact ⟨b, .child hc hs⟩
theorem body_subL : ∀ (ns : List Node) (cs : List Node), cs ∈ bodiesOfL ns → ∃ c b, c ∈ ns ∧ Sub (.node .body b cs) c
  | [], cs, h => by simp [bodiesOfL] at h
  | n :: ns, cs, h => by
    rw [bodiesOfL, List.mem_append] at h
    rcases h with h | h
    · obtain ⟨a, hs⟩ := body_sub n cs h
      exact ⟨n, a, by simp, hs⟩
    · obtain ⟨c, b, hc, hs⟩ := body_subL ns cs h
      exact ⟨c, b, by simp [hc], hs⟩
end

/-- **C86.** A `function` or `macro` command at the start of the file, or with two or more newlines in the blanks
right before it, is reported as C0111. -/
theorem blank_line_before {o : Opts} {cfg : Cfg} {parseLint : List Token → List Rec} {user : Spec} {explicit : Str → Bool}
    {vt : List ((Str → Bool) × List Str)} {text : Str} {rs : List Rec}
    (h : lintText o cfg parseLint (commandCtx user explicit vt) text = some rs) (hpl : ParserLint parseLint)
    (hp : LintTree.Plain text) (hd : S "C0111" ∉ cfg.disabled) {s : Node} (hs : s ∈ commands (commandCtx user explicit vt) text)
    (hn : nameOf s = S "function" ∨ nameOf s = S "macro") (hf : textBefore text s = [] ∨ 2 ≤ newlinesBefore text s) :
    ⟨S "C0111", startOf s, []⟩ ∈ rs := by
  obtain ⟨tree, e⟩ := lint_parses h
  have ht : treeOf (commandCtx user explicit vt) text = tree := by simp [treeOf, e]
  have key := (docstrings h hpl hp (Or.inl rfl) hd).mem_iff (a := ⟨S "C0111", startOf s, []⟩)
  refine (List.mem_filter.1 (key.2 (List.mem_filter.2 ⟨?_, by simp⟩))).1
  rw [ht]
  have hmem := (every_definition h).mem_iff (a := s) |>.2 (List.mem_filter.2 ⟨hs, by simpa using hn⟩)
  rw [ht] at hmem
  obtain ⟨cs, hcs, hm⟩ := List.mem_flatMap.1 hmem
  obtain ⟨d, hd', rfl⟩ := List.mem_map.1 hm
  refine fault_mem hcs hd' ?_
  obtain ⟨l, n, r, ecs, hdef, hc⟩ := definitions_split cs [] d hd'
  rw [hc, List.append_nil]
  obtain ⟨a, hsub⟩ := body_sub tree cs hcs
  have hg := parse_gapped (command_flat user explicit vt) e (text_behind hp.bom)
    (Props.Parse.no_bom text _ (Props.Parse.tokenize_toks text) hp.bom) _ hsub
  obtain ⟨b, ks, rest, en⟩ : ∃ b s rest, n = .node .flowControl b (s :: rest) := by
    unfold definition at hdef
    split at hdef
    · exact ⟨_, _, _, rfl⟩
    · simp at hdef
  subst en
  have ed : ks = d.1 := by
    simp only [definition] at hdef
    split at hdef
    · injection hdef
    · simp at hdef
  have hn2 : Sub (.node .flowControl b (ks :: rest)) tree := sub_trans (.child (by rw [ecs]; simp) (.refl _)) hsub
  obtain ⟨x, s', rest', e2, hst⟩ := opens_well e hn2 _ _ rfl
  simp only [List.cons.injEq] at e2
  obtain ⟨rfl, rfl⟩ := e2
  have hstart := startOf_flow (a := b) (os := rest) hst
  refine far_comment hp.bom (hg l _ r ecs rfl) ?_
  rw [← ed] at hf
  unfold newlinesBefore textBefore at hf ⊢
  rw [hstart]
  exact hf

/-! ## Examples -/

/-- A file with definitions of all kinds. -/
def demo : Str := S "# Good.\nfunction(f a)\nendfunction()\n\nmacro(g)\n  # Inner\n\n  function(h)\n  endfunction()\nendmacro()\n##  \nfunction(i)\nendfunction()\n#[[ Doc ]]\nfunction(j)\nendfunction()\n"

/-- What is reported. -/
def demoBad : List Rec :=
  [⟨c! "C0111", [5, 0, 37], []⟩, ⟨c! "C0111", [8, 2, 59], []⟩, ⟨c! "C0303", [11], []⟩, ⟨c! "C0112", [12, 0, 103], []⟩,
   ⟨c! "C0112", [15, 0, 140], []⟩]

theorem demo_lint : lintText LintTree.demoOpts {} (parserLint .root LintForms.demoCtx) LintForms.demoCtx demo = some demoBad := by
  unfold LintForms.demoCtx commandCtx
  rw [Props.Gen.root_fast]
  decide +kernel

theorem demo_plain : LintTree.Plain demo where
  bom := by decide +kernel
  apart := Props.Parse.switchesApart_of (by decide +kernel)
  pragma := noPragma_of (by decide +kernel)

/-- The hypotheses are met, and the records are not empty. -/
example : (demoBad.filter fun r => r.id == S "C0111").Perm
    ((docFaults LintTree.demoOpts (treeOf LintForms.demoCtx demo)).filter fun r => r.id == S "C0111") :=
  docstrings demo_lint (LintForms.parser_lint _ _) demo_plain (Or.inl rfl) (by simp)

/-- The file of the witness below. -/
def bracketDemo : Str := S "#[[ Adds two numbers. ]]\nfunction(j)\nendfunction()\n"

/-- A documentation comment in brackets counts as empty, whatever it says. -/
theorem bracket_comment_is_empty :
    lintText LintTree.demoOpts {} (parserLint .root LintForms.demoCtx) LintForms.demoCtx bracketDemo =
      some [⟨c! "C0112", [2, 0, 25], []⟩] := by
  unfold LintForms.demoCtx commandCtx
  rw [Props.Gen.root_fast]
  decide +kernel

end Verif.Props.LintDoc
