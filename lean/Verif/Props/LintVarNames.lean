import Verif.LintVarNames
import Verif.Props.LintNames

/-!
# What cmake-lint reports about the names of variables (C80)
-/

namespace Verif.Props.LintVarNames
open Verif Py Verif.Lex Verif.Lint Verif.Props.LintTree Verif.Props.LintParams Verif.Props.LintNames
open Verif.Parse hiding Rec Ctx

/-- Any token. -/
def anyTok : Token := { type := .word, spelling := [], index := 0, begin_ := ⟨1, 0, 0⟩, end_ := ⟨1, 0, 0⟩ }

instance (name : Str) : Decidable (Misspelt name) :=
  decidable_of_iff (checkVarname name anyTok [] ≠ []) (by
    constructor
    · intro h
      by_cases hm : Misspelt name
      · exact hm
      · exact absurd ((varname_eq name anyTok []).2 hm) h
    · intro hm
      rw [(varname_eq name anyTok []).1 hm]
      simp)

/-! ## The expected records -/

/-- The record for a name, if it is misspelt. -/
def misspelt (context : Str) (t : Token) (name : Str) : List Rec :=
  if Misspelt name then [⟨S "W0105", tokStart t, [context, name]⟩] else []

/-- The records for assignments and for references, given the commands and the words of a file. -/
def misspeltNames (cmds : List Node) (words : List Token) : List Rec :=
  (cmds.flatMap fun s => (target s).toList.flatMap fun t => misspelt (c! "Assignment to") t t.spelling) ++
  (words.flatMap fun t => if t.type = .quoted ∨ t.type = .deref then (references t.spelling).flatMap (misspelt (c! "Reference to") t) else [])

theorem misspelt_calls (context : Str) (t : Token) (name : Str) :
    checkVarname name t context = (misspelt context t name).map .record := by
  unfold misspelt
  split
  · rename_i h
    rw [(varname_eq name t context).1 h]
    rfl
  · rename_i h
    rw [(varname_eq name t context).2 h]
    rfl

theorem report_vars {o : Opts} {cfg : Cfg} {parseLint : List Token → List Rec} {user : Spec} {explicit : Str → Bool}
    {vt : List ((Str → Bool) × List Str)} {text : Str} {rs : List Rec}
    (h : lintText o cfg parseLint (commandCtx user explicit vt) text = some rs) (hpl : ParserLint parseLint)
    (hu : ∀ n ∈ [c! "set", c! "list"], n ∉ userNames user) (hb : text.head? ≠ some BOM) (ha : SwitchesApart (Props.Lex.toks text))
    (hsi : SimpleAssignments (commands (commandCtx user explicit vt) text)) :
    (LintTree.Plain text → S "W0105" ∉ cfg.disabled →
      (rs.filter fun r => r.id == S "W0105").Perm
        (misspeltNames (commands (commandCtx user explicit vt) text) (program (Props.Lex.toks text)))) ∧
      (∀ r, r.id = S "W0105" →
        rs.count r ≤ (misspeltNames (commands (commandCtx user explicit vt) text) (program (Props.Lex.toks text))).count r) := by
  refine report_tree (spec := fun cmds => misspeltNames cmds (program (Props.Lex.toks text))) h hpl
    ⟨by decide, by decide, by decide, by decide⟩ ?_
  intro tree calls h1 h2
  have hcmds : commands (commandCtx user explicit vt) text = stmtsOf tree := by simp [commands, h1]
  have cons := Props.Parse.tokens_conserved_partial _ _ tree h1
    (Props.Parse.no_bom text _ (Props.Parse.tokenize_toks text) hb) ha
  have shape : ∀ s ∈ stmtsOf tree, ∀ u ∈ s.toks, Props.Lex.Shape u.type u.spelling := by
    intro s hs u hu
    obtain ⟨k1, _, _, _⟩ := Props.Groups.stmtsOf_sub tree hs
    exact Props.Lex.token_shape text _ (Props.Parse.tokenize_toks text) u (cons.1.mem_iff.1 (sub_toks k1 u hu))
  refine (vars_calls h1 (fun n hn => by simpa using hu n hn) ?_ h2).trans (.of_eq ?_)
  · intro s hs hn
    exact simple_tame h1 hs (shape s hs) (hsi s (hcmds ▸ hs) hn)
  · rw [cons.2, misspeltNames, List.map_append, map_flatMap, map_flatMap]
    congr 1
    · refine flatMap_congr fun s _ => ?_
      rw [map_flatMap]
      exact flatMap_congr fun t _ => misspelt_calls _ _ _
    · refine flatMap_congr fun t _ => ?_
      split
      · rw [map_flatMap]
        exact flatMap_congr fun name _ => misspelt_calls _ _ _
      · rfl

/-! ## C80 -/

/-- **C80.** cmake-lint reports W0105 exactly for assignments and references to variables whose name is that of
a built-in variable in another letter case. -/
theorem misspelt_names_partial {o : Opts} {cfg : Cfg} {parseLint : List Token → List Rec} {user : Spec} {explicit : Str → Bool}
    {vt : List ((Str → Bool) × List Str)} {text : Str} {rs : List Rec}
    (h : lintText o cfg parseLint (commandCtx user explicit vt) text = some rs) (hpl : ParserLint parseLint)
    (hu : ∀ n ∈ [c! "set", c! "list"], n ∉ userNames user) (hp : LintTree.Plain text)
    (hsi : SimpleAssignments (commands (commandCtx user explicit vt) text)) (hd : S "W0105" ∉ cfg.disabled) :
    (rs.filter fun r => r.id == S "W0105").Perm
      (misspeltNames (commands (commandCtx user explicit vt) text) (program (Props.Lex.toks text))) :=
  (report_vars h hpl hu hp.bom hp.apart hsi).1 hp hd

/-- With pragmas, only these are reported. -/
theorem misspelt_names_sound {o : Opts} {cfg : Cfg} {parseLint : List Token → List Rec} {user : Spec} {explicit : Str → Bool}
    {vt : List ((Str → Bool) × List Str)} {text : Str} {rs : List Rec}
    (h : lintText o cfg parseLint (commandCtx user explicit vt) text = some rs) (hpl : ParserLint parseLint)
    (hu : ∀ n ∈ [c! "set", c! "list"], n ∉ userNames user) (hb : text.head? ≠ some BOM) (ha : SwitchesApart (Props.Lex.toks text))
    (hsi : SimpleAssignments (commands (commandCtx user explicit vt) text)) (r : Rec) (hr : r.id = S "W0105") :
    rs.count r ≤ (misspeltNames (commands (commandCtx user explicit vt) text) (program (Props.Lex.toks text))).count r :=
  (report_vars h hpl hu hb ha hsi).2 r hr

/-- **C80.** A built-in name as it is written in the table is never reported. -/
theorem builtin_not_misspelt {name : Str} (h : (name, none) ∈ builtinPatterns) : ¬ Misspelt name :=
  fun hm => hm.2 _ h ⟨[], by simp⟩

/-- **C80.** What is reported is a built-in name in other letters, with something after it or not. -/
theorem misspelt_is_builtin {name : Str} (h : Misspelt name) :
    ∃ known rest, (known, none) ∈ builtinPatterns ∧ upper name = known ++ rest ∧ ∀ rest', name ≠ known ++ rest' := by
  obtain ⟨⟨before, ⟨p1, p2⟩, after, e, hp, ⟨hf, _⟩⟩, hno⟩ := h
  dsimp only at hp
  subst hp
  obtain ⟨rest, hr⟩ := hf
  have hm : (p1, none) ∈ builtinPatterns := by rw [e]; simp
  exact ⟨p1, rest, hm, hr, fun rest' e' => hno _ hm ⟨rest', e'⟩⟩

/-! ## Examples -/

/-- A file. -/
def demo : Str := S "# A file\nset(cmake_build_type \"${cmake_Source_dir}x${project_source_dir}\")\nlist(APPEND Win32 ${unix})\nset(CMAKE_BUILD_TYPE a)\nset(foo ${UNIX})\n"

/-- What is reported. -/
def demoBad : List Rec :=
  [⟨c! "W0105", [2, 4, 13], [c! "Assignment to", c! "cmake_build_type"]⟩,
   ⟨c! "W0105", [3, 12, 87], [c! "Assignment to", c! "Win32"]⟩,
   ⟨c! "W0105", [3, 18, 93], [c! "Reference to", c! "unix"]⟩]

theorem demo_lint : lintText LintTree.demoOpts {} (parserLint .root LintForms.demoCtx) LintForms.demoCtx demo = some demoBad := by
  unfold LintForms.demoCtx commandCtx
  rw [Props.Gen.root_fast]
  decide +kernel

theorem demo_plain : LintTree.Plain demo where
  bom := by decide +kernel
  apart := Props.Parse.switchesApart_of (by decide +kernel)
  pragma := noPragma_of (by decide +kernel)

theorem demo_simple : SimpleAssignments (commands LintForms.demoCtx demo) := by
  have : (commands LintForms.demoCtx demo).all (fun s => simpleArgs s) = true := by
    unfold LintForms.demoCtx commandCtx
    rw [Props.Gen.root_fast]
    decide +kernel
  intro s hs _
  exact List.all_eq_true.1 this s hs

/-- The hypotheses are met, and the records are not empty. -/
example : (demoBad.filter fun r => r.id == S "W0105").Perm
    (misspeltNames (commands LintForms.demoCtx demo) (program (Props.Lex.toks demo))) :=
  misspelt_names_partial demo_lint (LintForms.parser_lint _ _) (by decide) demo_plain demo_simple (by simp)

/-- A name that only starts like a built-in one is reported, one that ends in `_SOURCE_DIR` is not. -/
theorem only_the_beginning : Misspelt (c! "unix_name") ∧ ¬ Misspelt (c! "cmake_Source_dir") := by decide +kernel

end Verif.Props.LintVarNames
