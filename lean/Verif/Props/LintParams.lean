import Verif.LintParams
import Verif.Props.LintTree

/-!
# What cmake-lint reports about the parameters of functions and macros (C67)
-/

namespace Verif.Props.LintParams
open Verif Py Verif.Lex Verif.Lint Verif.Props.LintTree
open Verif.Parse hiding Rec Ctx

/-- The definitions among some commands. -/
def definitions (cmds : List Node) : List Node := cmds.filter fun s => [c! "function", c! "macro"].contains (nameOf s)

/-- E0109: parameters that are not words. -/
def notWords (cmds : List Node) : List Rec :=
  (definitions cmds).flatMap fun s => ((properParams s).filter fun t => t.type != .word).map fun t =>
    ⟨S "E0109", tokStart t, [t.spelling]⟩

/-- E0108: words that are there before. -/
def duplicates (cmds : List Node) : List Rec :=
  (definitions cmds).flatMap fun s => ((withEarlier [] (properParams s)).filter repeats).map fun q =>
    ⟨S "E0108", tokStart q.2, [q.2.spelling]⟩

/-- C0202: words that are there before in another letter case only. -/
def caseClashes (cmds : List Node) : List Rec :=
  (definitions cmds).flatMap fun s =>
    ((withEarlier [] (properParams s)).filter fun q => repeatsAnyCase q && !repeats q).map fun q =>
      ⟨S "C0202", tokStart q.2, [q.2.spelling]⟩

/-- R0913: definitions with too many parameters, with their number and the limit. -/
def longLists (o : Opts) (cmds : List Node) : List Rec :=
  ((definitions cmds).filter fun s => decide (((paramsOf s).length : Int) > o.maxArguments)).map fun s =>
    ⟨S "R0913", startOf s, [natStr (paramsOf s).length, intStr o.maxArguments]⟩

/-- The checks of parameters. -/
def paramChecks (o : Opts) : List (Str × (List Node → List Rec)) :=
  [(S "E0109", notWords), (S "E0108", duplicates), (S "C0202", caseClashes), (S "R0913", longLists o)]

/-! ## From calls to these records -/

theorem flatMap_definitions {β : Type} (f : Node → List β) (cmds : List Node) :
    (places [] cmds).flatMap (openRec defNames f) = (definitions cmds).flatMap f := by
  have : ∀ (l : List Node) (st : List Str), (places st l).flatMap (openRec defNames f) = (definitions l).flatMap f := by
    intro l
    induction l with
    | nil => intro st; rfl
    | cons s l ih =>
      intro st
      rw [places, List.flatMap_cons, ih, definitions, definitions, List.filter_cons]
      have e : defNames = [c! "function", c! "macro"] := rfl
      simp only [openRec, e]
      cases h : [c! "function", c! "macro"].contains (nameOf s) with
      | true => simp only [if_true, List.flatMap_cons]
      | false => simp only [Bool.false_eq_true, if_false, List.nil_append]
  exact this cmds []

theorem only_flatMap {α : Type} (code : Str) (f : α → List Call) (l : List α) :
    only code (l.flatMap f) = l.flatMap fun a => only code (f a) := by
  induction l with
  | nil => rfl
  | cons a l ih => simp [only_append, ih]

theorem map_flatMap {α β γ : Type} (g : β → γ) (f : α → List β) (l : List α) :
    (l.flatMap f).map g = l.flatMap fun a => (f a).map g := by
  induction l with
  | nil => rfl
  | cons a l ih => simp [ih]

theorem flatMap_if {α β : Type} (p : α → Bool) (f : α → β) (l : List α) :
    (l.filter p).map f = l.flatMap fun a => if p a then [f a] else [] := by
  induction l with
  | nil => rfl
  | cons a l ih => cases h : p a <;> simp [h, ih]

theorem earlier_snd (ts : List Token) : ∀ e, (withEarlier e ts).map (·.2) = ts := by
  induction ts with
  | nil => intro e; rfl
  | cons t ts ih => intro e; simp [withEarlier, ih]

theorem only_one (code : Str) (r : Rec) : only code [.record r] = if r.id = code then [.record r] else [] := by
  by_cases h : r.id = code <;> simp [only, codeOf, h]

theorem paramRec_only (o : Opts) (q : List Token × Token) :
    only (S "E0109") (paramRec o q) =
        (if (q.2.type != .word) = true then [.record ⟨S "E0109", tokStart q.2, [q.2.spelling]⟩] else []) ∧
      only (S "E0108") (paramRec o q) =
        (if repeats q = true then [.record ⟨S "E0108", tokStart q.2, [q.2.spelling]⟩] else []) ∧
      only (S "C0202") (paramRec o q) =
        (if (repeatsAnyCase q && !repeats q) = true then [.record ⟨S "C0202", tokStart q.2, [q.2.spelling]⟩] else []) ∧
      only (S "R0913") (paramRec o q) = [] := by
  have ne : ∀ a b : Str, a ≠ b → ∀ l as, only b [.record ⟨a, l, as⟩] = [] := by
    intro a b h l as
    rw [only_one]
    exact if_neg h
  have eq : ∀ (a : Str) l as, only a [.record ⟨a, l, as⟩] = [.record ⟨a, l, as⟩] := by
    intro a l as
    rw [only_one]
    exact if_pos rfl
  unfold paramRec
  by_cases hw : q.2.type = .word
  · rw [if_neg (c := q.2.type ≠ .word) (by simp [hw]), if_neg (c := (q.2.type != .word) = true) (by simp [hw])]
    by_cases hr : repeats q = true
    · rw [if_pos hr, if_pos hr, if_neg (c := (repeatsAnyCase q && !repeats q) = true) (by simp [hr])]
      exact ⟨ne _ _ (by decide) _ _, eq _ _ _, ne _ _ (by decide) _ _, ne _ _ (by decide) _ _⟩
    · rw [if_neg hr, if_neg hr]
      by_cases hc : repeatsAnyCase q = true
      · rw [if_pos hc, if_pos (c := (repeatsAnyCase q && !repeats q) = true) (by simp [hc, hr])]
        exact ⟨ne _ _ (by decide) _ _, ne _ _ (by decide) _ _, eq _ _ _, ne _ _ (by decide) _ _⟩
      · rw [if_neg hc, if_neg (c := (repeatsAnyCase q && !repeats q) = true) (by simp [hc])]
        split
        · exact ⟨ne _ _ (by decide) _ _, ne _ _ (by decide) _ _, ne _ _ (by decide) _ _, ne _ _ (by decide) _ _⟩
        · exact ⟨rfl, rfl, rfl, rfl⟩
  · rw [if_pos hw, if_pos (c := (q.2.type != .word) = true) (by simp [hw]), if_neg (c := repeats q = true) (by simp [repeats, hw]),
      if_neg (c := (repeatsAnyCase q && !repeats q) = true) (by simp [repeatsAnyCase, hw])]
    exact ⟨eq _ _ _, ne _ _ (by decide) _ _, ne _ _ (by decide) _ _, ne _ _ (by decide) _ _⟩

theorem paramsRec_only {o : Opts} {code : Str} {spec : List Node → List Rec} (hm : (code, spec) ∈ paramChecks o) (cmds : List Node) :
    (definitions cmds).flatMap (fun s => only code (paramsRec o s)) = (spec cmds).map .record := by
  have count : ∀ s, only code (if ((paramsOf s).length : Int) > o.maxArguments then
      [Call.record ⟨S "R0913", startOf s, [natStr (paramsOf s).length, intStr o.maxArguments]⟩] else []) =
      if code = S "R0913" then (if ((paramsOf s).length : Int) > o.maxArguments then
      [Call.record ⟨S "R0913", startOf s, [natStr (paramsOf s).length, intStr o.maxArguments]⟩] else []) else [] := by
    intro s
    split
    · rw [only_one]
      by_cases h : code = S "R0913"
      · rw [if_pos h, if_pos h.symm]
      · rw [if_neg h, if_neg fun e => h e.symm]
    · simp
  simp only [paramChecks, List.mem_cons, List.not_mem_nil, or_false, Prod.mk.injEq] at hm
  rcases hm with ⟨rfl, rfl⟩ | ⟨rfl, rfl⟩ | ⟨rfl, rfl⟩ | ⟨rfl, rfl⟩
  · rw [notWords, map_flatMap]
    refine flatMap_congr fun s _ => ?_
    rw [paramsRec, only_append, count, if_neg (by decide), List.append_nil, only_flatMap, List.map_map]
    conv => rhs; rw [← earlier_snd (properParams s) []]
    rw [List.filter_map, List.map_map, flatMap_if]
    refine flatMap_congr fun q _ => ?_
    rw [(paramRec_only o q).1]
    rfl
  · rw [duplicates, map_flatMap]
    refine flatMap_congr fun s _ => ?_
    rw [paramsRec, only_append, count, if_neg (by decide), List.append_nil, only_flatMap, List.map_map, flatMap_if]
    refine flatMap_congr fun q _ => ?_
    rw [(paramRec_only o q).2.1]
    rfl
  · rw [caseClashes, map_flatMap]
    refine flatMap_congr fun s _ => ?_
    rw [paramsRec, only_append, count, if_neg (by decide), List.append_nil, only_flatMap, List.map_map, flatMap_if]
    refine flatMap_congr fun q _ => ?_
    rw [(paramRec_only o q).2.2.1]
    rfl
  · rw [longLists, List.map_map, flatMap_if]
    refine flatMap_congr fun s _ => ?_
    rw [paramsRec, only_append, count, if_pos rfl]
    have z : only (S "R0913") ((withEarlier [] (properParams s)).flatMap (paramRec o)) = [] := by
      rw [only_flatMap, List.flatMap_eq_nil_iff]
      exact fun q _ => (paramRec_only o q).2.2.2
    rw [z, List.nil_append]
    by_cases h : ((paramsOf s).length : Int) > o.maxArguments
    · rw [if_pos h, if_pos (by simp [h])]
      rfl
    · rw [if_neg h, if_neg (by simp [h])]

theorem checks_codes {o : Opts} {code : Str} {spec : List Node → List Rec} (hm : (code, spec) ∈ paramChecks o) :
    code ∈ paramCodes := by
  simp only [paramChecks, List.mem_cons, List.not_mem_nil, or_false, Prod.mk.injEq] at hm
  rcases hm with ⟨rfl, _⟩ | ⟨rfl, _⟩ | ⟨rfl, _⟩ | ⟨rfl, _⟩ <;> decide

theorem report_params {o : Opts} {cfg : Cfg} {parseLint : List Token → List Rec} {ctx : Parse.Ctx} {text : Str}
    {rs : List Rec} (h : lintText o cfg parseLint ctx text = some rs) (hpl : ParserLint parseLint)
    {code : Str} {spec : List Node → List Rec} (hm : (code, spec) ∈ paramChecks o) :
    (Plain text → code ∉ cfg.disabled → (rs.filter fun r => r.id == code).Perm (spec (commands ctx text))) ∧
      (∀ r, r.id = code → rs.count r ≤ (spec (commands ctx text)).count r) := by
  refine report_of h hpl ?_ ?_
  · have := checks_codes hm
    simp only [paramCodes, List.mem_cons, List.not_mem_nil, or_false] at this
    rcases this with rfl | rfl | rfl | rfl <;> exact ⟨by decide, by decide, by decide, by decide⟩
  · intro ts tree calls h1 h2
    rw [← paramsRec_only hm, ← flatMap_definitions]
    exact params_calls (checks_codes hm) h1 h2

/-! ## C67 -/

/-- **C67.** For every function and macro, cmake-lint reports exactly the parameters that are not words
(E0109), the words that are there before (E0108) or there before but for the letter case (C0202), and
the definitions with more parameters than the limit (R0913). -/
theorem bad_parameters {o : Opts} {cfg : Cfg} {parseLint : List Token → List Rec} {ctx : Parse.Ctx} {text : Str}
    {rs : List Rec} (h : lintText o cfg parseLint ctx text = some rs) (hpl : ParserLint parseLint) (hp : Plain text)
    {code : Str} {spec : List Node → List Rec} (hm : (code, spec) ∈ paramChecks o) (hd : code ∉ cfg.disabled) :
    (rs.filter fun r => r.id == code).Perm (spec (commands ctx text)) := (report_params h hpl hm).1 hp hd

/-- With pragmas and any other text, only these are reported. -/
theorem bad_parameters_sound {o : Opts} {cfg : Cfg} {parseLint : List Token → List Rec} {ctx : Parse.Ctx} {text : Str}
    {rs : List Rec} (h : lintText o cfg parseLint ctx text = some rs) (hpl : ParserLint parseLint)
    {code : Str} {spec : List Node → List Rec} (hm : (code, spec) ∈ paramChecks o) (r : Rec) (hr : r.id = code) :
    rs.count r ≤ (spec (commands ctx text)).count r := (report_params h hpl hm).2 r hr

/-! ## A file that meets the hypotheses -/

/-- All four at once. -/
def demo : Str := S "function(f a \"b\" A a c)\n  set(x y)\nendfunction()\nmacro(M x y)\nendmacro()\n"

theorem demo_plain : Plain demo where
  bom := by decide +kernel
  apart := Props.Parse.switchesApart_of (by decide +kernel)
  pragma := noPragma_of (by decide +kernel)

/-- The limit is four parameters. -/
def opts : Opts := { demoOpts with maxArguments := 4, maxStatements := 50 }

theorem demo_lint : lintText opts {} (fun _ => []) Props.Parse.exampleCtx demo = some
    [⟨S "C0111", [1, 0, 0], []⟩, ⟨S "R0913", [1, 0, 0], [S "5", S "4"]⟩, ⟨S "E0109", [1, 13, 13], [S "\"b\""]⟩,
     ⟨S "C0202", [1, 17, 17], [S "A"]⟩, ⟨S "E0108", [1, 19, 19], [S "a"]⟩, ⟨S "C0111", [4, 0, 49], []⟩] := by
  decide +kernel

example : ([⟨S "E0108", [1, 19, 19], [S "a"]⟩] : List Rec).Perm (duplicates (commands Props.Parse.exampleCtx demo)) :=
  bad_parameters demo_lint demo_parser demo_plain (.tail _ (.head _)) (by simp)

example : ([⟨S "C0202", [1, 17, 17], [S "A"]⟩] : List Rec).Perm (caseClashes (commands Props.Parse.exampleCtx demo)) :=
  bad_parameters demo_lint demo_parser demo_plain (.tail _ (.tail _ (.head _))) (by simp)

example : ([⟨S "R0913", [1, 0, 0], [S "5", S "4"]⟩] : List Rec).Perm (longLists opts (commands Props.Parse.exampleCtx demo)) :=
  bad_parameters demo_lint demo_parser demo_plain (.tail _ (.tail _ (.tail _ (.head _)))) (by simp)

/-- Parameters after a closing parenthesis are counted but not looked at. -/
theorem parameters_after_parenthesis : (lintText { opts with maxArguments := 3 } {} (fun _ => []) Props.Parse.exampleCtx
    (S "function(f (a) a)\nendfunction()\n")).map (·.map fun r => (r.id, r.args)) =
      some [(S "C0111", []), (S "R0913", [S "4", S "3"]), (S "E0109", [S "("])] := by
  decide +kernel

end Verif.Props.LintParams
