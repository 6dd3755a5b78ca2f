import Verif.Ctest
import Verif.Props.Groups
import Verif.LintReport

/-!
# `ctest-to` never reports a test (C83)

`ctest-to` is meant to print every test that the `add_test()` commands of a directory
declare.  It cannot: it finishes only when the test file of the directory is missing or
holds no command at all, and then it prints no test.
-/

namespace Verif.Props.Ctest
open Verif Py Verif.Lex Verif.Parse Verif.Ctest

/-- The text has nothing but blanks, comments, formatting switches and a byte-order mark. -/
def NothingToRead (text : Str) : Prop :=
  ∀ t ∈ Props.Lex.toks text, t.type = .whitespace ∨ t.type = .newline ∨ t.type = .comment ∨ t.type = .bracketComment ∨
    t.type = .formatOff ∨ t.type = .formatOn ∨ t.type = .bom

theorem nothing_iff (text : Str) : NothingToRead text ↔ (Props.Lex.toks text).all Ctest.quiet = true := by
  rw [List.all_eq_true]
  refine forall_congr' fun t => forall_congr' fun _ => ?_
  cases ht : t.type <;> simp [Ctest.quiet, isWs, isAnyComment, isComment, isOnOff, ht]

theorem parseFile_iff (files : Files) (path : Str) (st st' : State) :
    parseFile files path st = .ok st' ↔ st' = st ∧ ∀ text, files path = some text → NothingToRead text := by
  unfold parseFile
  cases e : files path with
  | none => simp [eq_comm]
  | some text =>
    simp only [Props.Parse.tokenize_toks text, Option.some.injEq]
    have := body_iff ((Props.Lex.toks text).length + 1) (Props.Lex.toks text) (by omega)
    rw [← nothing_iff] at this
    cases hb : body ((Props.Lex.toks text).length + 1) (Props.Lex.toks text) with
    | error f =>
      rw [hb] at this
      simp only [reduceCtorEq, false_iff] at this ⊢
      rintro ⟨_, h⟩
      exact this (h _ rfl)
    | ok u =>
      rw [hb] at this
      simp only [Except.ok.injEq, forall_eq']
      exact ⟨fun h => ⟨h.symm, this.1 rfl⟩, fun h => h.1.symm⟩

/-- The loop over the directories: two rounds are enough, whatever the files hold. -/
theorem run_iff (files : Files) (testFile abspath : Str → Str) (n : Nat) (fmt : Option Format) (dir : Str) (out : Output) :
    run files testFile abspath (n + 2) fmt dir = .ok out ↔
      (∀ text, files (testFile (abspath dir)) = some text → NothingToRead text) ∧
        out = (match fmt with
          | none => .nothing
          | some f => .tests f []) := by
  have hp := parseFile_iff files (testFile (abspath dir)) { queue := [], tests := [] }
  unfold run
  simp only [drain]
  cases e : parseFile files (testFile (abspath dir)) { queue := [], tests := [] } with
  | error f =>
    simp only [reduceCtorEq, false_iff]
    rintro ⟨h, _⟩
    have := (hp _).2 ⟨rfl, h⟩
    rw [e] at this
    cases this
  | ok st =>
    obtain ⟨rfl, h⟩ := (hp st).1 e
    simp only
    cases fmt <;> simp [h, eq_comm] <;> exact fun _ => h

/-- Whatever the directory holds, a run that finishes prints no test. -/
theorem no_test_is_reported (files : Files) (testFile abspath : Str → Str) (n : Nat) (fmt : Option Format) (dir : Str) (out : Output)
    (h : run files testFile abspath n fmt dir = .ok out) : ∀ f names, out = .tests f names → names = [] := by
  match n with
  | 0 => simp [run, drain] at h
  | 1 =>
    unfold run at h
    simp only [drain] at h
    cases e : parseFile files (testFile (abspath dir)) { queue := [], tests := [] } <;> simp [e] at h
  | n + 2 =>
    obtain ⟨_, rfl⟩ := (run_iff _ _ _ _ _ _ _).1 h
    intro f names e
    cases fmt <;> simp_all

/-- A run finishes exactly when the test file is missing or holds no command, and never
reads a second file. -/
theorem finishes_iff (files : Files) (testFile abspath : Str → Str) (n : Nat) (fmt : Option Format) (dir : Str) :
    (∃ out, run files testFile abspath (n + 2) fmt dir = .ok out) ↔
      (files (testFile (abspath dir)) = none ∨ ∃ text, files (testFile (abspath dir)) = some text ∧ NothingToRead text) := by
  constructor
  · rintro ⟨out, h⟩
    have h1 := ((run_iff _ _ _ _ _ _ _).1 h).1
    cases e : files (testFile (abspath dir)) with
    | none => exact Or.inl rfl
    | some text => exact Or.inr ⟨text, rfl, h1 _ e⟩
  · intro h
    refine ⟨_, (run_iff _ _ _ _ _ _ _).2 ⟨?_, rfl⟩⟩
    intro text e
    rcases h with h | ⟨_, h, h1⟩
    · rw [e] at h; cases h
    · rw [e] at h; cases h; exact h1

/-- With neither `--json` nor `--xml` nothing is printed. -/
theorem default_prints_nothing (files : Files) (testFile abspath : Str → Str) (n : Nat) (dir : Str) (out : Output)
    (h : run files testFile abspath (n + 2) none dir = .ok out) : out = .nothing :=
  ((run_iff _ _ _ _ _ _ _).1 h).2

/-- The tool fails on every test file in which the parser of the other tools finds a
command. -/
theorem fails_on_commands (files : Files) (testFile abspath : Str → Str) (n : Nat) (fmt : Option Format) (dir text : Str)
    (hf : files (testFile (abspath dir)) = some text) (ctx : Parse.Ctx) (tree : Node)
    (hp : Parse.parse ctx (Props.Lex.toks text) = .ok tree) (hc : stmtsOf tree ≠ [])
    (hb : text.head? ≠ some BOM) (hs : SwitchesApart (Props.Lex.toks text)) :
    ∃ e, run files testFile abspath n fmt dir = .error e := by
  match n with
  | 0 => exact ⟨_, rfl⟩
  | n + 1 =>
    obtain ⟨s, hs'⟩ := List.exists_mem_of_ne_nil _ hc
    obtain ⟨name, l, ws, r, e, h1, _⟩ := Props.Groups.statement_words hp hs'
    have hm : name ∈ tree.toks := by
      have : name ∈ program s.toks := by rw [e]; simp
      exact Verif.Lint.sub_toks (Props.Groups.stmtsOf_sub tree hs').1 _ ((List.mem_filter.1 this).1)
    have hm' := (Props.Parse.tokens_conserved_partial ctx _ tree hp
      (Props.Parse.no_bom text _ (Props.Parse.tokenize_toks text) hb) hs).1.mem_iff.1 hm
    have hn : ¬ NothingToRead text := by
      intro h
      have := h _ hm'
      simp [h1] at this
    have hp := parseFile_iff files (testFile (abspath dir)) { queue := [], tests := [] }
    unfold run
    simp only [drain]
    cases e : parseFile files (testFile (abspath dir)) { queue := [], tests := [] } with
    | error f => exact ⟨f, rfl⟩
    | ok st => exact absurd (((hp st).1 e).2 _ hf) hn

/-- A directory with one test. -/
def demoFiles : Files := fun p => if p = S "/t/CTestTestfile.cmake" then some (S "# tests\nadd_test(a \"/bin/a\")\n") else none

def demoPath (d : Str) : Str := d ++ S "/CTestTestfile.cmake"

/-- The test is not reported: the tool stops with an `AttributeError`. -/
theorem one_test_fails : run demoFiles demoPath id 5 (some .json) (S "/t") = .error .attribute := by decide +kernel

/-- A directory without a test file: an empty list. -/
example : run demoFiles demoPath id 5 (some .json) (S "/u") = .ok (.tests .json []) := by decide +kernel

/-- With neither option: nothing, not JSON. -/
example : run demoFiles demoPath id 5 none (S "/u") = .ok .nothing := by decide +kernel

/-- The hypotheses of `fails_on_commands` are met by the demo file. -/
example : (match Parse.parse { db := fun _ => none, explicit := fun _ => false, vartags := [] }
      (Props.Lex.toks (S "# tests\nadd_test(a \"/bin/a\")\n")) with
    | .ok tree => (stmtsOf tree).length
    | .error _ => 0) = 1 := by
  decide +kernel

end Verif.Props.Ctest
