import Verif.LocalTop
import Verif.LocalSpec

/-!
# How far the parse functions look ahead (lemmas for C68)
-/

namespace Verif.Parse
open Verif Py Lex

/-- A function that looks only at the first `k` tokens with a meaning. -/
def Near (k : Nat) (f : List Token → Except Err ArgP) : Prop :=
  ∀ a b, (a = [] ↔ b = []) → (semantics a).take k = (semantics b).take k → f a = f b

/-- An entry that looks at no more than `k` tokens. -/
def Within (k : Nat) (p : ArgP) : Prop := p.choice true = true ∨ ∃ f, p = .choose f ∧ Near k f

theorem take_get {k i : Nat} {a b : List Token} (h : (semantics a).take k = (semantics b).take k) (hi : i < k) :
    nthSem i a = nthSem i b := by
  have := congrArg (·[i]?) h
  simpa [nthSem, List.getElem?_take, hi] using this

theorem Near.by {k : Nat} {f : List Token → Except Err ArgP}
    (h : ∀ a b, (a = [] ↔ b = []) → (∀ i < k, nthSem i a = nthSem i b) → f a = f b) : Near k f :=
  fun a b h1 h2 => h a b h1 fun _ hi => take_get h2 hi

theorem anyLogged_near {a b : List Token} (h : a = [] ↔ b = []) : anyLogged a = anyLogged b := by
  simp only [anyLogged, h]

theorem foreachFn_near : Within 2 foreachFn := Or.inr ⟨_, rfl, .by fun a b h0 h => by
  simp only [nthWord, h 1 (by omega), anyLogged_near h0]⟩

theorem addExecutable_near : Within 2 addExecutable := Or.inr ⟨_, rfl, .by fun a b h0 h => by
  simp only [h 1 (by omega), anyLogged_near h0]⟩

theorem addLibrary_near : Within 3 addLibrary := Or.inr ⟨_, rfl, .by fun a b h0 h => by
  simp only [h 1 (by omega), h 2 (by omega), anyLogged_near h0]⟩

theorem addCustomCommand_near : Within 1 addCustomCommand := Or.inr ⟨_, rfl, .by fun a b _ h => by
  simp only [h 0 (by omega)]⟩

theorem byFirst_near (table : List (Str × ArgP)) : Within 1 (byFirst table) := Or.inr ⟨_, rfl, .by fun a b _ h => by
  simp only [h 0 (by omega)]⟩

theorem installFn_near : Within 1 installFn := Or.inr ⟨_, rfl, .by fun a b h0 h => by
  simp only [nthWord, h 0 (by omega), anyLogged_near h0]⟩

theorem buildCommand_near : Within 2 buildCommand := Or.inr ⟨_, rfl, .by fun a b _ h => by
  simp only [h 1 (by omega)]⟩

theorem cmakePolicy_near : Within 1 cmakePolicy := Or.inr ⟨_, rfl, .by fun a b _ h => by
  simp only [h 0 (by omega)]⟩

theorem getFilenameComponent_near : Within 3 getFilenameComponent := Or.inr ⟨_, rfl, .by fun a b _ h => by
  have e : nthWord 2 a = nthWord 2 b := by rw [nthWord, nthWord, h 2 (by omega)]
  rw [e]⟩

theorem sourceGroup_near : Within 2 sourceGroup := Or.inr ⟨_, rfl, .by fun a b _ h => by
  have e : nthWord 0 a = nthWord 0 b := by rw [nthWord, nthWord, h 0 (by omega)]
  have e1 : nthWord 1 a = nthWord 1 b := by rw [nthWord, nthWord, h 1 (by omega)]
  rw [e, e1]⟩

theorem oldInstallFiles_near : Within 3 oldInstallFiles := Or.inr ⟨_, rfl, .by fun a b _ h => by
  have e : nthWord 1 a = nthWord 1 b := by rw [nthWord, nthWord, h 1 (by omega)]
  rw [e, h 2 (by omega)]⟩

theorem ctestSleep_near : Within 2 ctestSleep := Or.inr ⟨_, rfl, fun a b _ h => by
  have hl := congrArg List.length h
  simp only [List.length_take] at hl
  have : ((semantics a).length = 1) = ((semantics b).length = 1) := propext (by omega)
  simp only [this]⟩

/-- Every entry of the table. -/
theorem funTable_near : ∀ kp ∈ funTable, Within ((looksAt.lookup kp.1).getD 1) kp.2 := by
  unfold funTable
  repeat' refine List.forall_mem_cons.2 ⟨?_, ?_⟩
  all_goals
    first
    | exact fun _ h => absurd h (List.not_mem_nil)
    | exact Or.inl rfl
    | exact foreachFn_near
    | exact addExecutable_near
    | exact addLibrary_near
    | exact addCustomCommand_near
    | exact byFirst_near _
    | exact installFn_near
    | exact buildCommand_near
    | exact cmakePolicy_near
    | exact getFilenameComponent_near
    | exact sourceGroup_near
    | exact oldInstallFiles_near
    | exact ctestSleep_near

theorem flowTable_near : ∀ kp ∈ flowTable, kp.2.choice true = true := by
  unfold flowTable
  repeat' refine List.forall_mem_cons.2 ⟨?_, ?_⟩
  all_goals
    first
    | exact fun _ h => absurd h (List.not_mem_nil)
    | rfl

theorem looksAt_pos (name : Str) : 1 ≤ (looksAt.lookup name).getD 1 := by
  cases e : looksAt.lookup name with
  | none => exact Nat.le_refl 1
  | some k =>
    have h := lookup_pair_mem e
    have : ∀ kp ∈ looksAt, 1 ≤ kp.2 := by decide
    exact this _ h

theorem Within.mono {i k : Nat} {p : ArgP} (hik : i ≤ k) (h : Within i p) : Within k p := by
  rcases h with h | ⟨f, e, h⟩
  · exact Or.inl h
  · refine Or.inr ⟨f, e, fun a b h1 h2 => h a b h1 ?_⟩
    have := congrArg (List.take i) h2
    simpa [List.take_take, Nat.min_eq_left hik] using this

theorem commandDb_near {user : Spec} {name : Str} {p : ArgP} (h : commandDb user name = some p) :
    Within ((looksAt.lookup name).getD 1) p := by
  have std : ∀ (kw : List (Str × Spec)) {p : ArgP}, (funtree kw).lookup name = some p → p.choice true = true := by
    intro kw p e
    rw [funtree_lookup] at e
    cases hs : kw.lookup name with
    | none => rw [hs] at e; simp at e
    | some s =>
      rw [hs] at e
      simp only [Option.map_some, Option.some.injEq] at e
      subst e
      have hs := parser_simple name s
      have := entry_mono (.simple _ hs)
      generalize Spec.parser name s = p at this hs
      cases this with
      | simple _ h => exact choice_of_simple h
      | choose f _ => simp [ArgP.simple] at hs
  unfold commandDb at h
  split at h
  · rename_i q e
    simp only [Option.some.injEq] at h
    exact h ▸ Or.inl (std _ e)
  · unfold builtinDb builtinOf at h
    split at h
    · rename_i q e
      simp only [Option.some.injEq] at h
      exact h ▸ Or.inl (std _ e)
    · split at h
      · rename_i q e
        simp only [Option.some.injEq] at h
        exact h ▸ Or.inl (flowTable_near _ (lookup_pair_mem e))
      · exact funTable_near _ (lookup_pair_mem h)

theorem command_near (user : Spec) (explicit : Str → Bool) (vt : List ((Str → Bool) × List Str)) (name : Str) :
    Within ((looksAt.lookup (lower name)).getD 1) (lookupParser (commandCtx user explicit vt) name) := by
  unfold lookupParser
  have hd : (commandCtx user explicit vt).db = commandDb user := rfl
  rw [hd]
  cases e : commandDb user (lower name) with
  | some p => exact commandDb_near e
  | none =>
    cases e2 : commandDb user (S "_default") with
    | none => exact Or.inl rfl
    | some p =>
      have h1 : looksAt.lookup (S "_default") = none := by decide
      have := commandDb_near e2
      rw [h1] at this
      exact this.mono (looksAt_pos _)

theorem lookup_registered (ctx : Ctx) (name : Str) : registered ctx name = lookupParser ctx name := by
  unfold registered lookupParser
  cases ctx.db (lower name) with
  | some p => rfl
  | none => cases ctx.db (S "_default") <;> rfl

/-- A command's parser decides the same, whatever follows. -/
theorem looks_of {user : Spec} {explicit : Str → Bool} {vt : List ((Str → Bool) × List Str)} {m m' x : List Token}
    (h : ∀ c t w l y, x = c ++ t :: (w ++ l :: y) → (∀ a ∈ w, isWs a = true) → l.type = .lparen →
      ∀ k, (lower t.spelling, k) ∈ looksAt → k ≤ (semantics y).length) :
    Looks (commandCtx user explicit vt) m m' x := by
  intro c t w l y e hw hl hy
  have hd : semantics (y.dropWhile isWs) = semantics y := semantics_dropWs y
  have hk : (looksAt.lookup (lower t.spelling)).getD 1 ≤ (semantics y).length := by
    cases e2 : looksAt.lookup (lower t.spelling) with
    | none =>
      have : (semantics y) ≠ [] := hy
      have := List.length_pos_iff.2 this
      exact this
    | some k => exact h c t w l y e hw hl k (lookup_pair_mem e2)
  have hE := (registered_entry user explicit vt t.spelling).1
  rcases command_near user explicit vt t.spelling with h1 | ⟨f, h1, h2⟩
  · exact Or.inl h1
  · refine Or.inr ⟨f, h1, ?_, ?_⟩
    · have ne : y.dropWhile isWs ≠ [] := by
        intro e0
        rw [e0] at hd
        exact hy hd.symm
      refine h2 _ _ (by simp [ne]) ?_
      rw [semantics_append, semantics_append, hd, List.take_append_of_le_length hk, List.take_append_of_le_length hk]
    · intro q hq
      have hE : Entry true (lookupParser (commandCtx user explicit vt) t.spelling) := lookup_registered _ _ ▸ hE
      rw [h1] at hE
      cases hE with
      | simple _ h => simp [ArgP.simple] at h
      | choose _ hf => exact hf.ok _ _ hq
end Verif.Parse
