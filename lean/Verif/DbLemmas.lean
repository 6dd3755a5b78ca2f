import Verif.SpecLemmas
import Verif.ParseFuel
import Verif.ParseSpec

/-!
# Facts about the command database
-/

namespace Verif.Parse
open Verif Py Lex Parse.Funs

mutual
/-- No dispatcher and no source list inside; tuples only if `tuples`. -/
def ArgP.simple (tuples : Bool) : ArgP → Bool
  | .standard _ _ kwargs => simpleL tuples kwargs
  | .tuple _ _ _ => tuples
  | .choose _ => false
  | .addSources _ _ => false
  | _ => true
/-- The keywords. -/
def simpleL (tuples : Bool) : List (Str × ArgP) → Bool
  | [] => true
  | (_, p) :: kps => p.simple tuples && simpleL tuples kps
end

theorem simpleL_mem {t : Bool} {kps : List (Str × ArgP)} (h : simpleL t kps = true) :
    ∀ kp ∈ kps, kp.2.simple t = true := by
  induction kps with
  | nil => simp
  | cons kp kps ih =>
    obtain ⟨k, p⟩ := kp
    simp only [simpleL, Bool.and_eq_true] at h
    intro kp hkp
    rcases List.mem_cons.1 hkp with rfl | hkp
    · exact h.1
    · exact ih h.2 kp hkp

theorem flat_of_simple (t : Bool) : ∀ p : ArgP, p.simple t = true → Flat p := by
  intro p
  refine ArgP.rec (motive_1 := fun p => p.simple t = true → Flat p)
    (motive_2 := fun l => ∀ kp ∈ l, kp.2.simple t = true → Flat kp.2)
    (motive_3 := fun _ => True)
    (motive_4 := fun kp => kp.2.simple t = true → Flat kp.2)
    ?_ ?_ ?_ ?_ ?_ ?_ ?_ ?_ ?_ ?_ ?_ ?_ ?_ ?_ ?_ ?_ ?_ ?_ ?_ ?_ ?_ p
  · intro cmd specs kwargs ih h
    simp only [ArgP.simple] at h
    exact .standard _ _ _ fun kp hkp => ih kp hkp (simpleL_mem h kp hkp)
  all_goals first
    | (intros; exact .basic _ rfl)
    | skip
  · intro f ih h; simp [ArgP.simple] at h
  · simp
  · intro kp l ih1 ih2 kp' hkp'
    rcases List.mem_cons.1 hkp' with rfl | h
    · exact ih1
    · exact ih2 kp' h
  · simp
  · simp
  · intro k p ih; exact ih

theorem noTuple_of_simple : ∀ p : ArgP, p.simple false = true → ∀ top, NoTuple top p := by
  intro p
  refine ArgP.rec (motive_1 := fun p => p.simple false = true → ∀ top, NoTuple top p)
    (motive_2 := fun l => ∀ kp ∈ l, kp.2.simple false = true → ∀ top, NoTuple top kp.2)
    (motive_3 := fun _ => True)
    (motive_4 := fun kp => kp.2.simple false = true → ∀ top, NoTuple top kp.2)
    ?_ ?_ ?_ ?_ ?_ ?_ ?_ ?_ ?_ ?_ ?_ ?_ ?_ ?_ ?_ ?_ ?_ ?_ ?_ ?_ ?_ p
  · intro cmd specs kwargs ih h top
    simp only [ArgP.simple] at h
    exact .standard _ _ _ fun kp hkp => ih kp hkp (simpleL_mem h kp hkp) false
  · exact fun s _ top => .positional s
  · exact fun _ top => .conditional
  · intro n k f h; simp [ArgP.simple] at h
  · exact fun _ top => .shell
  · exact fun _ top => .null
  · exact fun _ top => .setFn
  · exact fun _ top => .emptyFn
  · exact fun _ top => .foreachStandard
  · exact fun _ top => .foreachIn
  · intro l s h; simp [ArgP.simple] at h
  · exact fun _ top => .addLibraryObject
  · exact fun _ top => .customTarget
  · exact fun _ top => .fileWrite
  · exact fun _ top => .installTargets
  · intro f ih h; simp [ArgP.simple] at h
  · simp
  · intro kp l ih1 ih2 kp' hkp'
    rcases List.mem_cons.1 hkp' with rfl | h
    · exact ih1
    · exact ih2 kp' h
  · simp
  · simp
  · intro k p ih; exact ih

/-- What a dispatcher may choose. -/
def ArgP.choice (tuples : Bool) : ArgP → Bool
  | .addSources _ _ => true
  | p => p.simple tuples

theorem choice_of_simple {t : Bool} {p : ArgP} (h : p.simple t = true) : p.choice t = true := by
  cases p <;> first | rfl | exact h

theorem flat_of_choice {t : Bool} {p : ArgP} (h : p.choice t = true) : Flat p := by
  cases p <;> first | exact flat_of_simple t _ h | exact .basic _ rfl

theorem noTuple_of_choice {p : ArgP} (h : p.choice false = true) : NoTuple true p := by
  cases p <;> first | exact noTuple_of_simple _ h true | exact .addSources _ _

theorem not_choose_of_choice {t : Bool} {p : ArgP} (h : p.choice t = true) : p.isChoose = false := by
  cases p <;> first | rfl | simp [ArgP.choice, ArgP.simple] at h

/-- A dispatcher whose choices are known. -/
structure Dispatch (t : Bool) (f : List Token → Except Err ArgP) : Prop where
  ok : ∀ ts q, f ts = .ok q → q.choice t = true
  fuel : ∀ ts, f ts ≠ .error .fuel

theorem Dispatch.flat {t : Bool} {f : List Token → Except Err ArgP} (h : Dispatch t f) :
    Flat (.choose f) :=
  .choose f (fun ts q e => flat_of_choice (h.ok ts q e)) (fun ts q e => not_choose_of_choice (h.ok ts q e))
    h.fuel

theorem Dispatch.noTuple {f : List Token → Except Err ArgP} (h : Dispatch false f) :
    NoTuple true (.choose f) :=
  .choose f fun ts q e => noTuple_of_choice (h.ok ts q e)

/-- An entry of the database: a simple parser, or a dispatcher. -/
inductive Entry (t : Bool) : ArgP → Prop
  | simple (p : ArgP) : p.simple t = true → Entry t p
  | choose (f : List Token → Except Err ArgP) : Dispatch t f → Entry t (.choose f)

theorem Entry.flat {t : Bool} {p : ArgP} (h : Entry t p) : Flat p := by
  cases h with
  | simple _ h => exact flat_of_simple t _ h
  | choose _ h => exact h.flat

theorem Entry.noTuple {p : ArgP} (h : Entry false p) : NoTuple true p := by
  cases h with
  | simple _ h => exact noTuple_of_simple _ h true
  | choose _ h => exact h.noTuple

theorem anyLogged_ok {ts : List Token} {q : ArgP} (h : anyLogged ts = .ok q) : q = anyArgs := by
  unfold anyLogged at h
  split at h
  · simp at h
  · exact (Except.ok.inj h).symm

theorem anyLogged_fuel (ts : List Token) : anyLogged ts ≠ .error .fuel := by
  unfold anyLogged; split <;> simp

theorem foreachFn_entry : Entry false foreachFn := by
  refine .choose _ ⟨?_, ?_⟩
  · intro ts q h
    split at h
    · rw [anyLogged_ok h]; rfl
    · split at h
      · rw [← Except.ok.inj h]; rfl
      · split at h <;> (rw [← Except.ok.inj h]; rfl)
  · intro ts
    split
    · exact anyLogged_fuel ts
    · split
      · simp
      · split <;> simp

theorem addExecutable_entry : Entry false addExecutable := by
  refine .choose _ ⟨?_, ?_⟩
  · intro ts q h
    split at h
    · rw [anyLogged_ok h]; rfl
    · split at h
      · rw [← Except.ok.inj h]; rfl
      · split at h <;> (rw [← Except.ok.inj h]; rfl)
  · intro ts
    split
    · exact anyLogged_fuel ts
    · split
      · simp
      · split <;> simp

theorem addLibrary_entry : Entry false addLibrary := by
  refine .choose _ ⟨?_, ?_⟩
  · intro ts q h
    split at h
    · rw [anyLogged_ok h]; rfl
    · repeat' split at h
      all_goals first
        | (rw [← Except.ok.inj h]; rfl)
        | simp at h
  · intro ts
    split
    · exact anyLogged_fuel ts
    · repeat' split
      all_goals simp

theorem addCustomCommand_entry : Entry true addCustomCommand := by
  refine .choose _ ⟨?_, ?_⟩
  · intro ts q h
    split at h
    · rw [← Except.ok.inj h]; rfl
    · repeat' split at h
      all_goals (rw [← Except.ok.inj h]; rfl)
  · intro ts
    repeat' split
    all_goals simp

theorem lookup_pair_mem {α : Type} {k : Str} {v : α} {l : List (Str × α)} (h : l.lookup k = some v) :
    (k, v) ∈ l := by
  induction l with
  | nil => simp at h
  | cons kv l ih =>
    obtain ⟨k', v'⟩ := kv
    rw [List.lookup_cons] at h
    split at h
    · rename_i e
      simp only [Option.some.injEq] at h
      rw [beq_iff_eq] at e
      subst h; subst e
      exact List.mem_cons_self ..
    · exact List.mem_cons_of_mem _ (ih h)

theorem table_choice {t : Bool} {table : List (Str × ArgP)} (h : simpleL t table = true) (w : Str) :
    ((table.lookup w).getD anyArgs).choice t = true := by
  cases e : table.lookup w with
  | none => rfl
  | some p => exact choice_of_simple (simpleL_mem h _ (lookup_pair_mem e))

theorem byFirst_entry {t : Bool} {table : List (Str × ArgP)} (h : simpleL t table = true) :
    Entry t (byFirst table) := by
  refine .choose _ ⟨?_, ?_⟩
  · intro ts q hq
    split at hq
    · rw [← Except.ok.inj hq]; rfl
    · split at hq
      · rw [← Except.ok.inj hq]; rfl
      · rw [← Except.ok.inj hq]; exact table_choice h _
  · intro ts
    repeat' split
    all_goals simp

theorem installFn_entry : Entry false installFn := by
  refine .choose _ ⟨?_, ?_⟩
  · intro ts q hq
    split at hq
    · rw [anyLogged_ok hq]; rfl
    · rw [← Except.ok.inj hq]; exact table_choice rfl _
  · intro ts
    split
    · exact anyLogged_fuel ts
    · simp

theorem buildCommand_entry : Entry false buildCommand := by
  refine .choose _ ⟨?_, ?_⟩
  · intro ts q h
    split at h <;> (rw [← Except.ok.inj h]; rfl)
  · intro ts; split <;> simp

theorem cmakePolicy_entry : Entry false cmakePolicy := by
  refine .choose _ ⟨?_, ?_⟩
  · intro ts q h
    split at h
    · rw [← Except.ok.inj h]; rfl
    · repeat' split at h
      all_goals (rw [← Except.ok.inj h]; rfl)
  · intro ts
    repeat' split
    all_goals simp

theorem getFilenameComponent_entry : Entry false getFilenameComponent := by
  refine .choose _ ⟨?_, ?_⟩
  · intro ts q h
    split at h <;> (rw [← Except.ok.inj h]; rfl)
  · intro ts; split <;> simp

theorem sourceGroup_entry : Entry false sourceGroup := by
  refine .choose _ ⟨?_, ?_⟩
  · intro ts q h
    repeat' split at h
    all_goals (rw [← Except.ok.inj h]; rfl)
  · intro ts
    repeat' split
    all_goals simp

theorem ctestSleep_entry : Entry false ctestSleep := by
  refine .choose _ ⟨?_, ?_⟩
  · intro ts q h
    split at h <;> (rw [← Except.ok.inj h]; rfl)
  · intro ts; split <;> simp

theorem oldInstallFiles_entry : Entry false oldInstallFiles := by
  refine .choose _ ⟨?_, ?_⟩
  · intro ts q h
    repeat' split at h
    all_goals (rw [← Except.ok.inj h]; rfl)
  · intro ts
    repeat' split
    all_goals simp

/-- The commands with a tuple parser: funs/add_xxx.py:96, funs/miscellaneous.py:412,
funs/set_target_properties.py:19. -/
def tupleCommands : List Str :=
  [S "add_custom_command", S "set_source_files_properties", S "set_target_properties"]

theorem entry_mono {p : ArgP} (h : Entry false p) : Entry true p := by
  have mono : ∀ p : ArgP, p.simple false = true → p.simple true = true := by
    intro p
    refine ArgP.rec (motive_1 := fun p => p.simple false = true → p.simple true = true)
      (motive_2 := fun l => simpleL false l = true → simpleL true l = true)
      (motive_3 := fun _ => True)
      (motive_4 := fun kp => kp.2.simple false = true → kp.2.simple true = true)
      ?_ ?_ ?_ ?_ ?_ ?_ ?_ ?_ ?_ ?_ ?_ ?_ ?_ ?_ ?_ ?_ ?_ ?_ ?_ ?_ ?_ p
    · intro cmd specs kwargs ih h
      exact ih h
    all_goals first
      | (intros; rfl)
      | skip
    · intro l s h; simp [ArgP.simple] at h
    · intro f _ h; simp [ArgP.simple] at h
    · intro kp l ih1 ih2 h
      obtain ⟨k, p⟩ := kp
      simp only [simpleL, Bool.and_eq_true] at h ⊢
      exact ⟨ih1 h.1, ih2 h.2⟩
    · simp
    · simp
    · intro k p ih; exact ih
  cases h with
  | simple _ h => exact .simple _ (mono _ h)
  | choose f h =>
    refine .choose f ⟨fun ts q e => ?_, h.fuel⟩
    have := h.ok ts q e
    cases q <;> first | rfl | exact mono _ this

/-- Every entry of the table of parse functions. -/
theorem funTable_entry : ∀ kp ∈ funTable, Entry true kp.2 ∧ (kp.1 ∉ tupleCommands → Entry false kp.2) := by
  have one : ∀ (k : Str) (p : ArgP), Entry false p →
      Entry true p ∧ (k ∉ tupleCommands → Entry false p) := fun k p h => ⟨entry_mono h, fun _ => h⟩
  unfold funTable
  repeat' refine List.forall_mem_cons.2 ⟨?_, ?_⟩
  all_goals
    first
    | exact fun _ h => absurd h (List.not_mem_nil)
    | exact one _ _ (.simple _ rfl)
    | exact one _ _ addExecutable_entry
    | exact one _ _ addLibrary_entry
    | exact one _ _ oldInstallFiles_entry
    | exact one _ _ foreachFn_entry
    | exact one _ _ (byFirst_entry (by rfl))
    | exact one _ _ installFn_entry
    | exact one _ _ buildCommand_entry
    | exact one _ _ cmakePolicy_entry
    | exact one _ _ getFilenameComponent_entry
    | exact one _ _ sourceGroup_entry
    | exact one _ _ ctestSleep_entry
    | exact ⟨.simple _ rfl, fun h => absurd (by decide) h⟩
    | exact ⟨addCustomCommand_entry, fun h => absurd (by decide) h⟩

theorem flowTable_entry : ∀ kp ∈ flowTable, Entry false kp.2 := by
  unfold flowTable
  repeat' refine List.forall_mem_cons.2 ⟨?_, ?_⟩
  all_goals
    first
    | exact fun _ h => absurd h (List.not_mem_nil)
    | exact .simple _ rfl

mutual
/-- What a specification turns into. -/
theorem parser_simple (k : Str) : ∀ s : Spec, (Spec.parser k s).simple false = true
  | .mk _ _ _ _ kwargs => by
    unfold Spec.parser
    split
    · rfl
    · split
      · rfl
      · exact funtree_simple kwargs
/-- Keywords. -/
theorem funtree_simple : ∀ ks : List (Str × Spec), simpleL false (funtree ks) = true
  | [] => rfl
  | (k, s) :: ks => by
    unfold funtree simpleL
    rw [parser_simple k s, funtree_simple ks]; rfl
end

theorem funtree_lookup (ks : List (Str × Spec)) (k : Str) :
    (funtree ks).lookup k = (ks.lookup k).map (Spec.parser k) := by
  induction ks with
  | nil => rfl
  | cons ks' ks ih =>
    obtain ⟨k', s⟩ := ks'
    unfold funtree
    rw [List.lookup_cons, List.lookup_cons]
    by_cases h : k = k'
    · subst h; simp
    · have : (k == k') = false := by simpa using h
      rw [this]; exact ih

/-- The library's own tables are accepted. -/
theorem stdSpec_ok : stdSpecE = .ok stdSpec := by
  have h : ∀ nd ∈ Tables.builtins ++ Tables.modules, (Spec.root.add nd.1 nd.2).isOk = true := by
    have : (Tables.builtins ++ Tables.modules).all (fun nd => (Spec.root.add nd.1 nd.2).isOk) = true := by
      decide +kernel
    exact fun nd hnd => List.all_eq_true.1 this nd hnd
  obtain ⟨s, e⟩ := addAll_isOk h .root
  have e' : stdSpecE = .ok s := e
  rw [stdSpec, e']; rfl

/-- What the standard table holds for a command. -/
theorem stdSpec_lookup (k : Str) :
    stdSpec.kwargs.lookup k =
      match declared (Tables.builtins ++ Tables.modules) k with
      | some (n, d) => (Decl.spec n d).toOption
      | none => none := addAll_lookup stdSpec_ok k

/-- The library declares its commands in lower case. -/
theorem std_names : ∀ nd ∈ Tables.builtins ++ Tables.modules, lower nd.1 = nd.1 := by
  have : (Tables.builtins ++ Tables.modules).all (fun nd => lower nd.1 == nd.1) = true := by decide +kernel
  exact fun nd hnd => by simpa using List.all_eq_true.1 this nd hnd

theorem std_declared (k : Str) :
    declared (Tables.builtins ++ Tables.modules) k =
      (Tables.builtins ++ Tables.modules).reverse.find? fun nd => nd.1 = k := by
  unfold declared
  have h := std_names
  revert h
  generalize Tables.builtins ++ Tables.modules = l
  intro h
  have h' : ∀ nd ∈ l.reverse, lower nd.1 = nd.1 := fun nd hnd => h nd (List.mem_reverse.1 hnd)
  revert h'
  generalize l.reverse = l'
  intro h'
  induction l' with
  | nil => rfl
  | cons a l' ih =>
    rw [List.find?_cons, List.find?_cons, h' a (List.mem_cons_self ..),
      ih fun nd hnd => h' nd (List.mem_cons_of_mem _ hnd)]

/-- `commandDb` without building the table first; used to evaluate examples. -/
def fastDb (cmds : List (Str × Decl)) (k : Str) : Option ArgP :=
  match declared cmds k with
  | some (n, d) => (Decl.spec n d).toOption.map (Spec.parser k)
  | none =>
    match (Tables.builtins ++ Tables.modules).reverse.find? fun nd => nd.1 = k with
    | some (n, d) => (Decl.spec n d).toOption.map (Spec.parser k)
    | none =>
      match flowTable.lookup k with
      | some p => some p
      | none => funTable.lookup k

/-- Every declaration of an accepted table is accepted. -/
theorem addAll_mem {ds : List (Str × Decl)} {s s' : Spec} (h : Spec.addAll ds s = .ok s') {nd : Str × Decl}
    (hm : nd ∈ ds) : ∃ sp, Decl.spec nd.1 nd.2 = .ok sp := by
  induction ds generalizing s with
  | nil => simp at hm
  | cons nd' ds ih =>
    obtain ⟨n', d'⟩ := nd'
    unfold Spec.addAll at h
    cases e : s.add n' d' with
    | error err => rw [e] at h; simp at h
    | ok s1 =>
      rw [e] at h
      rcases List.mem_cons.1 hm with h' | h'
      · obtain ⟨sp, e1, _⟩ := add_ok e
        exact ⟨sp, by rw [h']; exact e1⟩
      · exact ih h h'

theorem declared_ok {ds : List (Str × Decl)} {s s' : Spec} (h : Spec.addAll ds s = .ok s') {k n : Str} {d : Decl}
    (hd : declared ds k = some (n, d)) : ∃ sp, Decl.spec n d = .ok sp :=
  addAll_mem h (List.mem_reverse.1 (List.mem_of_find?_eq_some hd))

theorem builtinOf_eq (std : Spec) (k : Str) :
    builtinOf std k =
      match (std.kwargs.lookup k).map (Spec.parser k) with
      | some p => some p
      | none =>
        match flowTable.lookup k with
        | some p => some p
        | none => funTable.lookup k := by
  unfold builtinOf
  rw [funtree_lookup]
  generalize std.kwargs.lookup k = o
  generalize flowTable.lookup k = o2
  cases o
  · cases o2 <;> rfl
  · rfl

theorem commandDb_eq (user : Spec) (k : Str) :
    commandDb user k =
      match (user.kwargs.lookup k).map (Spec.parser k) with
      | some p => some p
      | none => builtinDb k := by
  unfold commandDb
  rw [funtree_lookup]
  generalize user.kwargs.lookup k = o
  generalize builtinDb k = b
  cases o <;> rfl

theorem commandDb_fast {cmds : List (Str × Decl)} {sp : Spec} (h : userSpec cmds [] = .ok sp) :
    commandDb sp = fastDb cmds := by
  funext k
  unfold userSpec at h
  cases ha : Spec.addAll cmds .root with
  | error e => rw [ha] at h; simp at h
  | ok s0 =>
    rw [ha] at h
    simp only [applyOverrides, Except.ok.injEq] at h
    subst h
    unfold fastDb
    rw [commandDb_eq, addAll_lookup ha k]
    cases hd : declared cmds k with
    | some nd =>
      obtain ⟨n, d⟩ := nd
      obtain ⟨s, e⟩ := declared_ok ha hd
      simp [e, Except.toOption]
    | none =>
      have h0 : Spec.root.kwargs.lookup k = none := rfl
      simp only [h0, Option.map_none]
      rw [builtinDb, builtinOf_eq, stdSpec_lookup k, ← std_declared]
      cases hd2 : declared (Tables.builtins ++ Tables.modules) k with
      | some nd =>
        obtain ⟨n, d⟩ := nd
        obtain ⟨s, e⟩ := declared_ok stdSpec_ok hd2
        simp [e, Except.toOption]
      | none => simp only [Option.map_none]

theorem builtinOf_entry {std : Spec} {name : Str} {p : ArgP} (h : builtinOf std name = some p) :
    Entry true p ∧ (name ∉ tupleCommands → Entry false p) := by
  have one : ∀ (k : Str) (p : ArgP), Entry false p →
      Entry true p ∧ (k ∉ tupleCommands → Entry false p) := fun k p h => ⟨entry_mono h, fun _ => h⟩
  unfold builtinOf at h
  split at h
  · rename_i q e
    rw [funtree_lookup] at e
    cases hs : std.kwargs.lookup name with
    | none => rw [hs] at e; simp at e
    | some s =>
      rw [hs] at e
      simp only [Option.map_some, Option.some.injEq] at e h
      subst h; subst e
      exact one _ _ (.simple _ (parser_simple _ _))
  · split at h
    · rename_i q e
      simp only [Option.some.injEq] at h
      subst h
      exact one _ _ (flowTable_entry _ (lookup_pair_mem e))
    · exact funTable_entry _ (lookup_pair_mem h)

theorem builtinDb_entry {name : Str} {p : ArgP} (h : builtinDb name = some p) :
    Entry true p ∧ (name ∉ tupleCommands → Entry false p) := builtinOf_entry h

theorem commandDb_entry {user : Spec} {name : Str} {p : ArgP} (h : commandDb user name = some p) :
    Entry true p ∧ (name ∉ tupleCommands → Entry false p) := by
  unfold commandDb at h
  split at h
  · rename_i q e
    rw [funtree_lookup] at e
    cases hs : user.kwargs.lookup name with
    | none => rw [hs] at e; simp at e
    | some s =>
      rw [hs] at e
      simp only [Option.map_some, Option.some.injEq] at e h
      subst h; subst e
      exact ⟨entry_mono (.simple _ (parser_simple _ _)), fun _ => .simple _ (parser_simple _ _)⟩
  · exact builtinDb_entry h

theorem registered_entry (user : Spec) (explicit : Str → Bool) (vt : List ((Str → Bool) × List Str)) (name : Str) :
    Entry true (registered (commandCtx user explicit vt) name) ∧
      (lower name ∉ tupleCommands → Entry false (registered (commandCtx user explicit vt) name)) := by
  unfold registered
  have hd : (commandCtx user explicit vt).db = commandDb user := rfl
  rw [hd]
  cases e : commandDb user (lower name) with
  | some p => exact commandDb_entry e
  | none =>
    cases e2 : commandDb user (S "_default") with
    | some p => exact ⟨(commandDb_entry e2).1, fun _ => (commandDb_entry e2).2 (by decide)⟩
    | none => exact ⟨.simple _ rfl, fun _ => .simple _ rfl⟩

end Verif.Parse
