import Verif.ConfigLemmas
import Verif.Schema

/-!
# Properties C30-C34, C46-C49: configuration
-/

namespace Verif.Props.Config
open Verif Py Verif.Config

/-! ## Specification: values at key paths -/

/-- The value reached by following a list of keys. -/
def valAt : List Str → Val → Option Val
  | [], v => some v
  | k :: ks, .dict d => (lookup k d).bind (valAt ks)
  | _ :: _, _ => none

/-- Python dictionaries have unique keys, at every depth. -/
def WF (d : Dict) : Prop := ∀ p e, valAt p (.dict d) = some (.dict e) → (e.map (·.1)).Nodup

/-- A value that is not a dictionary. -/
def IsLeaf (v : Val) : Prop := ∀ d, v ≠ .dict d

theorem WF.sub {d e : Dict} {k : Str} (h : WF d) (hk : lookup k d = some (.dict e)) : WF e := by
  intro p f hp
  exact h (k :: p) f (by simp [valAt, hk, hp])

theorem WF.nodup {d : Dict} (h : WF d) : (d.map (·.1)).Nodup := h [] d rfl

theorem valAt_leaf {v : Val} (hv : IsLeaf v) (k : Str) (ks : List Str) : valAt (k :: ks) v = none := by
  cases v with
  | dict d => exact absurd rfl (hv d)
  | _ => rfl

theorem mergeInto_leaf {v : Val} (hv : IsLeaf v) (d : Dict) : mergeInto d v = d := by
  cases v with
  | dict e => exact absurd rfl (hv e)
  | _ => rfl

theorem combine_leaf {x : Val} (hx : IsLeaf x) (v : Val) : combine (some x) (some v) = some v := by
  cases x with
  | dict e => exact absurd rfl (hx e)
  | _ => rfl

theorem merge_combine (p : List Str) (out inc : Dict) (h : WF inc) :
    valAt p (.dict (mapMerge out inc)) = combine (valAt p (.dict out)) (valAt p (.dict inc)) := by
  induction p generalizing out inc with
  | nil => simp [valAt, combine, mergeInto]
  | cons k ks ih =>
    simp only [valAt]
    rw [lookup_mapMerge out inc k h.nodup]
    cases hi : lookup k inc with
    | none => simp [combine_none_right]
    | some v =>
      cases ho : lookup k out with
      | none =>
        simp only [combine, Option.bind_some, Option.bind_none]
        cases valAt ks v <;> rfl
      | some x =>
        by_cases hx : ∃ d, x = .dict d
        · obtain ⟨d, rfl⟩ := hx
          by_cases hv : ∃ e, v = .dict e
          · obtain ⟨e, rfl⟩ := hv
            simp only [combine, Option.bind_some, mergeInto]
            exact ih d e (h.sub hi)
          · have hv' : IsLeaf v := fun e he => hv ⟨e, he⟩
            simp only [combine, Option.bind_some, mergeInto_leaf hv']
            cases ks with
            | nil => simp [valAt, mergeInto_leaf hv']
            | cons k2 ks =>
              rw [valAt_leaf hv']
        · have hx' : IsLeaf x := fun e he => hx ⟨e, he⟩
          rw [combine_leaf hx', Option.bind_some, Option.bind_some]
          cases ks with
          | nil => simp [valAt, combine_leaf hx']
          | cons k2 ks =>
            rw [valAt_leaf hx']
            cases valAt (k2 :: ks) v <;> rfl

/-! ## C30 -/

/-- **C30 (deep, right-biased merge).**  For every key path `p`:
* a path the second file does not mention keeps its value;
* a path only the second file has takes its value from there;
* a leaf of the second file replaces a leaf of the first;
* where both have a section the sections are merged, by the same rules;
* a section is not replaced by a leaf. -/
theorem merge_path (out inc : Dict) (h : WF inc) (p : List Str) :
    (valAt p (.dict inc) = none →
      valAt p (.dict (mapMerge out inc)) = valAt p (.dict out)) ∧
    (∀ v, valAt p (.dict out) = none → valAt p (.dict inc) = some v →
      valAt p (.dict (mapMerge out inc)) = some v) ∧
    (∀ x v, IsLeaf x → valAt p (.dict out) = some x → valAt p (.dict inc) = some v →
      valAt p (.dict (mapMerge out inc)) = some v) ∧
    (∀ d e, valAt p (.dict out) = some (.dict d) → valAt p (.dict inc) = some (.dict e) →
      valAt p (.dict (mapMerge out inc)) = some (.dict (mapMerge d e))) ∧
    (∀ d v, IsLeaf v → valAt p (.dict out) = some (.dict d) → valAt p (.dict inc) = some v →
      valAt p (.dict (mapMerge out inc)) = some (.dict d)) := by
  rw [merge_combine p out inc h]
  refine ⟨?_, ?_, ?_, ?_, ?_⟩
  · intro h1; rw [h1, combine_none_right]
  · intro v h1 h2; rw [h1, h2]; rfl
  · intro x v hx h1 h2; rw [h1, h2, combine_leaf hx]
  · intro d e h1 h2; rw [h1, h2]; rfl
  · intro d v hv h1 h2; rw [h1, h2]; simp [combine, mergeInto_leaf hv]

/-- **C30 (keys).**  The merged dictionary has exactly the keys of either. -/
theorem merge_keys (out inc : Dict) (h : WF inc) (k : Str) :
    k ∈ (mapMerge out inc).map (·.1) ↔ k ∈ out.map (·.1) ∨ k ∈ inc.map (·.1) := by
  have h1 := lookup_mapMerge out inc k h.nodup
  have e : ∀ d : Dict, k ∈ d.map (·.1) ↔ lookup k d ≠ none := by
    intro d
    constructor
    · intro hm hn; exact lookup_none_iff.1 hn hm
    · intro hn
      cases Classical.em (k ∈ d.map (·.1)) with
      | inl h => exact h
      | inr h => exact absurd (lookup_none_iff.2 h) hn
  rw [e, e, e, h1]
  cases lookup k inc with
  | none => simp [combine_none_right]
  | some v =>
    cases lookup k out with
    | none => simp [combine]
    | some x => cases x <;> simp [combine]

/-- **C30 (well-formedness).**  Merging keeps keys unique at every depth. -/
theorem merge_wf (out inc : Dict) (ho : WF out) (hi : WF inc) : WF (mapMerge out inc) := by
  intro p e hp
  rw [merge_combine p out inc hi] at hp
  cases h1 : valAt p (.dict inc) with
  | none => rw [h1, combine_none_right] at hp; exact ho p e hp
  | some v =>
    rw [h1] at hp
    cases h2 : valAt p (.dict out) with
    | none =>
      rw [h2] at hp
      simp only [combine, Option.some.injEq] at hp
      exact hi p e (by rw [h1, hp])
    | some x =>
      rw [h2] at hp
      by_cases hx : ∃ d, x = .dict d
      · obtain ⟨d, rfl⟩ := hx
        simp only [combine, Option.some.injEq, Val.dict.injEq] at hp
        have hd := ho p d h2
        subst hp
        by_cases hv : ∃ f, v = .dict f
        · obtain ⟨f, rfl⟩ := hv
          exact nodup_mapMerge hd
        · rw [mergeInto_leaf (fun f hf => hv ⟨f, hf⟩)]; exact hd
      · rw [combine_leaf (fun f hf => hx ⟨f, hf⟩)] at hp
        simp only [Option.some.injEq] at hp
        exact hi p e (by rw [h1, hp])

theorem wf_nil : WF [] := by
  intro p e h
  cases p with
  | nil => simp [valAt] at h; subst h; simp
  | cons k ks => simp [valAt, lookup] at h

theorem wf_cons {k : Str} {v : Val} {d : Dict} (hk : k ∉ d.map (·.1)) (hd : WF d)
    (hv : ∀ e, v = .dict e → WF e) : WF ((k, v) :: d) := by
  intro p e h
  cases p with
  | nil =>
    simp only [valAt, Option.some.injEq, Val.dict.injEq] at h
    subst h
    simp only [List.map_cons, List.nodup_cons]
    exact ⟨hk, hd.nodup⟩
  | cons k2 ks =>
    simp only [valAt, lookup] at h
    split at h
    · simp only [Option.bind_some] at h
      cases ks with
      | nil =>
        simp only [valAt, Option.some.injEq] at h
        exact (hv e h).nodup
      | cons k3 ks =>
        cases v with
        | dict f => exact hv f rfl (k3 :: ks) e h
        | _ => simp [valAt] at h
    · exact hd (k2 :: ks) e (by simpa [valAt] using h)

/-- Two files with a common section. -/
def exampleBase : Dict :=
  [(S "format", .dict [(S "line_width", .int 80), (S "tab_size", .int 2)]), (S "x", .int 1)]

def exampleInc : Dict :=
  [(S "format", .dict [(S "line_width", .int 100)]), (S "x", .dict []), (S "y", .int 3)]

theorem exampleInc_wf : WF exampleInc := by
  refine wf_cons (by decide) (wf_cons (by decide) (wf_cons (by decide) wf_nil ?_) ?_) ?_
  · intro e h; simp at h
  · intro e h; simp only [Val.dict.injEq] at h; subst h; exact wf_nil
  · intro e h
    simp only [Val.dict.injEq] at h
    subst h
    exact wf_cons (by decide) wf_nil (by intro e h; simp at h)

example : mapMerge exampleBase exampleInc =
    [(S "format", .dict [(S "line_width", .int 100), (S "tab_size", .int 2)]), (S "x", .dict []),
     (S "y", .int 3)] := by rfl

/-! ## C31 -/

/-- A file that was read: its path, its includes and its content. -/
structure ReadFile where
  path : Str
  includes : List Str
  dict : Dict

/-- **C31 (order of reading).**  When loading succeeds there is a list of files, in the
order they were read, such that
* the files are the given ones followed by the includes of every file in that list, in
  order — so an include is read after everything already queued;
* every file's content is what reading its path gives;
* the result is the merge of their contents, in that order. -/
theorem load_order {ε : Type} (read : Str → Except ε (List Str × Dict)) (expand : Str → Str)
    (fuel : Nat) (queue : List Str) (acc r : Dict)
    (h : getConfigdict read expand fuel queue acc = .ok r) :
    ∃ log : List ReadFile,
      log.map (·.path) =
        (queue ++ log.flatMap (fun f => f.includes.map (resolveInclude f.path))).map expand ∧
      (∀ f ∈ log, read f.path = .ok (f.includes, f.dict)) ∧
      r = (log.map (·.dict)).foldl mapMerge acc := by
  induction fuel generalizing queue acc with
  | zero =>
    cases queue with
    | nil => simp only [getConfigdict, Except.ok.injEq] at h; exact ⟨[], rfl, by simp, h.symm⟩
    | cons p q => simp [getConfigdict] at h
  | succ n ih =>
    cases queue with
    | nil => simp only [getConfigdict, Except.ok.injEq] at h; exact ⟨[], rfl, by simp, h.symm⟩
    | cons p q =>
      simp only [getConfigdict] at h
      cases hr : read (expand p) with
      | error e => rw [hr] at h; simp at h
      | ok x =>
        obtain ⟨incs, d⟩ := x
        rw [hr] at h
        obtain ⟨log, h1, h2, h3⟩ := ih _ _ h
        refine ⟨⟨expand p, incs, d⟩ :: log, ?_, ?_, ?_⟩
        · simp only [List.map_cons, List.flatMap_cons, List.cons_append]
          rw [h1]; simp
        · intro f hf
          rcases List.mem_cons.1 hf with e | hf
          · subst e; exact hr
          · exact h2 f hf
        · simpa using h3

theorem foldl_merge_at (p : List Str) (ds : List Dict) (acc : Dict)
    (hwf : ∀ d ∈ ds, WF d)
    (hleaf : ∀ d ∈ ds, ∀ e, valAt p (.dict d) ≠ some (.dict e))
    (hacc : ∀ e, valAt p (.dict acc) ≠ some (.dict e)) :
    valAt p (.dict (ds.foldl mapMerge acc)) =
      ((ds.filterMap (fun d => valAt p (.dict d))).getLast?).or (valAt p (.dict acc)) := by
  induction ds generalizing acc with
  | nil => simp
  | cons d ds ih =>
    rw [List.foldl_cons, ih]
    · rw [merge_combine p acc d (hwf d (by simp))]
      cases hd : valAt p (.dict d) with
      | none =>
        rw [combine_none_right, List.filterMap_cons_none (f := fun d => valAt p (.dict d)) hd]
      | some v =>
        rw [List.filterMap_cons_some (f := fun d => valAt p (.dict d)) hd]
        have : combine (valAt p (.dict acc)) (some v) = some v := by
          cases ha : valAt p (.dict acc) with
          | none => rfl
          | some x => exact combine_leaf (fun e he => hacc e (by rw [ha, he])) v
        rw [this]
        cases hl : (ds.filterMap fun d => valAt p (.dict d)) with
        | nil => simp
        | cons a b => simp [List.getLast?_cons]
    · exact fun d hd => hwf d (by simp [hd])
    · exact fun d hd => hleaf d (by simp [hd])
    · intro e he
      rw [merge_combine p acc d (hwf d (by simp))] at he
      cases hd : valAt p (.dict d) with
      | none => rw [hd, combine_none_right] at he; exact hacc e he
      | some v =>
        rw [hd] at he
        cases ha : valAt p (.dict acc) with
        | none =>
          rw [ha] at he
          simp only [combine, Option.some.injEq] at he
          exact hleaf d (by simp) e (by rw [hd, he])
        | some x =>
          rw [ha, combine_leaf (fun e' he' => hacc e' (by rw [ha, he']))] at he
          simp only [Option.some.injEq] at he
          exact hleaf d (by simp) e (by rw [hd, he])

/-- **C31 (the last file wins).**  For an option that no file uses as a section, the
loaded value is the one of the last file, in reading order, that sets it; if no file
sets it, it is absent. -/
theorem last_file_wins {ε : Type} (read : Str → Except ε (List Str × Dict)) (expand : Str → Str)
    (fuel : Nat) (queue : List Str) (r : Dict)
    (hwf : ∀ p incs d, read p = .ok (incs, d) → WF d)
    (h : getConfigdict read expand fuel queue [] = .ok r) :
    ∃ log : List ReadFile,
      log.map (·.path) =
        (queue ++ log.flatMap (fun f => f.includes.map (resolveInclude f.path))).map expand ∧
      (∀ f ∈ log, read f.path = .ok (f.includes, f.dict)) ∧
      ∀ p, p ≠ [] → (∀ f ∈ log, ∀ e, valAt p (.dict f.dict) ≠ some (.dict e)) →
        valAt p (.dict r) = (log.filterMap (fun f => valAt p (.dict f.dict))).getLast? := by
  obtain ⟨log, h1, h2, h3⟩ := load_order read expand fuel queue [] r h
  refine ⟨log, h1, h2, ?_⟩
  intro p hp hleaf
  have hnil : valAt p (.dict []) = none := by
    cases p with
    | nil => exact absurd rfl hp
    | cons k ks => simp [valAt, lookup]
  rw [h3, foldl_merge_at p (log.map (·.dict)) []]
  · rw [hnil, List.filterMap_map]; simp [Function.comp_def]
  · intro d hd
    obtain ⟨f, hf, rfl⟩ := List.mem_map.1 hd
    exact hwf _ _ _ (h2 f hf)
  · intro d hd
    obtain ⟨f, hf, rfl⟩ := List.mem_map.1 hd
    exact hleaf f hf
  · intro e; rw [hnil]; simp

/-- Two files; the first includes a third one. -/
def exampleRead (p : Str) : Except Unit (List Str × Dict) :=
  if p = S "/c/a.json" then .ok ([S "inc.json"], [(S "w", .int 1), (S "only_a", .int 7)])
  else if p = S "/c/b.json" then .ok ([], [(S "w", .int 2)])
  else if p = S "/c/inc.json" then .ok ([], [(S "w", .int 3)])
  else .error ()

example : getConfigdict exampleRead id 9 [S "/c/a.json", S "/c/b.json"] [] =
    .ok [(S "w", .int 3), (S "only_a", .int 7)] := by rfl

/-! ## C32 -/

/-- The number of files reached through `n` levels of includes. -/
def reach {ε : Type} (read : Str → Except ε (List Str × Dict)) (expand : Str → Str) : Nat → Str → Nat
  | 0, _ => 1
  | n + 1, p =>
    match read p with
    | .error _ => 1
    | .ok (incs, _) => 1 + (incs.map (fun i => reach read expand n (expand (resolveInclude p i)))).sum

theorem reach_stable {ε : Type} (read : Str → Except ε (List Str × Dict)) (expand : Str → Str)
    (rank : Str → Nat)
    (hrank : ∀ p incs d, read p = .ok (incs, d) → ∀ i ∈ incs,
      rank (expand (resolveInclude p i)) < rank p) (n : Nat) :
    ∀ p, rank p ≤ n → ∀ m, rank p ≤ m → reach read expand m p = reach read expand n p := by
  induction n with
  | zero =>
    intro p hp m hm
    cases m with
    | zero => rfl
    | succ m =>
      simp only [reach]
      cases hr : read p with
      | error e => rfl
      | ok x =>
        obtain ⟨incs, d⟩ := x
        cases incs with
        | nil => simp
        | cons i is => have := hrank p _ d hr i (by simp); omega
  | succ n ih =>
    intro p hp m hm
    cases m with
    | zero =>
      simp only [reach]
      cases hr : read p with
      | error e => rfl
      | ok x =>
        obtain ⟨incs, d⟩ := x
        cases incs with
        | nil => simp
        | cons i is => have := hrank p _ d hr i (by simp); omega
    | succ m =>
      simp only [reach]
      cases hr : read p with
      | error e => rfl
      | ok x =>
        obtain ⟨incs, d⟩ := x
        simp only
        congr 2
        apply List.map_congr_left
        intro i hi
        have := hrank p _ d hr i hi
        exact ih _ (by omega) m (by omega)

/-- **C32 (acyclic includes terminate).**  If files can be ranked so that every include
has a smaller rank than the file including it, loading any list of files finishes:
some bound on the number of files read is enough, and any larger one gives the same. -/
theorem load_terminates {ε : Type} (read : Str → Except ε (List Str × Dict)) (expand : Str → Str)
    (rank : Str → Nat)
    (hrank : ∀ p incs d, read p = .ok (incs, d) → ∀ i ∈ incs,
      rank (expand (resolveInclude p i)) < rank p) (queue : List Str) (acc : Dict) :
    ∃ bound, ∀ fuel, bound ≤ fuel → getConfigdict read expand fuel queue acc ≠ .error .outOfFuel := by
  let size : Str → Nat := fun p => reach read expand (rank p) p
  have hsize : ∀ p incs d, read p = .ok (incs, d) →
      size p = 1 + (incs.map (fun i => size (expand (resolveInclude p i)))).sum := by
    intro p incs d hr
    have h1 : size p = reach read expand (rank p + 1) p :=
      reach_stable read expand rank hrank (rank p + 1) p (by omega) (rank p) (by omega)
    rw [h1]
    simp only [reach, hr]
    congr 2
    apply List.map_congr_left
    intro i hi
    have := hrank p _ d hr i hi
    exact reach_stable read expand rank hrank _ _ (Nat.le_refl _) (rank p) (by omega)
  refine ⟨(queue.map (fun p => size (expand p))).sum, ?_⟩
  intro fuel
  induction fuel generalizing queue acc with
  | zero =>
    intro hb
    cases queue with
    | nil => simp [getConfigdict]
    | cons p q =>
      exfalso
      simp only [List.map_cons, List.sum_cons] at hb
      have : 1 ≤ size (expand p) := by
        simp only [size]
        cases rank (expand p) with
        | zero => simp [reach]
        | succ n => simp only [reach]; split <;> omega
      omega
  | succ n ih =>
    intro hb
    cases queue with
    | nil => simp [getConfigdict]
    | cons p q =>
      simp only [getConfigdict]
      cases hr : read (expand p) with
      | error e => simp
      | ok x =>
        obtain ⟨incs, d⟩ := x
        simp only
        apply ih
        have := hsize (expand p) incs d hr
        simp only [List.map_cons, List.sum_cons, List.map_append, List.map_map, List.sum_append,
          Function.comp_def] at hb ⊢
        omega

example : ∃ rank : Str → Nat, ∀ p incs d, exampleRead p = .ok (incs, d) → ∀ i ∈ incs,
    rank (id (resolveInclude p i)) < rank p := by
  refine ⟨fun p => if p = S "/c/a.json" then 1 else 0, ?_⟩
  intro p incs d h i hi
  simp only [exampleRead] at h
  split at h
  · rename_i e
    simp only [Except.ok.injEq, Prod.mk.injEq] at h
    obtain ⟨rfl, _⟩ := h
    simp only [List.mem_singleton] at hi
    subst hi; subst e
    decide +kernel
  · split at h
    · simp only [Except.ok.injEq, Prod.mk.injEq] at h; obtain ⟨rfl, _⟩ := h; simp at hi
    · split at h
      · simp only [Except.ok.injEq, Prod.mk.injEq] at h; obtain ⟨rfl, _⟩ := h; simp at hi
      · simp at h

/-- **C32 (a cycle is never left).**  If some set of files is closed under "includes
one of the set", every readable file, and nothing read raises, then loading any queue
that mentions a file of the set does not finish within any number of steps: the code
loops forever. -/
theorem load_diverges {ε : Type} (read : Str → Except ε (List Str × Dict)) (expand : Str → Str)
    (C : Str → Prop)
    (hread : ∀ p, ∃ x, read p = .ok x)
    (hC : ∀ p incs d, C p → read p = .ok (incs, d) →
      ∃ i ∈ incs, C (expand (resolveInclude p i)))
    (queue : List Str) (acc : Dict) (hq : ∃ p ∈ queue, C (expand p)) (fuel : Nat) :
    getConfigdict read expand fuel queue acc = .error .outOfFuel := by
  induction fuel generalizing queue acc with
  | zero =>
    cases queue with
    | nil => obtain ⟨p, hp, _⟩ := hq; simp at hp
    | cons p q => rfl
  | succ n ih =>
    cases queue with
    | nil => obtain ⟨p, hp, _⟩ := hq; simp at hp
    | cons p q =>
      simp only [getConfigdict]
      obtain ⟨⟨incs, d⟩, hr⟩ := hread (expand p)
      rw [hr]
      apply ih
      obtain ⟨p', hp', hc⟩ := hq
      rcases List.mem_cons.1 hp' with e | hp'
      · subst e
        obtain ⟨i, hi, hci⟩ := hC _ _ _ hc hr
        exact ⟨resolveInclude (expand p') i, by simp; exact Or.inr ⟨i, hi, rfl⟩, hci⟩
      · exact ⟨p', by simp [hp'], hc⟩

/-- The witness: a file that includes itself. -/
theorem self_include_diverges (fuel : Nat) :
    getConfigdict (ε := Unit) (fun _ => .ok ([S "loop.yaml"], [])) id fuel [S "/x/loop.yaml"] [] =
      .error .outOfFuel := by
  apply load_diverges _ _ (fun p => p = S "/x/loop.yaml")
  · intro p; exact ⟨_, rfl⟩
  · intro p incs d hp h
    simp only [Except.ok.injEq, Prod.mk.injEq] at h
    refine ⟨S "loop.yaml", by rw [← h.1]; simp, ?_⟩
    subst hp
    decide +kernel
  · exact ⟨S "/x/loop.yaml", by simp, rfl⟩

/-! ## C33 -/

/-- The absolute path of the directory with the given components, outermost first. -/
def dirPath (cs : List Str) : Str := '/' :: join ['/'] cs

/-- The directory and all its ancestors, nearest first.  Components innermost first. -/
def ancestors : List Str → List Str
  | [] => [dirPath []]
  | c :: cs => dirPath (c :: cs).reverse :: ancestors cs

/-- A path component. -/
def Component (c : Str) : Prop := c ≠ [] ∧ '/' ∉ c

theorem join_append_single (cs : List Str) (c : Str) (h : cs ≠ []) :
    join ['/'] (cs ++ [c]) = join ['/'] cs ++ '/' :: c := by
  induction cs with
  | nil => exact absurd rfl h
  | cons a as ih =>
    cases as with
    | nil => simp [join]
    | cons b bs =>
      have := ih (by simp)
      simp only [List.cons_append, join] at this ⊢
      rw [this]; simp

theorem afterLastSlash_append (a c : Str) (hc : '/' ∉ c) :
    afterLastSlash (a ++ '/' :: c) = a.length + 1 := by
  simp only [afterLastSlash, List.reverse_append, List.reverse_cons, List.append_assoc]
  rw [List.takeWhile_append_of_pos (by intro x hx; simp at hx ⊢; intro e; subst e; exact hc hx)]
  simp
  omega

theorem getLast_join (cs : List Str) (hne : cs ≠ []) (hc : ∀ c ∈ cs, Component c) :
    ∃ a x, join ['/'] cs = a ++ [x] ∧ x ≠ '/' := by
  induction cs with
  | nil => exact absurd rfl hne
  | cons c cs ih =>
    cases cs with
    | nil =>
      have := hc c (by simp)
      refine ⟨c.dropLast, c.getLast this.1, by simp [join, List.dropLast_concat_getLast], ?_⟩
      intro e; exact this.2 (e ▸ List.getLast_mem _)
    | cons d ds =>
      obtain ⟨a, x, h, hx⟩ := ih (by simp) (fun y hy => hc y (by simp [hy]))
      exact ⟨c ++ ['/'] ++ a, x, by simp only [join] at h ⊢; rw [h]; simp, hx⟩

theorem dirname_dirPath (cs : List Str) (c : Str) (hcs : ∀ d ∈ cs, Component d) (hc : Component c) :
    dirname (dirPath (cs ++ [c])) = dirPath cs := by
  by_cases h : cs = []
  · subst h
    have e : dirPath ([] ++ [c]) = [] ++ '/' :: c := by simp [dirPath, join]
    have ha := afterLastSlash_append [] c hc.2
    simp only [dirname, e, ha]
    simp [dirPath, join]
  · have e : dirPath (cs ++ [c]) = dirPath cs ++ '/' :: c := by
      simp [dirPath, join_append_single cs c h]
    have ha := afterLastSlash_append (dirPath cs) c hc.2
    obtain ⟨a, x, hj, hx⟩ := getLast_join cs h hcs
    have htake : (dirPath cs ++ '/' :: c).take ((dirPath cs).length + 1) = dirPath cs ++ ['/'] := by
      rw [List.take_append, List.take_of_length_le (Nat.le_succ _)]; simp
    simp only [dirname, e, ha, htake]
    have hd : dirPath cs = ('/' :: a) ++ [x] := by simp [dirPath, hj]
    have hall : (dirPath cs ++ ['/']).all (· == '/') = false := by
      rw [hd]; simp [hx]
    rw [hall]
    simp only [Bool.false_eq_true, if_false, rstripBy, List.reverse_append]
    rw [hd]
    simp [hx]

theorem dirname_root : dirname (dirPath []) = dirPath [] := by decide

theorem dirPath_length (cs : List Str) (c : Str) (hc : Component c) :
    (dirPath cs).length < (dirPath (cs ++ [c])).length := by
  by_cases h : cs = []
  · subst h
    have : 0 < c.length := List.length_pos_iff.2 hc.1
    simp [dirPath, join]; omega
  · simp [dirPath, join_append_single cs c h]

theorem findFrom_eq (exists_ : Str → Bool) (cs : List Str) (hc : ∀ c ∈ cs, Component c) (fuel : Nat)
    (hf : (dirPath cs.reverse).length ≤ fuel) :
    findFrom exists_ fuel (dirPath cs.reverse) =
      (ancestors cs).findSome? (fun d => (candidateNames.map (pathJoin d)).find? exists_) := by
  induction cs generalizing fuel with
  | nil =>
    cases fuel with
    | zero => simp [dirPath] at hf
    | succ n =>
      have hr : dirname (dirPath []) = dirPath [] := dirname_root
      simp only [List.reverse_nil, findFrom, ancestors, List.findSome?_cons, List.findSome?_nil, hr,
        if_true]
      have : (dirPath []).isEmpty = false := by simp [dirPath]
      rw [this]
      simp only [Bool.false_eq_true, if_false]
      cases List.find? exists_ (List.map (pathJoin (dirPath [])) candidateNames) <;> rfl
  | cons c cs ih =>
    cases fuel with
    | zero => simp [dirPath] at hf
    | succ n =>
      have hcc := hc c (by simp)
      have hcs : ∀ d ∈ cs.reverse, Component d := fun d hd => hc d (by simp at hd; simp [hd])
      have hr : dirname (dirPath (c :: cs).reverse) = dirPath cs.reverse := by
        rw [List.reverse_cons]; exact dirname_dirPath cs.reverse c hcs hcc
      have hlen : (dirPath cs.reverse).length < (dirPath (c :: cs).reverse).length := by
        rw [List.reverse_cons]; exact dirPath_length cs.reverse c hcc
      have hne : dirPath (c :: cs).reverse ≠ dirPath cs.reverse := by
        intro e; rw [e] at hlen; omega
      have hemp : (dirPath (c :: cs).reverse).isEmpty = false := by simp [dirPath]
      simp only [findFrom, ancestors, List.findSome?_cons, hr, hemp, Bool.false_eq_true, if_false,
        if_neg hne]
      rw [ih (fun d hd => hc d (by simp [hd])) n (by omega)]
      cases List.find? exists_ (List.map (pathJoin (dirPath (c :: cs).reverse)) candidateNames) <;> rfl

/-- The documented names of configuration files, in the documented order. -/
def documentedNames : List Str :=
  [S ".cmake-format", S ".cmake-format.py", S ".cmake-format.json", S ".cmake-format.yaml",
   S "cmake-format.py", S "cmake-format.json", S "cmake-format.yaml"]

/-- **C33.**  For a file with absolute path `/c₁/…/cₙ/name` the chosen configuration file
is found by visiting its directory, then each ancestor up to the root, and trying the
documented names in order in each; the first existing one is taken, and none only if
none of them exists. -/
theorem nearest_config (exists_ isdir : Str → Bool) (realpath : Str → Str) (infile : Str)
    (cs : List Str) (name : Str) (hcs : ∀ c ∈ cs, Component c) (hname : Component name)
    (hdir : isdir infile = false) (hreal : realpath infile = dirPath (cs ++ [name])) :
    findConfigFile exists_ isdir realpath infile =
      (ancestors cs.reverse).findSome? (fun d => (documentedNames.map (pathJoin d)).find? exists_) := by
  simp only [findConfigFile, hdir, Bool.false_eq_true, if_false, hreal]
  rw [dirname_dirPath cs name hcs hname]
  have := findFrom_eq exists_ cs.reverse (fun c hc => hcs c (by simpa using hc))
    ((dirPath cs).length + 1) (by rw [List.reverse_reverse]; omega)
  rw [List.reverse_reverse] at this
  exact this

/-- **C33 (directories).**  For a directory `/c₁/…/cₙ` the search starts in that directory
itself. -/
theorem nearest_config_of_directory (exists_ isdir : Str → Bool) (realpath : Str → Str)
    (cs : List Str) (hcs : ∀ c ∈ cs, Component c) (hdir : isdir (dirPath cs) = true) :
    findConfigFile exists_ isdir realpath (dirPath cs) =
      (ancestors cs.reverse).findSome? (fun d => (documentedNames.map (pathJoin d)).find? exists_) := by
  simp only [findConfigFile, hdir, if_true]
  have := findFrom_eq exists_ cs.reverse (fun c hc => hcs c (by simpa using hc))
    ((dirPath cs).length + 1) (by rw [List.reverse_reverse]; omega)
  rw [List.reverse_reverse] at this
  exact this

example : findConfigFile (fun p => p = S "/a/b/cmake-format.py" || p = S "/a/.cmake-format")
      (fun p => p = S "/a/b") id (S "/a/b") = some (S "/a/b/cmake-format.py") := by decide +kernel

/-- The directories visited, and the order of the names. -/
example : ancestors [S "b", S "a"] = [S "/a/b", S "/a", S "/"] ∧
    findConfigFile (fun p => p = S "/a/cmake-format.py" || p = S "/a/.cmake-format.yaml" ||
        p = S "/.cmake-format")
      (fun _ => false) id (S "/a/b/CMakeLists.txt") = some (S "/a/.cmake-format.yaml") := by
  decide +kernel

/-! ## C34 -/

theorem lookup_foldl_setKey (k : Str) (cdict d : Dict) (h : (cdict.map (·.1)).Nodup) :
    lookup k (cdict.foldl (fun d p => setKey p.1 p.2 d) d) = (lookup k cdict).or (lookup k d) := by
  induction cdict generalizing d with
  | nil => simp [lookup]
  | cons p cdict ih =>
    obtain ⟨k2, v2⟩ := p
    simp only [List.map_cons, List.nodup_cons] at h
    rw [List.foldl_cons, ih _ h.2, lookup_setKey]
    simp only [lookup]
    split
    · rename_i e; subst e
      rw [lookup_none_iff.2 h.1]; simp
    · rfl

/-- What the override table says about one key of one command: the entries whose
command name matches up to letter case are searched from the last to the first. -/
def overrideFor (per : List (Str × Val)) (command key : Str) : Option Val :=
  (per.filterMap (fun p =>
    match p.2 with
    | .dict c => if lower p.1 = lower command then lookup key c else none
    | _ => none)).getLast?

theorem lookup_perCommand (table : List (Str × Dict)) (per : List (Str × Val)) (command key : Str)
    (h : ∀ p ∈ per, ∀ c, p.2 = .dict c → (c.map (·.1)).Nodup) :
    lookup key ((lookup (lower command) (perCommand table per)).getD []) =
      (overrideFor per command key).or (lookup key ((lookup (lower command) table).getD [])) := by
  induction per generalizing table with
  | nil => simp [perCommand, overrideFor]
  | cons p per ih =>
    obtain ⟨cmd, v⟩ := p
    have h' : ∀ p ∈ per, ∀ c, p.2 = .dict c → (c.map (·.1)).Nodup :=
      fun p hp c hc => h p (by simp [hp]) c hc
    by_cases hv : ∃ c, v = .dict c
    · obtain ⟨c, rfl⟩ := hv
      have hn := h (cmd, .dict c) (by simp) c rfl
      simp only [perCommand]
      rw [ih _ h', lookup_setKey]
      simp only [overrideFor, List.filterMap_cons]
      by_cases e : lower cmd = lower command
      · simp only [e, if_true, Option.getD_some]
        rw [lookup_foldl_setKey _ _ _ hn]
        cases hk : lookup key c with
        | none => simp
        | some x =>
          simp only [List.getLast?_cons, Option.some_or]
          cases (per.filterMap _).getLast? <;> simp
      · simp only [e, if_false]
    · have hp : perCommand table ((cmd, v) :: per) = perCommand table per := by
        cases v with
        | dict c => exact absurd ⟨c, rfl⟩ hv
        | _ => rfl
      rw [hp, ih _ h']
      have : overrideFor ((cmd, v) :: per) command key = overrideFor per command key := by
        simp only [overrideFor, List.filterMap_cons]
        cases v with
        | dict c => exact absurd ⟨c, rfl⟩ hv
        | _ => rfl
      rw [this]

/-- **C34.**  The value in force for a command: an override of the full key, else one of
the bare option name, else the global value; overrides are those of entries whose
command name is the same up to letter case, the last one winning; the built-in table
comes before all of them. -/
theorem resolve_spec (builtin : List (Str × Dict)) (per : List (Str × Val)) (global : Option Val)
    (command key : Str) (h : ∀ p ∈ per, ∀ c, p.2 = .dict c → (c.map (·.1)).Nodup) :
    resolveForCommand (perCommand builtin per) global command key =
      ((((overrideFor per command key).or (lookup key ((lookup (lower command) builtin).getD []))).or
        ((overrideFor per command (fieldName key)).or
          (lookup (fieldName key) ((lookup (lower command) builtin).getD [])))).or global) := by
  simp only [resolveForCommand]
  rw [lookup_perCommand _ _ _ _ h, lookup_perCommand _ _ _ _ h]
  cases (overrideFor per command key).or (lookup key ((lookup (lower command) builtin).getD [])) with
  | some v => simp
  | none =>
    simp only [Option.none_or]
    cases (overrideFor per command (fieldName key)).or
      (lookup (fieldName key) ((lookup (lower command) builtin).getD [])) with
    | some v => simp
    | none => simp

/-- **C34 (letter case of the command is irrelevant).** -/
theorem resolve_case (table : List (Str × Dict)) (global : Option Val) (c1 c2 key : Str)
    (h : lower c1 = lower c2) :
    resolveForCommand table global c1 key = resolveForCommand table global c2 key := by
  simp [resolveForCommand, h]

/-- **C34 (other commands are unaffected).**  Removing every entry for other commands
does not change what is in force for a command. -/
theorem resolve_other_commands (builtin : List (Str × Dict)) (per : List (Str × Val))
    (global : Option Val) (command key : Str)
    (h : ∀ p ∈ per, ∀ c, p.2 = .dict c → (c.map (·.1)).Nodup) :
    resolveForCommand (perCommand builtin per) global command key =
    resolveForCommand
      (perCommand builtin (per.filter (fun p => lower p.1 = lower command))) global command key := by
  have hf : ∀ k, overrideFor (per.filter (fun p => lower p.1 = lower command)) command k =
      overrideFor per command k := by
    intro k
    simp only [overrideFor]
    congr 1
    clear h
    induction per with
    | nil => rfl
    | cons p per ih =>
      simp only [List.filter_cons]
      by_cases e : lower p.1 = lower command
      · simp only [e, decide_true, if_true, List.filterMap_cons, ih]
      · simp only [e, decide_false, Bool.false_eq_true, if_false, ih]
        rw [List.filterMap_cons_none]
        cases p.2 <;> simp [e]
  rw [resolve_spec _ _ _ _ _ h, resolve_spec _ _ _ _ _ (fun p hp => h p (List.mem_filter.1 hp).1),
    hf, hf]

example : resolveForCommand (perCommand defaultPerCommand
      [(S "Foo", .dict [(S "command_case", .str (S "upper"))]), (S "bar", .int 3)])
      (some (.str (S "lower"))) (S "fOO") (S "format.command_case") = some (.str (S "upper")) ∧
    resolveForCommand (perCommand defaultPerCommand
      [(S "Foo", .dict [(S "command_case", .str (S "upper"))]), (S "bar", .int 3)])
      (some (.str (S "lower"))) (S "bar") (S "format.command_case") = some (.str (S "lower")) := by
  exact ⟨by rfl, by rfl⟩

/-! ## C46 -/

/-- **C46.**  `parse_bool` is true exactly for the eight documented words in any mix of
upper and lower case. -/
theorem parseBool_iff (s : Str) :
    parseBool s = true ↔
      lower s = S "y" ∨ lower s = S "yes" ∨ lower s = S "t" ∨ lower s = S "true" ∨
      lower s = S "1" ∨ lower s = S "yup" ∨ lower s = S "yeah" ∨ lower s = S "yada" := by
  simp only [parseBool]
  split
  · rename_i h; simp at h; grind
  · rename_i h; simp at h
    split <;> simp [h]

example : parseBool (S "YeS") = true ∧ parseBool (S "on") = false := by decide +kernel

/-! ## C47, C48 -/

/-- Field and section names of an object are distinct, as Python attributes are. -/
def DistinctNames (o : Obj) : Prop :=
  (o.map (·.name)).Nodup ∧ ∀ s ∈ o, (s.fields.map (·.name)).Nodup

theorem consumeFields_nil (fs : List Field) : consumeFields fs [] = (fs, []) := by
  induction fs with
  | nil => rfl
  | cons f fs ih => simp [consumeFields, lookup, ih]

theorem legacySections_nil (o : Obj) : legacySections o [] = (o, []) := by
  induction o with
  | nil => rfl
  | cons s ss ih => simp [legacySections, consumeFields_nil, ih]

theorem consumeKnown_nil (o : Obj) : consumeKnown o [] = .ok (o, []) := by
  induction o with
  | nil => rfl
  | cons s ss ih => simp [consumeKnown, lookup, ih]

/-- Overrides after reading a dictionary: a name present in it is overridden. -/
theorem consumeFields_fst (fs : List Field) (kw : Dict) (h : (fs.map (·.name)).Nodup) :
    (consumeFields fs kw).1 = fs.map (fun f =>
      match lookup f.name kw with
      | some v => { f with override := some v }
      | none => f) := by
  induction fs generalizing kw with
  | nil => rfl
  | cons f fs ih =>
    simp only [List.map_cons, List.nodup_cons] at h
    simp only [consumeFields, List.map_cons]
    cases hl : lookup f.name kw with
    | none => simp [ih kw h.2]
    | some v =>
      simp only [ih _ h.2]
      congr 1
      apply List.map_congr_left
      intro g hg
      have : f.name ≠ g.name := fun e => h.1 (e ▸ List.mem_map_of_mem hg)
      rw [lookup_delKey_ne this]

theorem consumeFields_snd (fs : List Field) (kw : Dict) (k : Str) :
    lookup k (consumeFields fs kw).2 = if k ∈ fs.map (·.name) then none else lookup k kw := by
  induction fs generalizing kw with
  | nil => simp [consumeFields]
  | cons f fs ih =>
    simp only [consumeFields]
    cases hl : lookup f.name kw with
    | none =>
      simp only [ih kw, List.map_cons, List.mem_cons]
      by_cases e : k = f.name
      · subst e; simp [hl]
      · simp [e]
    | some v =>
      simp only [ih _, List.map_cons, List.mem_cons]
      by_cases e : k = f.name
      · subst e; simp [lookup_delKey_self]
      · simp only [e, false_or]
        rw [lookup_delKey_ne (fun h => e h.symm)]

theorem lookup_fieldsDict (b : Bool) (fs : List Field) (h : (fs.map (·.name)).Nodup) {f : Field}
    (hf : f ∈ fs) : lookup f.name (fieldsDict b fs) =
      if b || f.override.isSome then some f.value else none := by
  induction fs with
  | nil => simp at hf
  | cons g fs ih =>
    simp only [List.map_cons, List.nodup_cons] at h
    have notin : ∀ k, k ∉ fs.map (·.name) → lookup k (fieldsDict b fs) = none := by
      intro k hk
      clear ih hf h
      induction fs with
      | nil => rfl
      | cons a as ih2 =>
        simp only [List.map_cons, List.mem_cons, not_or] at hk
        have := ih2 hk.2
        simp only [fieldsDict]
        split
        · simp [lookup, this, Ne.symm hk.1]
        · exact this
    rcases List.mem_cons.1 hf with e | hf
    · subst e
      simp only [fieldsDict]
      split
      · simp [lookup]
      · exact notin _ h.1
    · have hne : g.name ≠ f.name := fun e => h.1 (e ▸ List.mem_map_of_mem hf)
      simp only [fieldsDict]
      split
      · simp only [lookup, hne, if_false]; exact ih h.2 hf
      · exact ih h.2 hf

theorem lookup_asDict_none (b : Bool) (o : Obj) (k : Str) (h : k ∉ o.map (·.name)) :
    lookup k (asDict b o) = none := by
  induction o with
  | nil => rfl
  | cons s ss ih =>
    simp only [List.map_cons, List.mem_cons, not_or] at h
    have := ih h.2
    simp only [asDict]
    split
    · simp [lookup, this, Ne.symm h.1]
    · exact this

/-- Reading back a dump of an object into a fresh one of the same class, for both kinds
of dump. -/
theorem consumeKnown_asDict (b : Bool) (o : Obj) (h : DistinctNames o) :
    consumeKnown (fresh o) (asDict b o) =
      .ok (o.map (fun s => { s with fields := s.fields.map (fun f =>
        if b || f.override.isSome then { f with override := some f.value }
        else { f with override := none }) }), []) := by
  induction o with
  | nil => rfl
  | cons s ss ih =>
    have hss : DistinctNames ss := by
      constructor
      · have := h.1; simp only [List.map_cons, List.nodup_cons] at this; exact this.2
      · exact fun t ht => h.2 t (by simp [ht])
    have hs := h.2 s (by simp)
    have hnot : s.name ∉ ss.map (·.name) := by
      have := h.1; simp only [List.map_cons, List.nodup_cons] at this; exact this.1
    have ih' := ih hss
    have hfresh : (freshFields s.fields).map (·.name) = s.fields.map (·.name) := by
      simp [freshFields]
    have hread : (consumeFields (freshFields s.fields) (fieldsDict b s.fields)).1 =
        s.fields.map (fun f => if b || f.override.isSome then { f with override := some f.value }
          else { f with override := none }) := by
      rw [consumeFields_fst _ _ (by rw [hfresh]; exact hs)]
      simp only [freshFields, List.map_map]
      apply List.map_congr_left
      intro f hf
      simp only [Function.comp]
      rw [lookup_fieldsDict b _ hs hf]
      cases hb : (b || f.override.isSome) <;> simp
    have hdel : delKey s.name ((s.name, Val.dict (fieldsDict b s.fields)) :: asDict b ss) =
        asDict b ss := by
      simp only [delKey, if_true]
      exact delKey_of_not_mem (lookup_asDict_none b ss s.name hnot)
    simp only [fresh, List.map_cons, consumeKnown, asDict]
    cases hb : (b || hasOverride s.fields) with
    | true =>
      simp only [if_true, lookup, consumeSection]
      rw [hread, hdel]
      simp only [fresh] at ih'
      rw [ih']
    | false =>
      simp only [Bool.false_eq_true, if_false, lookup_asDict_none b ss s.name hnot]
      simp only [fresh] at ih'
      rw [ih']
      simp only [Bool.or_eq_false_iff] at hb
      have hnone : ∀ f ∈ s.fields, f.override.isSome = false := by
        have := hb.2
        simp only [hasOverride, List.any_eq_false] at this
        intro f hf; simpa using this f hf
      have key : freshFields s.fields = s.fields.map (fun f =>
          if b || f.override.isSome then { f with override := some f.value }
          else { f with override := none }) := by
        simp only [freshFields]
        apply List.map_congr_left
        intro f hf
        simp [hb.1, hnone f hf]
      simp only [key]

theorem construct_asDict (b : Bool) (o : Obj) (h : DistinctNames o) :
    construct o (asDict b o) =
      .ok (o.map (fun s => { s with fields := s.fields.map (fun f =>
        if b || f.override.isSome then { f with override := some f.value }
        else { f with override := none }) })) := by
  simp only [construct, consumeKnown_asDict b o h, legacyConsume, consumeKnown_nil,
    legacySections_nil]

theorem getOption_map (o : Obj) (g : Field → Field) (hg : ∀ f, (g f).name = f.name)
    (hv : ∀ f, (g f).value = f.value) (sec name : Str) :
    getOption (o.map (fun s => { s with fields := s.fields.map g })) sec name =
      getOption o sec name := by
  have h1 : ∀ fs : List Field, ((fs.map g).find? (fun f => decide (f.name = name))) =
      (fs.find? (fun f => decide (f.name = name))).map g := by
    intro fs
    rw [List.find?_map]
    congr 2
    funext f
    simp [Function.comp, hg]
  have h2 : (o.map (fun s => { s with fields := s.fields.map g })).find?
      (fun s => decide (s.name = sec)) =
      (o.find? (fun s => decide (s.name = sec))).map
        (fun s => { s with fields := s.fields.map g }) := by
    rw [List.find?_map]; rfl
  simp only [getOption, h2]
  cases o.find? (fun s => decide (s.name = sec)) with
  | none => rfl
  | some s =>
    simp only [Option.map_some, h1]
    cases s.fields.find? (fun f => decide (f.name = name)) with
    | none => rfl
    | some f => simp [hv]

/-- **C47 (clone).**  Cloning succeeds and every option has the same value in the clone. -/
theorem clone_same_values (o : Obj) (h : DistinctNames o) :
    ∃ o', clone o = .ok o' ∧ ∀ sec name, getOption o' sec name = getOption o sec name := by
  refine ⟨_, construct_asDict true o h, ?_⟩
  intro sec name
  apply getOption_map
  · intro f; simp
  · intro f; simp [Field.value]

/-- **C47 (round trip through a dump without defaults).**  Constructing a configuration
from such a dump gives back the object itself: the same options are overridden, with the
same values, and no others. -/
theorem dump_round_trip (o : Obj) (h : DistinctNames o) : construct o (asDict false o) = .ok o := by
  rw [construct_asDict false o h]
  congr 1
  have hf : ∀ fs : List Field, fs.map (fun f : Field =>
      if false || f.override.isSome then { f with override := some f.value }
      else { f with override := none }) = fs := by
    intro fs
    conv => rhs; rw [← List.map_id fs]
    apply List.map_congr_left
    intro f _
    obtain ⟨n, d, ov⟩ := f
    cases ov <;> rfl
  conv => rhs; rw [← List.map_id o]
  apply List.map_congr_left
  intro s _
  simp only [hf, id]

/-- **C47 (what a dump without defaults contains).**  A field's entry is present iff the
field is overridden, and then holds its value. -/
theorem dump_exact (o : Obj) (h : DistinctNames o) (s : Section) (hs : s ∈ o) (f : Field)
    (hf : f ∈ s.fields) :
    valAt [s.name, f.name] (.dict (asDict false o)) = f.override := by
  have hsec : lookup s.name (asDict false o) =
      if hasOverride s.fields then some (.dict (fieldsDict false s.fields)) else none := by
    have hn := h.1
    clear h hf
    induction o with
    | nil => simp at hs
    | cons t ts ih =>
      simp only [List.map_cons, List.nodup_cons] at hn
      simp only [asDict, Bool.false_or]
      rcases List.mem_cons.1 hs with e | hs
      · subst e
        split
        · simp [lookup]
        · exact lookup_asDict_none _ _ _ hn.1
      · have hne : t.name ≠ s.name := fun e => hn.1 (e ▸ List.mem_map_of_mem hs)
        split
        · simp only [lookup, hne, if_false]; exact ih hs hn.2
        · exact ih hs hn.2
  simp only [valAt, hsec]
  have hlf := lookup_fieldsDict false s.fields (h.2 s hs) hf
  cases ho : hasOverride s.fields with
  | true =>
    simp only [if_true, Option.bind_some, valAt, hlf, Bool.false_or]
    cases hov : f.override with
    | none => simp
    | some v => simp [Field.value, hov]
  | false =>
    simp only [Bool.false_eq_true, if_false, Option.bind_none]
    cases hov : f.override with
    | none => rfl
    | some v =>
      simp only [hasOverride, List.any_eq_false] at ho
      have := ho f hf
      simp [hov] at this

/-- A name no section or field of the class has. -/
def Unknown (o : Obj) (k : Str) : Prop :=
  k ∉ o.map (·.name) ∧ ∀ s ∈ o, k ∉ s.fields.map (·.name)

theorem consumeFields_congr (fs : List Field) (kw kw' : Dict)
    (h : ∀ k, k ∈ fs.map (·.name) → lookup k kw = lookup k kw') :
    (consumeFields fs kw).1 = (consumeFields fs kw').1 := by
  induction fs generalizing kw kw' with
  | nil => rfl
  | cons f fs ih =>
    have hf := h f.name (by simp)
    simp only [consumeFields, ← hf]
    cases hl : lookup f.name kw with
    | none => simp only; rw [ih kw kw' (fun k hk => h k (by simp [hk]))]
    | some v =>
      simp only
      rw [ih (delKey f.name kw) (delKey f.name kw')]
      intro k hk
      by_cases e : f.name = k
      · subst e; rw [lookup_delKey_self, lookup_delKey_self]
      · rw [lookup_delKey_ne e, lookup_delKey_ne e]
        exact h k (by simp only [List.map_cons, List.mem_cons]; exact Or.inr hk)

/-- Agreement of two dictionaries on the names a class knows. -/
def Agree (o : Obj) (kw kw' : Dict) : Prop := ∀ k, ¬ Unknown o k → lookup k kw = lookup k kw'

theorem consumeFields_names (fs : List Field) (d : Dict) :
    (consumeFields fs d).1.map (·.name) = fs.map (·.name) := by
  induction fs generalizing d with
  | nil => rfl
  | cons f fs ih =>
    simp only [consumeFields]
    cases lookup f.name d <;> simp [ih]

theorem consumeKnown_congr (o : Obj) (kw kw' : Dict)
    (h : ∀ k, k ∈ o.map (·.name) → lookup k kw = lookup k kw') :
    (∃ e, consumeKnown o kw = .error e ∧ consumeKnown o kw' = .error e) ∨
    (∃ o' r r', consumeKnown o kw = .ok (o', r) ∧ consumeKnown o kw' = .ok (o', r') ∧
      o'.map (·.name) = o.map (·.name) ∧
      o'.map (fun s => s.fields.map (·.name)) = o.map (fun s => s.fields.map (·.name)) ∧
      ∀ k, lookup k kw = lookup k kw' → lookup k r = lookup k r') := by
  induction o generalizing kw kw' with
  | nil => exact Or.inr ⟨[], kw, kw', rfl, rfl, rfl, rfl, fun k hk => hk⟩
  | cons s ss ih =>
    have hs := h s.name (by simp)
    simp only [consumeKnown, ← hs]
    cases hl : lookup s.name kw with
    | none =>
      rcases ih kw kw' (fun k hk => h k (by simp only [List.map_cons, List.mem_cons]; exact Or.inr hk)) with
        ⟨e, h1, h2⟩ | ⟨o', r, r', h1, h2, h3, h4, h5⟩
      · exact Or.inl ⟨e, by rw [h1], by rw [h2]⟩
      · exact Or.inr ⟨s :: o', r, r', by simp only [h1], by simp only [h2],
          by simp only [List.map_cons, h3], by simp only [List.map_cons, h4], h5⟩
    | some v =>
      simp only
      cases hc : consumeSection s v with
      | error e => exact Or.inl ⟨e, rfl, rfl⟩
      | ok s' =>
        simp only
        have hn : s'.name = s.name ∧ s'.fields.map (·.name) = s.fields.map (·.name) := by
          cases v with
          | dict d =>
            simp only [consumeSection, Except.ok.injEq] at hc
            subst hc
            refine ⟨rfl, ?_⟩
            exact consumeFields_names s.fields d
          | _ => simp [consumeSection] at hc
        have hk' : ∀ k, lookup k kw = lookup k kw' →
            lookup k (delKey s.name kw) = lookup k (delKey s.name kw') := by
          intro k hk
          by_cases e : s.name = k
          · subst e; rw [lookup_delKey_self, lookup_delKey_self]
          · rw [lookup_delKey_ne e, lookup_delKey_ne e, hk]
        rcases ih (delKey s.name kw) (delKey s.name kw') (fun k hk => hk' k
            (h k (by simp only [List.map_cons, List.mem_cons]; exact Or.inr hk))) with
          ⟨e, h1, h2⟩ | ⟨o', r, r', h1, h2, h3, h4, h5⟩
        · exact Or.inl ⟨e, by rw [h1], by rw [h2]⟩
        · exact Or.inr ⟨s' :: o', r, r', by simp only [h1], by simp only [h2],
            by simp only [List.map_cons, h3, hn.1], by simp only [List.map_cons, h4, hn.2],
            fun k hk => h5 k (hk' k hk)⟩

theorem legacySections_congr (o : Obj) (kw kw' : Dict)
    (h : ∀ s ∈ o, ∀ k, k ∈ s.fields.map (·.name) → lookup k kw = lookup k kw') :
    (legacySections o kw).1 = (legacySections o kw').1 := by
  induction o generalizing kw kw' with
  | nil => rfl
  | cons s ss ih =>
    simp only [legacySections]
    rw [consumeFields_congr s.fields kw kw' (h s (by simp)),
      ih (consumeFields s.fields kw).2 (consumeFields s.fields kw').2]
    intro t ht k hk
    rw [consumeFields_snd, consumeFields_snd]
    split
    · rfl
    · exact h t (by simp [ht]) k hk

/-- **C48.**  Two configuration dictionaries that agree on every name the class knows
(section names, and option names for the flat legacy style) construct the same
configuration, or fail alike.  In particular unknown keys change nothing. -/
theorem unknown_keys_ignored (o : Obj) (kw kw' : Dict) (h : Agree o kw kw') :
    construct o kw = construct o kw' := by
  have hname : (fresh o).map (·.name) = o.map (·.name) := by
    simp only [fresh, List.map_map]; apply List.map_congr_left; intro s _; rfl
  have hfields : (fresh o).map (fun s => s.fields.map (·.name)) =
      o.map (fun s => s.fields.map (·.name)) := by
    simp only [fresh, List.map_map]; apply List.map_congr_left; intro s _
    simp [freshFields]
  have hk1 : ∀ k, k ∈ o.map (·.name) → lookup k kw = lookup k kw' := by
    intro k hk; exact h k (fun hu => hu.1 hk)
  have hk2 : ∀ ns ∈ o.map (fun s => s.fields.map (·.name)), ∀ k ∈ ns, lookup k kw = lookup k kw' := by
    intro ns hns k hk
    obtain ⟨s, hs, rfl⟩ := List.mem_map.1 hns
    exact h k (fun hu => hu.2 s hs hk)
  simp only [construct]
  rcases consumeKnown_congr (fresh o) kw kw' (fun k hk => hk1 k (by rw [← hname]; exact hk)) with
    ⟨e, h1, h2⟩ | ⟨o1, r, r', h1, h2, h3, h4, h5⟩
  · rw [h1, h2]
  · rw [h1, h2]
    simp only [legacyConsume]
    have hagree : ∀ k, lookup k kw = lookup k kw' → lookup k r = lookup k r' := h5
    rcases consumeKnown_congr o1 r r' (fun k hk => hagree k (hk1 k (by rw [← hname, ← h3]; exact hk))) with
      ⟨e, g1, g2⟩ | ⟨o2, q, q', g1, g2, g3, g4, g5⟩
    · rw [g1, g2]
    · rw [g1, g2]
      simp only
      congr 1
      apply legacySections_congr
      intro s hs k hk
      apply g5
      apply hagree
      refine hk2 (s.fields.map (·.name)) ?_ k hk
      rw [← hfields, ← h4, ← g4]
      exact List.mem_map_of_mem (f := fun s => s.fields.map (·.name)) hs

/-- **C48 (unknown keys inside a section).**  The same for the dictionary of a section. -/
theorem unknown_keys_in_section (s : Section) (kw kw' : Dict)
    (h : ∀ k ∈ s.fields.map (·.name), lookup k kw = lookup k kw') :
    consumeSection s (.dict kw) = consumeSection s (.dict kw') := by
  simp only [consumeSection]
  rw [consumeFields_congr s.fields kw kw' h]

/-- A small class with the names used by the tool. -/
def exampleClass : Obj :=
  [{ name := S "format", fields :=
      [{ name := S "line_width", default := .int 80 },
       { name := S "tab_size", default := .int 2, override := some (.int 4) }] },
   { name := S "markup", fields := [{ name := S "bullet_char", default := .str (S "*") }] }]

example : DistinctNames exampleClass := by
  refine ⟨by decide +kernel, ?_⟩
  intro s hs
  simp only [exampleClass, List.mem_cons, List.not_mem_nil, or_false] at hs
  rcases hs with rfl | rfl <;> decide +kernel

example : asDict false exampleClass = [(S "format", .dict [(S "tab_size", .int 4)])] ∧
    construct exampleClass [(S "line_width", .int 100), (S "nonsense", .int 1)] =
      construct exampleClass [(S "line_width", .int 100)] := ⟨by rfl, by rfl⟩

/-- The tool's own class has distinct names, so C47 applies to it (this is a complete
check of the finite table of options). -/
theorem configuration_distinct : DistinctNames configuration := by
  refine ⟨by decide +kernel, ?_⟩
  have h : (configuration.all (fun s => decide ((s.fields.map (·.name)).Nodup))) = true := by
    decide +kernel
  intro s hs
  simpa using List.all_eq_true.1 h s hs

/-- No option name is used in two sections or as a section name, so the flat legacy
style is unambiguous for the tool's own class. -/
theorem configuration_unambiguous :
    (configuration.map (·.name) ++ configuration.flatMap (fun s => s.fields.map (·.name))).Nodup := by
  decide +kernel

/-! ## C49 -/

/-- The statements of a python configuration file that matter here: assignments and
nested `with section(...)` blocks. -/
inductive Stmt
  | assign (key : Str) (v : Val)
  | sect (key : Str) (body : List Stmt)

mutual
/-- Execute one statement; a `with` block is `push_section`, the body, `pop_section`
(config_util.py:89-93). -/
def run1 (g : ExecGlobal) : Stmt → Except ExecError ExecGlobal
  | .assign k v => g.assign k v
  | .sect k body =>
    match g.push k with
    | .error e => .error e
    | .ok g1 =>
      match runAll g1 body with
      | .error e => .error e
      | .ok g2 => g2.pop
def runAll (g : ExecGlobal) : List Stmt → Except ExecError ExecGlobal
  | [] => .ok g
  | s :: ss =>
    match run1 g s with
    | .error e => .error e
    | .ok g' => runAll g' ss
end

/-- What a statement asks for, in order: create a section, or set a value, at a path. -/
inductive Effect
  | ensure (path : List Str)
  | set (path : List Str) (v : Val)

mutual
def effects1 (here : List Str) : Stmt → List Effect
  | .assign k v => [.set (here ++ [k]) v]
  | .sect k body => .ensure (here ++ [normKey k]) :: effectsAll (here ++ [normKey k]) body
def effectsAll (here : List Str) : List Stmt → List Effect
  | [] => []
  | s :: ss => effects1 here s ++ effectsAll here ss
end

/-- Carry out one effect on the root dictionary. -/
def applyEffect (root : Dict) : Effect → Dict
  | .ensure path =>
    match path.getLast? with
    | none => root
    | some k =>
      updateAt (fun d => match lookup k d with | none => setKey k (.dict []) d | some _ => d)
        path.dropLast root
  | .set path v =>
    match path.getLast? with
    | none => root
    | some k => updateAt (setKey k v) path.dropLast root

theorem updateAt_id_of (f : Dict → Dict) (p : List Str) (d e : Dict) (h : dictAt p d = some e)
    (hf : f e = e) : updateAt f p d = d := by
  induction p generalizing d with
  | nil => simp only [dictAt, Option.some.injEq] at h; subst h; simpa [updateAt] using hf
  | cons k ks ih =>
    simp only [dictAt] at h
    simp only [updateAt]
    split at h
    · rename_i x hx
      rw [ih x h]
      clear ih h hf
      induction d with
      | nil => simp [lookup] at hx
      | cons q d ihd =>
        obtain ⟨k2, v2⟩ := q
        simp only [lookup] at hx
        simp only [setKey]
        split at hx
        · rename_i e; simp only [Option.some.injEq] at hx; simp [e, hx]
        · rename_i e; simp [e, ihd hx]
    · simp at h

theorem updateAt_congr (f g : Dict → Dict) (p : List Str) (d e : Dict) (h : dictAt p d = some e)
    (hfg : f e = g e) : updateAt f p d = updateAt g p d := by
  induction p generalizing d with
  | nil => simp only [dictAt, Option.some.injEq] at h; subst h; simpa [updateAt] using hfg
  | cons k ks ih =>
    simp only [dictAt] at h
    simp only [updateAt]
    split at h
    · rw [ih _ h]
    · simp at h

mutual
theorem run1_spec (s : Stmt) (g g' : ExecGlobal) (h : run1 g s = .ok g') :
    g'.stack = g.stack ∧ g'.root = (effects1 g.top s).foldl applyEffect g.root := by
  cases s with
  | assign k v =>
    simp only [run1, ExecGlobal.assign] at h
    split at h
    · simp at h
    · simp only [Except.ok.injEq] at h
      subst h
      simp [effects1, applyEffect]
  | sect k body =>
    simp only [run1] at h
    cases hp : g.push k with
    | error e => rw [hp] at h; simp at h
    | ok g1 =>
      rw [hp] at h
      simp only at h
      cases hb : runAll g1 body with
      | error e => rw [hb] at h; simp at h
      | ok g2 =>
        rw [hb] at h
        simp only at h
        have hg1 : g1.stack = g.stack ++ [g.top ++ [normKey k]] ∧
            g1.root = applyEffect g.root (.ensure (g.top ++ [normKey k])) := by
          simp only [ExecGlobal.push] at hp
          simp only [applyEffect, List.getLast?_append, List.getLast?_singleton, Option.some_or,
            List.dropLast_concat]
          cases hd : dictAt g.top g.root with
          | none => rw [hd] at hp; simp at hp
          | some d =>
            rw [hd] at hp
            simp only at hp
            cases hl : lookup (normKey k) d with
            | none =>
              rw [hl] at hp
              simp only [Except.ok.injEq] at hp
              subst hp
              refine ⟨rfl, ?_⟩
              apply updateAt_congr _ _ _ _ _ hd
              simp [hl]
            | some x =>
              rw [hl] at hp
              cases x with
              | dict e =>
                simp only [Except.ok.injEq] at hp
                subst hp
                refine ⟨rfl, (updateAt_id_of _ _ _ _ hd ?_).symm⟩
                simp [hl]
              | _ => simp at hp
        have htop : g1.top = g.top ++ [normKey k] := by
          simp [ExecGlobal.top, hg1.1]
        obtain ⟨h1, h2⟩ := runAll_spec body g1 g2 hb
        simp only [ExecGlobal.pop] at h
        split at h
        · simp at h
        · simp only [Except.ok.injEq] at h
          subst h
          refine ⟨?_, ?_⟩
          · show g2.stack.dropLast = _
            rw [h1, hg1.1]; simp
          · show g2.root = _
            rw [h2, htop, hg1.2]
            simp [effects1]
theorem runAll_spec (ss : List Stmt) (g g' : ExecGlobal) (h : runAll g ss = .ok g') :
    g'.stack = g.stack ∧ g'.root = (effectsAll g.top ss).foldl applyEffect g.root := by
  cases ss with
  | nil => simp only [runAll, Except.ok.injEq] at h; subst h; simp [effectsAll]
  | cons s ss =>
    simp only [runAll] at h
    cases h1 : run1 g s with
    | error e => rw [h1] at h; simp at h
    | ok g1 =>
      rw [h1] at h
      obtain ⟨a, b⟩ := run1_spec s g g1 h1
      obtain ⟨c, d⟩ := runAll_spec ss g1 g' h
      have htop : g1.top = g.top := by simp [ExecGlobal.top, a]
      refine ⟨by rw [c, a], ?_⟩
      rw [d, htop, b]
      simp [effectsAll]
end

/-- **C49.**  Executing a configuration file that succeeds leaves the section stack as it
was, and its result is that of its assignments, each at the path of the sections it is
written in (names with `-` turned into `_`), in order. -/
theorem sections_spec (prog : List Stmt) (g : ExecGlobal)
    (h : runAll { root := [], stack := [] } prog = .ok g) :
    g.stack = [] ∧ g.root = (effectsAll [] prog).foldl applyEffect [] := by
  obtain ⟨a, b⟩ := runAll_spec prog _ g h
  exact ⟨a, b⟩

/-- **C49 (effect of one assignment).**  After an assignment at a path whose sections
exist, that path has the value and every path that neither extends nor begins it is as
before. -/
theorem set_exact (root : Dict) (path : List Str) (k : Str) (v : Val) (d : Dict)
    (hd : dictAt path root = some d) :
    valAt (path ++ [k]) (.dict (applyEffect root (.set (path ++ [k]) v))) = some v ∧
    ∀ q, ¬ (path ++ [k] <+: q) → ¬ (q <+: path ++ [k]) →
      valAt q (.dict (applyEffect root (.set (path ++ [k]) v))) = valAt q (.dict root) := by
  simp only [applyEffect, List.getLast?_append, List.getLast?_singleton, Option.some_or,
    List.dropLast_concat]
  induction path generalizing root with
  | nil =>
    refine ⟨by simp [updateAt, valAt, lookup_setKey_self], ?_⟩
    intro q h1 h2
    cases q with
    | nil => exact absurd (List.nil_prefix) h2
    | cons a as =>
      have hne : k ≠ a := by
        intro e; subst e
        exact h1 ⟨as, by simp⟩
      simp [updateAt, valAt, lookup_setKey_ne hne]
  | cons p ps ih =>
    simp only [dictAt] at hd
    split at hd
    · rename_i e he
      obtain ⟨i1, i2⟩ := ih e hd
      refine ⟨?_, ?_⟩
      · simp only [List.cons_append, updateAt, he, valAt, lookup_setKey_self, Option.bind_some]
        exact i1
      · intro q h1 h2
        cases q with
        | nil => exact absurd (List.nil_prefix) h2
        | cons a as =>
          simp only [updateAt, he, valAt]
          by_cases ea : p = a
          · subst ea
            rw [lookup_setKey_self, he]
            simp only [Option.bind_some]
            apply i2
            · intro hp; exact h1 (by simpa using hp)
            · intro hp; exact h2 (by simpa using hp)
          · rw [lookup_setKey_ne ea]
    · simp at hd

example : runAll { root := [], stack := [] }
    [.assign (S "top") (.int 1),
     .sect (S "format") [.assign (S "line_width") (.int 100), .sect (S "in-ner") [.assign (S "x") (.int 2)]],
     .sect (S "format") [.assign (S "tab_size") (.int 4)],
     .assign (S "last") (.int 9)] =
    .ok { root := [(S "top", .int 1),
                   (S "format", .dict [(S "line_width", .int 100),
                     (S "in_ner", .dict [(S "x", .int 2)]), (S "tab_size", .int 4)]),
                   (S "last", .int 9)],
          stack := [] } := by rfl

end Verif.Props.Config
