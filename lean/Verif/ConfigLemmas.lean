import Verif.Config

/-! # Helper lemmas about configuration dictionaries -/

namespace Verif.Config
open Verif Py

variable {α : Type}

theorem lookup_setKey_self (k : Str) (v : α) (d : List (Str × α)) :
    lookup k (setKey k v d) = some v := by
  induction d with
  | nil => simp [setKey, lookup]
  | cons p d ih =>
    obtain ⟨k', v'⟩ := p
    simp only [setKey]
    split
    · rename_i h; simp [lookup, h]
    · rename_i h; simp [lookup, h, ih]

theorem lookup_setKey_ne {k k' : Str} (h : k' ≠ k) (v : α) (d : List (Str × α)) :
    lookup k (setKey k' v d) = lookup k d := by
  induction d with
  | nil => simp [setKey, lookup, h]
  | cons p d ih =>
    obtain ⟨k2, v2⟩ := p
    simp only [setKey]
    split
    · rename_i e; subst e; simp [lookup, h]
    · simp only [lookup]; split <;> simp_all

theorem lookup_setKey (k k' : Str) (v : α) (d : List (Str × α)) :
    lookup k (setKey k' v d) = if k' = k then some v else lookup k d := by
  split
  · rename_i h; subst h; exact lookup_setKey_self _ _ _
  · rename_i h; exact lookup_setKey_ne h _ _

theorem lookup_delKey_ne {k k' : Str} (h : k' ≠ k) (d : Dict) :
    lookup k (delKey k' d) = lookup k d := by
  induction d with
  | nil => rfl
  | cons p d ih =>
    obtain ⟨k2, v2⟩ := p
    simp only [delKey]
    by_cases e : k2 = k'
    · subst e; simp [lookup, h, ih]
    · simp [e, lookup, ih]

theorem lookup_delKey_self (k : Str) (d : Dict) : lookup k (delKey k d) = none := by
  induction d with
  | nil => rfl
  | cons p d ih =>
    obtain ⟨k2, v2⟩ := p
    simp only [delKey]
    by_cases e : k2 = k
    · simp [e, ih]
    · simp [e, lookup, ih]

theorem keys_delKey (k : Str) (d : Dict) :
    (delKey k d).map (·.1) = (d.map (·.1)).filter (fun x => x ≠ k) := by
  induction d with
  | nil => rfl
  | cons p d ih =>
    obtain ⟨k2, v2⟩ := p
    simp only [delKey, List.map_cons, List.filter_cons]
    by_cases e : k2 = k
    · simp [e, ih]
    · simp [e, ih]

theorem delKey_of_not_mem {k : Str} {d : Dict} (h : lookup k d = none) : delKey k d = d := by
  induction d with
  | nil => rfl
  | cons p d ih =>
    obtain ⟨k2, v2⟩ := p
    simp only [lookup] at h
    split at h
    · simp at h
    · rename_i e; simp [delKey, e, ih h]

theorem lookup_none_iff {k : Str} {d : List (Str × α)} :
    lookup k d = none ↔ k ∉ d.map (·.1) := by
  induction d with
  | nil => simp [lookup]
  | cons p d ih =>
    obtain ⟨k2, v2⟩ := p
    simp only [lookup, List.map_cons, List.mem_cons, not_or]
    split
    · rename_i h; simp [h]
    · rename_i h; rw [ih]; exact ⟨fun h' => ⟨fun e => h e.symm, h'⟩, fun h' => h'.2⟩

theorem mem_of_lookup {k : Str} {v : α} {d : List (Str × α)} (h : lookup k d = some v) :
    (k, v) ∈ d := by
  induction d with
  | nil => simp [lookup] at h
  | cons p d ih =>
    obtain ⟨k2, v2⟩ := p
    simp only [lookup] at h
    split at h
    · rename_i e; simp only [Option.some.injEq] at h; simp [e, h]
    · simp [ih h]

theorem lookup_of_mem {k : Str} {v : α} {d : List (Str × α)} (hn : (d.map (·.1)).Nodup)
    (h : (k, v) ∈ d) : lookup k d = some v := by
  induction d with
  | nil => simp at h
  | cons p d ih =>
    obtain ⟨k2, v2⟩ := p
    simp only [List.map_cons, List.nodup_cons] at hn
    rcases List.mem_cons.1 h with e | h
    · cases e; simp [lookup]
    · have : k2 ≠ k := by
        intro e; subst e
        exact hn.1 (List.mem_map.2 ⟨_, h, rfl⟩)
      simp [lookup, this, ih hn.2 h]

theorem keys_setKey (k : Str) (v : α) (d : List (Str × α)) :
    (setKey k v d).map (·.1) = if k ∈ d.map (·.1) then d.map (·.1) else d.map (·.1) ++ [k] := by
  induction d with
  | nil => simp [setKey]
  | cons p d ih =>
    obtain ⟨k2, v2⟩ := p
    simp only [setKey]
    by_cases e : k2 = k
    · simp [e]
    · simp only [e, if_false, List.map_cons, ih, List.mem_cons]
      have : ¬ k = k2 := fun h => e h.symm
      simp only [this, false_or]
      split <;> simp

theorem nodup_setKey {k : Str} {v : α} {d : List (Str × α)} (h : (d.map (·.1)).Nodup) :
    ((setKey k v d).map (·.1)).Nodup := by
  rw [keys_setKey]
  split
  · exact h
  · rename_i hk
    rw [List.nodup_append]
    refine ⟨h, by simp, ?_⟩
    intro a ha b hb e
    simp only [List.mem_singleton] at hb
    subst hb; subst e; exact hk ha

/-! ## Merging -/

/-- What a key holds after merging. -/
def combine : Option Val → Option Val → Option Val
  | x, .none => x
  | .none, some v => some v
  | some (.dict d), some v => some (.dict (mergeInto d v))
  | some _, some v => some v

theorem lookup_mergeItem (out : Dict) (k : Str) (item : Str × Val) :
    lookup k (mergeItem out item) =
      if item.1 = k then combine (lookup k out) (some item.2) else lookup k out := by
  obtain ⟨key, inc⟩ := item
  simp only [mergeItem]
  split
  · rename_i hl
    rw [lookup_setKey]
    split
    · rename_i e; subst e; simp [hl, combine]
    · rfl
  · rename_i d hl
    rw [lookup_setKey]
    split
    · rename_i e; subst e; simp [hl, combine]
    · rfl
  · rename_i v hv hl
    rw [lookup_setKey]
    split
    · rename_i e; subst e
      rw [hl]
      cases v <;> simp_all [combine]
    · rfl

theorem combine_none_right (x : Option Val) : combine x none = x := by
  rcases x with _ | x
  · rfl
  · cases x <;> rfl

theorem lookup_mapMerge (out inc : Dict) (k : Str) (h : (inc.map (·.1)).Nodup) :
    lookup k (mapMerge out inc) = combine (lookup k out) (lookup k inc) := by
  induction inc generalizing out with
  | nil => simp [mapMerge, lookup, combine_none_right]
  | cons p inc ih =>
    obtain ⟨k2, v2⟩ := p
    simp only [List.map_cons, List.nodup_cons] at h
    rw [mapMerge, ih _ h.2, lookup_mergeItem]
    simp only [lookup]
    split
    · rename_i e
      subst e
      have : lookup k2 inc = none := lookup_none_iff.2 h.1
      rw [this, combine_none_right]
    · rfl

theorem nodup_mergeItem {out : Dict} {item : Str × Val} (h : (out.map (·.1)).Nodup) :
    ((mergeItem out item).map (·.1)).Nodup := by
  obtain ⟨key, inc⟩ := item
  simp only [mergeItem]
  split <;> exact nodup_setKey h

theorem nodup_mapMerge {out inc : Dict} (h : (out.map (·.1)).Nodup) :
    ((mapMerge out inc).map (·.1)).Nodup := by
  induction inc generalizing out with
  | nil => simpa [mapMerge] using h
  | cons p inc ih => rw [mapMerge]; exact ih (nodup_mergeItem h)

end Verif.Config
