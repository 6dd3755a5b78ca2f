import Verif.Props.Options
import Verif.Props.DumpConfig

/-!
# Which values are dumped (C89, C91)

`--dump-config` merges the command line into the dictionary of the configuration files, where the formatter reads the two one after
the other.  The values are the same.
-/

namespace Verif.Props.DumpOptions
open Verif Py Config Verif.Main Verif.Props.Config Verif.Props.Main Verif.Props.Options
open Verif.DumpConfig (update dumped dropBuiltin)

/-- The object after reading one dictionary. -/
theorem construct_eq {cls : Obj} {kw : Dict} {cfg : Obj} (hcls : Unambiguous cls) (h : construct cls kw = .ok cfg) :
    cfg = cls.map fun s => { s with fields := s.fields.map fun f => upd kw (updSec kw s { f with override := none }) } := by
  unfold construct at h
  split at h
  · simp at h
  · rename_i o1 kw1 h1
    split at h
    · simp at h
    · rename_i o2 kw2 h2
      simp only [Except.ok.injEq] at h
      subst h
      have n0 := names_map (o := cls) (g := fun s => { s with fields := s.fields.map fun f => { f with override := none } })
        (k := fun _ f => { f with override := none }) (fun _ => rfl) (fun _ _ => rfl)
      rw [← fresh_eq] at n0
      have u0 := unambiguous_names n0.1 n0.2 hcls
      obtain ⟨e1, e2⟩ := known_read u0 h1
      have n1 := names_map (o := fresh cls) (g := fun s => { s with fields := s.fields.map (updSec kw s) })
        (k := updSec kw) (fun _ => rfl) (fun _ _ => updSec_name _ _ _)
      rw [← e1] at n1
      have u1 := unambiguous_names n1.1 n1.2 u0
      have e3 := legacy_read u1 (fun s hs => by
        rw [e2, if_pos]
        rw [← n1.1]
        exact List.mem_map_of_mem hs) h2
      rw [e3, e1, fresh_eq]
      simp only [List.map_map]
      apply List.map_congr_left
      intro s hs
      simp only [Function.comp_apply, List.map_map, Section.mk.injEq, true_and]
      apply List.map_congr_left
      intro f hf
      simp only [Function.comp_apply]
      refine upd_congr ?_
      rw [updSec_name, e2, if_neg]
      rw [n0.1]
      have := not_section hcls hs hf
      exact this

theorem lookup_update (k : Str) : ∀ (a c : Dict), (a.map (·.1)).Nodup → lookup k (update c a) = (lookup k a).or (lookup k c)
  | [], c, _ => by simp [update, lookup]
  | (k', v) :: a, c, hn => by
    rw [List.map_cons, List.nodup_cons] at hn
    have ih := lookup_update k a (setKey k' v c) hn.2
    have e : update c ((k', v) :: a) = update (setKey k' v c) a := rfl
    rw [e, ih, lookup_setKey]
    by_cases hk : k' = k
    · subst hk
      rw [if_pos rfl, (lookup_none_iff (k := k') (d := a)).2 hn.1]
      simp [lookup]
    · rw [if_neg hk]
      simp [lookup, hk]

theorem argdict_sub (attrs : List Str) : ∀ (d : Dict), List.Sublist ((getArgdict attrs d).map (·.1)) (d.map (·.1))
  | [] => by simp [getArgdict]
  | (k, v) :: d => by
    have ih := argdict_sub attrs d
    unfold getArgdict
    repeat' split
    all_goals first
      | exact List.Sublist.cons _ ih
      | exact List.Sublist.cons_cons _ ih

theorem argdict_attr (attrs : List Str) {n : Str} (hn : n ∈ attrs) : ∀ (d : Dict), n ∉ (getArgdict attrs d).map (·.1)
  | [] => by simp [getArgdict]
  | (k, v) :: d => by
    have ih := argdict_attr attrs hn d
    unfold getArgdict
    split
    · exact ih
    · split
      · exact ih
      · rename_i hk
        split
        · exact ih
        · split
          · exact ih
          · rw [List.map_cons, List.mem_cons]
            rintro (e | e)
            · simp only at e; exact hk (e ▸ hn)
            · exact ih e

/-- **C89/C91.** In a dumped configuration every option has the value with which the formatter would run: the one given on the
command line, else the one at the top level of the configuration files, else the one in its section there, else the default.
(`per_command` is left out: from it the built-in commands are removed.) -/
theorem dumped_option {file args : Dict} {d : Obj} (hargs : (args.map (·.1)).Nodup)
    (h : dumped configuration file (getArgdict attributes args) = .ok d) :
    ∀ s ∈ configuration, ∀ f ∈ s.fields, f.name ≠ S "per_command" →
      getOption d s.name f.name = some (effective args file s.name f.name f.default) := by
  intro s hs f hf hp
  obtain ⟨g1, g2, g3⟩ := all_options s hs f hf
  unfold dumped at h
  split at h
  · simp at h
  · rename_i o ho
    simp only [Except.ok.injEq] at h
    subst h
    rw [construct_eq configuration_unambiguous ho, List.map_map]
    have hnd := List.Nodup.sublist (argdict_sub attributes args) hargs
    have hsec : lookup s.name (update file (getArgdict attributes args)) = lookup s.name file := by
      rw [lookup_update _ _ _ hnd, lookup_none_iff.2
        (argdict_attr attributes (List.mem_append_left _ (List.mem_map_of_mem hs)) args)]
      rfl
    have hopt : lookup f.name (update file (getArgdict attributes args)) = (given args f.name).or (lookup f.name file) := by
      rw [lookup_update _ _ _ hnd, lookup_argdict attributes f.name g1 g2 g3 args hargs]
    generalize update file (getArgdict attributes args) = kw at hsec hopt
    let k : Section → Field → Field := fun s f =>
      if s.name = S "misc" then
        (if (upd kw (updSec kw s { f with override := none })).name = S "per_command" then
          match (upd kw (updSec kw s { f with override := none })).override with
          | some (.dict d) => { (upd kw (updSec kw s { f with override := none })) with
              override := some (.dict (defaultPerCommand.foldl (fun d p => delKey p.1 d) d)) }
          | _ => upd kw (updSec kw s { f with override := none })
        else upd kw (updSec kw s { f with override := none }))
      else upd kw (updSec kw s { f with override := none })
    have hname : ∀ s f, (k s f).name = f.name := by
      intro s f
      simp only [k]
      repeat' split
      all_goals simp only [upd_name, updSec_name]
    have hval : k s f = upd kw (updSec kw s { f with override := none }) := by
      simp only [k]
      split
      · rw [if_neg]
        rw [upd_name, updSec_name]
        exact hp
      · rfl
    rw [getOption_of (distinct_of configuration_unambiguous) (k := k) (fun s => ?_) hname hs hf, hval]
    · congr 1
      unfold effective
      unfold upd
      rw [updSec_name]
      simp only
      rw [hopt]
      cases given args f.name with
      | some v => simp [Field.value]
      | none =>
        simp only [Option.none_or]
        cases lookup f.name file with
        | some v => simp [Field.value]
        | none =>
          simp only [updSec, inSection, hsec]
          cases lookup s.name file with
          | none => simp [Field.value]
          | some w =>
            cases w with
            | dict d =>
              simp only [upd]
              cases lookup f.name d <;> simp [Field.value]
            | _ => simp [Field.value]
    · simp only [Function.comp_apply, k]
      split
      · rename_i hm
        simp only [dropBuiltin, List.map_map, Section.mk.injEq, true_and]
        rfl
      · rfl

/-- The hypotheses are met, and all four sources of a value occur. -/
example : ∃ d, dumped configuration demoFile (getArgdict attributes demoArgs) = .ok d ∧ (demoArgs.map (·.1)).Nodup ∧
    getOption d (S "format") (S "line_width") = some (.int 60) ∧ getOption d (S "format") (S "tab_size") = some (.int 8) ∧
    getOption d (S "markup") (S "bullet_char") = some (.str (S "-")) ∧
    getOption d (S "format") (S "max_subgroups_hwrap") = some (.int 2) := by
  refine ⟨_, rfl, by decide +kernel, by rfl, by rfl, by rfl, by rfl⟩

end Verif.Props.DumpOptions
