import Verif.Props.Main

/-!
# Which value an option has (C91)
-/

namespace Verif.Props.Options
open Verif Py Config Verif.Main Verif.Props.Config Verif.Props.Main

/-! ## Specification -/

/-- The value of an option that stands in a section of a configuration file. -/
def inSection (file : Dict) (sec name : Str) : Option Val :=
  match lookup sec file with
  | some (.dict d) => lookup name d
  | _ => none

/-- What the user gave on the command line: options that were not given are `None`. -/
def given (args : Dict) (name : Str) : Option Val := 
  match lookup name args with
  | none => none
  | some .none => none
  | some v => some v

/-- The value of an option: from the command line; else from the top level of the files; else from its section in the files;
else the default. -/
def effective (args file : Dict) (sec name : Str) (dflt : Val) : Val :=
  match given args name with
  | some v => v
  | none =>
    match lookup name file with
    | some v => v
    | none => (inSection file sec name).getD dflt

/-- What the driver itself uses, and does not pass on. -/
def ownOptions : List Str :=
  [S "log_level", S "outfile_path", S "infilepaths", S "config_files", S "dump_config", S "with_help", S "with_defaults",
   S "dump", S "check", S "in_place", S "suppress_decorations"]

/-! ## The command line -/

theorem lookup_argdict (attrs : List Str) (name : Str) (h1 : startsWith (S "_") name = false) (h2 : name ∉ attrs)
    (h3 : name ∉ ownOptions) : ∀ (d : Dict), (d.map (·.1)).Nodup → lookup name (getArgdict attrs d) = given d name
  | [], _ => rfl
  | (k, v) :: rest, hn => by
    rw [List.map_cons, List.nodup_cons] at hn
    have ih := lookup_argdict attrs name h1 h2 h3 rest hn.2
    have skip : k ≠ name → lookup name (getArgdict attrs rest) = given ((k, v) :: rest) name := by
      intro hk
      rw [ih]; simp [given, lookup, hk]
    unfold getArgdict
    by_cases g1 : startsWith (S "_") k = true
    · rw [if_pos g1]
      exact skip fun e => by rw [e, h1] at g1; simp at g1
    · rw [if_neg g1]
      by_cases g2 : k ∈ attrs
      · rw [if_pos g2]
        exact skip fun e => h2 (e ▸ g2)
      · rw [if_neg g2]
        by_cases g3 : k ∈ ownOptions
        all_goals unfold ownOptions at g3 h3
        · rw [if_pos g3]
          exact skip fun e => h3 (e ▸ g3)
        · rw [if_neg g3]
          by_cases hk : k = name
          · subst hk
            have : lookup k rest = none := lookup_none_iff.2 hn.1
            cases v with
            | none => simp only [ih, given, this, lookup, if_true]
            | _ => simp only [given, lookup, if_true]
          · have := skip hk
            cases v with
            | none => exact this
            | _ => rw [← this]; simp [lookup, hk]

/-! ## Sections -/

/-- The option reads its value. -/
def upd (kw : Dict) (f : Field) : Field :=
  match lookup f.name kw with
  | some v => { f with override := some v }
  | none => f

theorem upd_name (kw : Dict) (f : Field) : (upd kw f).name = f.name := by
  unfold upd; split <;> rfl

theorem upd_congr {kw kw' : Dict} {f : Field} (h : lookup f.name kw = lookup f.name kw') : upd kw f = upd kw' f := by
  simp [upd, h]

theorem legacy_eq : ∀ (o : Obj) (kw : Dict), (o.flatMap fun s => s.fields.map (·.name)).Nodup →
    (legacySections o kw).1 = o.map fun s => { s with fields := s.fields.map (upd kw) }
  | [], _, _ => rfl
  | s :: o, kw, h => by
    rw [List.flatMap_cons, List.nodup_append] at h
    rw [legacySections]
    simp only [List.map_cons, List.cons.injEq]
    refine ⟨by rw [consumeFields_fst _ _ h.1]; rfl, ?_⟩
    rw [legacy_eq o _ h.2.1]
    apply List.map_congr_left
    intro t ht
    congr 1
    apply List.map_congr_left
    intro f hf
    apply upd_congr
    rw [consumeFields_snd, if_neg]
    intro hm
    exact h.2.2 _ hm _ (List.mem_flatMap.2 ⟨t, ht, List.mem_map_of_mem hf⟩) rfl

/-- The section reads its dictionary. -/
def readSection (kw : Dict) (s : Section) : Section :=
  match lookup s.name kw with
  | some (.dict d) => { s with fields := s.fields.map (upd d) }
  | _ => s

theorem known_eq : ∀ (o : Obj) (kw : Dict) {o' : Obj} {kw' : Dict}, DistinctNames o → consumeKnown o kw = .ok (o', kw') →
    o' = o.map (readSection kw) ∧ ∀ k, lookup k kw' = if k ∈ o.map (·.name) then none else lookup k kw
  | [], kw, o', kw', _, h => by
    simp only [consumeKnown, Except.ok.injEq, Prod.mk.injEq] at h
    simp [← h.1, ← h.2]
  | s :: o, kw, o', kw', hd, h => by
    have hd' : DistinctNames o := ⟨(List.nodup_cons.1 hd.1).2, fun t ht => hd.2 t (by simp [ht])⟩
    have hs : s.name ∉ o.map (·.name) := (List.nodup_cons.1 hd.1).1
    rw [consumeKnown] at h
    split at h
    · rename_i hl
      split at h
      · simp at h
      · rename_i ss kw2 hk
        simp only [Except.ok.injEq, Prod.mk.injEq] at h
        obtain ⟨rfl, rfl⟩ := h
        obtain ⟨e1, e2⟩ := known_eq o kw hd' hk
        refine ⟨by simp [e1, readSection, hl], fun k => ?_⟩
        rw [e2 k]
        by_cases hk : k = s.name
        · subst hk; simp [hl]
        · simp [hk]
    · rename_i v hl
      split at h
      · simp at h
      · rename_i s' hs'
        split at h
        · simp at h
        · rename_i ss kw2 hk
          simp only [Except.ok.injEq, Prod.mk.injEq] at h
          obtain ⟨rfl, rfl⟩ := h
          obtain ⟨e1, e2⟩ := known_eq o _ hd' hk
          refine ⟨?_, fun k => ?_⟩
          · rw [List.map_cons, e1]
            congr 1
            · cases v <;> simp only [consumeSection, reduceCtorEq, Except.ok.injEq] at hs'
              rw [← hs', consumeFields_fst _ _ (hd.2 s (by simp))]
              simp only [readSection, hl]
              rfl
            · apply List.map_congr_left
              intro t ht
              have : s.name ≠ t.name := fun e => hs (e ▸ List.mem_map_of_mem ht)
              simp only [readSection]
              rw [lookup_delKey_ne this]
          · rw [e2 k]
            by_cases hk : k = s.name
            · subst hk; simp [lookup_delKey_self]
            · have : s.name ≠ k := fun e => hk e.symm
              simp [hk, lookup_delKey_ne this]

theorem getOption_of {o : Obj} (hd : DistinctNames o) {g : Section → Section} {k : Section → Field → Field}
    (hg : ∀ s, g s = { s with fields := s.fields.map (k s) }) (hk : ∀ s f, (k s f).name = f.name)
    {s : Section} (hs : s ∈ o) {f : Field} (hf : f ∈ s.fields) : getOption (o.map g) s.name f.name = some (k s f).value := by
  have h1 : (o.map g).find? (fun t => decide (t.name = s.name)) = some (g s) := by
    have := hd.1
    clear hd
    induction o with
    | nil => simp at hs
    | cons t o ih =>
      rw [List.map_cons, List.nodup_cons] at this
      rw [List.map_cons, List.find?_cons]
      rcases List.mem_cons.1 hs with rfl | hs
      · simp [hg]
      · have hne : t.name ≠ s.name := fun e => this.1 (e ▸ List.mem_map_of_mem hs)
        simp only [hg t, hne, decide_false]
        exact ih hs this.2
  have h2 : (s.fields.map (k s)).find? (fun x => decide (x.name = f.name)) = some (k s f) := by
    have := hd.2 s hs
    clear hd h1
    revert this hf
    generalize s.fields = fs
    intro hf this
    induction fs with
    | nil => simp at hf
    | cons x fs ih =>
      rw [List.map_cons, List.nodup_cons] at this
      rw [List.map_cons, List.find?_cons]
      rcases List.mem_cons.1 hf with rfl | hf
      · simp [hk]
      · have hne : x.name ≠ f.name := fun e => this.1 (e ▸ List.mem_map_of_mem hf)
        simp only [hk, hne, decide_false]
        exact ih hf this.2
  simp [getOption, h1, hg s, h2]

/-! ## The value of an option -/

theorem distinct_of {o : Obj} (h : Unambiguous o) : DistinctNames o := by
  unfold Unambiguous at h
  rw [List.nodup_append] at h
  refine ⟨h.1, fun s hs => ?_⟩
  have := h.2.1
  clear h
  induction o with
  | nil => simp at hs
  | cons t o ih =>
    rw [List.flatMap_cons, List.nodup_append] at this
    rcases List.mem_cons.1 hs with rfl | hs
    · exact this.1
    · exact ih hs this.2.1

theorem names_map {o : Obj} {g : Section → Section} {k : Section → Field → Field}
    (hg : ∀ s, g s = { s with fields := s.fields.map (k s) }) (hk : ∀ s f, (k s f).name = f.name) :
    (o.map g).map (·.name) = o.map (·.name) ∧
      ((o.map g).flatMap fun s => s.fields.map (·.name)) = o.flatMap fun s => s.fields.map (·.name) := by
  induction o with
  | nil => exact ⟨rfl, rfl⟩
  | cons s o ih =>
    simp only [List.map_cons, List.flatMap_cons, ih.1, ih.2, hg s]
    refine ⟨trivial, ?_⟩
    congr 1
    rw [List.map_map]
    apply List.map_congr_left
    intro f _
    exact hk s f

/-- The option reads its value from its section. -/
def updSec (kw : Dict) (s : Section) (f : Field) : Field :=
  match lookup s.name kw with
  | some (.dict d) => upd d f
  | _ => f

theorem readSection_eq (kw : Dict) (s : Section) : readSection kw s = { s with fields := s.fields.map (updSec kw s) } := by
  unfold readSection
  split
  · rename_i d h
    have : updSec kw s = upd d := by funext f; simp [updSec, h]
    rw [this]
  · rename_i h
    have : updSec kw s = id := by
      funext f
      unfold updSec
      split
      · rename_i d h'; exact absurd h' (h d)
      · rfl
    rw [this]; simp

theorem updSec_name (kw : Dict) (s : Section) (f : Field) : (updSec kw s f).name = f.name := by
  unfold updSec; split
  · exact upd_name _ _
  · rfl

/-- The object after reading a configuration file and the command line. -/
def final (cli file : Dict) (s : Section) (f : Field) : Field := upd cli (upd file (updSec file s { f with override := none }))

theorem unambiguous_names {o o' : Obj} (h1 : o'.map (·.name) = o.map (·.name))
    (h2 : (o'.flatMap fun s => s.fields.map (·.name)) = o.flatMap fun s => s.fields.map (·.name)) (h : Unambiguous o) :
    Unambiguous o' := by
  unfold Unambiguous at *
  rw [h1, h2]; exact h

theorem not_section {o : Obj} (h : Unambiguous o) {s : Section} (hs : s ∈ o) {f : Field} (hf : f ∈ s.fields) :
    f.name ∉ o.map (·.name) := by
  unfold Unambiguous at h
  rw [List.nodup_append] at h
  intro hm
  exact h.2.2 _ hm _ (List.mem_flatMap.2 ⟨s, hs, List.mem_map_of_mem hf⟩) rfl

theorem map_fields_congr {o : Obj} {k k' : Section → Field → Field} (h : ∀ s ∈ o, ∀ f ∈ s.fields, k s f = k' s f) :
    (o.map fun s => ({ s with fields := s.fields.map (k s) } : Section)) = o.map fun s => { s with fields := s.fields.map (k' s) } := by
  apply List.map_congr_left
  intro s hs
  congr 1
  exact List.map_congr_left (h s hs)

theorem known_read {o : Obj} {kw : Dict} {o' : Obj} {kw' : Dict} (hu : Unambiguous o) (h : consumeKnown o kw = .ok (o', kw')) :
    o' = (o.map fun s => { s with fields := s.fields.map (updSec kw s) }) ∧
      ∀ k, lookup k kw' = if k ∈ o.map (·.name) then none else lookup k kw := by
  obtain ⟨e1, e2⟩ := known_eq _ _ (distinct_of hu) h
  refine ⟨?_, e2⟩
  rw [e1]
  apply List.map_congr_left
  intro s _
  exact readSection_eq kw s

theorem legacy_read {o : Obj} {kw : Dict} {o' : Obj} {kw' : Dict} (hu : Unambiguous o)
    (hsec : ∀ s ∈ o, lookup s.name kw = none) (h : legacyConsume o kw = .ok (o', kw')) :
    o' = o.map fun s => { s with fields := s.fields.map (upd kw) } := by
  unfold legacyConsume at h
  split at h
  · simp at h
  · rename_i o1 kw1 h1
    simp only [Except.ok.injEq] at h
    obtain ⟨e1, e2⟩ := known_read hu h1
    have e3 : o1 = o := by
      rw [e1]
      have : (o.map fun s => ({ s with fields := s.fields.map (updSec kw s) } : Section)) =
          o.map fun s => { s with fields := s.fields.map (fun f => f) } :=
        map_fields_congr (fun s hs f _ => by simp [updSec, hsec s hs])
      rw [this]
      simp
    subst e3
    have e4 : o' = (legacySections o1 kw1).1 := by rw [h]
    rw [e4, legacy_eq _ _ (by unfold Unambiguous at hu; exact (List.nodup_append.1 hu).2.1)]
    refine map_fields_congr fun s hs f hf => upd_congr ?_
    rw [e2, if_neg (not_section hu hs hf)]

theorem fresh_eq (o : Obj) : fresh o = o.map fun s => { s with fields := s.fields.map fun f => { f with override := none } } := rfl

theorem fileConfig_eq {env : Env} {infile : Str} {cli rest : Dict} {cfg : Obj} (hcls : Unambiguous env.cls)
    (hsec : ∀ s ∈ env.cls, lookup s.name cli = none) (h : fileConfig env infile cli = .ok (cfg, rest)) :
    ∃ file, env.getConfig (if infile = S "-" then env.cwd else infile) = .ok file ∧
      cfg = env.cls.map fun s => { s with fields := s.fields.map (final cli file s) } := by
  unfold fileConfig at h
  split at h
  · simp at h
  · rename_i file hfile
    split at h
    · simp at h
    · rename_i cfg0 hc0
      split at h
      · simp at h
      · rename_i r hr
        simp only [Except.ok.injEq] at h
        subst h
        refine ⟨file, hfile, ?_⟩
        unfold construct at hc0
        split at hc0
        · simp at hc0
        · rename_i o1 kw1 h1
          split at hc0
          · simp at hc0
          · rename_i o2 kw2 h2
            simp only [Except.ok.injEq] at hc0
            subst hc0
            have n0 := names_map (o := env.cls) (g := fun s => { s with fields := s.fields.map fun f => { f with override := none } })
              (k := fun _ f => { f with override := none }) (fun _ => rfl) (fun _ _ => rfl)
            rw [← fresh_eq] at n0
            have u0 := unambiguous_names n0.1 n0.2 hcls
            obtain ⟨e1, e2⟩ := known_read u0 h1
            have n1 := names_map (o := fresh env.cls) (g := fun s => { s with fields := s.fields.map (updSec file s) })
              (k := updSec file) (fun _ => rfl) (fun _ _ => updSec_name _ _ _)
            rw [← e1] at n1
            have u1 := unambiguous_names n1.1 n1.2 u0
            have e3 := legacy_read u1 (fun s hs => by
              rw [e2, if_pos]
              rw [← n1.1]
              exact List.mem_map_of_mem hs) h2
            have n2 := names_map (o := o1) (g := fun s => { s with fields := s.fields.map (upd kw1) })
              (k := fun _ => upd kw1) (fun _ => rfl) (fun _ _ => upd_name _ _)
            rw [← e3] at n2
            have u2 := unambiguous_names n2.1 n2.2 u1
            have e4 := legacy_read u2 (fun s hs => by
              have : s.name ∈ env.cls.map (·.name) := by
                rw [← n0.1, ← n1.1, ← n2.1]; exact List.mem_map_of_mem hs
              obtain ⟨t, ht, et⟩ := List.mem_map.1 this
              rw [← et]; exact hsec t ht) hr
            rw [e4, e3, e1, fresh_eq]
            simp only [List.map_map]
            apply List.map_congr_left
            intro s hs
            simp only [Function.comp_apply, List.map_map, Section.mk.injEq, true_and]
            apply List.map_congr_left
            intro f hf
            simp only [Function.comp_apply, final]
            congr 1
            refine upd_congr ?_
            rw [updSec_name, e2, if_neg]
            rw [n0.1]
            have := not_section hcls hs hf
            exact this

/-- **C91.** The value of every option: the one given on the command line, else the one at the top level of the configuration
files, else the one in its section there, else the default. -/
theorem effective_option {env : Env} {infile : Str} {attrs : List Str} {args rest : Dict} {cfg : Obj}
    (hcls : Unambiguous env.cls) (hattrs : ∀ s ∈ env.cls, s.name ∈ attrs) (hargs : (args.map (·.1)).Nodup)
    (h : fileConfig env infile (getArgdict attrs args) = .ok (cfg, rest)) :
    ∃ file, env.getConfig (if infile = S "-" then env.cwd else infile) = .ok file ∧
      ∀ s ∈ env.cls, ∀ f ∈ s.fields, startsWith (S "_") f.name = false → f.name ∉ attrs → f.name ∉ ownOptions →
        getOption cfg s.name f.name = some (effective args file s.name f.name f.default) := by
  have hsec : ∀ s ∈ env.cls, lookup s.name (getArgdict attrs args) = none := by
    intro s hs
    rw [lookup_none_iff]
    have := hattrs s hs
    clear h hargs
    induction args with
    | nil => simp [getArgdict]
    | cons p args ih =>
      obtain ⟨k, v⟩ := p
      unfold getArgdict
      split
      · exact ih
      · split
        · exact ih
        · rename_i hk
          split
          · exact ih
          · split
            · exact ih
            · rw [List.map_cons, List.mem_cons]
              rintro (e | e)
              · simp only at e; exact hk (e ▸ this)
              · exact ih e
  obtain ⟨file, k1, k2⟩ := fileConfig_eq hcls hsec h
  refine ⟨file, k1, fun s hs f hf g1 g2 g3 => ?_⟩
  rw [k2, getOption_of (distinct_of hcls) (g := fun s => { s with fields := s.fields.map (final (getArgdict attrs args) file s) })
    (k := final (getArgdict attrs args) file) (fun _ => rfl)
    (fun _ _ => by unfold final; rw [upd_name, upd_name, updSec_name]) hs hf]
  congr 1
  have hn1 : (upd file (updSec file s { f with override := none })).name = f.name := by rw [upd_name, updSec_name]
  have hn2 : (updSec file s { f with override := none }).name = f.name := by rw [updSec_name]
  unfold effective final
  rw [← lookup_argdict attrs f.name g1 g2 g3 args hargs]
  unfold upd
  unfold upd at hn1
  rw [hn1]
  cases lookup f.name (getArgdict attrs args) with
  | some v => simp [Field.value]
  | none =>
    simp only [hn2]
    cases lookup f.name file with
    | some v => simp [Field.value]
    | none =>
      simp only [updSec, inSection]
      cases lookup s.name file with
      | none => simp [Field.value]
      | some w =>
        cases w with
        | dict d =>
          simp only [upd]
          cases lookup f.name d <;> simp [Field.value]
        | _ => simp [Field.value]

/-- The attributes of the class `Configuration` without an underscore at the start: its sections (configuration.py:445-454) and
the methods (config_util.py:340-500, configuration.py:456). -/
def attributes : List Str :=
  configuration.map (·.name) ++ [S "consume_known", S "legacy_consume", S "get_field_names", S "as_dict", S "as_odict",
    S "has_override", S "dump", S "add_to_argparser", S "clone", S "validate", S "resolve_for_command"]

/-- No option is an attribute of the class, starts with an underscore or is an option of the driver, so `effective_option` speaks
of all of them (a check of the complete table). -/
theorem all_options : ∀ s ∈ configuration, ∀ f ∈ s.fields, startsWith (S "_") f.name = false ∧
    f.name ∉ attributes ∧ f.name ∉ ownOptions := by
  have h : (configuration.all fun s => s.fields.all fun f => !startsWith (S "_") f.name &&
      !attributes.contains f.name && !ownOptions.contains f.name) = true := by decide +kernel
  intro s hs f hf
  have := List.all_eq_true.1 (List.all_eq_true.1 h s hs) f hf
  simpa [and_assoc] using this

/-- The command line gives the width, and a file gives the width, the tab size twice, and the bullet character. -/
def demoFile : Dict :=
  [(S "tab_size", .int 8), (S "format", .dict [(S "line_width", .int 100), (S "tab_size", .int 4)]),
   (S "markup", .dict [(S "bullet_char", .str (S "-"))])]

def demoArgs : Dict := [(S "check", .bool false), (S "line_width", .int 60), (S "tab_size", .none), (S "parse", .none)]

def demoEnv : Env := { exampleEnv true with cls := configuration, getConfig := fun _ => .ok demoFile }

/-- The hypotheses are met, and all four sources of a value occur. -/
example : ∃ cfg rest, fileConfig demoEnv (S "a") (getArgdict attributes demoArgs) = .ok (cfg, rest) ∧
    Unambiguous demoEnv.cls ∧ (∀ s ∈ demoEnv.cls, s.name ∈ attributes) ∧ (demoArgs.map (·.1)).Nodup ∧
    getOption cfg (S "format") (S "line_width") = some (.int 60) ∧ getOption cfg (S "format") (S "tab_size") = some (.int 8) ∧
    getOption cfg (S "markup") (S "bullet_char") = some (.str (S "-")) ∧
    getOption cfg (S "format") (S "max_subgroups_hwrap") = some (.int 2) := by
  refine ⟨_, _, rfl, configuration_unambiguous,
    fun s hs => List.mem_append_left _ (List.mem_map_of_mem hs), by decide +kernel, by rfl, by rfl, by rfl, by rfl⟩

end Verif.Props.Options
