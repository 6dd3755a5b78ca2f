import Verif.LintLemmas

/-!
# Properties of the cmake-lint driver: C42 and C44
-/

namespace Verif.Lint
open Verif Py

/-! ## Specification -/

/-- File `f` can be read, and linting it alone reports exactly `rs`. -/
def Reported (env : Env) (f : Str) (rs : List Rec) : Prop :=
  ∃ cfg text calls c, env.config f = .ok cfg ∧ env.read f cfg = .text text ∧
    processFile env cfg text = .ok calls ∧ Ctx.run cfg.disabled {} calls = some c ∧ c.getLint = rs

/-- File `f` cannot be opened or is not text in the configured encoding. -/
def Unread (env : Env) (f : Str) : Prop :=
  ∃ cfg, env.config f = .ok cfg ∧
    (env.read f cfg = .unreadable ∨ env.read f cfg = .undecodable)

/-- `report` describes every file: its records, or `none` for an unreadable one. -/
def Describes (env : Env) (files : List Str) (report : Str → Option (List Rec)) : Prop :=
  ∀ f ∈ files, match report f with
    | none => Unread env f
    | some rs => Reported env f rs

/-- What is printed for a file. -/
def block (decorate : Bool) (f : Str) : Option (List Rec) → List Out
  | none => []
  | some rs => (if decorate then [Out.title f] else []) ++ rs.map (Out.record f) ++
      (if decorate then [Out.blank] else [])

/-- A file that spoils the run. -/
def bad : Option (List Rec) → Bool
  | none => true
  | some rs => !rs.isEmpty

/-- The printed records whose code starts with `k`. -/
def printedIn (k : Char) (out : List Out) : Nat :=
  out.countP (fun o => match o with | .record _ r => r.id.head? == some k | _ => false)

/-! ## Lemmas -/

theorem put_fresh (c : Ctx) (f : Str) (cs : Ctxs) (h : f ∉ cs.map (·.1)) :
    Ctxs.put c f cs = cs ++ [(f, c)] := by
  induction cs with
  | nil => rfl
  | cons pd rest ih =>
    obtain ⟨p, d⟩ := pd
    simp only [List.map_cons, List.mem_cons, not_or] at h
    simp only [Ctxs.put, if_neg (fun e : p = f => h.1 e.symm), ih h.2, List.cons_append]

theorem get_fresh (f : Str) (cs : Ctxs) (h : f ∉ cs.map (·.1)) : cs.get f = {} := by
  unfold Ctxs.get
  have : cs.lookup f = none := by
    rw [List.lookup_eq_none_iff]
    intro p hp
    rw [bne_iff_ne]
    rintro rfl
    exact h (List.mem_map_of_mem hp)
  rw [this]; rfl

theorem loop_unread {env : Env} {dec : Bool} {f : Str} {rest : List Str} {cs : Ctxs} {rc : Nat}
    (h : Unread env f) : loop env dec (f :: rest) cs rc = loop env dec rest cs 1 := by
  obtain ⟨cfg, hc, h | h⟩ := h <;> simp [loop, hc, h]

theorem loop_reported {env : Env} {dec : Bool} {f : Str} {rest : List Str} {cs : Ctxs} {rc : Nat}
    {rs : List Rec} (h : Reported env f rs) (hf : f ∉ cs.map (·.1))
    (hs : ¬ (f = S "-" ∧ (dec = true ∨ rs ≠ []))) :
    ∃ c : Ctx, c.getLint = rs ∧
      loop env dec (f :: rest) cs rc =
        ⟨block dec f (some rs) ++ (loop env dec rest (cs ++ [(f, c)]) (if rs = [] then rc else 1)).out,
          (loop env dec rest (cs ++ [(f, c)]) (if rs = [] then rc else 1)).ctxs,
          (loop env dec rest (cs ++ [(f, c)]) (if rs = [] then rc else 1)).result⟩ := by
  obtain ⟨cfg, text, calls, c, h1, h2, h3, h4, h5⟩ := h
  refine ⟨c, h5, ?_⟩
  have hl : c.hasLint = !rs.isEmpty := by simp [Ctx.hasLint, h5]
  have hs' : ¬ (f = S "-" ∧ (dec = true ∨ (!rs.isEmpty) = true)) := by
    intro ⟨a, b⟩
    apply hs
    refine ⟨a, b.imp id ?_⟩
    intro h e; simp [e] at h
  simp only [loop, h1, h2, h3, get_fresh f cs hf, h4, hl, hs', if_false, put_fresh c f cs hf, h5,
    block]
  have e : (if (!rs.isEmpty) = true then 1 else rc) = if rs = [] then rc else 1 := by
    cases rs <;> simp
  rw [e]

/-- The loop on described files. -/
theorem loop_described (env : Env) (dec : Bool) (report : Str → Option (List Rec))
    (files : List Str) (cs : Ctxs) (rc : Nat)
    (hd : Describes env files report) (hn : files.Nodup) (hdash : S "-" ∉ files)
    (hcs : ∀ f ∈ files, f ∉ cs.map (·.1)) :
    ∃ new : Ctxs,
      (loop env dec files cs rc).out = files.flatMap (fun f => block dec f (report f)) ∧
      (loop env dec files cs rc).ctxs = cs ++ new ∧
      new.map (·.2.getLint) = files.filterMap report ∧
      (loop env dec files cs rc).result =
        .ok (if files.any (fun f => bad (report f)) then 1 else rc) := by
  induction files generalizing cs rc with
  | nil => exact ⟨[], by simp [loop]⟩
  | cons f rest ih =>
    rw [List.nodup_cons] at hn
    have hd' : Describes env rest report := fun g hg => hd g (by simp [hg])
    have hf := hd f (by simp)
    have hdash' : S "-" ∉ rest := fun h => hdash (by simp [h])
    cases hr : report f with
    | none =>
      rw [hr] at hf
      rw [loop_unread hf]
      obtain ⟨new, h1, h2, h3, h4⟩ := ih cs 1 hd' hn.2 hdash' (fun g hg => hcs g (by simp [hg]))
      refine ⟨new, by simp [h1, hr, block], h2, by simp [h3, hr], ?_⟩
      rw [h4]
      simp [hr, bad]
    | some rs =>
      rw [hr] at hf
      have hne : f ≠ S "-" := fun e => hdash (by simp [e])
      obtain ⟨c, hc, e⟩ := loop_reported (dec := dec) (rest := rest) (rc := rc) hf
        (hcs f (by simp)) (fun h => hne h.1)
      rw [e]
      obtain ⟨new, h1, h2, h3, h4⟩ := ih (cs ++ [(f, c)]) (if rs = [] then rc else 1) hd' hn.2 hdash'
        (fun g hg => by
          simp only [List.map_append, List.map_cons, List.map_nil, List.mem_append,
            List.mem_singleton, not_or]
          exact ⟨hcs g (by simp [hg]), fun e => hn.1 (e ▸ hg)⟩)
      refine ⟨(f, c) :: new, by simp [h1, hr], by simp [h2], by simp [h3, hr, hc], ?_⟩
      rw [h4]
      cases rs with
      | nil => simp [hr, bad]
      | cons r rs => simp [hr, bad]

theorem lookup_bump (k j : Char) (l : List (Char × Nat)) :
    ((bump k l).lookup j).getD 0 = (l.lookup j).getD 0 + (if j = k then 1 else 0) := by
  induction l with
  | nil =>
    by_cases h : j = k
    · subst h; simp [bump]
    · have : (j == k) = false := by simp [h]
      simp [bump, List.lookup_cons, this, h]
  | cons p rest ih =>
    obtain ⟨c, n⟩ := p
    simp only [bump]
    by_cases hc : c = k
    · subst hc
      by_cases h : j = c
      · subst h; simp
      · have : (j == c) = false := by simp [h]
        simp [List.lookup_cons, this, h]
    · simp only [hc, if_false]
      by_cases h : j = c
      · subst h; simp [hc]
      · have : (j == c) = false := by simp [h]
        simp only [List.lookup_cons, this]
        exact ih

theorem lookup_bumps (j : Char) (rs : List Rec) (l : List (Char × Nat)) :
    ((rs.foldl (fun acc r => bump (category r) acc) l).lookup j).getD 0 =
      (l.lookup j).getD 0 + rs.countP (fun r => category r == j) := by
  induction rs generalizing l with
  | nil => simp
  | cons r rs ih =>
    rw [List.foldl_cons, ih, lookup_bump, List.countP_cons]
    by_cases h : category r = j
    · simp [h]; omega
    · have h' : ¬ j = category r := fun e => h e.symm
      simp [h, h']

theorem bump_keys (k : Char) (l : List (Char × Nat)) (c : Char) :
    c ∈ (bump k l).map (·.1) ↔ c = k ∨ c ∈ l.map (·.1) := by
  induction l with
  | nil => simp [bump]
  | cons p rest ih =>
    obtain ⟨d, n⟩ := p
    simp only [bump]
    by_cases hd : d = k
    · subst hd
      simp only [if_true, List.map_cons, List.mem_cons]
      constructor
      · rintro (h | h) <;> simp [h]
      · rintro (h | h | h) <;> simp [h]
    · simp only [hd, if_false, List.map_cons, List.mem_cons, ih]
      constructor
      · rintro (h | h | h) <;> simp [h]
      · rintro (h | h | h) <;> simp [h]

theorem bump_nodup (k : Char) (l : List (Char × Nat)) (h : (l.map (·.1)).Nodup) :
    ((bump k l).map (·.1)).Nodup := by
  induction l with
  | nil => simp [bump]
  | cons p rest ih =>
    obtain ⟨d, n⟩ := p
    simp only [List.map_cons, List.nodup_cons] at h
    simp only [bump]
    by_cases hd : d = k
    · simp only [hd, if_true, List.map_cons, List.nodup_cons]
      exact ⟨hd ▸ h.1, h.2⟩
    · simp only [hd, if_false, List.map_cons, List.nodup_cons]
      refine ⟨fun hm => ?_, ih h.2⟩
      rcases (bump_keys k rest d).1 hm with h' | h'
      · exact hd h'
      · exact h.1 h'

theorem bump_pos (k : Char) (l : List (Char × Nat)) (h : ∀ p ∈ l, 0 < p.2) :
    ∀ p ∈ bump k l, 0 < p.2 := by
  induction l with
  | nil => simp [bump]
  | cons q rest ih =>
    obtain ⟨d, n⟩ := q
    simp only [bump]
    rw [List.forall_mem_cons] at h
    split
    · rw [List.forall_mem_cons]; exact ⟨by simp, h.2⟩
    · rw [List.forall_mem_cons]; exact ⟨h.1, ih h.2⟩

/-- The counts as one fold over all reported records. -/
theorem categoryCounts_eq (cs : Ctxs) :
    categoryCounts cs = ((sortBy (fun a b => strLe a.1 b.1) cs).flatMap (fun pc => pc.2.getLint)).foldl
      (fun acc r => bump (category r) acc) [] := by
  unfold categoryCounts
  generalize sortBy (fun a b => strLe a.1 b.1) cs = l
  generalize ([] : List (Char × Nat)) = acc
  induction l generalizing acc with
  | nil => rfl
  | cons x xs ih => rw [List.foldl_cons, ih, List.flatMap_cons, List.foldl_append]

theorem foldl_bump_inv (P : List (Char × Nat) → Prop) (h0 : P [])
    (h1 : ∀ k l, P l → P (bump k l)) (rs : List Rec) :
    P (rs.foldl (fun acc r => bump (category r) acc) []) := by
  have : ∀ acc, P acc → P (rs.foldl (fun acc r => bump (category r) acc) acc) := by
    induction rs with
    | nil => intro acc h; exact h
    | cons r rs ih => intro acc h; exact ih _ (h1 _ _ h)
  exact this _ h0

theorem lookup_eq_of_mem {l : List (Char × Nat)} (hn : (l.map (·.1)).Nodup) {k : Char} {n : Nat}
    (h : (k, n) ∈ l) : l.lookup k = some n := by
  induction l with
  | nil => simp at h
  | cons p rest ih =>
    obtain ⟨d, m⟩ := p
    simp only [List.map_cons, List.nodup_cons] at hn
    simp only [List.mem_cons] at h
    rcases h with h | h
    · simp only [Prod.mk.injEq] at h; obtain ⟨rfl, rfl⟩ := h; simp
    · have : (k == d) = false := by
        simp only [beq_eq_false_iff_ne, ne_eq]
        rintro rfl
        exact hn.1 (List.mem_map_of_mem h)
      rw [List.lookup_cons, this]
      exact ih hn.2 h

/-- A permutation of a dictionary with distinct keys has the same entries. -/
theorem lookup_perm {l l' : List (Char × Nat)} (hn : (l.map (·.1)).Nodup) (hp : l'.Perm l) (k : Char) :
    l'.lookup k = l.lookup k := by
  have hn' : (l'.map (·.1)).Nodup := (hp.map _).nodup_iff.2 hn
  cases h : l.lookup k with
  | some n =>
    obtain ⟨a, b, e, _⟩ := List.lookup_eq_some_iff.1 h
    exact lookup_eq_of_mem hn' (hp.mem_iff.2 (by rw [e]; simp))
  | none =>
    rw [List.lookup_eq_none_iff] at h ⊢
    intro p hp'
    exact h p (hp.mem_iff.1 hp')

/-- Everything a context holds has a known code. -/
theorem run_known (d : List Str) (c c' : Ctx) (h : List Call) (hr : c.run d h = some c')
    (hk : ∀ r ∈ c.lint, r.id ∈ lintIds) : ∀ r ∈ c'.lint, r.id ∈ lintIds := by
  induction h generalizing c with
  | nil => simp only [Ctx.run, Option.some.injEq] at hr; subst hr; exact hk
  | cons x rest ih =>
    simp only [Ctx.run] at hr
    cases hc : c.call d x with
    | none => simp [hc] at hr
    | some c1 =>
      rw [hc, Option.bind_some] at hr
      refine ih c1 hr ?_
      cases x with
      | suppress l ids => simp only [Ctx.call, Option.some.injEq] at hc; subst hc; exact hk
      | unsuppress l ids => simp only [Ctx.call, Option.some.injEq] at hc; subst hc; exact hk
      | record r =>
        simp only [Ctx.call] at hc
        split at hc
        · simp only [Option.some.injEq] at hc; subst hc; exact hk
        · split at hc
          · simp only [Option.some.injEq] at hc; subst hc; exact hk
          · split at hc
            · rename_i hkn
              simp only [Option.some.injEq] at hc; subst hc
              intro r' hr'
              rcases List.mem_append.1 hr' with h | h
              · exact hk r' h
              · simp only [List.mem_singleton] at h; subst h; exact hkn.1
            · simp at hc

theorem known_category {r : Rec} (h : r.id ∈ lintIds) :
    r.id.head? = some (category r) ∧ categoryKnown (category r) = true := by
  have all : ∀ i ∈ lintIds, i.head? = some (i.headD ' ') ∧ categoryKnown (i.headD ' ') = true := by
    decide +kernel
  exact all r.id h

theorem getLint_sub (c : Ctx) : ∀ r ∈ c.getLint, r ∈ c.lint := by
  intro r hr
  rw [getLint_eq, List.mem_filter, (sortBy_perm recLe _).mem_iff] at hr
  exact hr.1

theorem reported_known {env : Env} {f : Str} {rs : List Rec} (h : Reported env f rs) :
    ∀ r ∈ rs, r.id ∈ lintIds := by
  obtain ⟨cfg, text, calls, c, _, _, _, h4, rfl⟩ := h
  intro r hr
  exact run_known _ _ _ _ h4 (by simp) r (getLint_sub c r hr)

theorem summary_ok (cs : Ctxs) (hk : ∀ p ∈ cs, ∀ r ∈ p.2.getLint, r.id ∈ lintIds) :
    ∃ counts, summary cs = .ok (.summary cs.length counts) ∧
      (counts.map (·.1)).Nodup ∧ (∀ p ∈ counts, 0 < p.2) ∧
      counts.Pairwise (fun a b => a.1.toNat ≤ b.1.toNat) ∧
      ∀ k, (counts.lookup k).getD 0 =
        (cs.flatMap (fun p => p.2.getLint)).countP (fun r => r.id.head? == some k) := by
  have hnd : ((categoryCounts cs).map (·.1)).Nodup := by
    rw [categoryCounts_eq]
    exact foldl_bump_inv (fun l => (l.map (·.1)).Nodup) (by simp) bump_nodup _
  have hpos : ∀ p ∈ categoryCounts cs, 0 < p.2 := by
    rw [categoryCounts_eq]
    exact foldl_bump_inv (fun l => ∀ p ∈ l, 0 < p.2) (by simp) bump_pos _
  have hperm := sortBy_perm (fun a b : Char × Nat => decide (a.1.toNat ≤ b.1.toNat)) (categoryCounts cs)
  have hcount : ∀ k, ((categoryCounts cs).lookup k).getD 0 =
      (cs.flatMap (fun p => p.2.getLint)).countP (fun r => r.id.head? == some k) := by
    intro k
    rw [categoryCounts_eq, lookup_bumps]
    simp only [List.lookup_nil, Option.getD_none, Nat.zero_add]
    rw [((sortBy_perm _ cs).flatMap_right _).countP_eq]
    apply List.countP_congr
    intro r hr
    obtain ⟨p, hp, hr⟩ := List.mem_flatMap.1 hr
    rw [(known_category (hk p hp r hr)).1]
    simp
  refine ⟨sortBy (fun a b => decide (a.1.toNat ≤ b.1.toNat)) (categoryCounts cs), ?_, ?_, ?_, ?_, ?_⟩
  · unfold summary
    simp only
    rw [if_pos]
    rw [List.all_eq_true]
    rintro ⟨k, n⟩ hm
    have hm' := hperm.mem_iff.1 hm
    have hl := lookup_eq_of_mem hnd hm'
    have hc := hcount k
    rw [hl] at hc
    simp only [Option.getD_some] at hc
    have : 0 < n := hpos _ hm'
    obtain ⟨r, hr, hh⟩ := List.countP_pos_iff.1 (hc ▸ this)
    obtain ⟨p, hp, hr⟩ := List.mem_flatMap.1 hr
    obtain ⟨e1, e2⟩ := known_category (hk p hp r hr)
    rw [e1] at hh
    simp only [beq_iff_eq, Option.some.injEq] at hh
    exact hh ▸ e2
  · exact (hperm.map _).nodup_iff.2 hnd
  · intro p hp; exact hpos p (hperm.mem_iff.1 hp)
  · have := sortBy_pairwise (le := fun a b : Char × Nat => decide (a.1.toNat ≤ b.1.toNat))
      (by simp only [decide_eq_true_eq]; omega) (by simp only [decide_eq_true_eq]; omega) (categoryCounts cs)
    exact this.imp (by simp)
  · intro k
    rw [lookup_perm hnd hperm, hcount]

theorem countP_records (k : Char) (f : Str) (rs : List Rec) :
    printedIn k (rs.map (Out.record f)) = rs.countP (fun r => r.id.head? == some k) := by
  unfold printedIn
  rw [List.countP_map]
  rfl

theorem printedIn_append (k : Char) (a b : List Out) :
    printedIn k (a ++ b) = printedIn k a + printedIn k b := List.countP_append

theorem printedIn_blocks (dec : Bool) (report : Str → Option (List Rec)) (files : List Str) (k : Char) :
    printedIn k (files.flatMap (fun f => block dec f (report f))) =
      (files.filterMap report).flatten.countP (fun r => r.id.head? == some k) := by
  induction files with
  | nil => rfl
  | cons f rest ih =>
    rw [List.flatMap_cons, printedIn_append, ih]
    cases hr : report f with
    | none =>
      rw [List.filterMap_cons_none hr]
      simp [block, printedIn]
    | some rs =>
      rw [List.filterMap_cons_some hr, List.flatten_cons, List.countP_append]
      simp only [block, printedIn_append, countP_records]
      have h1 : printedIn k (if dec = true then [Out.title f] else []) = 0 := by
        cases dec <;> simp [printedIn]
      have h2 : printedIn k (if dec = true then [Out.blank] else []) = 0 := by
        cases dec <;> simp [printedIn]
      omega

/-! ## C42 and C44 -/

/-- C42 and C44.  The whole run over distinct paths, none of them standard input, when every file is
either unreadable or linted without an exception: an unreadable file does not stop the others, each
readable file's records are printed exactly once and in order, the status is 0 iff all files were
readable and nothing was reported, and otherwise 1.  With decorations, a summary follows; it gives the
number of readable files and, for each category, the number of printed records of that
category. -/
theorem lint_run (env : Env) (dec : Bool) (files : List Str) (report : Str → Option (List Rec))
    (hd : Describes env files report) (hn : files.Nodup) (hdash : S "-" ∉ files) :
    (∃ tail, (innerMain env dec files).out = files.flatMap (fun f => block dec f (report f)) ++ tail ∧
      (dec = false → tail = []) ∧
      (dec = true → ∃ counts, tail = [.summary (files.filterMap report).length counts] ∧
        (counts.map (·.1)).Nodup ∧ (∀ p ∈ counts, 0 < p.2) ∧
        counts.Pairwise (fun a b => a.1.toNat ≤ b.1.toNat) ∧
        ∀ k, (counts.lookup k).getD 0 = printedIn k (innerMain env dec files).out)) ∧
    exitStatus (innerMain env dec files) ≤ 1 ∧
    (exitStatus (innerMain env dec files) = 1 ↔
      ∃ f ∈ files, report f = none ∨ ∃ r rs, report f = some (r :: rs)) := by
  obtain ⟨new, h1, h2, h3, h4⟩ := loop_described env dec report files [] 0 hd hn hdash (by simp)
  simp only [List.nil_append] at h2
  have hbad : (files.any (fun f => bad (report f)) = true) ↔
      ∃ f ∈ files, report f = none ∨ ∃ r rs, report f = some (r :: rs) := by
    rw [List.any_eq_true]
    constructor
    · rintro ⟨f, hf, hb⟩
      refine ⟨f, hf, ?_⟩
      cases hr : report f with
      | none => exact .inl rfl
      | some rs =>
        cases rs with
        | nil => simp [hr, bad] at hb
        | cons r rs => exact .inr ⟨r, rs, rfl⟩
    · rintro ⟨f, hf, h | ⟨r, rs, h⟩⟩ <;> exact ⟨f, hf, by simp [h, bad]⟩
  have hlen : new.length = (files.filterMap report).length := by rw [← h3, List.length_map]
  have hflat : new.flatMap (fun p => p.2.getLint) = (files.filterMap report).flatten := by
    rw [← h3, List.flatMap_def]
  have hknown : ∀ p ∈ new, ∀ r ∈ p.2.getLint, r.id ∈ lintIds := by
    intro p hp r hr
    have : p.2.getLint ∈ files.filterMap report := by
      rw [← h3]; exact List.mem_map_of_mem (f := fun p : Str × Ctx => p.2.getLint) hp
    obtain ⟨f, hf, he⟩ := List.mem_filterMap.1 this
    have := hd f hf
    rw [he] at this
    exact reported_known this r hr
  have hmain : innerMain env dec files =
      match (loop env dec files [] 0).result with
      | .error _ => loop env dec files [] 0
      | .ok _ =>
        if dec then
          match summary (loop env dec files [] 0).ctxs with
          | .ok s => { (loop env dec files [] 0) with out := (loop env dec files [] 0).out ++ [s] }
          | .error e => { (loop env dec files [] 0) with result := .error e }
        else loop env dec files [] 0 := by
    unfold innerMain
    rw [if_neg (fun h => hdash h.1)]
    rfl
  cases dec with
  | false =>
    have hm : innerMain env false files = loop env false files [] 0 := by
      rw [hmain, h4]; simp
    rw [hm]
    refine ⟨⟨[], by simp [h1], by simp, by simp⟩, ?_⟩
    rw [exitStatus, h4, ← hbad]
    simp only
    split <;> simp [*]
  | true =>
    obtain ⟨counts, hs, hc1, hc2, hc3, hc4⟩ := summary_ok new hknown
    have hm : innerMain env true files =
        ⟨(loop env true files [] 0).out ++ [.summary new.length counts],
          (loop env true files [] 0).ctxs, (loop env true files [] 0).result⟩ := by
      rw [hmain, h4, h2]; simp only [if_true, hs, h4, h2]
    rw [hm]
    refine ⟨⟨[.summary new.length counts], by simp [h1], by simp, fun _ =>
      ⟨counts, by rw [hlen], hc1, hc2, hc3, fun k => ?_⟩⟩, ?_⟩
    · rw [hc4, hflat]
      simp only [printedIn_append, h1, printedIn_blocks]
      rfl
    · rw [exitStatus, ← hbad]
      simp only [h4]
      split <;> simp [*]

theorem loop_ok_zero (env : Env) (dec : Bool) (files : List Str) (cs : Ctxs) (rc : Nat)
    (hn : files.Nodup) (hcs : ∀ f ∈ files, f ∉ cs.map (·.1))
    (h : (loop env dec files cs rc).result = .ok 0) :
    rc = 0 ∧ ∀ f ∈ files, Reported env f [] ∧ (f = S "-" → dec = false) := by
  induction files generalizing cs rc with
  | nil => simp only [loop, Except.ok.injEq] at h; exact ⟨h, by simp⟩
  | cons f rest ih =>
    rw [List.nodup_cons] at hn
    have hcs' : ∀ g ∈ rest, g ∉ cs.map (·.1) := fun g hg => hcs g (by simp [hg])
    simp only [loop] at h
    cases hc : env.config f with
    | error e => simp [hc] at h
    | ok cfg =>
      rw [hc] at h
      simp only at h
      cases hr : env.read f cfg with
      | unreadable => rw [hr] at h; have := (ih cs 1 hn.2 hcs' h).1; omega
      | undecodable => rw [hr] at h; have := (ih cs 1 hn.2 hcs' h).1; omega
      | text content =>
        rw [hr] at h
        simp only at h
        cases hp : processFile env cfg content with
        | error e => simp [hp] at h
        | ok calls =>
          rw [hp] at h
          simp only [get_fresh f cs (hcs f (by simp))] at h
          cases hx : Ctx.run cfg.disabled {} calls with
          | none => simp [hx] at h
          | some c =>
            rw [hx] at h
            simp only [put_fresh c f cs (hcs f (by simp))] at h
            split at h
            · simp at h
            · rename_i hdash
              have hcs2 : ∀ g ∈ rest, g ∉ (cs ++ [(f, c)]).map (·.1) := by
                intro g hg
                simp only [List.map_append, List.map_cons, List.map_nil, List.mem_append,
                  List.mem_singleton, not_or]
                exact ⟨hcs' g hg, fun e => hn.1 (e ▸ hg)⟩
              obtain ⟨h1, h2⟩ := ih _ _ hn.2 hcs2 h
              have hl : c.hasLint = false := by
                cases hh : c.hasLint with
                | false => rfl
                | true => simp [hh] at h1
              have hrc : rc = 0 := by simpa [hl] using h1
              have hg : c.getLint = [] := by
                simpa [Ctx.hasLint] using hl
              refine ⟨hrc, fun g hg' => ?_⟩
              rcases List.mem_cons.1 hg' with rfl | hg'
              · refine ⟨⟨cfg, content, calls, c, hc, hr, hp, hx, hg⟩, fun e => ?_⟩
                cases dec with
                | false => rfl
                | true => exact absurd ⟨e, .inl rfl⟩ hdash
              · exact h2 g hg'

/-- C42.  cmake-lint exits 0 iff every file could be read and linted and nothing is reported for any
of them, for every environment and every list of distinct paths.  Standard input must moreover be
alone and undecorated. -/
theorem lint_exit_zero_iff (env : Env) (dec : Bool) (files : List Str) (hn : files.Nodup) :
    exitStatus (innerMain env dec files) = 0 ↔
      (∀ f ∈ files, Reported env f []) ∧ (S "-" ∈ files → files.length = 1 ∧ dec = false) := by
  constructor
  · intro h
    unfold innerMain at h
    split at h
    · simp [exitStatus] at h
    · rename_i hd
      have hres : (loop env dec files [] 0).result = .ok 0 := by
        cases hr : (loop env dec files [] 0).result with
        | error e =>
          simp only [hr] at h
          simp only [exitStatus, hr] at h
          cases e <;> simp at h
        | ok rc =>
          simp only [hr] at h
          split at h
          · split at h
            · simp only [exitStatus, hr] at h; rw [h]
            · rename_i e _; simp only [exitStatus] at h; cases e <;> simp at h
          · simp only [exitStatus, hr] at h; rw [h]
      obtain ⟨_, h2⟩ := loop_ok_zero env dec files [] 0 hn (by simp) hres
      refine ⟨fun f hf => (h2 f hf).1, fun hm => ⟨?_, (h2 _ hm).2 rfl⟩⟩
      apply Classical.byContradiction
      intro hne
      exact hd ⟨hm, hne⟩
  · rintro ⟨h1, h2⟩
    by_cases hm : S "-" ∈ files
    · obtain ⟨hlen, rfl⟩ := h2 hm
      match files, hlen with
      | [f], _ =>
        simp only [List.mem_singleton] at hm
        subst hm
        obtain ⟨c, hc, e⟩ := loop_reported (dec := false) (rest := []) (cs := []) (rc := 0)
          (h1 (S "-") (by simp)) (by simp) (by simp)
        have hr : (loop env false [S "-"] [] 0).result = .ok 0 := by rw [e]; simp [loop]
        simp [innerMain, hr, exitStatus]
    · have := (lint_run env dec files (fun _ => some []) (fun f hf => h1 f hf) hn hm).2
      have h1 : ¬ exitStatus (innerMain env dec files) = 1 := by rw [this.2]; simp
      omega

/-- Two files, the first with a long line and the second unreadable. -/
def exEnv : Env where
  config := fun _ => .ok { lineWidth := 3 }
  read := fun f _ => if f = S "a" then .text (S "abcdef\n") else if f = S "c" then .text (S "ab\n") else .unreadable
  check := fun _ _ => .ok []

example : Describes exEnv [S "a", S "b", S "c"]
    (fun f => if f = S "a" then some [⟨S "C0301", [1], [S "6", S "3"]⟩]
      else if f = S "c" then some [] else none) := by
  intro f hf
  simp only [List.mem_cons, List.not_mem_nil, or_false] at hf
  rcases hf with rfl | rfl | rfl
  · exact ⟨_, _, _, _, rfl, rfl, rfl, rfl, by decide +kernel⟩
  · exact ⟨_, rfl, .inl rfl⟩
  · exact ⟨_, _, _, _, rfl, rfl, rfl, rfl, by decide +kernel⟩

example : (innerMain exEnv true [S "a", S "b", S "c"]).out =
    [.title (S "a"), .record (S "a") ⟨S "C0301", [1], [S "6", S "3"]⟩, .blank, .title (S "c"), .blank,
      .summary 2 [('C', 1)]] ∧ exitStatus (innerMain exEnv true [S "a", S "b", S "c"]) = 1 := by
  decide +kernel

example : exitStatus (innerMain exEnv true [S "c"]) = 0 := by decide +kernel

/-- Linting standard input with decorations, the default, always ends in status 2, clean or
not: `len` of a file number raises. -/
theorem stdin_decorated_fails (env : Env) (rs : List Rec) (h : Reported env (S "-") rs) :
    exitStatus (innerMain env true [S "-"]) = 2 := by
  obtain ⟨cfg, text, calls, c, h1, h2, h3, h4, h5⟩ := h
  have : loop env true [S "-"] [] 0 = ⟨[], [(S "-", c)], .error .other⟩ := by
    simp [loop, h1, h2, h3, Ctxs.get, h4, Ctxs.put]
  simp [innerMain, this, exitStatus]

/-- `line_ending = "auto"` always ends the run with status 2. -/
theorem auto_fails (env : Env) (dec : Bool) (f : Str) (rest : List Str) (cfg : Cfg) (text : Str)
    (hf : S "-" ∉ f :: rest) (h1 : env.config f = .ok cfg) (h2 : env.read f cfg = .text text)
    (h3 : cfg.lineEnding = S "auto") : exitStatus (innerMain env dec (f :: rest)) = 2 := by
  have : loop env dec (f :: rest) [] 0 = ⟨[], [], .error .other⟩ := by
    simp [loop, h1, h2, processFile, h3]
  have hc : ¬ (S "-" ∈ f :: rest ∧ (f :: rest).length ≠ 1) := fun h => hf h.1
  simp only [innerMain, if_neg hc, this, exitStatus]

/-- The same path twice: its context is reused, so records are printed three times in
all for one line, and the summary counts two. -/
theorem repeated_path_duplicates :
    (innerMain exEnv true [S "a", S "a"]).out =
      [.title (S "a"), .record (S "a") ⟨S "C0301", [1], [S "6", S "3"]⟩, .blank,
       .title (S "a"), .record (S "a") ⟨S "C0301", [1], [S "6", S "3"]⟩,
         .record (S "a") ⟨S "C0301", [1], [S "6", S "3"]⟩, .blank,
       .summary 1 [('C', 2)]] := by decide +kernel

end Verif.Lint
