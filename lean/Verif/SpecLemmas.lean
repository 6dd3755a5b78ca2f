import Verif.DbSpec

/-!
# Lemmas about command specifications
-/

namespace Verif.Parse
open Verif Py

theorem setKey_lookup {α : Type} (k k' : Str) (v : α) (l : List (Str × α)) :
    (setKey k v l).lookup k' = if k' = k then some v else l.lookup k' := by
  induction l with
  | nil =>
    unfold setKey
    rw [List.lookup_cons]
    by_cases h : k' = k
    · subst h; simp
    · have : (k' == k) = false := by simpa using h
      rw [this, if_neg h]
  | cons kv l ih =>
    obtain ⟨a, b⟩ := kv
    unfold setKey
    by_cases ha : a = k
    · subst ha
      rw [if_pos rfl, List.lookup_cons, List.lookup_cons]
      by_cases h : k' = a
      · subst h; simp
      · have : (k' == a) = false := by simpa using h
        rw [this, if_neg h]
    · rw [if_neg ha, List.lookup_cons, List.lookup_cons]
      by_cases h : k' = a
      · subst h; simp [ha]
      · have : (k' == a) = false := by simpa using h
        rw [this, ih]

theorem add_ok {n : Str} {d : Decl} {s s' : Spec} (h : s.add n d = .ok s') :
    ∃ sp, Decl.spec n d = .ok sp ∧ s'.kwargs = setKey (lower n) sp s.kwargs ∧
      s'.name = s.name ∧ s'.spelling = s.spelling ∧ s'.maxSubgroups = s.maxSubgroups ∧ s'.pargs = s.pargs := by
  cases s with
  | mk a b c p ks =>
    cases d with
    | scalar n => simp [Spec.add] at h
    | dict pargs flags kwargs spelling maxSub =>
      simp only [Spec.add] at h
      cases e : Decl.spec n (.dict pargs flags kwargs spelling maxSub) with
      | error err => rw [e] at h; simp at h
      | ok sp =>
        rw [e] at h
        simp only [Except.ok.injEq] at h
        subst h
        exact ⟨sp, rfl, rfl, rfl, rfl, rfl, rfl⟩

/-- What ends up in the table. -/
theorem addAll_lookup {ds : List (Str × Decl)} {s s' : Spec} (h : Spec.addAll ds s = .ok s') (k : Str) :
    s'.kwargs.lookup k =
      match declared ds k with
      | some (n, d) => (Decl.spec n d).toOption
      | none => s.kwargs.lookup k := by
  induction ds generalizing s with
  | nil =>
    simp only [Spec.addAll, Except.ok.injEq] at h
    subst h; rfl
  | cons nd ds ih =>
    obtain ⟨n, d⟩ := nd
    unfold Spec.addAll at h
    cases e : s.add n d with
    | error err => rw [e] at h; simp at h
    | ok s1 =>
      rw [e] at h
      have := ih h
      obtain ⟨sp, e1, e2, _⟩ := add_ok e
      rw [this, e2, setKey_lookup]
      unfold declared
      rw [List.reverse_cons, List.find?_append]
      cases hf : ds.reverse.find? fun nd => lower nd.1 = k with
      | some nd' => rfl
      | none =>
        by_cases hk : lower n = k
        · simp [hk, e1, Except.toOption]
        · have hk' : k ≠ lower n := fun h => hk h.symm
          simp [hk, hk']

theorem kwspecs_lookup (ds : List (Str × Decl)) (acc ks : List (Str × Spec)) (h : Decl.kwspecs ds acc = .ok ks)
    (k : Str) :
    ks.lookup k =
      match declaredKeyword ds k with
      | some (k', d) => (Decl.spec k' d).toOption
      | none => acc.lookup k := by
  induction ds generalizing acc with
  | nil =>
    simp only [Decl.kwspecs, Except.ok.injEq] at h
    subst h; rfl
  | cons nd ds ih =>
    obtain ⟨n, d⟩ := nd
    unfold Decl.kwspecs at h
    cases e : Decl.spec n d with
    | error err => rw [e] at h; simp at h
    | ok s1 =>
      rw [e] at h
      rw [ih _ h, setKey_lookup]
      unfold declaredKeyword
      rw [List.reverse_cons, List.find?_append]
      cases hf : ds.reverse.find? fun nd => nd.1 = k with
      | some nd' => rfl
      | none =>
        by_cases hk : n = k
        · subst hk; simp [e, Except.toOption]
        · have hk' : k ≠ n := fun h => hk h.symm
          simp [hk, hk']

theorem mapE_get {α β : Type} {f : α → Except SpecErr β} {ps : List α} {l : List β} (h : mapE f ps = .ok l) :
    l.length = ps.length ∧ ∀ (i : Nat) (p : α), ps[i]? = some p → ∃ q, l[i]? = some q ∧ f p = .ok q := by
  induction ps generalizing l with
  | nil =>
    simp only [mapE, Except.ok.injEq] at h
    subst h
    exact ⟨rfl, fun i p h => by simp at h⟩
  | cons a ps ih =>
    unfold mapE at h
    cases e : f a with
    | error err => rw [e] at h; simp at h
    | ok b =>
      rw [e] at h
      cases e2 : mapE f ps with
      | error err => rw [e2] at h; simp at h
      | ok bs =>
        rw [e2] at h
        simp only [Except.ok.injEq] at h
        subst h
        obtain ⟨h1, h2⟩ := ih e2
        refine ⟨by simp [h1], fun i p hi => ?_⟩
        cases i with
        | zero =>
          simp only [List.getElem?_cons_zero, Option.some.injEq] at hi ⊢
          exact ⟨b, rfl, by rw [← hi]; exact e⟩
        | succ i =>
          simp only [List.getElem?_cons_succ] at hi ⊢
          exact h2 i p hi

/-- A table is accepted when each of its entries is. -/
theorem addAll_isOk {ds : List (Str × Decl)} (h : ∀ nd ∈ ds, (Spec.root.add nd.1 nd.2).isOk = true) (s : Spec) :
    ∃ s', Spec.addAll ds s = .ok s' := by
  induction ds generalizing s with
  | nil => exact ⟨s, rfl⟩
  | cons nd ds ih =>
    obtain ⟨n, d⟩ := nd
    have h1 := h (n, d) (List.mem_cons_self ..)
    have : ∃ s1, s.add n d = .ok s1 := by
      cases s with
      | mk a b c p ks =>
        cases d with
        | scalar n => simp [Spec.add, Spec.root, Except.isOk, Except.toBool] at h1
        | dict pargs flags kwargs spelling maxSub =>
          cases e : Decl.spec n (.dict pargs flags kwargs spelling maxSub) with
          | error err => simp [Spec.add, Spec.root, e, Except.isOk, Except.toBool] at h1
          | ok sp => exact ⟨_, by rw [Spec.add, e]⟩
    obtain ⟨s1, e⟩ := this
    obtain ⟨s', e'⟩ := ih (fun nd hnd => h nd (List.mem_cons_of_mem _ hnd)) s1
    exact ⟨s', by rw [Spec.addAll, e]; exact e'⟩

theorem sameAt_refl (o : Option Spec) : SameAt o o := by
  cases o with
  | none => trivial
  | some a => exact ⟨rfl, rfl, rfl, rfl⟩

theorem at_kwargs {s s' : Spec} (h : s'.kwargs = s.kwargs) {q : List Str} (hq : q ≠ []) :
    Spec.at q s' = Spec.at q s := by
  cases q with
  | nil => exact absurd rfl hq
  | cons k r => unfold Spec.at; rw [h]

theorem setAttr_ok {key : Str} {v : OVal} {s s' : Spec} (h : setAttr key v s = .ok s') :
    s'.pargs = s.pargs ∧ s'.kwargs = s.kwargs ∧ (key ≠ S "always_wrap" → attr key s' = some v) ∧
      ∀ key', key' ≠ key → attr key' s' = attr key' s := by
  cases s with
  | mk n sp m ps ks =>
    unfold setAttr at h
    dsimp only at h
    split at h
    · subst key
      cases v <;> simp only [reduceCtorEq, Except.ok.injEq] at h
      subst h
      refine ⟨rfl, rfl, fun _ => rfl, fun key' hk => ?_⟩
      simp [attr, hk, Spec.name, Spec.maxSubgroups]
    · split at h
      · subst key
        cases v <;> simp only [reduceCtorEq, Except.ok.injEq] at h
        subst h
        refine ⟨rfl, rfl, fun _ => rfl, fun key' hk => ?_⟩
        simp [attr, hk, Spec.spelling, Spec.maxSubgroups]
      · split at h
        · subst key
          cases v <;> simp only [reduceCtorEq, Except.ok.injEq] at h
          · subst h
            refine ⟨rfl, rfl, fun _ => rfl, fun key' hk => ?_⟩
            simp [attr, hk, Spec.spelling, Spec.name]
          · subst h
            refine ⟨rfl, rfl, fun _ => rfl, fun key' hk => ?_⟩
            simp [attr, hk, Spec.spelling, Spec.name]
        · split at h
          · rename_i ha
            simp only [Except.ok.injEq] at h
            subst h
            exact ⟨rfl, rfl, fun h => absurd ha h, fun _ _ => rfl⟩
          · simp at h

theorem replaceKey_ok {key : Str} {v : OVal} {p p' : PSpec} (h : replaceKey key v p = .ok p') :
    (key ≠ S "always_wrap" → pattr key p' = some v) ∧ ∀ key', key' ≠ key → pattr key' p' = pattr key' p := by
  unfold replaceKey at h
  repeat' split at h
  all_goals first
    | (simp only [reduceCtorEq] at h; done)
    | (simp only [Except.ok.injEq] at h
       subst h
       subst key
       refine ⟨fun _ => rfl, fun key' hk => ?_⟩
       simp [pattr, hk])
    | (simp only [Except.ok.injEq] at h
       subst h
       rename_i ha
       exact ⟨fun h => absurd ha h, fun _ _ => rfl⟩)

/-- One step into a keyword. -/
theorem overridePath_cons {key : Str} {v : OVal} {p : Str} {rest : List Str} {s s' : Spec}
    (hp : startsWith (S "parg") p = false) (h : overridePath key v (p :: rest) s = .ok s') :
    ∃ sub sub', s.kwargs.lookup p = some sub ∧ overridePath key v rest sub = .ok sub' ∧
      s' = .mk s.name s.spelling s.maxSubgroups s.pargs (setKey p sub' s.kwargs) := by
  cases s with
  | mk n sp m ps ks =>
    unfold overridePath at h
    simp only [hp, Bool.false_eq_true, if_false] at h
    cases hl : ks.lookup p with
    | none => rw [hl] at h; simp at h
    | some sub =>
      rw [hl] at h
      simp only at h
      cases ho : overridePath key v rest sub with
      | error e => rw [ho] at h; simp at h
      | ok sub' =>
        rw [ho] at h
        simp only [Except.ok.injEq] at h
        exact ⟨sub, sub', hl, ho, h.symm⟩

/-- What a step into a keyword leaves alone. -/
theorem at_setKey {s sub sub' : Spec} {p : Str} {rest : List Str} (hl : s.kwargs.lookup p = some sub)
    (ih : ∀ q, q ≠ rest → SameAt (Spec.at q sub') (Spec.at q sub)) (q : List Str) (hq : q ≠ p :: rest) :
    SameAt (Spec.at q (.mk s.name s.spelling s.maxSubgroups s.pargs (setKey p sub' s.kwargs))) (Spec.at q s) := by
  cases q with
  | nil => exact ⟨rfl, rfl, rfl, rfl⟩
  | cons k r =>
    unfold Spec.at
    rw [Spec.kwargs, setKey_lookup]
    by_cases hk : k = p
    · subst hk
      rw [if_pos rfl, hl]
      exact ih r fun h => hq (by rw [h])
    · rw [if_neg hk]
      exact sameAt_refl _

theorem override_path (key : Str) (v : OVal) (path : List Str) (s s' : Spec)
    (hp : ∀ k ∈ path, startsWith (S "parg") k = false)
    (h : overridePath key v path s = .ok s') :
    (∃ t t', Spec.at path s = some t ∧ Spec.at path s' = some t' ∧
      (key ≠ S "always_wrap" → attr key t' = some v) ∧
      (∀ key', key' ≠ key → attr key' t' = attr key' t) ∧ t'.pargs = t.pargs) ∧
    ∀ q, q ≠ path → SameAt (Spec.at q s') (Spec.at q s) := by
  induction path generalizing s s' with
  | nil =>
    unfold overridePath at h
    obtain ⟨h1, h2, h3, h4⟩ := setAttr_ok h
    refine ⟨⟨s, s', rfl, rfl, h3, h4, h1⟩, fun q hq => ?_⟩
    rw [at_kwargs h2 hq]
    exact sameAt_refl _
  | cons p rest ih =>
    obtain ⟨sub, sub', hl, ho, rfl⟩ := overridePath_cons (hp p (List.mem_cons_self ..)) h
    obtain ⟨⟨t, t', e1, e2, h3, h4, h5⟩, h6⟩ := ih sub sub' (fun k hk => hp k (List.mem_cons_of_mem _ hk)) ho
    refine ⟨⟨t, t', ?_, ?_, h3, h4, h5⟩, fun q hq => at_setKey hl h6 q hq⟩
    · unfold Spec.at; rw [hl]; exact e1
    · unfold Spec.at; rw [Spec.kwargs, setKey_lookup, if_pos rfl]; exact e2

theorem updateAt_ok {f : PSpec → Except SpecErr PSpec} {i : Int} {l l' : List PSpec} (h : updateAt f i l = .ok l') :
    ∃ j p p', l[j]? = some p ∧ f p = .ok p' ∧ l' = l.set j p' ∧
      ((j : Int) = i ∨ i < 0 ∧ (j : Int) = i + l.length) := by
  unfold updateAt at h
  simp only at h
  generalize hj : (if i < 0 then i + (l.length : Int) else i) = j at h
  by_cases h0 : j < 0
  · rw [if_pos h0] at h; simp at h
  · rw [if_neg h0] at h
    cases hg : l[j.toNat]? with
    | none => rw [hg] at h; simp at h
    | some p =>
      rw [hg] at h
      simp only at h
      cases hf : f p with
      | error e => rw [hf] at h; simp at h
      | ok p' =>
        rw [hf] at h
        simp only [Except.ok.injEq] at h
        refine ⟨j.toNat, p, p', hg, hf, h.symm, ?_⟩
        split at hj
        · right; exact ⟨by assumption, by omega⟩
        · left; omega

/-- Overrides of a positional group. -/
theorem override_group (key : Str) (v : OVal) (path : List Str) (g : Str) (s s' : Spec)
    (hp : ∀ k ∈ path, startsWith (S "parg") k = false) (hg : startsWith (S "parg") g = true)
    (h : overridePath key v (path ++ [g]) s = .ok s') :
    (∃ (t t' : Spec) (i : Int) (j : Nat) (p p' : PSpec), Spec.at path s = some t ∧ Spec.at path s' = some t' ∧
      intOf (stripBrackets (g.drop 4)) = some i ∧
      ((j : Int) = i ∨ i < 0 ∧ (j : Int) = i + (t.pargs.length : Int)) ∧
      t.pargs[j]? = some p ∧ t'.pargs = t.pargs.set j p' ∧
      (key ≠ S "always_wrap" → pattr key p' = some v) ∧ (∀ key', key' ≠ key → pattr key' p' = pattr key' p) ∧
      t'.name = t.name ∧ t'.spelling = t.spelling ∧ t'.maxSubgroups = t.maxSubgroups) ∧
    ∀ q, q ≠ path → SameAt (Spec.at q s') (Spec.at q s) := by
  induction path generalizing s s' with
  | nil =>
    cases s with
    | mk n sp m ps ks =>
      simp only [List.nil_append] at h
      unfold overridePath at h
      simp only [hg, if_true, ne_eq, not_true_eq_false, if_false] at h
      cases hi : intOf (stripBrackets (g.drop 4)) with
      | none => rw [hi] at h; simp at h
      | some i =>
        rw [hi] at h
        simp only at h
        split at h
        · simp at h
        · cases hu : updateAt (replaceKey key v) i ps with
          | error e => rw [hu] at h; simp at h
          | ok ps' =>
            rw [hu] at h
            simp only [Except.ok.injEq] at h
            subst h
            obtain ⟨j, p, p', e1, e2, e3, e4⟩ := updateAt_ok hu
            obtain ⟨h1, h2⟩ := replaceKey_ok e2
            refine ⟨⟨_, _, i, j, p, p', rfl, rfl, rfl, e4, e1, e3, h1, h2, rfl, rfl, rfl⟩, fun q hq => ?_⟩
            rw [at_kwargs (s := .mk n sp m ps ks) (s' := .mk n sp m ps' ks) rfl hq]
            exact sameAt_refl _
  | cons p rest ih =>
    rw [List.cons_append] at h
    obtain ⟨sub, sub', hl, ho, rfl⟩ := overridePath_cons (hp p (List.mem_cons_self ..)) h
    obtain ⟨⟨t, t', i, j, a, b, e1, e2, h3⟩, h6⟩ := ih sub sub' (fun k hk => hp k (List.mem_cons_of_mem _ hk)) ho
    refine ⟨⟨t, t', i, j, a, b, ?_, ?_, h3⟩, fun q hq => at_setKey hl h6 q hq⟩
    · unfold Spec.at; rw [hl]; exact e1
    · unfold Spec.at; rw [Spec.kwargs, setKey_lookup, if_pos rfl]; exact e2

/-- Nothing at the path: a user error. -/
theorem override_missing (key : Str) (v : OVal) (path rest : List Str) (k : Str) (s t : Spec)
    (hp : ∀ p ∈ path, startsWith (S "parg") p = false) (hk : startsWith (S "parg") k = false)
    (ht : Spec.at path s = some t) (hl : t.kwargs.lookup k = none) :
    overridePath key v (path ++ k :: rest) s = .error .user := by
  induction path generalizing s with
  | nil =>
    simp only [Spec.at, Option.some.injEq] at ht
    subst ht
    cases s with
    | mk n sp m ps ks =>
      have hl' : ks.lookup k = none := hl
      rw [List.nil_append, overridePath, if_neg (by simp [hk]), hl']
  | cons p path ih =>
    cases s with
    | mk n sp m ps ks =>
      unfold Spec.at at ht
      cases e : ks.lookup p with
      | none => rw [Spec.kwargs, e] at ht; simp at ht
      | some sub =>
        rw [Spec.kwargs, e] at ht
        simp only at ht
        rw [List.cons_append, overridePath, if_neg (by simp [hp p (List.mem_cons_self ..)]), e]
        simp only
        rw [ih sub (fun q hq => hp q (List.mem_cons_of_mem _ hq)) ht]

theorem beforeLast_dot {a key : Str} (h : '.' ∉ key) : beforeLast ['.'] (a ++ '.' :: key) = some a := by
  have hk : ∀ k : Str, '.' ∉ k → beforeLast ['.'] k = none := by
    intro k hk
    induction k with
    | nil => simp [beforeLast]
    | cons c k ih =>
      have hc : c ≠ '.' := fun h => hk (by simp [h])
      have hc' : '.' ≠ c := fun h => hc h.symm
      unfold beforeLast
      rw [ih fun h => hk (List.mem_cons_of_mem _ h)]
      simp [startsWith, stripPrefix?, hc, hc']
  induction a with
  | nil =>
    rw [List.nil_append, beforeLast, hk key h]
    simp [startsWith, stripPrefix?]
  | cons c a ih => rw [List.cons_append, beforeLast, ih]

/-- The address of an override: the path joined by slashes, a dot, and the name of the value. -/
theorem applyOverride_address {path : List Str} {key : Str} (hne : path ≠ []) (hp : ∀ k ∈ path, '/' ∉ k)
    (hk : '.' ∉ key) (v : OVal) (s : Spec) :
    applyOverride (join ['/'] path ++ '.' :: key) v s = overridePath key v path s := by
  unfold applyOverride rsplitDot
  rw [beforeLast_dot hk]
  have : (join ['/'] path ++ '.' :: key).drop ((join ['/'] path).length + 1) = key := by
    rw [List.drop_append]
    simp
  simp only [this]
  rw [splitOn_join hne hp]

end Verif.Parse
