import Verif.ArgSort

/-!
# Property C22: sorting an argument list only permutes it
-/

namespace Verif.Props.ArgSort
open Verif Py ArgSort

variable {α : Type _}

/-! ## Specification -/

/-- Cut a list of children into what precedes the first argument, and one group per
argument: the argument and everything up to the next argument. -/
def cut (isArg : α → Bool) : List α → List α × List (α × List α)
  | [] => ([], [])
  | c :: cs =>
    if isArg c then ([], (c, (cut isArg cs).1) :: (cut isArg cs).2)
    else (c :: (cut isArg cs).1, (cut isArg cs).2)

/-- Write groups out again. -/
def uncut (gs : List (α × List α)) : List α := gs.flatMap (fun g => g.1 :: g.2)

/-! ## Helper lemmas -/

theorem cut_uncut (isArg : α → Bool) (l : List α) :
    (cut isArg l).1 ++ uncut (cut isArg l).2 = l := by
  induction l with
  | nil => rfl
  | cons c cs ih =>
    simp only [cut]
    split
    · simp only [uncut, List.flatMap_cons] at ih ⊢; simp [ih]
    · simp [ih]

theorem cut_fst_not (isArg : α → Bool) (l : List α) : ∀ c ∈ (cut isArg l).1, isArg c = false := by
  induction l with
  | nil => simp [cut]
  | cons c cs ih =>
    simp only [cut]
    split
    · simp
    · intro x hx
      rcases List.mem_cons.1 hx with e | hx
      · subst e; simp_all
      · exact ih x hx

theorem cut_snd (isArg : α → Bool) (l : List α) :
    ∀ g ∈ (cut isArg l).2, isArg g.1 = true ∧ ∀ c ∈ g.2, isArg c = false := by
  induction l with
  | nil => simp [cut]
  | cons c cs ih =>
    simp only [cut]
    split
    · rename_i h
      intro g hg
      rcases List.mem_cons.1 hg with e | hg
      · subst e; exact ⟨h, cut_fst_not isArg cs⟩
      · exact ih g hg
    · exact ih

theorem filter_cut (isArg : α → Bool) (l : List α) :
    l.filter isArg = (cut isArg l).2.map (·.1) := by
  induction l with
  | nil => rfl
  | cons c cs ih =>
    simp only [cut, List.filter_cons]
    split <;> simp [ih]

/-- Number a run of children. -/
def tag (k : Nat) : Nat → List (α × Nat) → List (Nat × Nat × α × Nat)
  | _, [] => []
  | p, c :: cs => (k, p, c) :: tag k (p + 1) cs

theorem sortLoop_eq (isArg : α → Bool) (rank : Nat → Option Nat) (cs : List (α × Nat)) (k p : Nat)
    (h1 : ∀ c ∈ cs, isArg c.1 = true → (rank c.2).isSome = true)
    (h2 : ∀ c ∈ cs, isArg c.1 = false → rank c.2 = none) :
    sortLoop rank k p cs = tag k p (cut (fun c => isArg c.1) cs).1 ++
      (cut (fun c => isArg c.1) cs).2.flatMap
        (fun g => tag ((rank g.1.2).getD 0) 0 (g.1 :: g.2)) := by
  induction cs generalizing k p with
  | nil => rfl
  | cons c cs ih =>
    have ih' := fun k p => ih k p (fun x hx => h1 x (by simp [hx])) (fun x hx => h2 x (by simp [hx]))
    simp only [sortLoop, cut]
    by_cases hc : isArg c.1 = true
    · have := h1 c (by simp) hc
      cases hr : rank c.2 with
      | none => rw [hr] at this; simp at this
      | some r => simp [tag, ih', hr, hc]
    · rw [h2 c (by simp) (by simpa using hc)]
      simp [tag, ih', hc]

theorem map_tag (k p : Nat) (l : List (α × Nat)) : (tag k p l).map (fun t => t.2.2.1) = l.map (·.1) := by
  induction l generalizing p with
  | nil => rfl
  | cons c cs ih => simp [tag, ih]

theorem mem_tag {k p : Nat} {l : List (α × Nat)} {t} (h : t ∈ tag k p l) : t.1 = k ∧ p ≤ t.2.1 := by
  induction l generalizing p with
  | nil => simp [tag] at h
  | cons c cs ih =>
    simp only [tag, List.mem_cons] at h
    rcases h with e | h
    · subst e; simp
    · have := ih h; omega

/-- Strict order on the numbering. -/
def lt (a b : Nat × Nat × α × Nat) : Prop := a.1 < b.1 ∨ (a.1 = b.1 ∧ a.2.1 < b.2.1)

theorem tag_pairwise (k p : Nat) (l : List (α × Nat)) : (tag k p l).Pairwise lt := by
  induction l generalizing p with
  | nil => simp [tag]
  | cons c cs ih =>
    simp only [tag, List.pairwise_cons]
    refine ⟨?_, ih _⟩
    intro t ht
    have := mem_tag ht
    exact Or.inr ⟨this.1.symm, by simp; omega⟩

theorem flatMap_tag_pairwise (r : α × Nat → Nat) (gs : List ((α × Nat) × List (α × Nat)))
    (h : gs.Pairwise (fun a b => r a.1 < r b.1)) :
    (gs.flatMap (fun g => tag (r g.1) 0 (g.1 :: g.2))).Pairwise lt := by
  induction gs with
  | nil => simp
  | cons g gs ih =>
    rw [List.pairwise_cons] at h
    rw [List.flatMap_cons, List.pairwise_append]
    refine ⟨tag_pairwise _ _ _, ih h.2, ?_⟩
    intro a ha b hb
    obtain ⟨g', hg', hb⟩ := List.mem_flatMap.1 hb
    have h1 := mem_tag ha
    have h2 := mem_tag hb
    have := h.1 g' hg'
    exact Or.inl (by omega)

theorem findIdx_pairwise {l : List (α × Nat)} (h : (l.map (·.2)).Nodup) :
    ∃ f : Nat → Nat, (∀ x ∈ l, l.findIdx? (fun n => n.2 == x.2) = some (f x.2)) ∧
      l.Pairwise (fun a b => f a.2 < f b.2) := by
  induction l with
  | nil => exact ⟨fun _ => 0, by simp, by simp⟩
  | cons a l ih =>
    simp only [List.map_cons, List.nodup_cons] at h
    obtain ⟨f, hf, hp⟩ := ih h.2
    have hne : ∀ x ∈ l, x.2 ≠ a.2 := fun x hx e => h.1 (by rw [← e]; exact List.mem_map_of_mem hx)
    refine ⟨fun i => if i = a.2 then 0 else f i + 1, ?_, ?_⟩
    · intro x hx
      rcases List.mem_cons.1 hx with e | hx
      · subst e; simp [List.findIdx?_cons]
      · have := hne x hx
        have h' : ¬ a.2 = x.2 := fun e => this e.symm
        simp [List.findIdx?_cons, h', hf x hx, this]
    · rw [List.pairwise_cons]
      constructor
      · intro x hx
        simp [hne x hx]
      · refine List.Pairwise.imp_of_mem ?_ hp
        intro x y hx hy hxy
        simp [hne x hx, hne y hy, hxy]

theorem pairLe_of_lt {a b : Nat × Nat × α × Nat} (h : lt a b) : pairLe a b = true := by
  simp only [pairLe, Bool.or_eq_true, decide_eq_true_eq, Bool.and_eq_true, beq_iff_eq]
  rcases h with h | ⟨h1, h2⟩
  · exact Or.inl h
  · exact Or.inr ⟨h1, by omega⟩

theorem pairLe_trans (a b c : Nat × Nat × α × Nat) (h1 : pairLe a b = true) (h2 : pairLe b c = true) :
    pairLe a c = true := by
  simp only [pairLe, Bool.or_eq_true, decide_eq_true_eq, Bool.and_eq_true, beq_iff_eq] at *
  omega

theorem pairLe_total (a b : Nat × Nat × α × Nat) : pairLe a b = true ∨ pairLe b a = true := by
  simp only [pairLe, Bool.or_eq_true, decide_eq_true_eq, Bool.and_eq_true, beq_iff_eq]
  omega

theorem sorted_eq_of_strict {l t : List (Nat × Nat × α × Nat)} (hp : l.Perm t) (hs : t.Pairwise lt) :
    sortBy pairLe l = t := by
  apply List.Perm.eq_of_pairwise (le := fun a b => pairLe a b = true)
  · intro a b ha hb hab hba
    have ha' : a ∈ t := hp.mem_iff.1 ((sortBy_perm _ _).mem_iff.1 ha)
    -- equal numbering, strictly sorted: the same element
    have hab' : a.1 = b.1 ∧ a.2.1 = b.2.1 := by
      simp only [pairLe, Bool.or_eq_true, decide_eq_true_eq, Bool.and_eq_true, beq_iff_eq] at hab hba
      omega
    clear hp ha
    induction t with
    | nil => simp at ha'
    | cons x t ih =>
      rw [List.pairwise_cons] at hs
      rcases List.mem_cons.1 ha' with e1 | h1 <;> rcases List.mem_cons.1 hb with e2 | h2
      · rw [e1, e2]
      · have := hs.1 b h2; subst e1; simp only [lt] at this; omega
      · have := hs.1 a h1; subst e2; simp only [lt] at this; omega
      · exact ih hs.2 h2 h1
  · exact sortBy_pairwise pairLe_trans pairLe_total l
  · exact hs.imp pairLe_of_lt
  · exact (sortBy_perm _ _).trans hp

theorem cut_map {β : Type _} (f : α → β) (p : β → Bool) (l : List α) :
    cut p (l.map f) = ((cut (fun a => p (f a)) l).1.map f,
      (cut (fun a => p (f a)) l).2.map (fun g => (f g.1, g.2.map f))) := by
  induction l with
  | nil => rfl
  | cons c cs ih =>
    simp only [List.map_cons, cut, ih]
    split <;> simp

/-- The result in terms of the cut: leading part, then the groups, stably sorted. -/
theorem sortArguments_eq (isArg : α → Bool) (key : α → Str) (children : List α) :
    sortArguments isArg key children = (cut isArg children).1 ++
      uncut (sortBy (fun a b => strLe (key a.1) (key b.1)) (cut isArg children).2) := by
  have htag : children = children.zipIdx.map (·.1) := by simp
  have hnod : (children.zipIdx.map (·.2)).Nodup := by
    rw [List.zipIdx_map_snd]; exact List.nodup_range'
  simp only [sortArguments]
  generalize hT : children.zipIdx = T at *
  clear hT
  subst htag
  let P : α × Nat → Bool := fun n => isArg n.1
  let le : α × Nat → α × Nat → Bool := fun a b => strLe (key a.1) (key b.1)
  let gs := (cut P T).2
  let gs' := sortBy (fun a b : (α × Nat) × List (α × Nat) => le a.1 b.1) gs
  have hgs : gs'.Perm gs := sortBy_perm _ _
  have hsa : sortBy le (T.filter P) = gs'.map (·.1) := by
    rw [filter_cut, ← sortBy_map]
  have hnod' : ((sortBy le (T.filter P)).map (·.2)).Nodup := by
    have h1 : ((sortBy le (T.filter P)).map (·.2)).Perm ((T.filter P).map (·.2)) :=
      (sortBy_perm _ _).map _
    exact h1.nodup_iff.2 (hnod.sublist (List.filter_sublist.map _))
  obtain ⟨f, hf, hfp⟩ := findIdx_pairwise hnod'
  have hrank : ∀ x ∈ T, P x = true → nodemap (sortBy le (T.filter P)) x.2 = some (f x.2 + 1) := by
    intro x hx hp
    have : x ∈ sortBy le (T.filter P) :=
      (sortBy_perm _ _).mem_iff.2 (List.mem_filter.2 ⟨hx, hp⟩)
    simp [nodemap, hf x this]
  have hrank0 : ∀ x ∈ T, P x = false → nodemap (sortBy le (T.filter P)) x.2 = none := by
    intro x hx hp
    simp only [nodemap, Option.map_eq_none_iff, List.findIdx?_eq_none_iff, beq_eq_false_iff_ne]
    intro y hy
    intro e
    have hy' := List.mem_filter.1 ((sortBy_perm _ _).mem_iff.1 hy)
    have hxy : y = x := by
      clear hf hfp hrank hnod'
      have : ∀ (L : List (α × Nat)), (L.map (·.2)).Nodup → y ∈ L → x ∈ L → y.2 = x.2 → y = x := by
        intro L
        induction L with
        | nil => simp
        | cons z L ih =>
          intro hn h1 h2 h3
          simp only [List.map_cons, List.nodup_cons] at hn
          rcases List.mem_cons.1 h1 with e1 | h1' <;> rcases List.mem_cons.1 h2 with e2 | h2'
          · rw [e1, e2]
          · subst e1; exact absurd (List.mem_map.2 ⟨x, h2', h3.symm⟩) hn.1
          · subst e2; exact absurd (List.mem_map.2 ⟨y, h1', h3⟩) hn.1
          · exact ih hn.2 h1' h2' h3
      exact this T hnod hy'.1 hx e
    rw [hxy] at hy'
    simp [hp] at hy'
  have hloop := sortLoop_eq isArg (nodemap (sortBy le (T.filter P))) T 0 0
    (fun c hc hp => by rw [hrank c hc hp]; rfl) hrank0
  have hmemT : ∀ g ∈ gs, g.1 ∈ T ∧ P g.1 = true := by
    intro g hg
    have h1 : g.1 ∈ T.filter P := by rw [filter_cut]; exact List.mem_map_of_mem hg
    exact ⟨(List.mem_filter.1 h1).1, (List.mem_filter.1 h1).2⟩
  let R : α × Nat → Nat := fun c => (nodemap (sortBy le (T.filter P)) c.2).getD 0
  have hR : ∀ g ∈ gs, R g.1 = f g.1.2 + 1 := by
    intro g hg
    have := hmemT g hg
    simp only [R, hrank _ this.1 this.2, Option.getD_some]
  let target := tag 0 0 (cut P T).1 ++ gs'.flatMap (fun g => tag (R g.1) 0 (g.1 :: g.2))
  have hperm : (sortLoop (nodemap (sortBy le (T.filter P))) 0 0 T).Perm target := by
    rw [hloop]
    exact List.Perm.append_left _ (hgs.symm.flatMap_right _)
  have hstrict : target.Pairwise lt := by
    rw [List.pairwise_append]
    refine ⟨tag_pairwise _ _ _, flatMap_tag_pairwise R gs' ?_, ?_⟩
    · rw [hsa, List.pairwise_map] at hfp
      refine List.Pairwise.imp_of_mem ?_ hfp
      intro a b ha hb hab
      rw [hR a (hgs.mem_iff.1 ha), hR b (hgs.mem_iff.1 hb)]
      omega
    · intro a ha b hb
      obtain ⟨g, hg, hb⟩ := List.mem_flatMap.1 hb
      have h1 := mem_tag ha
      have h2 := mem_tag hb
      have h3 := hR g (hgs.mem_iff.1 hg)
      exact Or.inl (by omega)
  have hfin := sorted_eq_of_strict hperm hstrict
  show (sortBy pairLe (sortLoop (nodemap (sortBy le (T.filter P))) 0 0 T)).map _ = _
  rw [hfin]
  rw [cut_map]
  simp only [target, List.map_append, map_tag]
  congr 1
  rw [List.map_flatMap]
  simp only [map_tag]
  have hm := sortBy_map (fun g : (α × Nat) × List (α × Nat) => (g.1.1, g.2.map (·.1)))
    (fun a b => strLe (key a.1) (key b.1)) gs
  simp only at hm
  show _ = uncut (sortBy _ (gs.map _))
  rw [← hm]
  simp only [uncut, List.flatMap_map, gs', le, List.map_cons]

/-! ## C22 -/

/-- **C22.**  Sorting keeps what precedes the first argument in front, keeps every
argument together with the comments that follow it, orders these groups by
case-insensitive key, and keeps groups with equal keys in their old order. -/
theorem sort_groups (isArg : α → Bool) (key : α → Str) (children : List α) :
    ∃ gs, sortArguments isArg key children = (cut isArg children).1 ++ uncut gs ∧
      gs.Perm (cut isArg children).2 ∧
      gs.Pairwise (fun a b => strLe (key a.1) (key b.1) = true) ∧
      ∀ k : Str, gs.filter (fun g => key g.1 = k) =
        (cut isArg children).2.filter (fun g => key g.1 = k) := by
  refine ⟨_, sortArguments_eq isArg key children, sortBy_perm _ _, ?_, ?_⟩
  · exact sortBy_pairwise (le := fun a b : α × List α => strLe (key a.1) (key b.1))
      (fun a b c => strLe_trans _ _ _) (fun a b => strLe_total _ _) _
  · intro k
    apply sortBy_stable
    intro a b ha hb
    simp only [decide_eq_true_eq] at ha hb
    rw [ha, hb]
    exact strLe_refl k

/-- **C22.**  Cutting loses nothing: the children are the leading part and the groups
written out. -/
theorem cut_faithful (isArg : α → Bool) (children : List α) :
    (cut isArg children).1 ++ uncut (cut isArg children).2 = children ∧
    (∀ c ∈ (cut isArg children).1, isArg c = false) ∧
    (∀ g ∈ (cut isArg children).2, isArg g.1 = true ∧ ∀ c ∈ g.2, isArg c = false) :=
  ⟨cut_uncut isArg children, cut_fst_not isArg children, cut_snd isArg children⟩

/-- **C22 (permutation).**  Every argument and every comment is kept exactly once. -/
theorem sort_perm (isArg : α → Bool) (key : α → Str) (children : List α) :
    (sortArguments isArg key children).Perm children := by
  obtain ⟨gs, h, hp, _⟩ := sort_groups isArg key children
  rw [h]
  conv => rhs; rw [← cut_uncut isArg children]
  exact List.Perm.append_left _ (hp.flatMap_right _)

theorem cut_append_uncut (isArg : α → Bool) (lead : List α) (gs : List (α × List α))
    (h1 : ∀ c ∈ lead, isArg c = false)
    (h2 : ∀ g ∈ gs, isArg g.1 = true ∧ ∀ c ∈ g.2, isArg c = false) :
    cut isArg (lead ++ uncut gs) = (lead, gs) := by
  induction gs generalizing lead with
  | nil =>
    induction lead with
    | nil => rfl
    | cons c cs ih =>
      have hc := h1 c (by simp)
      have := ih (fun x hx => h1 x (by simp [hx]))
      simp only [List.cons_append, cut, hc, this]
      simp
  | cons g gs ih =>
    induction lead with
    | nil =>
      have hg := h2 g (by simp)
      have := ih g.2 hg.2 (fun x hx => h2 x (by simp [hx]))
      simp only [List.nil_append, uncut, List.flatMap_cons, List.cons_append, cut, hg.1, if_true]
      simp only [uncut] at this
      rw [this]
    | cons c cs ih2 =>
      have hc := h1 c (by simp)
      have := ih2 (fun x hx => h1 x (by simp [hx]))
      simp only [List.cons_append, cut, hc, this]
      simp

/-- **C22 (idempotence).**  Sorting a sorted list changes nothing. -/
theorem sort_idempotent (isArg : α → Bool) (key : α → Str) (children : List α) :
    sortArguments isArg key (sortArguments isArg key children) =
      sortArguments isArg key children := by
  obtain ⟨gs, h, hp, hs, _⟩ := sort_groups isArg key children
  rw [h, sortArguments_eq, cut_append_uncut isArg _ _ (cut_fst_not isArg children)
    (fun g hg => cut_snd isArg children g (hp.mem_iff.1 hg))]
  rw [sortBy_of_pairwise hs]

/-- A concrete list: arguments are the entries with no `#`. -/
example : sortArguments (fun s => !(startsWith ['#'] s)) lower
    [S "#lead", S "b.cc", S "#of b", S "A.cc", S "B.cc", S "a.h", S "#of a.h"] =
    [S "#lead", S "A.cc", S "a.h", S "#of a.h", S "b.cc", S "#of b", S "B.cc"] := by
  decide +kernel

end Verif.Props.ArgSort
