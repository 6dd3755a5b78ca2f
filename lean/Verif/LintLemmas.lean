import Verif.Lint

/-! # Lemmas about the lint model -/

namespace Verif.Lint
open Verif Py

theorem run_append (d : List Str) (c : Ctx) (h1 h2 : List Call) :
    c.run d (h1 ++ h2) = (c.run d h1).bind (fun c' => c'.run d h2) := by
  induction h1 generalizing c with
  | nil => rfl
  | cons x rest ih =>
    simp only [List.cons_append, Ctx.run]
    cases c.call d x with
    | none => rfl
    | some c' => simp [ih]

theorem run_snoc (d : List Str) (c : Ctx) (h : List Call) (x : Call) :
    c.run d (h ++ [x]) = (c.run d h).bind (fun c' => c'.call d x) := by
  rw [run_append]
  cases c.run d h with
  | none => rfl
  | some c' =>
    simp only [Option.bind_some, Ctx.run]
    cases c'.call d x <;> rfl

theorem addNew_fst (supp ids : List Str) (i : Str) :
    i ∈ (addNew supp ids).1 ↔ i ∈ supp ∨ i ∈ ids := by
  induction ids generalizing supp with
  | nil => simp [addNew]
  | cons j rest ih =>
    simp only [addNew]
    split
    · rename_i hj
      rw [ih]; simp only [List.mem_cons]
      constructor
      · rintro (h | h) <;> simp [h]
      · rintro (h | rfl | h) <;> simp [*]
    · simp only [ih, List.mem_cons]; grind

theorem addNew_snd (supp ids : List Str) (i : Str) :
    i ∈ (addNew supp ids).2 ↔ i ∉ supp ∧ i ∈ ids := by
  induction ids generalizing supp with
  | nil => simp [addNew]
  | cons j rest ih =>
    simp only [addNew]
    split
    · rename_i hj
      rw [ih]; simp only [List.mem_cons]; grind
    · simp only [List.mem_cons, ih]; grind

theorem locLe_refl (a : List Nat) : locLe a a = true := by
  induction a with
  | nil => rfl
  | cons x xs ih => simp [locLe, ih]

theorem locLe_total (a b : List Nat) : locLe a b = true ∨ locLe b a = true := by
  induction a generalizing b with
  | nil => simp [locLe]
  | cons x xs ih =>
    cases b with
    | nil => simp [locLe]
    | cons y ys =>
      simp only [locLe, Bool.or_eq_true, decide_eq_true_eq, Bool.and_eq_true, beq_iff_eq]
      rcases Nat.lt_trichotomy x y with h | h | h
      · exact .inl (.inl h)
      · subst h; rcases ih ys with h | h <;> simp [h]
      · exact .inr (.inl h)

theorem locLe_trans {a b c : List Nat} (h1 : locLe a b = true) (h2 : locLe b c = true) :
    locLe a c = true := by
  induction a generalizing b c with
  | nil => simp [locLe]
  | cons x xs ih =>
    cases b with
    | nil => simp [locLe] at h1
    | cons y ys =>
      cases c with
      | nil => simp [locLe] at h2
      | cons z zs =>
        simp only [locLe, Bool.or_eq_true, decide_eq_true_eq, Bool.and_eq_true, beq_iff_eq] at *
        rcases h1 with h1 | ⟨rfl, h1⟩
        · rcases h2 with h2 | ⟨rfl, h2⟩
          · exact .inl (by omega)
          · exact .inl h1
        · rcases h2 with h2 | ⟨rfl, h2⟩
          · exact .inl h2
          · exact .inr ⟨rfl, ih h1 h2⟩

theorem locLe_antisymm {a b : List Nat} (h1 : locLe a b = true) (h2 : locLe b a = true) :
    a = b := by
  induction a generalizing b with
  | nil => cases b with
    | nil => rfl
    | cons y ys => simp [locLe] at h2
  | cons x xs ih =>
    cases b with
    | nil => simp [locLe] at h1
    | cons y ys =>
      simp only [locLe, Bool.or_eq_true, decide_eq_true_eq, Bool.and_eq_true, beq_iff_eq] at *
      rcases h1 with h1 | ⟨rfl, h1⟩
      · rcases h2 with h2 | ⟨rfl, h2⟩ <;> omega
      · rcases h2 with h2 | ⟨_, h2⟩
        · omega
        · rw [ih h1 h2]

theorem recLe_total (a b : Rec) : recLe a b = true ∨ recLe b a = true := by
  unfold recLe
  by_cases h : a.loc = b.loc
  · simp only [h, if_true]; exact strLe_total _ _
  · have h' : ¬ b.loc = a.loc := fun e => h e.symm
    simp only [h, h', if_false]; exact locLe_total _ _

theorem recLe_loc {a b : Rec} (h : recLe a b = true) : locLe a.loc b.loc = true := by
  unfold recLe at h
  split at h
  · rename_i e; rw [e]; exact locLe_refl _
  · exact h

theorem recLe_trans (a b c : Rec) (h1 : recLe a b = true) (h2 : recLe b c = true) :
    recLe a c = true := by
  have hl := locLe_trans (recLe_loc h1) (recLe_loc h2)
  unfold recLe
  split
  · rename_i e
    have hb : a.loc = b.loc := locLe_antisymm (recLe_loc h1) (e ▸ recLe_loc h2)
    have hc : b.loc = c.loc := hb ▸ e
    simp only [recLe, hb, if_true] at h1
    simp only [recLe, hc, if_true] at h2
    exact strLe_trans _ _ _ h1 h2
  · exact hl

theorem popEvents_spec (line : Nat) (active : List Str) (es : List Event) :
    popEvents line active es =
      ((es.takeWhile (fun e => e.line ≤ line)).foldl applyEvent active,
        es.dropWhile (fun e => e.line ≤ line)) := by
  induction es generalizing active with
  | nil => rfl
  | cons e rest ih =>
    simp only [popEvents]
    by_cases h : e.line ≤ line
    · simp [h, ih]
    · simp [h]

/-- The events that have been applied when a record at `loc` is looked at. -/
def seen (es : List Event) : List Nat → List Event
  | [] => []
  | line :: _ => es.takeWhile (fun e => e.line ≤ line)

theorem sweep_spec (done left : List Event) (recs : List Rec)
    (hs : recs.Pairwise (fun a b => locLe a.loc b.loc = true))
    (h0 : ∀ r ∈ recs, r.loc = [] → done = [])
    (h1 : ∀ r ∈ recs, ∀ l t, r.loc = l :: t → ∀ e ∈ done, e.line ≤ l) :
    sweep (done.foldl applyEvent []) left recs =
      recs.filter (fun r => !decide (r.id ∈ (seen (done ++ left) r.loc).foldl applyEvent [])) := by
  induction recs generalizing done left with
  | nil => rfl
  | cons r rest ih =>
    rw [List.pairwise_cons] at hs
    simp only [sweep]
    cases hl : r.loc with
    | nil =>
      have hd := h0 r (by simp) hl
      subst hd
      have ih' := ih [] left hs.2 (fun _ _ _ => rfl) (by simp)
      simp only [List.foldl_nil, List.nil_append] at ih'
      simp [hl, seen, ih']
    | cons line t =>
      simp only [popEvents_spec]
      have hdone : ∀ e ∈ done, e.line ≤ line := h1 r (by simp) line t hl
      have htw : (done ++ left).takeWhile (fun e => e.line ≤ line) =
          done ++ left.takeWhile (fun e => e.line ≤ line) := by
        rw [List.takeWhile_append_of_pos]
        simpa using hdone
      have hseen : (seen (done ++ left) r.loc).foldl applyEvent [] =
          (left.takeWhile (fun e => e.line ≤ line)).foldl applyEvent (done.foldl applyEvent []) := by
        rw [hl]; simp only [seen, htw, List.foldl_append]
      have hsplit : done ++ left = (done ++ left.takeWhile (fun e => e.line ≤ line)) ++
          left.dropWhile (fun e => e.line ≤ line) := by
        rw [List.append_assoc, List.takeWhile_append_dropWhile]
      have ih' := ih (done ++ left.takeWhile (fun e => e.line ≤ line))
        (left.dropWhile (fun e => e.line ≤ line)) hs.2
        (fun r' hr' hn => by
          have := hs.1 r' hr'
          rw [hl, hn] at this
          simp [locLe] at this)
        (fun r' hr' l' t' hl' e he => by
          have hle := hs.1 r' hr'
          rw [hl, hl'] at hle
          have hll : line ≤ l' := by
            simp only [locLe, Bool.or_eq_true, decide_eq_true_eq, Bool.and_eq_true, beq_iff_eq] at hle
            omega
          rcases List.mem_append.1 he with he | he
          · have := hdone e he; omega
          · have := List.all_eq_true.1 (List.all_takeWhile (l := left)
              (p := fun e => decide (e.line ≤ line))) e he
            simp only [decide_eq_true_eq] at this
            omega)
      rw [← hsplit] at ih'
      rw [List.foldl_append] at ih'
      rw [List.filter_cons]
      simp only [hseen]
      split <;> rename_i hin <;> simp [hin, ih']

theorem sortBy_rec_pairwise (l : List Rec) :
    (sortBy recLe l).Pairwise (fun a b => locLe a.loc b.loc = true) :=
  (sortBy_pairwise recLe_trans recLe_total l).imp recLe_loc

theorem getLint_eq (c : Ctx) :
    c.getLint = (sortBy recLe c.lint).filter
      (fun r => !decide (r.id ∈ (seen c.events r.loc).foldl applyEvent [])) := by
  have := sweep_spec [] c.events (sortBy recLe c.lint) (sortBy_rec_pairwise _)
    (fun _ _ _ => rfl) (by simp)
  simpa [Ctx.getLint] using this

theorem Ctxs.get_put (c : Ctx) (f g : Str) (cs : Ctxs) :
    (Ctxs.put c f cs).get g = if g = f then c else cs.get g := by
  induction cs with
  | nil =>
    by_cases h : g = f
    · subst h; simp [Ctxs.put, Ctxs.get]
    · have : (g == f) = false := by simp [h]
      simp [Ctxs.put, Ctxs.get, h, List.lookup_cons, this]
  | cons pd rest ih =>
    obtain ⟨p, d⟩ := pd
    simp only [Ctxs.put]
    by_cases hp : p = f
    · subst hp
      by_cases h : g = p
      · subst h; simp [Ctxs.get]
      · have : (g == p) = false := by simp [h]
        simp [Ctxs.get, h, List.lookup_cons, this]
    · simp only [hp, if_false]
      by_cases h : g = p
      · subst h; simp [Ctxs.get, hp]
      · simp only [Ctxs.get, List.lookup_cons] at ih ⊢
        have : (g == p) = false := by simp [h]
        simp only [this]; exact ih

end Verif.Lint
