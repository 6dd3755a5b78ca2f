import Verif.LintLemmas

/-!
# Properties of cmake-lint: C40 to C44, C51
-/

namespace Verif.Lint
open Verif Py

/-! ## Specification: what a history of calls means -/

/-- What a call says about a code: `some true` suppress it, `some false` stop suppressing. -/
def says (id : Str) : Call → Option Bool
  | .suppress _ ids => if id ∈ ids then some true else none
  | .unsuppress _ ids => if id ∈ ids then some false else none
  | .record _ => none

/-- A code is suppressed after a history iff the last call that names it is `suppress`. -/
def inForce (h : List Call) (id : Str) : Bool := (h.filterMap (says id)).getLast? == some true

/-- The line of a suppression call. -/
def callLine : Call → Option Nat
  | .suppress l _ => some l
  | .unsuppress l _ => some l
  | .record _ => none

/-- The suppression calls come in line order. -/
def InOrder (h : List Call) : Prop := (h.filterMap callLine).Pairwise (· ≤ ·)

/-- The part of the history that concerns lines up to `line`. -/
def upTo (line : Nat) (h : List Call) : List Call :=
  h.filter (fun x => match callLine x with | some l => decide (l ≤ line) | none => true)

/-- A code is suppressed at a location iff the last call naming it among those for lines up
to that line is `suppress`.  A record without location is at no line. -/
def suppressedAt (h : List Call) (loc : List Nat) (id : Str) : Bool :=
  match loc with
  | [] => false
  | line :: _ => inForce (upTo line h) id

/-- The records that were made while their code was neither disabled nor suppressed, in
order. -/
def recorded (disabled : List Str) (h : List Call) : List Rec :=
  h.zipIdx.filterMap (fun (x, i) =>
    match x with
    | .record r => if r.id ∈ disabled ∨ inForce (h.take i) r.id then none else some r
    | _ => none)

/-! ## Lemmas -/

theorem snoc_induction {α : Type _} {P : List α → Prop} (nil : P [])
    (snoc : ∀ l x, P l → P (l ++ [x])) (l : List α) : P l := by
  rw [← List.reverse_reverse l]
  generalize l.reverse = r
  induction r with
  | nil => exact nil
  | cons x r ih => rw [List.reverse_cons]; exact snoc _ _ ih

theorem inForce_snoc (h : List Call) (x : Call) (id : Str) :
    inForce (h ++ [x]) id = (says id x).getD (inForce h id) := by
  unfold inForce
  rw [List.filterMap_append]
  cases hs : says id x with
  | none => simp [hs]
  | some b => simp [hs]

theorem mem_applyEvent (active : List Str) (e : Event) (id : Str) :
    id ∈ applyEvent active e ↔ if e.add then id ∈ active ∨ id ∈ e.ids else id ∈ active ∧ id ∉ e.ids := by
  unfold applyEvent
  split <;> simp

theorem run_state (d : List Str) (h : List Call) (c : Ctx) (hr : Ctx.run d {} h = some c) (id : Str) :
    (id ∈ c.supp ↔ inForce h id = true) ∧
      (id ∈ c.events.foldl applyEvent [] ↔ inForce h id = true) := by
  induction h using snoc_induction generalizing c with
  | nil => simp only [Ctx.run, Option.some.injEq] at hr; subst hr; simp [inForce]
  | snoc h x ih =>
    rw [run_snoc] at hr
    cases hc : Ctx.run d {} h with
    | none => rw [hc] at hr; simp at hr
    | some c0 =>
      rw [hc, Option.bind_some] at hr
      obtain ⟨i1, i2⟩ := ih c0 hc
      rw [inForce_snoc]
      cases x with
      | suppress line ids =>
        simp only [Ctx.call, Option.some.injEq] at hr
        subst hr
        simp only [addNew_fst, List.foldl_append, List.foldl_cons, List.foldl_nil, mem_applyEvent,
          addNew_snd, i1, i2, says, if_true]
        by_cases hm : id ∈ ids <;> simp [hm]
      | unsuppress line ids =>
        simp only [Ctx.call, Option.some.injEq] at hr
        subst hr
        simp only [List.foldl_append, List.foldl_cons, List.foldl_nil, mem_applyEvent,
          List.mem_filter, i1, i2, says, decide_eq_true_eq, Bool.false_eq_true, if_false]
        by_cases hm : id ∈ ids <;> simp [hm]
      | record r =>
        simp only [Ctx.call] at hr
        have : c.supp = c0.supp ∧ c.events = c0.events := by
          split at hr
          · simp only [Option.some.injEq] at hr; subst hr; simp
          · split at hr
            · simp only [Option.some.injEq] at hr; subst hr; simp
            · split at hr
              · simp only [Option.some.injEq] at hr; subst hr; simp
              · simp at hr
        rw [this.1, this.2]
        simp [says, i1, i2]

theorem filterMap_congr' {α β : Type _} {f g : α → Option β} {l : List α}
    (h : ∀ x ∈ l, f x = g x) : l.filterMap f = l.filterMap g := by
  induction l with
  | nil => rfl
  | cons x xs ih =>
    rw [List.forall_mem_cons] at h
    simp only [List.filterMap_cons, h.1, ih h.2]

theorem takeWhile_self {α : Type _} {p : α → Bool} {l : List α} (h : ∀ x ∈ l, p x = true) :
    l.takeWhile p = l := by
  have := List.takeWhile_append_of_pos (l₂ := []) h
  simpa using this

theorem recorded_snoc (d : List Str) (h : List Call) (x : Call) :
    recorded d (h ++ [x]) = recorded d h ++
      (match x with
        | .record r => if r.id ∈ d ∨ inForce h r.id then [] else [r]
        | _ => []) := by
  unfold recorded
  rw [List.zipIdx_append, List.filterMap_append]
  congr 1
  · apply filterMap_congr'
    intro p hp
    obtain ⟨y, i⟩ := p
    have hi : i < h.length := by
      have := List.mem_zipIdx hp
      omega
    cases y with
    | record r => simp only [List.take_append_of_le_length (Nat.le_of_lt hi)]
    | _ => rfl
  · cases x with
    | record r =>
      simp only [List.zipIdx_cons, List.zipIdx_nil, Nat.zero_add, List.filterMap_cons,
        List.filterMap_nil, List.take_left']
      split <;> grind
    | _ => rfl

theorem run_lint (d : List Str) (h : List Call) (c : Ctx) (hr : Ctx.run d {} h = some c) :
    c.lint = recorded d h := by
  induction h using snoc_induction generalizing c with
  | nil => simp only [Ctx.run, Option.some.injEq] at hr; subst hr; rfl
  | snoc h x ih =>
    rw [run_snoc] at hr
    cases hc : Ctx.run d {} h with
    | none => rw [hc] at hr; simp at hr
    | some c0 =>
      rw [hc, Option.bind_some] at hr
      have i0 := ih c0 hc
      rw [recorded_snoc, ← i0]
      cases x with
      | suppress line ids =>
        simp only [Ctx.call, Option.some.injEq] at hr
        subst hr; simp
      | unsuppress line ids =>
        simp only [Ctx.call, Option.some.injEq] at hr
        subst hr; simp
      | record r =>
        have hs := (run_state d h c0 hc r.id).1
        simp only [Ctx.call] at hr
        by_cases h1 : r.id ∈ d
        · simp only [h1, if_true, Option.some.injEq] at hr; subst hr; simp [h1]
        · simp only [h1, if_false] at hr
          by_cases h2 : r.id ∈ c0.supp
          · simp only [h2, if_true, Option.some.injEq] at hr; subst hr; simp [hs.1 h2]
          · simp only [h2, if_false] at hr
            have h3 : ¬ inForce h r.id = true := fun e => h2 (hs.2 e)
            split at hr
            · simp only [Option.some.injEq] at hr; subst hr; simp [h1, h3]
            · simp at hr

/-- Calls up to the first one for a line past `line`. -/
def before (line : Nat) (h : List Call) : List Call :=
  h.takeWhile (fun x => match callLine x with | some l => decide (l ≤ line) | none => true)

theorem run_events_prefix (d : List Str) (c c' : Ctx) (h : List Call) (hr : c.run d h = some c') :
    c.events <+: c'.events := by
  induction h generalizing c with
  | nil => simp only [Ctx.run, Option.some.injEq] at hr; subst hr; exact List.prefix_refl _
  | cons x rest ih =>
    simp only [Ctx.run] at hr
    cases hc : c.call d x with
    | none => simp [hc] at hr
    | some c1 =>
      rw [hc, Option.bind_some] at hr
      refine List.IsPrefix.trans ?_ (ih c1 hr)
      cases x with
      | suppress l ids => simp only [Ctx.call, Option.some.injEq] at hc; subst hc; simp
      | unsuppress l ids => simp only [Ctx.call, Option.some.injEq] at hc; subst hc; simp
      | record r =>
        simp only [Ctx.call] at hc
        split at hc
        · simp only [Option.some.injEq] at hc; subst hc; simp
        · split at hc
          · simp only [Option.some.injEq] at hc; subst hc; simp
          · split at hc
            · simp only [Option.some.injEq] at hc; subst hc; simp
            · simp at hc

theorem call_events (d : List Str) (c c' : Ctx) (x : Call) (hc : c.call d x = some c') :
    match callLine x with
    | some l => ∃ e : Event, e.line = l ∧ c'.events = c.events ++ [e]
    | none => c'.events = c.events := by
  cases x with
  | suppress l ids =>
    simp only [Ctx.call, Option.some.injEq] at hc; subst hc
    exact ⟨_, rfl, rfl⟩
  | unsuppress l ids =>
    simp only [Ctx.call, Option.some.injEq] at hc; subst hc
    exact ⟨_, rfl, rfl⟩
  | record r =>
    simp only [Ctx.call] at hc
    simp only [callLine]
    split at hc
    · simp only [Option.some.injEq] at hc; subst hc; rfl
    · split at hc
      · simp only [Option.some.injEq] at hc; subst hc; rfl
      · split at hc
        · simp only [Option.some.injEq] at hc; subst hc; rfl
        · simp at hc

theorem run_takeWhile (d : List Str) (line : Nat) (c c' : Ctx) (h : List Call)
    (hr : c.run d h = some c') (hle : ∀ e ∈ c.events, e.line ≤ line) :
    ∃ c1, c.run d (before line h) = some c1 ∧
      c1.events = c'.events.takeWhile (fun e => e.line ≤ line) := by
  induction h generalizing c with
  | nil =>
    simp only [Ctx.run, Option.some.injEq] at hr; subst hr
    refine ⟨c, rfl, ?_⟩
    rw [takeWhile_self]
    simpa using hle
  | cons x rest ih =>
    simp only [Ctx.run] at hr
    cases hc : c.call d x with
    | none => simp [hc] at hr
    | some c1 =>
      rw [hc, Option.bind_some] at hr
      have he := call_events d c c1 x hc
      cases hl : callLine x with
      | none =>
        rw [hl] at he
        simp only at he
        obtain ⟨c2, hr2, he2⟩ := ih c1 hr (by rw [he]; exact hle)
        refine ⟨c2, ?_, he2⟩
        simp only [before, List.takeWhile_cons, hl, if_true, Ctx.run, hc, Option.bind_some]
        exact hr2
      | some l =>
        rw [hl] at he
        obtain ⟨e, hel, he⟩ := he
        by_cases hll : l ≤ line
        · obtain ⟨c2, hr2, he2⟩ := ih c1 hr (by
            rw [he]
            intro e' he'
            rcases List.mem_append.1 he' with h | h
            · exact hle e' h
            · simp only [List.mem_singleton] at h; subst h; omega)
          refine ⟨c2, ?_, he2⟩
          simp only [before, List.takeWhile_cons, hl, hll, decide_true, if_true, Ctx.run, hc,
            Option.bind_some]
          exact hr2
        · refine ⟨c, ?_, ?_⟩
          · simp [before, hl, hll, Ctx.run]
          · obtain ⟨t, ht⟩ := run_events_prefix d c1 c' rest hr
            rw [← ht, he, List.append_assoc, List.takeWhile_append_of_pos (by simpa using hle)]
            simp [hel, hll]

theorem seen_inForce (d : List Str) (h : List Call) (c : Ctx) (hr : Ctx.run d {} h = some c)
    (line : Nat) (t : List Nat) (id : Str) :
    (id ∈ (seen c.events (line :: t)).foldl applyEvent []) ↔ inForce (before line h) id = true := by
  obtain ⟨c1, hr1, he1⟩ := run_takeWhile d line {} c h hr (by simp)
  simp only [seen]
  rw [← he1]
  exact (run_state d _ c1 hr1 id).2

theorem inForce_congr {h h' : List Call} (e : h.filter (fun x => (callLine x).isSome) =
    h'.filter (fun x => (callLine x).isSome)) (id : Str) : inForce h id = inForce h' id := by
  have key : ∀ h : List Call, h.filterMap (says id) =
      (h.filter (fun x => (callLine x).isSome)).filterMap (says id) := by
    intro h
    induction h with
    | nil => rfl
    | cons x xs ih =>
      cases x with
      | record r =>
        rw [List.filter_cons_of_neg (by simp [callLine]), List.filterMap_cons_none rfl, ih]
      | _ =>
        rw [List.filter_cons_of_pos (by simp [callLine]), List.filterMap_cons, List.filterMap_cons, ih]
  unfold inForce
  rw [key h, key h', e]

theorem before_upTo (line : Nat) (h : List Call) (ho : InOrder h) (id : Str) :
    inForce (before line h) id = inForce (upTo line h) id := by
  apply inForce_congr
  unfold InOrder at ho
  induction h with
  | nil => rfl
  | cons x xs ih =>
    cases hx : callLine x with
    | none =>
      rw [List.filterMap_cons_none hx] at ho
      simp only [before, upTo] at ih ⊢
      simp [hx, ih ho]
    | some l =>
      rw [List.filterMap_cons_some hx, List.pairwise_cons] at ho
      simp only [before, upTo] at ih ⊢
      by_cases hl : l ≤ line
      · simp [hx, hl, ih ho.2]
      · simp only [List.takeWhile_cons, List.filter_cons, hx, hl, decide_false]
        simp only [Bool.false_eq_true, if_false, List.filter_nil]
        symm
        rw [List.filter_filter, List.filter_eq_nil_iff]
        intro y hy
        cases hyl : callLine y with
        | none => simp
        | some l' =>
          have := ho.1 l' (List.mem_filterMap.2 ⟨y, hy, hyl⟩)
          simp; omega

/-! ## C40: suppression is exact -/

/-- What is reported, for every history, in the order of the calls: a located record is
hidden iff its code is suppressed by the calls that precede the first one for a later line. -/
theorem reported_general (d : List Str) (h : List Call) (c : Ctx)
    (hr : Ctx.run d {} h = some c) :
    c.getLint = (sortBy recLe (recorded d h)).filter
      (fun r => match r.loc with | [] => true | line :: _ => !inForce (before line h) r.id) := by
  rw [getLint_eq, run_lint d h c hr]
  apply List.filter_congr
  intro r _
  cases hl : r.loc with
  | nil => simp [seen]
  | cons line t =>
    have := seen_inForce d h c hr line t r.id
    by_cases hf : inForce (before line h) r.id = true
    · simp [this.2 hf, hf]
    · have hn : ¬ (r.id ∈ (seen c.events (line :: t)).foldl applyEvent []) := fun e => hf (this.1 e)
      simp [hn, hf]

/-- C40.  For every history of calls whose suppressions come in line order, the
report is: the records that were made while their code was neither disabled nor suppressed, sorted,
without those whose code is suppressed at their line. -/
theorem reported_exact (d : List Str) (h : List Call) (ho : InOrder h) (c : Ctx)
    (hr : Ctx.run d {} h = some c) :
    c.getLint = (sortBy recLe (recorded d h)).filter (fun r => !suppressedAt h r.loc r.id) := by
  rw [reported_general d h c hr]
  apply List.filter_congr
  intro r _
  cases hl : r.loc with
  | nil => rfl
  | cons line t => simp only [suppressedAt, before_upTo line h ho]

/-- C40.  A record that was made is reported iff its code is not suppressed at its line. -/
theorem reported_iff (d : List Str) (h : List Call) (ho : InOrder h) (c : Ctx)
    (hr : Ctx.run d {} h = some c) (r : Rec) :
    r ∈ c.getLint ↔ r ∈ recorded d h ∧ suppressedAt h r.loc r.id = false := by
  rw [reported_exact d h ho c hr, List.mem_filter, (sortBy_perm recLe _).mem_iff]
  simp

/-- C40.  For every history, in line order or not: a suppression never hides another code nor a
line before it starts.  A record made outside every suppression of its code, whose code
is suppressed from no line up to its own, is reported. -/
theorem not_overreaching (d : List Str) (h : List Call) (c : Ctx)
    (hr : Ctx.run d {} h = some c) (r : Rec) (hrec : r ∈ recorded d h)
    (hno : ∀ line ids l t, Call.suppress line ids ∈ h → r.loc = l :: t → line ≤ l → r.id ∉ ids) :
    r ∈ c.getLint := by
  rw [reported_general d h c hr, List.mem_filter]
  refine ⟨(sortBy_perm recLe _).mem_iff.2 hrec, ?_⟩
  cases hl : r.loc with
  | nil => rfl
  | cons line t =>
    simp only [Bool.not_eq_true']
    cases hf : inForce (before line h) r.id with
    | false => rfl
    | true =>
      exfalso
      simp only [inForce, beq_iff_eq] at hf
      have hm := List.mem_of_getLast? hf
      obtain ⟨x, hx, hs⟩ := List.mem_filterMap.1 hm
      cases x with
      | record r' => simp [says] at hs
      | unsuppress l' ids => simp only [says] at hs; split at hs <;> simp at hs
      | suppress l' ids =>
        simp only [says] at hs
        split at hs
        · rename_i hin
          have h1 := List.all_eq_true.1 List.all_takeWhile _ hx
          simp only [callLine, decide_eq_true_eq] at h1
          have h2 : Call.suppress l' ids ∈ h := (List.takeWhile_prefix _).subset hx
          exact hno l' ids line t h2 hl h1 hin
        · simp at hs

/-- C40.  A code that is disabled is never reported. -/
theorem disabled_hidden (d : List Str) (h : List Call) (c : Ctx)
    (hr : Ctx.run d {} h = some c) (r : Rec) (hd : r.id ∈ d) : r ∉ c.getLint := by
  rw [reported_general d h c hr, List.mem_filter, (sortBy_perm recLe _).mem_iff]
  rintro ⟨hm, _⟩
  unfold recorded at hm
  obtain ⟨⟨x, i⟩, _, he⟩ := List.mem_filterMap.1 hm
  cases x with
  | record r' =>
    simp only at he
    split at he
    · simp at he
    · simp only [Option.some.injEq] at he; subst he; simp_all
  | _ => simp at he

/-- Histories whose records use known codes and fill their messages always run. -/
theorem run_total (d : List Str) (h : List Call)
    (hk : ∀ r, Call.record r ∈ h → r.id ∈ lintIds ∧ fieldsOf r.id ≤ r.args.length) (c : Ctx) : ∃ c', c.run d h = some c' := by
  induction h generalizing c with
  | nil => exact ⟨c, rfl⟩
  | cons x rest ih =>
    simp only [Ctx.run]
    have : ∃ c1, c.call d x = some c1 := by
      cases x with
      | suppress => exact ⟨_, rfl⟩
      | unsuppress => exact ⟨_, rfl⟩
      | record r =>
        rw [Ctx.call, if_pos (hk r (by simp))]
        split
        · exact ⟨_, rfl⟩
        · split <;> exact ⟨_, rfl⟩
    obtain ⟨c1, hc⟩ := this
    rw [hc, Option.bind_some]
    exact ih (fun r hr => hk r (by simp [hr])) c1

/-- A history like that of a file whose body disables C0301 from line 2 to line 5: of the
long lines 1, 3 and 6 the one in the region is hidden, and the other code on line 3 is not. -/
def exHistory : List Call :=
  [.record ⟨S "C0301", [1], [S "99", S "80"]⟩, .record ⟨S "C0301", [3], [S "99", S "80"]⟩, .record ⟨S "C0303", [3], []⟩,
   .record ⟨S "C0301", [6], [S "99", S "80"]⟩, .suppress 2 [S "C0301"], .unsuppress 5 [S "C0301"]]

example : InOrder exHistory := by unfold InOrder; decide +kernel
example : (Ctx.run [] {} exHistory).map Ctx.getLint =
    some [⟨S "C0301", [1], [S "99", S "80"]⟩, ⟨S "C0303", [3], []⟩, ⟨S "C0301", [6], [S "99", S "80"]⟩] := by decide +kernel

/-- Outside line order, a suppression is lost: when a body's own region ends after a nested pragma's
line, the events are not sorted, and the nested suppression comes too late.  Here the outer body
suppresses C0303 from line 1 to line 9, and the nested one C0301 from line 3 to line 5. -/
theorem nested_pragma_lost :
    let h : List Call := [.record ⟨S "C0301", [4], [S "99", S "80"]⟩, .suppress 1 [S "C0303"],
      .unsuppress 9 [S "C0303"], .suppress 3 [S "C0301"], .unsuppress 5 [S "C0301"]]
    suppressedAt h [4] (S "C0301") = true ∧
      (Ctx.run [] {} h).map Ctx.getLint = some [⟨S "C0301", [4], [S "99", S "80"]⟩] := by decide +kernel

/-! ## C41: sorted and complete -/

/-- The key that records are ordered by. -/
def key (r : Rec) : List Nat × Str := (r.loc, r.id)

/-- Lexicographic order of locations and then codes, said without the model's comparison:
`a` comes no later than `b` iff the tuple of `a` is a prefix of that of `b`, or smaller at the
first difference, or equal with a code that is not greater. -/
def LocBefore (a b : List Nat) : Prop :=
  (∃ t, t ≠ [] ∧ b = a ++ t) ∨
    ∃ p x y s t, a = p ++ x :: s ∧ b = p ++ y :: t ∧ x < y

theorem locLe_iff (a b : List Nat) : locLe a b = true ↔ a = b ∨ LocBefore a b := by
  induction a generalizing b with
  | nil =>
    simp only [locLe, true_iff]
    cases b with
    | nil => exact .inl rfl
    | cons y ys => exact .inr (.inl ⟨y :: ys, by simp, rfl⟩)
  | cons x xs ih =>
    cases b with
    | nil =>
      simp only [locLe, Bool.false_eq_true, false_iff]
      rintro (h | ⟨t, _, h⟩ | ⟨p, _, _, _, _, _, h, _⟩) <;> simp at h
    | cons y ys =>
      simp only [locLe, Bool.or_eq_true, decide_eq_true_eq, Bool.and_eq_true, beq_iff_eq, ih]
      constructor
      · rintro (h | ⟨rfl, rfl | ⟨t, ht, rfl⟩ | ⟨p, u, v, s, t, rfl, rfl, huv⟩⟩)
        · exact .inr (.inr ⟨[], x, y, xs, ys, rfl, rfl, h⟩)
        · exact .inl rfl
        · exact .inr (.inl ⟨t, ht, rfl⟩)
        · exact .inr (.inr ⟨x :: p, u, v, s, t, rfl, rfl, huv⟩)
      · rintro (h | ⟨t, ht, h⟩ | ⟨p, u, v, s, t, h1, h2, huv⟩)
        · simp only [List.cons.injEq] at h; exact .inr ⟨h.1, .inl h.2⟩
        · simp only [List.cons_append, List.cons.injEq] at h
          exact .inr ⟨h.1.symm, .inr (.inl ⟨t, ht, h.2⟩)⟩
        · cases p with
          | nil =>
            simp only [List.nil_append, List.cons.injEq] at h1 h2
            exact .inl (by omega)
          | cons q p =>
            simp only [List.cons_append, List.cons.injEq] at h1 h2
            exact .inr ⟨by rw [h1.1, h2.1], .inr (.inr ⟨p, u, v, s, t, h1.2, h2.2, huv⟩)⟩

/-- C41.  The report is sorted by location and then code. -/
theorem report_sorted (c : Ctx) :
    c.getLint.Pairwise (fun a b => LocBefore a.loc b.loc ∨ (a.loc = b.loc ∧ strLe a.id b.id = true)) := by
  rw [getLint_eq]
  refine ((sortBy_pairwise recLe_trans recLe_total c.lint).filter _).imp ?_
  intro a b h
  unfold recLe at h
  split at h
  · rename_i e; exact .inr ⟨e, h⟩
  · rename_i e
    exact .inl (((locLe_iff _ _).1 h).resolve_left e)

/-- C41.  Records with the same location and code keep their order of discovery, and they are
either all reported or all suppressed. -/
theorem report_stable (c : Ctx) (k : List Nat × Str) :
    c.getLint.filter (fun r => key r = k) = c.lint.filter (fun r => key r = k) ∨
      c.getLint.filter (fun r => key r = k) = [] := by
  have hst : (sortBy recLe c.lint).filter (fun r => key r = k) = c.lint.filter (fun r => key r = k) := by
    apply sortBy_stable
    intro a b ha hb
    simp only [decide_eq_true_eq] at ha hb
    have e := ha.trans hb.symm
    simp only [key, Prod.mk.injEq] at e
    simp [recLe, e.1, e.2, strLe_refl]
  rw [getLint_eq, List.filter_filter]
  by_cases h : k.2 ∈ (seen c.events k.1).foldl applyEvent []
  · right
    rw [List.filter_eq_nil_iff]
    intro r _
    simp only [Bool.and_eq_true, decide_eq_true_eq, Bool.not_eq_true', decide_eq_false_iff_not]
    rintro ⟨rfl, hn⟩
    exact hn h
  · left
    rw [← hst]
    apply List.filter_congr
    intro r _
    by_cases hk : key r = k
    · subst hk
      simpa [key] using h
    · simp [hk]

/-- C41.  Every recorded record that is not suppressed is reported as often as it was
recorded, and nothing else is. -/
theorem report_complete (d : List Str) (h : List Call) (ho : InOrder h) (c : Ctx)
    (hr : Ctx.run d {} h = some c) (r : Rec) :
    c.getLint.count r = if suppressedAt h r.loc r.id then 0 else (recorded d h).count r := by
  rw [reported_exact d h ho c hr]
  split
  · rename_i hs
    rw [List.count_eq_zero]
    simp [hs]
  · rename_i hs
    rw [List.count_filter (by simp [hs]), (sortBy_perm recLe _).count_eq]

/-- Discovery order decides between equal keys, and the location before the code. -/
example : (Ctx.run [] {} [.record ⟨S "W0106", [4, 2], [S "open", S "x"]⟩, .record ⟨S "W0106", [4, 2], [S "open", S "a"]⟩,
    .record ⟨S "W0101", [10], []⟩, .record ⟨S "C0301", [4], [S "99", S "80"]⟩]).map Ctx.getLint =
    some [⟨S "C0301", [4], [S "99", S "80"]⟩, ⟨S "W0106", [4, 2], [S "open", S "x"]⟩, ⟨S "W0106", [4, 2], [S "open", S "a"]⟩,
      ⟨S "W0101", [10], []⟩] := by decide +kernel

end Verif.Lint
