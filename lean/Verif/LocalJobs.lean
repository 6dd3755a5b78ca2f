import Verif.Local

/-!
# What follows a command does not matter: the jobs that read arguments (lemmas for C68)
-/

namespace Verif.Parse
open Verif Py Lex

/-- Two runs, on lists that end in `m` and `m'`: if the first stops in front of `m`, with a token
that has a meaning left, so does the second. -/
def L (m m' : List Token) (A A' : R) : Prop :=
  ∀ nd b, A = .ok (nd, b ++ m) → HasSem b → A' = .ok (nd, b ++ m')

/-- What a job may be asked. -/
def JobLoc (m m' : List Token) : Job → List Token → Prop
  | .arg p _, x => p.choice true = true ∨
      ∃ f, p = .choose f ∧ f (x ++ m) = f (x ++ m') ∧ ∀ q, f (x ++ m) = .ok q → q.choice true = true
  | .stdLoop _ _ _ kwargs _ _ _, _ => simpleL true kwargs = true
  | .kwGroup _ p _, _ => p.simple true = true
  | .statement, _ => False
  | .flow, _ => False
  | .ifLoop _, _ => False
  | .body _ _, _ => False
  | _, _ => True

section
variable {m m' : List Token}

theorem L.stop {n : Node} {x : List Token} : L m m' (.ok (n, x ++ m)) (.ok (n, x ++ m')) := by
  intro nd b h _
  simp only [Except.ok.injEq, Prod.mk.injEq, List.append_cancel_right_eq] at h
  obtain ⟨rfl, rfl⟩ := h
  rfl

theorem L.stop' {n : Node} {x : List Token} : L m m' (pure (n, x ++ m)) (pure (n, x ++ m')) := L.stop

theorem L.error {e : Err} {A : R} : L m m' (.error e) A := by intro nd b h; simp at h

theorem L.ite {c c' : Prop} [Decidable c] [Decidable c'] {A A' B B' : R} (hc : c ↔ c') (h1 : c → L m m' A A')
    (h2 : ¬ c → L m m' B B') : L m m' (if c then A else B) (if c' then A' else B') := by
  by_cases h : c
  · rw [if_pos h, if_pos (hc.1 h)]; exact h1 h
  · rw [if_neg h, if_neg (fun e => h (hc.2 e))]; exact h2 h

/-- A list between `b ++ m` and `x ++ m`. -/
theorem between {b r x : List Token} (h1 : b ++ m <:+ r) (h2 : r <:+ x ++ m) (hb : HasSem b) :
    ∃ y, r = y ++ m ∧ y <:+ x ∧ HasSem y := by
  obtain ⟨c, rfl⟩ := h1
  refine ⟨c ++ b, by simp, ?_, hb.suffix ⟨c, rfl⟩⟩
  obtain ⟨d, h2⟩ := h2
  refine ⟨d, ?_⟩
  rw [← List.append_assoc, ← List.append_assoc, List.append_cancel_right_eq] at h2
  rw [← h2]; simp

theorem L.bind {x : List Token} {A A' : R} {g g' : Node × List Token → R} (hA : L m m' A A')
    (hsuf : ∀ r, A = .ok r → r.2 <:+ x ++ m) (hg : ∀ r s, g r = .ok s → s.2 <:+ r.2)
    (h : ∀ nd y, A = .ok (nd, y ++ m) → y <:+ x → HasSem y → L m m' (g (nd, y ++ m)) (g' (nd, y ++ m'))) :
    L m m' (A >>= g) (A' >>= g') := by
  intro nd b e hb
  cases eA : A with
  | error _ => rw [eA] at e; exact absurd e (by simp [Bind.bind, Except.bind])
  | ok r =>
    rw [eA] at e
    have e : g r = .ok (nd, b ++ m) := e
    obtain ⟨n1, r⟩ := r
    have h1 : b ++ m <:+ r := hg (n1, r) _ e
    obtain ⟨y, rfl, hy, hs⟩ := between h1 (hsuf _ eA) hb
    have := hA n1 y eA hs
    rw [this]
    exact h n1 y eA hy hs nd b e hb

theorem L.must {x : List Token} {A A' : R} {g g' : Node × List Token → R} (hA : L m m' A A')
    (hsuf : ∀ r, A = .ok r → r.2 <:+ x ++ m) (hg : ∀ r s, g r = .ok s → s.2 <:+ r.2)
    (h : ∀ nd y, A = .ok (nd, y ++ m) → y <:+ x → HasSem y → L m m' (g (nd, y ++ m)) (g' (nd, y ++ m'))) :
    L m m' (must A (x ++ m) >>= g) (must A' (x ++ m') >>= g') := by
  have hm : ∀ (A : R) ts r, Parse.must A ts = .ok r → A = .ok r := by
    intro A ts r h
    cases A with
    | error _ => simp [Parse.must, Bind.bind, Except.bind] at h
    | ok s =>
      simp only [Parse.must, Bind.bind, Except.bind] at h
      split at h
      · exact h
      · simp at h
  refine L.bind (x := x) ?_ (fun r h => hsuf r (hm _ _ _ h)) hg (fun nd y e => h nd y (hm _ _ _ e))
  unfold Parse.must
  refine L.bind (x := x) hA hsuf ?_ ?_
  · intro r s h
    obtain ⟨sub, rest⟩ := r
    simp only at h
    split at h
    · simp only [Pure.pure, Except.pure, Except.ok.injEq] at h; rw [← h]; exact List.suffix_refl _
    · simp at h
  · intro nd y _ _ _
    refine L.ite ?_ (fun _ => L.stop') (fun _ => L.error)
    simp

/-- The first run may be taken to have a token with a meaning. -/
theorem L.sem {x : List Token} {A A' : R} (hsuf : ∀ r, A = .ok r → r.2 <:+ x ++ m) (h : HasSem x → L m m' A A') : L m m' A A' := by
  intro nd b e hb
  obtain ⟨y, h1, h2, h3⟩ := between (List.suffix_refl (b ++ m)) (hsuf _ e) hb
  exact h (h3.suffix h2) nd b e hb
end

section
variable {ctx : Ctx} (hc : ∀ name, Flat (lookupParser ctx name)) {n : Nat} {m m' : List Token}
  (H : ∀ job up x, JobLoc m m' job x → L m m' (exec ctx n job up (x ++ m)) (exec ctx n job up (x ++ m')))
include hc

theorem suf {n : Nat} {job : Job} {up : Bool} {ts : List Token} {r : Node × List Token}
    (h : exec ctx n job up ts = .ok r) : r.2 <:+ ts := by
  have := exec_sat hc n job up ts
  rw [h] at this
  exact this.1

include H

theorem posStart_loc (spec : PSpec) (brk : List Breaker) (up : Bool) (x : List Token) (hx : HasSem x) :
    L m m' (posStart (exec ctx n) spec brk up (x ++ m)) (posStart (exec ctx n) spec brk up (x ++ m')) := by
  have e1 := ws_cut (x := x) (m := m) (Or.inl hx)
  have e2 := ws_cut (x := x) (m := m') (Or.inl hx)
  have hd : HasSem (x.dropWhile isWs) := by simpa only [HasSem, semantics_dropWs] using hx
  simp only [posStart, e1.1, e1.2, e2.1, e2.2]
  have : annotated spec (x.dropWhile isWs ++ m') = annotated spec (x.dropWhile isWs ++ m) := by
    cases e : x.dropWhile isWs with
    | nil => rw [e] at hd; exact absurd rfl hd
    | cons t ts => rfl
  rw [this]
  exact H _ _ _ trivial

theorem posIter_loc (spec : PSpec) (brk : List Breaker) (sortable : Bool) (acc : List Node) (k : Nat) (up : Bool) (t : Token)
    (x : List Token) (hx : HasSem (t :: x)) :
    L m m' (posIter ctx (exec ctx n) spec brk sortable acc k up (t :: (x ++ m)))
      (posIter ctx (exec ctx n) spec brk sortable acc k up (t :: (x ++ m'))) := by
  unfold posIter
  cases pargsFull spec.nargs k with
  | error e => exact L.error
  | ok full =>
    show L m m' (if full = true then _ else _) (if full = true then _ else _)
    refine L.ite Iff.rfl (fun _ => L.stop' (x := t :: x)) fun _ => ?_
    refine L.ite Iff.rfl (fun _ => L.stop' (x := t :: x)) fun _ => ?_
    refine L.ite Iff.rfl (fun _ => ?_) fun _ => ?_
    · refine L.bind (x := t :: x) (H .paren true (t :: x) trivial) (fun r h => suf hc h) ?_ ?_
      · intro r s h; exact suf hc h
      · intro nd y _ _ _; exact H _ _ _ trivial
    · refine L.ite Iff.rfl (fun _ => H _ _ _ trivial) fun hw => ?_
      refine L.ite Iff.rfl (fun hcom => ?_) fun hcom => ?_
      · rw [belongsUp_cut hx, belongsUp_cut hx]
        refine L.ite Iff.rfl (fun _ => L.stop' (x := t :: x)) fun _ => ?_
        have hs := hasSem_tail hx (by simp [isSemantic, hcom])
        rw [consumeComment_cut (Or.inl hs), consumeComment_cut (Or.inl hs)]
        exact H _ _ _ trivial
      · refine L.ite Iff.rfl (fun _ => H _ _ _ trivial) fun hof => ?_
        refine L.sem (x := x) (fun r h => (suf hc h).trans (trailing_suffix ctx _)) fun hs => ?_
        rw [consumeTrailing_cut ctx (Or.inl hs), consumeTrailing_cut ctx (Or.inl hs)]
        exact H _ _ _ trivial

omit H in
theorem bind_suf {ts : List Token} {A : R} {g : Node × List Token → R} (hA : ∀ r, A = .ok r → r.2 <:+ ts)
    (hg : ∀ r s, g r = .ok s → s.2 <:+ r.2) (r : Node × List Token) (h : A >>= g = .ok r) : r.2 <:+ ts := by
  cases eA : A with
  | error _ => rw [eA] at h; exact absurd h (by simp [Bind.bind, Except.bind])
  | ok s => rw [eA] at h; exact (hg s r h).trans (hA s eA)

/-- After a word. -/
theorem word_loc (J : List Node → Job) (up : Bool) (x : List Token) (hJ : ∀ tr y, JobLoc m m' (J tr) y) :
    L m m' (exec ctx n (J (consumeTrailing ctx (x ++ m)).1) up (consumeTrailing ctx (x ++ m)).2)
      (exec ctx n (J (consumeTrailing ctx (x ++ m')).1) up (consumeTrailing ctx (x ++ m')).2) := by
  refine L.sem (x := x) (fun r h => (suf hc h).trans (trailing_suffix ctx _)) fun hs => ?_
  rw [consumeTrailing_cut ctx (Or.inl hs), consumeTrailing_cut ctx (Or.inl hs)]
  exact H _ _ _ (hJ _ _)

/-- A call that must take something. -/
theorem must_loc {job : Job} {up up2 : Bool} {t : Token} {x : List Token} (J : Node → Job) (hj : JobLoc m m' job (t :: x))
    (hJ : ∀ nd y, JobLoc m m' (J nd) y) :
    L m m' (must (exec ctx n job up (t :: (x ++ m))) (t :: (x ++ m)) >>= fun r => exec ctx n (J r.1) up2 r.2)
      (must (exec ctx n job up (t :: (x ++ m'))) (t :: (x ++ m')) >>= fun r => exec ctx n (J r.1) up2 r.2) := by
  refine L.must (x := t :: x) (H job up (t :: x) hj) (fun r h => suf hc h) ?_ ?_
  · intro r s h; exact suf hc h
  · intro nd y _ _ _; exact H _ _ _ (hJ _ _)

theorem stdStart_loc (cmd : Option CmdInfo) (specs : List PSpec) (kwargs : List (Str × ArgP)) (brk : List Breaker) (up : Bool)
    (x : List Token) (hx : HasSem x) (hk : simpleL true kwargs = true) :
    L m m' (stdStart (exec ctx n) cmd specs kwargs brk up (x ++ m)) (stdStart (exec ctx n) cmd specs kwargs brk up (x ++ m')) := by
  have e1 := ws_cut (x := x) (m := m) (Or.inl hx)
  have e2 := ws_cut (x := x) (m := m') (Or.inl hx)
  simp only [stdStart, e1.1, e1.2, e2.1, e2.2]
  exact H _ _ _ hk

theorem stdIter_loc (cmd : Option CmdInfo) (specs : List PSpec) (dflt : PSpec) (kwargs : List (Str × ArgP))
    (brk kbrk : List Breaker) (acc : List Node) (up : Bool) (t : Token) (x : List Token) (hx : HasSem (t :: x))
    (hk : simpleL true kwargs = true) :
    L m m' (stdIter (exec ctx n) cmd specs dflt kwargs brk kbrk acc up (t :: (x ++ m)))
      (stdIter (exec ctx n) cmd specs dflt kwargs brk kbrk acc up (t :: (x ++ m'))) := by
  unfold stdIter
  dsimp only
  refine L.ite Iff.rfl (fun _ => H _ _ _ hk) fun hw => ?_
  refine L.ite Iff.rfl (fun hcom => ?_) fun hcom => ?_
  · rw [belongsUp_cut hx, belongsUp_cut hx]
    refine L.ite Iff.rfl (fun _ => L.stop (x := t :: x)) fun _ => ?_
    have hs := hasSem_tail hx (by simp [isSemantic, hcom])
    rw [consumeComment_cut (Or.inl hs), consumeComment_cut (Or.inl hs)]
    exact H _ _ _ hk
  · refine L.ite Iff.rfl (fun _ => H _ _ _ hk) fun hof => ?_
    refine L.ite Iff.rfl (fun _ => L.stop (x := t :: x)) fun _ => ?_
    cases e : (normKwarg t).bind (fun w => (kwargs.lookup w).map (fun p => (w, p))) with
    | some wp =>
      obtain ⟨w, p⟩ := wp
      have hp : p.simple true = true := by
        simp only [Option.bind_eq_some_iff, Option.map_eq_some_iff, Prod.mk.injEq] at e
        obtain ⟨w', _, p', h2, rfl, rfl⟩ := e
        exact simpleL_mem hk _ (lookup_pair_mem h2)
      refine L.bind (x := t :: x) (H _ true (t :: x) hp) (fun r h => suf hc h) ?_ ?_
      · intro r s h
        obtain ⟨sub, rest⟩ := r
        simp only at h
        split at h
        · simp at h
        · exact suf hc h
      · intro nd y _ _ _
        refine L.ite (by simp only [List.length_append, List.length_cons]; omega) (fun _ => L.error) fun _ => H _ _ _ hk
    | none =>
      refine L.bind (x := t :: x) (H _ true (t :: x) trivial) (fun r h => suf hc h) ?_ ?_
      · intro r s h
        obtain ⟨sub, rest⟩ := r
        simp only at h
        split at h
        · simp at h
        · exact suf hc h
      · intro nd y _ _ _
        refine L.ite (by simp only [List.length_append, List.length_cons]; omega) (fun _ => L.error) fun _ => H _ _ _ hk

theorem kwIter_loc (word : Str) (p : ArgP) (brk : List Breaker) (t : Token) (x : List Token) (hp : p.simple true = true) :
    L m m' (kwIter (exec ctx n) word p brk (t :: (x ++ m))) (kwIter (exec ctx n) word p brk (t :: (x ++ m'))) := by
  unfold kwIter
  dsimp only
  refine L.ite Iff.rfl (fun _ => L.error) fun _ => ?_
  refine L.sem (x := x) ?_ fun hs => ?_
  · refine bind_suf hc (fun r h => (suf hc h).trans (dropWs_suffix _)) ?_
    intro r s h
    obtain ⟨sub, rest⟩ := r
    simp only [Pure.pure, Except.pure, Except.ok.injEq] at h
    rw [← h]; exact List.suffix_refl _
  have e1 := ws_cut (x := x) (m := m) (Or.inl hs)
  have e2 := ws_cut (x := x) (m := m') (Or.inl hs)
  rw [e1.1, e1.2, e2.1, e2.2]
  refine L.bind (x := x.dropWhile isWs) (H _ true _ (Or.inl (choice_of_simple hp))) (fun r h => suf hc h) ?_ ?_
  · intro r s h
    obtain ⟨sub, rest⟩ := r
    simp only [Pure.pure, Except.pure, Except.ok.injEq] at h
    rw [← h]; exact List.suffix_refl _
  · intro nd y _ _ _
    simp only [List.length_append, Nat.add_lt_add_iff_right]
    exact L.stop'

theorem parenIter_loc (t : Token) (x : List Token) :
    L m m' (parenIter ctx (exec ctx n) (t :: (x ++ m))) (parenIter ctx (exec ctx n) (t :: (x ++ m'))) := by
  unfold parenIter
  dsimp only
  refine L.ite Iff.rfl (fun _ => L.error) fun _ => ?_
  refine L.bind (x := x) (H _ true _ (Or.inl rfl)) (fun r h => suf hc h) ?_ ?_
  · intro r s h
    obtain ⟨sub, rest⟩ := r
    simp only at h
    split at h
    · simp at h
    · split at h
      · simp at h
      · simp only [Pure.pure, Except.pure, Except.ok.injEq] at h
        rw [← h]
        exact (trailing_suffix ctx _).trans (List.suffix_cons _ _)
  · intro nd y _ _ hy
    cases y with
    | nil => exact absurd rfl hy
    | cons r y =>
      simp only [List.cons_append]
      refine L.ite Iff.rfl (fun _ => L.error) fun _ => ?_
      refine L.sem (x := y) ?_ fun hs => ?_
      · intro r h
        simp only [Pure.pure, Except.pure, Except.ok.injEq] at h
        rw [← h]
        exact trailing_suffix ctx _
      · rw [consumeTrailing_cut ctx (Or.inl hs), consumeTrailing_cut ctx (Or.inl hs)]
        exact L.stop'

theorem condIter_loc (brk : List Breaker) (acc : List Node) (up : Bool) (t : Token) (x : List Token) :
    L m m' (condIter (exec ctx n) brk acc up (t :: (x ++ m))) (condIter (exec ctx n) brk acc up (t :: (x ++ m'))) := by
  unfold condIter
  dsimp only
  refine L.ite Iff.rfl (fun _ => L.stop (x := t :: x)) fun _ => ?_
  refine L.ite Iff.rfl (fun _ => H _ _ _ trivial) fun _ => ?_
  refine L.ite Iff.rfl (fun _ => H _ _ _ trivial) fun _ => ?_
  refine L.ite Iff.rfl (fun _ => H _ _ _ trivial) fun _ => ?_
  refine L.ite Iff.rfl (fun _ => ?_) fun _ => ?_
  · refine L.bind (x := t :: x) (H .paren true (t :: x) trivial) (fun r h => suf hc h) ?_ ?_
    · intro r s h; exact suf hc h
    · intro nd y _ _ _; exact H _ _ _ trivial
  · refine L.ite Iff.rfl (fun _ => ?_) fun _ => ?_
    · refine L.bind (x := t :: x) (H _ true (t :: x) rfl) (fun r h => suf hc h) ?_ ?_
      · intro r s h
        obtain ⟨sub, rest⟩ := r
        simp only at h
        split at h
        · exact suf hc h
        · simp at h
      · intro nd y _ _ _
        refine L.ite (by simp only [List.length_append, List.length_cons]; omega) (fun _ => H _ _ _ trivial) fun _ => L.error
    · refine L.bind (x := t :: x) (H _ true (t :: x) trivial) (fun r h => suf hc h) ?_ ?_
      · intro r s h; exact suf hc h
      · intro nd y _ _ _; exact H _ _ _ trivial

theorem tupleIter_loc (npargs : Nargs) (ntup : Nat) (flags : List Str) (brk : List Breaker) (acc : List Node)
    (grp : Option (List Node)) (after : List Node) (np nt : Nat) (up : Bool) (t : Token) (x : List Token) :
    L m m' (tupleIter ctx (exec ctx n) npargs ntup flags brk acc grp after np nt up (t :: (x ++ m)))
      (tupleIter ctx (exec ctx n) npargs ntup flags brk acc grp after np nt up (t :: (x ++ m'))) := by
  unfold tupleIter
  cases pargsFull npargs np with
  | error e => exact L.error
  | ok full =>
    show L m m' (if full = true then _ else _) (if full = true then _ else _)
    refine L.ite Iff.rfl (fun _ => L.stop' (x := t :: x)) fun _ => ?_
    refine L.ite Iff.rfl (fun _ => L.stop' (x := t :: x)) fun _ => ?_
    refine L.ite Iff.rfl (fun _ => H _ _ _ trivial) fun _ => ?_
    refine L.ite Iff.rfl (fun _ => H _ _ _ trivial) fun _ => ?_
    refine L.sem (x := x) ?_ fun hs => ?_
    · intro r h
      split at h
      · simp at h
      · rename_i u us e
        rw [e]
        split at h
        · exact (suf hc h).trans (List.suffix_cons _ _)
        · rw [show consumeTrailing ctx (u :: us) = ((consumeTrailing ctx (u :: us)).1, (consumeTrailing ctx (u :: us)).2) from rfl] at h
          dsimp only at h
          repeat' split at h
          all_goals exact (suf hc h).trans (trailing_suffix ctx _)
    cases x with
    | nil => exact absurd rfl hs
    | cons u us =>
      simp only [List.cons_append]
      refine L.ite Iff.rfl (fun _ => H _ _ _ trivial) fun _ => ?_
      have e1 := consumeTrailing_cut ctx (x := u :: us) (m := m) (Or.inl hs)
      have e2 := consumeTrailing_cut ctx (x := u :: us) (m := m') (Or.inl hs)
      rw [List.cons_append] at e1 e2
      rw [e1, e2]
      cases grp with
      | none => exact L.ite Iff.rfl (fun _ => H _ _ _ trivial) fun _ => H _ _ _ trivial
      | some g => exact L.ite Iff.rfl (fun _ => H _ _ _ trivial) fun _ => H _ _ _ trivial

theorem flagIter_loc (flags : List Str) (brk : List Breaker) (acc : List Node) (up : Bool) (t : Token) (x : List Token) :
    L m m' (flagIter ctx (exec ctx n) flags brk acc up (t :: (x ++ m)))
      (flagIter ctx (exec ctx n) flags brk acc up (t :: (x ++ m'))) := by
  unfold flagIter
  dsimp only
  refine L.ite Iff.rfl (fun _ => L.stop (x := t :: x)) fun _ => ?_
  refine L.ite Iff.rfl (fun _ => H _ _ _ trivial) fun _ => ?_
  refine L.ite Iff.rfl (fun _ => L.stop (x := t :: x)) fun _ => ?_
  exact word_loc hc H (fun tr => .flagLoop flags brk (acc ++ [mk .flag (.tok t :: tr)])) up x fun _ _ => trivial

/-- Blanks, then a call that must take something. -/
theorem drop_must_loc {job : Job} {up up2 : Bool} {x : List Token} (J : List Token → Node → Job)
    (hj : ∀ y, JobLoc m m' job y) (hJ : ∀ ws nd y, JobLoc m m' (J ws nd) y) (hx : HasSem x) :
    L m m' (must (exec ctx n job up ((x ++ m).dropWhile isWs)) ((x ++ m).dropWhile isWs) >>=
        fun r => exec ctx n (J ((x ++ m).takeWhile isWs) r.1) up2 r.2)
      (must (exec ctx n job up ((x ++ m').dropWhile isWs)) ((x ++ m').dropWhile isWs) >>=
        fun r => exec ctx n (J ((x ++ m').takeWhile isWs) r.1) up2 r.2) := by
  have e1 := ws_cut (x := x) (m := m) (Or.inl hx)
  have e2 := ws_cut (x := x) (m := m') (Or.inl hx)
  rw [e1.1, e1.2, e2.1, e2.2]
  refine L.must (x := x.dropWhile isWs) (H job up _ (hj _)) (fun r h => suf hc h) ?_ ?_
  · intro r s h; exact suf hc h
  · intro nd y _ _ _; exact H _ _ _ (hJ _ _ _)

theorem setStart_loc (brk : List Breaker) (up : Bool) (x : List Token) (hx : HasSem x) :
    L m m' (setStart (exec ctx n) brk up (x ++ m)) (setStart (exec ctx n) brk up (x ++ m')) :=
  drop_must_loc hc H (fun ws sub => .setLoop ((semantics sub.toks).head?.map (·.spelling)) brk (leaves ws ++ [sub]))
    (fun _ => trivial) (fun _ _ _ => trivial) hx

theorem setIter_loc (v : Option Str) (brk : List Breaker) (acc : List Node) (up : Bool) (t : Token) (x : List Token) :
    L m m' (setIter ctx (exec ctx n) v brk acc up (t :: (x ++ m))) (setIter ctx (exec ctx n) v brk acc up (t :: (x ++ m'))) := by
  unfold setIter
  dsimp only
  refine L.ite Iff.rfl (fun _ => L.stop (x := t :: x)) fun _ => ?_
  refine L.ite Iff.rfl (fun _ => H _ _ _ trivial) fun _ => ?_
  refine L.ite Iff.rfl (fun _ => H _ _ _ trivial) fun _ => ?_
  refine L.ite Iff.rfl (fun _ => ?_) fun _ => ?_
  · refine L.bind (x := t :: x) (H _ true (t :: x) rfl) (fun r h => suf hc h) ?_ ?_
    · intro r s h
      obtain ⟨sub, rest⟩ := r
      simp only at h
      split at h
      · simp at h
      · split at h
        · exact suf hc h
        · simp at h
    · intro nd y _ _ hy
      cases y with
      | nil => exact absurd rfl hy
      | cons u y =>
        refine L.ite (by simp) (fun _ => L.error) fun _ => ?_
        exact L.ite (by simp only [List.length_append, List.length_cons]; omega) (fun _ => H _ _ (u :: y) trivial) fun _ => L.error
  · refine L.ite Iff.rfl (fun _ => ?_) fun _ => ?_
    · exact must_loc hc H (fun sub => .setLoop v brk (acc ++ [sub])) trivial (fun _ _ => trivial)
    · refine L.bind (x := t :: x) (H _ true (t :: x) trivial) (fun r h => suf hc h) ?_ ?_
      · intro r s h
        obtain ⟨sub, rest⟩ := r
        simp only at h
        repeat' split at h
        all_goals first
          | exact suf hc h
          | simp at h
      · intro nd y _ _ _
        cases v with
        | none =>
          refine L.ite Iff.rfl (fun _ => ?_) fun _ => L.error
          exact L.ite (by simp only [List.length_append, List.length_cons]; omega) (fun _ => H _ _ _ trivial) fun _ => L.error
        | some name => exact L.ite (by simp only [List.length_append, List.length_cons]; omega) (fun _ => H _ _ _ trivial) fun _ => L.error

theorem emptyIter_loc (brk : List Breaker) (acc : List Node) (up : Bool) (t : Token) (x : List Token) :
    L m m' (emptyIter (exec ctx n) brk acc up (t :: (x ++ m))) (emptyIter (exec ctx n) brk acc up (t :: (x ++ m'))) := by
  unfold emptyIter
  dsimp only
  refine L.ite Iff.rfl (fun _ => L.stop (x := t :: x)) fun _ => ?_
  refine L.ite Iff.rfl (fun _ => H _ _ _ trivial) fun _ => ?_
  refine L.ite Iff.rfl (fun _ => H _ _ _ trivial) fun _ => ?_
  exact must_loc hc H (fun sub => .emptyLoop brk (acc ++ [sub])) trivial (fun _ _ => trivial)

theorem foreachStd_loc (brk : List Breaker) (up : Bool) (x : List Token) (hx : HasSem x) :
    L m m' (foreachStdStart (exec ctx n) brk up (x ++ m)) (foreachStdStart (exec ctx n) brk up (x ++ m')) := by
  have e1 := ws_cut (x := x) (m := m) (Or.inl hx)
  have e2 := ws_cut (x := x) (m := m') (Or.inl hx)
  have hm : ∀ (A : R) ts r, must A ts = .ok r → A = .ok r := by
    intro A ts r h
    cases A with
    | error _ => exact absurd h (by simp [must, Bind.bind, Except.bind])
    | ok s =>
      simp only [must, Bind.bind, Except.bind] at h
      split at h
      · exact h
      · simp at h
  unfold foreachStdStart
  dsimp only
  rw [e1.1, e1.2, e2.1, e2.2]
  have last : ∀ (nd : Node) (r s : Node × List Token),
      (match r with | (sub2, rest2) => (pure (mk .argGroup (leaves (x.takeWhile isWs) ++ [nd, sub2]), rest2) : R)) = .ok s →
      s.2 <:+ r.2 := by
    intro nd r s h
    obtain ⟨sub, rest⟩ := r
    simp only [Pure.pure, Except.pure, Except.ok.injEq] at h
    rw [← h]; exact List.suffix_refl _
  refine L.must (x := x.dropWhile isWs) (H _ up _ trivial) (fun r h => suf hc h) ?_ ?_
  · intro r s h
    obtain ⟨sub, rest⟩ := r
    exact bind_suf hc (fun r h => suf hc (hm _ _ _ h)) (last sub) s h
  · intro nd y _ _ _
    refine L.must (x := y) (H _ up _ trivial) (fun r h => suf hc h) (last nd) ?_
    intro nd2 z _ _ _
    exact L.stop'

theorem foreachInStart_loc (brk : List Breaker) (up : Bool) (x : List Token) (hx : HasSem x) :
    L m m' (foreachInStart (exec ctx n) brk up (x ++ m)) (foreachInStart (exec ctx n) brk up (x ++ m')) :=
  drop_must_loc hc H (fun ws sub => .foreachInLoop brk (leaves ws ++ [sub])) (fun _ => trivial) (fun _ _ _ => trivial) hx

theorem foreachInIter_loc (brk : List Breaker) (acc : List Node) (up : Bool) (t : Token) (x : List Token) :
    L m m' (foreachInIter (exec ctx n) brk acc up (t :: (x ++ m))) (foreachInIter (exec ctx n) brk acc up (t :: (x ++ m'))) := by
  unfold foreachInIter
  dsimp only
  refine L.ite Iff.rfl (fun _ => L.stop (x := t :: x)) fun _ => ?_
  refine L.ite Iff.rfl (fun _ => H _ _ _ trivial) fun _ => ?_
  refine L.ite Iff.rfl (fun _ => H _ _ _ trivial) fun _ => ?_
  refine L.ite Iff.rfl (fun _ => ?_) fun _ => ?_
  · exact must_loc hc H (fun sub => .foreachInLoop brk (acc ++ [sub])) rfl (fun _ _ => trivial)
  · exact must_loc hc H (fun sub => .foreachInLoop brk (acc ++ [sub])) trivial (fun _ _ => trivial)

theorem srcIter_loc (lib : Bool) (brk : List Breaker) (state : Nat) (sortable srcSortable inAfter : Bool)
    (before parg src after : List Node) (up : Bool) (t : Token) (x : List Token) :
    L m m' (srcIter ctx (exec ctx n) lib brk state sortable srcSortable inAfter before parg src after up (t :: (x ++ m)))
      (srcIter ctx (exec ctx n) lib brk state sortable srcSortable inAfter before parg src after up (t :: (x ++ m'))) := by
  unfold srcIter
  dsimp only
  refine L.ite Iff.rfl (fun _ => L.stop (x := t :: x)) fun _ => ?_
  have put : ∀ (so : Bool) (nd : Node), L m m'
      (if state ≤ 1 then exec ctx n (.srcLoop lib brk state so srcSortable inAfter (before ++ [nd]) parg src after) up (x ++ m)
        else if inAfter = true then exec ctx n (.srcLoop lib brk state so srcSortable inAfter before parg src (after ++ [nd])) up (x ++ m)
        else if state < lastState lib then exec ctx n (.srcLoop lib brk state so srcSortable inAfter before (parg ++ [nd]) src after) up (x ++ m)
        else exec ctx n (.srcLoop lib brk state so srcSortable inAfter before parg (src ++ [nd]) after) up (x ++ m))
      (if state ≤ 1 then exec ctx n (.srcLoop lib brk state so srcSortable inAfter (before ++ [nd]) parg src after) up (x ++ m')
        else if inAfter = true then exec ctx n (.srcLoop lib brk state so srcSortable inAfter before parg src (after ++ [nd])) up (x ++ m')
        else if state < lastState lib then exec ctx n (.srcLoop lib brk state so srcSortable inAfter before (parg ++ [nd]) src after) up (x ++ m')
        else exec ctx n (.srcLoop lib brk state so srcSortable inAfter before parg (src ++ [nd]) after) up (x ++ m')) := by
    intro so nd
    refine L.ite Iff.rfl (fun _ => H _ _ _ trivial) fun _ => ?_
    refine L.ite Iff.rfl (fun _ => H _ _ _ trivial) fun _ => ?_
    refine L.ite Iff.rfl (fun _ => H _ _ _ trivial) fun _ => ?_
    exact H _ _ _ trivial
  refine L.ite Iff.rfl (fun _ => put _ _) fun _ => ?_
  refine L.ite Iff.rfl (fun _ => put _ _) fun _ => ?_
  refine L.ite Iff.rfl (fun _ => ?_) fun _ => ?_
  · exact word_loc hc H (fun tr => .srcLoop lib brk 2 sortable srcSortable inAfter before [mk .argument (.tok t :: tr)] src after)
      up x fun _ _ => trivial
  · refine L.ite Iff.rfl (fun _ => ?_) fun _ => ?_
    · refine L.ite Iff.rfl (fun _ => ?_) fun _ => ?_
      · exact word_loc hc H (fun tr => .srcLoop lib brk _ sortable _ inAfter before (parg ++ [mk .flag (.tok t :: tr)]) src after)
          up x fun _ _ => trivial
      · exact H _ _ (t :: x) trivial
    · refine L.sem (x := x) (fun r h => (suf hc h).trans (trailing_suffix ctx _)) fun hs => ?_
      rw [consumeTrailing_cut ctx (Or.inl hs), consumeTrailing_cut ctx (Or.inl hs)]
      refine L.sem (x := (consumeTrailing ctx x).2) (fun r h => suf hc h) fun hs2 => ?_
      simp only [onlyComments_cut brk hs2]
      exact H _ _ _ trivial

theorem objStart_loc (brk : List Breaker) (up : Bool) (x : List Token) (hx : HasSem x) :
    L m m' (objStart (exec ctx n) brk up (x ++ m)) (objStart (exec ctx n) brk up (x ++ m')) :=
  drop_must_loc hc H (fun ws sub => .objLoop brk (leaves ws ++ [sub])) (fun _ => trivial) (fun _ _ _ => trivial) hx

theorem objIter_loc (brk : List Breaker) (acc : List Node) (up : Bool) (t : Token) (x : List Token) :
    L m m' (objIter (exec ctx n) brk acc up (t :: (x ++ m))) (objIter (exec ctx n) brk acc up (t :: (x ++ m'))) := by
  unfold objIter
  dsimp only
  refine L.ite Iff.rfl (fun _ => L.stop (x := t :: x)) fun _ => ?_
  refine L.ite Iff.rfl (fun _ => H _ _ _ trivial) fun _ => ?_
  refine L.ite Iff.rfl (fun _ => H _ _ _ trivial) fun _ => ?_
  exact must_loc hc H (fun sub => .objLoop brk (acc ++ [sub])) trivial (fun _ _ => trivial)

omit hc H in
theorem target_simple : ∀ kp ∈ targetKwargs, kp.2.simple true = true := by
  intro kp h
  simp only [targetKwargs, List.mem_cons, List.not_mem_nil, or_false] at h
  rcases h with rfl | rfl | rfl | rfl | rfl | rfl | rfl <;> rfl

omit hc H in
theorem install_simple : ∀ kp ∈ installKwargs, kp.2.simple true = true := by
  intro kp h
  simp only [installKwargs, List.mem_cons, List.not_mem_nil, or_false] at h
  rcases h with rfl | rfl | rfl | rfl | rfl | rfl | rfl | rfl <;> rfl

theorem targetIter_loc (state : Nat) (brk : List Breaker) (acc : List Node) (up : Bool) (t : Token) (x : List Token) :
    L m m' (targetIter (exec ctx n) state brk acc up (t :: (x ++ m))) (targetIter (exec ctx n) state brk acc up (t :: (x ++ m'))) := by
  unfold targetIter
  dsimp only
  refine L.ite Iff.rfl (fun _ => L.stop (x := t :: x)) fun _ => ?_
  refine L.ite Iff.rfl (fun _ => H _ _ _ trivial) fun _ => ?_
  refine L.ite Iff.rfl (fun _ => H _ _ _ trivial) fun _ => ?_
  refine L.ite Iff.rfl (fun _ => ?_) fun _ => ?_
  · refine L.sem (x := x) ?_ fun hs => ?_
    · intro r h
      generalize hA : exec ctx n _ up (t :: (x ++ m)) = A at h
      cases A with
      | error _ => exact absurd h (by simp [must, Bind.bind, Except.bind])
      | ok q =>
        have hq := suf hc hA
        simp only [must, Bind.bind, Except.bind] at h
        split at h
        · simp at h
        · rename_i v hv
          split at hv
          · rename_i hlt
            simp only [Pure.pure, Except.pure, Except.ok.injEq] at hv
            rw [← hv] at h
            refine (suf hc h).trans ?_
            rcases List.suffix_cons_iff.1 hq with e | e
            · rw [e] at hlt; simp at hlt
            · exact e
          · simp at hv
    · rw [head_cut hs, head_cut hs]
      exact must_loc hc H (fun sub => .targetLoop 1 brk (acc ++ [sub])) trivial (fun _ _ => trivial)
  · refine L.ite Iff.rfl (fun _ => ?_) fun _ => ?_
    · refine L.ite Iff.rfl (fun _ => H _ _ (t :: x) trivial) fun _ => ?_
      exact must_loc hc H (fun sub => .targetLoop 2 brk (acc ++ [sub])) trivial (fun _ _ => trivial)
    · refine L.ite Iff.rfl (fun _ => ?_) fun _ => ?_
      · exact must_loc hc H (fun sub => .targetLoop 2 brk (acc ++ [sub])) trivial (fun _ _ => trivial)
      · cases e : (normKwarg t).bind (fun w => (targetKwargs.lookup w).map (fun p => (w, p))) with
        | some wp =>
          obtain ⟨w, p⟩ := wp
          have hp : p.simple true = true := by
            simp only [Option.bind_eq_some_iff, Option.map_eq_some_iff, Prod.mk.injEq] at e
            obtain ⟨w', _, p', h2, rfl, rfl⟩ := e
            exact target_simple _ (lookup_pair_mem h2)
          exact must_loc hc H (fun sub => .targetLoop 2 brk (acc ++ [sub])) hp (fun _ _ => trivial)
        | none => exact must_loc hc H (fun sub => .targetLoop 2 brk (acc ++ [sub])) trivial (fun _ _ => trivial)

theorem fileWrite_loc (brk : List Breaker) (up : Bool) (x : List Token) (hx : HasSem x) :
    L m m' (fileWriteStart (exec ctx n) brk up (x ++ m)) (fileWriteStart (exec ctx n) brk up (x ++ m')) := by
  unfold fileWriteStart
  dsimp only
  rw [wsComments_cut hx, wsComments_cut hx]
  have last : ∀ (a : List Node) (r s : Node × List Token),
      (match r with | (sub2, rest2) => (pure (mk .argGroup (a ++ [sub2]), rest2) : R)) = .ok s → s.2 <:+ r.2 := by
    intro a r s h
    obtain ⟨sub, rest⟩ := r
    simp only [Pure.pure, Except.pure, Except.ok.injEq] at h
    rw [← h]; exact List.suffix_refl _
  refine L.bind (x := (wsComments x.length x).2) (H _ up _ trivial) (fun r h => suf hc h) ?_ ?_
  · intro r s h
    obtain ⟨sub, rest⟩ := r
    exact bind_suf hc (fun r h => (suf hc h).trans (wsComments_suffix _ _)) (last _) s h
  · intro nd y _ _ hy
    simp only
    rw [wsComments_cut hy, wsComments_cut hy]
    refine L.bind (x := (wsComments y.length y).2) (H _ up _ trivial) (fun r h => suf hc h) (last _) ?_
    intro nd2 z _ _ _
    exact L.stop'

theorem installIter_loc (brk : List Breaker) (acc : List Node) (up : Bool) (t : Token) (x : List Token) :
    L m m' (installIter (exec ctx n) brk acc up (t :: (x ++ m))) (installIter (exec ctx n) brk acc up (t :: (x ++ m'))) := by
  unfold installIter
  dsimp only
  refine L.ite Iff.rfl (fun _ => L.stop (x := t :: x)) fun _ => ?_
  refine L.ite Iff.rfl (fun _ => H _ _ _ trivial) fun _ => ?_
  refine L.ite Iff.rfl (fun _ => H _ _ _ trivial) fun _ => ?_
  refine L.ite Iff.rfl (fun _ => ?_) fun _ => ?_
  · exact must_loc hc H (fun sub => .installLoop brk (acc ++ [sub])) rfl (fun _ _ => trivial)
  · cases e : (normKwarg t).bind (fun w => (installKwargs.lookup w).map (fun p => (w, p))) with
    | some wp =>
      obtain ⟨w, p⟩ := wp
      have hp : p.simple true = true := by
        simp only [Option.bind_eq_some_iff, Option.map_eq_some_iff, Prod.mk.injEq] at e
        obtain ⟨w', _, p', h2, rfl, rfl⟩ := e
        exact install_simple _ (lookup_pair_mem h2)
      exact must_loc hc H (fun sub => .installLoop brk (acc ++ [sub])) hp (fun _ _ => trivial)
    | none => exact must_loc hc H (fun sub => .installLoop brk (acc ++ [sub])) trivial (fun _ _ => trivial)

theorem argStart_loc (p : ArgP) (brk : List Breaker) (up : Bool) (x : List Token) (hx : HasSem x)
    (hp : p.choice true = true ∨
      ∃ f, p = .choose f ∧ f (x ++ m) = f (x ++ m') ∧ ∀ q, f (x ++ m) = .ok q → q.choice true = true) :
    L m m' (argStart (exec ctx n) p brk up (x ++ m)) (argStart (exec ctx n) p brk up (x ++ m')) := by
  have e1 := ws_cut (x := x) (m := m) (Or.inl hx)
  have e2 := ws_cut (x := x) (m := m') (Or.inl hx)
  cases p <;> simp only [argStart]
  case standard cmd specs kwargs =>
    rcases hp with hp | ⟨f, h, _⟩
    · exact stdStart_loc hc H _ _ _ _ _ _ hx (by simpa [ArgP.choice, ArgP.simple] using hp)
    · simp at h
  case positional => exact H _ _ _ trivial
  case conditional => rw [e1.1, e1.2, e2.1, e2.2]; exact H _ _ _ trivial
  case tuple => exact H _ _ _ trivial
  case shell =>
    refine L.bind (x := x) (H _ _ _ (Or.inl rfl)) (fun r h => suf hc h) ?_ ?_
    · intro r s h
      obtain ⟨sub, rest⟩ := r
      simp only [Pure.pure, Except.pure, Except.ok.injEq] at h
      rw [← h]; exact List.suffix_refl _
    · intro nd y _ _ _; exact L.stop'
  case null => exact L.stop
  case setFn => exact setStart_loc hc H _ _ _ hx
  case emptyFn => exact H _ _ _ trivial
  case foreachStandard => exact foreachStd_loc hc H _ _ _ hx
  case foreachIn => exact foreachInStart_loc hc H _ _ _ hx
  case addSources => rw [e1.1, e1.2, e2.1, e2.2]; exact H _ _ _ trivial
  case addLibraryObject => exact objStart_loc hc H _ _ _ hx
  case customTarget => rw [e1.1, e1.2, e2.1, e2.2]; exact H _ _ _ trivial
  case fileWrite => exact fileWrite_loc hc H _ _ _ hx
  case installTargets => rw [e1.1, e1.2, e2.1, e2.2]; exact H _ _ _ trivial
  case choose f =>
    rcases hp with hp | ⟨g, h, h1, h2⟩
    · simp [ArgP.choice, ArgP.simple] at hp
    · simp only [ArgP.choose.injEq] at h
      subst h
      rw [← h1]
      cases e : f (x ++ m) with
      | error _ => exact L.error
      | ok q => exact H _ _ _ (Or.inl (h2 q e))
end

section
variable {ctx : Ctx} (hc : ∀ name, Flat (lookupParser ctx name)) {m m' : List Token}
include hc

/-- The jobs that read arguments do not depend on what follows the next token with a meaning. -/
theorem args_loc (n : Nat) : ∀ job up x, JobLoc m m' job x →
    L m m' (exec ctx n job up (x ++ m)) (exec ctx n job up (x ++ m')) := by
  induction n with
  | zero => intro job up x _; exact L.error
  | succ n H =>
    intro job up x hj
    refine L.sem (x := x) (fun r h => suf hc h) fun hx => ?_
    show L m m' (step ctx (exec ctx n) job up (x ++ m)) (step ctx (exec ctx n) job up (x ++ m'))
    cases x with
    | nil => exact absurd rfl hx
    | cons t x =>
      cases job <;> simp only [step]
      case arg p brk => exact argStart_loc hc H _ _ _ _ hx hj
      case stdLoop => exact stdIter_loc hc H _ _ _ _ _ _ _ _ _ _ hx hj
      case pos => exact posStart_loc hc H _ _ _ _ hx
      case posLoop => exact posIter_loc hc H _ _ _ _ _ _ _ _ hx
      case kwGroup => exact kwIter_loc hc H _ _ _ _ _ hj
      case paren => exact parenIter_loc hc H _ _
      case condLoop => exact condIter_loc hc H _ _ _ _ _
      case tupleLoop => exact tupleIter_loc hc H _ _ _ _ _ _ _ _ _ _ _ _
      case flagLoop => exact flagIter_loc hc H _ _ _ _ _ _
      case setLoop => exact setIter_loc hc H _ _ _ _ _ _
      case emptyLoop => exact emptyIter_loc hc H _ _ _ _ _
      case foreachInLoop => exact foreachInIter_loc hc H _ _ _ _ _
      case srcLoop => exact srcIter_loc hc H _ _ _ _ _ _ _ _ _ _ _ _ _
      case objLoop => exact objIter_loc hc H _ _ _ _ _
      case targetLoop => exact targetIter_loc hc H _ _ _ _ _ _
      case installLoop => exact installIter_loc hc H _ _ _ _ _
      all_goals exact absurd hj id
end
end Verif.Parse
