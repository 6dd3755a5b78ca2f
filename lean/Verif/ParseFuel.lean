import Verif.ParseLemmas

/-!
# Progress and termination of every job of the parser (lemmas for C08)

Each job leaves a suffix of its tokens; some jobs always take a token.  Calls either work
on fewer tokens or are of lower `rank`, so that a depth linear in the number of
tokens suffices.
-/

namespace Verif.Parse
open Verif Py Lex

/-- A result satisfies `P`; `F` if the fuel ran out. -/
def Sat (P : Node × List Token → Prop) (F : Prop) : R → Prop
  | .ok r => P r
  | .error e => e = .fuel → F

section
variable {P Q : Node × List Token → Prop} {F G : Prop}

theorem Sat.ok {r : Node × List Token} (h : P r) : Sat P F (.ok r) := h
theorem Sat.pure {r : Node × List Token} (h : P r) : Sat P F (Pure.pure r : R) := h
theorem Sat.error {e : Err} (h : e ≠ .fuel) : Sat P F (.error e) := fun he => absurd he h
theorem Sat.imp {x : R} (h : Sat P F x) (hp : ∀ r, P r → Q r) (hf : F → G) : Sat Q G x := by
  cases x with
  | ok r => exact hp r h
  | error e => exact fun he => hf (h he)
theorem Sat.bind {x : R} {f : Node × List Token → R} (h : Sat P F x)
    (hf : ∀ r, P r → Sat Q F (f r)) : Sat Q F (x >>= f) := by
  cases x with
  | ok r => exact hf r h
  | error e => exact h
theorem Sat.bind' {α : Type} {x : Except Err α} {f : α → R} (hx : x ≠ .error .fuel)
    (hf : ∀ a, x = .ok a → Sat Q F (f a)) : Sat Q F (x >>= f) := by
  cases x with
  | ok r => exact hf r rfl
  | error e => intro he; subst he; exact absurd rfl hx
theorem Sat.must {x : R} {ts : List Token} (h : Sat P F x) :
    Sat (fun r => P r ∧ r.2.length < ts.length) F (must x ts) := by
  simp only [Parse.must]
  refine Sat.bind h fun r hr => ?_
  split
  · exact Sat.pure ⟨hr, by assumption⟩
  · exact Sat.error (by simp)
end

/-- Neither `standard` nor `choose`. -/
def ArgP.basic : ArgP → Bool
  | .standard .. => false
  | .choose _ => false
  | _ => true

/-- A dispatcher. -/
def ArgP.isChoose : ArgP → Bool
  | .choose _ => true
  | _ => false

/-- Dispatchers do not return dispatchers. -/
inductive Flat : ArgP → Prop
  | basic (p : ArgP) : p.basic = true → Flat p
  | standard (cmd : Option CmdInfo) (specs : List PSpec) (kwargs : List (Str × ArgP)) :
      (∀ kp ∈ kwargs, Flat kp.2) → Flat (.standard cmd specs kwargs)
  | choose (f : List Token → Except Err ArgP) :
      (∀ ts q, f ts = .ok q → Flat q) → (∀ ts q, f ts = .ok q → q.isChoose = false) →
      (∀ ts, f ts ≠ .error .fuel) → Flat (.choose f)

/-- Only word tokens are spelled AND or OR, in any case. -/
def AndOr (ts : List Token) : Prop :=
  ∀ t ∈ ts, t.type ≠ .word → upper t.spelling ≠ S "AND" ∧ upper t.spelling ≠ S "OR"

theorem AndOr.suffix {a b : List Token} (h : AndOr b) (s : a <:+ b) : AndOr a :=
  fun t ht => h t (s.subset ht)

/-- The parsers a job may call are flat. -/
def JobFlat : Job → Prop
  | .arg p _ => Flat p
  | .stdLoop _ _ _ kwargs _ _ _ => ∀ kp ∈ kwargs, Flat kp.2
  | .kwGroup _ p _ => Flat p
  | _ => True

/-- The order in which jobs call each other on the same tokens. -/
def rank : Job → Nat
  | .arg (.choose _) _ => 8
  | .arg .shell _ => 7
  | .arg _ _ => 6
  | .stdLoop .. => 3
  | .pos .. => 2
  | .posLoop .. => 1
  | .kwGroup .. => 0
  | .paren => 0
  | .condLoop .. => 3
  | .tupleLoop .. => 3
  | .flagLoop .. => 1
  | .setLoop .. => 3
  | .emptyLoop .. => 3
  | .foreachInLoop .. => 3
  | .srcLoop _ _ state .. => 4 - state
  | .objLoop .. => 3
  | .targetLoop state .. => 3 + (2 - state)
  | .installLoop .. => 3
  | .statement => 0
  | .flow => 2
  | .ifLoop .. => 1
  | .body .. => 3

theorem rank_le (job : Job) : rank job ≤ 8 := by
  cases job with
  | arg p brk => cases p <;> simp [rank]
  | _ => simp [rank] <;> omega

/-- Depth that suffices for a job. -/
def need (job : Job) (ts : List Token) : Nat := 9 * ts.length + rank job + 1

/-- Jobs that take a token whenever they return. -/
def eats : Job → List Token → Prop
  | .kwGroup .., _ => True
  | .paren, _ => True
  | .statement, _ => True
  | .flow, _ => True
  | .ifLoop _, ts => ts ≠ []
  | .pos spec brk, t :: _ =>
    isWs t = false ∧ isAnyComment t = false ∧ shouldBreak t brk = false ∧
      pargsFull spec.nargs 0 = .ok false
  | .posLoop spec brk _ _ n, t :: _ =>
    isAnyComment t = false ∧ shouldBreak t brk = false ∧ pargsFull spec.nargs n = .ok false
  | _, _ => False

/-- What every job leaves. -/
def Post (job : Job) (ts : List Token) (r : Node × List Token) : Prop :=
  r.2 <:+ ts ∧ (eats job ts → r.2.length < ts.length)

/-- The fuel may run out. -/
def Fl (n : Nat) (job : Job) (ts : List Token) : Prop := n < need job ts ∨ ¬ (JobFlat job ∧ AndOr ts)

section
variable {ctx : Ctx} {rec : Rec} {n : Nat}
  (H : ∀ job up ts, Sat (Post job ts) (Fl n job ts) (rec job up ts))
include H

/-- A call with fewer tokens, whose result is the result. -/
theorem next_short {job job' : Job} {ts ts' : List Token} (up : Bool) (hs : ts' <:+ ts)
    (hl : ts'.length < ts.length) (hj : JobFlat job → JobFlat job') :
    Sat (Post job ts) (Fl (n + 1) job ts) (rec job' up ts') := by
  refine Sat.imp (H job' up ts') ?_ ?_
  · intro r hr
    exact ⟨hr.1.trans hs, fun _ => Nat.lt_of_le_of_lt hr.1.length_le hl⟩
  · intro hf
    have := rank_le job'
    rcases hf with hf | hf
    · left; simp only [need] at *; omega
    · right; intro h; exact hf ⟨hj h.1, h.2.suffix hs⟩

/-- A call of lower rank. -/
theorem call {job job' : Job} {ts ts' : List Token} (up : Bool) (hs : ts' <:+ ts)
    (hl : ts'.length < ts.length ∨ rank job' < rank job) (hj : JobFlat job → JobFlat job') :
    Sat (Post job' ts') (Fl (n + 1) job ts) (rec job' up ts') := by
  refine Sat.imp (H job' up ts') (fun r hr => hr) ?_
  intro hf
  have := rank_le job'
  have := hs.length_le
  rcases hf with hf | hf
  · left
    simp only [need] at *
    omega
  · right; intro h; exact hf ⟨hj h.1, h.2.suffix hs⟩

/-- A call of lower rank, whose result is the result. -/
theorem next_same {job job' : Job} {ts ts' : List Token} (up : Bool) (hs : ts' <:+ ts)
    (hl : rank job' < rank job) (hj : JobFlat job → JobFlat job')
    (he : eats job ts → ts'.length < ts.length ∨ eats job' ts') :
    Sat (Post job ts) (Fl (n + 1) job ts) (rec job' up ts') := by
  refine Sat.imp (call H up hs (Or.inr hl) hj) ?_ id
  intro r hr
  refine ⟨hr.1.trans hs, fun h => ?_⟩
  have h1 := hr.1.length_le
  have h2 := hs.length_le
  rcases he h with h' | h'
  · omega
  · have := hr.2 h'; omega

omit H
theorem trailing_suffix (ctx : Ctx) (ts : List Token) : (consumeTrailing ctx ts).2 <:+ ts :=
  ⟨_, consumeTrailing_splits ctx ts⟩

theorem comment_short (t : Token) (ts : List Token) (h : isAnyComment t = true) :
    (consumeComment t ts).2 <:+ t :: ts ∧ (consumeComment t ts).2.length < ts.length + 1 := by
  have e := consumeComment_splits t ts
  refine ⟨⟨_, e⟩, ?_⟩
  have h2 : 0 < (consumeComment t ts).1.toks.length := by
    simp only [consumeComment]
    split
    · simp
    · rename_i hn
      have hc : isComment t = true := by
        simp only [isAnyComment, isComment, Bool.or_eq_true, beq_iff_eq] at *
        rcases h with h | h
        · exact h
        · exact absurd (Or.inl h) hn
      simp only [toks_mk]
      rw [commentRun.eq_def]
      simp only [hc, aligned, Bool.and_self, if_true]
      split <;> try simp
      split <;> try simp
      split <;> try simp
      split <;> try simp
      split <;> simp
  have := congrArg List.length e
  simp only [List.length_append, List.length_cons] at this
  omega

theorem dropWs_suffix (ts : List Token) : ts.dropWhile isWs <:+ ts := List.dropWhile_suffix _

theorem pargsFull_nf (a : Nargs) (k : Nat) : pargsFull a k ≠ .error .fuel := by
  cases a with
  | int k => simp [pargsFull]
  | str s =>
    simp only [pargsFull]
    repeat' split
    all_goals simp

include H

theorem posStart_sat (spec : PSpec) (brk : List Breaker) (up : Bool) (ts : List Token) :
    Sat (Post (.pos spec brk) ts) (Fl (n + 1) (.pos spec brk) ts) (posStart rec spec brk up ts) := by
  simp only [posStart]
  refine next_same H up (dropWs_suffix ts) (by simp [rank]) (fun _ => trivial) ?_
  intro he
  cases ts with
  | nil => simp [eats] at he
  | cons t ts =>
    simp only [eats] at he
    right
    rw [List.dropWhile_cons_of_neg (by simp [he.1])]
    exact he.2

theorem posIter_sat (spec : PSpec) (brk : List Breaker) (sortable : Bool) (acc : List Node) (k : Nat)
    (up : Bool) (ts : List Token) :
    Sat (Post (.posLoop spec brk sortable acc k) ts) (Fl (n + 1) (.posLoop spec brk sortable acc k) ts)
      (posIter ctx rec spec brk sortable acc k up ts) := by
  cases ts with
  | nil => exact Sat.ok ⟨List.suffix_refl _, by simp [eats]⟩
  | cons t ts =>
    simp only [posIter]
    refine Sat.bind' (pargsFull_nf _ _) fun full hf => ?_
    split
    · rename_i h; subst h
      exact Sat.pure ⟨List.suffix_refl _, by simp [eats, hf]⟩
    · split
      · rename_i h
        exact Sat.pure ⟨List.suffix_refl _, by simp only [Bool.and_eq_true] at h; simp [eats, h.1]⟩
      · split
        · refine Sat.bind (call H _ (List.suffix_refl _) (Or.inr (by simp [rank])) (fun _ => trivial)) ?_
          intro r hr
          exact next_short H up hr.1 (hr.2 (by simp [eats])) (fun _ => trivial)
        · split
          · exact next_short H up (List.suffix_cons _ _) (by simp) (fun _ => trivial)
          · split
            · rename_i hc
              split
              · exact Sat.pure ⟨List.suffix_refl _, by simp [eats, hc]⟩
              · exact next_short H up (comment_short t ts hc).1 (comment_short t ts hc).2 (fun _ => trivial)
            · split
              · exact next_short H up (List.suffix_cons _ _) (by simp) (fun _ => trivial)
              · exact next_short H up ((trailing_suffix ctx ts).trans (List.suffix_cons _ _))
                  (Nat.lt_succ_of_le (trailing_suffix ctx ts).length_le) (fun _ => trivial)

omit H in
theorem lookup_mem {kwargs : List (Str × ArgP)} {t : Token} {w : Str} {p : ArgP}
    (h : (normKwarg t).bind (fun w => (kwargs.lookup w).map (fun p => (w, p))) = some (w, p)) :
    (w, p) ∈ kwargs ∧ normKwarg t = some w := by
  simp only [Option.bind_eq_some_iff, Option.map_eq_some_iff, Prod.mk.injEq] at h
  obtain ⟨w', hw, p', hp, rfl, rfl⟩ := h
  refine ⟨?_, hw⟩
  obtain ⟨a, b, he, _⟩ := List.lookup_eq_some_iff.1 hp
  rw [he]; simp

omit H in
theorem stop_sat {job : Job} {ts : List Token} {F : Prop} {x : Node} (h : ¬ eats job ts) :
    Sat (Post job ts) F (.ok (x, ts)) := Sat.ok ⟨List.suffix_refl _, fun e => absurd e h⟩

/-- The tail of the tokens. -/
theorem next_tail {job job' : Job} {t : Token} {ts : List Token} (up : Bool)
    (hj : JobFlat job → JobFlat job') :
    Sat (Post job (t :: ts)) (Fl (n + 1) job (t :: ts)) (rec job' up ts) :=
  next_short H up (List.suffix_cons _ _) (by simp) hj

/-- What is left after a comment. -/
theorem next_comment {job job' : Job} {t : Token} {ts : List Token} (up : Bool)
    (hc : isAnyComment t = true) (hj : JobFlat job → JobFlat job') :
    Sat (Post job (t :: ts)) (Fl (n + 1) job (t :: ts)) (rec job' up (consumeComment t ts).2) :=
  next_short H up (comment_short t ts hc).1 (comment_short t ts hc).2 hj

/-- What is left after a token and its trailing comment. -/
theorem next_trailing {job job' : Job} {t : Token} {ts : List Token} (up : Bool)
    (hj : JobFlat job → JobFlat job') :
    Sat (Post job (t :: ts)) (Fl (n + 1) job (t :: ts)) (rec job' up (consumeTrailing ctx ts).2) :=
  next_short H up ((trailing_suffix ctx ts).trans (List.suffix_cons _ _))
    (Nat.lt_succ_of_le (trailing_suffix ctx ts).length_le) hj

/-- A call that must take something, then the next job. -/
theorem must_next {job job' : Job} {ts : List Token} {up : Bool} {f : Node × List Token → R}
    (hl : rank job' < rank job) (hj : JobFlat job → JobFlat job')
    (hf : ∀ r, r.2 <:+ ts → r.2.length < ts.length →
      Sat (Post job ts) (Fl (n + 1) job ts) (f r)) :
    Sat (Post job ts) (Fl (n + 1) job ts) (must (rec job' up ts) ts >>= f) :=
  Sat.bind (Sat.must (call H up (List.suffix_refl _) (Or.inr hl) hj)) fun r hr => hf r hr.1.1 hr.2

/-- A call that takes something, then the next job. -/
theorem eat_next {job job' : Job} {ts : List Token} {up : Bool} {f : Node × List Token → R}
    (hl : rank job' < rank job) (hj : JobFlat job → JobFlat job') (he : eats job' ts)
    (hf : ∀ r, r.2 <:+ ts → r.2.length < ts.length →
      Sat (Post job ts) (Fl (n + 1) job ts) (f r)) :
    Sat (Post job ts) (Fl (n + 1) job ts) (rec job' up ts >>= f) :=
  Sat.bind (call H up (List.suffix_refl _) (Or.inr hl) hj) fun r hr => hf r hr.1 (hr.2 he)

theorem stdStart_sat (cmd : Option CmdInfo) (specs : List PSpec) (kwargs : List (Str × ArgP))
    (brk : List Breaker) (up : Bool) (ts : List Token) :
    Sat (Post (.arg (.standard cmd specs kwargs) brk) ts)
      (Fl (n + 1) (.arg (.standard cmd specs kwargs) brk) ts)
      (stdStart rec cmd specs kwargs brk up ts) := by
  simp only [stdStart]
  refine next_same H up (dropWs_suffix ts) (by simp [rank]) ?_ (by simp [eats])
  intro h
  cases h with
  | basic _ h => simp [ArgP.basic] at h
  | standard _ _ _ h => exact h

theorem stdIter_sat (cmd : Option CmdInfo) (specs : List PSpec) (dflt : PSpec)
    (kwargs : List (Str × ArgP)) (brk kbrk : List Breaker) (acc : List Node) (up : Bool)
    (ts : List Token) :
    Sat (Post (.stdLoop cmd specs dflt kwargs brk kbrk acc) ts)
      (Fl (n + 1) (.stdLoop cmd specs dflt kwargs brk kbrk acc) ts)
      (stdIter rec cmd specs dflt kwargs brk kbrk acc up ts) := by
  cases ts with
  | nil => exact stop_sat (by simp [eats])
  | cons t ts =>
    simp only [stdIter]
    split
    · exact next_tail H up id
    · split
      · rename_i hc
        split
        · exact stop_sat (by simp [eats])
        · exact next_comment H up hc id
      · split
        · exact next_tail H up id
        · split
          · exact stop_sat (by simp [eats])
          · split
            · rename_i w p hl
              refine Sat.bind (call H _ (List.suffix_refl _) (Or.inr (by simp [rank]))
                (fun h => h _ (lookup_mem hl).1)) ?_
              intro r hr
              split
              · exact Sat.error (by simp)
              · exact next_short H up hr.1 (hr.2 (by simp [eats])) id
            · refine Sat.bind (call H _ (List.suffix_refl _) (Or.inr (by simp [rank]))
                (fun h => trivial)) ?_
              intro r hr
              split
              · exact Sat.error (by simp)
              · exact next_short H up hr.1 (by omega) id

theorem kwIter_sat (word : Str) (p : ArgP) (brk : List Breaker) (ts : List Token) :
    Sat (Post (.kwGroup word p brk) ts) (Fl (n + 1) (.kwGroup word p brk) ts)
      (kwIter rec word p brk ts) := by
  cases ts with
  | nil => exact Sat.error (by simp)
  | cons t ts =>
    simp only [kwIter]
    split
    · exact Sat.error (by simp)
    · refine Sat.bind (call H _ ((dropWs_suffix ts).trans (List.suffix_cons _ _))
        (Or.inl (Nat.lt_succ_of_le (dropWs_suffix ts).length_le)) id) ?_
      intro r hr
      refine Sat.pure ⟨hr.1.trans ((dropWs_suffix ts).trans (List.suffix_cons _ _)), fun _ => ?_⟩
      exact Nat.lt_succ_of_le (hr.1.trans (dropWs_suffix ts)).length_le

theorem parenIter_sat (ts : List Token) :
    Sat (Post .paren ts) (Fl (n + 1) .paren ts) (parenIter ctx rec ts) := by
  cases ts with
  | nil => exact Sat.error (by simp)
  | cons t ts =>
    simp only [parenIter]
    split
    · exact Sat.error (by simp)
    · refine Sat.bind (call H _ (List.suffix_cons _ _) (Or.inl (by simp))
        (fun _ => Flat.basic _ rfl)) ?_
      intro r hr
      split
      · exact Sat.error (by simp)
      · rename_i q rest' he
        split
        · exact Sat.error (by simp)
        · have h1 : (consumeTrailing ctx rest').2 <:+ ts := by
            refine (trailing_suffix ctx rest').trans ((List.suffix_cons q rest').trans ?_)
            rw [← he]; exact hr.1
          exact Sat.pure ⟨h1.trans (List.suffix_cons _ _), fun _ => Nat.lt_succ_of_le h1.length_le⟩

omit H in
theorem andor_pos {t : Token} {brk : List Breaker} (h : AndOr [t]) (h1 : shouldBreak t brk = false)
    (h2 : kwargIn t [S "AND", S "OR"] = false) :
    shouldBreak t (brk ++ [kwBreaker [S "AND", S "OR"]]) = false := by
  simp only [shouldBreak, List.any_append, Bool.or_eq_false_iff] at *
  refine ⟨h1, ?_⟩
  have e1 : upper (S "AND") = S "AND" := by decide
  have e2 : upper (S "OR") = S "OR" := by decide
  simp only [kwBreaker, List.map_cons, List.map_nil, e1, e2, List.any_cons, List.any_nil,
    Breaker.fires, Bool.or_false]
  by_cases hw : t.type = .word
  · simpa [kwargIn, normKwarg, hw] using h2
  · have := h t (by simp) hw
    simp [this.1, this.2]

theorem condIter_sat (brk : List Breaker) (acc : List Node) (up : Bool) (ts : List Token) :
    Sat (Post (.condLoop brk acc) ts) (Fl (n + 1) (.condLoop brk acc) ts)
      (condIter rec brk acc up ts) := by
  cases ts with
  | nil => exact stop_sat (by simp [eats])
  | cons t ts =>
    simp only [condIter]
    split
    · exact stop_sat (by simp [eats])
    · rename_i hb
      split
      · exact next_tail H up id
      · rename_i hw
        split
        · exact next_tail H up id
        · rename_i hc
          split
          · exact next_tail H up id
          · split
            · refine eat_next H (by simp [rank]) (fun _ => trivial) (by simp [eats]) ?_
              intro r h1 h2
              exact next_short H up h1 h2 id
            · split
              · refine eat_next H (by simp [rank]) (fun _ => Flat.basic _ rfl) (by simp [eats]) ?_
                intro r h1 h2
                rw [if_pos h2]
                exact next_short H up h1 h2 id
              · rename_i hk
                refine Sat.bind (call H _ (List.suffix_refl _) (Or.inr (by simp [rank]))
                  (fun h => trivial)) ?_
                intro r hr
                refine Sat.imp (H _ up r.2) ?_ ?_
                · exact fun q hq => ⟨hq.1.trans hr.1, by simp [eats]⟩
                · intro hf
                  by_cases ha : AndOr (t :: ts)
                  · have he := hr.2 (by
                      simp only [eats]
                      refine ⟨by simpa using hw, by simpa using hc, ?_, by decide⟩
                      exact andor_pos (fun x hx => ha x (by
                        simp only [List.mem_singleton] at hx; simp [hx]))
                        (by simpa using hb) (by simpa using hk))
                    rcases hf with hf | hf
                    · left; simp only [need, rank] at *; omega
                    · right; exact fun h => hf ⟨trivial, h.2.suffix hr.1⟩
                  · right; exact fun h => ha h.2

theorem tupleIter_sat (npargs : Nargs) (ntup : Nat) (flags : List Str) (brk : List Breaker)
    (acc : List Node) (grp : Option (List Node)) (after : List Node) (np nt : Nat) (up : Bool)
    (ts : List Token) :
    Sat (Post (.tupleLoop npargs ntup flags brk acc grp after np nt) ts)
      (Fl (n + 1) (.tupleLoop npargs ntup flags brk acc grp after np nt) ts)
      (tupleIter ctx rec npargs ntup flags brk acc grp after np nt up ts) := by
  cases ts with
  | nil => exact stop_sat (by simp [eats])
  | cons t ts =>
    simp only [tupleIter]
    refine Sat.bind' (pargsFull_nf _ _) fun full hf => ?_
    split
    · exact stop_sat (by simp [eats])
    · split
      · exact stop_sat (by simp [eats])
      · split
        · exact next_tail H up id
        · split
          · exact next_tail H up id
          · cases ts with
            | nil => exact Sat.error (by simp)
            | cons u us =>
              simp only
              split
              · exact next_short H up ((List.suffix_cons _ _).trans (List.suffix_cons _ _)) (by simp; omega) id
              · split
                · split
                  · exact next_trailing H up id
                  · exact next_trailing H up id
                · split
                  · exact next_trailing H up id
                  · exact next_trailing H up id

theorem flagIter_sat (flags : List Str) (brk : List Breaker) (acc : List Node) (up : Bool)
    (ts : List Token) :
    Sat (Post (.flagLoop flags brk acc) ts) (Fl (n + 1) (.flagLoop flags brk acc) ts)
      (flagIter ctx rec flags brk acc up ts) := by
  cases ts with
  | nil => exact stop_sat (by simp [eats])
  | cons t ts =>
    simp only [flagIter]
    split
    · exact stop_sat (by simp [eats])
    · split
      · exact next_tail H up id
      · split
        · exact stop_sat (by simp [eats])
        · exact next_trailing H up id

/-- Skip blanks, call, go on; for the functions that start with a group of arguments. -/
theorem start_next {job job' : Job} {ts : List Token} {up : Bool} {f : Node × List Token → R}
    (hl : rank job' < rank job) (hj : JobFlat job → JobFlat job')
    (hf : ∀ r, r.2 <:+ ts → r.2.length < ts.length → Sat (Post job ts) (Fl (n + 1) job ts) (f r)) :
    Sat (Post job ts) (Fl (n + 1) job ts)
      (must (rec job' up (ts.dropWhile isWs)) (ts.dropWhile isWs) >>= f) := by
  refine Sat.bind (Sat.must (call H up (dropWs_suffix ts) (Or.inr hl) hj)) fun r hr => hf r ?_ ?_
  · exact hr.1.1.trans (dropWs_suffix ts)
  · exact Nat.lt_of_lt_of_le hr.2 (dropWs_suffix ts).length_le

theorem setStart_sat (brk : List Breaker) (up : Bool) (ts : List Token) :
    Sat (Post (.arg .setFn brk) ts) (Fl (n + 1) (.arg .setFn brk) ts) (setStart rec brk up ts) := by
  simp only [setStart]
  refine start_next H (by simp [rank]) (fun _ => trivial) ?_
  intro r h1 h2
  exact next_short H up h1 h2 (fun _ => trivial)

theorem setIter_sat (varname : Option Str) (brk : List Breaker) (acc : List Node) (up : Bool)
    (ts : List Token) :
    Sat (Post (.setLoop varname brk acc) ts) (Fl (n + 1) (.setLoop varname brk acc) ts)
      (setIter ctx rec varname brk acc up ts) := by
  cases ts with
  | nil => exact stop_sat (by simp [eats])
  | cons t ts =>
    simp only [setIter]
    split
    · exact stop_sat (by simp [eats])
    · split
      · exact next_tail H up id
      · split
        · exact next_tail H up id
        · split
          · refine eat_next H (by simp [rank]) (fun _ => Flat.basic _ rfl) (by simp [eats]) ?_
            intro r h1 h2
            split
            · exact Sat.error (by simp)
            · exact next_short H up h1 h2 id
          · split
            · refine must_next H (by simp [rank]) (fun _ => trivial) ?_
              intro r h1 h2
              exact next_short H up h1 h2 id
            · refine Sat.bind (call H _ (List.suffix_refl _) (Or.inr (by simp [rank]))
                  (fun h => trivial)) ?_
              intro r hr
              repeat' split
              · exact next_short H up hr.1 (by assumption) id
              · exact Sat.error (by simp)
              · exact Sat.error (by simp)
              · exact next_short H up hr.1 (by assumption) id
              · exact Sat.error (by simp)

theorem emptyIter_sat (brk : List Breaker) (acc : List Node) (up : Bool) (ts : List Token) :
    Sat (Post (.emptyLoop brk acc) ts) (Fl (n + 1) (.emptyLoop brk acc) ts)
      (emptyIter rec brk acc up ts) := by
  cases ts with
  | nil => exact stop_sat (by simp [eats])
  | cons t ts =>
    simp only [emptyIter]
    split
    · exact stop_sat (by simp [eats])
    · split
      · exact next_tail H up id
      · split
        · exact next_tail H up id
        · refine must_next H (by simp [rank]) (fun _ => trivial) ?_
          intro r h1 h2
          exact next_short H up h1 h2 id

theorem foreachStdStart_sat (brk : List Breaker) (up : Bool) (ts : List Token) :
    Sat (Post (.arg .foreachStandard brk) ts) (Fl (n + 1) (.arg .foreachStandard brk) ts)
      (foreachStdStart rec brk up ts) := by
  simp only [foreachStdStart]
  refine start_next H (by simp [rank]) (fun _ => trivial) ?_
  intro r h1 h2
  refine Sat.bind (Sat.must (call H up h1 (Or.inl h2) (fun _ => trivial))) ?_
  intro q hq
  exact Sat.pure ⟨hq.1.1.trans h1, by simp [eats]⟩

theorem foreachInStart_sat (brk : List Breaker) (up : Bool) (ts : List Token) :
    Sat (Post (.arg .foreachIn brk) ts) (Fl (n + 1) (.arg .foreachIn brk) ts)
      (foreachInStart rec brk up ts) := by
  simp only [foreachInStart]
  refine start_next H (by simp [rank]) (fun _ => trivial) ?_
  intro r h1 h2
  exact next_short H up h1 h2 (fun _ => trivial)

theorem foreachInIter_sat (brk : List Breaker) (acc : List Node) (up : Bool) (ts : List Token) :
    Sat (Post (.foreachInLoop brk acc) ts) (Fl (n + 1) (.foreachInLoop brk acc) ts)
      (foreachInIter rec brk acc up ts) := by
  cases ts with
  | nil => exact stop_sat (by simp [eats])
  | cons t ts =>
    simp only [foreachInIter]
    split
    · exact stop_sat (by simp [eats])
    · split
      · exact next_tail H up id
      · split
        · exact next_tail H up id
        · split
          · refine must_next H (by simp [rank]) (fun _ => Flat.basic _ rfl) ?_
            intro r h1 h2
            exact next_short H up h1 h2 id
          · refine must_next H (by simp [rank]) (fun _ => trivial) ?_
            intro r h1 h2
            exact next_short H up h1 h2 id

theorem srcIter_sat (lib : Bool) (brk : List Breaker) (state : Nat) (sortable srcSortable inAfter : Bool)
    (before parg src after : List Node) (up : Bool) (ts : List Token) :
    Sat (Post (.srcLoop lib brk state sortable srcSortable inAfter before parg src after) ts)
      (Fl (n + 1) (.srcLoop lib brk state sortable srcSortable inAfter before parg src after) ts)
      (srcIter ctx rec lib brk state sortable srcSortable inAfter before parg src after up ts) := by
  cases ts with
  | nil => exact stop_sat (by simp [eats])
  | cons t ts =>
    simp only [srcIter]
    split
    · exact stop_sat (by simp [eats])
    · split
      · repeat' split
        all_goals exact next_tail H up id
      · split
        · repeat' split
          all_goals exact next_tail H up id
        · split
          · exact next_trailing H up id
          · split
            · rename_i hlast
              generalize (if lib = true then (if state = 2 then [S "STATIC", S "SHARED", S "MODULE", S "OBJECT"]
                  else [S "EXCLUDE_FROM_ALL"]) else [S "WIN32", S "MACOSX_BUNDLE", S "EXCLUDE_FROM_ALL"]) = fl
              have hl : lastState lib ≤ 4 := by cases lib <;> simp [lastState]
              split
              · exact next_trailing H up id
              · exact next_same H up (List.suffix_refl _) (by simp only [rank]; omega) id (by simp [eats])
            · exact next_trailing H up id

theorem objStart_sat (brk : List Breaker) (up : Bool) (ts : List Token) :
    Sat (Post (.arg .addLibraryObject brk) ts) (Fl (n + 1) (.arg .addLibraryObject brk) ts)
      (objStart rec brk up ts) := by
  simp only [objStart]
  refine start_next H (by simp [rank]) (fun _ => trivial) ?_
  intro r h1 h2
  exact next_short H up h1 h2 (fun _ => trivial)

theorem objIter_sat (brk : List Breaker) (acc : List Node) (up : Bool) (ts : List Token) :
    Sat (Post (.objLoop brk acc) ts) (Fl (n + 1) (.objLoop brk acc) ts)
      (objIter rec brk acc up ts) := by
  cases ts with
  | nil => exact stop_sat (by simp [eats])
  | cons t ts =>
    simp only [objIter]
    split
    · exact stop_sat (by simp [eats])
    · split
      · exact next_tail H up id
      · split
        · exact next_tail H up id
        · refine must_next H (by simp [rank]) (fun _ => trivial) ?_
          intro r h1 h2
          exact next_short H up h1 h2 id

omit H in
theorem targetKwargs_flat : ∀ kp ∈ targetKwargs, Flat kp.2 := by
  intro kp h
  have : ∀ kp ∈ targetKwargs, kp.2.basic = true := by
    intro kp h
    simp only [targetKwargs, List.mem_cons, List.not_mem_nil, or_false] at h
    rcases h with rfl | rfl | rfl | rfl | rfl | rfl | rfl <;> rfl
  exact Flat.basic _ (this kp h)

omit H in
theorem installKwargs_flat : ∀ kp ∈ installKwargs, Flat kp.2 := by
  intro kp h
  have : ∀ kp ∈ installKwargs, kp.2.basic = true := by
    intro kp h
    simp only [installKwargs, List.mem_cons, List.not_mem_nil, or_false] at h
    rcases h with rfl | rfl | rfl | rfl | rfl | rfl | rfl | rfl <;> rfl
  exact Flat.basic _ (this kp h)

theorem targetIter_sat (state : Nat) (brk : List Breaker) (acc : List Node) (up : Bool)
    (ts : List Token) :
    Sat (Post (.targetLoop state brk acc) ts) (Fl (n + 1) (.targetLoop state brk acc) ts)
      (targetIter rec state brk acc up ts) := by
  cases ts with
  | nil => exact stop_sat (by simp [eats])
  | cons t ts =>
    simp only [targetIter]
    split
    · exact stop_sat (by simp [eats])
    · split
      · exact next_tail H up id
      · split
        · exact next_tail H up id
        · split
          · refine must_next H (by simp only [rank]; omega) (fun _ => trivial) ?_
            intro r h1 h2
            exact next_short H up h1 h2 id
          · split
            · rename_i hs; subst hs
              split
              · exact next_same H up (List.suffix_refl _) (by simp [rank]) id (by simp [eats])
              · refine must_next H (by simp only [rank]; omega) (fun _ => trivial) ?_
                intro r h1 h2
                exact next_short H up h1 h2 id
            · split
              · refine must_next H (by simp only [rank]; omega) (fun _ => trivial) ?_
                intro r h1 h2
                exact next_short H up h1 h2 id
              · split
                · rename_i w p hl
                  refine must_next H (by simp only [rank]; omega) (fun _ => targetKwargs_flat _ (lookup_mem hl).1) ?_
                  intro r h1 h2
                  exact next_short H up h1 h2 id
                · refine must_next H (by simp only [rank]; omega) (fun _ => trivial) ?_
                  intro r h1 h2
                  exact next_short H up h1 h2 id

omit H in
theorem wsComments_suffix (k : Nat) (ts : List Token) : (wsComments k ts).2 <:+ ts :=
  ⟨_, wsComments_splits k ts⟩

theorem fileWriteStart_sat (brk : List Breaker) (up : Bool) (ts : List Token) :
    Sat (Post (.arg .fileWrite brk) ts) (Fl (n + 1) (.arg .fileWrite brk) ts)
      (fileWriteStart rec brk up ts) := by
  simp only [fileWriteStart]
  refine Sat.bind (call H up (wsComments_suffix _ ts) (Or.inr (by simp [rank])) (fun _ => trivial)) ?_
  intro r hr
  have h1 := hr.1.trans (wsComments_suffix _ ts)
  refine Sat.bind (call H up ((wsComments_suffix _ _).trans h1) (Or.inr (by simp [rank]))
    (fun _ => trivial)) ?_
  intro q hq
  exact Sat.pure ⟨hq.1.trans ((wsComments_suffix _ _).trans h1), by simp [eats]⟩

theorem installIter_sat (brk : List Breaker) (acc : List Node) (up : Bool) (ts : List Token) :
    Sat (Post (.installLoop brk acc) ts) (Fl (n + 1) (.installLoop brk acc) ts)
      (installIter rec brk acc up ts) := by
  cases ts with
  | nil => exact stop_sat (by simp [eats])
  | cons t ts =>
    simp only [installIter]
    split
    · exact stop_sat (by simp [eats])
    · split
      · exact next_tail H up id
      · split
        · exact next_tail H up id
        · split
          · refine must_next H (by simp [rank]) (fun _ => Flat.basic _ rfl) ?_
            intro r h1 h2
            exact next_short H up h1 h2 id
          · split
            · rename_i w p hl
              refine must_next H (by simp [rank]) (fun _ => installKwargs_flat _ (lookup_mem hl).1) ?_
              intro r h1 h2
              exact next_short H up h1 h2 id
            · refine must_next H (by simp [rank]) (fun _ => trivial) ?_
              intro r h1 h2
              exact next_short H up h1 h2 id

theorem argStart_sat (p : ArgP) (brk : List Breaker) (up : Bool) (ts : List Token) :
    Sat (Post (.arg p brk) ts) (Fl (n + 1) (.arg p brk) ts) (argStart rec p brk up ts) := by
  cases p with
  | standard cmd specs kwargs => exact stdStart_sat H cmd specs kwargs brk up ts
  | positional spec =>
    exact next_same H up (List.suffix_refl _) (by simp [rank]) (fun _ => trivial) (by simp [eats])
  | conditional =>
    exact next_same H up (dropWs_suffix _) (by simp [rank]) (fun _ => trivial) (by simp [eats])
  | tuple a b c =>
    exact next_same H up (List.suffix_refl _) (by simp [rank]) (fun _ => trivial) (by simp [eats])
  | shell =>
    simp only [argStart]
    refine Sat.bind (call H up (List.suffix_refl _) (Or.inr (by simp [rank, std]))
      (fun _ => Flat.standard _ _ _ (by simp))) ?_
    intro r hr
    exact Sat.pure ⟨hr.1, by simp [eats]⟩
  | null => exact stop_sat (by simp [eats])
  | setFn => exact setStart_sat H brk up ts
  | emptyFn =>
    exact next_same H up (List.suffix_refl _) (by simp [rank]) (fun _ => trivial) (by simp [eats])
  | foreachStandard => exact foreachStdStart_sat H brk up ts
  | foreachIn => exact foreachInStart_sat H brk up ts
  | addSources lib s =>
    exact next_same H up (dropWs_suffix _) (by simp [rank]) (fun _ => trivial) (by simp [eats])
  | addLibraryObject => exact objStart_sat H brk up ts
  | customTarget =>
    exact next_same H up (dropWs_suffix _) (by simp [rank]) (fun _ => trivial) (by simp [eats])
  | fileWrite => exact fileWriteStart_sat H brk up ts
  | installTargets =>
    exact next_same H up (dropWs_suffix _) (by simp [rank]) (fun _ => trivial) (by simp [eats])
  | choose f =>
    simp only [argStart]
    split
    · rename_i e he
      intro h; subst h
      right
      intro h
      cases h.1 with
      | basic _ h => simp [ArgP.basic] at h
      | choose _ _ _ h => exact h ts he
    · rename_i q hq
      refine Sat.imp (H (.arg q brk) up ts) (fun r hr => ⟨hr.1, by simp [eats]⟩) ?_
      intro hf
      by_cases hF : JobFlat (.arg (.choose f) brk) ∧ AndOr ts
      · left
        have hF1 : Flat (.choose f) := hF.1
        cases hF1 with
        | basic _ h => simp [ArgP.basic] at h
        | choose _ h1 h2 h3 =>
          have hc := h2 ts q hq
          have hq2 : rank (.arg q brk) ≤ 7 := by
            cases q <;> simp_all [rank, ArgP.isChoose]
          rcases hf with hf | hf
          · simp only [need, rank] at *; omega
          · exact absurd ⟨h1 ts q hq, hF.2⟩ hf
      · right; exact hF

omit H in
theorem stmtTail_nf (k : Nat) (ts : List Token) : stmtTail k ts ≠ .error .fuel := by
  induction k generalizing ts with
  | zero => simp [stmtTail]
  | succ k ih =>
    cases ts with
    | nil => simp [stmtTail]
    | cons t ts =>
      simp only [stmtTail]
      repeat' split
      · simp
      · cases h : stmtTail k ts with
        | ok v => simp [bind, Except.bind, pure, Except.pure]
        | error e =>
          simp only [bind, Except.bind, ne_eq, Except.error.injEq]
          exact fun he => ih ts (he ▸ h)
      · cases h : stmtTail k (consumeComment t ts).2 with
        | ok v => simp [bind, Except.bind, pure, Except.pure]
        | error e =>
          simp only [bind, Except.bind, ne_eq, Except.error.injEq]
          exact fun he => ih _ (he ▸ h)
      · simp

theorem stmtIter_sat (hc : ∀ name, Flat (lookupParser ctx name)) (ts : List Token) :
    Sat (Post .statement ts) (Fl (n + 1) .statement ts) (stmtIter ctx rec ts) := by
  cases ts with
  | nil => exact Sat.error (by simp)
  | cons t ts =>
    simp only [stmtIter]
    split
    · exact Sat.error (by simp)
    · rename_i l ts1 he
      split
      · exact Sat.error (by simp)
      · have h1 : ts1.dropWhile isWs <:+ ts := by
          refine (dropWs_suffix ts1).trans ((List.suffix_cons l ts1).trans ?_)
          rw [← he]; exact dropWs_suffix ts
        refine Sat.bind (call H _ (h1.trans (List.suffix_cons _ _))
          (Or.inl (Nat.lt_succ_of_le h1.length_le)) (fun _ => hc _)) ?_
        intro r hr
        refine Sat.bind' (stmtTail_nf _ _) ?_
        intro q hq
        split
        · exact Sat.error (by simp)
        · rename_i z rest2 hz
          have e := stmtTail_splits _ _ _ _ (show stmtTail r.2.length r.2 = .ok (q.1, q.2) from hq)
          have h2 : (consumeTrailing ctx rest2).2 <:+ ts := by
            refine (trailing_suffix ctx rest2).trans ((List.suffix_cons z rest2).trans ?_)
            rw [← hz]
            exact (List.IsSuffix.trans ⟨_, e⟩ hr.1).trans h1
          exact Sat.pure ⟨h2.trans (List.suffix_cons _ _), fun _ => Nat.lt_succ_of_le h2.length_le⟩

theorem flowIter_sat (ts : List Token) :
    Sat (Post .flow ts) (Fl (n + 1) .flow ts) (flowIter rec ts) := by
  cases ts with
  | nil => exact Sat.error (by simp)
  | cons t ts =>
    simp only [flowIter]
    split
    · exact next_same H _ (List.suffix_refl _) (by simp [rank]) id (by simp [eats])
    · refine eat_next H (by simp [rank]) (fun _ => trivial) (by simp [eats]) ?_
      intro r h1 h2
      refine Sat.bind (call H _ h1 (Or.inl h2) id) ?_
      intro q hq
      have h3 := Nat.lt_of_le_of_lt hq.1.length_le h2
      refine Sat.bind (call H _ (hq.1.trans h1) (Or.inl h3) id) ?_
      intro z hz
      exact Sat.pure ⟨hz.1.trans (hq.1.trans h1), fun _ => Nat.lt_of_le_of_lt hz.1.length_le h3⟩

theorem ifIter_sat (acc : List Node) (ts : List Token) :
    Sat (Post (.ifLoop acc) ts) (Fl (n + 1) (.ifLoop acc) ts) (ifIter rec acc ts) := by
  cases ts with
  | nil => exact stop_sat (by simp [eats])
  | cons t ts =>
    simp only [ifIter]
    split
    · refine eat_next H (by simp [rank]) (fun _ => trivial) (by simp [eats]) ?_
      intro r h1 h2
      exact Sat.pure ⟨h1, fun _ => h2⟩
    · refine eat_next H (by simp [rank]) (fun _ => trivial) (by simp [eats]) ?_
      intro r h1 h2
      refine Sat.bind (call H _ h1 (Or.inl h2) id) ?_
      intro q hq
      exact next_short H _ (hq.1.trans h1) (Nat.lt_of_le_of_lt hq.1.length_le h2) id

theorem bodyIter_sat (breakset : List Str) (acc : List Node) (ts : List Token) :
    Sat (Post (.body breakset acc) ts) (Fl (n + 1) (.body breakset acc) ts)
      (bodyIter ctx rec breakset acc ts) := by
  cases ts with
  | nil => exact stop_sat (by simp [eats])
  | cons t ts =>
    simp only [bodyIter]
    split
    · rename_i hw
      rw [List.dropWhile_cons_of_pos hw]
      exact next_short H _ ((dropWs_suffix ts).trans (List.suffix_cons _ _))
        (Nat.lt_succ_of_le (dropWs_suffix ts).length_le) id
    · split
      · rename_i hc
        exact next_comment H _ hc id
      · split
        · exact next_tail H _ id
        · split
          · split
            · exact stop_sat (by simp [eats])
            · split
              · refine eat_next H (by simp [rank]) (fun _ => trivial) (by simp [eats]) ?_
                intro r h1 h2
                exact next_short H _ h1 h2 id
              · refine eat_next H (by simp [rank]) (fun _ => trivial) (by simp [eats]) ?_
                intro r h1 h2
                exact next_short H _ h1 h2 id
          · split
            · exact next_trailing H _ id
            · split
              · exact next_tail H _ id
              · exact Sat.error (by simp)

theorem step_sat (hc : ∀ name, Flat (lookupParser ctx name)) (job : Job) (up : Bool) (ts : List Token) :
    Sat (Post job ts) (Fl (n + 1) job ts) (step ctx rec job up ts) := by
  cases job with
  | arg p brk => exact argStart_sat H p brk up ts
  | stdLoop cmd specs dflt kwargs brk kbrk acc => exact stdIter_sat H ..
  | pos spec brk => exact posStart_sat H ..
  | posLoop spec brk sortable acc n => exact posIter_sat H ..
  | kwGroup word p brk => exact kwIter_sat H ..
  | paren => exact parenIter_sat H ..
  | condLoop brk acc => exact condIter_sat H ..
  | tupleLoop npargs ntup flags brk acc grp after np nt => exact tupleIter_sat H ..
  | flagLoop flags brk acc => exact flagIter_sat H ..
  | setLoop varname brk acc => exact setIter_sat H ..
  | emptyLoop brk acc => exact emptyIter_sat H ..
  | foreachInLoop brk acc => exact foreachInIter_sat H ..
  | srcLoop lib brk state sortable srcSortable inAfter before parg src after => exact srcIter_sat H ..
  | objLoop brk acc => exact objIter_sat H ..
  | targetLoop state brk acc => exact targetIter_sat H ..
  | installLoop brk acc => exact installIter_sat H ..
  | statement => exact stmtIter_sat H hc _
  | flow => exact flowIter_sat H ..
  | ifLoop acc => exact ifIter_sat H ..
  | body breakset acc => exact bodyIter_sat H ..

omit H in
theorem exec_sat (hc : ∀ name, Flat (lookupParser ctx name)) (n : Nat) (job : Job) (up : Bool)
    (ts : List Token) : Sat (Post job ts) (Fl n job ts) (exec ctx n job up ts) := by
  induction n generalizing job up ts with
  | zero => intro _; left; simp [need]
  | succ n ih => exact step_sat ih hc job up ts

end
end Verif.Parse
