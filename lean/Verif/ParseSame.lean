import Verif.ParseBlank

/-!
# The parser on lists that differ in blanks and letter case: every job (lemmas for C59)
-/

namespace Verif.Parse
open Verif Py Lex

/-! ## Jobs that do the same -/

/-- The words that end a group are no blanks. -/
def VisB (brk : List Breaker) : Prop :=
  ∀ ws, Breaker.kwargs ws ∈ brk → ∀ w ∈ ws, ∃ c ∈ w, isSpace c = false

/-- At least two arguments, the first of which is not a group. -/
def Many (ts : List Token) : Prop :=
  ∀ x b, semantics ts = x :: b → x.type ≠ .lparen ∧ ∀ r b', b = r :: b' → r.type ≠ .rparen

/-- Parsers that do not depend on blanks and letter case; `foreachStandard` only if `many`. -/
inductive GoodP : Bool → ArgP → Prop
  | standard {b : Bool} (cmd : Option CmdInfo) (specs : List PSpec) (kwargs : List (Str × ArgP)) :
      (∀ kp ∈ kwargs, Visible kp.1) → (∀ kp ∈ kwargs, GoodP false kp.2) →
      (∀ s ∈ specs, ∀ f ∈ s.flags, Visible f) → GoodP b (.standard cmd specs kwargs)
  | positional {b : Bool} (spec : PSpec) : GoodP b (.positional spec)
  | conditional {b : Bool} : GoodP b .conditional
  | tuple {b : Bool} (npargs : Nargs) (ntup : Nat) (flags : List Str) : GoodP b (.tuple npargs ntup flags)
  | shell {b : Bool} : GoodP b .shell
  | null {b : Bool} : GoodP b .null
  | setFn {b : Bool} : GoodP b .setFn
  | emptyFn {b : Bool} : GoodP b .emptyFn
  | foreachStandard : GoodP true .foreachStandard
  | foreachIn {b : Bool} : GoodP b .foreachIn
  | addSources {b : Bool} (lib sortable : Bool) : GoodP b (.addSources lib sortable)
  | addLibraryObject {b : Bool} : GoodP b .addLibraryObject
  | customTarget {b : Bool} : GoodP b .customTarget
  | fileWrite {b : Bool} : GoodP b .fileWrite
  | installTargets {b : Bool} : GoodP b .installTargets
  | choose {b : Bool} (f : List Token → Except Err ArgP) :
      (∀ ts us, Alike ts us → HasSem ts → f ts = f us) → (∀ ts q, f ts = .ok q → GoodP b q) →
      GoodP b (.choose f)

/-- Two jobs that do the same on two lists. -/
inductive JobSim (ts us : List Token) : Job → Job → Prop
  | arg (many : Bool) (p : ArgP) (brk : List Breaker) : GoodP many p → VisB brk →
      (many = true → brk = [.paren] ∧ Many ts) → JobSim ts us (.arg p brk) (.arg p brk)
  | stdLoop (cmd : Option CmdInfo) (specs : List PSpec) (dflt : PSpec) (kwargs : List (Str × ArgP))
      (brk kbrk : List Breaker) (acc acc' : List Node) : (∀ kp ∈ kwargs, Visible kp.1) →
      (∀ kp ∈ kwargs, GoodP false kp.2) → (∀ s ∈ specs, ∀ f ∈ s.flags, Visible f) → VisB brk → VisB kbrk →
      bareL acc = bareL acc' →
      JobSim ts us (.stdLoop cmd specs dflt kwargs brk kbrk acc) (.stdLoop cmd specs dflt kwargs brk kbrk acc')
  | pos (spec : PSpec) (brk : List Breaker) : VisB brk → JobSim ts us (.pos spec brk) (.pos spec brk)
  | posLoop (spec : PSpec) (brk : List Breaker) (sortable : Bool) (acc acc' : List Node) (n : Nat) :
      VisB brk → bareL acc = bareL acc' →
      JobSim ts us (.posLoop spec brk sortable acc n) (.posLoop spec brk sortable acc' n)
  | kwGroup (word : Str) (p : ArgP) (brk : List Breaker) : GoodP false p → VisB brk → NoLead ts → NoLead us →
      JobSim ts us (.kwGroup word p brk) (.kwGroup word p brk)
  | paren : NoLead ts → NoLead us → JobSim ts us .paren .paren
  | condLoop (brk : List Breaker) (acc acc' : List Node) : VisB brk → bareL acc = bareL acc' →
      JobSim ts us (.condLoop brk acc) (.condLoop brk acc')
  | tupleLoop (npargs : Nargs) (ntup : Nat) (flags : List Str) (brk : List Breaker) (acc acc' : List Node)
      (grp grp' : Option (List Node)) (after after' : List Node) (np nt : Nat) : VisB brk →
      bareL acc = bareL acc' → grp.map bareL = grp'.map bareL → bareL after = bareL after' →
      JobSim ts us (.tupleLoop npargs ntup flags brk acc grp after np nt)
        (.tupleLoop npargs ntup flags brk acc' grp' after' np nt)
  | flagLoop (flags : List Str) (brk : List Breaker) (acc acc' : List Node) : VisB brk → bareL acc = bareL acc' →
      JobSim ts us (.flagLoop flags brk acc) (.flagLoop flags brk acc')
  | setLoop (v v' : Option Str) (brk : List Breaker) (acc acc' : List Node) : VisB brk → bareL acc = bareL acc' →
      v.map lower = v'.map lower → JobSim ts us (.setLoop v brk acc) (.setLoop v' brk acc')
  | emptyLoop (brk : List Breaker) (acc acc' : List Node) : VisB brk → bareL acc = bareL acc' →
      JobSim ts us (.emptyLoop brk acc) (.emptyLoop brk acc')
  | foreachInLoop (brk : List Breaker) (acc acc' : List Node) : VisB brk → bareL acc = bareL acc' →
      JobSim ts us (.foreachInLoop brk acc) (.foreachInLoop brk acc')
  | srcLoop (lib : Bool) (brk : List Breaker) (state : Nat) (a b c : Bool)
      (before before' parg parg' src src' after after' : List Node) : VisB brk →
      bareL before = bareL before' → bareL parg = bareL parg' → bareL src = bareL src' → bareL after = bareL after' →
      JobSim ts us (.srcLoop lib brk state a b c before parg src after) (.srcLoop lib brk state a b c before' parg' src' after')
  | objLoop (brk : List Breaker) (acc acc' : List Node) : VisB brk → bareL acc = bareL acc' →
      JobSim ts us (.objLoop brk acc) (.objLoop brk acc')
  | targetLoop (state : Nat) (brk : List Breaker) (acc acc' : List Node) : VisB brk → bareL acc = bareL acc' →
      JobSim ts us (.targetLoop state brk acc) (.targetLoop state brk acc')
  | installLoop (brk : List Breaker) (acc acc' : List Node) : VisB brk → bareL acc = bareL acc' →
      JobSim ts us (.installLoop brk acc) (.installLoop brk acc')
  | statement : NoLead ts → NoLead us → JobSim ts us .statement .statement
  | flow : NoLead ts → NoLead us → JobSim ts us .flow .flow
  | ifLoop (acc acc' : List Node) : NoLead ts → NoLead us → bareL acc = bareL acc' →
      JobSim ts us (.ifLoop acc) (.ifLoop acc')
  | body (bs : List Str) (acc acc' : List Node) : bareL acc = bareL acc' →
      JobSim ts us (.body bs acc) (.body bs acc')

/-- Jobs that may read all tokens. -/
def Job.top : Job → Bool
  | .statement | .flow | .ifLoop _ | .body _ _ => true
  | _ => false

/-! ## Runs with enough fuel -/

/-- With enough fuel the result is `r`. -/
def Ev (ctx : Ctx) (F : Rec → R) (r : Node × List Token) : Prop :=
  ∃ m, ∀ k, m ≤ k → F (exec ctx k) = .ok r

/-- With enough fuel the result is `r`, up to blanks and letter case. -/
def Concl (ctx : Ctx) (F : Rec → R) (r : Node × List Token) : Prop :=
  ∃ r', Ev ctx F r' ∧ bare r.1 = bare r'.1 ∧ Alike r.2 r'.2

/-- What the database must satisfy. -/
structure CtxSame (ctx : Ctx) : Prop where
  flat : ∀ name, Flat (lookupParser ctx name)
  ok : ∀ name, ArgOk false true (lookupParser ctx name)
  good : ∀ name, GoodP (lower name == S "foreach") (lookupParser ctx name)
  vars : ∀ p ∈ ctx.vartags, ∀ a b, lower a = lower b → p.1 a = p.1 b

/-- Every job does the same. -/
def SimAt (ctx : Ctx) (n : Nat) : Prop :=
  ∀ job job' up up' ts us r, exec ctx n job up ts = .ok r → JobSim ts us job job' → ListOk ts → ListOk us →
    Alike ts us → (job.top = true ∨ HasSem r.2) → Concl ctx (fun rec => rec job' up' us) r

theorem Concl.stop {ctx : Ctx} {n n' : Node} {ts us : List Token} (h : bare n = bare n') (a : Alike ts us) :
    Concl ctx (fun _ => .ok (n', us)) (n, ts) := ⟨_, ⟨0, fun _ _ => rfl⟩, h, a⟩

theorem Concl.stop' {ctx : Ctx} {n n' : Node} {ts us : List Token} (h : bare n = bare n') (a : Alike ts us) :
    Concl ctx (fun _ => pure (n', us)) (n, ts) := ⟨_, ⟨0, fun _ _ => rfl⟩, h, a⟩

/-- One step more. -/
theorem Concl.step {ctx : Ctx} {job : Job} {up : Bool} {us : List Token} {r : Node × List Token}
    (h : Concl ctx (fun rec => Parse.step ctx rec job up us) r) : Concl ctx (fun rec => rec job up us) r := by
  obtain ⟨r', ⟨m, hm⟩, h2⟩ := h
  refine ⟨r', ⟨m + 1, ?_⟩, h2⟩
  intro k hk
  cases k with
  | zero => omega
  | succ k => exact hm k (by omega)

section
variable {ctx : Ctx} (C : CtxSame ctx)
include C

/-- What is left is a suffix. -/
theorem exec_suffix {n : Nat} {job : Job} {up : Bool} {ts : List Token} {r : Node × List Token}
    (h : exec ctx n job up ts = .ok r) : r.2 <:+ ts := by
  have := exec_sat C.flat n job up ts
  rw [h] at this
  exact this.1

theorem Concl.bind {job : Job} {up : Bool} {us : List Token} {x r : Node × List Token}
    {g : Rec → Node × List Token → R}
    (h : Concl ctx (fun rec => rec job up us) x)
    (k : ∀ y, bare x.1 = bare y.1 → Alike x.2 y.2 → y.2 <:+ us → (∃ m, exec ctx m job up us = .ok y) →
      Concl ctx (fun rec => g rec y) r) :
    Concl ctx (fun rec => rec job up us >>= g rec) r := by
  obtain ⟨y, ⟨m, hm⟩, h1, h2⟩ := h
  obtain ⟨r', ⟨m', hm'⟩, h3⟩ := k y h1 h2 (exec_suffix C (hm m (Nat.le_refl _))) ⟨m, hm m (Nat.le_refl _)⟩
  refine ⟨r', ⟨max m m', ?_⟩, h3⟩
  intro k hk
  simp only at hm ⊢
  rw [hm k (by omega)]
  exact hm' k (by omega)

theorem Concl.must {job : Job} {up : Bool} {us : List Token} {x r : Node × List Token}
    {g : Rec → Node × List Token → R}
    (h : Concl ctx (fun rec => rec job up us) x)
    (hp : ∀ y : Node × List Token, Alike x.2 y.2 → y.2 <:+ us → y.2.length < us.length)
    (k : ∀ y, bare x.1 = bare y.1 → Alike x.2 y.2 → y.2 <:+ us → (∃ m, exec ctx m job up us = .ok y) →
      Concl ctx (fun rec => g rec y) r) :
    Concl ctx (fun rec => Parse.must (rec job up us) us >>= g rec) r := by
  obtain ⟨y, ⟨m, hm⟩, h1, h2⟩ := h
  have hy := exec_suffix C (hm m (Nat.le_refl _))
  obtain ⟨r', ⟨m', hm'⟩, h3⟩ := k y h1 h2 hy ⟨m, hm m (Nat.le_refl _)⟩
  refine ⟨r', ⟨max m m', ?_⟩, h3⟩
  intro k hk
  simp only at hm ⊢
  rw [hm k (by omega)]
  have : Parse.must (.ok y : R) us = .ok y := by
    simp only [Parse.must]
    show (if y.2.length < us.length then _ else _) = _
    rw [if_pos (hp y h2 hy)]
    rfl
  rw [this]
  exact hm' k (by omega)
end

/-! ## Progress -/

theorem semantics_length {x ts : List Token} (h : x <:+ ts) : (semantics x).length ≤ (semantics ts).length := by
  obtain ⟨c, rfl⟩ := h
  rw [semantics_append, List.length_append]
  omega

theorem Alike.length {ts us : List Token} (h : Alike ts us) : (semantics ts).length = (semantics us).length := by
  have := congrArg List.length h
  simpa using this

theorem progress {ts us x y : List Token} (ok : ListOk ts) (hl : NoLead ts) (h : Alike ts us) (hx : x <:+ ts)
    (hy : y <:+ us) (hxy : Alike x y) (hlt : x.length < ts.length) : y.length < us.length := by
  have h1 : (semantics x).length < (semantics ts).length := by
    obtain ⟨c, rfl⟩ := hx
    cases c with
    | nil => simp at hlt
    | cons t c =>
      have ht := hl t (c ++ x) rfl
      have hc := ok.comments t (by simp)
      rw [List.cons_append, semantics_ink ht hc.1 hc.2, semantics_append]
      simp only [List.length_cons, List.length_append]
      omega
  have h2 := hy.length_le
  rcases Nat.lt_or_ge y.length us.length with h3 | h3
  · exact h3
  · have : y = us := hy.eq_of_length (by omega)
    subst this
    have := h.length; have := hxy.length
    omega

theorem alike_cons_cons {t u : Token} {ts us : List Token} (h : Alike ts us) (hc : canon t = canon u) : Alike (t :: ts) (u :: us) := by
  simp only [Alike, semantics, List.filter_cons] at *
  have : isSemantic t = isSemantic u := by
    simp [isSemantic, canon_ws hc, canon_comment hc, canon_onoff hc]
  rw [this]
  split
  · simp [h, hc]
  · exact h

theorem noLead_cons {t : Token} {ts : List Token} (h : isWs t = false) : NoLead (t :: ts) := by
  intro t' ts' e
  simp only [List.cons.injEq] at e
  rw [← e.1]; exact h

/-- Blanks do not end a group. -/
theorem blank_goes_on {t : Token} {ts : List Token} {brk : List Breaker} (ok : ListOk (t :: ts)) (ht : isWs t = true)
    (hb : VisB brk) : shouldBreak t brk = false := by
  simp only [shouldBreak, List.any_eq_false]
  intro b hmem
  cases b with
  | paren =>
    simp only [Breaker.fires]
    simp only [isWs, Bool.or_eq_true, beq_iff_eq] at ht
    rcases ht with ht | ht <;> simp [ht]
  | kwargs ws =>
    simp only [Breaker.fires]
    intro hc
    obtain ⟨c, h1, h2⟩ := hb ws hmem _ (by simpa using hc)
    simp only [upper, List.mem_map] at h1
    obtain ⟨d, hd, rfl⟩ := h1
    have := ok.blanks t (by simp) ht d hd
    rw [(case_facts d).2.2.2.2, this] at h2
    simp at h2

theorem visB_append {a b : List Breaker} (ha : VisB a) (hb : VisB b) : VisB (a ++ b) := by
  intro ws hws
  rcases List.mem_append.1 hws with h | h
  · exact ha ws h
  · exact hb ws h

theorem visB_kw {ws : List Str} (h : ∀ w ∈ ws, Visible w) : VisB [kwBreaker ws] := by
  intro ws' hws w hw
  simp only [kwBreaker, List.mem_singleton, Breaker.kwargs.injEq] at hws
  subst hws
  simp only [List.mem_map] at hw
  obtain ⟨v, hv, rfl⟩ := hw
  exact h v hv

theorem visB_paren : VisB [.paren] := by
  intro ws h; simp at h

/-- The words are no blanks. -/
def visAll (ws : List Str) : Bool := ws.all fun w => (upper w).any fun c => !isSpace c

theorem visAll_mem {ws : List Str} (h : visAll ws = true) : ∀ w ∈ ws, Visible w := by
  intro w hw
  have := List.all_eq_true.1 h w hw
  obtain ⟨c, hc, h2⟩ := List.any_eq_true.1 this
  exact ⟨c, hc, by simpa using h2⟩

theorem visB_more {brk : List Breaker} {ws : List Str} (h : VisB brk) (hw : visAll ws = true) :
    VisB (brk ++ [kwBreaker ws]) := visB_append h (visB_kw (visAll_mem hw))

/-! ## Loops -/

/-- What a step does at a blank decides what it does at a list that starts with blanks. -/
theorem skip_blanks {α : Type} {ctx : Ctx} (J : α → Job) (push : α → Token → α) (up : Bool)
    (hstep : ∀ (rec : Rec) a b us, isWs b = true → ListOk (b :: us) →
      step ctx rec (J a) up (b :: us) = rec (J (push a b)) up us)
    (us : List Token) (ok : ListOk us) (a : α) {r : Node × List Token}
    (h : Concl ctx (fun rec => rec (J ((us.takeWhile isWs).foldl push a)) up (us.dropWhile isWs)) r) :
    Concl ctx (fun rec => rec (J a) up us) r := by
  induction us generalizing a with
  | nil => exact h
  | cons b us ih =>
    cases hb : isWs b with
    | false =>
      rw [List.takeWhile_cons_of_neg (by simp [hb]), List.dropWhile_cons_of_neg (by simp [hb])] at h
      exact h
    | true =>
      rw [List.takeWhile_cons_of_pos hb, List.dropWhile_cons_of_pos hb] at h
      refine Concl.step ?_
      simp only [hstep _ a b us hb ok]
      exact ih (ok.suffix (List.suffix_cons b us)) (push a b) h

/-- A loop does the same if it does so at the next token that is no blank. -/
theorem loop_of_lock {α β : Type} {ctx : Ctx} {n : Nat} (H : SimAt ctx n) (J : α → Job) (push : α → Token → α) (E : α → β)
    (hE : ∀ a b, isWs b = true → E (push a b) = E a) (up up' : Bool)
    (hstep : ∀ up (rec : Rec) a b us, isWs b = true → ListOk (b :: us) →
      step ctx rec (J a) up (b :: us) = rec (J (push a b)) up us)
    (hsim : ∀ ts us a a', E a = E a' → JobSim ts us (J a) (J a'))
    (lock : ∀ t u ts us a a' r, E a = E a' → isWs t = false → isWs u = false → canon t = canon u → Alike ts us →
      ListOk (t :: ts) → ListOk (u :: us) → step ctx (exec ctx n) (J a) up (t :: ts) = .ok r → HasSem r.2 →
      Concl ctx (fun rec => step ctx rec (J a') up' (u :: us)) r)
    (a a' : α) (ts us : List Token) (r : Node × List Token) (he : E a = E a') (ok : ListOk ts) (ok' : ListOk us)
    (hal : Alike ts us) (h : step ctx (exec ctx n) (J a) up ts = .ok r) (hs : HasSem r.2) (hts : HasSem ts) :
    Concl ctx (fun rec => rec (J a') up' us) r := by
  cases ts with
  | nil => exact absurd rfl hts
  | cons t ts =>
    cases ht : isWs t with
    | true =>
      rw [hstep up _ a t ts ht ok] at h
      exact H _ _ _ _ _ _ _ h (hsim ts us _ _ (by rw [hE _ _ ht, he])) (ok.suffix (List.suffix_cons t ts)) ok'
        (alike_ws hal ht) (Or.inr hs)
    | false =>
      refine skip_blanks J push up' (hstep up') us ok' a' ?_
      have ok'' := ok'.suffix (List.dropWhile_suffix isWs)
      have hal' : Alike (t :: ts) (us.dropWhile isWs) := by
        simp only [Alike, semantics_dropWs]; exact hal
      obtain ⟨u, us', e, hu, hcu, hal''⟩ := alike_cons ht ok ok'' (noLead_drop us) hal'
      rw [e] at ok'' ⊢
      refine Concl.step (lock t u ts us' a _ r ?_ ht hu hcu hal'' ok ok'' h hs)
      rw [he]
      have : ∀ (bs : List Token) (a : α), (∀ b ∈ bs, isWs b = true) → E (bs.foldl push a) = E a := by
        intro bs
        induction bs with
        | nil => intro a _; rfl
        | cons b bs ih =>
          intro a hb
          rw [List.foldl_cons, ih _ (fun b' hb' => hb b' (by simp [hb'])), hE _ _ (hb b (by simp))]
      exact (this _ _ fun b hb => mem_takeWs hb).symm

end Verif.Parse
