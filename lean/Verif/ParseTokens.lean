import Verif.ParseLemmas

/-!
# Conservation of tokens by every job of the parser (lemmas for C07)
-/

namespace Verif.Parse
open Verif Py Lex

/-- Same tokens in the same order; or, in the weak form, the same tokens with the
semantic ones in the same order. -/
def Rel (strict : Bool) (a b : List Token) : Prop :=
  if strict then a = b else a.Perm b ∧ semantics a = semantics b

theorem Rel.refl (s : Bool) (a : List Token) : Rel s a a := by
  cases s <;> simp [Rel]

theorem Rel.of_eq {s : Bool} {a b : List Token} (h : a = b) : Rel s a b := h ▸ Rel.refl s a

theorem Rel.trans {s : Bool} {a b c : List Token} (h1 : Rel s a b) (h2 : Rel s b c) : Rel s a c := by
  cases s with
  | true => simp only [Rel, if_true] at *; exact h1.trans h2
  | false =>
    simp only [Rel, Bool.false_eq_true, if_false] at *
    exact ⟨h1.1.trans h2.1, h1.2.trans h2.2⟩

theorem Rel.append {s : Bool} {a b c d : List Token} (h1 : Rel s a b) (h2 : Rel s c d) :
    Rel s (a ++ c) (b ++ d) := by
  cases s with
  | true => simp only [Rel, if_true] at *; rw [h1, h2]
  | false =>
    simp only [Rel, Bool.false_eq_true, if_false] at *
    refine ⟨h1.1.append h2.1, ?_⟩
    simp only [semantics, List.filter_append] at *
    rw [h1.2, h2.2]

theorem semantics_nil {ts : List Token} (h : ∀ t ∈ ts, isSemantic t = false) : semantics ts = [] := by
  simpa [semantics, List.filter_eq_nil_iff] using h

/-- In the weak form a block may move over blanks and comments. -/
theorem Rel.swap (a b : List Token) (h : ∀ t ∈ b, isSemantic t = false) :
    Rel false (a ++ b) (b ++ a) := by
  simp only [Rel, Bool.false_eq_true, if_false]
  refine ⟨List.perm_append_comm, ?_⟩
  have := semantics_nil h
  simp only [semantics, List.filter_append] at *
  rw [this]; simp

/-- The result of a job that had already collected `pre`: it consumed a prefix `c` of the
tokens and the node holds `pre` and `c`. -/
def Good (s : Bool) (pre ts : List Token) (r : Node × List Token) : Prop :=
  ∃ c, ts = c ++ r.2 ∧ Rel s r.1.toks (pre ++ c)

theorem Good.stop {s : Bool} {pre ts : List Token} {n : Node} (h : n.toks = pre) :
    Good s pre ts (n, ts) := ⟨[], rfl, Rel.of_eq (by simpa using h)⟩

theorem Good.advance {s : Bool} {pre c rest : List Token} {r : Node × List Token}
    (h : Good s (pre ++ c) rest r) : Good s pre (c ++ rest) r := by
  obtain ⟨d, rfl, h2⟩ := h
  exact ⟨c ++ d, by simp, by simpa using h2⟩

theorem Good.sub {s : Bool} {pre ts rest : List Token} {n : Node} {r : Node × List Token}
    (h1 : Good s [] ts (n, rest)) (h2 : Good s (pre ++ n.toks) rest r) : Good s pre ts r := by
  obtain ⟨c, rfl, hc⟩ := h1
  obtain ⟨d, rfl, hd⟩ := h2
  refine ⟨c ++ d, by simp, hd.trans ?_⟩
  rw [← List.append_assoc]
  exact ((Rel.refl s pre).append (by simpa using hc)).append (Rel.refl s d)

/-- Whether what an argument parser may build is in order (`strict`) or may be
reordered by tuples.  `top` says that the parser is called directly by a statement. -/
inductive ArgOk (strict : Bool) : Bool → ArgP → Prop
  | standard {top : Bool} (cmd : Option CmdInfo) (specs : List PSpec) (kwargs : List (Str × ArgP)) :
      (∀ kp ∈ kwargs, ArgOk strict false kp.2) → ArgOk strict top (.standard cmd specs kwargs)
  | positional {top : Bool} (spec : PSpec) : ArgOk strict top (.positional spec)
  | conditional {top : Bool} : ArgOk strict top .conditional
  | tuple {top : Bool} (npargs : Nargs) (ntup : Nat) (flags : List Str) :
      strict = false → ArgOk strict top (.tuple npargs ntup flags)
  | shell {top : Bool} : ArgOk strict top .shell
  | null {top : Bool} : ArgOk strict top .null
  | setFn {top : Bool} : ArgOk strict top .setFn
  | emptyFn {top : Bool} : ArgOk strict top .emptyFn
  | foreachStandard {top : Bool} : ArgOk strict top .foreachStandard
  | foreachIn {top : Bool} : ArgOk strict top .foreachIn
  | addSources {top : Bool} (lib sortable : Bool) :
      (strict = true → top = true) → ArgOk strict top (.addSources lib sortable)
  | addLibraryObject {top : Bool} : ArgOk strict top .addLibraryObject
  | customTarget {top : Bool} : ArgOk strict top .customTarget
  | fileWrite {top : Bool} : ArgOk strict top .fileWrite
  | installTargets {top : Bool} : ArgOk strict top .installTargets
  | choose {top : Bool} (f : List Token → Except Err ArgP) :
      (∀ ts q, f ts = .ok q → ArgOk strict top q) → ArgOk strict top (.choose f)

theorem ArgOk.weaken {strict : Bool} {top : Bool} {p : ArgP} (h : ArgOk strict top p) :
    ArgOk false top p := by
  induction h with
  | standard cmd specs kwargs _ ih => exact .standard cmd specs kwargs ih
  | tuple n k f _ => exact .tuple n k f rfl
  | addSources l s _ => exact .addSources l s (by simp)
  | choose f _ ih => exact .choose f ih
  | positional s => exact .positional s
  | _ => constructor

/-- Every command named by a token of the set `Q` has a parser that is in order. -/
def CtxOk (strict : Bool) (Q : Token → Prop) (ctx : Ctx) : Prop :=
  ∀ t, Q t → ArgOk strict true (lookupParser ctx t.spelling)

/-- Between two neighbouring tokens: a format switch comes directly after a blank or a
comment. -/
def Unglued (ts : List Token) : Prop :=
  ∀ a b, [a, b] <:+: ts → isOnOff b = true → isWs a = true ∨ isAnyComment a = true

/-- The token lists for which nothing is dropped. -/
structure TsOk (strict : Bool) (Q : Token → Prop) (ts : List Token) : Prop where
  cmds : ∀ t ∈ ts, Q t
  nobom : ∀ t ∈ ts, t.type ≠ .bom
  unglued : strict = false → Unglued ts

theorem TsOk.suffix {s : Bool} {Q : Token → Prop} {c ts : List Token} (h : TsOk s Q (c ++ ts)) :
    TsOk s Q ts where
  cmds t ht := h.cmds t (by simp [ht])
  nobom t ht := h.nobom t (by simp [ht])
  unglued e a b hab hb := h.unglued e a b (hab.trans (List.suffix_append c ts).isInfix) hb

theorem TsOk.tail {s : Bool} {Q : Token → Prop} {t : Token} {ts : List Token} (h : TsOk s Q (t :: ts)) : TsOk s Q ts :=
  TsOk.suffix (c := [t]) h

theorem TsOk.good {s : Bool} {Q : Token → Prop} {pre ts : List Token} {r : Node × List Token} (h : TsOk s Q ts)
    (g : Good s pre ts r) : TsOk s Q r.2 := by
  obtain ⟨c, rfl, _⟩ := g
  exact h.suffix

/-- What a job has collected. -/
def Job.toks : Job → List Token
  | .stdLoop _ _ _ _ _ _ acc => toksL acc
  | .posLoop _ _ _ acc _ => toksL acc
  | .condLoop _ acc => toksL acc
  | .tupleLoop _ _ _ _ acc grp after _ _ => toksL (tupleChildren acc grp after)
  | .flagLoop _ _ acc => toksL acc
  | .setLoop _ _ acc => toksL acc
  | .emptyLoop _ acc => toksL acc
  | .foreachInLoop _ acc => toksL acc
  | .srcLoop _ _ _ _ _ _ before parg src after => toksL before ++ toksL parg ++ toksL src ++ toksL after
  | .objLoop _ acc => toksL acc
  | .targetLoop _ _ acc => toksL acc
  | .installLoop _ acc => toksL acc
  | .ifLoop acc => toksL acc
  | .body _ acc => toksL acc
  | _ => []

/-- Loop invariants of the source-list parsers. -/
structure SrcOk (strict : Bool) (lib : Bool) (brk : List Breaker) (state : Nat) (inAfter : Bool)
    (parg src after : List Node) (ts : List Token) : Prop where
  nosem : ∀ t ∈ toksL after, isSemantic t = false
  noParg : state ≤ 1 → parg = []
  noSrc : state < lastState lib → src = []
  noAfter : inAfter = false → after = []
  last : inAfter = true → lastState lib ≤ state
  le : state ≤ lastState lib
  top : strict = true → brk = [.paren]
  remain : strict = true → inAfter = true → onlyCommentsRemain brk ts = true

/-- Invariants of the jobs. -/
def JobOk (strict : Bool) (ts : List Token) : Job → Prop
  | .arg p brk => ∃ top, (top = true → brk = [.paren]) ∧ ArgOk strict top p
  | .stdLoop _ _ _ kwargs _ _ _ => ∀ kp ∈ kwargs, ArgOk strict false kp.2
  | .kwGroup _ p _ => ArgOk strict false p
  | .tupleLoop _ _ _ _ _ _ after _ _ =>
    strict = false ∧ ∀ t ∈ toksL after, isSemantic t = false
  | .srcLoop lib brk state _ _ inAfter _ parg src after =>
    SrcOk strict lib brk state inAfter parg src after ts
  | _ => True

/-- Every call of `rec` conserves tokens. -/
def Holds (strict : Bool) (Q : Token → Prop) (rec : Rec) : Prop :=
  ∀ job up ts r, rec job up ts = .ok r → JobOk strict ts job → TsOk strict Q ts →
    Good strict job.toks ts r

section
variable {s : Bool} {Q : Token → Prop} {ctx : Ctx} {rec : Rec} (H : Holds s Q rec)

theorem ws_split (ts : List Token) : ts = ts.takeWhile isWs ++ ts.dropWhile isWs :=
  List.takeWhile_append_dropWhile.symm

/-- Skipping blanks before a loop. -/
theorem Good.skipWs {ts : List Token} {r : Node × List Token}
    (h : Good s (ts.takeWhile isWs) (ts.dropWhile isWs) r) : Good s [] ts r := by
  have := Good.advance (pre := []) (c := ts.takeWhile isWs) (rest := ts.dropWhile isWs) (by simpa using h)
  rwa [← ws_split] at this

theorem TsOk.dropWs {ts : List Token} (h : TsOk s Q ts) : TsOk s Q (ts.dropWhile isWs) := by
  rw [ws_split ts] at h; exact h.suffix

theorem Good.trailing {pre : List Token} {t : Token} {ts : List Token} {r : Node × List Token}
    (h : Good s (pre ++ t :: toksL (consumeTrailing ctx ts).1) (consumeTrailing ctx ts).2 r) :
    Good s pre (t :: ts) r := by
  have := Good.advance (pre := pre) (c := t :: toksL (consumeTrailing ctx ts).1) h
  rwa [List.cons_append, consumeTrailing_splits] at this

theorem TsOk.trailing {t : Token} {ts : List Token} (h : TsOk s Q (t :: ts)) :
    TsOk s Q (consumeTrailing ctx ts).2 := by
  have := h.tail
  rw [← consumeTrailing_splits ctx ts] at this
  exact this.suffix

theorem Good.comment {pre : List Token} {t : Token} {ts : List Token} {r : Node × List Token}
    (h : Good s (pre ++ (consumeComment t ts).1.toks) (consumeComment t ts).2 r) :
    Good s pre (t :: ts) r := by
  have := Good.advance (pre := pre) (c := (consumeComment t ts).1.toks) h
  rwa [consumeComment_splits] at this

theorem TsOk.comment {t : Token} {ts : List Token} (h : TsOk s Q (t :: ts)) :
    TsOk s Q (consumeComment t ts).2 := by
  rw [← consumeComment_splits t ts] at h
  exact h.suffix

include H

theorem posStart_good (spec : PSpec) (brk : List Breaker) (up : Bool) (ts : List Token)
    (r : Node × List Token) (ht : TsOk s Q ts) (h : posStart rec spec brk up ts = .ok r) :
    Good s [] ts r := by
  simp only [posStart] at h
  apply Good.skipWs
  simpa [Job.toks] using H _ _ _ _ h trivial ht.dropWs

theorem posIter_good (spec : PSpec) (brk : List Breaker) (sortable : Bool) (acc : List Node) (n : Nat)
    (up : Bool) (ts : List Token) (r : Node × List Token) (ht : TsOk s Q ts)
    (h : posIter ctx rec spec brk sortable acc n up ts = .ok r) : Good s (toksL acc) ts r := by
  cases ts with
  | nil => simp only [posIter, Except.ok.injEq] at h; subst h; exact Good.stop (by simp)
  | cons t ts =>
    simp only [posIter] at h
    obtain ⟨full, hf, h⟩ := bind_ok.1 h
    split at h
    · simp only [pure_ok] at h; subst h; exact Good.stop (by simp)
    · split at h
      · simp only [pure_ok] at h; subst h; exact Good.stop (by simp)
      · split at h
        · obtain ⟨⟨sub, rest⟩, h1, h2⟩ := bind_ok.1 h
          have g1 := H _ _ _ _ h1 trivial ht
          refine Good.sub g1 ?_
          simpa [Job.toks] using H _ _ _ _ h2 trivial (ht.good g1)
        · split at h
          · exact Good.advance (c := [t]) (by simpa [Job.toks] using H _ _ _ _ h trivial ht.tail)
          · split at h
            · split at h
              · simp only [pure_ok] at h; subst h; exact Good.stop (by simp)
              · exact Good.comment (by simpa [Job.toks] using H _ _ _ _ h trivial ht.comment)
            · split at h
              · exact Good.advance (c := [t]) (by simpa [Job.toks] using H _ _ _ _ h trivial ht.tail)
              · exact Good.trailing (ctx := ctx)
                  (by simpa [Job.toks] using H _ _ _ _ h trivial (ht.trailing (ctx := ctx)))

omit H in
theorem must_ok {r : R} {ts : List Token} {x : Node × List Token} (h : must r ts = .ok x) :
    r = .ok x ∧ x.2.length < ts.length := by
  simp only [must] at h
  obtain ⟨⟨a, b⟩, h1, h2⟩ := bind_ok.1 h
  simp only at h2
  split at h2
  · simp only [pure_ok] at h2; subst h2; exact ⟨h1, by assumption⟩
  · simp at h2

/-- A call followed by the next iteration. -/
theorem sub_next {pre : List Token} {ts : List Token} {job : Job} {up : Bool} {x r : Node × List Token}
    {next : Job} {up' : Bool} (ht : TsOk s Q ts) (h1 : rec job up ts = .ok x) (ok1 : JobOk s ts job)
    (e1 : job.toks = []) (h2 : rec next up' x.2 = .ok r) (ok2 : JobOk s x.2 next)
    (e2 : next.toks = pre ++ x.1.toks) : Good s pre ts r := by
  have g1 := H _ _ _ _ h1 ok1 ht
  rw [e1] at g1
  refine Good.sub g1 ?_
  rw [← e2]
  exact H _ _ _ _ h2 ok2 (ht.good g1)

/-- Taking one token and going on. -/
theorem tok_next {pre : List Token} {t : Token} {ts : List Token} {r : Node × List Token}
    {next : Job} {up : Bool} (ht : TsOk s Q (t :: ts)) (h : rec next up ts = .ok r)
    (ok : JobOk s ts next) (e : next.toks = pre ++ [t]) : Good s pre (t :: ts) r := by
  refine Good.advance (c := [t]) ?_
  rw [← e]
  exact H _ _ _ _ h ok ht.tail

theorem stdStart_good (cmd : Option CmdInfo) (specs : List PSpec) (kwargs : List (Str × ArgP))
    (brk : List Breaker) (up : Bool) (ts : List Token) (r : Node × List Token) (ht : TsOk s Q ts)
    (hk : ∀ kp ∈ kwargs, ArgOk s false kp.2) (h : stdStart rec cmd specs kwargs brk up ts = .ok r) :
    Good s [] ts r := by
  simp only [stdStart] at h
  apply Good.skipWs
  simpa [Job.toks] using H _ _ _ _ h hk ht.dropWs

omit H in
theorem lookup_kw {kwargs : List (Str × ArgP)} {t : Token} {w : Str} {p : ArgP}
    (h : (normKwarg t).bind (fun w => (kwargs.lookup w).map (fun p => (w, p))) = some (w, p)) :
    (w, p) ∈ kwargs ∧ normKwarg t = some w := by
  simp only [Option.bind_eq_some_iff, Option.map_eq_some_iff, Prod.mk.injEq] at h
  obtain ⟨w', hw, p', hp, rfl, rfl⟩ := h
  refine ⟨?_, hw⟩
  obtain ⟨a, b, he, _⟩ := List.lookup_eq_some_iff.1 hp
  rw [he]; simp

theorem stdIter_good (cmd : Option CmdInfo) (specs : List PSpec) (dflt : PSpec)
    (kwargs : List (Str × ArgP)) (brk kbrk : List Breaker) (acc : List Node) (up : Bool)
    (ts : List Token) (r : Node × List Token) (ht : TsOk s Q ts)
    (hk : ∀ kp ∈ kwargs, ArgOk s false kp.2)
    (h : stdIter rec cmd specs dflt kwargs brk kbrk acc up ts = .ok r) : Good s (toksL acc) ts r := by
  cases ts with
  | nil => simp only [stdIter, Except.ok.injEq] at h; subst h; exact Good.stop (by simp [stdNode])
  | cons t ts =>
    simp only [stdIter] at h
    split at h
    · exact tok_next H ht h hk (by simp [Job.toks])
    · split at h
      · split at h
        · simp only [Except.ok.injEq] at h; subst h; exact Good.stop (by simp [stdNode])
        · exact Good.comment (by simpa [Job.toks] using H _ _ _ _ h hk ht.comment)
      · split at h
        · exact tok_next H ht h hk (by simp [Job.toks])
        · split at h
          · simp only [Except.ok.injEq] at h; subst h; exact Good.stop (by simp [stdNode])
          · split at h
            · rename_i w p hl
              obtain ⟨⟨sub, rest⟩, h1, h2⟩ := bind_ok.1 h
              simp only at h2
              split at h2
              · simp at h2
              · exact sub_next H ht h1 (hk _ (lookup_kw hl).1) rfl h2 hk (by simp [Job.toks])
            · obtain ⟨⟨sub, rest⟩, h1, h2⟩ := bind_ok.1 h
              simp only at h2
              split at h2
              · simp at h2
              · exact sub_next H ht h1 trivial rfl h2 hk (by simp [Job.toks])

theorem kwIter_good (word : Str) (p : ArgP) (brk : List Breaker) (ts : List Token)
    (r : Node × List Token) (ht : TsOk s Q ts) (hp : ArgOk s false p)
    (h : kwIter rec word p brk ts = .ok r) : Good s [] ts r := by
  cases ts with
  | nil => simp [kwIter] at h
  | cons t ts =>
    simp only [kwIter] at h
    split at h
    · simp at h
    · obtain ⟨⟨sub, rest⟩, h1, h2⟩ := bind_ok.1 h
      simp only [pure_ok] at h2
      subst h2
      have hd := ht.tail.dropWs
      have g := H _ _ _ _ h1 ⟨false, by simp, hp⟩ hd
      refine Good.advance (pre := []) (c := [t]) ?_
      have : Good s ([] ++ [t] ++ ts.takeWhile isWs) (ts.dropWhile isWs)
          (mk NT.kwargGroup (mk NT.keyword [Node.tok t] :: leaves (List.takeWhile isWs ts) ++
            if rest.length < (List.dropWhile isWs ts).length then [sub] else []), rest) := by
        split
        · refine Good.sub g (Good.stop (by simp))
        · rename_i hlt
          obtain ⟨c, e, _⟩ := g
          have : c = [] := by
            have := congrArg List.length e
            simp only [List.length_append] at this
            apply List.length_eq_zero_iff.1; omega
          subst this
          simp only [List.nil_append] at e
          rw [e]
          exact Good.stop (by simp)
      have := this.advance
      rwa [← ws_split] at this

theorem parenIter_good (ts : List Token) (r : Node × List Token) (ht : TsOk s Q ts)
    (h : parenIter ctx rec ts = .ok r) : Good s [] ts r := by
  cases ts with
  | nil => simp [parenIter] at h
  | cons t ts =>
    simp only [parenIter] at h
    split at h
    · simp at h
    · obtain ⟨⟨sub, rest⟩, h1, h2⟩ := bind_ok.1 h
      have g := H _ _ _ _ h1 ⟨false, by simp, .conditional⟩ ht.tail
      simp only at h2
      refine Good.advance (pre := []) (c := [t]) (Good.sub g ?_)
      cases rest with
      | nil => simp at h2
      | cons q rest =>
        simp only at h2
        split at h2
        · simp at h2
        · simp only [pure_ok] at h2
          subst h2
          exact Good.trailing (ctx := ctx) (Good.stop (by simp))

theorem condIter_good (brk : List Breaker) (acc : List Node) (up : Bool) (ts : List Token)
    (r : Node × List Token) (ht : TsOk s Q ts) (h : condIter rec brk acc up ts = .ok r) :
    Good s (toksL acc) ts r := by
  cases ts with
  | nil => simp only [condIter, Except.ok.injEq] at h; subst h; exact Good.stop (by simp)
  | cons t ts =>
    simp only [condIter] at h
    split at h
    · simp only [Except.ok.injEq] at h; subst h; exact Good.stop (by simp)
    · split at h
      · exact tok_next H ht h trivial (by simp [Job.toks])
      · split at h
        · exact tok_next H ht h trivial (by simp [Job.toks])
        · split at h
          · exact tok_next H ht h trivial (by simp [Job.toks])
          · split at h
            · obtain ⟨⟨sub, rest⟩, h1, h2⟩ := bind_ok.1 h
              exact sub_next H ht h1 trivial rfl h2 trivial (by simp [Job.toks])
            · split at h
              · obtain ⟨⟨sub, rest⟩, h1, h2⟩ := bind_ok.1 h
                simp only at h2
                split at h2
                · exact sub_next H ht h1 .conditional rfl h2 trivial (by simp [Job.toks])
                · simp at h2
              · obtain ⟨⟨sub, rest⟩, h1, h2⟩ := bind_ok.1 h
                exact sub_next H ht h1 trivial rfl h2 trivial (by simp [Job.toks])

theorem flagIter_good (flags : List Str) (brk : List Breaker) (acc : List Node) (up : Bool)
    (ts : List Token) (r : Node × List Token) (ht : TsOk s Q ts)
    (h : flagIter ctx rec flags brk acc up ts = .ok r) : Good s (toksL acc) ts r := by
  cases ts with
  | nil => simp only [flagIter, Except.ok.injEq] at h; subst h; exact Good.stop (by simp)
  | cons t ts =>
    simp only [flagIter] at h
    split at h
    · simp only [Except.ok.injEq] at h; subst h; exact Good.stop (by simp)
    · split at h
      · exact tok_next H ht h trivial (by simp [Job.toks])
      · split at h
        · simp only [Except.ok.injEq] at h; subst h; exact Good.stop (by simp)
        · exact Good.trailing (ctx := ctx)
            (by simpa [Job.toks] using H _ _ _ _ h trivial (ht.trailing (ctx := ctx)))

theorem setStart_good (brk : List Breaker) (up : Bool) (ts : List Token) (r : Node × List Token)
    (ht : TsOk s Q ts) (h : setStart rec brk up ts = .ok r) : Good s [] ts r := by
  simp only [setStart] at h
  obtain ⟨⟨sub, rest⟩, h1, h2⟩ := bind_ok.1 h
  apply Good.skipWs
  exact sub_next H ht.dropWs (must_ok h1).1 trivial rfl h2 trivial (by simp [Job.toks])

theorem setIter_good (varname : Option Str) (brk : List Breaker) (acc : List Node) (up : Bool)
    (ts : List Token) (r : Node × List Token) (ht : TsOk s Q ts)
    (h : setIter ctx rec varname brk acc up ts = .ok r) : Good s (toksL acc) ts r := by
  cases ts with
  | nil => simp only [setIter, Except.ok.injEq] at h; subst h; exact Good.stop (by simp)
  | cons t ts =>
    simp only [setIter] at h
    split at h
    · simp only [Except.ok.injEq] at h; subst h; exact Good.stop (by simp)
    · split at h
      · exact tok_next H ht h trivial (by simp [Job.toks])
      · split at h
        · exact tok_next H ht h trivial (by simp [Job.toks])
        · split at h
          · obtain ⟨⟨sub, rest⟩, h1, h2⟩ := bind_ok.1 h
            simp only at h2
            split at h2
            · simp at h2
            · split at h2
              · exact sub_next H ht h1 (.positional _) rfl h2 trivial (by simp [Job.toks])
              · simp at h2
          · split at h
            · obtain ⟨⟨sub, rest⟩, h1, h2⟩ := bind_ok.1 h
              exact sub_next H ht (must_ok h1).1 trivial rfl h2 trivial (by simp [Job.toks])
            · obtain ⟨⟨sub, rest⟩, h1, h2⟩ := bind_ok.1 h
              simp only at h2
              split at h2
              · split at h2
                · split at h2
                  · exact sub_next H ht h1 trivial rfl h2 trivial (by simp [Job.toks])
                  · simp at h2
                · simp at h2
              · split at h2
                · exact sub_next H ht h1 trivial rfl h2 trivial (by simp [Job.toks, toks_addTags])
                · simp at h2

theorem emptyIter_good (brk : List Breaker) (acc : List Node) (up : Bool) (ts : List Token)
    (r : Node × List Token) (ht : TsOk s Q ts) (h : emptyIter rec brk acc up ts = .ok r) :
    Good s (toksL acc) ts r := by
  cases ts with
  | nil => simp only [emptyIter, Except.ok.injEq] at h; subst h; exact Good.stop (by simp)
  | cons t ts =>
    simp only [emptyIter] at h
    split at h
    · simp only [Except.ok.injEq] at h; subst h; exact Good.stop (by simp)
    · split at h
      · exact tok_next H ht h trivial (by simp [Job.toks])
      · split at h
        · exact tok_next H ht h trivial (by simp [Job.toks])
        · obtain ⟨⟨sub, rest⟩, h1, h2⟩ := bind_ok.1 h
          exact sub_next H ht (must_ok h1).1 trivial rfl h2 trivial (by simp [Job.toks])

theorem foreachStdStart_good (brk : List Breaker) (up : Bool) (ts : List Token)
    (r : Node × List Token) (ht : TsOk s Q ts) (h : foreachStdStart rec brk up ts = .ok r) :
    Good s [] ts r := by
  simp only [foreachStdStart] at h
  obtain ⟨⟨sub, rest⟩, h1, h2⟩ := bind_ok.1 h
  obtain ⟨⟨sub2, rest2⟩, h3, h4⟩ := bind_ok.1 h2
  simp only [pure_ok] at h4
  subst h4
  apply Good.skipWs
  have g1 := H _ _ _ _ (must_ok h1).1 trivial ht.dropWs
  have g2 := H _ _ _ _ (must_ok h3).1 trivial (ht.dropWs.good g1)
  exact Good.sub g1 (Good.sub g2 (Good.stop (by simp)))

theorem foreachInStart_good (brk : List Breaker) (up : Bool) (ts : List Token)
    (r : Node × List Token) (ht : TsOk s Q ts) (h : foreachInStart rec brk up ts = .ok r) :
    Good s [] ts r := by
  simp only [foreachInStart] at h
  obtain ⟨⟨sub, rest⟩, h1, h2⟩ := bind_ok.1 h
  apply Good.skipWs
  exact sub_next H ht.dropWs (must_ok h1).1 trivial rfl h2 trivial (by simp [Job.toks])

theorem foreachInIter_good (brk : List Breaker) (acc : List Node) (up : Bool) (ts : List Token)
    (r : Node × List Token) (ht : TsOk s Q ts) (h : foreachInIter rec brk acc up ts = .ok r) :
    Good s (toksL acc) ts r := by
  cases ts with
  | nil => simp only [foreachInIter, Except.ok.injEq] at h; subst h; exact Good.stop (by simp)
  | cons t ts =>
    simp only [foreachInIter] at h
    split at h
    · simp only [Except.ok.injEq] at h; subst h; exact Good.stop (by simp)
    · split at h
      · exact tok_next H ht h trivial (by simp [Job.toks])
      · split at h
        · exact tok_next H ht h trivial (by simp [Job.toks])
        · split at h
          · obtain ⟨⟨sub, rest⟩, h1, h2⟩ := bind_ok.1 h
            exact sub_next H ht (must_ok h1).1 (.positional _) rfl h2 trivial (by simp [Job.toks])
          · obtain ⟨⟨sub, rest⟩, h1, h2⟩ := bind_ok.1 h
            exact sub_next H ht (must_ok h1).1 trivial rfl h2 trivial (by simp [Job.toks])

theorem objStart_good (brk : List Breaker) (up : Bool) (ts : List Token)
    (r : Node × List Token) (ht : TsOk s Q ts) (h : objStart rec brk up ts = .ok r) :
    Good s [] ts r := by
  simp only [objStart] at h
  obtain ⟨⟨sub, rest⟩, h1, h2⟩ := bind_ok.1 h
  apply Good.skipWs
  exact sub_next H ht.dropWs (must_ok h1).1 trivial rfl h2 trivial (by simp [Job.toks])

theorem objIter_good (brk : List Breaker) (acc : List Node) (up : Bool) (ts : List Token)
    (r : Node × List Token) (ht : TsOk s Q ts) (h : objIter rec brk acc up ts = .ok r) :
    Good s (toksL acc) ts r := by
  cases ts with
  | nil => simp only [objIter, Except.ok.injEq] at h; subst h; exact Good.stop (by simp)
  | cons t ts =>
    simp only [objIter] at h
    split at h
    · simp only [Except.ok.injEq] at h; subst h; exact Good.stop (by simp)
    · split at h
      · exact tok_next H ht h trivial (by simp [Job.toks])
      · split at h
        · exact tok_next H ht h trivial (by simp [Job.toks])
        · obtain ⟨⟨sub, rest⟩, h1, h2⟩ := bind_ok.1 h
          exact sub_next H ht (must_ok h1).1 trivial rfl h2 trivial (by simp [Job.toks])

omit H in
theorem targetKwargs_ok : ∀ kp ∈ targetKwargs, ArgOk s false kp.2 := by
  intro kp h
  simp only [targetKwargs, List.mem_cons, List.not_mem_nil, or_false, pos] at h
  rcases h with rfl | rfl | rfl | rfl | rfl | rfl | rfl <;> constructor

omit H in
theorem installKwargs_ok : ∀ kp ∈ installKwargs, ArgOk s false kp.2 := by
  intro kp h
  simp only [installKwargs, List.mem_cons, List.not_mem_nil, or_false, pos] at h
  rcases h with rfl | rfl | rfl | rfl | rfl | rfl | rfl | rfl <;> constructor

theorem targetIter_good (state : Nat) (brk : List Breaker) (acc : List Node) (up : Bool)
    (ts : List Token) (r : Node × List Token) (ht : TsOk s Q ts)
    (h : targetIter rec state brk acc up ts = .ok r) : Good s (toksL acc) ts r := by
  cases ts with
  | nil => simp only [targetIter, Except.ok.injEq] at h; subst h; exact Good.stop (by simp)
  | cons t ts =>
    simp only [targetIter] at h
    split at h
    · simp only [Except.ok.injEq] at h; subst h; exact Good.stop (by simp)
    · split at h
      · exact tok_next H ht h trivial (by simp [Job.toks])
      · split at h
        · exact tok_next H ht h trivial (by simp [Job.toks])
        · split at h
          · obtain ⟨⟨sub, rest⟩, h1, h2⟩ := bind_ok.1 h
            exact sub_next H ht (must_ok h1).1 trivial rfl h2 trivial (by simp [Job.toks])
          · split at h
            · split at h
              · simpa [Job.toks] using H _ _ _ _ h trivial ht
              · obtain ⟨⟨sub, rest⟩, h1, h2⟩ := bind_ok.1 h
                exact sub_next H ht (must_ok h1).1 trivial rfl h2 trivial (by simp [Job.toks])
            · split at h
              · obtain ⟨⟨sub, rest⟩, h1, h2⟩ := bind_ok.1 h
                exact sub_next H ht (must_ok h1).1 trivial (by simp [Job.toks]) h2 trivial
                  (by simp [Job.toks])
              · split at h
                · rename_i w p hl
                  obtain ⟨⟨sub, rest⟩, h1, h2⟩ := bind_ok.1 h
                  exact sub_next H ht (must_ok h1).1 (targetKwargs_ok _ (lookup_kw hl).1) rfl h2 trivial
                    (by simp [Job.toks])
                · obtain ⟨⟨sub, rest⟩, h1, h2⟩ := bind_ok.1 h
                  exact sub_next H ht (must_ok h1).1 trivial rfl h2 trivial (by simp [Job.toks])

theorem installIter_good (brk : List Breaker) (acc : List Node) (up : Bool)
    (ts : List Token) (r : Node × List Token) (ht : TsOk s Q ts)
    (h : installIter rec brk acc up ts = .ok r) : Good s (toksL acc) ts r := by
  cases ts with
  | nil => simp only [installIter, Except.ok.injEq] at h; subst h; exact Good.stop (by simp [stdNode])
  | cons t ts =>
    simp only [installIter] at h
    split at h
    · simp only [Except.ok.injEq] at h; subst h; exact Good.stop (by simp [stdNode])
    · split at h
      · exact tok_next H ht h trivial (by simp [Job.toks])
      · split at h
        · exact tok_next H ht h trivial (by simp [Job.toks])
        · split at h
          · obtain ⟨⟨sub, rest⟩, h1, h2⟩ := bind_ok.1 h
            exact sub_next H ht (must_ok h1).1 .installTargets rfl h2 trivial (by simp [Job.toks])
          · split at h
            · rename_i w p hl
              obtain ⟨⟨sub, rest⟩, h1, h2⟩ := bind_ok.1 h
              exact sub_next H ht (must_ok h1).1 (installKwargs_ok _ (lookup_kw hl).1) rfl h2 trivial
                (by simp [Job.toks])
            · obtain ⟨⟨sub, rest⟩, h1, h2⟩ := bind_ok.1 h
              exact sub_next H ht (must_ok h1).1 trivial rfl h2 trivial (by simp [Job.toks])

omit H in
theorem Good.wsComments {pre ts : List Token} {n : Nat} {r : Node × List Token}
    (h : Good s (pre ++ toksL (wsComments n ts).1) (wsComments n ts).2 r) : Good s pre ts r := by
  have := h.advance
  rwa [wsComments_splits] at this

omit H in
theorem TsOk.wsComments {ts : List Token} (h : TsOk s Q ts) (n : Nat) : TsOk s Q (wsComments n ts).2 := by
  rw [← wsComments_splits n ts] at h; exact h.suffix

theorem fileWriteStart_good (brk : List Breaker) (up : Bool) (ts : List Token)
    (r : Node × List Token) (ht : TsOk s Q ts) (h : fileWriteStart rec brk up ts = .ok r) :
    Good s [] ts r := by
  simp only [fileWriteStart] at h
  obtain ⟨⟨sub, rest⟩, h1, h2⟩ := bind_ok.1 h
  obtain ⟨⟨sub2, rest2⟩, h3, h4⟩ := bind_ok.1 h2
  simp only [pure_ok] at h4
  subst h4
  have g1 := H _ _ _ _ h1 trivial (ht.wsComments _)
  have ht1 := (ht.wsComments _).good g1
  have g2 := H _ _ _ _ h3 trivial (ht1.wsComments _)
  refine Good.wsComments (n := ts.length) (Good.sub g1 (Good.wsComments (n := rest.length) (Good.sub g2 ?_)))
  exact Good.stop (by simp)

omit H in
theorem Good.rel {a b ts : List Token} {r : Node × List Token} (h : Rel s a b) (g : Good s a ts r) :
    Good s b ts r := by
  obtain ⟨c, e, hc⟩ := g
  exact ⟨c, e, hc.trans (h.append (Rel.refl s c))⟩

omit H in
theorem toksL_tupleChildren (acc : List Node) (grp : Option (List Node)) (after : List Node) :
    toksL (tupleChildren acc grp after) = toksL acc ++ toksL (grp.getD []) ++ toksL after := by
  cases grp <;> simp [tupleChildren]

omit H in
theorem nosem_of {t : Token} (h : isWs t = true ∨ isAnyComment t = true ∨ isOnOff t = true) :
    isSemantic t = false := by
  simp only [isSemantic]
  rcases h with h | h | h <;> simp [h]

theorem tupleIter_good (npargs : Nargs) (ntup : Nat) (flags : List Str) (brk : List Breaker)
    (acc : List Node) (grp : Option (List Node)) (after : List Node) (np nt : Nat) (up : Bool)
    (ts : List Token) (r : Node × List Token) (ht : TsOk s Q ts) (hs : s = false)
    (ha : ∀ t ∈ toksL after, isSemantic t = false)
    (h : tupleIter ctx rec npargs ntup flags brk acc grp after np nt up ts = .ok r) :
    Good s (toksL (tupleChildren acc grp after)) ts r := by
  subst hs
  cases ts with
  | nil => simp only [tupleIter, Except.ok.injEq] at h; subst h; exact Good.stop (by simp)
  | cons t ts =>
    simp only [tupleIter] at h
    obtain ⟨full, hf, h⟩ := bind_ok.1 h
    split at h
    · simp only [pure_ok] at h; subst h; exact Good.stop (by simp)
    · split at h
      · simp only [pure_ok] at h; subst h; exact Good.stop (by simp)
      · split at h
        · rename_i hw
          refine tok_next H ht h ⟨rfl, ?_⟩ (by simp [Job.toks, toksL_tupleChildren])
          intro x hx
          simp only [toksL_append, toksL_cons, toks_tok, toksL_nil, List.append_nil, List.mem_append,
            List.mem_singleton] at hx
          rcases hx with hx | rfl
          · exact ha x hx
          · exact nosem_of (Or.inl hw)
        · split at h
          · rename_i hw hc
            refine tok_next H ht h ⟨rfl, ?_⟩ (by simp [Job.toks, toksL_tupleChildren])
            intro x hx
            simp only [toksL_append, toksL_cons, toks_mk, toks_tok, toksL_nil, List.append_nil,
              List.mem_append, List.mem_singleton] at hx
            rcases hx with hx | rfl
            · exact ha x hx
            · exact nosem_of (Or.inr (Or.inl hc))
          · rename_i hw hc
            cases ts with
            | nil => simp at h
            | cons u us =>
              simp only at h
              split at h
              · rename_i hon
                rcases ht.unglued rfl t u ⟨[], us, by simp⟩ hon with h' | h'
                · exact absurd h' hw
                · exact absurd h' hc
              · have swap : ∀ (a g ct : List Token), Rel false (a ++ (g ++ ct) ++ toksL after)
                    (a ++ g ++ toksL after ++ ct) := by
                  intro a g ct
                  have := (Rel.refl false (a ++ g)).append (Rel.swap ct (toksL after) ha)
                  simpa using this
                apply Good.trailing (ctx := ctx)
                have hrest := ht.trailing (ctx := ctx)
                generalize hct : mk (if kwargIn t flags = true then NT.flag else NT.argument)
                  (Node.tok t :: (consumeTrailing ctx (u :: us)).1) = child at h
                have ec : t :: toksL (consumeTrailing ctx (u :: us)).1 = child.toks := by
                  rw [← hct]; simp
                rw [ec]
                cases grp with
                | none =>
                  simp only at h
                  split at h
                  · have g := H _ _ _ _ h ⟨rfl, by simp⟩ hrest
                    simpa [Job.toks, toksL_tupleChildren] using g
                  · have g := H _ _ _ _ h ⟨rfl, by simp⟩ hrest
                    simpa [Job.toks, toksL_tupleChildren] using g
                | some g0 =>
                  simp only at h
                  split at h
                  · have g := H _ _ _ _ h ⟨rfl, by simp⟩ hrest
                    refine Good.rel ?_ g
                    simpa [Job.toks, toksL_tupleChildren] using swap (toksL acc) (toksL g0) child.toks
                  · have g := H _ _ _ _ h ⟨rfl, ha⟩ hrest
                    refine Good.rel ?_ g
                    simpa [Job.toks, toksL_tupleChildren] using swap (toksL acc) (toksL g0) child.toks

omit H in
theorem toks_srcNode (lib : Bool) (state : Nat) (srcSortable : Bool) (before parg src after : List Node)
    (hp : state ≤ 1 → parg = []) (hs : state < lastState lib → src = []) :
    (srcNode (lastState lib) state srcSortable before parg src after).toks =
      toksL before ++ toksL parg ++ toksL src ++ toksL after := by
  simp only [srcNode, toks_mk, toksL_append]
  congr 2
  · congr 1
    split
    · simp
    · rw [hp (by omega)]
  · split
    · simp
    · rw [hs (by omega)]

omit H in
theorem onlyComments_tail {brk : List Breaker} {t : Token} {ts : List Token}
    (h : onlyCommentsRemain brk (t :: ts) = true) (hw : isWs t = true ∨ isAnyComment t = true) :
    onlyCommentsRemain brk ts = true := by
  simp only [onlyCommentsRemain] at h
  rcases hw with hw | hw <;> simpa [hw] using h

omit H in
theorem lastState_ge (lib : Bool) : 3 ≤ lastState lib ∧ lastState lib ≤ 4 := by
  cases lib <;> simp [lastState]

/-- Putting a blank or comment at the current depth. -/
theorem src_put (lib : Bool) (brk : List Breaker) (state : Nat) (sortable srcSortable inAfter : Bool)
    (before parg src after : List Node) (up : Bool) (t : Token) (ts : List Token) (n : Node)
    (r : Node × List Token) (ht : TsOk s Q (t :: ts)) (hn : n.toks = [t])
    (hw : isWs t = true ∨ isAnyComment t = true)
    (ok : SrcOk s lib brk state inAfter parg src after (t :: ts))
    (h : (if state ≤ 1 then
        rec (.srcLoop lib brk state sortable srcSortable inAfter (before ++ [n]) parg src after) up ts
      else if inAfter = true then
        rec (.srcLoop lib brk state sortable srcSortable inAfter before parg src (after ++ [n])) up ts
      else if state < lastState lib then
        rec (.srcLoop lib brk state sortable srcSortable inAfter before (parg ++ [n]) src after) up ts
      else
        rec (.srcLoop lib brk state sortable srcSortable inAfter before parg (src ++ [n]) after) up ts)
      = .ok r) :
    Good s (toksL before ++ toksL parg ++ toksL src ++ toksL after) (t :: ts) r := by
  have hl := lastState_ge lib
  have hrem : s = true → inAfter = true → onlyCommentsRemain brk ts = true :=
    fun e ea => onlyComments_tail (ok.remain e ea) hw
  split at h
  · rename_i h1
    have e1 := ok.noParg h1
    have e2 := ok.noSrc (by omega)
    have hia : inAfter = false := by
      cases hi : inAfter with
      | false => rfl
      | true => have := ok.last hi; omega
    have e3 := ok.noAfter hia
    subst e1 e2 e3
    refine tok_next H ht h ?_ (by simp [Job.toks, hn])
    exact ⟨ok.nosem, ok.noParg, ok.noSrc, ok.noAfter, ok.last, ok.le, ok.top, hrem⟩
  · rename_i h1
    split at h
    · rename_i hia
      refine tok_next H ht h ?_ (by simp [Job.toks, hn])
      refine ⟨?_, ok.noParg, ok.noSrc, by simp [hia], ok.last, ok.le, ok.top, hrem⟩
      intro x hx
      simp only [toksL_append, toksL_cons, toksL_nil, List.append_nil, hn, List.mem_append,
        List.mem_singleton] at hx
      rcases hx with hx | rfl
      · exact ok.nosem x hx
      · rcases hw with hw | hw
        · exact nosem_of (Or.inl hw)
        · exact nosem_of (Or.inr (Or.inl hw))
    · rename_i hia
      have hia : inAfter = false := by simpa using hia
      have e3 := ok.noAfter hia
      subst e3
      split at h
      · rename_i h2
        have e2 := ok.noSrc h2
        subst e2
        refine tok_next H ht h ?_ (by simp [Job.toks, hn])
        exact ⟨ok.nosem, fun e => by omega, ok.noSrc, ok.noAfter, ok.last, ok.le, ok.top, hrem⟩
      · refine tok_next H ht h ?_ (by simp [Job.toks, hn])
        exact ⟨ok.nosem, ok.noParg, fun e => by omega, ok.noAfter, ok.last, ok.le, ok.top, hrem⟩

theorem srcIter_good (lib : Bool) (brk : List Breaker) (state : Nat)
    (sortable srcSortable inAfter : Bool) (before parg src after : List Node) (up : Bool)
    (ts : List Token) (r : Node × List Token) (ht : TsOk s Q ts)
    (ok : SrcOk s lib brk state inAfter parg src after ts)
    (h : srcIter ctx rec lib brk state sortable srcSortable inAfter before parg src after up ts = .ok r) :
    Good s (toksL before ++ toksL parg ++ toksL src ++ toksL after) ts r := by
  have hl := lastState_ge lib
  cases ts with
  | nil =>
    simp only [srcIter, Except.ok.injEq] at h; subst h
    exact Good.stop (toks_srcNode lib state srcSortable before parg src after ok.noParg ok.noSrc)
  | cons t ts =>
    simp only [srcIter] at h
    split at h
    · simp only [Except.ok.injEq] at h; subst h
      exact Good.stop (toks_srcNode lib state srcSortable before parg src after ok.noParg ok.noSrc)
    · rename_i hrp
      split at h
      · rename_i hw
        exact src_put H lib brk state _ _ _ before parg src after up t ts _ r ht (by simp)
          (Or.inl hw) ok h
      · rename_i hw
        split at h
        · rename_i hc
          exact src_put H lib brk state _ _ _ before parg src after up t ts _ r ht (by simp)
            (Or.inr hc) ok h
        · rename_i hc
          have hia : s = true → inAfter = false := by
            intro e
            cases hi : inAfter with
            | false => rfl
            | true =>
              have := ok.remain e hi
              rw [ok.top e] at this
              simp [onlyCommentsRemain, hw, hc, shouldBreak, Breaker.fires] at this
              simp [this] at hrp
          have hrest := ht.trailing (ctx := ctx)
          split at h
          · rename_i h1
            have e1 := ok.noParg h1
            have e2 := ok.noSrc (by omega)
            have hia : inAfter = false := by
              cases hi : inAfter with
              | false => rfl
              | true => have := ok.last hi; omega
            have e3 := ok.noAfter hia
            subst e1 e2 e3
            apply Good.trailing (ctx := ctx)
            have g := H _ _ _ _ h ⟨by simp, by simp, by simp, by simp, by simp [hia], by omega, ok.top,
              by simp [hia]⟩ hrest
            simpa [Job.toks] using g
          · rename_i h1
            split at h
            · rename_i h2
              have e2 := ok.noSrc h2
              have hia : inAfter = false := by
                cases hi : inAfter with
                | false => rfl
                | true => have := ok.last hi; omega
              have e3 := ok.noAfter hia
              subst e2 e3
              split at h
              · generalize (if state = 2 then [S "STATIC", S "SHARED", S "MODULE", S "OBJECT"]
                  else [S "EXCLUDE_FROM_ALL"]) = fl at h
                split at h
                · apply Good.trailing (ctx := ctx)
                  have g := H _ _ _ _ h ⟨by simp, fun e => by omega, by simp, by simp,
                    by simp [hia], by omega, ok.top, by simp [hia]⟩ hrest
                  simpa [Job.toks] using g
                · have g := H _ _ _ _ h ⟨by simp, fun e => by omega, by simp, by simp,
                    by simp [hia], by omega, ok.top, by simp [hia]⟩ ht
                  simpa [Job.toks] using g
              · split at h
                · apply Good.trailing (ctx := ctx)
                  have g := H _ _ _ _ h ⟨by simp, fun e => by omega, by simp, by simp,
                    by simp [hia], by omega, ok.top, by simp [hia]⟩ hrest
                  simpa [Job.toks] using g
                · have g := H _ _ _ _ h ⟨by simp, fun e => by omega, by simp, by simp,
                    by simp [hia], by omega, ok.top, by simp [hia]⟩ ht
                  simpa [Job.toks] using g
            · rename_i h2
              apply Good.trailing (ctx := ctx)
              have g := H _ _ _ _ h (by
                refine ⟨ok.nosem, fun e => by omega, fun e => by omega, ?_, fun e => by omega, ok.le,
                  ok.top, ?_⟩
                · intro e
                  simp only [Bool.or_eq_false_iff] at e
                  exact ok.noAfter e.1
                · intro e e'
                  rw [hia e] at e'
                  simpa using e') hrest
              cases hss : s with
              | true =>
                have := ok.noAfter (hia hss)
                subst this
                subst hss
                simpa [Job.toks] using g
              | false =>
                subst hss
                refine Good.rel ?_ g
                simp only [Job.toks, toksL_append, toksL_cons, toks_mk, toks_tok, toksL_nil, List.append_nil]
                have := (Rel.refl false (toksL before ++ toksL parg ++ toksL src)).append
                  (Rel.swap (t :: toksL (consumeTrailing ctx ts).1) (toksL after) ok.nosem)
                simpa using this

theorem argStart_good (p : ArgP) (brk : List Breaker) (up : Bool) (ts : List Token)
    (r : Node × List Token) (ht : TsOk s Q ts) (top : Bool) (htop : top = true → brk = [.paren])
    (hp : ArgOk s top p) (h : argStart rec p brk up ts = .ok r) : Good s [] ts r := by
  cases hp with
  | standard cmd specs kwargs hk => exact stdStart_good H cmd specs kwargs brk up ts r ht hk h
  | positional spec => exact H _ _ _ _ h trivial ht
  | conditional =>
    apply Good.skipWs
    simpa [Job.toks] using H _ _ _ _ h trivial ht.dropWs
  | tuple n k f hs =>
    have := H _ _ _ _ h ⟨hs, by simp⟩ ht
    simpa [Job.toks, tupleChildren] using this
  | shell =>
    simp only [argStart] at h
    obtain ⟨⟨n, rest⟩, h1, h2⟩ := bind_ok.1 h
    simp only [pure_ok] at h2
    subst h2
    have g := H _ _ _ _ h1 ⟨false, by simp, .standard _ _ _ (by simp)⟩ ht
    simpa [Good, toks_tagGroups, Job.toks] using g
  | null =>
    simp only [argStart, Except.ok.injEq] at h
    subst h
    exact Good.stop (by simp)
  | setFn => exact setStart_good H brk up ts r ht h
  | emptyFn => exact H _ _ _ _ h trivial ht
  | foreachStandard => exact foreachStdStart_good H brk up ts r ht h
  | foreachIn => exact foreachInStart_good H brk up ts r ht h
  | addSources lib sortable hs =>
    apply Good.skipWs
    have := H _ _ _ _ h ⟨by simp, by simp, by simp, by simp, by simp, by cases lib <;> simp [lastState],
      fun e => htop (hs e), by simp⟩ ht.dropWs
    simpa [Job.toks] using this
  | addLibraryObject => exact objStart_good H brk up ts r ht h
  | customTarget =>
    apply Good.skipWs
    simpa [Job.toks] using H _ _ _ _ h trivial ht.dropWs
  | fileWrite => exact fileWriteStart_good H brk up ts r ht h
  | installTargets =>
    apply Good.skipWs
    simpa [Job.toks] using H _ _ _ _ h trivial ht.dropWs
  | choose f hf =>
    simp only [argStart] at h
    split at h
    · simp at h
    · rename_i q hq
      exact H _ _ _ _ h ⟨top, htop, hf _ _ hq⟩ ht

theorem stmtIter_good (hc : CtxOk s Q ctx) (ts : List Token) (r : Node × List Token) (ht : TsOk s Q ts)
    (h : stmtIter ctx rec ts = .ok r) : Good s [] ts r := by
  cases ts with
  | nil => simp [stmtIter] at h
  | cons t ts =>
    simp only [stmtIter] at h
    have e1 := ws_split ts
    cases hd : ts.dropWhile isWs with
    | nil => rw [hd] at h; simp at h
    | cons l ts1 =>
      rw [hd] at h e1
      simp only at h
      split at h
      · simp at h
      · obtain ⟨⟨sub, rest⟩, h1, h⟩ := bind_ok.1 h
        obtain ⟨⟨tail, rest1⟩, h2, h⟩ := bind_ok.1 h
        simp only at h
        cases rest1 with
        | nil => simp at h
        | cons q rest2 =>
          simp only [pure_ok] at h
          subst h
          have ht1 : TsOk s Q ts1 := by
            have := ht.tail; rw [e1] at this; exact this.suffix.tail
          have g := H _ _ _ _ h1 ⟨true, fun _ => rfl, hc t (ht.cmds t (by simp))⟩ ht1.dropWs
          have e2 : toksL tail ++ q :: rest2 = rest := stmtTail_splits _ _ _ _ h2
          have e3 := consumeTrailing_splits ctx rest2
          have ew := ws_split ts1
          clear h1 h2 hd
          generalize ts.takeWhile isWs = w1 at *
          generalize ts1.takeWhile isWs = w2 at *
          generalize ts1.dropWhile isWs = ts2 at *
          subst e1 ew
          refine Good.advance (pre := []) (c := [t]) ?_
          apply Good.advance
          refine Good.advance (c := [l]) ?_
          apply Good.advance
          refine Good.sub g ?_
          refine ⟨toksL tail ++ [q] ++ toksL (consumeTrailing ctx rest2).1, ?_, Rel.of_eq ?_⟩
          · rw [← e2]
            simp [e3]
          · simp

theorem flowIter_good (ts : List Token) (r : Node × List Token) (ht : TsOk s Q ts)
    (h : flowIter rec ts = .ok r) : Good s [] ts r := by
  cases ts with
  | nil => simp [flowIter] at h
  | cons t ts =>
    simp only [flowIter] at h
    split at h
    · simpa [Job.toks] using H _ _ _ _ h trivial ht
    · obtain ⟨⟨o, rest1⟩, h1, h⟩ := bind_ok.1 h
      obtain ⟨⟨b, rest2⟩, h2, h⟩ := bind_ok.1 h
      obtain ⟨⟨c, rest3⟩, h3, h⟩ := bind_ok.1 h
      simp only [pure_ok] at h
      subst h
      have g1 := H _ _ _ _ h1 trivial ht
      have g2 := H _ _ _ _ h2 trivial (ht.good g1)
      have g3 := H _ _ _ _ h3 trivial ((ht.good g1).good g2)
      exact Good.sub g1 (Good.sub (by simpa [Job.toks] using g2) (Good.sub g3 (Good.stop (by simp))))

theorem ifIter_good (acc : List Node) (ts : List Token) (r : Node × List Token) (ht : TsOk s Q ts)
    (h : ifIter rec acc ts = .ok r) : Good s (toksL acc) ts r := by
  cases ts with
  | nil => simp only [ifIter, Except.ok.injEq] at h; subst h; exact Good.stop (by simp)
  | cons t ts =>
    simp only [ifIter] at h
    split at h
    · obtain ⟨⟨o, rest1⟩, h1, h⟩ := bind_ok.1 h
      simp only [pure_ok] at h
      subst h
      exact Good.sub (H _ _ _ _ h1 trivial ht) (Good.stop (by simp))
    · obtain ⟨⟨o, rest1⟩, h1, h⟩ := bind_ok.1 h
      obtain ⟨⟨b, rest2⟩, h2, h⟩ := bind_ok.1 h
      have g1 := H _ _ _ _ h1 trivial ht
      have g2 := H _ _ _ _ h2 trivial (ht.good g1)
      have g3 := H _ _ _ _ h trivial ((ht.good g1).good g2)
      exact Good.sub g1 (Good.sub (by simpa [Job.toks] using g2) (by simpa [Job.toks] using g3))

theorem bodyIter_good (breakset : List Str) (acc : List Node) (ts : List Token)
    (r : Node × List Token) (ht : TsOk s Q ts) (h : bodyIter ctx rec breakset acc ts = .ok r) :
    Good s (toksL acc) ts r := by
  cases ts with
  | nil => simp only [bodyIter, Except.ok.injEq] at h; subst h; exact Good.stop (by simp)
  | cons t ts =>
    simp only [bodyIter] at h
    split at h
    · have g := H _ _ _ _ h trivial ht.dropWs
      have := Good.advance (pre := toksL acc) (c := (t :: ts).takeWhile isWs)
        (rest := (t :: ts).dropWhile isWs) (by simpa [Job.toks] using g)
      rwa [← ws_split] at this
    · split at h
      · exact Good.comment (by simpa [Job.toks] using H _ _ _ _ h trivial ht.comment)
      · split at h
        · exact tok_next H ht h trivial (by simp [Job.toks])
        · split at h
          · split at h
            · simp only [Except.ok.injEq] at h; subst h; exact Good.stop (by simp)
            · split at h
              · obtain ⟨⟨sub, rest⟩, h1, h2⟩ := bind_ok.1 h
                exact sub_next H ht h1 trivial rfl h2 trivial (by simp [Job.toks])
              · obtain ⟨⟨sub, rest⟩, h1, h2⟩ := bind_ok.1 h
                exact sub_next H ht h1 trivial rfl h2 trivial (by simp [Job.toks])
          · split at h
            · exact Good.trailing (ctx := ctx)
                (by simpa [Job.toks] using H _ _ _ _ h trivial (ht.trailing (ctx := ctx)))
            · split at h
              · rename_i hb
                exact absurd (by simpa using hb) (ht.nobom t (by simp))
              · simp at h

theorem step_holds (hc : CtxOk s Q ctx) : Holds s Q (step ctx rec) := by
  intro job up ts r h ok ht
  cases job with
  | arg p brk =>
    obtain ⟨top, h1, h2⟩ := ok
    exact argStart_good H p brk up ts r ht top h1 h2 h
  | stdLoop cmd specs dflt kwargs brk kbrk acc => exact stdIter_good H _ _ _ _ _ _ _ _ _ _ ht ok h
  | pos spec brk => exact posStart_good H _ _ _ _ _ ht h
  | posLoop spec brk sortable acc n => exact posIter_good H _ _ _ _ _ _ _ _ ht h
  | kwGroup word p brk => exact kwIter_good H _ _ _ _ _ ht ok h
  | paren => exact parenIter_good H _ _ ht h
  | condLoop brk acc => exact condIter_good H _ _ _ _ _ ht h
  | tupleLoop npargs ntup flags brk acc grp after np nt =>
    exact tupleIter_good H _ _ _ _ _ _ _ _ _ _ _ _ ht ok.1 ok.2 h
  | flagLoop flags brk acc => exact flagIter_good H _ _ _ _ _ _ ht h
  | setLoop varname brk acc => exact setIter_good H _ _ _ _ _ _ ht h
  | emptyLoop brk acc => exact emptyIter_good H _ _ _ _ _ ht h
  | foreachInLoop brk acc => exact foreachInIter_good H _ _ _ _ _ ht h
  | srcLoop lib brk state sortable srcSortable inAfter before parg src after =>
    exact srcIter_good H _ _ _ _ _ _ _ _ _ _ _ _ _ ht ok h
  | objLoop brk acc => exact objIter_good H _ _ _ _ _ ht h
  | targetLoop state brk acc => exact targetIter_good H _ _ _ _ _ _ ht h
  | installLoop brk acc => exact installIter_good H _ _ _ _ _ ht h
  | statement => exact stmtIter_good H hc _ _ ht h
  | flow => exact flowIter_good H _ _ ht h
  | ifLoop acc => exact ifIter_good H _ _ _ ht h
  | body breakset acc => exact bodyIter_good H _ _ _ _ ht h

omit H in
theorem exec_holds (hc : CtxOk s Q ctx) (n : Nat) : Holds s Q (exec ctx n) := by
  induction n with
  | zero => intro job up ts r h; simp [exec] at h
  | succ n ih => exact step_holds ih hc

end
end Verif.Parse
