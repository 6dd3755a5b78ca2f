import Verif.ParseSameJobs

/-!
# More jobs of the parser on lists that differ in blanks (lemmas for C59)
-/

namespace Verif.Parse
open Verif Py Lex

section
variable {ctx : Ctx} {n : Nat} (C : CtxSame ctx) (H : SimAt ctx n)
include C H

/-! ## Lists of flags -/

omit C in
theorem flagIter_lock {t u : Token} {ts us : List Token} (L : Lock t u ts us) (flags : List Str) (brk : List Breaker)
    (acc acc' : List Node) (up up' : Bool) (r : Node × List Token) (hb : VisB brk)
    (hacc : bareL acc = bareL acc') (h : flagIter ctx (exec ctx n) flags brk acc up (t :: ts) = .ok r)
    (hs : HasSem r.2) : Concl ctx (fun rec => flagIter ctx rec flags brk acc' up' (u :: us)) r := by
  simp only [flagIter, L.wt, Bool.false_eq_true, if_false, L.trail] at h
  simp only [flagIter, L.wu, Bool.false_eq_true, if_false, L.trail', ← canon_shouldBreak L.same,
    ← canon_upper L.same]
  split at h
  · rename_i hbr
    simp only [Except.ok.injEq] at h; subst h
    simp only [hbr, if_true]
    exact Concl.stop (by simp [hacc]) L.all
  · rename_i hbr
    simp only [hbr, if_false, Bool.false_eq_true]
    split at h
    · rename_i hf
      simp only [Except.ok.injEq] at h; subst h
      simp only [hf, if_true]
      exact Concl.stop (by simp [hacc]) L.all
    · rename_i hf
      simp only [hf, if_false, Bool.false_eq_true]
      exact next_one H L h hs (.flagLoop _ _ _ _ hb (bareL_snoc hacc (L.leaf _)))

omit C in
theorem flagLoop_sim (flags : List Str) (brk : List Breaker) (acc acc' : List Node)
    (up up' : Bool) (ts us : List Token) (r : Node × List Token) (hb : VisB brk) (hacc : bareL acc = bareL acc')
    (ok : ListOk ts) (ok' : ListOk us) (hal : Alike ts us)
    (h : step ctx (exec ctx n) (.flagLoop flags brk acc) up ts = .ok r) (hs : HasSem r.2) (hts : HasSem ts) :
    Concl ctx (fun rec => rec (.flagLoop flags brk acc') up' us) r := by
  refine loop_of_lock H (fun a => .flagLoop flags brk a) (fun a b => a ++ [.tok b]) bareL
    (fun a b hb => bareL_push hb) up up' ?_ ?_ ?_ acc acc' ts us r hacc ok ok' hal h hs hts
  · intro up rec a b us hw okb
    simp only [step, flagIter, hw, if_true, blank_goes_on okb hw hb, Bool.false_eq_true, if_false]
  · intro ts us a a' he
    exact .flagLoop _ _ _ _ hb he
  · intro t u ts us a a' r he ht hu hc hal ok ok' h hs
    exact flagIter_lock H (Lock.mk' ht hu hc hal ok ok') _ _ _ _ _ _ _ hb he h hs

/-! ## `break` and its like -/

theorem emptyIter_lock {t u : Token} {ts us : List Token} (L : Lock t u ts us) (brk : List Breaker)
    (acc acc' : List Node) (up up' : Bool) (r : Node × List Token) (hb : VisB brk)
    (hacc : bareL acc = bareL acc') (h : emptyIter (exec ctx n) brk acc up (t :: ts) = .ok r)
    (hs : HasSem r.2) : Concl ctx (fun rec => emptyIter rec brk acc' up' (u :: us)) r := by
  simp only [emptyIter, L.wt, L.ct, Bool.false_eq_true, if_false] at h
  simp only [emptyIter, L.wu, L.cu, Bool.false_eq_true, if_false, ← canon_shouldBreak L.same]
  split at h
  · rename_i hbr
    simp only [Except.ok.injEq] at h; subst h
    simp only [hbr, if_true]
    exact Concl.stop (by simp [hacc]) L.all
  · rename_i hbr
    simp only [hbr, if_false, Bool.false_eq_true]
    obtain ⟨x, h1, h2⟩ := bind_ok.1 h
    exact sub_must C H L h1 (.pos _ _ hb) h2 hs (fun y => .emptyLoop brk (acc' ++ [y]))
      (fun y hy => .emptyLoop _ _ _ hb (bareL_snoc hacc hy))

theorem emptyLoop_sim (brk : List Breaker) (acc acc' : List Node)
    (up up' : Bool) (ts us : List Token) (r : Node × List Token) (hb : VisB brk) (hacc : bareL acc = bareL acc')
    (ok : ListOk ts) (ok' : ListOk us) (hal : Alike ts us)
    (h : step ctx (exec ctx n) (.emptyLoop brk acc) up ts = .ok r) (hs : HasSem r.2) (hts : HasSem ts) :
    Concl ctx (fun rec => rec (.emptyLoop brk acc') up' us) r := by
  refine loop_of_lock H (fun a => .emptyLoop brk a) (fun a b => a ++ [.tok b]) bareL
    (fun a b hb => bareL_push hb) up up' ?_ ?_ ?_ acc acc' ts us r hacc ok ok' hal h hs hts
  · intro up rec a b us hw okb
    simp only [step, emptyIter, hw, if_true, blank_goes_on okb hw hb, Bool.false_eq_true, if_false]
  · intro ts us a a' he
    exact .emptyLoop _ _ _ hb he
  · intro t u ts us a a' r he ht hu hc hal ok ok' h hs
    exact emptyIter_lock C H (Lock.mk' ht hu hc hal ok ok') _ _ _ _ _ _ hb he h hs

/-! ## `foreach(... IN ...)` -/

theorem foreachInIter_lock {t u : Token} {ts us : List Token} (L : Lock t u ts us) (brk : List Breaker)
    (acc acc' : List Node) (up up' : Bool) (r : Node × List Token) (hb : VisB brk)
    (hacc : bareL acc = bareL acc') (h : foreachInIter (exec ctx n) brk acc up (t :: ts) = .ok r)
    (hs : HasSem r.2) : Concl ctx (fun rec => foreachInIter rec brk acc' up' (u :: us)) r := by
  have hsb : VisB (brk ++ [kwBreaker [S "LISTS", S "ITEMS"]]) := visB_more hb (by decide)
  simp only [foreachInIter, L.wt, L.ct, Bool.false_eq_true, if_false, Bool.false_and] at h
  simp only [foreachInIter, L.wu, L.cu, Bool.false_eq_true, if_false, Bool.false_and, ← canon_shouldBreak L.same,
    ← canon_kwargIn L.same, ← canon_upper L.same]
  split at h
  · rename_i hbr
    simp only [Except.ok.injEq] at h; subst h
    simp only [hbr, if_true]
    exact Concl.stop (by simp [hacc]) L.all
  · rename_i hbr
    simp only [hbr, if_false, Bool.false_eq_true]
    split at h
    · rename_i hk
      simp only [hk, if_true]
      obtain ⟨x, h1, h2⟩ := bind_ok.1 h
      exact sub_must C H L h1 (.kwGroup _ _ _ (.positional _) hsb L.lead L.lead') h2 hs
        (fun y => .foreachInLoop brk (acc' ++ [y]))
        (fun y hy => .foreachInLoop _ _ _ hb (bareL_snoc hacc hy))
    · rename_i hk
      simp only [hk, if_false, Bool.false_eq_true]
      obtain ⟨x, h1, h2⟩ := bind_ok.1 h
      exact sub_must C H L h1 (.pos _ _ hsb) h2 hs (fun y => .foreachInLoop brk (acc' ++ [y]))
        (fun y hy => .foreachInLoop _ _ _ hb (bareL_snoc hacc hy))

theorem foreachInLoop_sim (brk : List Breaker) (acc acc' : List Node)
    (up up' : Bool) (ts us : List Token) (r : Node × List Token) (hb : VisB brk) (hacc : bareL acc = bareL acc')
    (ok : ListOk ts) (ok' : ListOk us) (hal : Alike ts us)
    (h : step ctx (exec ctx n) (.foreachInLoop brk acc) up ts = .ok r) (hs : HasSem r.2) (hts : HasSem ts) :
    Concl ctx (fun rec => rec (.foreachInLoop brk acc') up' us) r := by
  refine loop_of_lock H (fun a => .foreachInLoop brk a) (fun a b => a ++ [.tok b]) bareL
    (fun a b hb => bareL_push hb) up up' ?_ ?_ ?_ acc acc' ts us r hacc ok ok' hal h hs hts
  · intro up rec a b us hw okb
    simp only [step, foreachInIter, hw, if_true, blank_goes_on okb hw hb, Bool.false_eq_true, if_false]
  · intro ts us a a' he
    exact .foreachInLoop _ _ _ hb he
  · intro t u ts us a a' r he ht hu hc hal ok ok' h hs
    exact foreachInIter_lock C H (Lock.mk' ht hu hc hal ok ok') _ _ _ _ _ _ hb he h hs

/-! ## `add_library(... OBJECT ...)` -/

theorem objIter_lock {t u : Token} {ts us : List Token} (L : Lock t u ts us) (brk : List Breaker)
    (acc acc' : List Node) (up up' : Bool) (r : Node × List Token) (hb : VisB brk)
    (hacc : bareL acc = bareL acc') (h : objIter (exec ctx n) brk acc up (t :: ts) = .ok r)
    (hs : HasSem r.2) : Concl ctx (fun rec => objIter rec brk acc' up' (u :: us)) r := by
  simp only [objIter, L.wt, L.ct, Bool.false_eq_true, if_false, Bool.false_and] at h
  simp only [objIter, L.wu, L.cu, Bool.false_eq_true, if_false, Bool.false_and, ← canon_shouldBreak L.same]
  split at h
  · rename_i hbr
    simp only [Except.ok.injEq] at h; subst h
    simp only [hbr, if_true]
    exact Concl.stop (by simp [hacc]) L.all
  · rename_i hbr
    simp only [hbr, if_false, Bool.false_eq_true]
    obtain ⟨x, h1, h2⟩ := bind_ok.1 h
    exact sub_must C H L h1 (.pos _ _ hb) h2 hs (fun y => .objLoop brk (acc' ++ [y]))
      (fun y hy => .objLoop _ _ _ hb (bareL_snoc hacc hy))

theorem objLoop_sim (brk : List Breaker) (acc acc' : List Node)
    (up up' : Bool) (ts us : List Token) (r : Node × List Token) (hb : VisB brk) (hacc : bareL acc = bareL acc')
    (ok : ListOk ts) (ok' : ListOk us) (hal : Alike ts us)
    (h : step ctx (exec ctx n) (.objLoop brk acc) up ts = .ok r) (hs : HasSem r.2) (hts : HasSem ts) :
    Concl ctx (fun rec => rec (.objLoop brk acc') up' us) r := by
  refine loop_of_lock H (fun a => .objLoop brk a) (fun a b => a ++ [.tok b]) bareL
    (fun a b hb => bareL_push hb) up up' ?_ ?_ ?_ acc acc' ts us r hacc ok ok' hal h hs hts
  · intro up rec a b us hw okb
    simp only [step, objIter, hw, if_true, blank_goes_on okb hw hb, Bool.false_eq_true, if_false]
  · intro ts us a a' he
    exact .objLoop _ _ _ hb he
  · intro t u ts us a a' r he ht hu hc hal ok ok' h hs
    exact objIter_lock C H (Lock.mk' ht hu hc hal ok ok') _ _ _ _ _ _ hb he h hs

/-! ## `add_custom_target` -/

omit C H in
theorem mem_lookup {w : Str} {p : ArgP} {kw : List (Str × ArgP)} (h : kw.lookup w = some p) : (w, p) ∈ kw := by
  obtain ⟨a, b, he, _⟩ := List.lookup_eq_some_iff.1 h
  rw [he]; simp

omit C H in
theorem targetKwargs_good {w : Str} {p : ArgP} (h : targetKwargs.lookup w = some p) : GoodP false p := by
  have := mem_lookup h
  simp only [targetKwargs, Parse.pos, List.mem_cons, Prod.mk.injEq, List.not_mem_nil, or_false] at this
  rcases this with h | h | h | h | h | h | h <;> (obtain ⟨_, rfl⟩ := h; first | exact .positional _ | exact .shell)

omit C H in
theorem installKwargs_good {w : Str} {p : ArgP} (h : installKwargs.lookup w = some p) : GoodP false p := by
  have := mem_lookup h
  simp only [installKwargs, Parse.pos, List.mem_cons, Prod.mk.injEq, List.not_mem_nil, or_false] at this
  rcases this with h | h | h | h | h | h | h | h <;> (obtain ⟨_, rfl⟩ := h; exact .positional _)

omit C H in
theorem alike_head {ts us : List Token} (h : Alike ts us) :
    ((semantics ts).head? = none ∧ (semantics us).head? = none) ∨
    ∃ a b, (semantics ts).head? = some a ∧ (semantics us).head? = some b ∧ canon a = canon b := by
  simp only [Alike] at h
  cases ha : semantics ts with
  | nil =>
    rw [ha] at h
    have : semantics us = [] := by simpa using h.symm
    simp [this]
  | cons a l =>
    cases hb : semantics us with
    | nil => rw [ha, hb] at h; simp at h
    | cons b l' =>
      rw [ha, hb] at h
      simp only [List.map_cons, List.cons.injEq] at h
      exact Or.inr ⟨a, b, rfl, rfl, h.1⟩

theorem targetIter_lock {t u : Token} {ts us : List Token} (L : Lock t u ts us) (state : Nat) (brk : List Breaker)
    (acc acc' : List Node) (up up' : Bool) (r : Node × List Token) (hb : VisB brk)
    (hacc : bareL acc = bareL acc') (h : targetIter (exec ctx n) state brk acc up (t :: ts) = .ok r)
    (hs : HasSem r.2) : Concl ctx (fun rec => targetIter rec state brk acc' up' (u :: us)) r := by
  have hcb : VisB (brk ++ [kwBreaker (keys targetKwargs ++ targetFlags)]) := visB_more hb (by decide +kernel)
  have hfb : VisB (brk ++ [kwBreaker (keys targetKwargs)]) := visB_more hb (by decide +kernel)
  have hnext : ∀ s (x y : Node × List Token), bare x.1 = bare y.1 →
      JobSim x.2 y.2 (.targetLoop s brk (acc ++ [x.1])) (.targetLoop s brk (acc' ++ [y.1])) :=
    fun s x y hy => .targetLoop _ _ _ _ hb (bareL_snoc hacc hy)
  simp only [targetIter, L.wt, L.ct, Bool.false_eq_true, if_false] at h
  simp only [targetIter, L.wu, L.cu, Bool.false_eq_true, if_false, ← canon_shouldBreak L.same,
    ← canon_kwargIn L.same, ← canon_normKwarg L.same]
  split at h
  · rename_i hbr
    simp only [Except.ok.injEq] at h; subst h
    simp only [hbr, if_true]
    exact Concl.stop (by simp [hacc]) L.all
  · rename_i hbr
    simp only [hbr, if_false, Bool.false_eq_true]
    split at h
    · rename_i hst
      simp only [hst, if_true]
      obtain ⟨x, h1, h2⟩ := bind_ok.1 h
      rcases alike_head L.tail with ⟨ha, hb'⟩ | ⟨a, b, ha, hb', hc⟩
      · simp only [ha] at h1
        simp only [hb']
        exact sub_must C H L h1 (.pos _ _ hcb) h2 hs (fun y => .targetLoop 1 brk (acc' ++ [y])) (hnext 1 x)
      · simp only [ha] at h1
        simp only [hb', ← canon_normKwarg hc]
        exact sub_must C H L h1 (.pos _ _ hcb) h2 hs (fun y => .targetLoop 1 brk (acc' ++ [y])) (hnext 1 x)
    · rename_i hst
      simp only [hst, if_false]
      split at h
      · rename_i hs1
        simp only [hs1, if_true]
        split at h
        · rename_i hk
          simp only [hk, if_true]
          exact next_none H L h hs (.targetLoop _ _ _ _ hb hacc)
        · rename_i hk
          simp only [hk, if_false, Bool.false_eq_true]
          obtain ⟨x, h1, h2⟩ := bind_ok.1 h
          exact sub_must C H L h1 (.pos _ _ hcb) h2 hs (fun y => .targetLoop 2 brk (acc' ++ [y])) (hnext 2 x)
      · rename_i hs1
        simp only [hs1, if_false]
        split at h
        · rename_i hk
          simp only [hk, if_true]
          obtain ⟨x, h1, h2⟩ := bind_ok.1 h
          exact sub_must C H L h1 (.flagLoop _ _ _ _ hfb rfl) h2 hs (fun y => .targetLoop 2 brk (acc' ++ [y])) (hnext 2 x)
        · rename_i hk
          simp only [hk, if_false, Bool.false_eq_true]
          split at h
          · rename_i w p hl
            obtain ⟨x, h1, h2⟩ := bind_ok.1 h
            refine sub_must C H L h1 (.kwGroup _ _ _ ?_ hcb L.lead L.lead') h2 hs
              (fun y => .targetLoop 2 brk (acc' ++ [y])) (hnext 2 x)
            obtain ⟨w', hw', hl'⟩ := Option.bind_eq_some_iff.1 hl
            obtain ⟨p', hp', he⟩ := Option.map_eq_some_iff.1 hl'
            simp only [Prod.mk.injEq] at he
            rw [← he.2]
            exact targetKwargs_good hp'
          · obtain ⟨x, h1, h2⟩ := bind_ok.1 h
            exact sub_must C H L h1 (.pos _ _ hcb) h2 hs (fun y => .targetLoop 2 brk (acc' ++ [y])) (hnext 2 x)

theorem targetLoop_sim (state : Nat) (brk : List Breaker) (acc acc' : List Node)
    (up up' : Bool) (ts us : List Token) (r : Node × List Token) (hb : VisB brk) (hacc : bareL acc = bareL acc')
    (ok : ListOk ts) (ok' : ListOk us) (hal : Alike ts us)
    (h : step ctx (exec ctx n) (.targetLoop state brk acc) up ts = .ok r) (hs : HasSem r.2) (hts : HasSem ts) :
    Concl ctx (fun rec => rec (.targetLoop state brk acc') up' us) r := by
  refine loop_of_lock H (fun a => .targetLoop state brk a) (fun a b => a ++ [.tok b]) bareL
    (fun a b hb => bareL_push hb) up up' ?_ ?_ ?_ acc acc' ts us r hacc ok ok' hal h hs hts
  · intro up rec a b us hw okb
    simp only [step, targetIter, hw, if_true, blank_goes_on okb hw hb, Bool.false_eq_true, if_false]
  · intro ts us a a' he
    exact .targetLoop _ _ _ _ hb he
  · intro t u ts us a a' r he ht hu hc hal ok ok' h hs
    exact targetIter_lock C H (Lock.mk' ht hu hc hal ok ok') _ _ _ _ _ _ _ hb he h hs

/-! ## `install(TARGETS ...)` -/

omit C H in
theorem bare_stdNode {cmd : Option CmdInfo} {acc acc' : List Node} (h : bareL acc = bareL acc') :
    bare (stdNode cmd acc) = bare (stdNode cmd acc') := by simp [stdNode, h]

theorem installIter_lock {t u : Token} {ts us : List Token} (L : Lock t u ts us) (brk : List Breaker)
    (acc acc' : List Node) (up up' : Bool) (r : Node × List Token) (hb : VisB brk)
    (hacc : bareL acc = bareL acc') (h : installIter (exec ctx n) brk acc up (t :: ts) = .ok r)
    (hs : HasSem r.2) : Concl ctx (fun rec => installIter rec brk acc' up' (u :: us)) r := by
  have hsb : VisB (brk ++ [kwBreaker (installDesignated ++ [S "INCLUDES"])]) := visB_more hb (by decide +kernel)
  have hkb : VisB (brk ++ [kwBreaker (keys installKwargs ++ installDesignated ++ installFlags)]) :=
    visB_more hb (by decide +kernel)
  have hpb : VisB (brk ++ [kwBreaker (keys installKwargs ++ installDesignated)]) := visB_more hb (by decide +kernel)
  have hnext : ∀ (x y : Node × List Token), bare x.1 = bare y.1 →
      JobSim x.2 y.2 (.installLoop brk (acc ++ [x.1])) (.installLoop brk (acc' ++ [y.1])) :=
    fun x y hy => .installLoop _ _ _ hb (bareL_snoc hacc hy)
  simp only [installIter, L.wt, L.ct, Bool.false_eq_true, if_false] at h
  simp only [installIter, L.wu, L.cu, Bool.false_eq_true, if_false, ← canon_shouldBreak L.same,
    ← canon_kwargIn L.same, ← canon_normKwarg L.same, ← canon_upper L.same]
  split at h
  · rename_i hbr
    simp only [Except.ok.injEq] at h; subst h
    simp only [hbr, if_true]
    exact Concl.stop (bare_stdNode hacc) L.all
  · rename_i hbr
    simp only [hbr, if_false, Bool.false_eq_true]
    split at h
    · rename_i hk
      simp only [hk, if_true]
      obtain ⟨x, h1, h2⟩ := bind_ok.1 h
      exact sub_must C H L h1 (.kwGroup _ _ _ .installTargets hsb L.lead L.lead') h2 hs
        (fun y => .installLoop brk (acc' ++ [y])) (hnext x)
    · rename_i hk
      simp only [hk, if_false, Bool.false_eq_true]
      split at h
      · rename_i w p hl
        obtain ⟨x, h1, h2⟩ := bind_ok.1 h
        refine sub_must C H L h1 (.kwGroup _ _ _ ?_ hkb L.lead L.lead') h2 hs
          (fun y => .installLoop brk (acc' ++ [y])) (hnext x)
        obtain ⟨w', hw', hl'⟩ := Option.bind_eq_some_iff.1 hl
        obtain ⟨p', hp', he⟩ := Option.map_eq_some_iff.1 hl'
        simp only [Prod.mk.injEq] at he
        rw [← he.2]
        exact installKwargs_good hp'
      · obtain ⟨x, h1, h2⟩ := bind_ok.1 h
        exact sub_must C H L h1 (.pos _ _ hpb) h2 hs (fun y => .installLoop brk (acc' ++ [y])) (hnext x)

theorem installLoop_sim (brk : List Breaker) (acc acc' : List Node)
    (up up' : Bool) (ts us : List Token) (r : Node × List Token) (hb : VisB brk) (hacc : bareL acc = bareL acc')
    (ok : ListOk ts) (ok' : ListOk us) (hal : Alike ts us)
    (h : step ctx (exec ctx n) (.installLoop brk acc) up ts = .ok r) (hs : HasSem r.2) (hts : HasSem ts) :
    Concl ctx (fun rec => rec (.installLoop brk acc') up' us) r := by
  refine loop_of_lock H (fun a => .installLoop brk a) (fun a b => a ++ [.tok b]) bareL
    (fun a b hb => bareL_push hb) up up' ?_ ?_ ?_ acc acc' ts us r hacc ok ok' hal h hs hts
  · intro up rec a b us hw okb
    simp only [step, installIter, hw, if_true, blank_goes_on okb hw hb, Bool.false_eq_true, if_false]
  · intro ts us a a' he
    exact .installLoop _ _ _ hb he
  · intro t u ts us a a' r he ht hu hc hal ok ok' h hs
    exact installIter_lock C H (Lock.mk' ht hu hc hal ok ok') _ _ _ _ _ _ hb he h hs

/-! ## Tuples -/

/-- The state of the tuple loop, up to blanks. -/
abbrev TupSt := List Node × Option (List Node) × List Node

omit C H in
theorem bare_tuple {acc acc' : List Node} {grp grp' : Option (List Node)} {after after' : List Node}
    (ha : bareL acc = bareL acc') (hg : grp.map bareL = grp'.map bareL) (hf : bareL after = bareL after') :
    bare (mk .argGroup (tupleChildren acc grp after)) = bare (mk .argGroup (tupleChildren acc' grp' after')) := by
  cases grp with
  | none =>
    cases grp' with
    | none => simp [tupleChildren, ha, hf]
    | some g => simp at hg
  | some g =>
    cases grp' with
    | none => simp at hg
    | some g' =>
      simp only [Option.map_some, Option.some.injEq] at hg
      simp [tupleChildren, ha, hf, mk, mkPos, bareL_node, hg]

theorem tupleIter_lock {t u : Token} {ts us : List Token} (L : Lock t u ts us) (npargs : Nargs) (ntup : Nat)
    (flags : List Str) (brk : List Breaker) (acc acc' : List Node) (grp grp' : Option (List Node))
    (after after' : List Node) (np nt : Nat) (up up' : Bool) (r : Node × List Token) (hb : VisB brk)
    (ha : bareL acc = bareL acc') (hg : grp.map bareL = grp'.map bareL) (hf : bareL after = bareL after')
    (h : tupleIter ctx (exec ctx n) npargs ntup flags brk acc grp after np nt up (t :: ts) = .ok r)
    (hs : HasSem r.2) :
    Concl ctx (fun rec => tupleIter ctx rec npargs ntup flags brk acc' grp' after' np nt up' (u :: us)) r := by
  simp only [tupleIter, L.wt, L.ct, Bool.false_eq_true, if_false] at h
  obtain ⟨full, hfu, h⟩ := bind_ok.1 h
  simp only [tupleIter, L.wu, L.cu, Bool.false_eq_true, if_false, ← canon_shouldBreak L.same,
    ← canon_kwargIn L.same, hfu, okBind]
  split at h
  · rename_i hbr
    simp only [pure_ok] at h; subst h
    simp only [hbr, if_true]
    exact Concl.stop' (bare_tuple ha hg hf) L.all
  · rename_i hbr
    simp only [hbr, if_false, Bool.false_eq_true]
    split at h
    · rename_i hbr
      simp only [pure_ok] at h; subst h
      simp only [hbr, if_true]
      exact Concl.stop' (bare_tuple ha hg hf) L.all
    · rename_i hbr
      simp only [hbr, if_false, Bool.false_eq_true]
      cases ts with
      | nil => simp at h
      | cons v ts =>
        have ov := (L.okt.comments v (by simp)).2
        simp only [ov, Bool.false_eq_true, if_false, L.trail] at h
        have hvs : HasSem (v :: ts) := by
          split at h
          · split at h
            · exact hs.suffix (exec_suffix C h)
            · exact hs.suffix (exec_suffix C h)
          · split at h
            · exact hs.suffix (exec_suffix C h)
            · exact hs.suffix (exec_suffix C h)
        have hus := hvs.alike L.tail
        cases us with
        | nil => exact absurd rfl hus
        | cons w us =>
          have ow := (L.okt'.comments w (by simp)).2
          simp only [ow, Bool.false_eq_true, if_false, L.trail']
          have hl := L.leaf (if kwargIn t flags = true then NT.flag else NT.argument)
          cases grp with
          | none =>
            cases grp' with
            | some g => simp at hg
            | none =>
              simp only at h ⊢
              split at h
              · rename_i hn
                simp only [hn, if_true]
                refine next_one H L h hs (.tupleLoop _ _ _ _ _ _ _ _ _ _ _ _ hb (bareL_snoc (by simp [ha, hf]) ?_) rfl rfl)
                rw [bare_mkPos, bare_mkPos, bareL_one hl]
              · rename_i hn
                simp only [hn, if_false]
                refine next_one H L h hs (.tupleLoop _ _ _ _ _ _ _ _ _ _ _ _ hb (by simp [ha, hf]) ?_ rfl)
                simp only [Option.map_some, bareL_one hl]
          | some g =>
            cases grp' with
            | none => simp at hg
            | some g' =>
              simp only [Option.map_some, Option.some.injEq] at hg
              simp only at h ⊢
              split at h
              · rename_i hn
                simp only [hn, if_true]
                refine next_one H L h hs (.tupleLoop _ _ _ _ _ _ _ _ _ _ _ _ hb ?_ rfl rfl)
                rw [bareL_append, bareL_append _ after', hf]
                congr 1
                refine bareL_snoc ha ?_
                rw [bare_mkPos, bare_mkPos, bareL_snoc hg hl]
              · rename_i hn
                simp only [hn, if_false]
                refine next_one H L h hs (.tupleLoop _ _ _ _ _ _ _ _ _ _ _ _ hb ha ?_ hf)
                simp only [Option.map_some, bareL_snoc hg hl]

theorem tupleLoop_sim (npargs : Nargs) (ntup : Nat)
    (flags : List Str) (brk : List Breaker) (acc acc' : List Node) (grp grp' : Option (List Node))
    (after after' : List Node) (np nt : Nat) (up up' : Bool) (ts us : List Token) (r : Node × List Token) (hb : VisB brk)
    (ha : bareL acc = bareL acc') (hg : grp.map bareL = grp'.map bareL) (hf : bareL after = bareL after')
    (ok : ListOk ts) (ok' : ListOk us) (hal : Alike ts us)
    (h : step ctx (exec ctx n) (.tupleLoop npargs ntup flags brk acc grp after np nt) up ts = .ok r)
    (hs : HasSem r.2) (hts : HasSem ts) :
    Concl ctx (fun rec => rec (.tupleLoop npargs ntup flags brk acc' grp' after' np nt) up' us) r := by
  have hne : ∃ full, pargsFull npargs np = .ok full := by
    cases ts with
    | nil => exact absurd rfl hts
    | cons t ts =>
      simp only [step, tupleIter] at h
      obtain ⟨full, hf, h⟩ := bind_ok.1 h
      exact ⟨full, hf⟩
  obtain ⟨full, hfu⟩ := hne
  cases full with
  | true =>
    have h0 : ∀ (rec : Rec) (up : Bool) (acc : List Node) grp after (ts : List Token), ts ≠ [] →
        step ctx rec (.tupleLoop npargs ntup flags brk acc grp after np nt) up ts =
          .ok (mk .argGroup (tupleChildren acc grp after), ts) := by
      intro rec up acc grp after ts hne
      cases ts with
      | nil => exact absurd rfl hne
      | cons t ts => simp only [step, tupleIter, hfu, okBind, if_true]; rfl
    rw [h0 _ _ _ _ _ _ (by rintro rfl; exact hts rfl)] at h
    simp only [Except.ok.injEq] at h; subst h
    refine Concl.step ?_
    simp only [h0 _ up' acc' grp' after' us (by rintro rfl; exact (hts.alike hal) rfl)]
    exact Concl.stop (bare_tuple ha hg hf) hal
  | false =>
    refine loop_of_lock H (fun a : TupSt => .tupleLoop npargs ntup flags brk a.1 a.2.1 a.2.2 np nt)
      (fun a b => (a.1, a.2.1, a.2.2 ++ [.tok b])) (fun a => (bareL a.1, a.2.1.map bareL, bareL a.2.2))
      (fun a b hb => by simp only [bareL_push hb]) up up' ?_ ?_ ?_ (acc, grp, after) (acc', grp', after') ts us r
      (by simp only [ha, hg, hf]) ok ok' hal h hs hts
    · intro up rec a b us hw okb
      simp only [step, tupleIter, hfu, okBind, blank_goes_on okb hw hb, hw, if_true, Bool.false_eq_true, if_false]
    · intro ts us a a' he
      simp only [Prod.mk.injEq] at he
      exact .tupleLoop _ _ _ _ _ _ _ _ _ _ _ _ hb he.1 he.2.1 he.2.2
    · intro t u ts us a a' r he ht hu hc hal ok ok' h hs
      simp only [Prod.mk.injEq] at he
      exact tupleIter_lock C H (Lock.mk' ht hu hc hal ok ok') _ _ _ _ _ _ _ _ _ _ _ _ _ _ _ hb he.1 he.2.1 he.2.2 h hs

/-! ## Source lists -/

/-- The state of the source loop. -/
abbrev SrcSt := List Node × List Node × List Node × List Node

omit C H in
theorem bare_src {last state : Nat} {so : Bool} {b b' p p' s s' a a' : List Node} (hb : bareL b = bareL b')
    (hp : bareL p = bareL p') (hs : bareL s = bareL s') (ha : bareL a = bareL a') :
    bare (srcNode last state so b p s a) = bare (srcNode last state so b' p' s' a') := by
  simp only [srcNode, bare_mk, bareL_append, hb, ha]
  congr 3
  · split
    · exact congrArg _ (bareL_one (n := mkPos _ p) (n' := mkPos _ p') (by rw [bare_mkPos, bare_mkPos, hp]))
    · rfl
  · split
    · exact bareL_one (by rw [bare_node, bare_node, hs])
    · rfl

omit C H in
theorem only_of_alike {brk : List Breaker} {ts us : List Token} (ok : ListOk ts) (ok' : ListOk us) (h : Alike ts us) :
    onlyCommentsRemain brk ts = onlyCommentsRemain brk us := by
  have key : ∀ {ts : List Token}, ListOk ts → onlyCommentsRemain brk ts =
      (match (semantics ts).head? with | none => true | some t => shouldBreak t brk) := by
    intro ts ok
    induction ts with
    | nil => rfl
    | cons t ts ih =>
      have hc := ok.comments t (by simp)
      cases hw : isWs t with
      | true => simp only [onlyCommentsRemain, hw, Bool.true_or, if_true, semantics_ws hw, ih (ok.suffix (List.suffix_cons t ts))]
      | false =>
        simp only [onlyCommentsRemain, hw, hc.1, Bool.or_self, Bool.false_eq_true, if_false, semantics_ink hw hc.1 hc.2,
          List.head?_cons]
  rw [key ok, key ok']
  rcases alike_head h with ⟨ha, hb⟩ | ⟨a, b, ha, hb, hc⟩
  · simp only [ha, hb]
  · simp only [ha, hb, canon_shouldBreak hc]

omit C in
theorem srcIter_lock {t u : Token} {ts us : List Token} (L : Lock t u ts us) (lib : Bool) (brk : List Breaker)
    (state : Nat) (x y z : Bool) (b b' p p' s s' a a' : List Node) (up up' : Bool) (r : Node × List Token)
    (hv : VisB brk) (hb : bareL b = bareL b')
    (hp : bareL p = bareL p') (hsr : bareL s = bareL s') (ha : bareL a = bareL a')
    (h : srcIter ctx (exec ctx n) lib brk state x y z b p s a up (t :: ts) = .ok r) (hs : HasSem r.2) :
    Concl ctx (fun rec => srcIter ctx rec lib brk state x y z b' p' s' a' up' (u :: us)) r := by
  simp only [srcIter, L.wt, L.ct, Bool.false_eq_true, if_false, L.trail] at h
  simp only [srcIter, L.wu, L.cu, Bool.false_eq_true, if_false, L.trail', ← canon_kwargIn L.same, ← canon_type L.same,
    ← only_of_alike L.okt L.okt' L.tail]
  split at h
  · rename_i hr
    simp only [Except.ok.injEq] at h; subst h
    simp only [hr, if_true]
    exact Concl.stop (bare_src hb hp hsr ha) L.all
  · rename_i hr
    simp only [hr, if_false, Bool.false_eq_true]
    split at h
    · rename_i h1
      simp only [h1, if_true]
      exact next_one H L h hs (.srcLoop _ _ _ _ _ _ _ _ _ _ _ _ _ _ hv hb (bareL_one (L.leaf _)) hsr ha)
    · rename_i h1
      simp only [h1, if_false]
      split at h
      · rename_i h2
        simp only [h2, if_true]
        generalize (if lib = true then (if state = 2 then [S "STATIC", S "SHARED", S "MODULE", S "OBJECT"]
          else [S "EXCLUDE_FROM_ALL"]) else [S "WIN32", S "MACOSX_BUNDLE", S "EXCLUDE_FROM_ALL"]) = fl at h ⊢
        split at h
        · rename_i h3
          simp only [h3, if_true]
          exact next_one H L h hs (.srcLoop _ _ _ _ _ _ _ _ _ _ _ _ _ _ hv hb (bareL_snoc hp (L.leaf _)) hsr ha)
        · rename_i h3
          simp only [h3, if_false, Bool.false_eq_true]
          exact next_none H L h hs (.srcLoop _ _ _ _ _ _ _ _ _ _ _ _ _ _ hv hb hp hsr ha)
      · rename_i h2
        simp only [h2, if_false]
        exact next_one H L h hs (.srcLoop _ _ _ _ _ _ _ _ _ _ _ _ _ _ hv hb hp (bareL_snoc hsr (L.leaf _)) ha)

/-- Where a blank goes. -/
def srcPush (lib : Bool) (state : Nat) (z : Bool) (a : SrcSt) (t : Token) : SrcSt :=
  if state ≤ 1 then (a.1 ++ [.tok t], a.2)
  else if z then (a.1, a.2.1, a.2.2.1, a.2.2.2 ++ [.tok t])
  else if state < lastState lib then (a.1, a.2.1 ++ [.tok t], a.2.2)
  else (a.1, a.2.1, a.2.2.1 ++ [.tok t], a.2.2.2)

omit C in
theorem srcLoop_sim (lib : Bool) (brk : List Breaker)
    (state : Nat) (x y z : Bool) (b b' p p' s s' a a' : List Node) (up up' : Bool) (ts us : List Token)
    (r : Node × List Token) (hv : VisB brk) (hb : bareL b = bareL b')
    (hp : bareL p = bareL p') (hsr : bareL s = bareL s') (ha : bareL a = bareL a')
    (ok : ListOk ts) (ok' : ListOk us) (hal : Alike ts us)
    (h : step ctx (exec ctx n) (.srcLoop lib brk state x y z b p s a) up ts = .ok r) (hs : HasSem r.2) (hts : HasSem ts) :
    Concl ctx (fun rec => rec (.srcLoop lib brk state x y z b' p' s' a') up' us) r := by
  refine loop_of_lock H (fun a : SrcSt => .srcLoop lib brk state x y z a.1 a.2.1 a.2.2.1 a.2.2.2)
    (srcPush lib state z) (fun a => (bareL a.1, bareL a.2.1, bareL a.2.2.1, bareL a.2.2.2))
    ?_ up up' ?_ ?_ ?_ (b, p, s, a) (b', p', s', a') ts us r
    (by simp only [ha, hb, hp, hsr]) ok ok' hal h hs hts
  · intro a t ht
    simp only [srcPush]
    split
    · simp only [bareL_push ht]
    · split
      · simp only [bareL_push ht]
      · split <;> simp only [bareL_push ht]
  · intro up rec a b us hw okb
    have hr : (b.type == .rparen) = false := by
      simp only [isWs, Bool.or_eq_true, beq_iff_eq] at hw
      rcases hw with hw | hw <;> simp [hw]
    simp only [step, srcIter, hr, hw, if_true, Bool.false_eq_true, if_false, srcPush]
    split
    · rfl
    · split
      · rfl
      · split <;> rfl
  · intro ts us a a' he
    simp only [Prod.mk.injEq] at he
    exact .srcLoop _ _ _ _ _ _ _ _ _ _ _ _ _ _ hv he.1 he.2.1 he.2.2.1 he.2.2.2
  · intro t u ts us a a' r he ht hu hc hal ok ok' h hs
    simp only [Prod.mk.injEq] at he
    exact srcIter_lock H (Lock.mk' ht hu hc hal ok ok') _ _ _ _ _ _ _ _ _ _ _ _ _ _ _ _ _ hv he.1 he.2.1 he.2.2.1
      he.2.2.2 h hs

/-! ## `set` -/

omit C H in
theorem bare_addTags {tags : List Str} {m m' : Node} (h : bare m = bare m') :
    bare (addTags tags m) = bare (addTags tags m') := by
  cases m with
  | tok t =>
    cases m' with
    | tok u => exact h
    | node ty a cs => simp at h
  | node ty a cs =>
    cases m' with
    | tok u => simp at h
    | node ty' a' cs' =>
      simp only [bare_node, Node.node.injEq] at h
      obtain ⟨rfl, rfl, h⟩ := h
      simp [addTags, h]

omit H in
theorem varTags_same {a b : Str} (h : lower a = lower b) : varTags ctx a = varTags ctx b := by
  simp only [varTags]
  have : ∀ l : List ((Str → Bool) × List Str), (∀ p ∈ l, p.1 a = p.1 b) →
      (l.flatMap fun p => if p.1 a then p.2 else []) = (l.flatMap fun p => if p.1 b then p.2 else []) := by
    intro l
    induction l with
    | nil => intro _; rfl
    | cons p l ih =>
      intro hl
      rw [List.flatMap_cons, List.flatMap_cons, hl p (by simp), ih fun q hq => hl q (by simp [hq])]
  exact this _ fun p hp => C.vars p hp a b h

theorem setIter_lock {t u : Token} {ts us : List Token} (L : Lock t u ts us) (v v' : Option Str) (brk : List Breaker)
    (acc acc' : List Node) (up up' : Bool) (r : Node × List Token) (hb : VisB brk) (hvn : v.map lower = v'.map lower)
    (hacc : bareL acc = bareL acc') (h : setIter ctx (exec ctx n) v brk acc up (t :: ts) = .ok r)
    (hs : HasSem r.2) : Concl ctx (fun rec => setIter ctx rec v' brk acc' up' (u :: us)) r := by
  have hkb : VisB (brk ++ [kwBreaker [S "CACHE", S "PARENT_SCOPE"]]) := visB_more hb (by decide)
  have hpb : VisB (brk ++ [kwBreaker [S "CACHE"]]) := visB_more hb (by decide)
  simp only [setIter, L.wt, L.ct, Bool.false_eq_true, if_false, Bool.false_and] at h
  simp only [setIter, L.wu, L.cu, Bool.false_eq_true, if_false, Bool.false_and, ← canon_shouldBreak L.same,
    ← canon_normKwarg L.same]
  split at h
  · rename_i hbr
    simp only [Except.ok.injEq] at h; subst h
    simp only [hbr, if_true]
    exact Concl.stop (by simp [hacc]) L.all
  · rename_i hbr
    simp only [hbr, if_false, Bool.false_eq_true]
    split at h
    · rename_i hk
      simp only [hk, if_true]
      obtain ⟨x, h1, h2⟩ := bind_ok.1 h
      split at h2
      · simp at h2
      · split at h2
        · rename_i hlt
          have hx2 : HasSem x.2 := hs.suffix (exec_suffix C h2)
          refine sub_lt (up2' := up') C H L h1 (.kwGroup _ _ _ (.positional _) hkb L.lead L.lead') hlt h2 hs
            (fun y => .setLoop v' brk (acc' ++ [y])) (fun y hy => .setLoop _ _ _ _ _ hb (bareL_snoc hacc hy) hvn)
            (fun rec y _ hal _ _ hy => ?_)
          have : y.2.isEmpty = false := by
            have := hx2.alike hal
            cases e : y.2 with
            | nil => rw [e] at this; exact absurd rfl this
            | cons _ _ => rfl
          rw [this, Bool.and_false, if_neg (by simp), if_pos hy]
        · simp at h2
    · rename_i hk
      simp only [hk, if_false]
      split at h
      · rename_i hk2
        simp only [hk2, if_true]
        obtain ⟨x, h1, h2⟩ := bind_ok.1 h
        exact sub_must C H L h1 (.pos _ _ hpb) h2 hs (fun y => .setLoop v' brk (acc' ++ [y]))
          (fun y hy => .setLoop _ _ _ _ _ hb (bareL_snoc hacc hy) hvn)
      · rename_i hk2
        simp only [hk2, if_false]
        obtain ⟨x, h1, h2⟩ := bind_ok.1 h
        cases v with
        | none =>
          cases v' with
          | some _ => simp at hvn
          | none =>
            simp only at h2 ⊢
            split at h2
            · rename_i he
              simp only [he, if_true]
              split at h2
              · rename_i hlt
                refine sub_lt (up2' := up') C H L h1 (.pos _ _ hkb) hlt h2 hs
                  (fun y => .setLoop none brk (acc' ++ [y])) (fun y hy => .setLoop _ _ _ _ _ hb (bareL_snoc hacc hy) rfl)
                  (fun rec y _ hal _ _ hy => ?_)
                rw [if_pos hy]
              · simp at h2
            · simp at h2
        | some w =>
          cases v' with
          | none => simp at hvn
          | some w' =>
            simp only [Option.map_some, Option.some.injEq] at hvn
            simp only [← varTags_same C hvn] at h2 ⊢
            split at h2
            · rename_i hlt
              refine sub_lt (up2' := up') C H L h1 (.pos _ _ hkb) hlt h2 hs
                (fun y => .setLoop (some w') brk (acc' ++ [addTags (varTags ctx w) y]))
                (fun y hy => .setLoop _ _ _ _ _ hb (bareL_snoc hacc (bare_addTags hy)) (by simp [hvn]))
                (fun rec y _ hal _ _ hy => ?_)
              rw [if_pos hy]
            · simp at h2

theorem setLoop_sim (v v' : Option Str) (brk : List Breaker) (acc acc' : List Node)
    (up up' : Bool) (ts us : List Token) (r : Node × List Token) (hb : VisB brk) (hvn : v.map lower = v'.map lower)
    (hacc : bareL acc = bareL acc') (ok : ListOk ts) (ok' : ListOk us) (hal : Alike ts us)
    (h : step ctx (exec ctx n) (.setLoop v brk acc) up ts = .ok r) (hs : HasSem r.2) (hts : HasSem ts) :
    Concl ctx (fun rec => rec (.setLoop v' brk acc') up' us) r := by
  refine loop_of_lock H (fun a : Option Str × List Node => .setLoop a.1 brk a.2) (fun a b => (a.1, a.2 ++ [.tok b]))
    (fun a => (a.1.map lower, bareL a.2))
    (fun a b hb => by simp only [bareL_push hb]) up up' ?_ ?_ ?_ (v, acc) (v', acc') ts us r
    (by simp only [hvn, hacc]) ok ok' hal h hs hts
  · intro up rec a b us hw okb
    simp only [step, setIter, hw, if_true, blank_goes_on okb hw hb, Bool.false_eq_true, if_false]
  · intro ts us a a' he
    simp only [Prod.mk.injEq] at he
    exact .setLoop _ _ _ _ _ hb he.2 he.1
  · intro t u ts us a a' r he ht hu hc hal ok ok' h hs
    simp only [Prod.mk.injEq] at he
    exact setIter_lock C H (Lock.mk' ht hu hc hal ok ok') _ _ _ _ _ _ _ _ hb he.1 he.2 h hs

end
end Verif.Parse
