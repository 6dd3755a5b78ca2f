import Verif.GenSet
import Verif.LintEmpty
import Verif.LintNameSpec

/-!
# The groups of a `set` command (lemmas for the naming checks)
-/

namespace Verif.Lint
open Verif Py Lex Parse

variable {ctx : Parse.Ctx}

/-- No parenthesis, and if it is a blank, a comment or a switch then it is not spelled like a keyword. -/
structure TameTok (t : Token) : Prop where
  lparen : t.type ≠ .lparen
  rparen : t.type ≠ .rparen
  deref : t.type = .deref → t.spelling.head? = some '$'
  idle : isSemantic t = false → upper t.spelling ≠ S "CACHE" ∧ upper t.spelling ≠ S "PARENT_SCOPE"

/-- A bound on the number of arguments, if there is one. -/
def fullAt : Option Nat → Nat → Bool
  | some m, k => decide (m ≤ k)
  | none, _ => false

theorem full_int (m : Nat) : ∀ k, pargsFull (.int m) k = .ok (fullAt (some m) k) := by
  intro k
  simp [pargsFull, fullAt]

/-- Where a group stops, if not because it is full. -/
def Stop (brk : List Breaker) (exact up : Bool) (ts : List Token) : Prop :=
  (∀ t, ts.head? = some t → shouldBreak t brk = true ∧ (exact = true → t.type = .rparen)) ∨
    (up = true ∧ (∃ c us, ts = c :: us ∧ isAnyComment c = true) ∧ ∀ u, (semantics ts).head? = some u → shouldBreak u brk = true)

/-- The next argument would stop a group. -/
def StoppedAt (brk : List Breaker) (ts : List Token) : Prop :=
  (∀ t, ts.head? = some t → shouldBreak t brk = true) ∨ ∀ u, (semantics ts).head? = some u → shouldBreak u brk = true

theorem Stop.stopped {brk : List Breaker} {exact up : Bool} {ts : List Token} (h : Stop brk exact up ts) : StoppedAt brk ts := by
  rcases h with h | h
  · exact Or.inl fun t ht => (h t ht).1
  · exact Or.inr h.2.2

theorem sem_of {t : Token} (hw : isWs t = false) (hc : isAnyComment t = false) (ho : isOnOff t = false) : isSemantic t = true := by
  simp [isSemantic, hw, hc, ho]

theorem sem_skip {t : Token} {ts : List Token} (h : isSemantic t = false) : semantics (t :: ts) = semantics ts := by
  simp [semantics, h]

theorem not_sem {t : Token} (h : isWs t = true ∨ isAnyComment t = true ∨ isOnOff t = true) : isSemantic t = false := by
  rcases h with h | h | h <;> simp [isSemantic, h]

theorem trail_sem (ts : List Token) : semantics (toksL (consumeTrailing ctx ts).1) = [] := by
  rw [semantics, List.filter_eq_nil_iff]
  intro u hu
  obtain ⟨c, hc, hu⟩ := Layout.mem_toksL.1 hu
  have := consumeTrailing_noText ctx ts c hc u hu
  rw [not_sem]
  · simp
  · rcases this with h | h
    · exact Or.inl h
    · exact Or.inr (Or.inl h)

theorem belongs_next {up : Bool} {t : Token} {ts : List Token} {acc : List Node} {brk : List Breaker}
    (h : belongsUp up (t :: ts) acc brk = true) :
    up = true ∧ ∀ u, (semantics (t :: ts)).head? = some u → shouldBreak u brk = true := by
  unfold belongsUp at h
  split at h
  · rename_i nxt t' us e1 e2
    simp only [Bool.and_eq_true] at h
    refine ⟨h.1.2, ?_⟩
    intro u hu
    rw [e1] at hu
    simp only [Option.some.injEq] at hu
    rw [← hu]
    exact h.1.1
  · simp at h

/-- What a group of arguments without parentheses reads, and where it stops. -/
theorem posLoop_reads {spec : PSpec} {brk : List Breaker} {sortable : Bool} {lim : Option Nat} {up : Bool}
    (hf : ∀ k, pargsFull spec.nargs k = .ok (fullAt lim k)) : ∀ (n : Nat) (acc : List Node) (k : Nat)
    (ts : List Token) (r : Node × List Token), exec ctx n (.posLoop spec brk sortable acc k) up ts = .ok r →
    (∀ u ∈ r.1.toks, u.type ≠ .lparen) → (∀ m, lim = some m → k ≤ m) →
    ∃ cs, r.1 = .node .pargGroup (posAttr spec sortable) (acc ++ cs) ∧
      semantics ts = semantics (toksL cs) ++ semantics r.2 ∧
      (spec.nargs.exact = false → ∀ u ∈ semantics (toksL cs), shouldBreak u brk = false) ∧
      (∀ m, lim = some m → k + (semantics (toksL cs)).length ≤ m) ∧
      (Stop brk spec.nargs.exact up r.2 ∨ ∃ m, lim = some m ∧ k + (semantics (toksL cs)).length = m)
  | 0, _, _, _, _, h, _, _ => by simp [exec] at h
  | n + 1, acc, k, ts, r, h, ht, hk => by
    change posIter ctx (exec ctx n) spec brk sortable acc k up ts = _ at h
    have next : ∀ (m : Node) (k' : Nat) (rest : List Token),
        exec ctx n (.posLoop spec brk sortable (acc ++ [m]) k') up rest = .ok r →
        (∀ m, lim = some m → k' ≤ m) → k' = k + (semantics m.toks).length → semantics ts = semantics m.toks ++ semantics rest →
        (spec.nargs.exact = false → ∀ u ∈ semantics m.toks, shouldBreak u brk = false) →
        ∃ cs, r.1 = .node .pargGroup (posAttr spec sortable) (acc ++ cs) ∧
          semantics ts = semantics (toksL cs) ++ semantics r.2 ∧
          (spec.nargs.exact = false → ∀ u ∈ semantics (toksL cs), shouldBreak u brk = false) ∧
          (∀ m, lim = some m → k + (semantics (toksL cs)).length ≤ m) ∧
          (Stop brk spec.nargs.exact up r.2 ∨ ∃ m, lim = some m ∧ k + (semantics (toksL cs)).length = m) := by
      intro m k' rest h hk' hm hsem hq
      obtain ⟨cs, e, h0, h1, h2, h3⟩ := posLoop_reads hf n _ _ _ _ h ht hk'
      have hs : semantics (toksL (m :: cs)) = semantics m.toks ++ semantics (toksL cs) := by
        rw [toksL_cons, Parse.semantics_append]
      refine ⟨m :: cs, by rw [e]; simp, ?_, ?_, ?_, ?_⟩
      · rw [hsem, h0, hs, List.append_assoc]
      · intro he u hu
        rw [hs, List.mem_append] at hu
        rcases hu with hu | hu
        · exact hq he u hu
        · exact h1 he u hu
      · intro x hx
        have := h2 x hx
        rw [hs, List.length_append]
        omega
      · rcases h3 with h3 | ⟨x, hx, h3⟩
        · exact Or.inl h3
        · refine Or.inr ⟨x, hx, ?_⟩
          rw [hs, List.length_append]
          omega
    have inside : ∀ (m : Node) (k' : Nat) (rest : List Token),
        exec ctx n (.posLoop spec brk sortable (acc ++ [m]) k') up rest = .ok r → ∀ u ∈ m.toks, u.type ≠ .lparen := by
      intro m k' rest h u hu
      obtain ⟨cs, e⟩ := Gen.posLoop_keeps n _ _ _ _ _ h
      apply ht
      rw [e, Node.toks]
      exact Gen.mem_toks_kid (c := m) (by simp) hu
    have fin : ∀ {rest : List Token}, (.ok (.node .pargGroup (posAttr spec sortable) acc, rest) : R) = .ok r → rest = ts →
        (Stop brk spec.nargs.exact up rest ∨ ∃ m, lim = some m ∧ k = m) →
        ∃ cs, r.1 = .node .pargGroup (posAttr spec sortable) (acc ++ cs) ∧
          semantics ts = semantics (toksL cs) ++ semantics r.2 ∧
          (spec.nargs.exact = false → ∀ u ∈ semantics (toksL cs), shouldBreak u brk = false) ∧
          (∀ m, lim = some m → k + (semantics (toksL cs)).length ≤ m) ∧
          (Stop brk spec.nargs.exact up r.2 ∨ ∃ m, lim = some m ∧ k + (semantics (toksL cs)).length = m) := by
      intro rest h e hs
      simp only [Except.ok.injEq] at h
      subst h
      subst e
      exact ⟨[], by simp, by simp [toksL, semantics], by simp [toksL, semantics], by simpa [toksL, semantics] using hk,
        by simpa [toksL, semantics] using hs⟩
    cases ts with
    | nil => exact fin h rfl (Or.inl (Or.inl (by simp)))
    | cons t ts =>
      simp only [posIter, hf, Bind.bind, Except.bind] at h
      split at h
      · rename_i hfull
        refine fin h rfl (Or.inr ?_)
        cases lim with
        | none => simp [fullAt] at hfull
        | some m =>
          refine ⟨m, rfl, ?_⟩
          have := hk m rfl
          simp only [fullAt, decide_eq_true_eq] at hfull
          omega
      · rename_i hfull
        have hk1 : ∀ m, lim = some m → k + 1 ≤ m := by
          intro m hm
          subst hm
          simp only [fullAt, decide_eq_true_eq] at hfull
          omega
        split at h
        · rename_i hbr
          simp only [Bool.and_eq_true] at hbr
          refine fin h rfl (Or.inl (Or.inl ?_))
          intro u hu
          simp only [List.head?_cons, Option.some.injEq] at hu
          subst hu
          refine ⟨hbr.1, fun he => ?_⟩
          simpa [he] using hbr.2
        · rename_i hbr
          split at h
          · rename_i hl
            split at h
            · simp at h
            · rename_i v hv
              exact absurd (by simpa using hl) (inside _ _ _ h t (Gen.paren_head hv))
          · split at h
            · rename_i hw
              have z : semantics (Node.tok t).toks = [] := by simp [Node.toks, semantics, isSemantic, hw]
              exact next _ _ _ h hk (by rw [z]; rfl) (by rw [z, sem_skip (not_sem (Or.inl hw))]; rfl) (by rw [z]; simp)
            · rename_i hw
              split at h
              · rename_i hc
                split at h
                · rename_i hup
                  obtain ⟨u1, u2⟩ := belongs_next hup
                  exact fin h rfl (Or.inl (Or.inr ⟨u1, ⟨t, ts, rfl, hc⟩, u2⟩))
                · have z : semantics (consumeComment t ts).1.toks = [] := (Gen.idle_comment ts hc).2
                  refine next _ _ _ h hk (by rw [z]; rfl) ?_ (by rw [z]; simp)
                  rw [z, consumeComment_sem t ts hc, sem_skip (not_sem (Or.inr (Or.inl hc)))]
                  rfl
              · rename_i hc
                split at h
                · rename_i ho
                  have z : semantics (mk .onoff [.tok t]).toks = [] := by
                    simp [mk, Node.toks, toksL, semantics, isSemantic, ho]
                  exact next _ _ _ h hk (by rw [z]; rfl) (by rw [z, sem_skip (not_sem (Or.inr (Or.inr ho)))]; rfl) (by rw [z]; simp)
                · rename_i ho
                  have hs : isSemantic t = true := sem_of (by simpa using hw) (by simpa using hc) (by simpa using ho)
                  have z : ∀ ty, semantics (mk ty (.tok t :: (consumeTrailing ctx ts).1)).toks = [t] := by
                    intro ty
                    simp only [mk, Node.toks, toksL, List.cons_append, List.nil_append]
                    rw [semantics_word hs, trail_sem]
                  refine next _ _ _ h hk1 (by rw [z]; rfl) ?_ ?_
                  · rw [z, semantics_word hs, List.cons_append, List.nil_append]
                    congr 1
                    have e := consumeTrailing_splits ctx ts
                    calc semantics ts = semantics (toksL (consumeTrailing ctx ts).1 ++ (consumeTrailing ctx ts).2) := by rw [e]
                      _ = _ := by rw [Parse.semantics_append, trail_sem, List.nil_append]
                  · intro he u hu
                    rw [z, List.mem_singleton] at hu
                    subst hu
                    simpa [he] using hbr

theorem pos_reads {spec : PSpec} {brk : List Breaker} {lim : Option Nat} {up : Bool}
    (hf : ∀ k, pargsFull spec.nargs k = .ok (fullAt lim k)) {n : Nat} {ts : List Token} {r : Node × List Token}
    (h : exec ctx n (.pos spec brk) up ts = .ok r) (ht : ∀ u ∈ r.1.toks, u.type ≠ .lparen) :
    hasType .pargGroup r.1 = true ∧ semantics ts = semToks r.1 ++ semantics r.2 ∧
      (spec.nargs.exact = false → ∀ u ∈ semToks r.1, shouldBreak u brk = false) ∧
      (∀ m, lim = some m → (semToks r.1).length ≤ m) ∧
      (Stop brk spec.nargs.exact up r.2 ∨ ∃ m, lim = some m ∧ (semToks r.1).length = m) := by
  cases n with
  | zero => simp [exec] at h
  | succ n =>
    change posStart (exec ctx n) _ brk up ts = _ at h
    obtain ⟨cs, e, h0, h1, h2, h3⟩ := posLoop_reads hf _ _ _ _ _ h ht (by simp)
    have hl : semantics (toksL (leaves (ts.takeWhile isWs))) = [] := by
      rw [toksL_leaves', semantics_take]
    have hg : semToks r.1 = semantics (toksL cs) := by
      rw [e, semToks, Node.toks, toksL_append, Parse.semantics_append, hl, List.nil_append]
    rw [hg]
    refine ⟨by rw [e]; rfl, ?_, h1, by simpa using h2, by simpa using h3⟩
    rw [← h0]
    calc semantics ts = semantics (ts.takeWhile isWs ++ ts.dropWhile isWs) := by rw [List.takeWhile_append_dropWhile]
      _ = _ := by rw [Parse.semantics_append, semantics_take, List.nil_append]

/-- A group of one or more arguments. -/
theorem pos_tame {spec : PSpec} {brk : List Breaker} (hf : ∀ k, pargsFull spec.nargs k = .ok false) (he : spec.nargs.exact = false)
    {n : Nat} {up : Bool} {ts : List Token} {r : Node × List Token} (h : exec ctx n (.pos spec brk) up ts = .ok r)
    (ht : ∀ u ∈ r.1.toks, TameTok u) :
    hasType .pargGroup r.1 = true ∧ semantics ts = semToks r.1 ++ semantics r.2 ∧
      (∀ u ∈ semToks r.1, shouldBreak u brk = false) ∧ StoppedAt brk r.2 := by
  obtain ⟨k1, k2, k3, _, k5⟩ := pos_reads (lim := none) hf h fun u hu => (ht u hu).lparen
  refine ⟨k1, k2, k3 he, ?_⟩
  rcases k5 with k5 | ⟨m, e, _⟩
  · exact k5.stopped
  · cases e

/-- The same, read from an argument: it comes first. -/
theorem pos_tame_head {spec : PSpec} {brk : List Breaker} {n : Nat} {up : Bool} {t : Token} {ts : List Token} {r : Node × List Token}
    (hsem : isSemantic t = true) (h : exec ctx n (.pos spec brk) up (t :: ts) = .ok r) (hr : r.2.length < (t :: ts).length)
    (ht : ∀ u ∈ r.1.toks, TameTok u) : ∃ vs, semToks r.1 = t :: vs := by
  have hw : isWs t = false := by
    simp only [isSemantic, Bool.not_eq_true', Bool.or_eq_false_iff] at hsem
    exact hsem.1.1
  have hcm : isAnyComment t = false := by
    simp only [isSemantic, Bool.not_eq_true', Bool.or_eq_false_iff] at hsem
    exact hsem.1.2
  have ho : isOnOff t = false := by
    simp only [isSemantic, Bool.not_eq_true', Bool.or_eq_false_iff] at hsem
    exact hsem.2
  have htt := ht t (Gen.pos_first hw h hr)
  cases n with
  | zero => simp [exec] at h
  | succ n =>
    change posStart (exec ctx n) spec brk up (t :: ts) = _ at h
    simp only [posStart, List.dropWhile_cons, List.takeWhile_cons, hw, Bool.false_eq_true, if_false, leaves, List.map_nil] at h
    cases n with
    | zero => simp [exec] at h
    | succ n =>
      change posIter ctx (exec ctx n) spec brk _ [] 0 up (t :: ts) = _ at h
      have hl : (t.type == TokType.lparen) = false := by simpa using htt.lparen
      simp only [posIter, hl, hw, hcm, ho, Bool.false_eq_true, if_false] at h
      obtain ⟨full, _, h⟩ := Parse.bind_ok.1 h
      split at h
      · simp only [pure, Except.pure, Except.ok.injEq] at h
        subst h
        simp at hr
      · split at h
        · simp only [pure, Except.pure, Except.ok.injEq] at h
          subst h
          simp at hr
        · obtain ⟨cs, e⟩ := Gen.posLoop_keeps n _ _ _ _ _ h
          rw [e, semToks, Node.toks, toksL_append, Parse.semantics_append]
          simp only [List.nil_append, mk, toksL, Node.toks, List.append_nil, List.cons_append]
          rw [semantics_word hsem]
          exact ⟨_, rfl⟩

/-! ## The loop of a `set` -/

/-- Spelled like a word, in any letter case. -/
def said (w : Str) (t : Token) : Bool := upper t.spelling == w

/-- The two keywords. -/
def setKey (t : Token) : Bool := said (S "CACHE") t || said (S "PARENT_SCOPE") t

theorem stops_said {t : Token} (h : shouldBreak t Gen.stops = false) : setKey t = false := by
  simp only [Gen.stops, shouldBreak, kwBreaker, List.cons_append, List.nil_append, List.any_cons, List.any_nil, Breaker.fires,
    List.map_cons, List.map_nil, List.contains_eq_mem, List.mem_cons, List.not_mem_nil, or_false, Bool.or_false,
    Bool.or_eq_false_iff, decide_eq_false_iff_not, not_or] at h
  have e1 : upper (S "CACHE") = S "CACHE" := by decide
  have e2 : upper (S "PARENT_SCOPE") = S "PARENT_SCOPE" := by decide
  rw [e1, e2] at h
  simp [setKey, said, h.2.1, h.2.2]

theorem said_normKwarg {t : Token} {w : Str} (hw : w.head? ≠ some '-') (h : normKwarg t = some w) : said w t = true := by
  unfold normKwarg at h
  split at h
  · rename_i hd
    exfalso
    simp only [Option.some.injEq] at h
    apply hw
    rw [← h]
    cases hs : t.spelling with
    | nil => rw [hs] at hd; simp [startsWith, stripPrefix?] at hd
    | cons c cs =>
      rw [hs] at hd
      have : c = '-' := by
        simp [startsWith, stripPrefix?] at hd
        by_cases e : '-' = c
        · exact e.symm
        · simp [e] at hd
      subst this
      rfl
  · split at h
    · simp at h
    · simp only [Option.some.injEq] at h
      simp [said, h]

/-- The children of a `set` after the name; the argument says whether values can come next. -/
inductive SetKids : Bool → List Node → Prop
  | nil {b} : SetKids b []
  | blank {b n ks} : hasType .pargGroup n = false → hasType .kwargGroup n = false → semToks n = [] → SetKids b ks → SetKids b (n :: ks)
  | idle {b n ks} : hasType .pargGroup n = true → hasType .kwargGroup n = false → semToks n = [] → SetKids b ks → SetKids b (n :: ks)
  | value {n ks} : hasType .pargGroup n = true → hasType .kwargGroup n = false → (∀ u ∈ semToks n, setKey u = false) →
      SetKids false ks → SetKids true (n :: ks)
  | cache {b n ks c vs} : hasType .pargGroup n = false → hasType .kwargGroup n = true → semToks n = c :: vs →
      said (S "CACHE") c = true → (∀ u ∈ vs, setKey u = false) → SetKids false ks → SetKids b (n :: ks)
  | up {b n ks p vs} : hasType .pargGroup n = true → hasType .kwargGroup n = false → semToks n = p :: vs →
      normKwarg p = some (S "PARENT_SCOPE") → (∀ u ∈ vs, said (S "CACHE") u = false) → SetKids false ks → SetKids b (n :: ks)

theorem pos_stopped (hcx : ∀ name, Flat (lookupParser ctx name)) {spec : PSpec} {brk : List Breaker} {n : Nat} {up : Bool}
    {ts : List Token} {r : Node × List Token} (hf : ∀ k, pargsFull spec.nargs k = .ok false)
    (h : exec ctx n (.pos spec brk) up ts = .ok r) (hw : ∀ t, ts.head? = some t → isWs t = false) (hr : ¬ r.2.length < ts.length) :
    StoppedAt brk r.2 := by
  have hs := exec_sat hcx n (.pos spec brk) up ts
  rw [h] at hs
  have e : r.2 = ts := hs.1.eq_of_length (Nat.le_antisymm hs.1.length_le (Nat.le_of_not_lt hr))
  rw [e]
  cases ts with
  | nil => exact Or.inl (by simp)
  | cons u us =>
    have hwu := hw u rfl
    cases hb : shouldBreak u brk with
    | true =>
      left
      intro t ht
      simp only [List.head?_cons, Option.some.injEq] at ht
      rw [← ht]
      exact hb
    | false =>
      cases hc : isAnyComment u with
      | false => exact absurd (hs.2 ⟨hwu, hc, hb, hf 0⟩) hr
      | true =>
        right
        cases n with
        | zero => simp [exec] at h
        | succ n =>
          change posStart (exec ctx n) spec brk up (u :: us) = _ at h
          simp only [posStart, List.dropWhile_cons, List.takeWhile_cons, hwu, Bool.false_eq_true, if_false, leaves, List.map_nil] at h
          cases n with
          | zero => simp [exec] at h
          | succ n =>
            change posIter ctx (exec ctx n) spec brk _ [] 0 up (u :: us) = _ at h
            have hl : (u.type == TokType.lparen) = false := by
              cases hq : u.type == TokType.lparen with
              | false => rfl
              | true =>
                have := eq_of_beq hq
                simp [isAnyComment, this] at hc
            simp only [posIter, hf, Bind.bind, Except.bind, hb, hl, hwu, hc, Bool.false_eq_true, if_false, if_true, Bool.false_and] at h
            split at h
            · rename_i hup
              exact (belongs_next hup).2
            · exfalso
              have h2 := exec_sat hcx n (.posLoop spec brk (annotated spec (u :: us)) ([] ++ [(consumeComment u us).1]) 0) up
                (consumeComment u us).2
              rw [h] at h2
              have h3 := h2.1.length_le
              have h4 := congrArg List.length (consumeComment_splits u us)
              have h5 : 0 < (consumeComment u us).1.toks.length := List.length_pos_of_mem (Gen.comment_head u us hc)
              simp only [List.length_append] at h4
              rw [e] at h3
              omega

theorem kw_tame (hcx : ∀ name, Flat (lookupParser ctx name)) {n : Nat} {up : Bool} {t : Token} {ts : List Token} {r : Node × List Token}
    (hsem : isSemantic t = true) (h : exec ctx n (.kwGroup (S "CACHE") setCache Gen.stops) up (t :: ts) = .ok r) (ht : ∀ u ∈ r.1.toks, TameTok u) :
    hasType .kwargGroup r.1 = true ∧ StoppedAt Gen.stops r.2 ∧ ∃ vs, semToks r.1 = t :: vs ∧ ∀ u ∈ vs, setKey u = false := by
  cases n with
  | zero => simp [exec] at h
  | succ n =>
    change kwIter (exec ctx n) _ _ Gen.stops (t :: ts) = _ at h
    simp only [kwIter] at h
    split at h
    · simp at h
    · obtain ⟨⟨sub, rest⟩, h1, hres⟩ := Parse.bind_ok.1 h
      simp only [pure, Except.pure, Except.ok.injEq] at hres
      clear h
      cases n with
      | zero => simp [exec] at h1
      | succ n =>
        change exec ctx n (.pos { nargs := .str (S "2+"), flags := [S "FORCE"] } Gen.stops) true (ts.dropWhile isWs) = _ at h1
        have hf : ∀ k, pargsFull (.str (S "2+")) k = .ok false := fun k => rfl
        have lead : semantics (toksL (leaves (ts.takeWhile isWs))) = [] := by rw [toksL_leaves', semantics_take]
        by_cases hl : rest.length < (ts.dropWhile isWs).length
        · simp only [hl, if_true] at hres
          subst hres
          have hsub : ∀ u ∈ sub.toks, TameTok u := by
            intro u hu
            apply ht
            simp only [mk, Node.toks]
            exact Gen.mem_toks_kid (c := sub) (by simp) hu
          obtain ⟨k1, _, k2, k3⟩ := pos_tame hf (by rfl) h1 hsub
          refine ⟨rfl, k3, semToks sub, ?_, fun u hu => stops_said (k2 u hu)⟩
          simp only [semToks, mk, Node.toks, List.cons_append, toksL, toksL_append, List.append_nil, List.nil_append]
          rw [semantics_word hsem, Parse.semantics_append, lead]
          rfl
        · simp only [hl, if_false] at hres
          subst hres
          refine ⟨rfl, pos_stopped (r := (sub, rest)) hcx hf h1 (head_drop ts) hl, [], ?_, by simp⟩
          simp only [semToks, mk, Node.toks, List.cons_append, toksL, toksL_append, List.append_nil, List.nil_append]
          rw [semantics_word hsem, lead]

theorem break_up {t : Token} (h : shouldBreak t ([.paren] ++ [kwBreaker [S "CACHE"]]) = true) : shouldBreak t Gen.stops = true := by
  simp only [Gen.stops, shouldBreak, kwBreaker, List.cons_append, List.nil_append, List.any_cons, List.any_nil, Breaker.fires,
    List.map_cons, List.map_nil, List.contains_eq_mem, List.mem_cons, List.not_mem_nil, or_false, Bool.or_false,
    Bool.or_eq_true, decide_eq_true_eq] at h ⊢
  rcases h with h | h
  · exact Or.inl h
  · exact Or.inr (Or.inl h)

theorem stopped_up {ts : List Token} (h : StoppedAt ([.paren] ++ [kwBreaker [S "CACHE"]]) ts) : StoppedAt Gen.stops ts := by
  rcases h with h | h
  · exact Or.inl fun t ht => break_up (h t ht)
  · exact Or.inr fun t ht => break_up (h t ht)

/-- A blank, a comment or a switch stops nothing. -/
theorem idle_passes {t : Token} (ht : TameTok t) (hs : isSemantic t = false) : shouldBreak t Gen.stops = false := by
  obtain ⟨h2, h3⟩ := ht.idle hs
  cases hb : shouldBreak t Gen.stops with
  | false => rfl
  | true =>
    exfalso
    simp only [Gen.stops, shouldBreak, kwBreaker, List.cons_append, List.nil_append, List.any_cons, List.any_nil, Breaker.fires,
      List.map_cons, List.map_nil, List.contains_eq_mem, List.mem_cons, List.not_mem_nil, or_false, Bool.or_false,
      Bool.or_eq_true, decide_eq_true_eq, beq_iff_eq] at hb
    rcases hb with h1 | h1 | h1
    · exact ht.rparen h1
    · exact h2 h1
    · exact h3 h1

theorem stopped_carry {t : Token} {ts : List Token} (ht : TameTok t) (hs : isSemantic t = false) (h : StoppedAt Gen.stops (t :: ts)) :
    StoppedAt Gen.stops ts := by
  rcases h with h | h
  · have := h t rfl
    rw [idle_passes ht hs] at this
    cases this
  · right
    rwa [sem_skip hs] at h

theorem up_said {t : Token} (h : shouldBreak t ([.paren] ++ [kwBreaker [S "CACHE"]]) = false) : said (S "CACHE") t = false := by
  simp only [shouldBreak, kwBreaker, List.cons_append, List.nil_append, List.any_cons, List.any_nil, Breaker.fires,
    List.map_cons, List.map_nil, List.contains_eq_mem, List.mem_cons, List.not_mem_nil, or_false, Bool.or_false,
    Bool.or_eq_false_iff, decide_eq_false_iff_not] at h
  have e1 : upper (S "CACHE") = S "CACHE" := by decide
  rw [e1] at h
  simp [said, h.2]

/-- The loop of a `set` without comments and parentheses. -/
theorem set_kids (hcx : ∀ name, Flat (lookupParser ctx name)) {v : Option Str} : ∀ (n : Nat) (acc : List Node) (up b : Bool)
    (ts : List Token) (r : Node × List Token), exec ctx n (.setLoop v [.paren] acc) up ts = .ok r →
    (∀ u ∈ r.1.toks, TameTok u) → (b = false → StoppedAt Gen.stops ts) → ∃ ks, r.1 = mkArg .set (acc ++ ks) ∧ SetKids b ks
  | 0, _, _, _, _, _, h, _, _ => by simp [exec] at h
  | n + 1, acc, up, b, ts, r, h, ht, hb => by
    change setIter ctx (exec ctx n) v [.paren] acc up ts = _ at h
    have inside : ∀ (m : Node) (up' : Bool) (rest : List Token),
        exec ctx n (.setLoop v [.paren] (acc ++ [m])) up' rest = .ok r → ∀ u ∈ m.toks, TameTok u := by
      intro m up' rest h u hu
      obtain ⟨cs, e⟩ := Gen.setLoop_keeps n _ _ _ _ h
      apply ht
      rw [e, mkArg, Node.toks]
      exact Gen.mem_toks_kid (c := m) (by simp) hu
    have next : ∀ (m : Node) (up' b' : Bool) (rest : List Token), exec ctx n (.setLoop v [.paren] (acc ++ [m])) up' rest = .ok r →
        (b' = false → StoppedAt Gen.stops rest) → (∀ ks, SetKids b' ks → SetKids b (m :: ks)) →
        ∃ ks, r.1 = mkArg .set (acc ++ ks) ∧ SetKids b ks := by
      intro m up' b' rest h hs hk
      obtain ⟨ks, e, h1⟩ := set_kids hcx n _ _ b' _ _ h ht hs
      exact ⟨m :: ks, by rw [e]; simp, hk ks h1⟩
    cases ts with
    | nil =>
      simp only [setIter, Except.ok.injEq] at h
      subst h
      exact ⟨[], by simp, .nil⟩
    | cons t ts =>
      simp only [setIter] at h
      split at h
      · simp only [Except.ok.injEq] at h
        subst h
        exact ⟨[], by simp, .nil⟩
      · rename_i hbr
        split at h
        · rename_i hw
          exact next _ _ b _ h (fun hb0 => stopped_carry (inside _ _ _ h t (by simp [Node.toks])) (not_sem (Or.inl hw)) (hb hb0))
            fun ks hk => .blank rfl rfl (by simp [semToks, Node.toks, semantics, isSemantic, hw]) hk
        · rename_i hw
          simp only [Bool.not_eq_true] at hw
          split at h
          · rename_i hcm
            simp only [Bool.and_eq_true] at hcm
            have hns := not_sem (Or.inr (Or.inl hcm.1))
            exact next _ _ b _ h
              (fun hb0 => stopped_carry (inside _ _ _ h t (by simp [mkBare, Node.toks, toksL])) hns (hb hb0))
              fun ks hk => .blank rfl rfl (by simp [mkBare, semToks, Node.toks, toksL, semantics, hns]) hk
          · split at h
            · rename_i hk
              obtain ⟨⟨sub, rest⟩, h1, h⟩ := Parse.bind_ok.1 h
              dsimp only at h
              split at h
              · simp at h
              · split at h
                · have hsem : isSemantic t = true := by
                    cases hs : isSemantic t with
                    | true => rfl
                    | false =>
                      have h2 := (inside _ _ _ h t (Gen.kw_head h1)).idle hs
                      have h3 := said_normKwarg (by decide) hk
                      simp only [said, beq_iff_eq] at h3
                      exact absurd h3 h2.1
                  obtain ⟨k1, k2, vs, k3, k4⟩ := kw_tame hcx hsem h1 (inside _ _ _ h)
                  refine next _ _ false _ h (fun _ => k2) fun ks hks => .cache ?_ k1 k3 (said_normKwarg (by decide) hk) k4 hks
                  simp only at k1
                  revert k1
                  cases sub with
                  | tok => simp [hasType]
                  | node ty a cs => simp only [hasType, beq_iff_eq]; rintro rfl; rfl
                · simp at h
            · split at h
              · rename_i hk
                obtain ⟨⟨sub, rest⟩, h1, h⟩ := Parse.bind_ok.1 h
                obtain ⟨h2, h3⟩ := must_ok h1
                have hf : ∀ k, pargsFull (.str (S "+")) k = .ok false := fun k => rfl
                obtain ⟨k1, _, k2, k3⟩ := pos_tame hf (by rfl) h2 (inside _ _ _ h)
                have hsem : isSemantic t = true := by
                  cases hs : isSemantic t with
                  | true => rfl
                  | false =>
                    have h4 := (inside _ _ _ h t (Gen.pos_first hw h2 h3)).idle hs
                    have h5 := said_normKwarg (by decide) hk
                    simp only [said, beq_iff_eq] at h5
                    exact absurd h5 h4.2
                obtain ⟨vs, k4⟩ := pos_tame_head hsem h2 h3 (inside _ _ _ h)
                refine next _ _ false _ h (fun _ => stopped_up k3) fun ks hks => .up k1 ?_ k4 hk (fun u hu => up_said (k2 u ?_)) hks
                · simp only at k1
                  revert k1
                  cases sub with
                  | tok => simp [hasType]
                  | node ty a cs => simp only [hasType, beq_iff_eq]; rintro rfl; rfl
                · rw [k4]
                  exact List.mem_cons_of_mem _ hu
              · obtain ⟨⟨sub, rest⟩, h1, h⟩ := Parse.bind_ok.1 h
                have hf : ∀ k, pargsFull (.str (S "+")) k = .ok false := fun k => rfl
                have fin : ∀ tags, rest.length < (t :: ts).length →
                    exec ctx n (.setLoop v [.paren] (acc ++ [addTags tags sub])) up rest = .ok r →
                    ∃ ks, r.1 = mkArg .set (acc ++ ks) ∧ SetKids b ks := by
                  intro tags hl h
                  have hin : ∀ u ∈ sub.toks, TameTok u := by
                    intro u hu
                    exact inside _ _ _ h u (by rw [Gen.toks_addTags]; exact hu)
                  obtain ⟨k1, k0, k2, k3⟩ := pos_tame hf (by rfl) h1 hin
                  have g1 : hasType .pargGroup (addTags tags sub) = true := by
                    revert k1
                    cases sub <;> simp [addTags, hasType]
                  have g2 : hasType .kwargGroup (addTags tags sub) = false := by
                    simp only at k1
                    revert k1
                    cases sub with
                    | tok => simp [hasType]
                    | node ty a cs => simp only [hasType, addTags, beq_iff_eq]; rintro rfl; rfl
                  have g3 : semToks (addTags tags sub) = semToks sub := by rw [semToks, Gen.toks_addTags]; rfl
                  cases hb0 : b with
                  | true =>
                    rw [hb0] at next
                    refine next _ _ false _ h (fun _ => k3) fun ks hks => .value g1 g2 ?_ hks
                    rw [g3]
                    exact fun u hu => stops_said (k2 u hu)
                  | false =>
                    rw [hb0] at next
                    refine next _ _ false _ h (fun _ => k3) fun ks hks => .idle g1 g2 ?_ hks
                    rw [g3]
                    cases hs : semToks sub with
                    | nil => rfl
                    | cons u us =>
                      exfalso
                      rcases hb hb0 with h5 | h5
                      · have h6 := h5 t rfl
                        cases hst : isSemantic t with
                        | false =>
                          rw [idle_passes (hin t (Gen.pos_first hw h1 hl)) hst] at h6
                          cases h6
                        | true =>
                          obtain ⟨vs, k4⟩ := pos_tame_head hst h1 hl hin
                          have h7 := k2 t (by rw [k4]; simp)
                          change shouldBreak t Gen.stops = false at h7
                          rw [h7] at h6
                          cases h6
                      · have h6 := h5 u (by rw [k0, hs]; rfl)
                        have h7 := k2 u (by rw [hs]; simp)
                        change shouldBreak u Gen.stops = false at h7
                        rw [h7] at h6
                        cases h6
                dsimp only at h
                have e0 : addTags [] sub = sub := by cases sub <;> simp [addTags]
                split at h
                · split at h
                  · split at h
                    · rename_i hl
                      exact fin [] hl (by rw [e0]; exact h)
                    · simp at h
                  · simp at h
                · split at h
                  · rename_i hl
                    exact fin _ hl h
                  · simp at h

/-- The tree of a `set` that has an argument. -/
theorem set_tree (hcx : ∀ name, Flat (lookupParser ctx name)) {n : Nat} {ts : List Token} {r : Node × List Token}
    (h : exec ctx n (.arg .setFn [.paren]) false ts = .ok r) (hc : ∀ u ∈ r.1.toks, TameTok u) :
    ∃ (pre : List Node) (g : Node) (ks : List Node), (∀ c ∈ pre, isNode c = false ∧ semToks c = []) ∧
      hasType .pargGroup g = true ∧ ((∃ t, semToks g = [t]) ∨ semToks g = [] ∧ semToks r.1 = []) ∧ SetKids true ks ∧
      r.1 = mkArg .set (pre ++ g :: ks) := by
  cases n with
  | zero => simp [exec] at h
  | succ n =>
    change setStart (exec ctx n) [.paren] false ts = _ at h
    simp only [setStart] at h
    obtain ⟨⟨sub, rest⟩, h1, h⟩ := Parse.bind_ok.1 h
    obtain ⟨h2, h3⟩ := must_ok h1
    dsimp only at h h3
    obtain ⟨ks, e, hk⟩ := set_kids hcx n _ _ true _ _ h hc (by simp)
    have hsub : ∀ u ∈ sub.toks, TameTok u := by
      intro u hu
      apply hc
      rw [e, mkArg, Node.toks]
      exact Gen.mem_toks_kid (c := sub) (by simp) hu
    have pre0 : ∀ c ∈ leaves (ts.takeWhile isWs), isNode c = false ∧ semToks c = [] := by
      intro c hcm
      simp only [leaves, List.mem_map] at hcm
      obtain ⟨u, hu, rfl⟩ := hcm
      refine ⟨rfl, ?_⟩
      have : isWs u = true := List.all_eq_true.1 (List.all_takeWhile (p := isWs)) u hu
      simp [semToks, Node.toks, semantics, isSemantic, this]
    obtain ⟨k1, k2, _, k4, k5⟩ := pos_reads (lim := some 1) (full_int 1) h2 fun u hu => (hsub u hu).lparen
    refine ⟨leaves (ts.takeWhile isWs), sub, ks, pre0, k1, ?_, hk, by rw [e]; simp⟩
    have one : (semToks sub).length = 1 → ∃ t, semToks sub = [t] := List.length_eq_one_iff.1
    rcases k5 with k5 | ⟨m, hm, k5⟩
    · rcases k5 with k5 | k5
      · cases hs : semToks sub with
        | cons t us =>
          left
          have h6 : (semToks sub).length ≤ 1 := k4 1 rfl
          rw [hs, List.length_cons] at h6
          exact ⟨t, by rw [List.eq_nil_of_length_eq_zero (l := us) (by omega)]⟩
        | nil =>
          right
          refine ⟨rfl, ?_⟩
          have stop : r.1 = mkArg .set (leaves (ts.takeWhile isWs) ++ [sub]) := by
            cases n with
            | zero => simp [exec] at h
            | succ n =>
              change setIter ctx (exec ctx n) _ [.paren] _ false rest = _ at h
              cases rest with
              | nil =>
                simp only [setIter, Except.ok.injEq] at h
                rw [← h]
              | cons t us =>
                have := (k5 t rfl).2 (by decide)
                have hb : shouldBreak t [.paren] = true := by simp [shouldBreak, Breaker.fires, this]
                simp only [setIter, hb, if_true, Except.ok.injEq] at h
                rw [← h]
          rw [stop, semToks, mkArg, Node.toks, toksL_append, Parse.semantics_append, toksL_leaves', semantics_take, toksL_cons, toksL_nil,
            List.append_nil, List.nil_append]
          exact hs
      · cases k5.1
    · simp only [Option.some.injEq] at hm
      subst hm
      exact Or.inl (one k5)

/-! ## What the children say -/

theorem cache_said : (c! "CACHE" : Str) = S "CACHE" := rfl

theorem afterCache_plain {a b : List Token} (h : ∀ u ∈ a, said (S "CACHE") u = false) :
    afterCache (a ++ b) = afterCache b := by
  induction a with
  | nil => rfl
  | cons t a ih =>
    have h1 : wordIs (c! "CACHE") t = false := h t (by simp)
    rw [List.cons_append, afterCache, ih fun u hu => h u (by simp [hu])]
    cases hb : afterCache b with
    | some r => rfl
    | none => simp [h1]

theorem key_cache {u : Token} (h : setKey u = false) : said (S "CACHE") u = false ∧ said (S "PARENT_SCOPE") u = false := by
  simpa [setKey] using h

theorem next_key {ks : List Node} (h : SetKids false ks) : ∀ t, (semantics (toksL ks)).head? = some t → setKey t = true := by
  generalize hb : false = b at h
  induction h with
  | nil => simp [toksL, semantics]
  | blank h1 h2 h3 _ ih =>
    intro t ht
    rw [toksL_cons, Parse.semantics_append, show semantics _ = [] from h3] at ht
    exact ih hb t ht
  | idle h1 h2 h3 _ ih =>
    intro t ht
    rw [toksL_cons, Parse.semantics_append, show semantics _ = [] from h3] at ht
    exact ih hb t ht
  | value => cases hb
  | cache h1 h2 h3 h4 h5 _ ih =>
    intro t ht
    rw [toksL_cons, Parse.semantics_append, show semantics _ = _ from h3] at ht
    simp only [List.cons_append, List.head?_cons, Option.some.injEq] at ht
    subst ht
    simp [setKey, h4]
  | up h1 h2 h3 h4 h5 _ ih =>
    intro t ht
    rw [toksL_cons, Parse.semantics_append, show semantics _ = _ from h3] at ht
    simp only [List.cons_append, List.head?_cons, Option.some.injEq] at ht
    subst ht
    simp [setKey, said_normKwarg (by decide) h4]

/-- The last `CACHE` group. -/
theorem kids_cache {b : Bool} {ks : List Node} (h : SetKids b ks) :
    ((ks.filter (hasType .kwargGroup)).getLast? = none ∧ afterCache (semantics (toksL ks)) = none) ∨
      ∃ g c vs rest, (ks.filter (hasType .kwargGroup)).getLast? = some g ∧ semToks g = c :: vs ∧
        afterCache (semantics (toksL ks)) = some (vs ++ rest) ∧ ∀ t, rest.head? = some t → said (S "PARENT_SCOPE") t = true := by
  have lift : ∀ {n : Node} {ks : List Node}, hasType .kwargGroup n = false → (∀ u ∈ semToks n, said (S "CACHE") u = false) →
      (((ks.filter (hasType .kwargGroup)).getLast? = none ∧ afterCache (semantics (toksL ks)) = none) ∨
      ∃ g c vs rest, (ks.filter (hasType .kwargGroup)).getLast? = some g ∧ semToks g = c :: vs ∧
        afterCache (semantics (toksL ks)) = some (vs ++ rest) ∧ ∀ t, rest.head? = some t → said (S "PARENT_SCOPE") t = true) →
      (((n :: ks).filter (hasType .kwargGroup)).getLast? = none ∧ afterCache (semantics (toksL (n :: ks))) = none) ∨
      ∃ g c vs rest, ((n :: ks).filter (hasType .kwargGroup)).getLast? = some g ∧ semToks g = c :: vs ∧
        afterCache (semantics (toksL (n :: ks))) = some (vs ++ rest) ∧ ∀ t, rest.head? = some t → said (S "PARENT_SCOPE") t = true := by
    intro n ks hn hs ih
    rw [List.filter_cons, hn, toksL_cons, Parse.semantics_append, show semantics n.toks = semToks n from rfl, afterCache_plain hs]
    exact ih
  induction h with
  | nil => exact Or.inl ⟨rfl, rfl⟩
  | blank h1 h2 h3 _ ih => exact lift h2 (by rw [h3]; simp) ih
  | idle h1 h2 h3 _ ih => exact lift h2 (by rw [h3]; simp) ih
  | value h1 h2 h3 _ ih => exact lift h2 (fun u hu => (key_cache (h3 u hu)).1) ih
  | up h1 h2 h3 h4 h5 _ ih =>
    refine lift h2 ?_ ih
    intro u hu
    rw [h3] at hu
    rcases List.mem_cons.1 hu with rfl | hu
    · have := said_normKwarg (by decide) h4
      simp only [said, beq_iff_eq] at this
      rw [said, this]
      decide
    · exact h5 u hu
  | @cache b n ks c vs h1 h2 h3 h4 h5 hk ih =>
    right
    have e1 : (n :: ks).filter (hasType .kwargGroup) = n :: ks.filter (hasType .kwargGroup) := by simp [h2]
    have e2 : semantics (toksL (n :: ks)) = c :: (vs ++ semantics (toksL ks)) := by
      rw [toksL_cons, Parse.semantics_append, show semantics n.toks = c :: vs from h3]
      rfl
    have e3 : afterCache (vs ++ semantics (toksL ks)) = afterCache (semantics (toksL ks)) :=
      afterCache_plain fun u hu => (key_cache (h5 u hu)).1
    rw [e1, e2, afterCache, e3]
    rcases ih with ⟨i1, i2⟩ | ⟨g, c', vs', rest, i1, i2, i3, i4⟩
    · refine ⟨n, c, vs, semantics (toksL ks), ?_, h3, ?_, ?_⟩
      · rw [List.getLast?_eq_none_iff] at i1
        rw [i1]
        rfl
      · rw [i2]
        simp only
        rw [if_pos (show wordIs (c! "CACHE") c = true from h4)]
      · intro t ht
        have k1 := next_key hk t ht
        simp only [setKey, Bool.or_eq_true] at k1
        rcases k1 with k1 | k1
        · exfalso
          cases hs : semantics (toksL ks) with
          | nil => rw [hs] at ht; simp at ht
          | cons u us =>
            rw [hs] at ht i2
            simp only [List.head?_cons, Option.some.injEq] at ht
            subst ht
            rw [afterCache] at i2
            split at i2
            · simp at i2
            · rw [if_pos (show wordIs (c! "CACHE") u = true from k1)] at i2
              simp at i2
        · exact k1
    · refine ⟨g, c', vs', rest, ?_, i2, ?_, i4⟩
      · rw [List.getLast?_cons, i1]
        rfl
      · rw [i3]

/-- The groups that start with `PARENT_SCOPE`. -/
theorem kids_parent {b : Bool} {ks : List Node} (h : SetKids b ks) (hn : afterCache (semantics (toksL ks)) = none) :
    ((ks.filter (hasType .pargGroup)).any fun g => match semToks g with
      | [] => false
      | t :: _ => normKwarg t == some (S "PARENT_SCOPE")) = (semantics (toksL ks)).any (said (S "PARENT_SCOPE")) := by
  induction h with
  | nil => rfl
  | blank h1 h2 h3 _ ih =>
    rw [toksL_cons, Parse.semantics_append, show semantics _ = [] from h3] at hn ⊢
    rw [List.filter_cons, h1]
    exact ih hn
  | idle h1 h2 h3 _ ih =>
    rw [toksL_cons, Parse.semantics_append, show semantics _ = [] from h3] at hn ⊢
    rw [List.filter_cons, h1, if_pos rfl, List.any_cons, h3]
    exact ih hn
  | @value n ks h1 h2 h3 _ ih =>
    rw [toksL_cons, Parse.semantics_append] at hn ⊢
    rw [show semantics n.toks = semToks n from rfl] at hn ⊢
    rw [afterCache_plain fun u hu => (key_cache (h3 u hu)).1] at hn
    rw [List.filter_cons, h1, if_pos rfl, List.any_cons, ih hn, List.any_append]
    have z : (semToks n).any (said (S "PARENT_SCOPE")) = false := by
      rw [List.any_eq_false]
      intro u hu
      simp [(key_cache (h3 u hu)).2]
    rw [z]
    cases hs : semToks n with
    | nil => rfl
    | cons u us =>
      have hu := (key_cache (h3 u (by rw [hs]; simp))).2
      have : (normKwarg u == some (S "PARENT_SCOPE")) = false := by
        rw [beq_eq_false_iff_ne]
        intro e
        rw [said_normKwarg (by decide) e] at hu
        cases hu
      simp [this]
  | @cache b n ks c vs h1 h2 h3 h4 h5 _ ih =>
    exfalso
    rw [toksL_cons, Parse.semantics_append, show semantics n.toks = c :: vs from h3, List.cons_append, afterCache] at hn
    split at hn
    · simp at hn
    · rw [if_pos (show wordIs (c! "CACHE") c = true from h4)] at hn
      simp at hn
  | @up b n ks p vs h1 h2 h3 h4 h5 _ ih =>
    rw [toksL_cons, Parse.semantics_append, show semantics n.toks = p :: vs from h3, List.filter_cons, h1, if_pos rfl, List.any_cons,
      h3]
    simp [h4, said_normKwarg (by decide) h4]

/-- A home as the code has it. -/
def Home.scope : Home → Scope
  | .cache => .cache
  | .internal => .internal
  | .parent => .parent
  | .inFunction => .local
  | .directory => .directory

theorem set_var {pre : List Node} {g : Node} {ks : List Node} (h1 : ∀ c ∈ pre, isNode c = false ∧ semToks c = [])
    (h2 : hasType .pargGroup g = true) : varName (mkArg .set (pre ++ g :: ks)) = (semToks g).head? := by
  have : (pre ++ g :: ks).find? (hasType .pargGroup) = some g := by
    rw [List.find?_append, List.find?_eq_none.2, Option.none_or, List.find?_cons_of_pos h2]
    intro c hc
    have := (h1 c hc).1
    cases c with
    | tok => simp [hasType]
    | node => simp [isNode] at this
  rw [varName, show kidsOf (mkArg .set (pre ++ g :: ks)) = pre ++ g :: ks from rfl, this]

/-- **The scope of a `set`.** -/
theorem set_scope {pre : List Node} {g : Node} {t : Token} {ks : List Node} (h1 : ∀ c ∈ pre, isNode c = false ∧ semToks c = [])
    (h2 : hasType .pargGroup g = true) (h3 : semToks g = [t]) (h4 : SetKids true ks) {s : Node} {anc : List Frame}
    (hs : argTree s = mkArg .set (pre ++ g :: ks)) {blocks : List Str} (hb : ∀ sc, scopeAbove anc = .ok sc → sc = (homeIn blocks).scope)
    {sc : Scope} (h : scopeOf anc s = .ok sc) :
    sc = (homeOfSet blocks (semToks (argTree s)).tail).scope ∧ varName (argTree s) = some t ∧ (semToks (argTree s)).head? = some t := by
  have p0 : ∀ ty, pre.filter (hasType ty) = [] := by
    intro ty
    rw [List.filter_eq_nil_iff]
    intro c hc
    have := (h1 c hc).1
    cases c with
    | tok => simp [hasType]
    | node => simp [isNode] at this
  have g0 : hasType .kwargGroup g = false := by
    revert h2
    cases g with
    | tok => simp [hasType]
    | node ty a cs => simp only [hasType, beq_iff_eq]; rintro rfl; rfl
  have q0 : semantics (toksL pre) = [] := by
    clear hs p0 hb h
    induction pre with
    | nil => rfl
    | cons c pre ih =>
      rw [toksL_cons, Parse.semantics_append, ih fun c hc => h1 c (by simp [hc]), List.append_nil]
      exact (h1 c (by simp)).2
  have sem : semToks (argTree s) = t :: semantics (toksL ks) := by
    rw [hs, semToks, mkArg, Node.toks, toksL_append, toksL_cons, Parse.semantics_append, Parse.semantics_append, q0,
      show semantics g.toks = [t] from h3]
    rfl
  have kw : (kidsOf (argTree s)).filter (hasType .kwargGroup) = ks.filter (hasType .kwargGroup) := by
    rw [hs]
    simp [mkArg, kidsOf, p0, g0]
  have pw : ((kidsOf (argTree s)).filter (hasType .pargGroup)).drop 1 = ks.filter (hasType .pargGroup) := by
    rw [hs]
    simp [mkArg, kidsOf, p0, h2]
  have ro : roleOf (argTree s) = .set := by rw [hs]; rfl
  refine ⟨?_, ?_, by rw [sem]; rfl⟩
  · simp only [scopeOf, ro, if_true, cacheOf, kw] at h
    rw [sem, List.tail_cons]
    rcases kids_cache h4 with ⟨i1, i2⟩ | ⟨g', c, vs, rest, i1, i2, i3, i4⟩
    · rw [i1] at h
      simp only [Option.map_none] at h
      have k : parentScope (argTree s) = (semantics (toksL ks)).any (said (S "PARENT_SCOPE")) := by
        unfold parentScope
        rw [pw]
        exact kids_parent h4 i2
      rw [k] at h
      simp only [homeOfSet, i2]
      change (if (semantics (toksL ks)).any (wordIs (c! "PARENT_SCOPE")) = true then _ else _) = _ at h
      split at h
      · rename_i hp
        simp only [Except.ok.injEq] at h
        rw [if_pos hp, ← h]
        rfl
      · rename_i hp
        rw [if_neg hp]
        exact hb _ h
    · rw [i1] at h
      simp only [Option.map_some, i2] at h
      simp only [homeOfSet, i3]
      cases vs with
      | cons v vs =>
        simp only [List.getElem?_cons_succ, List.getElem?_cons_zero, Option.map_some, Option.some.injEq, Except.ok.injEq] at h
        rw [← h]
        simp only [List.cons_append]
        by_cases e : v.spelling = S "INTERNAL"
        · rw [if_pos e, if_pos (show v.spelling = c! "INTERNAL" from e)]
          rfl
        · rw [if_neg e, if_neg (show ¬ v.spelling = c! "INTERNAL" from e)]
          rfl
      | nil =>
        simp only [List.getElem?_cons_succ, List.getElem?_nil, Option.map_none, Except.ok.injEq] at h
        rw [if_neg (by simp)] at h
        rw [← h, List.nil_append]
        cases rest with
        | nil => rfl
        | cons u us =>
          have := i4 u rfl
          simp only
          rw [if_neg]
          · rfl
          · intro e
            rw [said, e] at this
            exact absurd this (by decide)
  · have : (kidsOf (argTree s)).find? (hasType .pargGroup) = some g := by
      rw [hs]
      show (pre ++ g :: ks).find? (hasType .pargGroup) = some g
      rw [List.find?_append, List.find?_cons, h2]
      have : pre.find? (hasType .pargGroup) = none := by
        rw [← List.head?_filter, p0]
        rfl
      rw [this]
      rfl
    rw [varName, this]
    simp [h3]

end Verif.Lint
