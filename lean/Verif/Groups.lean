import Verif.GroupSpec
import Verif.ParseSeg
import Verif.ParseNeat

/-!
# The groups of a command (lemmas for C62)
-/

namespace Verif.Parse
open Verif Py Lex
open Verif.Layout (Bald trailing_bald)

/-! ## Words -/

/-- An argument list without parentheses, and what follows it. -/
structure Args (args : List Token) (r : Token) (more : List Token) : Prop where
  bald : Bald (args ++ [r])
  noParen : ∀ t ∈ args, t.type ≠ .lparen ∧ t.type ≠ .rparen
  close : r.type = .rparen

theorem Args.tail {t : Token} {args : List Token} {r : Token} {more : List Token} (h : Args (t :: args) r more) :
    Args args r more :=
  ⟨Bald.suffix (c := [t]) h.bald, fun u hu => h.noParen u (by simp [hu]), h.close⟩

theorem Args.drop {a b : List Token} {r : Token} {more : List Token} (h : Args (a ++ b) r more) : Args b r more :=
  ⟨Bald.suffix (c := a) (by simpa using h.bald), fun u hu => h.noParen u (by simp [hu]), h.close⟩

theorem explicit_close (ctx : Ctx) {r : Token} (more : List Token) (hr : r.type = .rparen) : ∀ {args : List Token}, Bald (args ++ [r]) →
    nextExplicit ctx (args ++ r :: more) = false
  | [], _ => by simp [nextExplicit, hr, isWs]
  | t :: ts, ok => by
    have h := (ok.switch t (by simp)).1
    simp only [isAnyComment, Bool.or_eq_false_iff, beq_eq_false_iff_ne] at h
    simp only [List.cons_append, nextExplicit]
    split
    · exact explicit_close ctx more hr (Bald.suffix (c := [t]) ok)
    · simp [h.1]

/-- Nothing behind an argument is a trailing comment. -/
theorem Args.trailing {args : List Token} {r : Token} {more : List Token} (ctx : Ctx) (h : Args args r more) :
    consumeTrailing ctx (args ++ r :: more) = ([], args ++ r :: more) := by
  have : nextTrailing ctx (args ++ r :: more) = false := by
    have e := explicit_close ctx more h.close h.bald
    have hr : isAnyComment r = false := by simp [isAnyComment, h.close]
    have hrw : isWs r = false := by simp [isWs, h.close]
    match args, h with
    | [], h =>
      have hc := h.close
      cases more <;> simp_all [nextTrailing, validTrailing]
    | [t], h =>
      have ht := (h.bald.switch t (by simp)).1
      simp_all [nextTrailing, validTrailing]
    | t :: u :: us, h =>
      have ht := (h.bald.switch t (by simp)).1
      have hu := (h.bald.switch u (by simp)).1
      simp_all [nextTrailing, validTrailing]
  simp [consumeTrailing, this]

theorem semantics_word {t : Token} {ts : List Token} (h : isSemantic t = true) :
    semantics (t :: ts) = t :: semantics ts := by
  simp [semantics, h]

theorem keywordText_eq (t : Token) : keywordText t = normKwarg t := by
  unfold keywordText normKwarg
  have : startsWith ['-'] t.spelling = true ↔ t.spelling.head? = some '-' := by
    cases t.spelling with
    | nil => simp [startsWith, stripPrefix?]
    | cons c cs => simp [startsWith, stripPrefix?]; exact eq_comm
  by_cases h1 : t.type = .word
  · simp [h1]
  · by_cases h2 : t.type = .unquoted ∧ t.spelling.head? = some '-'
    · have h3 := this.2 h2.2
      simp [h1, h2, h3]
    · have h3 : ¬ (t.type = .unquoted ∧ startsWith ['-'] t.spelling = true) := fun h => h2 ⟨h.1, this.1 h.2⟩
      rw [if_neg h1, if_neg h2, if_neg h3, if_pos h1]

theorem kindOf_eq (flags : List Str) (t : Token) :
    kindOf flags t = if kwargIn t flags then .flag else .argument := by
  unfold kindOf kwargIn
  rw [keywordText_eq]
  cases normKwarg t with
  | none => simp
  | some w => simp

/-- The words taken by a positional group that has `n` of them already. -/
def takes (nargs : Nargs) (stop : Token → Bool) (n : Nat) (ws : List Token) : List Token :=
  match nargs with
  | .int k => ws.take (k.toNat - n)
  | .str _ => ws.takeWhile fun t => !stop t

/-- A word with its kind. -/
def mk2 (flags : List Str) (t : Token) : NT × Token := (kindOf flags t, t)

theorem leafs_mk {flags : List Str} {t : Token} :
    leafs (mk (if kwargIn t flags then .flag else .argument) [.tok t]) = [mk2 flags t] := by
  rw [← kindOf_eq]
  have : kindOf flags t = .flag ∨ kindOf flags t = .argument := by
    rw [kindOf_eq]; split <;> simp
  rcases this with h | h <;> simp [mk, leafs, mk2, h]

theorem leafsL_append (a b : List Node) : leafsL (a ++ b) = leafsL a ++ leafsL b := by
  induction a with
  | nil => rfl
  | cons n ns ih => simp [leafsL, ih]

theorem leafsL_leaves (ts : List Token) : leafsL (leaves ts) = [] := by
  induction ts with
  | nil => rfl
  | cons t ts ih =>
    show leafs (.tok t) ++ leafsL (leaves ts) = []
    rw [ih]; rfl

/-! ## Positional groups -/

section
variable {ctx : Ctx} {r : Token} {more : List Token}

theorem posLoop_words {spec : PSpec} {brk : List Breaker} {sortable : Bool} (hq : spec.nargs ≠ .str (S "?"))
    (hb : .paren ∈ brk) : ∀ (m : Nat) (up : Bool) (acc : List Node) (n : Nat) (args : List Token), Args args r more →
    (∀ t ∈ args, isWs t = true → shouldBreak t brk = false) →
    ∀ nd rest, exec ctx m (.posLoop spec brk sortable acc n) up (args ++ r :: more) = .ok (nd, rest) →
    ∃ a b cs, args = a ++ b ∧ rest = b ++ r :: more ∧ nd = .node .pargGroup (posAttr spec sortable) (acc ++ cs) ∧
      leafsL cs = (semantics a).map (mk2 spec.flags) ∧
      semantics a = takes spec.nargs (fun t => shouldBreak t brk) n (semantics args)
  | 0, _, _, _, _, _, _, _, _, h => by simp [exec] at h
  | m + 1, up, acc, n, args, ha, hbl, nd, rest, h => by
    have full_not_str : ∀ {b}, pargsFull spec.nargs n = .ok b → (b = true → ∃ k, spec.nargs = .int k ∧ k.toNat ≤ n) ∧
        (b = false → ∀ k, spec.nargs = .int k → n < k.toNat) := by
      intro b hb
      unfold pargsFull at hb
      split at hb
      · rename_i k hk
        simp only [Except.ok.injEq] at hb
        subst hb
        simp only [decide_eq_true_eq, decide_eq_false_iff_not]
        refine ⟨fun h => ⟨k, hk, by omega⟩, fun h k' e => ?_⟩
        rw [hk] at e
        simp only [Nargs.int.injEq] at e
        subst e
        omega
      · rename_i s hs
        refine ⟨fun h => ?_, fun h k' e => by rw [hs] at e; simp at e⟩
        subst h
        rw [if_neg (by rintro rfl; exact hq hs)] at hb
        split at hb
        · simp at hb
        · split at hb
          · split at hb <;> simp at hb
          · simp at hb
    have stop_now : ∀ (h0 : takes spec.nargs (fun t => shouldBreak t brk) n (semantics args) = [])
        (h : nd = .node .pargGroup (posAttr spec sortable) acc ∧ rest = args ++ r :: more),
        ∃ a b cs, args = a ++ b ∧ rest = b ++ r :: more ∧ nd = .node .pargGroup (posAttr spec sortable) (acc ++ cs) ∧
          leafsL cs = (semantics a).map (mk2 spec.flags) ∧
          semantics a = takes spec.nargs (fun t => shouldBreak t brk) n (semantics args) := by
      intro h0 h
      exact ⟨[], args, [], rfl, h.2, by simp [h.1], rfl, by rw [h0]; rfl⟩
    have hr : shouldBreak r brk = true := by
      simp only [shouldBreak, List.any_eq_true]
      exact ⟨.paren, hb, by simp [Breaker.fires, ha.close]⟩
    simp only [exec, step] at h
    cases args with
    | nil =>
      simp only [List.nil_append, posIter, Parse.bind_ok] at h
      obtain ⟨b, hb2, h⟩ := h
      refine stop_now (by cases hn : spec.nargs <;> simp [takes, semantics]) ?_
      cases b with
      | true => simp only [if_true, pure_ok, Prod.mk.injEq] at h; exact ⟨h.1.symm, h.2.symm⟩
      | false =>
        simp only [Bool.false_eq_true, if_false] at h
        rw [hr] at h
        simp only [ha.close, beq_self_eq_true, Bool.or_true, Bool.and_self, if_true, pure_ok, Prod.mk.injEq] at h
        exact ⟨h.1.symm, h.2.symm⟩
    | cons t ts =>
      simp only [List.cons_append, posIter, Parse.bind_ok] at h
      obtain ⟨b, hb2, h⟩ := h
      obtain ⟨hf1, hf2⟩ := full_not_str hb2
      have hnp := ha.noParen t (by simp)
      have hsw := ha.bald.switch t (by simp)
      cases b with
      | true =>
        simp only [if_true, pure_ok, Prod.mk.injEq] at h
        obtain ⟨k, hk, hk2⟩ := hf1 rfl
        refine stop_now ?_ ⟨h.1.symm, by simpa using h.2.symm⟩
        simp only [takes, hk]
        rw [show k.toNat - n = 0 by omega, List.take_zero]
      | false =>
        simp only [Bool.false_eq_true, if_false] at h
        split at h
        · rename_i hbr
          simp only [pure_ok, Prod.mk.injEq] at h
          have hnr : (t.type == .rparen) = false := by simpa using hnp.2
          simp only [hnr, Bool.or_false, Bool.and_eq_true, Bool.not_eq_true'] at hbr
          refine stop_now ?_ ⟨h.1.symm, by simpa using h.2.symm⟩
          cases hn : spec.nargs with
          | int k => rw [hn] at hbr; simp [Nargs.exact] at hbr
          | str s =>
            simp only [takes]
            rcases ha.bald.ink t (by simp) with hw | hw
            · rw [hbl t (by simp) hw] at hbr; simp at hbr
            · rw [semantics_word hw, List.takeWhile_cons, hbr.1]; rfl
        · rename_i hbr
          have hl : (t.type == .lparen) = false := by simpa using hnp.1
          rw [hl] at h
          simp only [Bool.false_eq_true, if_false] at h
          split at h
          · rename_i hw
            obtain ⟨a, b, cs, e1, e2, e3, e4, e5⟩ := posLoop_words hq hb m up _ _ ts ha.tail (fun u hu => hbl u (by simp [hu])) nd rest h
            refine ⟨t :: a, b, .tok t :: cs, by simp [e1], e2, by simp [e3], ?_, ?_⟩
            · rw [semantics_ws hw]; simpa [leafsL, leafs] using e4
            · rw [semantics_ws hw, semantics_ws hw]; exact e5
          · rename_i hw
            rw [hsw.1, hsw.2] at h
            simp only [Bool.false_eq_true, if_false] at h
            have hsem : isSemantic t = true := by
              rcases ha.bald.ink t (by simp) with h | h
              · exact absurd h hw
              · exact h
            have htr : consumeTrailing ctx (ts ++ r :: more) = ([], ts ++ r :: more) :=
              ha.tail.trailing ctx
            rw [htr] at h
            simp only at h
            obtain ⟨a, b, cs, e1, e2, e3, e4, e5⟩ := posLoop_words hq hb m up _ _ ts ha.tail (fun u hu => hbl u (by simp [hu])) nd rest h
            refine ⟨t :: a, b, _ :: cs, by simp [e1], e2, by rw [e3]; simp; rfl, ?_, ?_⟩
            · rw [semantics_word hsem]
              simp only [leafsL, List.map_cons]
              rw [leafs_mk, e4]; rfl
            · rw [semantics_word hsem, semantics_word hsem, e5]
              cases hn : spec.nargs with
              | int k =>
                have := hf2 rfl k hn
                simp only [takes]
                rw [show k.toNat - n = (k.toNat - (n + 1)) + 1 by omega, List.take_succ_cons]
              | str s =>
                have hnb : shouldBreak t brk = false := by
                  rw [hn] at hbr
                  simp [Nargs.exact] at hbr
                  exact hbr
                simp only [takes, List.takeWhile_cons, hnb]; rfl

theorem ws_rparen {q : Token} (h : q.type = .rparen) : isWs q = false := by simp [isWs, h]

theorem takeWhile_ws {args : List Token} (hr : r.type = .rparen) :
    (args ++ r :: more).takeWhile isWs = args.takeWhile isWs ∧
    (args ++ r :: more).dropWhile isWs = args.dropWhile isWs ++ r :: more := by
  have h := ws_rparen hr
  induction args with
  | nil => simp [h]
  | cons t ts ih =>
    cases ht : isWs t
    · simp [ht]
    · simpa [ht] using ih

theorem semantics_drop (ts : List Token) : semantics (ts.dropWhile isWs) = semantics ts := by
  induction ts with
  | nil => rfl
  | cons t ts ih =>
    cases ht : isWs t
    · simp [ht]
    · simp [ht, semantics_ws ht, ih]

theorem semantics_take (ts : List Token) : semantics (ts.takeWhile isWs) = [] := by
  induction ts with
  | nil => rfl
  | cons t ts ih =>
    cases ht : isWs t
    · simp [ht, semantics]
    · simp [ht, semantics_ws ht, ih]

theorem head_drop (ts : List Token) : ∀ t ∈ (ts.dropWhile isWs).head?, isWs t = false := by
  induction ts with
  | nil => simp
  | cons t ts ih =>
    cases ht : isWs t
    · simp [ht]
    · simpa [ht] using ih

theorem Args.dropWs {args : List Token} (h : Args args r more) : Args (args.dropWhile isWs) r more :=
  Args.drop (a := args.takeWhile isWs) (by rw [List.takeWhile_append_dropWhile]; exact h)

/-- The words that a slot takes. -/
def slotWords (s : Slot) (stop : Token → Bool) (ws : List Token) : List (NT × Token) :=
  (ws.take s.forced).map (mk2 s.fflags) ++
    match s.more with
    | none => []
    | some fl => ((ws.drop s.forced).takeWhile fun t => !stop t).map (mk2 fl)

/-- The words that a slot leaves. -/
def slotRest (s : Slot) (stop : Token → Bool) (ws : List Token) : List Token :=
  match s.more with
  | none => ws.drop s.forced
  | some _ => (ws.drop s.forced).dropWhile fun t => !stop t

/-- A piece of the argument list was read into these words. -/
structure Took (args : List Token) (r : Token) (more rest : List Token) (s : Slot) (stop : Token → Bool)
    (words : List (NT × Token)) : Prop where
  split : ∃ a b, args = a ++ b ∧ rest = b ++ r :: more ∧ semantics b = slotRest s stop (semantics args) ∧
    words.map (·.2) = semantics a
  words : words = slotWords s stop (semantics args)

theorem mk2_snd (flags : List Str) (l : List Token) : (l.map (mk2 flags)).map (·.2) = l := by
  induction l with
  | nil => rfl
  | cons t l ih => simp only [List.map_cons, ih]; rfl

theorem takes_slot {spec : PSpec} {slot : Slot} (hs : posSlot spec = some slot) (stop : Token → Bool)
    (ws : List Token) : (takes spec.nargs stop 0 ws).map (mk2 spec.flags) = slotWords slot stop ws ∧
      takes spec.nargs stop 0 ws ++ slotRest slot stop ws = ws := by
  unfold posSlot at hs
  split at hs
  · rename_i k hk
    simp only [Option.some.injEq] at hs
    subst hs
    simp [takes, hk, slotWords, slotRest]
  · rename_i x hx
    split at hs
    · simp at hs
    · simp only [Option.some.injEq] at hs
      subst hs
      simp [takes, hx, slotWords, slotRest]

theorem posSlot_ne {spec : PSpec} {slot : Slot} (hs : posSlot spec = some slot) : spec.nargs ≠ .str (S "?") := by
  intro h
  simp [posSlot, h] at hs

theorem pos_words {spec : PSpec} {slot : Slot} {brk : List Breaker} (hs : posSlot spec = some slot)
    (hb : .paren ∈ brk) {m : Nat} {up : Bool} {args : List Token} (ha : Args args r more)
    (hbl : ∀ t ∈ args, isWs t = true → shouldBreak t brk = false) {nd : Node} {rest : List Token}
    (h : exec ctx m (.pos spec brk) up (args ++ r :: more) = .ok (nd, rest)) :
    ∃ at_ cs, nd = .node .pargGroup at_ cs ∧ Took args r more rest slot (fun t => shouldBreak t brk) (leafsL cs) := by
  cases m with
  | zero => simp [exec] at h
  | succ m =>
    simp only [exec, step, posStart] at h
    rw [(takeWhile_ws ha.close).1, (takeWhile_ws ha.close).2] at h
    obtain ⟨a, b, cs, e1, e2, e3, e4, e5⟩ := posLoop_words (posSlot_ne hs) hb m up _ _ _ ha.dropWs
      (fun t ht => hbl t (List.dropWhile_sublist _ |>.subset ht)) nd rest h
    obtain ⟨t1, t2⟩ := takes_slot hs (fun t => shouldBreak t brk) (semantics args)
    rw [semantics_drop] at e5
    refine ⟨_, _, e3, ⟨args.takeWhile isWs ++ a, b, ?_, e2, ?_, ?_⟩, ?_⟩
    · rw [List.append_assoc, ← e1, List.takeWhile_append_dropWhile]
    · have h1 : semantics args = semantics a ++ semantics b := by
        rw [← semantics_drop, e1]; simp [semantics]
      rw [← e5] at t2
      rw [h1] at t2 ⊢
      exact (List.append_cancel_left t2).symm
    · rw [leafsL_append, leafsL_leaves, e4]
      simp only [List.nil_append, semantics_append, semantics_take]
      exact mk2_snd _ _
    · rw [leafsL_append, leafsL_leaves, e4, e5, List.nil_append, t1]

/-- A group that takes nothing. -/
theorem pos_none {spec : PSpec} {slot : Slot} {brk : List Breaker} (hs : posSlot spec = some slot) (hf : slot.forced = 0)
    (hm : slot.more = none) (hb : .paren ∈ brk) {m : Nat} {up : Bool} {t : Token} {ts : List Token}
    (ha : Args (t :: ts) r more) (hbl : ∀ u ∈ t :: ts, isWs u = true → shouldBreak u brk = false) (ht : isSemantic t = true)
    {nd : Node} {rest : List Token}
    (h : exec ctx m (.pos spec brk) up (t :: (ts ++ r :: more)) = .ok (nd, rest)) : rest = t :: (ts ++ r :: more) := by
  obtain ⟨at_, ds, rfl, ⟨a, b, f2, f3, f4, f5⟩, f6⟩ := pos_words (args := t :: ts) hs hb ha hbl h
  have hw : leafsL ds = [] := by rw [f6]; simp [slotWords, hf, hm]
  rw [hw] at f5
  cases a with
  | nil =>
    simp only [List.nil_append] at f2
    rw [f3, ← f2]
    rfl
  | cons u a =>
    simp only [List.cons_append, List.cons.injEq] at f2
    obtain ⟨rfl, _⟩ := f2
    rw [semantics_word ht] at f5
    simp at f5

/-! ## The values of a keyword -/

theorem break_nil (t : Token) (brk : List Breaker) : shouldBreak t (brk ++ [kwBreaker []]) = shouldBreak t brk := by
  simp [shouldBreak, kwBreaker, Breaker.fires]

theorem rparen_break {brk : List Breaker} (hb : .paren ∈ brk) {q : Token} (h : q.type = .rparen) :
    shouldBreak q brk = true := by
  simp only [shouldBreak, List.any_eq_true]
  exact ⟨.paren, hb, by simp [Breaker.fires, h]⟩

theorem rparen_sem {q : Token} (h : q.type = .rparen) : isWs q = false ∧ isAnyComment q = false ∧ isOnOff q = false := by
  simp [isWs, isAnyComment, isOnOff, h]

theorem slot_congr {s : Slot} {f g : Token → Bool} {l : List Token} (h : ∀ u ∈ l, f u = g u) :
    slotWords s f l = slotWords s g l ∧ slotRest s f l = slotRest s g l := by
  have key : ∀ l : List Token, (∀ u ∈ l, f u = g u) →
      (l.takeWhile fun t => !f t) = (l.takeWhile fun t => !g t) ∧ (l.dropWhile fun t => !f t) = (l.dropWhile fun t => !g t) := by
    intro l h
    induction l with
    | nil => simp
    | cons u l ih =>
      have hu := h u (by simp)
      have ih := ih (fun v hv => h v (by simp [hv]))
      simp only [List.takeWhile_cons, List.dropWhile_cons, hu, ih]
      exact ⟨trivial, trivial⟩
  have := key (l.drop s.forced) (fun u hu => h u (List.mem_of_mem_drop hu))
  unfold slotWords slotRest
  cases s.more with
  | none => exact ⟨rfl, rfl⟩
  | some fl => simp only [this.1, this.2]; exact ⟨trivial, trivial⟩

theorem slot_again (fl : List Str) (stop : Token → Bool) (l : List Token) :
    slotWords ⟨0, [], some fl⟩ stop (slotRest ⟨0, [], some fl⟩ stop l) = [] ∧
      slotRest ⟨0, [], some fl⟩ stop (slotRest ⟨0, [], some fl⟩ stop l) = slotRest ⟨0, [], some fl⟩ stop l := by
  simp only [slotWords, slotRest, List.take_zero, List.map_nil, List.nil_append, List.drop_zero]
  induction l with
  | nil => simp
  | cons u l ih =>
    by_cases hu : stop u = true
    · simp [hu]
    · simp only [Bool.not_eq_true] at hu
      simpa [hu] using ih

/-- The loop of a parser without keywords, once its own specification is used up. -/
theorem inner_rest {cmd : Option CmdInfo} {dflt : PSpec} {x : Str} (hd : dflt.nargs = .str x) (hx : x ≠ S "?")
    {brk kbrk : List Breaker} (hb : .paren ∈ brk) : ∀ (m : Nat) (up : Bool) (acc : List Node) (args : List Token),
    Args args r more → (∀ t ∈ args, isWs t = true → shouldBreak t brk = false) → ∀ nd rest,
    exec ctx m (.stdLoop cmd [] dflt [] brk kbrk acc) up (args ++ r :: more) = .ok (nd, rest) →
    ∃ cs, nd = stdNode cmd (acc ++ cs) ∧
      Took args r more rest ⟨0, [], some dflt.flags⟩ (fun t => shouldBreak t brk) (leafsL cs)
  | 0, _, _, _, _, _, _, _, h => by simp [exec] at h
  | m + 1, up, acc, args, ha, hbl, nd, rest, h => by
    have hslot : posSlot dflt = some ⟨0, [], some dflt.flags⟩ := by simp [posSlot, hd, hx]
    simp only [exec, step] at h
    cases args with
    | nil =>
      obtain ⟨h1, h2, h3⟩ := rparen_sem ha.close
      simp only [List.nil_append, stdIter, h1, h2, h3, Bool.false_eq_true, if_false, List.headD_nil, hd, Nargs.exact,
        Bool.not_false, Bool.true_or, Bool.and_true, rparen_break hb ha.close, if_true, Except.ok.injEq, Prod.mk.injEq] at h
      refine ⟨[], by simp [h.1], ⟨[], [], rfl, by simp [h.2], by simp [slotRest, semantics], by simp [leafsL, semantics]⟩, ?_⟩
      simp [leafsL, slotWords, semantics]
    | cons t ts =>
      have hnp := ha.noParen t (by simp)
      have hsw := ha.bald.switch t (by simp)
      simp only [List.cons_append, stdIter] at h
      split at h
      · rename_i hw
        obtain ⟨cs, e1, ⟨a, b, e2, e3, e4, e5⟩, e6⟩ := inner_rest hd hx hb m up _ ts ha.tail (fun u hu => hbl u (by simp [hu])) nd rest h
        refine ⟨.tok t :: cs, by simp [e1], ⟨t :: a, b, by simp [e2], e3, ?_, ?_⟩, ?_⟩
        · rw [semantics_ws hw]; exact e4
        · rw [semantics_ws hw]; exact e5
        · rw [semantics_ws hw]; exact e6
      · rename_i hw
        have hsem : isSemantic t = true := (ha.bald.ink t (by simp)).resolve_left hw
        rw [hsw.1, hsw.2] at h
        simp only [Bool.false_eq_true, if_false, List.headD_nil, hd, Nargs.exact,
          Bool.not_false, Bool.true_or, Bool.and_true] at h
        split at h
        · rename_i hbr
          simp only [Except.ok.injEq, Prod.mk.injEq] at h
          refine ⟨[], by simp [h.1], ⟨[], t :: ts, rfl, by simp [h.2], ?_, by simp [leafsL, semantics]⟩, ?_⟩
          · simp [slotRest, semantics_word hsem, hbr]
          · simp [leafsL, slotWords, semantics_word hsem, hbr]
        · rename_i hbr
          have hlook : (normKwarg t).bind (fun w => (List.lookup w ([] : List (Str × ArgP))).map (fun p => (w, p))) = none := by
            cases normKwarg t <;> rfl
          rw [hlook] at h
          simp only [Parse.bind_ok] at h
          obtain ⟨⟨sub, rest1⟩, h1, h⟩ := h
          simp only at h
          split at h
          · simp at h
          · have hbreq : ∀ u, shouldBreak u (brk ++ [kwBreaker (keys [] ++
                List.flatMap (fun o => o.flags.filter fun f => !dflt.flags.contains f) ([] : List PSpec).tail)]) = shouldBreak u brk :=
              fun u => break_nil u brk
            obtain ⟨at_, ds, rfl, ⟨a, b, f2, f3, f4, f5⟩, f6⟩ := pos_words (args := t :: ts) hslot (by simp [hb]) ha
              (fun u hu hw => by rw [hbreq]; exact hbl u hu hw) h1
            simp only [hbreq] at f4 f6
            rw [f3] at h
            rw [f2] at ha hbl
            obtain ⟨cs, e1, ⟨a', b', e2, e3, e4, e5⟩, e6⟩ := inner_rest hd hx hb m up _ b ha.drop
              (fun u hu => hbl u (by simp [hu])) nd rest h
            have hz : slotWords ⟨0, [], some dflt.flags⟩ (fun t => shouldBreak t brk) (semantics b) = [] ∧
                slotRest ⟨0, [], some dflt.flags⟩ (fun t => shouldBreak t brk) (semantics b) = semantics b := by
              rw [f4]
              exact slot_again _ _ _
            refine ⟨.node .pargGroup at_ ds :: cs, by simp [e1], ⟨a ++ a', b', by rw [f2, e2]; simp, e3, ?_, ?_⟩, ?_⟩
            · rw [e4, hz.2, f4]
            · simp only [leafsL, leafs, List.map_append, e5, semantics_append]
              simp [f5]
            · simp only [leafsL, leafs, e6, hz.1]
              simp [f6]

/-- A keyword's parser with one specification and no keywords. -/
theorem inner_std {cmd : Option CmdInfo} {s : PSpec} {slot : Slot} (hs : keySlot (.standard cmd [s] []) = some slot)
    {brk : List Breaker} (hb : .paren ∈ brk) {m : Nat} {up : Bool} {args : List Token}
    (ha : Args args r more) (hbl : ∀ t ∈ args, isWs t = true → shouldBreak t brk = false) {nd : Node} {rest : List Token}
    (h : exec ctx m (.arg (.standard cmd [s] []) brk) up (args ++ r :: more) = .ok (nd, rest)) :
    ∃ at_ cs, nd = .node .argGroup at_ cs ∧ Took args r more rest slot (fun t => shouldBreak t brk) (leafsL cs) := by
  cases m with
  | zero => simp [exec] at h
  | succ m =>
    simp only [keySlot] at hs
    simp only [exec, step, argStart, stdStart] at h
    rw [(takeWhile_ws ha.close).1, (takeWhile_ws ha.close).2] at h
    have finish : ∀ {cs}, Took (args.dropWhile isWs) r more rest slot (fun t => shouldBreak t brk) (leafsL cs) →
        Took args r more rest slot (fun t => shouldBreak t brk) (leafsL (leaves (args.takeWhile isWs) ++ cs)) := by
      rintro cs ⟨⟨a, b, e1, e2, e3, e4⟩, e5⟩
      rw [semantics_drop] at e3 e5
      refine ⟨⟨args.takeWhile isWs ++ a, b, ?_, e2, e3, ?_⟩, ?_⟩
      · rw [List.append_assoc, ← e1, List.takeWhile_append_dropWhile]
      · rw [leafsL_append, leafsL_leaves, List.nil_append, e4, semantics_append, semantics_take, List.nil_append]
      · rw [leafsL_append, leafsL_leaves, List.nil_append, e5]
    have hbl' : ∀ t ∈ args.dropWhile isWs, isWs t = true → shouldBreak t brk = false :=
      fun t ht => hbl t (List.dropWhile_sublist _ |>.subset ht)
    have ha' := ha.dropWs
    have hlook : ∀ t, (normKwarg t).bind (fun w => (List.lookup w ([] : List (Str × ArgP))).map (fun p => (w, p))) = none := by
      intro t
      cases normKwarg t <;> rfl
    have hbreq : ∀ u, shouldBreak u (brk ++ [kwBreaker (keys [] ++
        List.flatMap (fun o => o.flags.filter fun f => !s.flags.contains f) ([s] : List PSpec).tail)]) = shouldBreak u brk :=
      fun u => break_nil u brk
    have hpar : Breaker.paren ∈ brk ++ [kwBreaker (keys [] ++
        List.flatMap (fun o => o.flags.filter fun f => !s.flags.contains f) ([s] : List PSpec).tail)] := by simp [hb]
    have hhd : ∀ t ∈ (args.dropWhile isWs).head?, isWs t = false := head_drop args
    by_cases hone : s.legacy = true ∧ ∃ x, s.nargs = .str x
    · obtain ⟨hleg, x, hn⟩ := hone
      rw [hn] at hs
      simp only at hs
      split at hs
      · simp at hs
      · rename_i hx
        simp only [Option.some.injEq] at hs
        subst hs
        have : splitSpecs [s] = (s, []) := by simp [splitSpecs, hleg, hn, Nargs.exact]
        rw [this] at h
        obtain ⟨cs, e1, e2⟩ := inner_rest hn hx hb m up _ _ ha' hbl' _ _ h
        exact ⟨_, _, e1, finish e2⟩
    · have : splitSpecs [s] = (defaultSpec, [s]) := by
        cases hn : s.nargs with
        | int k => simp [splitSpecs, hn, Nargs.exact]
        | str x =>
          have : s.legacy = false := by
            cases hl : s.legacy with
            | false => rfl
            | true => exact absurd ⟨hl, x, hn⟩ hone
          simp [splitSpecs, this]
      rw [this] at h
      generalize leaves (args.takeWhile isWs) = acc at *
      generalize args.dropWhile isWs = args' at *
      -- the specification is used for the first group
      have go : ∀ {slot1 : Slot}, posSlot s = some slot1 → ∀ {m : Nat} {t : Token} {ts : List Token}, args' = t :: ts →
          (∃ sub rest1, exec ctx m (.pos s (brk ++ [kwBreaker (keys [] ++
            List.flatMap (fun o => o.flags.filter fun f => !s.flags.contains f) ([s] : List PSpec).tail)])) true
              (t :: (ts ++ r :: more)) = .ok (sub, rest1) ∧
            (if rest1.length ≥ (t :: (ts ++ r :: more)).length then Except.error Err.internal
              else exec ctx m (.stdLoop cmd [s].tail defaultSpec [] brk (brk ++ [kwBreaker (keys [] ++
                (defaultSpec.flags ++ List.flatMap (fun x => x.flags) [s]))]) (acc ++ [sub])) up rest1) = .ok (nd, rest)) →
          (∀ ws, slotWords slot1 (fun t => shouldBreak t brk) ws ++
              slotWords ⟨0, [], some []⟩ (fun t => shouldBreak t brk) (slotRest slot1 (fun t => shouldBreak t brk) ws) =
                slotWords slot (fun t => shouldBreak t brk) ws ∧
            slotRest ⟨0, [], some []⟩ (fun t => shouldBreak t brk) (slotRest slot1 (fun t => shouldBreak t brk) ws) =
              slotRest slot (fun t => shouldBreak t brk) ws) →
          ∃ at_ cs, nd = .node .argGroup at_ cs ∧ Took args r more rest slot (fun t => shouldBreak t brk) (leafsL cs) := by
        rintro slot1 hpos m t ts rfl ⟨sub, rest1, h1, h⟩ hcomp
        obtain ⟨at_, ds, rfl, ⟨a, b, f2, f3, f4, f5⟩, f6⟩ := pos_words (args := t :: ts) hpos hpar ha'
          (fun u hu hw => by rw [hbreq]; exact hbl' u hu hw) h1
        simp only [hbreq] at f4 f6
        split at h
        · simp at h
        · rw [f3] at h
          rw [f2] at ha' hbl'
          obtain ⟨cs, e1, ⟨a', b', e2, e3, e4, e5⟩, e6⟩ := inner_rest (x := S "*") (dflt := defaultSpec) rfl (by decide) hb m up _ b
            ha'.drop (fun u hu => hbl' u (by simp [hu])) nd rest h
          refine ⟨_, _, by rw [e1, List.append_assoc]; rfl, finish ⟨⟨a ++ a', b', by rw [f2, e2]; simp, e3, ?_, ?_⟩, ?_⟩⟩
          · rw [e4, f4]; exact (hcomp _).2
          · simp only [List.cons_append, List.nil_append, leafsL, leafs, List.map_append, e5, semantics_append]
            simp [f5]
          · simp only [List.cons_append, List.nil_append, leafsL, leafs, e6, f4]
            simp only [reduceCtorEq, or_self, if_false, f6]
            exact (hcomp _).1
      have none_left : nd = stdNode cmd acc → rest = args' ++ r :: more →
          slotWords slot (fun t => shouldBreak t brk) (semantics args') = [] →
          slotRest slot (fun t => shouldBreak t brk) (semantics args') = semantics args' →
          ∃ at_ cs, nd = .node .argGroup at_ cs ∧ Took args r more rest slot (fun t => shouldBreak t brk) (leafsL cs) := by
        intro h1 h2 h3 h4
        refine ⟨_, acc ++ [], by rw [h1, List.append_nil]; rfl, finish ⟨⟨[], args', rfl, h2, h4.symm, rfl⟩, ?_⟩⟩
        rw [h3]; rfl
      cases m with
      | zero => simp [exec] at h
      | succ m =>
        simp only [exec, step] at h
        cases hn : s.nargs with
        | int k =>
          rw [hn] at hs
          simp only at hs
          split at hs
          · simp at hs
          · rename_i hk
            have hpos : posSlot s = some ⟨k.toNat, s.flags, none⟩ := by simp [posSlot, hn]
            split at hs
            · rename_i hk0
              simp only [Option.some.injEq] at hs
              subst hs hk0
              cases args' with
              | nil =>
                obtain ⟨h1, h2, h3⟩ := rparen_sem ha.close
                simp only [List.nil_append, stdIter, h1, h2, h3, Bool.false_eq_true, if_false, List.headD_cons, hn, Nargs.exact,
                  Bool.not_true, beq_self_eq_true, Bool.or_true, Bool.and_true, rparen_break hb ha.close, if_true,
                  Except.ok.injEq, Prod.mk.injEq] at h
                exact none_left h.1.symm h.2.symm (by simp [slotWords, closed]) (by simp [slotRest, closed])
              | cons t ts =>
                have hw : isWs t = false := hhd t (by simp)
                have hsw := ha'.bald.switch t (by simp)
                simp only [List.cons_append, stdIter, hw, hsw.1, hsw.2, Bool.false_eq_true, if_false, List.headD_cons, hn, Nargs.exact,
                  Bool.not_true, beq_self_eq_true, Bool.or_true, Bool.and_true, hlook] at h
                split at h
                · simp only [Except.ok.injEq, Prod.mk.injEq] at h
                  exact none_left h.1.symm h.2.symm (by simp [slotWords, closed]) (by simp [slotRest, closed])
                · simp only [Parse.bind_ok] at h
                  obtain ⟨⟨sub, rest1⟩, h1, h⟩ := h
                  have := pos_none hpos rfl rfl hpar ha' (fun u hu hw => by rw [hbreq]; exact hbl' u hu hw)
                    ((ha'.bald.ink t (by simp)).resolve_left (by simp [hw])) h1
                  rw [this] at h
                  simp at h
            · rename_i hk0
              simp only [Option.some.injEq] at hs
              subst hs
              have hk0 : (Nargs.int k == Nargs.int 0) = false := by
                simp only [beq_eq_false_iff_ne, ne_eq, Nargs.int.injEq]; omega
              cases args' with
              | nil =>
                exfalso
                obtain ⟨h1, h2, h3⟩ := rparen_sem ha.close
                simp only [List.nil_append, stdIter, h1, h2, h3, Bool.false_eq_true, if_false, List.headD_cons, hn, Nargs.exact,
                  Bool.not_true, hk0, Bool.or_self, Bool.and_false, hlook, Parse.bind_ok] at h
                obtain ⟨⟨sub, rest1⟩, h1, h⟩ := h
                obtain ⟨at_, ds, rfl, ⟨a, b, f2, f3, f4, f5⟩, f6⟩ := pos_words (args := []) hpos hpar ha' (by simp) h1
                simp only [List.nil_eq, List.append_eq_nil_iff] at f2
                rw [f3, f2.2] at h
                simp at h
              | cons t ts =>
                have hw : isWs t = false := hhd t (by simp)
                have hsw := ha'.bald.switch t (by simp)
                simp only [List.cons_append, stdIter, hw, hsw.1, hsw.2, Bool.false_eq_true, if_false, List.headD_cons, hn, Nargs.exact,
                  Bool.not_true, hk0, Bool.or_self, Bool.and_false, hlook, Parse.bind_ok] at h
                obtain ⟨⟨sub, rest1⟩, h1, h⟩ := h
                exact go hpos rfl ⟨sub, rest1, h1, h⟩ (fun ws => by simp [slotWords, slotRest])
        | str x =>
          rw [hn] at hs
          simp only at hs
          split at hs
          · simp at hs
          · rename_i hx
            simp only [Option.some.injEq] at hs
            subst hs
            have hpos : posSlot s = some ⟨0, [], some s.flags⟩ := by simp [posSlot, hn, hx]
            cases args' with
            | nil =>
              obtain ⟨h1, h2, h3⟩ := rparen_sem ha.close
              simp only [List.nil_append, stdIter, h1, h2, h3, Bool.false_eq_true, if_false, List.headD_cons, hn, Nargs.exact,
                Bool.not_false, Bool.true_or, Bool.and_true, rparen_break hb ha.close, if_true,
                Except.ok.injEq, Prod.mk.injEq] at h
              exact none_left h.1.symm h.2.symm (by simp [slotWords, semantics]) (by simp [slotRest, semantics])
            | cons t ts =>
              have hw : isWs t = false := hhd t (by simp)
              have hsw := ha'.bald.switch t (by simp)
              have hsem : isSemantic t = true := (ha'.bald.ink t (by simp)).resolve_left (by simp [hw])
              simp only [List.cons_append, stdIter, hw, hsw.1, hsw.2, Bool.false_eq_true, if_false, List.headD_cons, hn, Nargs.exact,
                Bool.not_false, Bool.true_or, Bool.and_true, hlook] at h
              split at h
              · rename_i hbr
                simp only [Except.ok.injEq, Prod.mk.injEq] at h
                exact none_left h.1.symm h.2.symm (by simp [slotWords, semantics_word hsem, hbr])
                  (by simp [slotRest, semantics_word hsem, hbr])
              · simp only [Parse.bind_ok] at h
                obtain ⟨⟨sub, rest1⟩, h1, h⟩ := h
                refine go hpos rfl ⟨sub, rest1, h1, h⟩ (fun ws => ?_)
                have h1 := slot_again s.flags (fun t => shouldBreak t brk) ws
                have h2 : slotWords ⟨0, [], some []⟩ (fun t => shouldBreak t brk)
                    (slotRest ⟨0, [], some s.flags⟩ (fun t => shouldBreak t brk) ws) = [] := by
                  have := (slot_again [] (fun t => shouldBreak t brk) ws).1
                  simpa [slotRest] using this
                refine ⟨by rw [h2, List.append_nil], ?_⟩
                simpa [slotRest] using h1.2

/-- Tuples. -/
theorem tuple_words {x : Str} {ntup : Nat} {flags : List Str} (hx : x ≠ S "?") {brk : List Breaker} (hb : .paren ∈ brk) :
    ∀ (m : Nat) (up : Bool) (acc : List Node) (grp : Option (List Node)) (after : List Node) (np nt : Nat) (args : List Token),
    Args args r more → (∀ t ∈ args, isWs t = true → shouldBreak t brk = false) → leafsL after = [] → ∀ nd rest,
    exec ctx m (.tupleLoop (.str x) ntup flags brk acc grp after np nt) up (args ++ r :: more) = .ok (nd, rest) →
    ∃ cs words, nd = mk .argGroup cs ∧ leafsL cs = leafsL (tupleChildren acc grp after) ++ words ∧
      Took args r more rest ⟨0, [], some flags⟩ (fun t => shouldBreak t brk) words
  | 0, _, _, _, _, _, _, _, _, _, _, _, _, h => by simp [exec] at h
  | m + 1, up, acc, grp, after, np, nt, args, ha, hbl, haf, nd, rest, h => by
    have hfull : ∀ {b n}, pargsFull (.str x) n = .ok b → b = false := by
      intro b n hb
      simp only [pargsFull, if_neg hx] at hb
      split at hb
      · simpa using hb.symm
      · split at hb
        · split at hb <;> simp at hb
          exact hb
        · simpa using hb.symm
    have stop_now : nd = mk .argGroup (tupleChildren acc grp after) → rest = args ++ r :: more →
        slotWords ⟨0, [], some flags⟩ (fun t => shouldBreak t brk) (semantics args) = [] →
        slotRest ⟨0, [], some flags⟩ (fun t => shouldBreak t brk) (semantics args) = semantics args →
        ∃ cs words, nd = mk .argGroup cs ∧ leafsL cs = leafsL (tupleChildren acc grp after) ++ words ∧
          Took args r more rest ⟨0, [], some flags⟩ (fun t => shouldBreak t brk) words := by
      intro h1 h2 h3 h4
      exact ⟨_, [], h1, by simp, ⟨[], args, rfl, h2, h4.symm, rfl⟩, h3.symm⟩
    simp only [exec, step] at h
    cases args with
    | nil =>
      simp only [List.nil_append, tupleIter, Parse.bind_ok] at h
      obtain ⟨b, hb2, h⟩ := h
      rw [hfull hb2, rparen_break hb ha.close] at h
      simp only [Bool.false_eq_true, if_false, if_true, pure_ok, Prod.mk.injEq] at h
      exact stop_now h.1.symm h.2.symm (by simp [slotWords, semantics]) (by simp [slotRest, semantics])
    | cons t ts =>
      have hsw := ha.bald.switch t (by simp)
      simp only [List.cons_append, tupleIter, Parse.bind_ok] at h
      obtain ⟨b, hb2, h⟩ := h
      rw [hfull hb2] at h
      simp only [Bool.false_eq_true, if_false] at h
      split at h
      · rename_i hbr
        have hsem : isSemantic t = true := by
          rcases ha.bald.ink t (by simp) with hw | hw
          · rw [hbl t (by simp) hw] at hbr; simp at hbr
          · exact hw
        simp only [pure_ok, Prod.mk.injEq] at h
        exact stop_now h.1.symm h.2.symm (by simp [slotWords, semantics_word hsem, hbr]) (by simp [slotRest, semantics_word hsem, hbr])
      · rename_i hbr
        have hbr : shouldBreak t brk = false := by simpa using hbr
        split at h
        · rename_i hw
          obtain ⟨cs, words, e1, e2, ⟨a, b, f1, f2, f3, f4⟩, f5⟩ := tuple_words hx hb m up acc grp (after ++ [.tok t]) np nt ts ha.tail
            (fun u hu => hbl u (by simp [hu])) (by simp [leafsL_append, haf, leafsL, leafs]) nd rest h
          refine ⟨cs, words, e1, ?_, ⟨t :: a, b, by simp [f1], f2, ?_, ?_⟩, ?_⟩
          · rw [e2]
            congr 1
            cases grp <;> simp [tupleChildren, leafsL_append, leafsL, leafs]
          · rw [semantics_ws hw]; exact f3
          · rw [semantics_ws hw]; exact f4
          · rw [semantics_ws hw]; exact f5
        · rename_i hw
          have hsem : isSemantic t = true := (ha.bald.ink t (by simp)).resolve_left hw
          rw [hsw.1] at h
          simp only [Bool.false_eq_true, if_false] at h
          obtain ⟨u, us, e⟩ : ∃ u us, ts ++ r :: more = u :: us := by cases ts <;> simp
          have hu := (ha.tail.bald.switch u (by
            cases ts with
            | nil => simp only [List.nil_append, List.cons.injEq] at e; simp [e.1]
            | cons v vs => simp only [List.cons_append, List.cons.injEq] at e; simp [e.1])).2
          rw [e] at h
          simp only [hu, Bool.false_eq_true, if_false] at h
          rw [← e, ha.tail.trailing ctx] at h
          simp only at h
          have go : ∀ acc' grp' np' nt', leafsL (tupleChildren acc' grp' (if grp = none ∨ grp' = none then [] else after)) =
                leafsL (tupleChildren acc grp after) ++ [mk2 flags t] →
              exec ctx m (.tupleLoop (.str x) ntup flags brk acc' grp' (if grp = none ∨ grp' = none then [] else after) np' nt') up
                (ts ++ r :: more) = .ok (nd, rest) →
              ∃ cs words, nd = mk .argGroup cs ∧ leafsL cs = leafsL (tupleChildren acc grp after) ++ words ∧
                Took (t :: ts) r more rest ⟨0, [], some flags⟩ (fun t => shouldBreak t brk) words := by
            intro acc' grp' np' nt' hl h
            obtain ⟨cs, words, e1, e2, ⟨a, b, f1, f2, f3, f4⟩, f5⟩ := tuple_words hx hb m up acc' grp' _ np' nt' ts ha.tail
              (fun u hu => hbl u (by simp [hu])) (by split <;> simp [leafsL, haf]) nd rest h
            refine ⟨cs, mk2 flags t :: words, e1, by rw [e2, hl]; simp, ⟨t :: a, b, by simp [f1], f2, ?_, ?_⟩, ?_⟩
            · rw [semantics_word hsem, f3]; simp [slotRest, hbr]
            · rw [semantics_word hsem, List.map_cons, f4]; rfl
            · rw [semantics_word hsem, f5]; simp [slotWords, hbr]
          have hleaf := leafs_mk (flags := flags) (t := t)
          have hnode : ∀ k cs, leafs (mkPos k cs) = leafsL cs := by intro k cs; simp [mkPos, leafs]
          cases grp with
          | none =>
            simp only at h
            split at h
            · refine go _ none _ _ ?_ (by simpa using h)
              simp only [true_or, if_true, tupleChildren, leafsL_append, leafsL, hnode, hleaf, List.append_nil, List.append_assoc]
            · refine go _ (some _) _ _ ?_ (by simpa using h)
              simp only [true_or, if_true, tupleChildren, leafsL_append, leafsL, hnode, hleaf, List.append_nil]
          | some g =>
            simp only at h
            split at h
            · refine go (acc ++ [mkPos (.int 2) (g ++ [mk (if kwargIn t flags then .flag else .argument) [.tok t]])] ++ after) none _ _ ?_
                (by simpa using h)
              simp only [or_true, if_true, tupleChildren, leafsL_append, leafsL, hnode, hleaf, List.append_nil, haf, List.append_assoc]
            · refine go _ (some _) _ _ ?_ (by simpa using h)
              simp only [reduceCtorEq, or_self, if_false, tupleChildren, leafsL_append, leafsL, hnode, hleaf, List.append_nil, haf,
                List.append_assoc]

theorem leafs_tag (at_ : Attr) (cs : List Node) : leafs (tagGroups (.node .argGroup at_ cs)) = leafsL cs := by
  simp only [tagGroups, leafs, reduceCtorEq, or_self, if_false]
  induction cs with
  | nil => rfl
  | cons c cs ih =>
    simp only [List.map_cons, leafsL, ih]
    congr 1
    split
    · simp [leafs]
    · rfl

/-- What follows a keyword. -/
theorem value_words {p : ArgP} {slot : Slot} (hs : keySlot p = some slot)
    {brk : List Breaker} (hb : .paren ∈ brk) {m : Nat} {up : Bool} {args : List Token}
    (ha : Args args r more) (hbl : ∀ t ∈ args, isWs t = true → shouldBreak t brk = false) {nd : Node} {rest : List Token}
    (h : exec ctx m (.arg p brk) up (args ++ r :: more) = .ok (nd, rest)) :
    Took args r more rest slot (fun t => shouldBreak t brk) (leafs nd) := by
  have hs0 := hs
  unfold keySlot at hs
  split at hs
  · cases m with
    | zero => simp [exec] at h
    | succ m =>
      simp only [exec, step, argStart] at h
      obtain ⟨at_, cs, rfl, e⟩ := pos_words hs hb ha hbl h
      simpa [leafs] using e
  · obtain ⟨at_, cs, rfl, e⟩ := inner_std hs0 hb ha hbl h
    simpa [leafs] using e
  · split at hs
    · simp at hs
    · rename_i hx
      simp only [Option.some.injEq] at hs
      subst hs
      cases m with
      | zero => simp [exec] at h
      | succ m =>
        simp only [exec, step, argStart] at h
        obtain ⟨cs, words, rfl, e2, e3⟩ := tuple_words hx hb m up _ _ _ _ _ args ha hbl rfl nd rest h
        have : leafs (mk .argGroup cs) = words := by
          simp only [mk, leafs, e2]
          simp [tupleChildren, leafsL]
        rw [this]
        exact e3
  · simp only [Option.some.injEq] at hs
    subst hs
    cases m with
    | zero => simp [exec] at h
    | succ m =>
      simp only [exec, step, argStart, Parse.bind_ok] at h
      obtain ⟨⟨n, rest'⟩, h1, h⟩ := h
      simp only [pure_ok, Prod.mk.injEq] at h
      obtain ⟨rfl, rfl⟩ := h
      obtain ⟨at_, cs, rfl, e⟩ := inner_std (slot := ⟨0, [], some []⟩) (s := { nargs := .str (S "+"), legacy := true }) (cmd := none)
        (by decide) hb ha hbl h1
      rw [leafs_tag]
      exact e
  · simp only [Option.some.injEq] at hs
    subst hs
    cases m with
    | zero => simp [exec] at h
    | succ m =>
      simp only [exec, step, argStart, Except.ok.injEq, Prod.mk.injEq] at h
      obtain ⟨rfl, rfl⟩ := h
      exact ⟨⟨[], args, rfl, rfl, by simp [slotRest, closed], by simp [mk, leafs, leafsL, semantics]⟩,
        by simp [mk, leafs, leafsL, slotWords, closed]⟩
  · simp at hs

/-- A keyword and what follows it. -/
theorem keyword_words' {w : Str} {p : ArgP} {slot : Slot} {brk : List Breaker}
    (hval : ∀ {m : Nat} {up : Bool} {args : List Token} {nd : Node} {rest : List Token}, Args args r more →
      (∀ t ∈ args, isWs t = true → shouldBreak t brk = false) →
      exec ctx m (.arg p brk) up (args ++ r :: more) = .ok (nd, rest) →
      Took args r more rest slot (fun t => shouldBreak t brk) (leafs nd))
    {m : Nat} {up : Bool} {t : Token} {args : List Token}
    (ha : Args args r more) (hbl : ∀ t ∈ args, isWs t = true → shouldBreak t brk = false) {nd : Node} {rest : List Token}
    (h : exec ctx m (.kwGroup w p brk) up (t :: (args ++ r :: more)) = .ok (nd, rest)) :
    ∃ cs words, nd = mk .kwargGroup cs ∧ leafsL cs = (.keyword, t) :: words ∧
      Took args r more rest slot (fun t => shouldBreak t brk) words := by
  cases m with
  | zero => simp [exec] at h
  | succ m =>
    simp only [exec, step, kwIter] at h
    split at h
    · simp at h
    rw [(takeWhile_ws ha.close).1, (takeWhile_ws ha.close).2] at h
    simp only [Parse.bind_ok] at h
    obtain ⟨⟨sub, rest'⟩, h1, h⟩ := h
    simp only [pure_ok, Prod.mk.injEq] at h
    obtain ⟨rfl, rfl⟩ := h
    obtain ⟨⟨a, b, e1, e2, e3, e4⟩, e5⟩ := hval ha.dropWs
      (fun t ht => hbl t (List.dropWhile_sublist _ |>.subset ht)) h1
    rw [semantics_drop] at e3 e5
    refine ⟨_, leafs sub, rfl, ?_, ⟨args.takeWhile isWs ++ a, b, ?_, e2, e3, ?_⟩, e5⟩
    · rw [leafsL_append, leafsL]
      simp only [mk, leafs, leafsL_leaves]
      simp only [true_or, if_true, List.append_nil, List.cons_append, List.nil_append, List.cons.injEq, true_and]
      split
      · simp [leafsL]
      · rename_i hl
        have : a = [] := by
          have h2 := congrArg List.length e1
          have h3 := congrArg List.length e2
          simp only [List.length_append] at h2 h3 hl
          refine List.length_eq_zero_iff.1 ?_
          omega
        rw [this] at e4
        simp only [semantics, List.filter_nil, List.map_eq_nil_iff] at e4
        simp [leafsL, e4]
    · rw [List.append_assoc, ← e1, List.takeWhile_append_dropWhile]
    · rw [e4, semantics_append, semantics_take, List.nil_append]

theorem keyword_words {w : Str} {p : ArgP} {slot : Slot} (hs : keySlot p = some slot)
    {brk : List Breaker} (hb : .paren ∈ brk) {m : Nat} {up : Bool} {t : Token} {args : List Token}
    (ha : Args args r more) (hbl : ∀ t ∈ args, isWs t = true → shouldBreak t brk = false) {nd : Node} {rest : List Token}
    (h : exec ctx m (.kwGroup w p brk) up (t :: (args ++ r :: more)) = .ok (nd, rest)) :
    ∃ cs words, nd = mk .kwargGroup cs ∧ leafsL cs = (.keyword, t) :: words ∧
      Took args r more rest slot (fun t => shouldBreak t brk) words :=
  keyword_words' (fun ha hbl h => value_words hs hb ha hbl h) ha hbl h

/-! ## The words, one after the other -/

/-- A word that joins the open group. -/
def joins (p : NT × Token) : Mark := ⟨none, p.1, p.2⟩

theorem place_closed (c : Command) (b b' : Bool) (fresh : Bool) (ws : List Token) :
    place c ⟨closed, b, fresh⟩ ws = place c ⟨closed, b', fresh⟩ ws := by
  cases ws with
  | nil => simp [place]
  | cons t ts => simp [place, closed]

theorem place_slot (c : Command) (inK fresh : Bool) (stop : Token → Bool) (ws : List Token) :
    ∀ (slot : Slot), (∀ t ∈ ws, stop t = ((c.keyword t).isSome || (inK && spelledIn t c.flags))) →
    place c ⟨slot, inK, fresh⟩ ws = (slotWords slot stop ws).map joins ++
      place c ⟨closed, false, fresh⟩ (slotRest slot stop ws) := by
  induction ws with
  | nil =>
    intro slot _
    cases hm : slot.more <;> simp [slotWords, slotRest, place, hm]
  | cons t ts ih =>
    intro slot hstop
    by_cases hf : slot.forced = 0
    · cases hm : slot.more with
      | none =>
        have : place c ⟨slot, inK, fresh⟩ (t :: ts) = place c ⟨closed, false, fresh⟩ (t :: ts) := by
          simp [place, closed, hf, hm]
        rw [this]
        simp [slotWords, slotRest, hf, hm]
      | some fl =>
        have ht := hstop t (by simp)
        cases hst : stop t with
        | true =>
          rw [hst] at ht
          simp only [slotWords, slotRest, hf, hm, List.take_zero, List.drop_zero, List.takeWhile_cons, List.dropWhile_cons, hst]
          simp only [Bool.not_true, Bool.false_eq_true, if_false, List.map_nil, List.append_nil, List.nil_append]
          simp only [place, closed, hf, hm]
          cases hk : c.keyword t with
          | some s => simp
          | none =>
            rw [hk] at ht
            simp only [Option.isSome_none, Bool.false_or] at ht
            simp [← ht]
        | false =>
          rw [hst] at ht
          have ht := ht.symm
          simp only [Bool.or_eq_false_iff] at ht
          have hk : c.keyword t = none := by simpa using ht.1
          have ih := ih slot (fun u hu => hstop u (by simp [hu]))
          simp only [slotWords, slotRest, hf, hm, List.take_zero, List.drop_zero, List.map_nil, List.nil_append] at ih ⊢
          simp only [List.takeWhile_cons, List.dropWhile_cons, hst, Bool.not_false, if_true, List.map_cons, List.cons_append]
          rw [← ih]
          simp only [place, hf, ne_eq, not_true_eq_false, if_false, hk, hm, ht.2, Bool.false_eq_true]
          rfl
    · have ih := ih slot.pred (fun u hu => hstop u (by simp [hu]))
      obtain ⟨k, hk⟩ := Nat.exists_eq_succ_of_ne_zero hf
      have e : place c ⟨slot, inK, fresh⟩ (t :: ts) =
          joins (mk2 slot.fflags t) :: place c ⟨slot.pred, inK, fresh⟩ ts := by
        simp only [place, ne_eq, hf, not_false_eq_true, if_true]
        rfl
      rw [e, ih]
      have h1 : slotWords slot stop (t :: ts) = mk2 slot.fflags t :: slotWords slot.pred stop ts := by
        simp [slotWords, Slot.pred, hk]
      have h2 : slotRest slot stop (t :: ts) = slotRest slot.pred stop ts := by
        simp [slotRest, Slot.pred, hk]
      rw [h1, h2]
      simp

/-! ## All groups of a command -/

theorem upper_upper (s : Str) : upper (upper s) = upper s := by
  rw [← upper_lower (upper s), Layout.lower_upper, upper_lower]

theorem kwBreaker_fires (t : Token) (ks : List Str) : (kwBreaker ks).fires t = spelledIn t ks := by
  simp only [kwBreaker, Breaker.fires, spelledIn]
  induction ks with
  | nil => rfl
  | cons k ks ih =>
    simp only [List.map_cons, List.contains_cons, ih, List.any_cons]
    congr 1
    exact BEq.comm

theorem keySlots_keys : ∀ {kwargs : List (Str × ArgP)} {ks : List (Str × Slot)}, keySlots kwargs = some ks →
    ks.map (·.1) = keys kwargs
  | [], ks, h => by simp only [keySlots, Option.some.injEq] at h; subst h; rfl
  | (k, p) :: kps, ks, h => by
    simp only [keySlots] at h
    split at h
    · rename_i s ss h1 h2
      simp only [Option.some.injEq] at h
      subst h
      simp only [List.map_cons, keySlots_keys h2]
      rfl
    · simp at h

theorem keySlots_lookup : ∀ {kwargs : List (Str × ArgP)} {ks : List (Str × Slot)} (w : Str), keySlots kwargs = some ks →
    (∀ p, kwargs.lookup w = some p → ∃ s, keySlot p = some s ∧ ks.lookup w = some s) ∧
      (kwargs.lookup w = none → ks.lookup w = none)
  | [], ks, w, h => by simp only [keySlots, Option.some.injEq] at h; subst h; simp
  | (k, p) :: kps, ks, w, h => by
    simp only [keySlots] at h
    split at h
    · rename_i s ss h1 h2
      simp only [Option.some.injEq] at h
      subst h
      simp only [List.lookup_cons]
      cases w == k with
      | true =>
        simp only [Option.some.injEq, reduceCtorEq, false_implies, and_true]
        rintro q rfl
        exact ⟨s, h1, rfl⟩
      | false => exact keySlots_lookup w h2
    · simp at h

theorem spelled_keyword {c : Command} {t : Token} {slot : Slot} (h : c.keyword t = some slot) :
    spelledIn t (c.keywords.map (·.1)) = true := by
  unfold Command.keyword at h
  obtain ⟨w, h1, h2⟩ := Option.bind_eq_some_iff.1 h
  have hw : upper w = upper t.spelling := by
    unfold keywordText at h1
    split at h1
    · simp only [Option.some.injEq] at h1
      rw [← h1, upper_upper]
    · split at h1
      · simp only [Option.some.injEq] at h1
        rw [← h1, upper_lower]
      · simp at h1
  simp only [spelledIn, List.any_eq_true, beq_iff_eq, List.mem_map]
  have : ∃ s, (w, s) ∈ c.keywords := by
    clear hw h1
    generalize c.keywords = l at h2
    induction l with
    | nil => simp at h2
    | cons q l ih =>
      obtain ⟨k, s⟩ := q
      simp only [List.lookup_cons] at h2
      split at h2
      · rename_i hk
        simp only [beq_iff_eq] at hk
        exact ⟨s, by simp [hk]⟩
      · obtain ⟨s', hs'⟩ := ih h2
        exact ⟨s', by simp [hs']⟩
  obtain ⟨s, hs⟩ := this
  exact ⟨w, ⟨(w, s), hs, rfl⟩, hw⟩

/-- What the loop of a command knows about its positional groups. -/
def Ready (c : Command) (dflt : PSpec) (specs : List PSpec) (fresh : Bool) : Prop :=
  (∃ x, dflt.nargs = .str x ∧ x ≠ S "?") ∧ posSlot dflt = some c.later ∧
    ((specs = [] ∧ (fresh = true → c.first = c.later)) ∨
      ∃ s, specs = [s] ∧ (∀ k, s.nargs = .int k → 0 ≤ k) ∧ fresh = true ∧ posSlot s = some c.first)

/-- How the words of an argument list relate to the keywords and flags of a command. -/
structure Plain (c : Command) (args : List Token) : Prop where
  /-- what is spelled like a keyword is one -/
  keyword : ∀ t ∈ args, isWs t = false → spelledIn t (c.keywords.map (·.1)) = true → (c.keyword t).isSome = true
  /-- blanks are not spelled like a keyword or a flag -/
  blank : ∀ t ∈ args, isWs t = true → spelledIn t (c.keywords.map (·.1) ++ c.flags) = false

theorem Plain.drop {c : Command} {a b : List Token} (h : Plain c (a ++ b)) : Plain c b :=
  ⟨fun t ht => h.keyword t (by simp [ht]), fun t ht => h.blank t (by simp [ht])⟩

theorem spelledIn_append (t : Token) (a b : List Str) : spelledIn t (a ++ b) = (spelledIn t a || spelledIn t b) := by
  simp [spelledIn, List.any_append]

theorem marked_cons (b : Bool) (p : NT × Token) (l : List (NT × Token)) :
    marked b (p :: l) = ⟨some b, p.1, p.2⟩ :: l.map joins := rfl

/-- A positional group starts. -/
theorem place_begin {c : Command} {fresh : Bool} {t : Token} {ts : List Token} {stop : Token → Bool} {slot : Slot}
    (hk : c.keyword t = none) (hslot : slot = if fresh then c.first else c.later)
    (hf : slot.forced ≠ 0 ∨ slot.more ≠ none)
    (hstop : ∀ u ∈ t :: ts, stop u = (c.keyword u).isSome) :
    place c ⟨closed, false, fresh⟩ (t :: ts) = marked false (slotWords slot stop (t :: ts)) ++
      place c ⟨closed, false, false⟩ (slotRest slot stop (t :: ts)) := by
  have hstop' : ∀ u ∈ ts, stop u = ((c.keyword u).isSome || (false && spelledIn u c.flags)) := by
    intro u hu
    rw [hstop u (by simp [hu])]; simp
  have e : place c ⟨closed, false, fresh⟩ (t :: ts) =
      if slot.forced = 0 then
        ⟨some false, kindOf (slot.more.getD []) t, t⟩ :: place c ⟨slot, false, false⟩ ts
      else ⟨some false, kindOf slot.fflags t, t⟩ :: place c ⟨slot.pred, false, false⟩ ts := by
    simp only [place, closed, ne_eq, not_true_eq_false, if_false, hk, ← hslot]
  rw [e]
  split
  · rename_i h0
    obtain ⟨fl, hfl⟩ := Option.ne_none_iff_exists'.1 (hf.resolve_left (by simp [h0]))
    have ht : stop t = false := by rw [hstop t (by simp), hk]; rfl
    rw [place_slot c false false stop ts slot hstop', ← List.cons_append]
    congr 1
    · simp only [slotWords, h0, hfl, List.take_zero, List.drop_zero, List.map_nil, List.nil_append, List.takeWhile_cons, ht,
        Bool.not_false, if_true, List.map_cons, marked_cons, Option.getD_some]
      rfl
    · simp [slotRest, h0, hfl, ht]
  · rename_i h0
    obtain ⟨k, hk⟩ := Nat.exists_eq_succ_of_ne_zero h0
    rw [place_slot c false false stop ts slot.pred hstop', ← List.cons_append]
    congr 1
    · simp only [slotWords, Slot.pred, hk, Nat.succ_eq_add_one, List.take_succ_cons, List.drop_succ_cons, List.map_cons,
        List.cons_append, marked_cons, Nat.add_sub_cancel]
      rfl
    · simp [slotRest, Slot.pred, hk]

theorem std_words {cmd : Option CmdInfo} {kwargs : List (Str × ArgP)} {c : Command} {dflt : PSpec}
    (hks : keySlots kwargs = some c.keywords) : ∀ (m : Nat) (up : Bool) (acc : List Node) (specs : List PSpec) (fresh : Bool)
    (args : List Token), Ready c dflt specs fresh → Args args r more → Plain c args → ∀ nd rest,
    exec ctx m (.stdLoop cmd specs dflt kwargs [.paren] [.paren, kwBreaker (keys kwargs ++ c.flags)] acc) up
      (args ++ r :: more) = .ok (nd, rest) →
    ∃ cs, nd = stdNode cmd (acc ++ cs) ∧ rest = r :: more ∧
      cs.flatMap groupMarks = place c ⟨closed, false, fresh⟩ (semantics args)
  | 0, _, _, _, _, _, _, _, _, _, _, h => by simp [exec] at h
  | m + 1, up, acc, specs, fresh, args, hrd, ha, hp, nd, rest, h => by
    have hkeys := keySlots_keys hks
    obtain ⟨⟨x, hd, hx⟩, hlater, hspecs⟩ := hrd
    have hothers : specs.tail = [] := by rcases hspecs with ⟨rfl, _⟩ | ⟨s, rfl, _⟩ <;> rfl
    have hslot : posSlot (specs.headD dflt) = some (if fresh then c.first else c.later) := by
      rcases hspecs with ⟨rfl, hf⟩ | ⟨s, rfl, _, rfl, hs⟩
      · cases fresh with
        | true => simpa [hf rfl] using hlater
        | false => simpa using hlater
      · simpa using hs
    have hbrk : ∀ t ∈ args, shouldBreak t [.paren] = false := by
      intro t ht
      simp [shouldBreak, Breaker.fires, (ha.noParen t ht).2]
    have hpbrk : ∀ t ∈ args, shouldBreak t ([.paren] ++ [kwBreaker (keys kwargs ++
        List.flatMap (fun o => o.flags.filter fun f => !(specs.headD dflt).flags.contains f) specs.tail)]) =
          spelledIn t (c.keywords.map (·.1)) := by
      intro t ht
      rw [hothers, hkeys]
      simp only [shouldBreak, List.cons_append, List.nil_append, List.any_cons, List.any_nil, kwBreaker_fires,
        List.flatMap_nil, List.append_nil, Bool.or_false]
      simp [Breaker.fires, (ha.noParen t ht).2]
    have hkbrk : ∀ t ∈ args, shouldBreak t [.paren, kwBreaker (keys kwargs ++ c.flags)] =
        spelledIn t (c.keywords.map (·.1) ++ c.flags) := by
      intro t ht
      rw [hkeys]
      simp only [shouldBreak, List.any_cons, List.any_nil, kwBreaker_fires, Bool.or_false]
      simp [Breaker.fires, (ha.noParen t ht).2]
    have hsemws : ∀ {a : List Token}, ∀ t ∈ semantics a, isWs t = false := by
      intro a t ht
      simp only [semantics, List.mem_filter, isSemantic, Bool.not_eq_true', Bool.or_eq_false_iff] at ht
      exact ht.2.1.1
    have hspell : ∀ t ∈ args, isWs t = false → spelledIn t (c.keywords.map (·.1)) = (c.keyword t).isSome := by
      intro t ht hw
      cases hk : c.keyword t with
      | some s => simpa using spelled_keyword hk
      | none =>
        have := hp.keyword t ht hw
        rw [hk] at this
        simpa using this
    simp only [exec, step] at h
    cases args with
    | nil =>
      obtain ⟨h1, h2, h3⟩ := rparen_sem ha.close
      simp only [List.nil_append, stdIter, h1, h2, h3, Bool.false_eq_true, if_false] at h
      have hbr := rparen_break (brk := [.paren]) (List.mem_singleton.2 rfl) ha.close
      rcases hspecs with ⟨rfl, hf⟩ | ⟨s, rfl, hk0, rfl, hs⟩
      · simp only [List.headD_nil, hd, Nargs.exact, Bool.not_false, Bool.true_or, Bool.and_true,
          hbr, if_true, Except.ok.injEq, Prod.mk.injEq] at h
        exact ⟨[], by simp [h.1], h.2.symm, by simp [semantics, place]⟩
      · cases hk : s.nargs with
        | str y =>
          simp only [List.headD_cons, hk, Nargs.exact, Bool.not_false, Bool.true_or, Bool.and_true,
            hbr, if_true, Except.ok.injEq, Prod.mk.injEq] at h
          exact ⟨[], by simp [h.1], h.2.symm, by simp [semantics, place]⟩
        | int k =>
          by_cases hkz : k = 0
          · subst hkz
            simp only [List.headD_cons, hk, beq_self_eq_true, Bool.or_true, Bool.and_true,
              hbr, if_true, Except.ok.injEq, Prod.mk.injEq] at h
            exact ⟨[], by simp [h.1], h.2.symm, by simp [semantics, place]⟩
          · exfalso
            have hk0' : (Nargs.int k == Nargs.int 0) = false := by
              simp only [beq_eq_false_iff_ne, ne_eq, Nargs.int.injEq]; omega
            have hno : normKwarg r = none := by simp [normKwarg, ha.close]
            simp only [List.headD_cons, hk, Nargs.exact, Bool.not_true, hk0', Bool.or_self, Bool.and_false, Bool.false_eq_true, if_false,
              hno, Option.bind_none, Parse.bind_ok] at h
            obtain ⟨⟨sub, rest1⟩, h1, h⟩ := h
            obtain ⟨at_, ds, rfl, ⟨a, b, f2, f3, f4, f5⟩, f6⟩ := pos_words (args := []) hs (by simp) ha (by simp) h1
            simp only [List.nil_eq, List.append_eq_nil_iff] at f2
            rw [f3, f2.2] at h
            simp at h
    | cons t ts =>
      have hsw := ha.bald.switch t (by simp)
      simp only [List.cons_append, stdIter] at h
      split at h
      · rename_i hw
        obtain ⟨cs, e1, e2, e3⟩ := std_words hks m up _ specs fresh ts ⟨⟨x, hd, hx⟩, hlater, hspecs⟩ ha.tail
          (Plain.drop (a := [t]) hp) nd rest h
        refine ⟨.tok t :: cs, by simp [e1], e2, ?_⟩
        rw [semantics_ws hw, ← e3]
        rfl
      · rename_i hw
        have hw : isWs t = false := by simpa using hw
        have hsem : isSemantic t = true := (ha.bald.ink t (by simp)).resolve_left (by simp [hw])
        rw [hsw.1, hsw.2, hbrk t (by simp)] at h
        simp only [Bool.false_eq_true, if_false, Bool.false_and] at h
        split at h
        · rename_i w p hlook
          obtain ⟨w', hw1, hw2⟩ := Option.bind_eq_some_iff.1 hlook
          obtain ⟨p', hp1, hp2⟩ := Option.map_eq_some_iff.1 hw2
          simp only [Prod.mk.injEq] at hp2
          obtain ⟨rfl, rfl⟩ := hp2
          obtain ⟨slot, hs1, hs2⟩ := (keySlots_lookup w' hks).1 p' hp1
          have hkey : c.keyword t = some slot := by
            rw [Command.keyword, keywordText_eq, hw1]; exact hs2
          simp only [Parse.bind_ok] at h
          obtain ⟨⟨sub, rest1⟩, h1, h⟩ := h
          simp only at h
          split at h
          · simp at h
          · obtain ⟨ds, words, rfl, g1, ⟨a, b, f2, f3, f4, f5⟩, f6⟩ := keyword_words hs1 (by simp) ha.tail
              (fun u hu hwu => by rw [hkbrk u (by simp [hu])]; exact hp.blank u (by simp [hu]) hwu) h1
            rw [f3] at h
            have ha2 : Args b r more := by
              have := ha.tail; rw [f2] at this; exact this.drop
            have hp2 : Plain c b := by
              rw [f2] at hp; exact Plain.drop (a := t :: a) (by simpa using hp)
            obtain ⟨cs, e1, e2, e3⟩ := std_words hks m up _ specs fresh b ⟨⟨x, hd, hx⟩, hlater, hspecs⟩ ha2 hp2 nd rest h
            refine ⟨mk .kwargGroup ds :: cs, by simp [e1], e2, ?_⟩
            rw [semantics_word hsem]
            have e : place c ⟨closed, false, fresh⟩ (t :: semantics ts) =
                ⟨some true, .keyword, t⟩ :: place c ⟨slot, true, fresh⟩ (semantics ts) := by
              simp [place, closed, hkey]
            rw [e, place_slot c true fresh (fun t => shouldBreak t [.paren, kwBreaker (keys kwargs ++ c.flags)]), List.flatMap_cons, e3, f4]
            · have : groupMarks (mk .kwargGroup ds) = marked true (leafsL ds) := rfl
              rw [this, g1, marked_cons, f6]
              rfl
            · intro u hu
              have hu' : u ∈ t :: ts := by
                simp only [semantics, List.mem_filter] at hu; simp [hu.1]
              rw [hkbrk u hu', spelledIn_append, hspell u hu' (hsemws u hu), Bool.true_and]
        · rename_i hlook
          have hkey : c.keyword t = none := by
            rw [Command.keyword, keywordText_eq]
            cases hn : normKwarg t with
            | none => rfl
            | some w =>
              rw [hn] at hlook
              simp only [Option.bind_some, Option.map_eq_none_iff] at hlook
              exact (keySlots_lookup w hks).2 hlook
          simp only [Parse.bind_ok] at h
          obtain ⟨⟨sub, rest1⟩, h1, h⟩ := h
          simp only at h
          split at h
          · simp at h
          · rename_i hlen
            obtain ⟨at_, ds, rfl, ⟨a, b, f2, f3, f4, f5⟩, f6⟩ := pos_words (args := t :: ts) hslot (by simp) ha
              (fun u hu hwu => by
                refine (hpbrk u hu).trans ?_
                have := hp.blank u hu hwu
                rw [spelledIn_append] at this
                simp only [Bool.or_eq_false_iff] at this
                exact this.1) h1
            rw [f3] at h
            have ha2 : Args b r more := by rw [f2] at ha; exact ha.drop
            have hp2 : Plain c b := by rw [f2] at hp; exact hp.drop
            obtain ⟨cs, e1, e2, e3⟩ := std_words hks m up _ specs.tail false b
              ⟨⟨x, hd, hx⟩, hlater, .inl ⟨hothers, by simp⟩⟩ ha2 hp2 nd rest h
            refine ⟨.node .pargGroup at_ ds :: cs, by simp [e1], e2, ?_⟩
            rw [List.flatMap_cons, e3, f4]
            have : groupMarks (.node .pargGroup at_ ds) = marked false (leafsL ds) := rfl
            rw [this, f6, semantics_word hsem]
            refine (place_begin hkey rfl ?_ ?_).symm
            · rcases hspecs with ⟨rfl, hf⟩ | ⟨s, rfl, hk0, rfl, hs⟩
              · simp only [List.headD_nil, posSlot, hd, hx, if_false, Option.some.injEq] at hslot
                rw [← hslot]; simp
              · rw [if_pos rfl]
                cases hk : s.nargs with
                | str y =>
                  have := posSlot_ne hs
                  rw [hk] at this
                  simp only [posSlot, hk] at hs
                  split at hs
                  · simp at hs
                  · simp only [Option.some.injEq] at hs
                    rw [← hs]; simp
                | int k =>
                  by_cases hkz : k = 0
                  · exfalso
                    have hs' := hs
                    simp only [posSlot, hk, hkz, Option.some.injEq] at hs'
                    have := pos_none hs (by rw [← hs']; rfl) (by rw [← hs']) (by simp) ha
                      (fun u hu hwu => by
                        refine (hpbrk u hu).trans ?_
                        have := hp.blank u hu hwu
                        rw [spelledIn_append] at this
                        simp only [Bool.or_eq_false_iff] at this
                        exact this.1) hsem h1
                    exact hlen (by rw [this]; simp)
                  · have := hk0 k hk
                    simp only [posSlot, hk, Option.some.injEq] at hs
                    rw [← hs]
                    left; show k.toNat ≠ 0; omega
            · intro u hu
              rw [← semantics_word hsem] at hu
              have hu' : u ∈ t :: ts := (List.mem_filter.1 hu).1
              exact (hpbrk u hu').trans (hspell u hu' (hsemws u hu))

/-! ## Conditions -/

/-- The words that join conditions. -/
def joiners : List Str := [S "AND", S "OR"]

theorem normKwarg_upper {t : Token} {w : Str} (h : normKwarg t = some w) : upper w = upper t.spelling := by
  rw [← keywordText_eq] at h
  unfold keywordText at h
  split at h
  · simp only [Option.some.injEq] at h
    rw [← h, upper_upper]
  · split at h
    · simp only [Option.some.injEq] at h
      rw [← h, upper_lower]
    · simp at h

theorem spelled_of_kwargIn {t : Token} {ks : List Str} (h : kwargIn t ks = true) : spelledIn t ks = true := by
  unfold kwargIn at h
  split at h
  · rename_i w hw
    simp only [spelledIn, List.any_eq_true, beq_iff_eq]
    exact ⟨w, by simpa using h, normKwarg_upper hw⟩
  · simp at h

/-- The specification of the operands. -/
theorem operands_slot : posSlot { nargs := .str (S "+"), flags := conditionalFlags } = some operands := by
  have : S "+" ≠ S "?" := by decide
  simp only [posSlot, operands, this, if_false]
  rfl

theorem break_append (t : Token) (a b : List Breaker) : shouldBreak t (a ++ b) = (shouldBreak t a || shouldBreak t b) := by
  simp [shouldBreak]

theorem break_joiners (t : Token) (brk : List Breaker) :
    shouldBreak t (brk ++ [kwBreaker joiners]) = (shouldBreak t brk || spelledIn t joiners) := by
  rw [break_append]
  congr 1
  simp [shouldBreak, kwBreaker_fires]

/-- A condition after `AND` or `OR`. -/
theorem cond_inner {brk : List Breaker} (hb : .paren ∈ brk) :
    ∀ (m : Nat) (up : Bool) (acc : List Node) (args : List Token), Args args r more →
    (∀ t ∈ args, isWs t = true → shouldBreak t brk = false) →
    (∀ t ∈ args, spelledIn t joiners = true → shouldBreak t brk = true) → ∀ nd rest,
    exec ctx m (.condLoop brk acc) up (args ++ r :: more) = .ok (nd, rest) →
    ∃ cs, nd = mkArg .conditional (acc ++ cs) ∧ Took args r more rest operands (fun t => shouldBreak t brk) (leafsL cs)
  | 0, _, _, _, _, _, _, _, _, h => by simp [exec] at h
  | m + 1, up, acc, args, ha, hbl, hj, nd, rest, h => by
    have stop_now : nd = mkArg .conditional acc → rest = args ++ r :: more →
        slotWords operands (fun t => shouldBreak t brk) (semantics args) = [] →
        slotRest operands (fun t => shouldBreak t brk) (semantics args) = semantics args →
        ∃ cs, nd = mkArg .conditional (acc ++ cs) ∧ Took args r more rest operands (fun t => shouldBreak t brk) (leafsL cs) := by
      intro h1 h2 h3 h4
      exact ⟨[], by simp [h1], ⟨[], args, rfl, h2, h4.symm, rfl⟩, h3.symm⟩
    simp only [exec, step] at h
    cases args with
    | nil =>
      simp only [List.nil_append, condIter, rparen_break hb ha.close, if_true, Except.ok.injEq, Prod.mk.injEq] at h
      exact stop_now h.1.symm h.2.symm (by simp [slotWords, operands, semantics]) (by simp [slotRest, operands, semantics])
    | cons t ts =>
      have hsw := ha.bald.switch t (by simp)
      have hnp := ha.noParen t (by simp)
      simp only [List.cons_append, condIter] at h
      split at h
      · rename_i hbr
        have hsem : isSemantic t = true := by
          rcases ha.bald.ink t (by simp) with hw | hw
          · rw [hbl t (by simp) hw] at hbr; simp at hbr
          · exact hw
        simp only [Except.ok.injEq, Prod.mk.injEq] at h
        exact stop_now h.1.symm h.2.symm (by simp [slotWords, operands, semantics_word hsem, hbr])
          (by simp [slotRest, operands, semantics_word hsem, hbr])
      · rename_i hbr
        split at h
        · rename_i hw
          obtain ⟨cs, e1, ⟨a, b, e2, e3, e4, e5⟩, e6⟩ := cond_inner hb m up _ ts ha.tail (fun u hu => hbl u (by simp [hu]))
            (fun u hu => hj u (by simp [hu])) nd rest h
          refine ⟨.tok t :: cs, by simp [e1], ⟨t :: a, b, by simp [e2], e3, ?_, ?_⟩, ?_⟩
          · rw [semantics_ws hw]; exact e4
          · rw [semantics_ws hw]; exact e5
          · rw [semantics_ws hw]; exact e6
        · rename_i hw
          have hlp : (t.type == .lparen) = false := by simpa using hnp.1
          have hkw : kwargIn t [S "AND", S "OR"] = false := by
            cases hk : kwargIn t [S "AND", S "OR"] with
            | false => rfl
            | true => exact absurd (hj t (by simp) (spelled_of_kwargIn hk)) hbr
          simp only [hsw.1, hsw.2, hlp, hkw, Bool.false_eq_true, if_false, Parse.bind_ok] at h
          obtain ⟨⟨sub, rest1⟩, h1, h⟩ := h
          simp only at h
          have hcb : ∀ u ∈ t :: ts, shouldBreak u (brk ++ [kwBreaker [S "AND", S "OR"]]) = shouldBreak u brk := by
            intro u hu
            refine (break_joiners u brk).trans ?_
            cases hs : spelledIn u joiners with
            | false => simp
            | true => simp [hj u hu hs]
          obtain ⟨at_, ds, rfl, ⟨a, b, f2, f3, f4, f5⟩, f6⟩ := pos_words (args := t :: ts) operands_slot (by simp [hb]) ha
            (fun u hu hw => by rw [hcb u hu]; exact hbl u hu hw) h1
          have hst : slotWords operands (fun t => shouldBreak t (brk ++ [kwBreaker [S "AND", S "OR"]])) (semantics (t :: ts)) =
                slotWords operands (fun t => shouldBreak t brk) (semantics (t :: ts)) ∧
              slotRest operands (fun t => shouldBreak t (brk ++ [kwBreaker [S "AND", S "OR"]])) (semantics (t :: ts)) =
                slotRest operands (fun t => shouldBreak t brk) (semantics (t :: ts)) := by
            have hcb' : ∀ u ∈ semantics (t :: ts), shouldBreak u (brk ++ [kwBreaker [S "AND", S "OR"]]) = shouldBreak u brk :=
              fun u hu => hcb u (List.mem_filter.1 hu).1
            generalize semantics (t :: ts) = l at hcb'
            exact slot_congr hcb'
          rw [hst.2] at f4
          rw [hst.1] at f6
          rw [f3] at h
          rw [f2] at ha hbl hj
          obtain ⟨cs, e1, ⟨a', b', e2, e3, e4, e5⟩, e6⟩ := cond_inner hb m up _ b ha.drop
            (fun u hu => hbl u (by simp [hu])) (fun u hu => hj u (by simp [hu])) nd rest h
          have hz := slot_again conditionalFlags (fun t => shouldBreak t brk) (semantics (t :: ts))
          rw [show (⟨0, [], some conditionalFlags⟩ : Slot) = operands from rfl, ← f4] at hz
          refine ⟨.node .pargGroup at_ ds :: cs, by simp [e1], ⟨a ++ a', b', by rw [f2, e2]; simp, e3, ?_, ?_⟩, ?_⟩
          · rw [e4, hz.2, f4]
          · simp only [leafsL, leafs, List.map_append, e5, semantics_append]
            simp [f5]
          · simp only [leafsL, leafs, e6, hz.1]
            simp [f6]

/-- The command that `if` and `while` are. -/
def condition : Command := ⟨[(S "AND", operands), (S "OR", operands)], [], operands, operands⟩

theorem condition_keyword (t : Token) :
    (kwargIn t [S "AND", S "OR"] = true → condition.keyword t = some operands) ∧
      (kwargIn t [S "AND", S "OR"] = false → condition.keyword t = none) := by
  unfold kwargIn Command.keyword condition
  rw [keywordText_eq]
  cases normKwarg t with
  | none => simp
  | some w =>
    simp only [Option.bind_some, List.lookup_cons, List.lookup_nil]
    by_cases h1 : w = S "AND"
    · subst h1; simp
    · by_cases h2 : w = S "OR"
      · subst h2
        have : (S "OR" == S "AND") = false := by decide
        simp [this]
      · have h1' : (w == S "AND") = false := by simpa using h1
        have h2' : (w == S "OR") = false := by simpa using h2
        rw [h1', h2']
        simp [h1, h2]

theorem cond_words : ∀ (m : Nat) (up : Bool) (acc : List Node) (fresh : Bool)
    (args : List Token), Args args r more → Plain condition args → ∀ nd rest,
    exec ctx m (.condLoop [.paren] acc) up (args ++ r :: more) = .ok (nd, rest) →
    ∃ cs, nd = mkArg .conditional (acc ++ cs) ∧ rest = r :: more ∧
      cs.flatMap groupMarks = place condition ⟨closed, false, fresh⟩ (semantics args)
  | 0, _, _, _, _, _, _, _, _, h => by simp [exec] at h
  | m + 1, up, acc, fresh, args, ha, hp, nd, rest, h => by
    have hbrk : ∀ t ∈ args, shouldBreak t [.paren] = false := by
      intro t ht
      simp [shouldBreak, Breaker.fires, (ha.noParen t ht).2]
    have hkb : ∀ {brk : List Breaker}, .paren ∈ brk → ∀ t ∈ args, shouldBreak t ([.paren] ++ [kwBreaker [S "AND", S "OR"]]) = spelledIn t joiners := by
      intro brk _ t ht
      refine (break_joiners t _).trans ?_
      rw [hbrk t ht]; rfl
    have hkb := hkb (brk := [.paren]) (by simp)
    have hspell : ∀ t ∈ args, isWs t = false → spelledIn t joiners = (condition.keyword t).isSome := by
      intro t ht hw
      cases hk : condition.keyword t with
      | some s => exact spelled_keyword hk
      | none =>
        have := hp.keyword t ht hw
        rw [hk] at this
        simpa [condition, joiners] using this
    have hblank : ∀ t ∈ args, isWs t = true → spelledIn t joiners = false := by
      intro t ht hw
      have := hp.blank t ht hw
      simpa [condition, joiners] using this
    have hsemws : ∀ {a : List Token}, ∀ t ∈ semantics a, isWs t = false := by
      intro a t ht
      simp only [semantics, List.mem_filter, isSemantic, Bool.not_eq_true', Bool.or_eq_false_iff] at ht
      exact ht.2.1.1
    simp only [exec, step] at h
    cases args with
    | nil =>
      simp only [List.nil_append, condIter, rparen_break (List.mem_singleton.2 rfl) ha.close, if_true, Except.ok.injEq,
        Prod.mk.injEq] at h
      exact ⟨[], by simp [h.1], h.2.symm, by simp [semantics, place]⟩
    | cons t ts =>
      have hsw := ha.bald.switch t (by simp)
      have hnp := ha.noParen t (by simp)
      simp only [List.cons_append, condIter] at h
      rw [hbrk t (by simp)] at h
      simp only [Bool.false_eq_true, if_false] at h
      split at h
      · rename_i hw
        obtain ⟨cs, e1, e2, e3⟩ := cond_words m up _ fresh ts ha.tail (Plain.drop (a := [t]) hp) nd rest h
        refine ⟨.tok t :: cs, by simp [e1], e2, ?_⟩
        rw [semantics_ws hw, ← e3]
        rfl
      · rename_i hw
        have hw : isWs t = false := by simpa using hw
        have hsem : isSemantic t = true := (ha.bald.ink t (by simp)).resolve_left (by simp [hw])
        have hlp : (t.type == .lparen) = false := by simpa using hnp.1
        rw [hsw.1, hsw.2, hlp] at h
        simp only [Bool.false_eq_true, if_false] at h
        split at h
        · rename_i hkw
          have hkey := (condition_keyword t).1 hkw
          simp only [Parse.bind_ok] at h
          obtain ⟨⟨sub, rest1⟩, h1, h⟩ := h
          simp only at h
          split at h
          · obtain ⟨ds, words, rfl, g1, ⟨a, b, f2, f3, f4, f5⟩, f6⟩ := keyword_words' (slot := operands) (args := ts)
              (fun {m up args nd rest} ha hbl h => by
                cases m with
                | zero => simp [exec] at h
                | succ m =>
                  simp only [exec, step, argStart] at h
                  rw [(takeWhile_ws ha.close).1, (takeWhile_ws ha.close).2] at h
                  obtain ⟨cs, rfl, ⟨a, b, e1, e2, e3, e4⟩, e5⟩ := cond_inner (by simp) m up _ _ ha.dropWs
                    (fun t ht => hbl t (List.dropWhile_sublist _ |>.subset ht))
                    (fun u _ hu => (break_joiners u _).trans (by rw [hu]; simp)) _ _ h
                  rw [semantics_drop] at e3 e5
                  have hl : leafs (mkArg .conditional (leaves (args.takeWhile isWs) ++ cs)) = leafsL cs := by
                    simp [mkArg, leafs, leafsL_append, leafsL_leaves]
                  rw [hl]
                  refine ⟨⟨args.takeWhile isWs ++ a, b, ?_, e2, e3, ?_⟩, e5⟩
                  · rw [List.append_assoc, ← e1, List.takeWhile_append_dropWhile]
                  · rw [e4, semantics_append, semantics_take, List.nil_append]) ha.tail
              (fun u hu hwu => (hkb u (by simp [hu])).trans (hblank u (by simp [hu]) hwu)) h1
            rw [f3] at h
            have ha2 : Args b r more := by
              have := ha.tail; rw [f2] at this; exact this.drop
            have hp2 : Plain condition b := by
              rw [f2] at hp; exact Plain.drop (a := t :: a) (by simpa using hp)
            obtain ⟨cs, e1, e2, e3⟩ := cond_words m up _ fresh b ha2 hp2 nd rest h
            refine ⟨mk .kwargGroup ds :: cs, by simp [e1], e2, ?_⟩
            rw [semantics_word hsem]
            have e : place condition ⟨closed, false, fresh⟩ (t :: semantics ts) =
                ⟨some true, .keyword, t⟩ :: place condition ⟨operands, true, fresh⟩ (semantics ts) := by
              simp [place, closed, hkey]
            rw [e, place_slot condition true fresh (fun t => shouldBreak t ([.paren] ++ [kwBreaker [S "AND", S "OR"]])),
              List.flatMap_cons, e3, f4]
            · have : groupMarks (mk .kwargGroup ds) = marked true (leafsL ds) := rfl
              rw [this, g1, marked_cons, f6]
              rfl
            · intro u hu
              have hu' : u ∈ t :: ts := by
                simp only [semantics, List.mem_filter] at hu; simp [hu.1]
              rw [hkb u hu', hspell u hu' (hsemws u hu)]
              simp [condition, spelledIn]
          · simp at h
        · rename_i hkw
          have hkey := (condition_keyword t).2 (by simpa using hkw)
          simp only [Parse.bind_ok] at h
          obtain ⟨⟨sub, rest1⟩, h1, h⟩ := h
          simp only at h
          obtain ⟨at_, ds, rfl, ⟨a, b, f2, f3, f4, f5⟩, f6⟩ := pos_words (args := t :: ts) operands_slot (by simp) ha
            (fun u hu hwu => (hkb u hu).trans (hblank u hu hwu)) h1
          rw [f3] at h
          have ha2 : Args b r more := by rw [f2] at ha; exact ha.drop
          have hp2 : Plain condition b := by rw [f2] at hp; exact hp.drop
          obtain ⟨cs, e1, e2, e3⟩ := cond_words m up _ false b ha2 hp2 nd rest h
          refine ⟨.node .pargGroup at_ ds :: cs, by simp [e1], e2, ?_⟩
          rw [List.flatMap_cons, e3, f4]
          have : groupMarks (.node .pargGroup at_ ds) = marked false (leafsL ds) := rfl
          rw [this, f6, semantics_word hsem]
          refine (place_begin hkey (by cases fresh <;> rfl) (.inr (by simp [operands])) ?_).symm
          intro u hu
          rw [← semantics_word hsem] at hu
          have hu' : u ∈ t :: ts := (List.mem_filter.1 hu).1
          exact (hkb u hu').trans (hspell u hu' (hsemws u hu))

/-- The argument tree of a command. -/
theorem command_words {p : ArgP} {c : Command} (hc : commandOf p = some c) {m : Nat} {up : Bool} {args : List Token}
    (ha : Args args r more) (hp : Plain c args) {nd : Node} {rest : List Token}
    (h : exec ctx m (.arg p [.paren]) up (args ++ r :: more) = .ok (nd, rest)) :
    rest = r :: more ∧ ∃ at_ cs, nd = .node .argGroup at_ cs ∧ cs.flatMap groupMarks = c.place (semantics args) := by
  have hp' : Plain c (args.dropWhile isWs) :=
    Plain.drop (a := args.takeWhile isWs) (by rw [List.takeWhile_append_dropWhile]; exact hp)
  have finish : ∀ {at_ cs}, nd = .node .argGroup at_ (leaves (args.takeWhile isWs) ++ cs) ∧ rest = r :: more ∧
      cs.flatMap groupMarks = place c ⟨closed, false, true⟩ (semantics (args.dropWhile isWs)) →
      rest = r :: more ∧ ∃ at_ cs, nd = .node .argGroup at_ cs ∧ cs.flatMap groupMarks = c.place (semantics args) := by
    rintro at_ cs ⟨rfl, e2, e3⟩
    refine ⟨e2, _, _, rfl, ?_⟩
    rw [List.flatMap_append, e3, semantics_drop]
    have : (leaves (args.takeWhile isWs)).flatMap groupMarks = [] := by
      generalize args.takeWhile isWs = l
      induction l with
      | nil => rfl
      | cons t l ih =>
        show groupMarks (.tok t) ++ (leaves l).flatMap groupMarks = []
        rw [ih]; rfl
    rw [this]
    rfl
  cases m with
  | zero => simp [exec] at h
  | succ m =>
    unfold commandOf at hc
    split at hc
    · rename_i cmd s kwargs
      simp only [exec, step, argStart, stdStart] at h
      rw [(takeWhile_ws ha.close).1, (takeWhile_ws ha.close).2] at h
      have two : splitSpecs [s] = (defaultSpec, [s]) → keySlots kwargs = some c.keywords → c.flags = s.flags →
          posSlot s = some c.first → c.later = ⟨0, [], some []⟩ → (∀ k, s.nargs = .int k → 0 ≤ k) →
          rest = r :: more ∧ ∃ at_ cs, nd = .node .argGroup at_ cs ∧ cs.flatMap groupMarks = c.place (semantics args) := by
        intro this hks hfl hfirst hlater hk
        rw [this] at h
        simp only [List.flatMap_cons, List.flatMap_nil, List.append_nil] at h
        have e : keys kwargs ++ (defaultSpec.flags ++ s.flags) = keys kwargs ++ c.flags := by rw [hfl]; rfl
        rw [e] at h
        have hd : S "*" ≠ S "?" := by decide
        obtain ⟨cs, e⟩ := std_words (dflt := defaultSpec) hks m up _ [s] true _
          ⟨⟨S "*", rfl, hd⟩, by simp [posSlot, defaultSpec, hlater, hd], .inr ⟨s, rfl, hk, rfl, hfirst⟩⟩ ha.dropWs hp' nd rest h
        exact finish e
      split at hc
      · rename_i ks k hks hn
        split at hc
        · simp at hc
        · rename_i hk
          simp only [Option.some.injEq] at hc
          subst hc
          exact two (by simp [splitSpecs, hn, Nargs.exact]) hks rfl (by simp [posSlot, hn]) rfl
            (fun k' e => by rw [hn] at e; simp only [Nargs.int.injEq] at e; omega)
      · rename_i ks x hks hn
        split at hc
        · simp at hc
        · rename_i hx
          simp only [Option.some.injEq] at hc
          subst hc
          cases hleg : s.legacy with
          | true =>
            have : splitSpecs [s] = (s, []) := by simp [splitSpecs, hleg, hn, Nargs.exact]
            rw [this] at h
            simp only [List.flatMap_nil, List.append_nil] at h
            rw [hleg] at hp' finish
            obtain ⟨cs, e⟩ := std_words (c := ⟨ks, s.flags, ⟨0, [], some s.flags⟩, ⟨0, [], some s.flags⟩⟩) (dflt := s) hks m up _ [] true _
              ⟨⟨x, hn, hx⟩, by simp [posSlot, hn, hx], .inl ⟨rfl, fun _ => rfl⟩⟩ ha.dropWs hp' nd rest h
            exact finish e
          | false =>
            rw [hleg] at two
            exact two (by simp [splitSpecs, hleg]) hks rfl (by simp [posSlot, hn, hx]) rfl (fun k e => by rw [hn] at e; simp at e)
      · simp at hc
    · simp only [Option.some.injEq] at hc
      subst hc
      simp only [exec, step, argStart] at h
      rw [(takeWhile_ws ha.close).1, (takeWhile_ws ha.close).2] at h
      obtain ⟨cs, e⟩ := cond_words m up _ true _ ha.dropWs hp' nd rest h
      exact finish e
    · simp at hc

/-! ## Statements -/

theorem stmtTail_bald : ∀ {k : Nat} {ts : List Token} {ns : List Node} {rest : List Token}, Bald ts →
    stmtTail k ts = .ok (ns, rest) → ∃ w : List Token, ns = leaves w ∧ ∀ t ∈ w, isWs t = true
  | 0, ts, ns, rest, _, h => by
    simp only [stmtTail, Except.ok.injEq, Prod.mk.injEq] at h
    exact ⟨[], h.1.symm, by simp⟩
  | k + 1, [], ns, rest, _, h => by
    simp only [stmtTail, Except.ok.injEq, Prod.mk.injEq] at h
    exact ⟨[], h.1.symm, by simp⟩
  | k + 1, t :: ts, ns, rest, hb, h => by
    simp only [stmtTail] at h
    split at h
    · simp only [Except.ok.injEq, Prod.mk.injEq] at h
      exact ⟨[], h.1.symm, by simp⟩
    · split at h
      · rename_i hw
        simp only [Parse.bind_ok] at h
        obtain ⟨⟨ns', rest'⟩, h1, h⟩ := h
        simp only [pure_ok, Prod.mk.injEq] at h
        obtain ⟨w, e, hws⟩ := stmtTail_bald (Bald.suffix (c := [t]) hb) h1
        exact ⟨t :: w, by rw [← h.1, e]; rfl, by simpa [hw] using hws⟩
      · split at h
        · rename_i hc
          have := (hb.switch t (by simp)).1
          simp [isAnyComment, isComment] at this hc
          simp [this] at hc
        · simp at h

theorem exec_resolve {p q : ArgP} {ts : List Token} (hr : resolve p ts = some q) {m : Nat} {brk : List Breaker} {up : Bool}
    {res : Node × List Token} (h : exec ctx m (.arg p brk) up ts = .ok res) : ∃ m, exec ctx m (.arg q brk) up ts = .ok res := by
  cases m with
  | zero => simp [exec] at h
  | succ m =>
    cases p with
    | choose f =>
      simp only [exec, step, argStart] at h
      simp only [resolve] at hr
      split at hr
      · rename_i q' hq
        simp only [Option.some.injEq] at hr
        subst hr
        rw [hq] at h
        exact ⟨m, h⟩
      · simp at hr
    | _ => all_goals (simp only [resolve, Option.some.injEq] at hr; subst hr; exact ⟨_, h⟩)

/-- The marks of an argument tree. -/
def treeMarks : Node → List Mark
  | .node .argGroup _ ds => ds.flatMap groupMarks
  | _ => []

/-- Where a statement comes from: if its words are a name, the opening parenthesis, the words `ws` without
parentheses and the closing one, and there are no comments among them, then the parser of the command was run on these
words, and the groups are those of the tree that it returned. -/
def Reads (ctx : Ctx) (Q : Token → Prop) (s : Node) : Prop :=
  ∀ name l ws r, semantics s.toks = name :: l :: (ws ++ [r]) →
    (∀ t ∈ ws, t.type ≠ .lparen ∧ t.type ≠ .rparen) → Commentless s →
    ∃ m args more sub rest, Args args r more ∧ semantics args = ws ∧ (∀ t ∈ args ++ [r], Q t) ∧
      exec ctx m (.arg (lookupParser ctx name.spelling) [.paren]) false (args ++ r :: more) = .ok (sub, rest) ∧
      argMarks s = treeMarks sub

theorem toksL_leaves' (w : List Token) : toksL (leaves w) = w := by
  induction w with
  | nil => rfl
  | cons t w ih =>
    show (Node.tok t).toks ++ toksL (leaves w) = t :: w
    rw [ih]; rfl

theorem flatMap_leaves {β : Type} (g : Node → List β) (hg : ∀ t, g (.tok t) = []) (w : List Token) :
    (leaves w).flatMap g = [] := by
  induction w with
  | nil => rfl
  | cons t w ih =>
    show g (.tok t) ++ (leaves w).flatMap g = []
    rw [ih, hg]; rfl

theorem type_text {t : Token} (h : t.type ∉ [TokType.comment, .bracketComment, .formatOn, .formatOff]) :
    isAnyComment t = false ∧ isOnOff t = false := by
  simp only [List.mem_cons, List.not_mem_nil, or_false, not_or] at h
  simp [isAnyComment, isOnOff, h]

theorem noText_toks {ns : List Node} (h : ∀ n ∈ ns, NoText n) : ∀ t ∈ toksL ns, isWs t = true ∨ isAnyComment t = true := by
  induction ns with
  | nil => simp [toksL]
  | cons n ns ih =>
    intro t ht
    simp only [toksL, List.mem_append] at ht
    rcases ht with ht | ht
    · exact h n (by simp) t ht
    · exact ih (fun m hm => h m (by simp [hm])) t ht

theorem stmtTail_kinds (k : Nat) (ts : List Token) (ns : List Node) (rest : List Token) (h : stmtTail k ts = .ok (ns, rest)) :
    ∀ n ∈ ns, (∃ t, n = .tok t) ∨ ∃ a cs, n = .node .comment a cs := by
  induction k generalizing ts ns rest with
  | zero =>
    simp only [stmtTail, Except.ok.injEq, Prod.mk.injEq] at h
    obtain ⟨rfl, rfl⟩ := h
    simp
  | succ k ih =>
    cases ts with
    | nil =>
      simp only [stmtTail, Except.ok.injEq, Prod.mk.injEq] at h
      obtain ⟨rfl, rfl⟩ := h
      simp
    | cons t ts =>
      simp only [stmtTail] at h
      split at h
      · simp only [Except.ok.injEq, Prod.mk.injEq] at h
        obtain ⟨rfl, rfl⟩ := h
        simp
      split at h
      · obtain ⟨⟨ns', rest'⟩, h1, h2⟩ := Parse.bind_ok.1 h
        simp only [pure_ok, Prod.mk.injEq] at h2
        obtain ⟨rfl, rfl⟩ := h2
        intro n hn
        rcases List.mem_cons.1 hn with rfl | hn
        · exact Or.inl ⟨t, rfl⟩
        · exact ih _ _ _ h1 n hn
      split at h
      · obtain ⟨⟨ns', rest'⟩, h1, h2⟩ := Parse.bind_ok.1 h
        simp only [pure_ok, Prod.mk.injEq] at h2
        obtain ⟨rfl, rfl⟩ := h2
        intro n hn
        rcases List.mem_cons.1 hn with rfl | hn
        · refine Or.inr ?_
          simp only [consumeComment]
          split <;> exact ⟨_, _, rfl⟩
        · exact ih _ _ _ h1 n hn
      · simp at h

theorem trailing_kinds (ctx : Ctx) (ts : List Token) :
    ∀ n ∈ (consumeTrailing ctx ts).1, (∃ t, n = .tok t) ∨ ∃ a cs, n = .node .comment a cs := by
  have key : ∀ (w : List Token) (a : Attr) (cs : List Node), ∀ n ∈ w.map Node.tok ++ [.node .comment a cs],
      (∃ t, n = .tok t) ∨ ∃ a cs, n = .node .comment a cs := by
    intro w a cs n hn
    simp only [List.mem_append, List.mem_map, List.mem_singleton] at hn
    rcases hn with ⟨t, _, rfl⟩ | rfl
    · exact Or.inl ⟨t, rfl⟩
    · exact Or.inr ⟨a, cs, rfl⟩
  simp only [consumeTrailing]
  split
  · simp
  split
  · exact key _ _ _
  split
  · simp
  · exact key _ _ _

theorem statement_reads {Q : Token → Prop} {n : Nat} {up : Bool} {ts : List Token} {res : Node × List Token}
    (ok : TsOk false Q ts) (hneat : Neat ctx res.1) (h : exec ctx n .statement up ts = .ok res) :
    Reads ctx Q res.1 := by
  cases n with
  | zero => simp [exec] at h
  | succ n =>
    simp only [exec, step] at h
    cases ts with
    | nil => simp [stmtIter] at h
    | cons t ts =>
    simp only [stmtIter] at h
    have e1 := ws_split ts
    cases hd : ts.dropWhile isWs with
    | nil => rw [hd] at h; simp at h
    | cons l ts1 =>
      rw [hd] at h e1
      simp only at h
      split at h
      · simp at h
      rename_i hl
      have hl : l.type = .lparen := by simpa using hl
      obtain ⟨⟨sub, rest⟩, h1, h⟩ := Parse.bind_ok.1 h
      obtain ⟨⟨tail, rest1⟩, h2, h⟩ := Parse.bind_ok.1 h
      simp only at h
      cases rest1 with
      | nil => simp at h
      | cons q rest2 =>
        have ew := ws_split ts1
        have ok1 : TsOk false Q (ts1.dropWhile isWs) := by
          rw [e1, ew] at ok
          exact TsOk.suffix (c := t :: ts.takeWhile isWs ++ l :: ts1.takeWhile isWs) (by simpa using ok)
        obtain ⟨d, e4, hrel⟩ := exec_holds (s := false) (Q := Q) (fun _ _ => Props.Parse.argOk_all _ true) _ _ _ _ _ h1
          ⟨true, fun _ => rfl, Props.Parse.argOk_all _ true⟩ ok1
        have e2 : toksL tail ++ q :: rest2 = rest := stmtTail_splits _ _ _ _ h2
        have hq : q.type = .rparen := (stmtTail_noText _ _ _ _ h2).2 (Nat.le_refl _) q rest2 rfl
        have htail := noText_toks fun n hn => ((stmtTail_noText _ _ _ _ h2).1 n hn).1
        have htr := noText_toks (consumeTrailing_noText ctx rest2)
        simp only [pure_ok] at h
        subst h
        simp only [Rel, Bool.false_eq_true, if_false, Job.toks, List.nil_append] at hrel
        intro name l' ws r' hsem hnp hcl
        have htoks : Node.toks (.node .statement { spelling := cmdSpelling (lookupParser ctx t.spelling) }
            ([mk .funname [.tok t]] ++ leaves (ts.takeWhile isWs) ++ [mk .lparen [.tok l]] ++ leaves (ts1.takeWhile isWs) ++
              [sub] ++ tail ++ [mk .rparen [.tok q]] ++ (consumeTrailing ctx rest2).1)) =
              (([t] ++ ts.takeWhile isWs ++ [l] ++ ts1.takeWhile isWs ++ sub.toks ++ toksL tail) ++ [q]) ++
                toksL (consumeTrailing ctx rest2).1 := by
          simp [Node.toks, toksL_append, mk, toksL]
        have hup : ∀ u ∈ [t] ++ ts.takeWhile isWs ++ [l] ++ ts1.takeWhile isWs ++ sub.toks ++ toksL tail ++ [q],
            isAnyComment u = false ∧ isOnOff u = false := by
          intro u hu
          refine type_text (hcl u ?_)
          unfold upToClose
          simp only [htoks, List.reverse_append]
          rw [List.mem_reverse, List.dropWhile_append_of_pos (by
            intro v hv
            have := htr v (List.mem_reverse.1 hv)
            simp only [isWs, isAnyComment, Bool.or_eq_true, beq_iff_eq] at this
            rcases this with (e | e) | (e | e) <;> simp [e])]
          simp only [List.reverse_cons, List.reverse_nil, List.nil_append, List.cons_append, List.dropWhile_cons, hq, bne_self_eq_false,
            Bool.false_eq_true, if_false]
          simp only [List.mem_append, List.mem_singleton] at hu
          simp only [List.mem_cons, List.mem_append, List.mem_reverse, List.not_mem_nil, or_false]
          rcases hu with (((((hu | hu) | hu) | hu) | hu) | hu) | hu <;> simp [hu]
        have hws0 : ∀ {a : List Token}, (∀ t ∈ a, isWs t = true) → semantics a = [] := by
          intro a ha
          simp only [semantics, List.filter_eq_nil_iff]
          intro u hu
          simp [isSemantic, ha u hu]
        have htw : ∀ u ∈ toksL tail, isWs u = true := by
          intro u hu
          refine (htail u hu).resolve_right ?_
          rw [(hup u (by simp [hu])).1]
          simp
        have htrail : semantics (toksL (consumeTrailing ctx rest2).1) = [] := by
          simp only [semantics, List.filter_eq_nil_iff]
          intro u hu
          rcases htr u hu with e | e <;> simp [isSemantic, e]
        have hname : t.type = .word := by
          have := (neat_node.1 ((neat_node.1 hneat).2 (mk .funname [.tok t]) (by simp))).1
          obtain ⟨t', e, ht'⟩ := this
          simp only [List.cons.injEq, Node.tok.injEq, and_true] at e
          rw [e]; exact ht'
        have st : isSemantic t = true := by simp [isSemantic, isWs, isAnyComment, isOnOff, hname]
        have sl : isSemantic l = true := by simp [isSemantic, isWs, isAnyComment, isOnOff, hl]
        have sq : isSemantic q = true := by simp [isSemantic, isWs, isAnyComment, isOnOff, hq]
        have htok : semantics (Node.toks (.node .statement { spelling := cmdSpelling (lookupParser ctx t.spelling) }
            ([mk .funname [.tok t]] ++ leaves (ts.takeWhile isWs) ++ [mk .lparen [.tok l]] ++ leaves (ts1.takeWhile isWs) ++
              [sub] ++ tail ++ [mk .rparen [.tok q]] ++ (consumeTrailing ctx rest2).1))) = t :: l :: (semantics d ++ [q]) := by
          rw [htoks]
          simp only [semantics_append, semantics_take, hws0 htw, hrel.2, htrail]
          rw [semantics_word st, semantics_word sl, semantics_word sq]
          simp [semantics]
        rw [htok] at hsem
        simp only [List.cons.injEq] at hsem
        obtain ⟨rfl, rfl, hsem⟩ := hsem
        obtain ⟨hsem2, hqr⟩ := List.append_inj' hsem rfl
        simp only [List.cons.injEq, and_true] at hqr
        subst hqr
        have hsa : semantics (d ++ toksL tail) = ws := by
          rw [semantics_append, hws0 htw, List.append_nil, hsem2]
        have hin : ∀ u ∈ (d ++ toksL tail) ++ [q],
            u ∈ [t] ++ ts.takeWhile isWs ++ [l] ++ ts1.takeWhile isWs ++ sub.toks ++ toksL tail ++ [q] := by
          intro u hu
          simp only [List.mem_append] at hu
          rcases hu with (hu | hu) | hu
          · have := hrel.1.mem_iff.2 hu
            simp [this]
          · simp [hu]
          · simp only [List.mem_append]; exact Or.inr hu
        have hin1 : ∀ u ∈ (d ++ toksL tail) ++ [q], u ∈ ts1.dropWhile isWs := by
          intro u hu
          rw [e4]
          simp only [← e2]
          simp only [List.mem_append, List.mem_singleton] at hu
          simp only [List.mem_append, List.mem_cons]
          rcases hu with (hu | hu) | hu <;> simp [hu]
        have hbald : Bald ((d ++ toksL tail) ++ [q]) := by
          refine ⟨fun u hu => ?_, fun u hu => ok1.nobom u (hin1 u hu), fun u hu => hup u (hin u hu)⟩
          have := hup u (hin u hu)
          cases hw : isWs u with
          | true => exact Or.inl rfl
          | false => exact Or.inr (by simp [isSemantic, hw, this.1, this.2])
        have hargs : Args (d ++ toksL tail) q rest2 := by
          refine ⟨hbald, ?_, hq⟩
          intro u hu
          cases hwu : isWs u with
          | true =>
            simp only [isWs, Bool.or_eq_true, beq_iff_eq] at hwu
            rcases hwu with h | h <;> simp [h]
          | false =>
            refine hnp u ?_
            rw [← hsa]
            exact List.mem_filter.2 ⟨hu, (hbald.ink u (by simp only [List.mem_append]; exact Or.inl (by simpa using hu))).resolve_left (by simp [hwu])⟩
        have e5 : ts1.dropWhile isWs = (d ++ toksL tail) ++ q :: rest2 := by rw [e4, ← e2]; simp
        rw [e5] at h1
        refine ⟨n, d ++ toksL tail, rest2, sub, rest, hargs, hsa, fun u hu => ?_, h1, ?_⟩
        · exact ok1.cmds u (hin1 u hu)
        have hflat : ∀ (f : Node → List Mark) (ns : List Node), (∀ t, f (.tok t) = []) → (∀ a cs, f (.node .comment a cs) = []) →
            (∀ n ∈ ns, (∃ t, n = .tok t) ∨ ∃ a cs, n = .node .comment a cs) → ns.flatMap f = [] := by
          intro f ns h1 h2 hns
          rw [List.flatMap_eq_nil_iff]
          intro n hn
          rcases hns n hn with ⟨t, rfl⟩ | ⟨a, cs, rfl⟩
          · exact h1 t
          · exact h2 a cs
        simp only [argMarks, List.flatMap_append, List.flatMap_cons, List.flatMap_nil, List.append_nil, mk]
        rw [flatMap_leaves _ (fun _ => rfl), flatMap_leaves _ (fun _ => rfl),
          hflat _ tail (fun _ => rfl) (fun _ _ => rfl) (stmtTail_kinds _ _ _ _ h2),
          hflat _ (consumeTrailing ctx rest2).1 (fun _ => rfl) (fun _ _ => rfl) (trailing_kinds ctx rest2)]
        simp only [List.nil_append, List.append_nil]
        rfl

/-! ## All statements of a file -/

theorem stmtsL_append (a b : List Node) : stmtsL (a ++ b) = stmtsL a ++ stmtsL b := by
  induction a with
  | nil => rfl
  | cons n a ih => simp [stmtsL, ih]

theorem stmtsL_leaves (w : List Token) : stmtsL (leaves w) = [] := by
  induction w with
  | nil => rfl
  | cons t w ih =>
    show stmtsOf (.tok t) ++ stmtsL (leaves w) = []
    rw [ih]; rfl

/-- The node is a result of the parser for statements, run on tokens that are not dropped. -/
def MadeOk (ctx : Ctx) (Q : Token → Prop) (s : Node) : Prop :=
  ∃ n up ts rest, TsOk false Q ts ∧ exec ctx n .statement up ts = .ok (s, rest)

theorem stmts_one {n : Nat} {up : Bool} {ts : List Token} {r : Node × List Token}
    (h : exec ctx n .statement up ts = .ok r) : stmtsOf r.1 = [r.1] := by
  cases n with
  | zero => simp [exec] at h
  | succ n =>
    simp only [exec, step] at h
    cases ts with
    | nil => simp [stmtIter] at h
    | cons t ts =>
      simp only [stmtIter] at h
      split at h
      · simp at h
      · split at h
        · simp at h
        · obtain ⟨⟨sub, rest⟩, _, h⟩ := Parse.bind_ok.1 h
          obtain ⟨⟨tail, rest1⟩, _, h⟩ := Parse.bind_ok.1 h
          simp only at h
          split at h
          · simp at h
          · simp only [pure_ok] at h
            subst h
            simp [stmtsOf]

theorem madeOk_one {Q : Token → Prop} {n : Nat} {up : Bool} {ts : List Token} {r : Node × List Token} (ok : TsOk false Q ts)
    (h : exec ctx n .statement up ts = .ok r) : ∀ s ∈ stmtsOf r.1, MadeOk ctx Q s := by
  intro s hs
  rw [stmts_one h, List.mem_singleton] at hs
  subst hs
  exact ⟨n, up, ts, r.2, ok, h⟩

theorem stmtsL_map (w : List Token) : stmtsL (w.map Node.tok) = [] := stmtsL_leaves w

theorem comment_stmts (t : Token) (ts : List Token) : stmtsOf (consumeComment t ts).1 = [] := by
  simp only [consumeComment]
  repeat' split
  all_goals simp [stmtsOf, stmtsL_map, stmtsL, mk]

theorem trailing_stmts (ctx : Ctx) (ts : List Token) : stmtsL (consumeTrailing ctx ts).1 = [] := by
  simp only [consumeTrailing]
  repeat' split
  all_goals simp [stmtsOf, stmtsL_map, stmtsL, stmtsL_append]

/-- What the block-level jobs do to the statements. -/
structure MadeOkUpTo (ctx : Ctx) (Q : Token → Prop) (n : Nat) : Prop where
  body : ∀ bs acc up ts r, TsOk false Q ts → (∀ s ∈ stmtsL acc, MadeOk ctx Q s) →
    exec ctx n (.body bs acc) up ts = .ok r → ∀ s ∈ stmtsOf r.1, MadeOk ctx Q s
  flow : ∀ up ts r, TsOk false Q ts → exec ctx n .flow up ts = .ok r → ∀ s ∈ stmtsOf r.1, MadeOk ctx Q s
  ifs : ∀ acc up ts r, TsOk false Q ts → (∀ s ∈ stmtsL acc, MadeOk ctx Q s) →
    exec ctx n (.ifLoop acc) up ts = .ok r → ∀ s ∈ stmtsOf r.1, MadeOk ctx Q s

theorem exec_madeOk (ctx : Ctx) (Q : Token → Prop) (n : Nat) : MadeOkUpTo ctx Q n := by
  induction n with
  | zero => constructor <;> intros <;> rename_i h _ _ <;> simp [exec] at h
  | succ n ih =>
    have holds := exec_holds (s := false) (Q := Q) (ctx := ctx) (fun _ _ => Props.Parse.argOk_all _ true) n
    have snoc : ∀ {acc : List Node} {m : Node}, (∀ s ∈ stmtsL acc, MadeOk ctx Q s) → (∀ s ∈ stmtsOf m, MadeOk ctx Q s) →
        ∀ s ∈ stmtsL (acc ++ [m]), MadeOk ctx Q s := by
      intro acc m h1 h2 s hs
      rw [stmtsL_append] at hs
      simp only [stmtsL, List.append_nil, List.mem_append] at hs
      exact hs.elim (h1 s) (h2 s)
    have wrap : ∀ {ty : NT} {acc : List Node}, ty ≠ .statement → (∀ s ∈ stmtsL acc, MadeOk ctx Q s) →
        ∀ s ∈ stmtsOf (mk ty acc), MadeOk ctx Q s := by
      intro ty acc hty h s hs
      simp only [mk, stmtsOf, if_neg hty] at hs
      exact h s hs
    refine ⟨?_, ?_, ?_⟩
    · intro bs acc up ts r ok hacc h
      simp only [exec, step] at h
      cases ts with
      | nil =>
        simp only [bodyIter, Except.ok.injEq] at h
        subst h
        exact wrap (by simp) hacc
      | cons t ts =>
        have next : ∀ (m : Node) (rest : List Token), TsOk false Q rest → (∀ s ∈ stmtsOf m, MadeOk ctx Q s) →
            exec ctx n (.body bs (acc ++ [m])) false rest = .ok r → ∀ s ∈ stmtsOf r.1, MadeOk ctx Q s :=
          fun m rest hok hm h => ih.body _ _ _ _ _ hok (snoc hacc hm) h
        simp only [bodyIter] at h
        repeat' split at h
        all_goals first
          | (simp at h; done)
          | (simp only [Except.ok.injEq] at h; subst h; exact wrap (by simp) hacc)
          | (obtain ⟨⟨sub, rest⟩, h1, h2⟩ := Parse.bind_ok.1 h
             exact next _ _ (ok.good (holds _ _ _ _ h1 trivial ok)) (ih.flow _ _ _ ok h1) h2)
          | (obtain ⟨⟨sub, rest⟩, h1, h2⟩ := Parse.bind_ok.1 h
             exact next _ _ (ok.good (holds _ _ _ _ h1 trivial ok)) (madeOk_one ok h1) h2)
          | (refine next _ _ ok.dropWs ?_ h; simp [mk, stmtsOf, stmtsL_leaves, stmtsL]; done)
          | (refine next _ _ ok.tail ?_ h; simp [mk, stmtsOf, stmtsL_leaves, stmtsL]; done)
          | (refine next _ _ ok.comment ?_ h; rw [comment_stmts]; simp; done)
          | (refine next _ _ (ok.trailing (ctx := ctx)) ?_ h; simp only [mk, stmtsOf, stmtsL, trailing_stmts]; simp; done)
          | exact ih.body _ _ _ _ _ ok.tail hacc h
    · intro up ts r ok h
      simp only [exec, step] at h
      cases ts with
      | nil => simp [flowIter] at h
      | cons t ts =>
        simp only [flowIter] at h
        split at h
        · exact ih.ifs _ _ _ _ ok (by simp [stmtsL]) h
        · obtain ⟨⟨o, r1⟩, h1, h⟩ := Parse.bind_ok.1 h
          obtain ⟨⟨b, r2⟩, h2, h⟩ := Parse.bind_ok.1 h
          obtain ⟨⟨c, r3⟩, h3, h⟩ := Parse.bind_ok.1 h
          simp only [pure, Except.pure, Except.ok.injEq] at h
          subst h
          have ok1 : TsOk false Q r1 := ok.good (holds _ _ _ _ h1 trivial ok)
          have ok2 : TsOk false Q r2 := ok1.good (holds _ _ _ _ h2 trivial ok1)
          exact wrap (by simp) (by
            intro s hs
            simp only [stmtsL, List.append_nil, List.mem_append] at hs
            rcases hs with hs | hs | hs
            · exact madeOk_one ok h1 s hs
            · exact ih.body _ _ _ _ _ ok1 (by simp [stmtsL]) h2 s hs
            · exact madeOk_one ok2 h3 s hs)
    · intro acc up ts r ok hacc h
      simp only [exec, step] at h
      cases ts with
      | nil =>
        simp only [ifIter, Except.ok.injEq] at h
        subst h
        exact wrap (by simp) hacc
      | cons t ts =>
        simp only [ifIter] at h
        split at h
        · obtain ⟨⟨c, r1⟩, h1, h⟩ := Parse.bind_ok.1 h
          simp only [pure, Except.pure, Except.ok.injEq] at h
          subst h
          exact wrap (by simp) (snoc hacc (madeOk_one ok h1))
        · obtain ⟨⟨o, r1⟩, h1, h⟩ := Parse.bind_ok.1 h
          obtain ⟨⟨b, r2⟩, h2, h⟩ := Parse.bind_ok.1 h
          have ok1 : TsOk false Q r1 := ok.good (holds _ _ _ _ h1 trivial ok)
          have ok2 : TsOk false Q r2 := ok1.good (holds _ _ _ _ h2 trivial ok1)
          refine ih.ifs _ _ _ _ ok2 ?_ h
          intro s hs
          simp only [stmtsL_append, stmtsL, List.append_nil, List.mem_append] at hs
          rcases hs with hs | hs | hs
          · exact hacc s hs
          · exact madeOk_one ok h1 s hs
          · exact ih.body _ _ _ _ _ ok1 (by simp [stmtsL]) h2 s hs

mutual
theorem neat_stmts : ∀ (n : Node), Neat ctx n → ∀ s ∈ stmtsOf n, Neat ctx s
  | .tok t, _, s, hs => by simp [stmtsOf] at hs
  | .node ty a cs, h, s, hs => by
    unfold stmtsOf at hs
    split at hs
    · rw [List.mem_singleton] at hs; subst hs; exact h
    · exact neat_stmtsL cs (neat_node.1 h).2 s hs
theorem neat_stmtsL : ∀ (ns : List Node), (∀ n ∈ ns, Neat ctx n) → ∀ s ∈ stmtsL ns, Neat ctx s
  | [], _, s, hs => by simp [stmtsL] at hs
  | n :: ns, h, s, hs => by
    rw [stmtsL, List.mem_append] at hs
    rcases hs with hs | hs
    · exact neat_stmts n (h n (by simp)) s hs
    · exact neat_stmtsL ns (fun m hm => h m (by simp [hm])) s hs
end

theorem parse_reads {Q : Token → Prop} {m : Nat} {ts : List Token} {tree : Node} (h : parseN ctx m ts = .ok tree) (ok : TsOk false Q ts) :
    ∀ s ∈ stmtsOf tree, Reads ctx Q s := by
  intro s hs
  obtain ⟨n, up, ts', rest, ok', h'⟩ := (exec_madeOk ctx Q _).body _ _ _ _ _ ok (by simp [stmtsL]) (Props.Parse.parse_all h) s hs
  exact statement_reads (res := (s, rest)) ok' (neat_stmts tree (parse_neat (ctx := ctx) h).1 s hs) h'

/-- What a statement says of its groups: if its words are a name, the opening parenthesis, the words `ws` without
parentheses and the closing one, and there are no comments among them, then the groups are those of the command. -/
def Grouped (ctx : Ctx) (Q : Token → Prop) (s : Node) : Prop :=
  ∀ name l ws r, semantics s.toks = name :: l :: (ws ++ [r]) →
    (∀ t ∈ ws, t.type ≠ .lparen ∧ t.type ≠ .rparen) → Commentless s →
    ∀ q c, (∀ ts r' more, semantics ts = ws ++ r' :: more → resolve (lookupParser ctx name.spelling) ts = some q) →
    commandOf q = some c →
    (∀ t ∈ ws, spelledIn t (c.keywords.map (·.1)) = true → (c.keyword t).isSome = true) →
    (∀ t, Q t → isWs t = true → spelledIn t (c.keywords.map (·.1) ++ c.flags) = false) →
    argMarks s = c.place ws

theorem parse_grouped {Q : Token → Prop} {m : Nat} {ts : List Token} {tree : Node} (h : parseN ctx m ts = .ok tree) (ok : TsOk false Q ts) :
    ∀ s ∈ stmtsOf tree, Grouped ctx Q s := by
  intro s hs name l ws r hsem hnp hcl q c hres hc hkw hbl
  obtain ⟨m, args, more, sub, rest, ha, e1, e2, e3, e4⟩ := parse_reads h ok s hs name l ws r hsem hnp hcl
  have hr : isSemantic r = true := by simp [isSemantic, isWs, isAnyComment, isOnOff, ha.close]
  have hplain : Plain c args := by
    refine ⟨fun u hu hwu hs => hkw u ?_ hs, fun u hu hwu => hbl u (e2 u (by simp [hu])) hwu⟩
    rw [← e1]
    exact List.mem_filter.2 ⟨hu, (ha.bald.ink u (by simp [hu])).resolve_left (by simp [hwu])⟩
  obtain ⟨m', e3⟩ := exec_resolve (hres _ r (semantics more) (by
    rw [semantics_append, e1, semantics_word hr])) e3
  obtain ⟨_, at_, cs, rfl, hm⟩ := command_words hc ha hplain e3
  rw [e4, ← e1, ← hm]
  rfl
end

end Verif.Parse
