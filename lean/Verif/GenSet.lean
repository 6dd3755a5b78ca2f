import Verif.GenTable
import Verif.Notes

/-!
# Plain `set` commands (lemmas for cmake-genparsers)
-/

namespace Verif.Gen
open Verif Py Lex Parse
open Verif.Lint (kidsOf semToks isNode hasType funName argTree roleOf argsOf nameOf varName stmt_nameOf stmt_funName)

variable {ctx : Ctx}

/-- What a plain `set` consists of: no comments, switches or parentheses, and not the words that change
what it does. -/
structure CalmTok (t : Token) : Prop where
  comment : isAnyComment t = false
  onoff : isOnOff t = false
  lparen : t.type ≠ .lparen
  word : upper t.spelling ≠ S "CACHE" ∧ upper t.spelling ≠ S "PARENT_SCOPE"

theorem CalmTok.kwarg {t : Token} (h : CalmTok t) : normKwarg t ≠ some (S "CACHE") ∧ normKwarg t ≠ some (S "PARENT_SCOPE") := by
  unfold normKwarg
  split
  · rename_i hd
    have hh : ∀ x : Str, x.head? ≠ some '-' → some (lower t.spelling) ≠ some x := by
      intro x hx e
      simp only [Option.some.injEq] at e
      apply hx
      rw [← e]
      cases hs : t.spelling with
      | nil => rw [hs] at hd; simp [startsWith, stripPrefix?] at hd
      | cons c cs =>
        rw [hs] at hd
        have : c = '-' := by
          simp [startsWith, stripPrefix?] at hd
          by_cases e : '-' = c
          · exact e.symm
          · simp [e] at hd
        subst this
        rfl
    exact ⟨hh _ (by decide), hh _ (by decide)⟩
  · split
    · simp
    · simp only [ne_eq, Option.some.injEq]
      exact h.word

/-- The commands that stop a list of values. -/
def stops : List Breaker := [.paren] ++ [kwBreaker [S "CACHE", S "PARENT_SCOPE"]]

theorem posLoop_keeps {spec : PSpec} {brk : List Breaker} {sortable : Bool} : ∀ (n : Nat) (acc : List Node) (k : Nat) (up : Bool)
    (ts : List Token) (r : Node × List Token), exec ctx n (.posLoop spec brk sortable acc k) up ts = .ok r →
    ∃ cs, r.1 = .node .pargGroup (posAttr spec sortable) (acc ++ cs)
  | 0, _, _, _, _, _, h => by simp [exec] at h
  | n + 1, acc, k, up, ts, r, h => by
    change posIter ctx (exec ctx n) spec brk sortable acc k up ts = _ at h
    have next : ∀ (m : Node) (k' : Nat) (up' : Bool) (rest : List Token),
        exec ctx n (.posLoop spec brk sortable (acc ++ [m]) k') up' rest = .ok r →
        ∃ cs, r.1 = .node .pargGroup (posAttr spec sortable) (acc ++ cs) := by
      intro m k' up' rest h
      obtain ⟨cs, e⟩ := posLoop_keeps n _ _ _ _ _ h
      exact ⟨m :: cs, by rw [e]; simp⟩
    cases ts with
    | nil =>
      simp only [posIter, Except.ok.injEq] at h
      subst h
      exact ⟨[], by simp⟩
    | cons t ts =>
      simp only [posIter] at h
      obtain ⟨full, _, h⟩ := Parse.bind_ok.1 h
      split at h
      · simp only [pure, Except.pure, Except.ok.injEq] at h
        subst h
        exact ⟨[], by simp⟩
      · split at h
        · simp only [pure, Except.pure, Except.ok.injEq] at h
          subst h
          exact ⟨[], by simp⟩
        · split at h
          · obtain ⟨⟨sub, rest⟩, _, h⟩ := Parse.bind_ok.1 h
            exact next _ _ _ _ h
          · split at h
            · exact next _ _ _ _ h
            · split at h
              · split at h
                · simp only [pure, Except.pure, Except.ok.injEq] at h
                  subst h
                  exact ⟨[], by simp⟩
                · exact next _ _ _ _ h
              · split at h
                · exact next _ _ _ _ h
                · exact next _ _ _ _ h

theorem comment_head (t : Token) (ts : List Token) (h : isAnyComment t = true) : t ∈ (consumeComment t ts).1.toks := by
  have h1 := consumeComment_splits t ts
  have h2 := (comment_short t ts h).2
  cases hc : (consumeComment t ts).1.toks with
  | nil =>
    rw [hc, List.nil_append] at h1
    rw [h1] at h2
    simp at h2
  | cons a l =>
    rw [hc] at h1
    simp only [List.cons_append, List.cons.injEq] at h1
    simp [h1.1]

theorem mem_toks_kid {t : Token} {c : Node} : ∀ {cs : List Node}, c ∈ cs → t ∈ c.toks → t ∈ toksL cs
  | [], h, _ => by simp at h
  | d :: cs, h, ht => by
    rw [toksL, List.mem_append]
    rcases List.mem_cons.1 h with rfl | h
    · exact Or.inl ht
    · exact Or.inr (mem_toks_kid h ht)

theorem paren_head {n : Nat} {up : Bool} {t : Token} {ts : List Token} {r : Node × List Token}
    (h : exec ctx n .paren up (t :: ts) = .ok r) : t ∈ r.1.toks := by
  cases n with
  | zero => simp [exec] at h
  | succ n =>
    change parenIter ctx (exec ctx n) (t :: ts) = _ at h
    simp only [parenIter] at h
    split at h
    · simp at h
    · obtain ⟨⟨sub, rest⟩, _, h⟩ := Parse.bind_ok.1 h
      cases rest with
      | nil => simp at h
      | cons q rest =>
        simp only at h
        split at h
        · simp at h
        · simp only [pure, Except.pure, Except.ok.injEq] at h
          subst h
          simp [mk, Node.toks, toksL]

/-- The first token belongs to the group, if anything is read. -/
theorem pos_first {spec : PSpec} {brk : List Breaker} {n : Nat} {up : Bool} {t : Token} {ts : List Token} {r : Node × List Token}
    (hw : isWs t = false) (h : exec ctx n (.pos spec brk) up (t :: ts) = .ok r) (hr : r.2.length < (t :: ts).length) :
    t ∈ r.1.toks := by
  cases n with
  | zero => simp [exec] at h
  | succ n =>
    change posStart (exec ctx n) spec brk up (t :: ts) = _ at h
    simp only [posStart, List.dropWhile_cons, List.takeWhile_cons, hw, Bool.false_eq_true, if_false, leaves, List.map_nil] at h
    cases n with
    | zero => simp [exec] at h
    | succ n =>
      change posIter ctx (exec ctx n) spec brk _ [] 0 up (t :: ts) = _ at h
      have next : ∀ (m : Node) (k' : Nat) (up' : Bool) (rest : List Token), t ∈ m.toks →
          exec ctx n (.posLoop spec brk (annotated spec (t :: ts)) ([] ++ [m]) k') up' rest = .ok r → t ∈ r.1.toks := by
        intro m k' up' rest hm h
        obtain ⟨cs, e⟩ := posLoop_keeps n _ _ _ _ _ h
        rw [e, Node.toks]
        exact mem_toks_kid (c := m) (by simp) hm
      simp only [posIter] at h
      obtain ⟨full, _, h⟩ := Parse.bind_ok.1 h
      split at h
      · simp only [pure, Except.pure, Except.ok.injEq] at h
        subst h
        simp at hr
      · split at h
        · simp only [pure, Except.pure, Except.ok.injEq] at h
          subst h
          simp at hr
        · split at h
          · obtain ⟨⟨sub, rest⟩, h1, h⟩ := Parse.bind_ok.1 h
            exact next _ _ _ _ (paren_head h1) h
          · split at h
            · exact next _ _ _ _ (by simp [Node.toks]) h
            · split at h
              · rename_i hc
                split at h
                · simp only [pure, Except.pure, Except.ok.injEq] at h
                  subst h
                  simp at hr
                · exact next _ _ _ _ (comment_head t ts hc) h
              · split at h
                · exact next _ _ _ _ (by simp [mk, Node.toks, toksL]) h
                · exact next _ _ _ _ (by simp [mk, Node.toks, toksL]) h

/-- Where a list of values stops. -/
def Stopped (ts : List Token) : Prop := ∀ t, ts.head? = some t → shouldBreak t stops = true ∨ isAnyComment t = true

theorem values_stop {sortable : Bool} : ∀ (n : Nat) (acc : List Node) (k : Nat) (up : Bool)
    (ts : List Token) (r : Node × List Token), exec ctx n (.posLoop { nargs := .str (S "+") } stops sortable acc k) up ts = .ok r →
    Stopped r.2
  | 0, _, _, _, _, _, h => by simp [exec] at h
  | n + 1, acc, k, up, ts, r, h => by
    change posIter ctx (exec ctx n) _ stops sortable acc k up ts = _ at h
    cases ts with
    | nil =>
      simp only [posIter, Except.ok.injEq] at h
      subst h
      simp [Stopped]
    | cons t ts =>
      have hp : pargsFull (.str (S "+")) k = .ok false := rfl
      simp only [posIter, hp, Bind.bind, Except.bind, Bool.false_eq_true, if_false] at h
      split at h
      · rename_i hb
        simp only [pure, Except.pure, Except.ok.injEq] at h
        subst h
        intro u hu
        simp only [List.head?_cons, Option.some.injEq] at hu
        subst hu
        simp only [Bool.and_eq_true] at hb
        exact Or.inl hb.1
      · split at h
        · split at h
          · simp at h
          · exact values_stop n _ _ _ _ _ h
        · split at h
          · exact values_stop n _ _ _ _ _ h
          · split at h
            · rename_i hc
              split at h
              · simp only [pure, Except.pure, Except.ok.injEq] at h
                subst h
                intro u hu
                simp only [List.head?_cons, Option.some.injEq] at hu
                subst hu
                exact Or.inr hc
              · exact values_stop n _ _ _ _ _ h
            · split at h
              · exact values_stop n _ _ _ _ _ h
              · exact values_stop n _ _ _ _ _ h

theorem values_group {n : Nat} {up : Bool} {ts : List Token} {r : Node × List Token}
    (h : exec ctx n (.pos { nargs := .str (S "+") } stops) up ts = .ok r) : hasType .pargGroup r.1 = true ∧ Stopped r.2 := by
  cases n with
  | zero => simp [exec] at h
  | succ n =>
    change posStart (exec ctx n) _ stops up ts = _ at h
    refine ⟨?_, values_stop _ _ _ _ _ _ h⟩
    obtain ⟨cs, e⟩ := posLoop_keeps n _ _ _ _ _ h
    rw [e]
    rfl

/-- The group of the variable. -/
theorem name_group {flags : List Str} {brk : List Breaker} {n : Nat} {up : Bool} {t : Token} {ts : List Token} {r : Node × List Token}
    (hw : isWs t = false) (h : exec ctx n (.pos { nargs := .int 1, flags := flags } brk) up (t :: ts) = .ok r)
    (hr : r.2.length < (t :: ts).length) (hc : ∀ u ∈ r.1.toks, CalmTok u) : hasType .pargGroup r.1 = true ∧ semToks r.1 = [t] := by
  have ht := hc t (pos_first hw h hr)
  cases n with
  | zero => simp [exec] at h
  | succ n =>
    change posStart (exec ctx n) _ brk up (t :: ts) = _ at h
    simp only [posStart, List.dropWhile_cons, List.takeWhile_cons, hw, Bool.false_eq_true, if_false, leaves, List.map_nil] at h
    cases n with
    | zero => simp [exec] at h
    | succ n =>
      change posIter ctx (exec ctx n) _ brk _ [] 0 up (t :: ts) = _ at h
      have hp : pargsFull (.int 1) 0 = .ok false := rfl
      have hl : (t.type == TokType.lparen) = false := by simpa using ht.lparen
      simp only [posIter, hp, Bind.bind, Except.bind, Bool.false_eq_true, if_false, hl, hw, ht.comment, ht.onoff, List.nil_append] at h
      split at h
      · simp only [pure, Except.pure, Except.ok.injEq] at h
        subst h
        simp at hr
      · obtain ⟨cs, e⟩ := posLoop_keeps n _ _ _ _ _ h
        have hct : consumeTrailing ctx ts = ([], ts) := by
          rcases Parse.trailing_or ctx ts with e1 | ⟨u, hu, hcu⟩
          · exact e1
          · exfalso
            have : u ∈ r.1.toks := by
              rw [e, Node.toks]
              refine mem_toks_kid (List.mem_append_left _ (by simp; rfl)) ?_
              simp only [mk, Node.toks, toksL, List.mem_append]
              exact Or.inr hu
            rw [(hc u this).comment] at hcu
            cases hcu
        rw [hct] at h
        cases n with
        | zero => simp [exec] at h
        | succ n =>
          change posIter ctx (exec ctx n) _ brk _ _ 1 up ts = _ at h
          have hs : isSemantic t = true := by simp [isSemantic, hw, ht.comment, ht.onoff]
          cases ts with
          | nil =>
            simp only [posIter, Except.ok.injEq] at h
            subst h
            exact ⟨rfl, by simp [semToks, semantics, mk, Node.toks, toksL, hs]⟩
          | cons u ts =>
            have hp : pargsFull (.int 1) (0 + 1) = .ok true := rfl
            simp only [posIter, hp, Bind.bind, Except.bind, if_true, pure, Except.pure, Except.ok.injEq] at h
            subst h
            exact ⟨rfl, by simp [semToks, semantics, mk, Node.toks, toksL, hs]⟩

/-! ## The loop of a `set` -/

theorem setLoop_keeps {v : Option Str} {brk : List Breaker} : ∀ (n : Nat) (acc : List Node) (up : Bool) (ts : List Token)
    (r : Node × List Token), exec ctx n (.setLoop v brk acc) up ts = .ok r → ∃ cs, r.1 = mkArg .set (acc ++ cs)
  | 0, _, _, _, _, h => by simp [exec] at h
  | n + 1, acc, up, ts, r, h => by
    change setIter ctx (exec ctx n) v brk acc up ts = _ at h
    have next : ∀ (m : Node) (up' : Bool) (rest : List Token), exec ctx n (.setLoop v brk (acc ++ [m])) up' rest = .ok r →
        ∃ cs, r.1 = mkArg .set (acc ++ cs) := by
      intro m up' rest h
      obtain ⟨cs, e⟩ := setLoop_keeps n _ _ _ _ h
      exact ⟨m :: cs, by rw [e]; simp⟩
    cases ts with
    | nil =>
      simp only [setIter, Except.ok.injEq] at h
      subst h
      exact ⟨[], by simp⟩
    | cons t ts =>
      simp only [setIter] at h
      split at h
      · simp only [Except.ok.injEq] at h
        subst h
        exact ⟨[], by simp⟩
      · split at h
        · exact next _ _ _ h
        · split at h
          · exact next _ _ _ h
          · split at h
            · obtain ⟨⟨sub, rest⟩, _, h⟩ := Parse.bind_ok.1 h
              dsimp only at h
              split at h
              · simp at h
              · split at h
                · exact next _ _ _ h
                · simp at h
            · split at h
              · obtain ⟨⟨sub, rest⟩, _, h⟩ := Parse.bind_ok.1 h
                exact next _ _ _ h
              · obtain ⟨⟨sub, rest⟩, _, h⟩ := Parse.bind_ok.1 h
                dsimp only at h
                split at h
                · split at h
                  · split at h
                    · exact next _ _ _ h
                    · simp at h
                  · simp at h
                · split at h
                  · exact next _ _ _ h
                  · simp at h

theorem toks_addTags (tags : List Str) (n : Node) : (addTags tags n).toks = n.toks := by
  cases n <;> simp [addTags, Node.toks]

theorem kw_head {w : Str} {p : ArgP} {brk : List Breaker} {n : Nat} {up : Bool} {t : Token} {ts : List Token} {r : Node × List Token}
    (h : exec ctx n (.kwGroup w p brk) up (t :: ts) = .ok r) : t ∈ r.1.toks := by
  cases n with
  | zero => simp [exec] at h
  | succ n =>
    change kwIter (exec ctx n) w p brk (t :: ts) = _ at h
    simp only [kwIter] at h
    split at h
    · simp at h
    · obtain ⟨⟨sub, rest⟩, _, h⟩ := Parse.bind_ok.1 h
      simp only [pure, Except.pure, Except.ok.injEq] at h
      subst h
      simp [mk, Node.toks, toksL]

/-- One round of the loop. -/
theorem set_round {v : Option Str} {n : Nat} {acc : List Node} {up : Bool} {t : Token} {ts : List Token} {r : Node × List Token}
    (h : exec ctx (n + 1) (.setLoop v [.paren] acc) up (t :: ts) = .ok r) (hc : ∀ u ∈ r.1.toks, CalmTok u) :
    (t.type = .rparen ∧ r.1 = mkArg .set acc) ∨
    CalmTok t ∧ ((isWs t = true ∧ exec ctx n (.setLoop v [.paren] (acc ++ [.tok t])) up ts = .ok r) ∨
      ∃ g rest, hasType .pargGroup g = true ∧ Stopped rest ∧ exec ctx n (.setLoop v [.paren] (acc ++ [g])) up rest = .ok r) := by
  change setIter ctx (exec ctx n) v [.paren] acc up (t :: ts) = _ at h
  have inside : ∀ (m : Node) (up' : Bool) (rest : List Token), t ∈ m.toks →
      exec ctx n (.setLoop v [.paren] (acc ++ [m])) up' rest = .ok r → CalmTok t := by
    intro m up' rest hm h
    obtain ⟨cs, e⟩ := setLoop_keeps n _ _ _ _ h
    apply hc
    rw [e, mkArg, Node.toks]
    exact mem_toks_kid (c := m) (by simp) hm
  simp only [setIter] at h
  split at h
  · rename_i hb
    simp only [Except.ok.injEq] at h
    subst h
    exact Or.inl ⟨by simpa [shouldBreak, Breaker.fires] using hb, rfl⟩
  · right
    split at h
    · rename_i hw
      exact ⟨inside _ _ _ (by simp [Node.toks]) h, Or.inl ⟨hw, h⟩⟩
    · rename_i hw
      split at h
      · rename_i hcm
        have := inside _ _ _ (by simp [mkBare, Node.toks, toksL]) h
        simp [this.comment] at hcm
      · split at h
        · rename_i hk
          obtain ⟨⟨sub, rest⟩, h1, h⟩ := Parse.bind_ok.1 h
          dsimp only at h
          split at h
          · simp at h
          · split at h
            · exact absurd hk (inside _ _ _ (kw_head h1) h).kwarg.1
            · simp at h
        · split at h
          · rename_i hk
            obtain ⟨⟨sub, rest⟩, h1, h⟩ := Parse.bind_ok.1 h
            obtain ⟨h2, h3⟩ := must_ok h1
            exact absurd hk (inside _ _ _ (pos_first (by simpa using hw) h2 h3) h).kwarg.2
          · obtain ⟨⟨sub, rest⟩, h1, h⟩ := Parse.bind_ok.1 h
            obtain ⟨hg, hst⟩ := values_group h1
            dsimp only at h
            split at h
            · split at h
              · split at h
                · rename_i hl
                  exact ⟨inside _ _ _ (pos_first (by simpa using hw) h1 hl) h, Or.inr ⟨_, _, hg, hst, h⟩⟩
                · simp at h
              · simp at h
            · split at h
              · rename_i hl
                refine ⟨inside _ _ _ (by rw [toks_addTags]; exact pos_first (by simpa using hw) h1 hl) h, Or.inr ⟨_, _, ?_, hst, h⟩⟩
                revert hg
                cases sub <;> simp [addTags, hasType]
              · simp at h

theorem set_done {v : Option Str} {n : Nat} {acc : List Node} {up : Bool} {ts : List Token} {r : Node × List Token}
    (hs : Stopped ts) (h : exec ctx n (.setLoop v [.paren] acc) up ts = .ok r) (hc : ∀ u ∈ r.1.toks, CalmTok u) :
    r.1 = mkArg .set acc := by
  cases n with
  | zero => simp [exec] at h
  | succ n =>
    cases ts with
    | nil =>
      change setIter ctx (exec ctx n) v [.paren] acc up [] = _ at h
      simp only [setIter, Except.ok.injEq] at h
      subst h
      rfl
    | cons t ts =>
      rcases set_round h hc with ⟨_, e⟩ | ⟨hcalm, hrest⟩
      · exact e
      · exfalso
        rcases hs t rfl with hb | hb
        · simp only [shouldBreak, stops, List.cons_append, List.nil_append, List.any_cons, List.any_nil, Bool.or_false, Bool.or_eq_true,
            Breaker.fires, beq_iff_eq, kwBreaker, List.map_cons, List.map_nil, List.contains_eq_mem, List.mem_cons,
            List.not_mem_nil, or_false, decide_eq_true_eq] at hb
          have hu1 : upper (S "CACHE") = S "CACHE" := by decide
          have hu2 : upper (S "PARENT_SCOPE") = S "PARENT_SCOPE" := by decide
          rw [hu1, hu2] at hb
          rcases hb with hb | hb | hb
          · change setIter ctx (exec ctx n) v [.paren] acc up (t :: ts) = _ at h
            have : shouldBreak t [.paren] = true := by simp [shouldBreak, Breaker.fires, hb]
            simp only [setIter, this, if_true, Except.ok.injEq] at h
            rcases hrest with ⟨hw, _⟩ | ⟨g, rest, hg, _, h'⟩
            · simp [isWs, hb] at hw
            · obtain ⟨cs, e⟩ := setLoop_keeps n _ _ _ _ h'
              rw [← h] at e
              simp [mkArg] at e
          · exact hcalm.word.1 hb
          · exact hcalm.word.2 hb
        · rw [hcalm.comment] at hb
          cases hb

theorem set_loop {v : Option Str} : ∀ (n : Nat) (acc : List Node) (up : Bool) (ts : List Token) (r : Node × List Token),
    exec ctx n (.setLoop v [.paren] acc) up ts = .ok r → (∀ u ∈ r.1.toks, CalmTok u) →
    ∃ idle : List Node, (∀ c ∈ idle, Idle c) ∧
      (r.1 = mkArg .set (acc ++ idle) ∨ ∃ g, hasType .pargGroup g = true ∧ r.1 = mkArg .set (acc ++ idle ++ [g]))
  | 0, _, _, _, _, h, _ => by simp [exec] at h
  | n + 1, acc, up, ts, r, h, hc => by
    cases ts with
    | nil =>
      change setIter ctx (exec ctx n) v [.paren] acc up [] = _ at h
      simp only [setIter, Except.ok.injEq] at h
      subst h
      exact ⟨[], by simp, Or.inl (by simp)⟩
    | cons t ts =>
      rcases set_round h hc with ⟨_, e⟩ | ⟨hcalm, ⟨hw, h⟩ | ⟨g, rest, hg, hst, h⟩⟩
      · exact ⟨[], by simp, Or.inl (by simp [e])⟩
      · obtain ⟨idle, hi, e⟩ := set_loop n _ _ _ _ h hc
        refine ⟨.tok t :: idle, ?_, ?_⟩
        · intro c hcm
          rcases List.mem_cons.1 hcm with rfl | hcm
          · exact idle_ws hw
          · exact hi c hcm
        · simpa using e
      · exact ⟨[], by simp, Or.inr ⟨g, hg, by simpa using set_done hst h hc⟩⟩

/-- **The tree of a plain `set`**: the variable, then the values. -/
theorem set_arg {n : Nat} {up : Bool} {ts : List Token} {r : Node × List Token}
    (h : exec ctx n (.arg .setFn [.paren]) up ts = .ok r) (hc : ∀ u ∈ r.1.toks, CalmTok u) :
    ∃ (pre : List Node) (g1 : Node) (idle : List Node) (t : Token), (∀ c ∈ pre, Idle c) ∧ (∀ c ∈ idle, Idle c) ∧ hasType .pargGroup g1 = true ∧ semToks g1 = [t] ∧
      (r.1 = mkArg .set (pre ++ [g1] ++ idle) ∨ ∃ g, hasType .pargGroup g = true ∧ r.1 = mkArg .set (pre ++ [g1] ++ idle ++ [g])) := by
  cases n with
  | zero => simp [exec] at h
  | succ n =>
    change setStart (exec ctx n) [.paren] up ts = _ at h
    simp only [setStart] at h
    obtain ⟨⟨sub, rest⟩, h1, h⟩ := Parse.bind_ok.1 h
    obtain ⟨h2, h3⟩ := must_ok h1
    dsimp only at h h3
    obtain ⟨idle, hi, e⟩ := set_loop n _ _ _ _ h hc
    cases hd : ts.dropWhile isWs with
    | nil => rw [hd] at h3; simp at h3
    | cons t us =>
      rw [hd] at h2 h3
      have hw : isWs t = false := by
        have := List.head?_dropWhile_not isWs ts
        rw [hd] at this
        simpa using this
      have hsub : ∀ u ∈ sub.toks, CalmTok u := by
        intro u hu
        apply hc
        rcases e with e | ⟨g, _, e⟩ <;> rw [e, mkArg, Node.toks] <;> exact mem_toks_kid (c := sub) (by simp) hu
      obtain ⟨hg, hs⟩ := name_group hw h2 h3 hsub
      exact ⟨_, sub, idle, t, idle_leaves ts, hi, hg, hs, e⟩

theorem filter_idle {l : List Node} (h : ∀ c ∈ l, Idle c) : l.filter (hasType .pargGroup) = [] := by
  rw [List.filter_eq_nil_iff]
  intro c hc
  simp [(h c hc).1]

/-- The command `set` is read as a `set`. -/
def PlainSet (ctx : Ctx) : Prop := ∀ name, lower name = S "set" → lookupParser ctx name = .setFn

theorem set_node {n : Nat} {up : Bool} {ts : List Token} {r : Node × List Token}
    (h : exec ctx n (.arg .setFn [.paren]) up ts = .ok r) : isNode r.1 = true := by
  cases n with
  | zero => simp [exec] at h
  | succ n =>
    change setStart (exec ctx n) [.paren] up ts = _ at h
    simp only [setStart] at h
    obtain ⟨⟨sub, rest⟩, h1, h⟩ := Parse.bind_ok.1 h
    obtain ⟨cs, e⟩ := setLoop_keeps n _ _ _ _ h
    rw [e]
    rfl

/-- **What is read from a plain `set`**: the variable and its values. -/
theorem found_plain {ts : List Token} {tree s : Node} {x : Str} (hd : PlainSet ctx) (h : parse ctx ts = .ok tree) (hs : s ∈ stmtsOf tree)
    (hst : Stmt x s) (hf : funName s = S "set") (hc : ∀ u ∈ (argTree s).toks, CalmTok u) {v : Token} {vals : List Token}
    (ha : argsOf s = v :: vals) (hv : vals ≠ []) : found s = .set v.spelling (some (vals.map (·.spelling))) := by
  have hty : hasType .statement s = true := Lint.stmt_type hst
  obtain ⟨k, up, us, r, hr, rfl⟩ := built_stmts (parse_built h) s hs
  obtain ⟨t, sub, rest, k', ts1, e1, e2, e3⟩ := stmt_from hr
  have hf' := hf
  rw [e1] at hf'
  rw [hd _ hf'] at e2
  have e5 := e3 (set_node e2)
  rw [e5] at hc
  obtain ⟨pre, g1, idle, t0, hp, hi, hg, hs1, e⟩ := set_arg e2 hc
  simp only at e
  have e6 := Lint.stmt_args h hs
  rw [e5, ha] at e6
  have tok1 : semantics g1.toks = [t0] := hs1
  rcases e with rfl | ⟨g, hgt, rfl⟩
  · simp only [semToks, mkArg, Node.toks, toksL_append, toksL, semantics_append', semToks_idle hp, semToks_idle hi, tok1,
      List.append_nil, List.nil_append, List.cons.injEq] at e6
    obtain ⟨rfl, rfl⟩ := e6
    exact absurd rfl hv
  · have tok2 : semantics g.toks = semToks g := rfl
    simp only [semToks, mkArg, Node.toks, toksL_append, toksL, semantics_append', semToks_idle hp, semToks_idle hi, tok1,
      List.append_nil, List.nil_append, List.cons_append, List.cons.injEq] at e6
    obtain ⟨rfl, e7⟩ := e6
    have h1 : varName (mkArg .set (pre ++ [g1] ++ idle ++ [g])) = some t0 := by
      simp only [varName, mkArg, kidsOf, List.append_assoc, List.cons_append, List.nil_append, find_group hp hg, hs1, List.head?_cons]
    have h2 : valueGroup (mkArg .set (pre ++ [g1] ++ idle ++ [g])) = some g := by
      have h3 : ((kidsOf (mkArg .set (pre ++ [g1] ++ idle ++ [g]))).filter (hasType .pargGroup)).drop 1 = [g] := by
        simp [mkArg, kidsOf, List.filter_append, filter_idle hp, filter_idle hi, hg, hgt]
      rw [valueGroup, h3]
      cases hgs : semToks g with
      | nil => rw [← e7, tok2, hgs] at hv; exact absurd rfl hv
      | cons u us =>
        have hu : u ∈ g.toks := (List.mem_filter.1 (show u ∈ g.toks.filter isSemantic by
          have : u ∈ semToks g := by simp [hgs]
          exact this)).1
        have hcu := hc u (by
          rw [mkArg, Node.toks]
          exact mem_toks_kid (c := g) (by simp) hu)
        simp [List.filter_cons, hgs, hcu.kwarg.2]
    simp only [found, hty, Bool.true_eq_false, if_false, hf, if_true, e5, h1, h2, Option.map_some, ← e7, tok2]
    rfl

end Verif.Gen
