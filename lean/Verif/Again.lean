import Verif.NotesWalk
import Verif.RelexPieces

/-!
# Formatting twice (lemmas for C60 and C61)
-/

namespace Verif.Layout
open Verif Py Lex Parse

/-! ## Letter case -/

theorem case_ends : ∀ n < 128, (isBlank (lowerChar (Char.ofNat n)) = isBlank (Char.ofNat n)) ∧
    ((lowerChar (Char.ofNat n) = '\n') ↔ (Char.ofNat n = '\n')) ∧
    ((lowerChar (Char.ofNat n) = '\r') ↔ (Char.ofNat n = '\r')) := by decide +kernel

theorem lower_ends (c : Char) : isBlank (lowerChar c) = isBlank c ∧ (lowerChar c = '\n' ↔ c = '\n') ∧
    (lowerChar c = '\r' ↔ c = '\r') := by
  by_cases h : c.toNat < 128
  · have := case_ends c.toNat h
    rwa [Char.ofNat_toNat] at this
  · have h1 : lowerChar c = c := by
      unfold lowerChar
      rw [if_neg]
      simp only [isUpper, Bool.and_eq_true, decide_eq_true_eq]
      omega
    rw [h1]
    simp

theorem dropWhile_lower (s : Str) : (lower s).dropWhile isBlank = lower (s.dropWhile isBlank) := by
  induction s with
  | nil => rfl
  | cons c s ih =>
    simp only [lower, List.map_cons, List.dropWhile_cons, (lower_ends c).1] at *
    split
    · exact ih
    · rfl

theorem newline_lower (s : Str) : (ruleNewline (lower s)).map Prod.snd = (ruleNewline s).map (fun x => lower x.2) := by
  cases s with
  | nil => rfl
  | cons c s =>
    by_cases h1 : c = '\n'
    · subst h1; rfl
    · by_cases h2 : c = '\r'
      · subst h2
        cases s with
        | nil => rfl
        | cons d s =>
          by_cases h3 : d = '\n'
          · subst h3; rfl
          · have h4 : lowerChar d ≠ '\n' := fun e => h3 ((lower_ends d).2.1.1 e)
            have e1 : ruleNewline ('\r' :: d :: s) = some (['\r'], d :: s) := by
              unfold ruleNewline
              split <;> simp_all
            have e2 : ruleNewline ('\r' :: lowerChar d :: lower s) = some (['\r'], lowerChar d :: lower s) := by
              unfold ruleNewline
              split <;> simp_all
            have e3 : lower ('\r' :: d :: s) = '\r' :: lowerChar d :: lower s := rfl
            rw [e3, e1, e2]; rfl
      · have h3 : lowerChar c ≠ '\n' := fun e => h1 ((lower_ends c).2.1.1 e)
        have h4 : lowerChar c ≠ '\r' := fun e => h2 ((lower_ends c).2.2.1 e)
        have e1 : ruleNewline (c :: s) = none := by
          unfold ruleNewline
          split <;> simp_all
        have e2 : ruleNewline (lowerChar c :: lower s) = none := by
          unfold ruleNewline
          split <;> simp_all
        have e3 : lower (c :: s) = lowerChar c :: lower s := rfl
        rw [e3, e1, e2]; rfl

theorem matchEnding_lower (s : Str) : Text.matchEnding (lower s) = (Text.matchEnding s).map lower := by
  unfold Text.matchEnding
  rw [dropWhile_lower]
  have := newline_lower (s.dropWhile isBlank)
  cases h1 : ruleNewline (s.dropWhile isBlank) with
  | none =>
    rw [h1] at this
    simp only [Option.map_none, Option.map_eq_none_iff] at this
    rw [this]; rfl
  | some x =>
    rw [h1] at this
    simp only [Option.map_some, Option.map_eq_some_iff] at this
    obtain ⟨y, h2, h3⟩ := this
    rw [h2]
    simp [h3]

theorem subEndings_lower (n : Nat) : ∀ s : Str, Text.subEndings n (lower s) = lower (Text.subEndings n s) := by
  induction n with
  | zero => intro s; rfl
  | succ n ih =>
    intro s
    simp only [Text.subEndings, matchEnding_lower]
    cases Text.matchEnding s with
    | some r =>
      simp only [Option.map_some, ih]
      rfl
    | none =>
      cases s with
      | nil => rfl
      | cons c s =>
        simp only [Option.map_none, lower, List.map_cons] at ih ⊢
        rw [ih]

theorem normalize_lower (s : Str) : Text.normalizeLineEndings (lower s) = lower (Text.normalizeLineEndings s) := by
  unfold Text.normalizeLineEndings
  rw [show (lower s).length = s.length by simp [lower], subEndings_lower]

theorem splitOn_lower (s : Str) : (splitOn '\n' (lower s)).map List.length = (splitOn '\n' s).map List.length := by
  induction s with
  | nil => rfl
  | cons c s ih =>
    have e3 : lower (c :: s) = lowerChar c :: lower s := rfl
    rw [e3]
    simp only [splitOn]
    by_cases h : c = '\n'
    · subst h
      have : lowerChar '\n' = '\n' := by decide
      rw [if_pos this, if_pos rfl]
      simpa using ih
    · rw [if_neg h, if_neg (fun e => h ((lower_ends c).2.1.1 e))]
      cases h1 : splitOn '\n' s with
      | nil => exact absurd h1 (splitOn_ne _ _)
      | cons l ls =>
        cases h2 : splitOn '\n' (lower s) with
        | nil => exact absurd h2 (splitOn_ne _ _)
        | cons l' ls' =>
          rw [h1, h2] at ih
          simpa using ih

theorem walk_lengths : ∀ (ls ls' : List Str) (c : Cur) (n : Nat), ls.map List.length = ls'.map List.length →
    walk c n ls = walk c n ls'
  | [], [], _, _, _ => rfl
  | [], _ :: _, _, _, h => by simp at h
  | _ :: _, [], _, _, h => by simp at h
  | l :: ls, l' :: ls', c, n, h => by
    simp only [List.map_cons, List.cons.injEq] at h
    simp only [walk, h.1]
    exact walk_lengths ls ls' _ _ h.2

/-- A text takes the same room in every letter case. -/
theorem flow_lower (c : Cur) (s : Str) : flow c (lower s) = flow c s := by
  unfold flow
  have := splitOn_lower s
  cases h1 : splitOn '\n' s with
  | nil => exact absurd h1 (splitOn_ne _ _)
  | cons l ls =>
    cases h2 : splitOn '\n' (lower s) with
    | nil => exact absurd h2 (splitOn_ne _ _)
    | cons l' ls' =>
      rw [h1, h2] at this
      simp only [List.map_cons, List.cons.injEq] at this
      simp only [this.1]
      exact walk_lengths _ _ _ _ this.2

theorem flow_same {a b : Str} (h : lower a = lower b) (c : Cur) :
    flow c (Text.normalizeLineEndings a) = flow c (Text.normalizeLineEndings b) := by
  rw [← flow_lower, ← normalize_lower, h, normalize_lower, flow_lower]

/-- A word of the output and the word it was written for. -/
theorem leaves_case {cfg : Cfg} {P P' : Token → Prop} (hP : ∀ t, P t → isWs t = false → isAnyComment t = false → Text.normalizeLineEndings t.spelling = t.spelling)
    (hcc : ∀ a b, lower a = lower b → cfg.commandCase a = cfg.commandCase b)
    (hsp : ∀ a b, lower a = lower b → cfg.spelling a = cfg.spelling b) : Leaves cfg P P' := by
  intro ty par t u ht hcom _ hw hc hs
  have hl := canon_lower hc
  have hn := hP t ht (by rw [canon_ws hc]; exact hw) hcom
  have plain : .ok (Text.normalizeLineEndings t.spelling) = (.ok u.spelling : Except Err Str) →
      Text.normalizeLineEndings u.spelling = Text.normalizeLineEndings t.spelling := by
    intro h
    simp only [Except.ok.injEq] at h
    rw [← h, hn, hn]
  refine ⟨hl.symm, flow_same hl.symm, ?_⟩
  cases ty <;> simp only [scalarText] at hs ⊢
  case funname =>
    rw [hcc _ _ hl.symm, hl, canon_upper hc, hsp _ _ hl.symm]
    split at hs
    · rename_i h1; simp only [if_pos h1]
    · split at hs
      · rename_i h1 h2; simp only [if_neg h1, if_pos h2]
      · split at hs
        · rename_i h1 h2 h3; simp only [if_neg h1, if_neg h2, if_pos h3]
        · split at hs
          · rename_i h1 h2 h3 h4
            simp only [if_neg h1, if_neg h2, if_neg h3, if_pos h4]
            rw [plain hs]
          · simp at hs
  case keyword =>
    rw [hl, canon_upper hc]
    split at hs
    · rename_i h1; simp only [if_pos h1]
    · split at hs
      · rename_i h1 h2; simp only [if_neg h1, if_pos h2]
      · rename_i h1 h2; simp only [if_neg h1, if_neg h2]; rw [plain hs]
  case flag =>
    rw [hl, canon_upper hc]
    split at hs
    · rename_i h1; simp only [if_pos h1]
    · split at hs
      · rename_i h1 h2; simp only [if_neg h1, if_pos h2]
      · rename_i h1 h2; simp only [if_neg h1, if_neg h2]; rw [plain hs]
  all_goals rw [plain hs]

theorem flags_flat : ∀ s ∈ targetFlags, flatSpelling s = true := by decide +kernel

theorem flat_upper {s : Str} (h : flatSpelling (upper s) = true) : flatSpelling s = true := by
  simp only [flatSpelling, Bool.and_eq_true, Bool.not_eq_true', List.contains_eq_mem, decide_eq_false_iff_not] at h ⊢
  constructor
  · intro hm
    exact h.1 (List.mem_map.2 ⟨'\n', hm, by decide⟩)
  · intro hm
    exact h.2 (List.mem_map.2 ⟨'\r', hm, by decide⟩)

mutual
/-- Without comments a tree is settled, if its keywords are on one line. -/
theorem settled_quiet {ctx : Ctx} : ∀ n : Node, Quiet ctx n → (∀ t ∈ n.toks, TokOk t) →
    (∀ t ∈ n.toks, t.type = .unquoted → flatSpelling t.spelling = true) → settled n = true
  | .tok _, _, _, _ => rfl
  | .node ty a cs, h, hok, hflat => by
    have ih := settled_quietL cs (quiet_child h) (fun t ht => hok t (by simpa using ht)) (fun t ht => hflat t (by simpa using ht))
    have hn := (neat_node.1 h.neat).1
    have hnc : ∀ c ∈ cs, settledComment c = true := by
      intro c hc
      cases c with
      | tok t => rfl
      | node ty2 a2 ds =>
        cases ty2 <;> try rfl
        exact (quiet_nocomment (quiet_child h _ hc)).elim
    have kw : ∀ t : Token, t ∈ toksL cs → normKwarg t ≠ none → flatSpelling t.spelling = true := by
      intro t ht hk
      simp only [normKwarg] at hk
      split at hk
      · rename_i h1; exact hflat t (by simpa using ht) h1.1
      · split at hk
        · simp at hk
        · rename_i h2
          exact (hok t (by simpa using ht)).flat (by simpa using h2)
    simp only [settled, ih, Bool.and_true]
    cases ty <;> simp only [settledHere]
    case keyword =>
      obtain ⟨t, rfl, hk⟩ := hn
      exact kw t (by simp) hk
    case flag =>
      obtain ⟨t, trail, rfl, hk, _⟩ := hn
      rcases hk.2 with hk | hk
      · exact kw t (by simp) hk
      · exact flat_upper (flags_flat _ hk)
    case comment => exact (quiet_nocomment h).elim
    case argGroup => exact List.all_eq_true.2 hnc
    case pargGroup => exact List.all_eq_true.2 hnc
    case statement => exact List.all_eq_true.2 fun c hc => hnc c (List.dropLast_subset _ hc)
theorem settled_quietL {ctx : Ctx} : ∀ cs : List Node, (∀ c ∈ cs, Quiet ctx c) → (∀ t ∈ toksL cs, TokOk t) →
    (∀ t ∈ toksL cs, t.type = .unquoted → flatSpelling t.spelling = true) → settledL cs = true
  | [], _, _, _ => rfl
  | c :: cs, h, hok, hflat => by
    simp only [settledL, Bool.and_eq_true]
    exact ⟨settled_quiet c (h c (by simp)) (fun t ht => hok t (by simp [ht])) (fun t ht => hflat t (by simp [ht])),
      settled_quietL cs (fun x hx => h x (by simp [hx])) (fun t ht => hok t (by simp [ht])) (fun t ht => hflat t (by simp [ht]))⟩
end

theorem settledL_leaves : ∀ ts : List Token, settledL (leaves ts) = true
  | [] => rfl
  | t :: ts => by
    have := settledL_leaves ts
    simp only [leaves, List.map_cons, settledL, settled, Bool.true_and] at this ⊢
    exact this

mutual
/-- With comments between the commands, too. -/
theorem settled_segC {ctx : Ctx} : ∀ (n : Node) (X rest : List Token), SegC n X rest → Neat ctx n → (∀ t ∈ n.toks, TokOk t) →
    (∀ t ∈ n.toks, t.type = .unquoted → flatSpelling t.spelling = true) → settled n = true
  | .tok _, _, _, _, _, _, _ => rfl
  | .node ty a cs, X, rest, h, hn, hok, hflat => by
    have hn' := (neat_node.1 hn).2
    cases ty <;> simp only [SegC] at h
    case body =>
      have := settled_segCL cs X rest h hn' (fun t ht => hok t (by simpa using ht)) (fun t ht => hflat t (by simpa using ht))
      simp [settled, settledHere, this]
    case flowControl =>
      have := settled_segCL cs X rest h hn' (fun t ht => hok t (by simpa using ht)) (fun t ht => hflat t (by simpa using ht))
      simp [settled, settledHere, this]
    case statement => exact settled_quiet _ ⟨hn, by simpa using h.2.2.2.2⟩ hok hflat
    case atwordStatement => exact settled_quiet _ ⟨hn, by simpa using h.2.2.2.2⟩ hok hflat
    case comment =>
      obtain ⟨rfl, rfl, t, c0, rfl, hct, hcut⟩ := h
      have hl : settledL (leaves (t :: c0)) = true := settledL_leaves _
      simp only [settled, settledHere, hl, Bool.and_true, Bool.or_eq_true]
      cases hb : bracketOf (leaves (t :: c0)) with
      | none => exact Or.inr (by simpa [startsWithLine, leaves, isComment] using cut_line hct hcut hb)
      | some x =>
        left
        cases c0 with
        | cons v c0 => simp [leaves, bracketOf] at hb
        | nil =>
          simp only [leaves, List.map_cons, List.map_nil, bracketOf] at hb
          split at hb
          · rename_i h; simp [leaves, bracketOnly, h]
          · simp at hb
    case whitespace =>
      obtain ⟨t, ts, rfl, -⟩ := (neat_node.1 hn).1
      simp [settled, settledHere, settledL_leaves]
theorem settled_segCL {ctx : Ctx} : ∀ (cs : List Node) (X rest : List Token), SegCL cs X rest → (∀ c ∈ cs, Neat ctx c) →
    (∀ t ∈ toksL cs, TokOk t) → (∀ t ∈ toksL cs, t.type = .unquoted → flatSpelling t.spelling = true) → settledL cs = true
  | [], _, _, _, _, _, _ => rfl
  | c :: cs, X, rest, h, hn, hok, hflat => by
    simp only [SegCL] at h
    obtain ⟨x, y, rfl, h1, h2⟩ := h
    simp only [settledL, Bool.and_eq_true]
    exact ⟨settled_segC c x _ h1 (hn c (by simp)) (fun t ht => hok t (by simp [ht])) (fun t ht => hflat t (by simp [ht])),
      settled_segCL cs y rest h2 (fun x hx => hn x (by simp [hx])) (fun t ht => hok t (by simp [ht])) (fun t ht => hflat t (by simp [ht]))⟩
end

/-! ## The second tree -/

mutual
theorem bare_mem : ∀ (n : Node) (t : Token), t ∈ (Parse.bare n).toks → ∃ t0 ∈ n.toks, t = canon t0
  | .tok t0, t, h => ⟨t0, by simp, by simpa using h⟩
  | .node ty a cs, t, h => by
    rw [Parse.bare_node, toks_node] at h
    simpa using bare_memL cs t h
theorem bare_memL : ∀ (ns : List Node) (t : Token), t ∈ toksL (Parse.bareL ns) → ∃ t0 ∈ toksL ns, t = canon t0
  | [], t, h => by simp [Parse.bareL] at h
  | n :: ns, t, h => by
    rw [Parse.bareL] at h
    split at h
    · obtain ⟨t0, h1, h2⟩ := bare_memL ns t h
      exact ⟨t0, by simp [h1], h2⟩
    · simp only [toksL_cons, List.mem_append] at h
      rcases h with h | h
      · obtain ⟨t0, h1, h2⟩ := bare_mem n t h
        exact ⟨t0, by simp [h1], h2⟩
      · obtain ⟨t0, h1, h2⟩ := bare_memL ns t h
        exact ⟨t0, by simp [h1], h2⟩
end

mutual
theorem mem_bare {ctx : Ctx} : ∀ (n : Node) (t : Token), Neat ctx n → t ∈ n.toks → isWs t = false → canon t ∈ (Parse.bare n).toks
  | .tok t0, t, _, h, _ => by
    simp only [toks_tok, List.mem_singleton] at h
    subst h
    simp
  | .node ty a cs, t, hn, h, hw => by
    rw [Parse.bare_node, toks_node]
    exact mem_bareL cs t (neat_node.1 hn).2 (by simpa using h) hw
theorem mem_bareL {ctx : Ctx} : ∀ (ns : List Node) (t : Token), (∀ n ∈ ns, Neat ctx n) → t ∈ toksL ns → isWs t = false →
    canon t ∈ toksL (Parse.bareL ns)
  | [], t, _, h, _ => by simp at h
  | n :: ns, t, hn, h, hw => by
    rw [Parse.bareL]
    simp only [toksL_cons, List.mem_append] at h
    rcases h with h | h
    · have : blankNode n = false := by
        cases n with
        | tok t0 =>
          simp only [toks_tok, List.mem_singleton] at h
          subst h
          exact hw
        | node ty a cs =>
          cases ty <;> try rfl
          obtain ⟨t1, ts, rfl, hws⟩ := (neat_node.1 (hn (.node .whitespace a cs) (by simp))).1
          rw [toks_node, toksL_leaves] at h
          rw [hws t h] at hw
          simp at hw
      rw [this]
      simp only [Bool.false_eq_true, if_false, toksL_cons, List.mem_append]
      exact Or.inl (mem_bare n t (hn n (by simp)) h hw)
    · have := mem_bareL ns t (fun x hx => hn x (by simp [hx])) h hw
      split
      · exact this
      · simp [this]
end

theorem bare_between {ctx : Ctx} {n n' : Node} (h : Parse.bare n = Parse.bare n') (hn : Neat ctx n')
    (hq : ∀ t ∈ n.toks, isAnyComment t = false) : ∀ t ∈ n'.toks, isAnyComment t = false := by
  intro t ht
  cases hc : isAnyComment t with
  | false => rfl
  | true =>
    have := mem_bare n' t hn ht (not_ws_sem hc).1
    rw [← h] at this
    obtain ⟨t0, h1, h2⟩ := bare_mem n _ this
    have h3 := hq t0 h1
    rw [isAnyComment, ← canon_type h2] at h3
    rw [isAnyComment] at hc
    rw [hc] at h3
    simp at h3

mutual
/-- A tree like one with comments between its commands is such a tree. -/
theorem kin_between {ctx : Ctx} {R : List Token → List Token → Prop} : ∀ (n n' : Node), Kin R n n' → Between n → Neat ctx n' → Between n'
  | .tok t, n', h, _, _ => by
    simp only [Kin] at h
    cases n' with
    | tok t => simp [Between]
    | node ty a cs => simp at h
  | .node ty a cs, n', h, hb, hn => by
    have plain : Parse.bare (.node ty a cs) = Parse.bare n' → (ty = .statement → ∀ t ∈ (Node.node ty a cs).toks, isAnyComment t = false) →
        (ty = .atwordStatement → ∀ t ∈ (Node.node ty a cs).toks, isAnyComment t = false) → ty ≠ .body → ty ≠ .flowControl → Between n' := by
      intro h h1 h2 h3 h4
      cases n' with
      | tok t => simp at h
      | node ty' a' cs' =>
        have e : ty = ty' := by
          simp only [Parse.bare_node, Node.node.injEq] at h
          exact h.1
        subst e
        cases ty <;> simp only [Between] <;> first
          | exact absurd rfl h3
          | exact absurd rfl h4
          | exact bare_between h hn (h1 rfl)
          | exact bare_between h hn (h2 rfl)
    cases ty <;> simp only [Kin] at h
    case body =>
      obtain ⟨cs', rfl, h⟩ := h
      simp only [Between] at hb ⊢
      exact kin_betweenL cs cs' h hb (neat_node.1 hn).2
    case flowControl =>
      obtain ⟨cs', rfl, h⟩ := h
      simp only [Between] at hb ⊢
      exact kin_betweenL cs cs' h hb (neat_node.1 hn).2
    case comment =>
      obtain ⟨c, d, -, rfl, -⟩ := h
      simp [mk, Between]
    case statement =>
      simp only [Between] at hb
      exact plain h (fun _ => hb) (by simp) (by simp) (by simp)
    case atwordStatement =>
      simp only [Between] at hb
      exact plain h (by simp) (fun _ => hb) (by simp) (by simp)
    all_goals exact plain h (by simp) (by simp) (by simp) (by simp)
theorem kin_betweenL {ctx : Ctx} {R : List Token → List Token → Prop} : ∀ (cs cs' : List Node), KinL R cs (inkNodes cs') → BetweenL cs →
    (∀ n ∈ cs', Neat ctx n) → BetweenL cs'
  | cs, [], _, _, _ => by simp [BetweenL]
  | cs, n' :: cs', h, hb, hn => by
    simp only [BetweenL]
    cases hbl : blankNode n' with
    | true =>
      have e : inkNodes (n' :: cs') = inkNodes cs' := by simp [inkNodes, hbl]
      rw [e] at h
      refine ⟨?_, kin_betweenL cs cs' h hb (fun x hx => hn x (by simp [hx]))⟩
      cases n' with
      | tok t => simp [Between]
      | node ty a ds =>
        simp only [blankNode, beq_iff_eq] at hbl
        subst hbl
        simp [Between]
    | false =>
      have e : inkNodes (n' :: cs') = n' :: inkNodes cs' := by simp [inkNodes, hbl]
      rw [e] at h
      exact kin_between_cons cs n' cs' h hb hn
theorem kin_between_cons {ctx : Ctx} {R : List Token → List Token → Prop} : ∀ (cs : List Node) (n' : Node) (cs' : List Node),
    KinL R cs (n' :: inkNodes cs') → BetweenL cs → (∀ n ∈ n' :: cs', Neat ctx n) → Between n' ∧ BetweenL cs'
  | [], n', cs', h, _, _ => by simp [KinL] at h
  | n :: cs, n', cs', h, hb, hn => by
    simp only [KinL] at h
    simp only [BetweenL] at hb
    split at h
    · exact kin_between_cons cs n' cs' h hb.2 hn
    · obtain ⟨m, ms, e, h1, h2⟩ := h
      simp only [List.cons.injEq] at e
      obtain ⟨rfl, rfl⟩ := e
      exact ⟨kin_between n n' h1 hb.1 (hn n' (by simp)), kin_betweenL cs cs' h2 hb.2 (fun x hx => hn x (by simp [hx]))⟩
end

/-! ## Different tokens -/

theorem locate_index : ∀ (out : List (TokType × Str)) (i : Nat) (l : Loc), ∀ t ∈ locate i l out, i ≤ t.index
  | [], _, _, t, h => by simp [locate] at h
  | (ty, s) :: out, i, l, t, h => by
    simp only [locate, List.mem_cons] at h
    rcases h with rfl | h
    · simp
    · have := locate_index out (i + 1) _ t h
      omega

theorem locate_nodup : ∀ (out : List (TokType × Str)) (i : Nat) (l : Loc), (locate i l out).Nodup
  | [], _, _ => by simp [locate]
  | (ty, s) :: out, i, l => by
    simp only [locate, List.nodup_cons]
    refine ⟨fun h => ?_, locate_nodup out (i + 1) _⟩
    have := locate_index out (i + 1) _ _ h
    simp at this
    omega

/-! ## Blank lines at the start -/

theorem prefix_count {a s : Str} (h : a <+: s) (hs : ∀ c ∈ a, isSpace c = true) (ch : Char) :
    a.count ch ≤ (s.takeWhile isSpace).count ch := by
  obtain ⟨b, rfl⟩ := h
  rw [List.takeWhile_append_of_pos hs, List.count_append]
  omega

theorem newlines_count (ws : List Token) : newlinesL (leaves ws) = ((ws.map Token.spelling).flatten).count '\n' := by
  induction ws with
  | nil => rfl
  | cons t ts ih =>
    simp only [leaves, List.map_cons, newlinesL, newlines, List.flatten_cons, List.count_append] at *
    rw [ih]

end Verif.Layout
