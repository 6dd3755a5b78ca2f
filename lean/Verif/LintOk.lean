import Verif.LintClosed
import Verif.LintCounted
import Verif.LintVarNames

/-!
# When the checks of the tree come to an end (lemmas for the lint checks)
-/

namespace Verif.Lint
open Verif Py Lex Parse

mutual
/-- A node of a tree is among its nodes. -/
theorem sub_pre : ∀ (n m : Node), Sub m n → m ∈ pre n
  | .tok t, m, h => by cases h; simp [pre]
  | .node ty a cs, m, h => by
    cases h with
    | refl => simp [pre]
    | child hc hm => simp only [pre, List.mem_cons]; exact Or.inr (sub_preL cs _ m hc hm)
theorem sub_preL : ∀ (ns : List Node) (c m : Node), c ∈ ns → Sub m c → m ∈ preL ns
  | [], c, m, hc, _ => by simp at hc
  | n :: ns, c, m, hc, hm => by
    simp only [preL, List.mem_append]
    rcases List.mem_cons.1 hc with e | hc
    · exact Or.inl (sub_pre n m (e ▸ hm))
    · exact Or.inr (sub_preL ns c m hc hm)
end

theorem sub_trans {a b c : Node} (h : Sub a b) (h' : Sub b c) : Sub a c := by
  induction h' with
  | refl => exact h
  | child hc _ ih => exact .child hc ih

/-- A node is the root or a child of a node. -/
theorem sub_parent {m n : Node} (h : Sub m n) : m = n ∨ ∃ ty a cs, Sub (.node ty a cs) n ∧ m ∈ cs := by
  induction h with
  | refl => exact Or.inl rfl
  | child hc _ ih =>
    right
    rcases ih with rfl | ⟨ty, a, cs, h1, h2⟩
    · exact ⟨_, _, _, .refl _, hc⟩
    · exact ⟨ty, a, cs, .child hc h1, h2⟩

variable {ctx : Parse.Ctx}

theorem parse_tidy {ts : List Token} {tree : Node} (h : parse ctx ts = .ok tree) : Tidy tree := by
  obtain ⟨a0, cs0, c0, e0, hseq⟩ := parse_seq h
  rw [e0]
  exact tidy_node (by simp) (seq_tidy hseq)

/-- A statement anywhere in the tree is one of the commands. -/
theorem sub_stmt {ts : List Token} {tree s : Node} (h : parse ctx ts = .ok tree) (hs : Sub s tree) (ht : hasType .statement s = true) :
    s ∈ stmtsOf tree := by
  rw [← pre_stmts tree (parse_tidy h)]
  exact List.mem_filter.2 ⟨sub_pre _ _ hs, ht⟩

theorem callsIn_sub {names : List Str} {n : Node} {s : Spot} (h : s ∈ callsIn names n) :
    Sub s.node n ∧ hasType .statement s.node = true ∧ funName s.node ∈ names := by
  obtain ⟨h1, h2⟩ := List.mem_filter.1 h
  simp only [isCall, Bool.and_eq_true, List.contains_iff_mem] at h2
  exact ⟨pre_sub _ _ ((under_perm n).mem_iff.1 (List.mem_map.2 ⟨s, h1, rfl⟩)), h2.1, h2.2⟩

/-- The conditions of a loop can be counted. -/
def Counts (s : Spot) : Prop :=
  ∃ t ts o b n, semToks (argTree s.node) = t :: ts ∧ blockOf s.kids s.idx = some (o, b) ∧ countConds t.spelling (under b) = .ok n

/-- What the checks of the tree need. -/
structure Smooth (ctx : Parse.Ctx) (ts : List Token) (tree : Node) : Prop where
  parsed : parse ctx ts = .ok tree
  closed : Closed tree
  filled : Filled tree
  nonempty : ¬ EmptyBody tree
  counted : Counted tree
  sets : ∀ s ∈ stmtsOf tree, funName s = S "set" → roleOf (argTree s) = .set ∧ ∃ v, varName (argTree s) = some v
  lists : ∀ s ∈ stmtsOf tree, funName s = S "list" → ∃ t u vs, firstGroup s = .ok (t :: u :: vs)
  loops : ∀ a kids o b, Sub (.node .flowControl a kids) tree → blockOf kids 0 = some (o, b) →
    kids.head?.map funName ∈ [some (S "function"), some (S "macro")] →
    ∀ s ∈ callsIn [S "foreach", S "while"] b, loopsOverArgn s.node = true → Counts s

variable {ts : List Token} {tree : Node}

theorem toksL_ne {c : Node} {cs : List Node} (h : c ∈ cs) (ht : c.toks ≠ []) : toksL cs ≠ [] := by
  obtain ⟨t, l, e⟩ := List.exists_cons_of_ne_nil ht
  have := Gen.mem_toks_kid h (t := t) (by rw [e]; simp)
  intro e'
  rw [e'] at this
  simp at this

theorem stmt_toks_ne {x : Str} {n : Node} (h : Stmt x n) : n.toks ≠ [] := by
  obtain ⟨a, t, cs, rfl, _⟩ := h
  simp [mk, Node.toks, toksL]

theorem last_ok {n : Node} (h : n.toks ≠ []) : ∃ l, lastLine n = .ok l := by
  unfold lastLine
  cases e : n.toks.getLast? with
  | none => exact absurd (List.getLast?_eq_none_iff.1 e) h
  | some t => exact ⟨_, rfl⟩

theorem first_ok {n : Node} (h : n.toks ≠ []) : ∃ l, firstLine n = .ok l := by
  unfold firstLine
  cases e : n.toks with
  | nil => exact absurd e h
  | cons t ts => exact ⟨_, rfl⟩

theorem comment_ne {a : Attr} {cs : List Node} (h : NeatHere ctx (.node .comment a cs)) : (Node.node .comment a cs).toks ≠ [] := by
  obtain ⟨t, ts, rfl, _⟩ := h
  simp [Node.toks, leaves, toksL]

/-- The first part of a block is a statement. -/
theorem flow_first (h : Smooth ctx ts tree) {a : Attr} {cs : List Node} (hs : Sub (.node .flowControl a cs) tree) :
    ∃ s rest, cs = s :: rest ∧ s ∈ stmtsOf tree := by
  have := Props.Parse.tree_well_formed ctx ts tree h.parsed _ hs
  simp only [Parse.Shape] at this
  have nm : ∀ {s : Node} {x : Str}, stmtName s = .some x → hasType .statement s = true := by
    intro s x e
    unfold stmtName at e
    split at e
    · rfl
    · cases e
  cases this with
  | ifBlock h1 _ _ => exact ⟨_, _, rfl, sub_stmt h.parsed (sub_trans (.child (by simp) (.refl _)) hs) (nm h1)⟩
  | loop _ h1 _ _ => exact ⟨_, _, rfl, sub_stmt h.parsed (sub_trans (.child (by simp) (.refl _)) hs) (nm h1)⟩

theorem block_toks (h : Smooth ctx ts tree) {c : Node} (hc : Sub c tree) (hb : Block c) : c.toks ≠ [] := by
  have hn := (Parse.parse_neat h.parsed).1 _ hc
  cases c with
  | tok t => exact hb.elim
  | node ty a cs =>
    rcases hb with rfl | rfl | rfl | rfl | rfl | rfl
    · obtain ⟨t, ts, rfl, _⟩ := hn; simp [Node.toks, leaves, toksL]
    · exact comment_ne hn
    · obtain ⟨t, rfl, _⟩ := hn; simp [Node.toks, toksL]
    · obtain ⟨x, hx⟩ := stmt_of h.parsed (sub_stmt h.parsed hc rfl)
      exact stmt_toks_ne hx
    · obtain ⟨s, rest, rfl, hs⟩ := flow_first h hc
      obtain ⟨x, hx⟩ := stmt_of h.parsed hs
      exact toksL_ne (c := s) (by simp) (stmt_toks_ne hx)
    · obtain ⟨t, tr, rfl, _⟩ := hn; simp [mk, Node.toks, toksL]

/-- A body has something in it. -/
theorem body_kids (h : Smooth ctx ts tree) {a : Attr} {cs : List Node} (hs : Sub (.node .body a cs) tree) : cs ≠ [] := by
  rintro rfl
  rcases sub_parent hs with e | ⟨ty, a', cs', h1, h2⟩
  · exact h.nonempty ⟨a, e.symm⟩
  · have hn := (Parse.parse_neat h.parsed).1 _ h1
    by_cases hq : quietT ty = true ∨ ty = .statement
    · have := quiet_kids hn hq _ h2
      simp [quiet, quietT] at this
    · cases ty
      all_goals try exact hq (Or.inl rfl)
      · have := hn _ h2
        simp [Block] at this
      · exact hq (Or.inr rfl)
      · exact h.filled _ h1 (h.closed _ h1).1 _ h2 ⟨a, rfl⟩

theorem semToks_stmt (h : Smooth ctx ts tree) {s : Node} (hs : s ∈ stmtsOf tree) : ∃ f l t vs, semToks s = f :: l :: t :: vs := by
  obtain ⟨f, l, r, e, _⟩ := stmt_args' h.parsed hs
  have e2 : semToks s = program s.toks := program_semantics _
  rw [e2, e]
  cases semToks (argTree s) with
  | nil => exact ⟨f, l, r, [], rfl⟩
  | cons t vs => exact ⟨f, l, t, vs ++ [r], rfl⟩

theorem doc_ok (h : Smooth ctx ts tree) {o : Opts} {p0 p1 : Option Node} {c : Node} (hc : Sub c tree) :
    ∃ r, checkDoc o p0 p1 c = .ok r := by
  unfold checkDoc
  split
  · obtain ⟨s, rest, e, _⟩ := flow_first h hc
    cases e
  · rename_i a s rest
    obtain ⟨s', rest', e, hs⟩ := flow_first h hc
    cases e
    obtain ⟨f, l, t, vs, e⟩ := semToks_stmt h hs
    have : ∃ loc, firstSem (.node .flowControl a (s :: rest)) = .ok loc := by
      have : semToks (.node .flowControl a (s :: rest)) = f :: (l :: t :: vs ++ semantics (toksL rest)) := by
        rw [semToks, Node.toks, toksL_cons, Parse.semantics_append]
        exact congrArg (· ++ _) e
      rw [firstSem, this]
      exact ⟨_, rfl⟩
    obtain ⟨loc, hl⟩ := this
    rw [hl]
    split
    · split
      · exact ⟨_, rfl⟩
      · split
        · exact ⟨_, rfl⟩
        · exact ⟨_, rfl⟩
    · exact ⟨_, rfl⟩
  · exact ⟨_, rfl⟩

theorem bodyComment_ok (h : Smooth ctx ts tree) {supp : List Str} {c : Node} (hc : Sub c tree) :
    ∃ r, checkBodyComment supp c = .ok r := by
  unfold checkBodyComment
  split
  · rename_i hty
    dsimp only
    split
    · exact ⟨_, rfl⟩
    · cases c with
      | tok t => simp [hasType] at hty
      | node ty a cs =>
        simp only [hasType, beq_iff_eq] at hty
        subst hty
        obtain ⟨l, e⟩ := first_ok (comment_ne ((Parse.parse_neat h.parsed).1 _ hc))
        rw [e]
        exact ⟨_, rfl⟩
  · exact ⟨_, rfl⟩

theorem items_ok (h : Smooth ctx ts tree) (o : Opts) : ∀ (ns : List Node) (p0 p1 : Option Node) (supp : List Str),
    (∀ c ∈ ns, Sub c tree) → ∃ r, checkItems o p0 p1 supp ns = .ok r
  | [], p0, p1, supp, _ => ⟨_, rfl⟩
  | .tok t :: ns, p0, p1, supp, hs => by
    rw [checkItems]
    exact items_ok h o ns p0 p1 supp fun c hc => hs c (List.mem_cons_of_mem _ hc)
  | .node ty a cs :: ns, p0, p1, supp, hs => by
    obtain ⟨r1, e1⟩ := bodyComment_ok h (supp := supp) (hs _ (List.mem_cons_self ..))
    obtain ⟨r2, e2⟩ := doc_ok h (o := o) (p0 := p0) (p1 := p1) (hs _ (List.mem_cons_self ..))
    obtain ⟨r3, e3⟩ := items_ok h o ns (.some (.node ty a cs)) p0 (supp ++ r1.2) fun c hc => hs c (List.mem_cons_of_mem _ hc)
    rw [checkItems, e1]
    simp only [bind, Except.bind]
    rw [e2, e3]
    exact ⟨_, rfl⟩

theorem body_ok (h : Smooth ctx ts tree) (o : Opts) {a : Attr} {cs : List Node} (hs : Sub (.node .body a cs) tree) :
    ∃ r, checkBody o (.node .body a cs) = .ok r := by
  have sub : ∀ c ∈ cs, Sub c tree := fun c hc => sub_trans (.child hc (.refl _)) hs
  obtain ⟨r1, e1⟩ := items_ok h o cs none none [] sub
  have hb := (Parse.parse_neat h.parsed).1 _ hs
  obtain ⟨c, cs', e⟩ := List.exists_cons_of_ne_nil (body_kids h hs)
  have hc : c ∈ cs := by rw [e]; simp
  obtain ⟨l, e2⟩ := last_ok (n := .node .body a cs) (by
    rw [Node.toks]
    exact toksL_ne hc (block_toks h (sub c hc) (hb c hc)))
  rw [checkBody, show kidsOf (.node .body a cs) = cs from rfl, e1]
  simp only [bind, Except.bind]
  rw [e2]
  exact ⟨_, rfl⟩

theorem loops_ok (o : Opts) : ∀ (ss : List Spot), (∀ s ∈ ss, loopsOverArgn s.node = true → Counts s) →
    ∃ c, checkLoops o ss = .ok c
  | [], _ => ⟨_, rfl⟩
  | s :: ss, h => by
    obtain ⟨c, e⟩ := loops_ok o ss fun x hx => h x (List.mem_cons_of_mem _ hx)
    unfold checkLoops
    split
    · rename_i hl
      obtain ⟨t, ts, o', b, n, e1, e2, e3⟩ := h s (by simp) hl
      rw [e1, e2]
      simp only [e3, bind, Except.bind]
      split
      · exact ⟨_, rfl⟩
      · exact ⟨c, e⟩
    · exact ⟨c, e⟩

theorem custom_ok (o : Opts) {b : Node}
    (hb : ∀ s ∈ callsIn [S "foreach", S "while"] b, loopsOverArgn s.node = true → Counts s) : ∃ c, checkCustomParser o b = .ok c := by
  unfold checkCustomParser
  split
  · exact loops_ok o _ hb
  · exact ⟨_, rfl⟩

theorem defn_ok (h : Smooth ctx ts tree) (o : Opts) (p : Str) {s b : Node} (hs : s ∈ stmtsOf tree)
    (hb : ∀ s ∈ callsIn [S "foreach", S "while"] b, loopsOverArgn s.node = true → Counts s) :
    ∃ c, checkDefn o p s b = .ok c := by
  obtain ⟨c1, e1⟩ := custom_ok o hb
  obtain ⟨f, l, t, vs, e⟩ := semToks_stmt h hs
  obtain ⟨x, hx⟩ := stmt_of h.parsed hs
  obtain ⟨li, e3⟩ := last_ok (stmt_toks_ne hx)
  rw [checkDefn, e1]
  simp only [bind, Except.bind, checkDefName]
  rw [e, e3]
  exact ⟨_, rfl⟩

theorem blockOf_body {kids : List Node} {i : Nat} {o b : Node} (h : blockOf kids i = some (o, b)) : b ∈ kids := by
  unfold blockOf at h
  dsimp only at h
  split at h
  · rename_i h1 h2 h3
    simp only [Option.some.injEq, Prod.mk.injEq] at h
    obtain ⟨rfl, rfl⟩ := h
    exact List.mem_of_getElem? h2
  · cases h

theorem flow_ok (h : Smooth ctx ts tree) (o : Opts) {a : Attr} {cs : List Node} (hs : Sub (.node .flowControl a cs) tree) :
    ∃ r, checkFlow o cs = .ok r := by
  obtain ⟨s, rest, e, hst⟩ := flow_first h hs
  obtain ⟨h1, h2⟩ := h.closed _ hs
  obtain ⟨x, b, hb⟩ := blockOf_closed (idx := 0) h1 h2 (by omega)
  obtain ⟨f, l, t, vs, e'⟩ := semToks_stmt h hst
  subst e
  simp only [checkFlow, hb]
  split
  · rename_i hn
    exact defn_ok h o _ hst (h.loops _ _ _ _ hs hb (by simp [hn]))
  · split
    · rename_i hn
      exact defn_ok h o _ hst (h.loops _ _ _ _ hs hb (by simp [hn]))
    · split
      · rw [checkForeach, e']
        exact ⟨_, rfl⟩
      · exact ⟨_, rfl⟩

theorem sem_norm {t : Token} (h : normKwarg t ≠ none) : isSemantic t = true := by
  have : t.type = .unquoted ∨ t.type = .word := by
    unfold normKwarg at h
    split at h
    · rename_i h1; exact Or.inl h1.1
    · split at h
      · simp at h
      · rename_i h2; exact Or.inr (by simpa using h2)
  rcases this with e | e <;> simp [isSemantic, isWs, isAnyComment, isComment, isOnOff, e]

theorem keywords_ok (h : Smooth ctx ts tree) : ∀ (ns : List Node) (seen : List Str), (∀ c ∈ ns, Sub c tree) →
    ∃ r, checkKeywords seen ns = .ok r
  | [], seen, _ => ⟨_, rfl⟩
  | n :: ns, seen, hs => by
    have ih := fun seen => keywords_ok h ns seen fun c hc => hs c (List.mem_cons_of_mem _ hc)
    rw [checkKeywords]
    split
    · rename_i hty
      have hsub := hs n (by simp)
      have : ∃ t vs, semToks n = t :: vs := by
        cases n with
        | tok t => simp [hasType] at hty
        | node ty a cs =>
          simp only [hasType, beq_iff_eq] at hty
          subst hty
          obtain ⟨t, ws, body, rfl, _⟩ := (Parse.parse_neat h.parsed).1 _ hsub
          have hk := (Parse.parse_neat h.parsed).1 _ (sub_trans (.child (c := mk .keyword [.tok t]) (by simp) (.refl _)) hsub)
          obtain ⟨t', e, hn⟩ := hk
          simp only [List.cons.injEq, Node.tok.injEq, and_true] at e
          subst e
          refine ⟨t, semantics (toksL (leaves ws ++ body)), ?_⟩
          rw [semToks, Node.toks, List.cons_append, toksL_cons, Parse.semantics_append]
          simp [mk, Node.toks, toksL, semantics, sem_norm hn]
      obtain ⟨t, vs, e⟩ := this
      rw [e]
      dsimp only
      split
      · exact ih seen
      · obtain ⟨r, e⟩ := ih (upper t.spelling :: seen)
        rw [e]
        exact ⟨_, rfl⟩
    · exact ih seen

theorem positional_ok (h : Smooth ctx ts tree) {a : Attr} {cs : List Node} (hs : Sub (.node .pargGroup a cs) tree) :
    ∃ r, checkPositional a (.node .pargGroup a cs) = .ok r := by
  obtain ⟨k, e, hg⟩ := h.counted _ hs
  obtain ⟨m, em⟩ := Parse.minArgs_good hg
  simp only [checkPositional, e]
  rw [em]
  exact ⟨_, rfl⟩

theorem comment_ok (h : Smooth ctx ts tree) {anc : List Frame} {a : Attr} {cs : List Node} (hs : Sub (.node .comment a cs) tree) :
    ∃ r, checkComment anc (.node .comment a cs) = .ok r := by
  unfold checkComment
  split
  · dsimp only
    split
    · exact ⟨_, rfl⟩
    · obtain ⟨l, e⟩ := first_ok (comment_ne ((Parse.parse_neat h.parsed).1 _ hs))
      rw [e]
      exact ⟨_, rfl⟩
  · exact ⟨_, rfl⟩

theorem statement_ok (h : Smooth ctx ts tree) (o : Opts) {v : List Frame × Node} (hv : v ∈ visits [] tree)
    (hty : hasType .statement v.2 = true) : ∃ r, checkStatement o v.1 v.2 = .ok r := by
  have hs := sub_stmt h.parsed (visits_sub _ _ _ hv) hty
  obtain ⟨sc, esc⟩ := visit_scope h.closed hv
  have hsc : ∃ sc, scopeOf v.1 v.2 = .ok sc := by
    unfold scopeOf
    dsimp only
    split
    · split
      · exact ⟨_, rfl⟩
      · split
        · exact ⟨_, rfl⟩
        · exact ⟨_, esc⟩
    · exact ⟨_, esc⟩
  obtain ⟨sc', esc'⟩ := hsc
  unfold checkStatement
  split
  · exact ⟨_, rfl⟩
  · split
    · rename_i hc
      have hc : funName v.2 = S "set" ∨ funName v.2 = S "list" := by simpa using hc
      simp only [checkAssignment, esc', bind, Except.bind]
      split
      · rename_i e
        obtain ⟨h1, t, h2⟩ := h.sets _ hs e
        rw [if_pos h1, h2]
        exact ⟨_, rfl⟩
      · rename_i e
        obtain ⟨t, u, vs, e1⟩ := h.lists _ hs (hc.resolve_left e)
        simp only [listOutvar, e1, bind, Except.bind]
        split
        · rename_i h2
          split at h2 <;> cases h2
        · split
          · exact ⟨_, rfl⟩
          · exact ⟨_, rfl⟩
    · exact ⟨_, rfl⟩

theorem node_ok (h : Smooth ctx ts tree) (o : Opts) (v : List Frame × Node) (hv : v ∈ visits [] tree) :
    ∃ c, checkNode o v.1 v.2 = .ok c := by
  have hs := visits_sub _ _ _ hv
  have hst := statement_ok h o hv
  obtain ⟨anc, n⟩ := v
  dsimp only at hs hst ⊢
  unfold checkNode
  split
  · exact ⟨_, rfl⟩
  · exact body_ok h o hs
  · exact flow_ok h o hs
  · exact keywords_ok h _ _ fun c hc => sub_trans (.child hc (.refl _)) hs
  · exact hst rfl
  · exact positional_ok h hs
  · split
    · exact ⟨_, rfl⟩
    · exact comment_ok h hs
  · exact ⟨_, rfl⟩

theorem assigns_ok (h : Smooth ctx ts tree) : ∀ (ss : List Spot), (∀ s ∈ ss, s.node ∈ stmtsOf tree ∧ (funName s.node = S "set" ∨ funName s.node = S "list")) →
    ∃ c, checkAssigns ss = .ok c
  | [], _ => ⟨_, rfl⟩
  | s :: ss, hs => by
    obtain ⟨r, e⟩ := assigns_ok h ss fun x hx => hs x (List.mem_cons_of_mem _ hx)
    obtain ⟨h1, h2⟩ := hs s (by simp)
    rw [checkAssigns]
    by_cases hn : funName s.node = S "set"
    · obtain ⟨k1, t, k2⟩ := h.sets _ h1 hn
      rw [if_pos hn, if_pos k1, k2]
      simp only [bind, Except.bind]
      rw [e]
      exact ⟨_, rfl⟩
    · obtain ⟨t, u, vs, k⟩ := h.lists _ h1 (h2.resolve_left hn)
      rw [if_neg hn, k]
      simp only [bind, Except.bind, List.getElem?_cons_succ, List.getElem?_cons_zero]
      rw [e]
      exact ⟨_, rfl⟩

/-- **The checks of the tree come to an end.** -/
theorem checkParseTree_ok (h : Smooth ctx ts tree) (o : Opts) : ∃ c, checkParseTree o tree = .ok c := by
  obtain ⟨r1, e1⟩ := assigns_ok h (callsIn [S "set", S "list"] tree) fun s hs => by
    obtain ⟨k1, k2, k3⟩ := callsIn_sub hs
    exact ⟨sub_stmt h.parsed k1 k2, by simpa using k3⟩
  obtain ⟨r2, e2⟩ := checkTree_ok o tree [] none (node_ok h o)
  rw [checkParseTree, e1]
  simp only [bind, Except.bind]
  rw [e2]
  exact ⟨_, rfl⟩

/-! ## Assignments -/

/-- The first group of a `list` with two arguments has both. -/
theorem list_long {s : Node} {n : Nat} {up : Bool} {ts rest : List Token}
    (h : exec ctx n (.arg listFn [.paren]) up ts = .ok (argTree s, rest)) (hc : ∀ u ∈ (argTree s).toks, TameTok u)
    (h2 : 2 ≤ (semToks (argTree s)).length)
    (h3 : (∀ t, (semToks (argTree s)).head? = some t → wordIs (c! "SORT") t = false ∧ wordIs (c! "TRANSFORM") t = false) ∨
      ∀ u ∈ (argTree s).toks, isAnyComment u = false) : ∃ t u vs, firstGroup s = .ok (t :: u :: vs) := by
  have hp : semToks (argTree s) ≠ [] := by
    intro e
    rw [e] at h2
    simp at h2
  have key : ∀ {nargs : Nargs} {kwargs : List (Str × ArgP)} {flags : List Str} {m : Nat} {t : Token} {lim : Option Nat},
      exec ctx m (.arg (std nargs kwargs flags) [.paren]) up ts = .ok (argTree s, rest) → nthSem 0 ts = some t →
      (∀ w, normKwarg t = some w → kwargs.lookup w = none) → (kwargs = [] ∨ nargs.exact = true) →
      (∀ k, pargsFull nargs k = .ok (fullAt lim k)) → (∀ m, lim = some m → 2 ≤ m) →
      (kwargs ≠ [] → wordIs (c! "SORT") t = true ∨ wordIs (c! "TRANSFORM") t = true) →
      ∃ t u vs, firstGroup s = .ok (t :: u :: vs) := by
    intro nargs kwargs flags m t lim h hn hk hx hf hm hkn
    obtain ⟨t', h1, _, h4⟩ := std_first h hc (Or.inr hp)
    rw [hn] at h1
    simp only [Option.some.injEq] at h1
    subst h1
    obtain ⟨pre, g, ks, vs, e, hi, hgr, hs, hl⟩ := h4 hk
    dsimp only at e hl
    have hfg : firstGroup s = .ok (semToks g) := by
      unfold firstGroup
      rw [if_pos (by rw [e]; rfl), show kidsOf (argTree s) = pre ++ g :: ks by rw [e]; rfl, Gen.find_group hi hgr]
    have hsem : semToks (argTree s) = semToks g ++ semantics (toksL ks) := by
      rw [e, semToks, stdNode, Node.toks, toksL_append, toksL_cons, Parse.semantics_append, Parse.semantics_append,
        Gen.semToks_idle hi, List.nil_append]
      rfl
    have : 2 ≤ (semToks g).length := by
      rcases (hl lim hx hf).2 with (e0 | ⟨m, e0, e1⟩) | ⟨e0, u, hu, e1⟩
      · rw [hsem, e0, List.append_nil] at h2
        exact h2
      · rw [e1]
        exact hm m e0
      · exfalso
        rcases h3 with h3 | h3
        · obtain ⟨k1, k2⟩ := h3 t (by rw [hsem, hs]; rfl)
          rcases hkn e0 with hkn | hkn
          · rw [k1] at hkn
            cases hkn
          · rw [k2] at hkn
            cases hkn
        · rw [h3 u hu] at e1
          cases e1
    rw [hfg]
    cases hg : semToks g with
    | nil => rw [hg] at this; simp at this
    | cons t l =>
      cases l with
      | nil => rw [hg] at this; simp at this
      | cons u vs => exact ⟨t, u, vs, rfl⟩
  cases n with
  | zero => simp [exec] at h
  | succ n =>
    change argStart (exec ctx n) listFn [.paren] up ts = _ at h
    simp only [argStart, listFn, byFirst] at h
    have any : ∀ k, pargsFull (.str (S "*")) k = .ok (fullAt none k) := fun _ => rfl
    cases hn : nthSem 0 ts with
    | none =>
      rw [hn] at h
      obtain ⟨t, h1, _⟩ := std_first h hc (Or.inr hp)
      rw [hn] at h1
      cases h1
    | some t =>
      rw [hn] at h
      dsimp only at h
      by_cases hty : t.type = .rparen ∨ t.type = .deref
      · rw [if_pos hty] at h
        exact key (nargs := .str (S "*")) (kwargs := []) (flags := []) h hn (by simp) (Or.inl rfl) any (by simp) (by simp)
      · rw [if_neg hty] at h
        cases hlk : listTable.lookup (upper t.spelling) with
        | none =>
          rw [hlk] at h
          exact key (nargs := .str (S "*")) (kwargs := []) (flags := []) h hn (by simp) (Or.inl rfl) any (by simp) (by simp)
        | some p =>
          rw [hlk] at h
          simp only [Option.getD_some] at h
          have forms : ∀ (k : Str) (p : ArgP), (k, p) ∈ listTable → ∃ nargs kwargs flags lim, p = std nargs kwargs flags ∧
              (kwargs = [] ∨ nargs.exact = true) ∧ (∀ k, pargsFull nargs k = .ok (fullAt lim k)) ∧ (∀ m, lim = some m → 2 ≤ m) ∧
              k.head? ≠ some '-' ∧ kwargs.lookup k = none ∧ (kwargs ≠ [] → k = c! "SORT" ∨ k = c! "TRANSFORM") := by
            intro k p h
            simp only [listTable, List.mem_cons, List.not_mem_nil, or_false, Prod.mk.injEq] at h
            rcases h with ⟨rfl, rfl⟩ | ⟨rfl, rfl⟩ | ⟨rfl, rfl⟩ | ⟨rfl, rfl⟩ | ⟨rfl, rfl⟩ | ⟨rfl, rfl⟩ | ⟨rfl, rfl⟩ | ⟨rfl, rfl⟩ | ⟨rfl, rfl⟩ |
              ⟨rfl, rfl⟩ | ⟨rfl, rfl⟩ | ⟨rfl, rfl⟩ | ⟨rfl, rfl⟩ | ⟨rfl, rfl⟩ | ⟨rfl, rfl⟩ | ⟨rfl, rfl⟩ | ⟨rfl, rfl⟩
            all_goals first
              | exact ⟨_, _, _, some _, rfl, Or.inr rfl, full_int _, by simp, by decide, by rfl, fun h => absurd rfl h⟩
              | exact ⟨_, _, _, some _, rfl, Or.inr rfl, full_int _, by simp, by decide, by rfl, fun _ => Or.inl rfl⟩
              | exact ⟨_, _, _, some _, rfl, Or.inr rfl, full_int _, by simp, by decide, by rfl, fun _ => Or.inr rfl⟩
              | exact ⟨_, _, _, none, rfl, Or.inl rfl, fun _ => rfl, by simp, by decide, by rfl, fun h => absurd rfl h⟩
          obtain ⟨nargs, kwargs, flags, lim, rfl, h4, h5, h6, hhd, hk, hkn⟩ := forms _ _ (lookup_pair_mem hlk)
          refine key h hn ?_ h4 h5 h6 (by simpa [wordIs] using hkn)
          intro w hw
          rcases norm_upper hw with rfl | e
          · exact hk
          · exact absurd e hhd

/-- `set` and `list` have the arguments that the checks look for. -/
theorem assigners_ok {user : Spec} {explicit : Str → Bool} {vt : List ((Str → Bool) × List Str)} {ts : List Token} {tree s : Node}
    (hp : parse (commandCtx user explicit vt) ts = .ok tree) (hu : ∀ n ∈ assigners, (userNames user).contains n = false)
    (hs : s ∈ stmtsOf tree) (ht : nameOf s ∈ assigners → ∀ u ∈ (argTree s).toks, TameTok u) :
    (funName s = S "set" → roleOf (argTree s) = .set ∧ (argsOf s ≠ [] → ∃ v, varName (argTree s) = some v)) ∧
      (funName s = S "list" → 2 ≤ (argsOf s).length →
        ((∀ t, (argsOf s).head? = some t → wordIs (c! "SORT") t = false ∧ wordIs (c! "TRANSFORM") t = false) ∨
          ∀ u ∈ (argTree s).toks, isAnyComment u = false) → ∃ t u vs, firstGroup s = .ok (t :: u :: vs)) := by
  obtain ⟨x, hx⟩ := stmt_of hp hs
  have hnf : funName s = nameOf s := by rw [stmt_funName hx, stmt_nameOf hx]
  obtain ⟨n, name, ts', rest, e, hex⟩ := args_exec (parse_made hp s hs)
  constructor
  · intro hf
    have hn : nameOf s ∈ assigners := by rw [← hnf, hf]; decide
    rw [assigner_lookup (p := .setFn) (by rw [← e, hnf]; exact hn) (hu _ (by rw [← e, hnf]; exact hn)) (by rw [← e, hf]; rfl)] at hex
    obtain ⟨pre, g, ks, h1, h2, h3, h4, h5⟩ := set_tree (command_flat user explicit vt) hex (ht hn)
    dsimp only at h5
    refine ⟨by rw [h5]; rfl, fun ha => ?_⟩
    rcases h3 with ⟨t, h3⟩ | ⟨_, h3⟩
    · exact ⟨t, by rw [h5, set_var h1 h2, h3]; rfl⟩
    · exact absurd (by rw [← stmt_args hp hs]; exact h3) ha
  · intro hf h2 h3
    have hn : nameOf s ∈ assigners := by rw [← hnf, hf]; decide
    rw [assigner_lookup (p := listFn) (by rw [← e, hnf]; exact hn) (hu _ (by rw [← e, hnf]; exact hn)) (by rw [← e, hf]; rfl)] at hex
    rw [← stmt_args hp hs] at h2 h3
    exact list_long hex (ht hn) h2 h3

end Verif.Lint
