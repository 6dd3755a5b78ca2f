import Verif.LintFlat

/-!
# Searches in a subtree, dead ends and definitions (lemmas for the lint checks)
-/

namespace Verif.Lint
open Verif Py Lex Parse

/-! ## The frames around a statement -/

/-- Names of the statements of an `if` block; a body has none. -/
def ifNames : List Str := [[], S "if", S "else", S "elseif", S "endif"]

/-- The child of a block that leads to a statement in one of its bodies. -/
def GoodFrame (f : Frame) : Prop :=
  f.ty = .flowControl → f.idx ≠ 0 ∧ ((∃ o b e, f.kids = [o, b, e] ∧ f.idx = 1) ∨ ∀ s ∈ f.kids, funName s ∈ ifNames)

/-- Names of the statements that belong to blocks. -/
def blockNames : List Str :=
  openers ++ [S "endif", S "endwhile", S "endforeach", S "endfunction", S "endmacro", S "else", S "elseif"]

/-- A statement of a block, or one in bodies. -/
def Fits (v : List Frame × Node) : Prop := nameOf v.2 ∈ blockNames ∨ ∀ f ∈ v.1, GoodFrame f

theorem branch_names {c : Bool} {ns : List Node} (h : Seq none c ns) : ∀ s ∈ ns, funName s ∈ ifNames := by
  generalize hm : (none : Option (List Str)) = m at h
  induction h with
  | nil => cases hm
  | other => cases hm
  | stmt => cases hm
  | loop => cases hm
  | ifs => cases hm
  | openIf => cases hm
  | @branch c s bs rest b x _ hx hs _ _ ih2 =>
    intro y hy
    simp only [List.mem_cons] at hy
    rcases hy with rfl | rfl | hy
    · simp [funName, ifNames]
    · rw [stmt_funName hs]
      rcases hx with rfl | rfl <;> decide
    · exact ih2 rfl y hy
  | @fi e bs b _ he _ =>
    intro y hy
    simp only [List.mem_cons, List.not_mem_nil, or_false] at hy
    rcases hy with rfl | rfl
    · simp [funName, ifNames]
    · rw [stmt_funName he]; decide
  | unclosed _ _ =>
    intro y hy
    simp only [List.mem_cons, List.not_mem_nil, or_false] at hy
    subst hy
    simp [funName, ifNames]

/-- The visited statements of some visits. -/
def AllFit (vs : List (List Frame × Node)) : Prop := ∀ v ∈ loud vs, hasType .statement v.2 = true → Fits v

theorem allFit_append {a b : List (List Frame × Node)} (ha : AllFit a) (hb : AllFit b) : AllFit (a ++ b) := by
  intro v hv
  rw [loud_append] at hv
  rcases List.mem_append.1 hv with h | h
  · exact ha v h
  · exact hb v h

theorem allFit_nil : AllFit [] := by intro v hv; simp [loud] at hv

theorem allFit_leafy {n : Node} (h : Leafy n) (anc : List Frame) : AllFit (visits anc n) := by
  intro v hv
  rw [leafy_loud h] at hv
  simp at hv

theorem allFit_stmt {x : Str} {n : Node} (h : Stmt x n) {anc : List Frame} (hf : Fits (anc, n)) : AllFit (visits anc n) := by
  intro v hv _
  rw [stmt_loud h] at hv
  simp only [List.mem_singleton] at hv
  subst hv
  exact hf

theorem allFit_cons {anc : List Frame} {ty : NT} {a : Attr} {cs : List Node} (hty : ty = .flowControl ∨ ty = .body)
    (h : AllFit (visitsL anc ty a cs 0 cs)) : AllFit (visits anc (.node ty a cs)) := by
  intro v hv hs
  simp only [visits] at hv
  rw [show (anc, Node.node ty a cs) :: visitsL anc ty a cs 0 cs = [(anc, .node ty a cs)] ++ visitsL anc ty a cs 0 cs from rfl,
    loud_append] at hv
  rcases List.mem_append.1 hv with hv | hv
  · simp only [loud, List.mem_filter, List.mem_singleton] at hv
    rw [hv.1] at hs
    rcases hty with rfl | rfl <;> simp [hasType] at hs
  · exact h v hv hs

/-- What the frames of a sequence are. -/
def FitAt : Option (List Str) → List Node → Prop
  | some _, ns => ∀ (anc : List Frame) (a : Attr) (all : List Node) (idx : Nat), (∀ f ∈ anc, GoodFrame f) →
      AllFit (visitsL anc .body a all idx ns)
  | none, ns => ∀ (anc : List Frame) (a : Attr) (all : List Node) (idx : Nat), (∀ f ∈ anc, GoodFrame f) →
      (∀ s ∈ all, funName s ∈ ifNames) → idx ≠ 0 → AllFit (visitsL anc .flowControl a all idx ns)

theorem good_body {a : Attr} {all : List Node} {idx : Nat} {anc : List Frame} (h : ∀ f ∈ anc, GoodFrame f) :
    ∀ f ∈ (⟨.body, a, all, idx⟩ : Frame) :: anc, GoodFrame f := by
  intro f hf
  rcases List.mem_cons.1 hf with rfl | hf
  · intro e; simp at e
  · exact h f hf

theorem seq_fit {m : Option (List Str)} {c : Bool} {ns : List Node} (h : Seq m c ns) : FitAt m ns := by
  induction h with
  | nil => intro anc a all idx hg; exact allFit_nil
  | other h1 _ ih => intro anc a all idx hg; exact allFit_append (allFit_leafy h1 _) (ih _ _ _ _ hg)
  | stmt h1 h2 h3 _ ih =>
    intro anc a all idx hg
    exact allFit_append (allFit_stmt h1 (Or.inr (good_body hg))) (ih _ _ _ _ hg)
  | @loop stop c o e ns bs a' b x h1 h2 h3 h4 _ ih1 ih2 =>
    intro anc a all idx hg
    refine allFit_append (allFit_cons (Or.inl rfl) ?_) (ih2 _ _ _ _ hg)
    refine allFit_append (allFit_stmt h2 (Or.inl ?_)) (allFit_append (allFit_cons (Or.inr rfl) (ih1 _ _ _ _ ?_))
      (allFit_append (allFit_stmt h4 (Or.inl ?_)) allFit_nil))
    · show nameOf o ∈ blockNames
      rw [stmt_nameOf h2]
      simp only [List.mem_cons, List.not_mem_nil, or_false] at h1
      rcases h1 with rfl | rfl | rfl | rfl <;> decide
    · intro f hf
      rcases List.mem_cons.1 hf with rfl | hf
      · exact fun _ => ⟨by simp, Or.inl ⟨_, _, _, rfl, rfl⟩⟩
      · exact good_body hg f hf
    · show nameOf e ∈ blockNames
      rw [stmt_nameOf h4, lower_end]
      simp only [List.mem_cons, List.not_mem_nil, or_false] at h1
      rcases h1 with rfl | rfl | rfl | rfl <;> decide
  | @ifs stop c o ns rest a' h1 hr _ ih1 ih2 =>
    intro anc a all idx hg
    refine allFit_append (allFit_cons (Or.inl rfl) ?_) (ih2 _ _ _ _ hg)
    refine allFit_append (allFit_stmt h1 (Or.inl ?_)) (ih1 _ _ _ _ (good_body hg) ?_ (by simp))
    · show nameOf o ∈ blockNames
      rw [stmt_nameOf h1]; decide
    · intro s hs
      rcases List.mem_cons.1 hs with rfl | hs
      · rw [stmt_funName h1]; decide
      · exact branch_names hr s hs
  | @openIf stop o rest a' h1 hr ih1 =>
    intro anc a all idx hg
    refine allFit_append (allFit_cons (Or.inl rfl) ?_) allFit_nil
    refine allFit_append (allFit_stmt h1 (Or.inl ?_)) (ih1 _ _ _ _ (good_body hg) ?_ (by simp))
    · show nameOf o ∈ blockNames
      rw [stmt_nameOf h1]; decide
    · intro s hs
      rcases List.mem_cons.1 hs with rfl | hs
      · rw [stmt_funName h1]; decide
      · exact branch_names hr s hs
  | @branch c s bs rest b x _ hx hs _ ih1 ih2 =>
    intro anc a all idx hg hall hi
    refine allFit_append (allFit_cons (Or.inr rfl) (ih1 _ _ _ _ ?_)) (allFit_append (allFit_stmt hs (Or.inl ?_))
      (ih2 _ _ _ _ hg hall (by simp)))
    · intro f hf
      rcases List.mem_cons.1 hf with rfl | hf
      · exact fun _ => ⟨hi, Or.inr hall⟩
      · exact hg f hf
    · show nameOf s ∈ blockNames
      rw [stmt_nameOf hs]
      rcases hx with rfl | rfl <;> decide
  | @fi e bs b _ he ih1 =>
    intro anc a all idx hg hall hi
    refine allFit_append (allFit_cons (Or.inr rfl) (ih1 _ _ _ _ ?_)) (allFit_append (allFit_stmt he (Or.inl ?_)) allFit_nil)
    · intro f hf
      rcases List.mem_cons.1 hf with rfl | hf
      · exact fun _ => ⟨hi, Or.inr hall⟩
      · exact hg f hf
    · show nameOf e ∈ blockNames
      rw [stmt_nameOf he]; decide
  | unclosed _ ih1 =>
    intro anc a all idx hg hall hi
    refine allFit_append (allFit_cons (Or.inr rfl) (ih1 _ _ _ _ ?_)) allFit_nil
    intro f hf
    rcases List.mem_cons.1 hf with rfl | hf
    · exact fun _ => ⟨hi, Or.inr hall⟩
    · exact hg f hf

theorem tree_fit {ctx : Parse.Ctx} {ts : List Token} {tree : Node} (h : parse ctx ts = .ok tree) :
    AllFit (visits [] tree) := by
  obtain ⟨a, cs, c, rfl, hs⟩ := parse_seq h
  exact allFit_cons (Or.inr rfl) (seq_fit hs [] a cs 0 (by simp))

/-- The name of the block of a frame, as the code finds it. -/
def blockName (f : Frame) : Option Str := (blockOf f.kids f.idx).map fun ob => funName ob.1

theorem good_blockName {f : Frame} (h : GoodFrame f) (hf : f.ty = .flowControl) :
    (blockName f = some (openName f)) ∨ (openName f ∈ ifNames ∧ ∀ x, blockName f = some x → x ∈ ifNames) := by
  obtain ⟨_, h | h⟩ := h hf
  · obtain ⟨o, b, e, hk, hi⟩ := h
    left
    simp [blockName, blockOf, hk, hi, openName]
  · right
    refine ⟨?_, ?_⟩
    · unfold openName
      split
      · simp [ifNames]
      · rename_i o l hk
        exact h o (by simp [hk])
    · intro x hx
      simp only [blockName, blockOf, Option.map_eq_some_iff] at hx
      obtain ⟨⟨o, b⟩, hb, rfl⟩ := hx
      split at hb
      · rename_i o' b' c' h1 h2 h3
        simp only [Option.some.injEq, Prod.mk.injEq] at hb
        obtain ⟨rfl, rfl⟩ := hb
        exact h _ (List.mem_of_getElem? h1)
      · simp at hb

theorem inLoop_blocks {anc : List Frame} (h : ∀ f ∈ anc, GoodFrame f) :
    inLoop anc = (stackOf anc).any fun b => [S "foreach", S "while"].contains b := by
  induction anc with
  | nil => rfl
  | cons f fs ih =>
    have ih := ih fun g hg => h g (List.mem_cons_of_mem _ hg)
    have hf := h f (by simp)
    unfold inLoop stackOf
    by_cases hty : f.ty = .flowControl
    · have hi := (hf hty).1
      rw [if_pos hty, if_pos ⟨hty, hi⟩, List.any_cons]
      have no : ∀ x ∈ ifNames, [S "foreach", S "while"].contains x = false := by decide
      rcases good_blockName hf hty with hb | ⟨h1, h2⟩
      · unfold blockName at hb
        cases e : blockOf f.kids f.idx with
        | none => rw [e] at hb; simp at hb
        | some ob =>
          rw [e] at hb
          simp only [Option.map_some, Option.some.injEq] at hb
          simp only [hb, ih]
      · rw [no _ h1]
        cases e : blockOf f.kids f.idx with
        | none => simpa using ih
        | some ob =>
          have := h2 (funName ob.1) (by simp [blockName, e])
          simp only [no _ this, Bool.false_or]
          exact ih
    · rw [if_neg hty, if_neg (by simp [hty])]
      exact ih

/-! ## Searches -/

mutual
/-- The nodes of a tree in the order of the text. -/
def pre : Node → List Node
  | .tok t => [.tok t]
  | .node ty a cs => .node ty a cs :: preL cs
/-- The nodes of some trees. -/
def preL : List Node → List Node
  | [] => []
  | n :: ns => pre n ++ preL ns
end

theorem spots_nodes (all : List Node) : ∀ (ns : List Node) (i : Nat), (spotsFrom all i ns).map (·.node) = ns
  | [], i => rfl
  | n :: ns, i => by simp [spotsFrom, spots_nodes all ns]

theorem preL_append (a b : List Node) : preL (a ++ b) = preL a ++ preL b := by
  induction a with
  | nil => simp [preL]
  | cons n ns ih => simp [preL, ih]

theorem sizeOfL_append (a b : List Node) : sizeOfL (a ++ b) = sizeOfL a + sizeOfL b := by
  induction a with
  | nil => simp [sizeOfL]
  | cons n ns ih => simp [sizeOfL, ih]; omega

theorem pre_kids (n : Node) : pre n = n :: preL (kidsOf n) := by
  cases n <;> simp [pre, kidsOf, preL]

theorem size_kids (n : Node) : sizeOf n = sizeOfL (kidsOf n) + 1 := by
  cases n <;> simp [sizeOf, kidsOf, sizeOfL]

/-- The queue visits every node once. -/
theorem bfs_perm : ∀ (n : Nat) (q : List Spot), sizeOfL (q.map (·.node)) ≤ n →
    ((bfs n q).map (·.node)).Perm (preL (q.map (·.node)))
  | 0, [], _ => by simp [bfs, preL]
  | 0, s :: q, h => by
    rw [List.map_cons, sizeOfL, size_kids] at h
    omega
  | n + 1, [], _ => by simp [bfs, preL]
  | n + 1, s :: q, h => by
    rw [List.map_cons, sizeOfL, size_kids] at h
    have hs : (spots s.node).map (·.node) = kidsOf s.node := spots_nodes _ _ _
    have := bfs_perm n (q ++ spots s.node) (by
      rw [List.map_append, sizeOfL_append, hs]
      omega)
    rw [List.map_append, preL_append, hs] at this
    simp only [bfs, List.map_cons, preL]
    rw [pre_kids, List.cons_append]
    exact (this.trans List.perm_append_comm).cons s.node

theorem under_perm (n : Node) : ((under n).map (·.node)).Perm (pre n) := by
  have := bfs_perm (sizeOf n) [⟨[], 0, n⟩] (by simp [sizeOfL])
  simpa [preL, under] using this

theorem later_perm (ns : List Node) : ((bfs (sizeOfL ns) (spotsFrom ns 0 ns)).map (·.node)).Perm (preL ns) := by
  have := bfs_perm (sizeOfL ns) (spotsFrom ns 0 ns) (by rw [spots_nodes]; exact Nat.le_refl _)
  rwa [spots_nodes] at this

/-- Nothing in a statement is a statement. -/
def Tidy (n : Node) : Prop := ∀ m, Sub m n → hasType .statement m = true → ∀ c ∈ kidsOf m, Leafy c

theorem tidy_leafy {n : Node} (h : Leafy n) : Tidy n := by
  intro m hm hs
  have := h m hm
  cases m with
  | tok t => simp [hasType] at hs
  | node ty a cs => simp only [hasType, beq_iff_eq] at hs; subst hs; simp [quiet, quietT] at this

theorem leafy_funname (t : Token) : Leafy (mk .funname [.tok t]) := by
  intro m hm
  cases hm with
  | refl => rfl
  | child hc hm =>
    simp only [List.mem_singleton] at hc
    subst hc
    cases hm
    rfl

theorem stmt_kids {x : Str} {n : Node} (h : Stmt x n) : ∀ c ∈ kidsOf n, Leafy c := by
  obtain ⟨a, t, cs, rfl, _, _, hl⟩ := h
  intro c hc
  simp only [kidsOf, List.mem_cons] at hc
  rcases hc with rfl | hc
  · exact leafy_funname t
  · exact hl c hc

theorem tidy_stmt {x : Str} {n : Node} (h : Stmt x n) : Tidy n := by
  intro m hm hs
  cases hm with
  | refl => exact stmt_kids h
  | child hc hm => exact tidy_leafy (stmt_kids h _ hc) _ hm hs

theorem tidy_node {ty : NT} {a : Attr} {cs : List Node} (hty : ty ≠ .statement) (h : ∀ c ∈ cs, Tidy c) :
    Tidy (.node ty a cs) := by
  intro m hm hs
  cases hm with
  | refl => simp [hasType, hty] at hs
  | child hc hm => exact h _ hc m hm hs

theorem seq_tidy {m : Option (List Str)} {c : Bool} {ns : List Node} (h : Seq m c ns) : ∀ n ∈ ns, Tidy n := by
  induction h with
  | nil => simp
  | other h1 _ ih => intro n hn; exact (List.mem_cons.1 hn).elim (fun e => e ▸ tidy_leafy h1) (ih n)
  | stmt h1 _ _ _ ih => intro n hn; exact (List.mem_cons.1 hn).elim (fun e => e ▸ tidy_stmt h1) (ih n)
  | loop h1 h2 h3 h4 _ ih1 ih2 =>
    intro n hn
    rcases List.mem_cons.1 hn with rfl | hn
    · refine tidy_node (by simp) ?_
      intro c hc
      simp only [List.mem_cons, List.not_mem_nil, or_false] at hc
      rcases hc with rfl | rfl | rfl
      · exact tidy_stmt h2
      · exact tidy_node (by simp) ih1
      · exact tidy_stmt h4
    · exact ih2 n hn
  | ifs h1 _ _ ih1 ih2 =>
    intro n hn
    rcases List.mem_cons.1 hn with rfl | hn
    · refine tidy_node (by simp) ?_
      intro c hc
      rcases List.mem_cons.1 hc with rfl | hc
      · exact tidy_stmt h1
      · exact ih1 c hc
    · exact ih2 n hn
  | openIf h1 _ ih1 =>
    intro n hn
    simp only [List.mem_singleton] at hn
    subst hn
    refine tidy_node (by simp) ?_
    intro c hc
    rcases List.mem_cons.1 hc with rfl | hc
    · exact tidy_stmt h1
    · exact ih1 c hc
  | branch _ _ hs _ ih1 ih2 =>
    intro n hn
    simp only [List.mem_cons] at hn
    rcases hn with rfl | rfl | hn
    · exact tidy_node (by simp) ih1
    · exact tidy_stmt hs
    · exact ih2 n hn
  | fi _ he ih1 =>
    intro n hn
    simp only [List.mem_cons, List.not_mem_nil, or_false] at hn
    rcases hn with rfl | rfl
    · exact tidy_node (by simp) ih1
    · exact tidy_stmt he
  | unclosed _ ih1 =>
    intro n hn
    simp only [List.mem_cons, List.not_mem_nil, or_false] at hn
    subst hn
    exact tidy_node (by simp) ih1

mutual
theorem pre_sub : ∀ (n m : Node), m ∈ pre n → Sub m n
  | .tok t, m, h => by simp only [pre, List.mem_singleton] at h; subst h; exact .refl _
  | .node ty a cs, m, h => by
    simp only [pre, List.mem_cons] at h
    rcases h with rfl | h
    · exact .refl _
    · obtain ⟨c, hc, hs⟩ := preL_sub cs m h
      exact .child hc hs
theorem preL_sub : ∀ (ns : List Node) (m : Node), m ∈ preL ns → ∃ c ∈ ns, Sub m c
  | [], m, h => by simp [preL] at h
  | n :: ns, m, h => by
    simp only [preL, List.mem_append] at h
    rcases h with h | h
    · exact ⟨n, by simp, pre_sub n m h⟩
    · obtain ⟨c, hc, hs⟩ := preL_sub ns m h
      exact ⟨c, by simp [hc], hs⟩
end

theorem leafyL_pre {ns : List Node} (h : ∀ c ∈ ns, Leafy c) : (preL ns).filter (hasType .statement) = [] := by
  rw [List.filter_eq_nil_iff]
  intro m hm
  obtain ⟨c, hc, hs⟩ := preL_sub ns m hm
  have := h c hc m hs
  cases m with
  | tok t => simp [hasType]
  | node ty a cs =>
    simp only [hasType, beq_iff_eq]
    intro e
    subst e
    simp [quiet, quietT] at this

mutual
theorem pre_stmts : ∀ (n : Node), Tidy n → (pre n).filter (hasType .statement) = stmtsOf n
  | .tok t, _ => by simp [pre, hasType, stmtsOf]
  | .node ty a cs, h => by
    by_cases hty : ty = .statement
    · subst hty
      have := leafyL_pre (h _ (.refl _) (by simp [hasType]))
      simp only [kidsOf] at this
      simp [pre, hasType, stmtsOf, this]
    · have hk := preL_stmts cs fun c hc m hm => h m (.child hc hm)
      simp [pre, hasType, stmtsOf, hty, hk]
theorem preL_stmts : ∀ (ns : List Node), (∀ n ∈ ns, Tidy n) → (preL ns).filter (hasType .statement) = stmtsL ns
  | [], _ => by simp [preL, stmtsL]
  | n :: ns, h => by
    simp [preL, stmtsL, pre_stmts n (h n (by simp)), preL_stmts ns fun c hc => h c (by simp [hc])]
end

/-- Searching a tree for statements that satisfy `p` finds as many as there are among its commands. -/
theorem under_count {n : Node} (h : Tidy n) (p : Node → Bool) :
    ((under n).filter fun s => hasType .statement s.node && p s.node).length = ((stmtsOf n).filter p).length := by
  have h1 := ((under_perm n).filter (hasType .statement)).filter p
  rw [pre_stmts n h] at h1
  rw [← h1.length_eq, List.filter_map, List.filter_map, List.length_map, List.filter_filter]
  congr 1
  apply List.filter_congr
  intro x _
  simp [Bool.and_comm]

theorem later_any {ns : List Node} (h : ∀ n ∈ ns, Tidy n) :
    ((bfs (sizeOfL ns) (spotsFrom ns 0 ns)).any fun s => hasType .statement s.node) = !(stmtsL ns).isEmpty := by
  have h1 := (later_perm ns).filter (hasType .statement)
  rw [preL_stmts ns h] at h1
  have h2 := h1.length_eq
  rw [List.filter_map, List.length_map] at h2
  rw [Bool.eq_iff_iff]
  simp only [List.any_eq_true, Bool.not_eq_true', List.isEmpty_eq_false_iff]
  constructor
  · rintro ⟨s, hs, ht⟩ e
    rw [e] at h2
    simp only [List.length_nil, List.length_eq_zero_iff, List.filter_eq_nil_iff] at h2
    exact h2 s hs ht
  · intro hne
    have : ((bfs (sizeOfL ns) (spotsFrom ns 0 ns)).filter ((hasType .statement) ∘ (·.node))) ≠ [] := by
      intro e
      rw [e] at h2
      simp only [List.length_nil] at h2
      exact hne (List.length_eq_zero_iff.1 h2.symm)
    obtain ⟨s, hs⟩ := List.exists_mem_of_ne_nil _ this
    rw [List.mem_filter] at hs
    exact ⟨s, hs.1, hs.2⟩

theorem seq_stmts {m : Option (List Str)} {c : Bool} {ns : List Node} (h : Seq m c ns) :
    ∀ s ∈ stmtsL ns, ∃ x, Stmt x s := by
  induction h with
  | nil => simp [stmtsL]
  | other h1 _ ih => simpa [stmtsL, leafy_stmts _ h1] using ih
  | stmt h1 _ _ _ ih =>
    intro s hs
    simp only [stmtsL, stmt_stmtsOf h1, List.cons_append, List.nil_append, List.mem_cons] at hs
    rcases hs with rfl | hs
    · exact ⟨_, h1⟩
    · exact ih s hs
  | loop h1 h2 h3 h4 _ ih1 ih2 =>
    intro s hs
    simp only [stmtsL, stmtsOf, stmt_stmtsOf h2, stmt_stmtsOf h4, List.mem_append, reduceCtorEq, if_false,
      List.mem_cons, List.not_mem_nil, or_false] at hs
    rcases hs with (rfl | hs | rfl) | hs
    · exact ⟨_, h2⟩
    · exact ih1 s hs
    · exact ⟨_, h4⟩
    · exact ih2 s hs
  | ifs h1 _ _ ih1 ih2 =>
    intro s hs
    simp only [stmtsL, stmtsOf, stmt_stmtsOf h1, List.mem_append, reduceCtorEq, if_false,
      List.mem_cons, List.not_mem_nil, or_false] at hs
    rcases hs with (rfl | hs) | hs
    · exact ⟨_, h1⟩
    · exact ih1 s hs
    · exact ih2 s hs
  | openIf h1 _ ih1 =>
    intro s hs
    simp only [stmtsL, stmtsOf, stmt_stmtsOf h1, List.mem_append, reduceCtorEq, if_false,
      List.mem_cons, List.not_mem_nil, or_false] at hs
    rcases hs with rfl | hs
    · exact ⟨_, h1⟩
    · exact ih1 s hs
  | branch _ _ hst _ ih1 ih2 =>
    intro s hs
    simp only [stmtsL, stmtsOf, stmt_stmtsOf hst, List.mem_append, reduceCtorEq, if_false,
      List.mem_cons, List.not_mem_nil, or_false] at hs
    rcases hs with hs | rfl | hs
    · exact ih1 s hs
    · exact ⟨_, hst⟩
    · exact ih2 s hs
  | fi _ he ih1 =>
    intro s hs
    simp only [stmtsL, stmtsOf, stmt_stmtsOf he, List.mem_append, reduceCtorEq, if_false,
      List.mem_cons, List.not_mem_nil, or_false] at hs
    rcases hs with hs | rfl
    · exact ih1 s hs
    · exact ⟨_, he⟩
  | unclosed _ ih1 =>
    intro s hs
    simp only [stmtsL, stmtsOf, List.mem_append, reduceCtorEq, if_false, List.not_mem_nil, or_false] at hs
    exact ih1 s hs

end Verif.Lint
