import Verif.GenSet

/-!
# What is found first (lemmas for cmake-genparsers)
-/

namespace Verif.Gen
open Verif Py Lex Parse
open Verif.Lint (Spot spots spotsFrom kidsOf semToks isNode hasType funName isCall argTree roleOf argsOf nameOf sizeOfL size_kids
  spots_nodes Place places inside stmt_nameOf stmt_funName stmt_stmtsOf leafy_stmts after_plain after_open after_end
  fit_loop Fit loop_names lower_end seq_in)

/-- What is in the queue comes out first. -/
theorem find_queue (names : List Str) : ∀ (q : List Spot) (n : Nat) (r : List Spot), q.length ≤ n →
    ∃ m r', find names n (q ++ r) = q.filter (fun s => decide (Wanted names s.node)) ++ find names m r'
  | [], n, r, _ => ⟨n, r, rfl⟩
  | s :: q, 0, r, h => by simp at h
  | s :: q, n + 1, r, h => by
    simp only [List.length_cons] at h
    rw [List.cons_append, find]
    by_cases hw : Wanted names s.node
    · obtain ⟨m, r', e⟩ := find_queue names q n r (by omega)
      rw [if_pos (show _ ∨ _ from hw), e, List.filter_cons_of_pos (by simpa using hw)]
      exact ⟨m, r', rfl⟩
    · obtain ⟨m, r', e⟩ := find_queue names q n (r ++ (spots s.node).filter fun k => isNode k.node) (by omega)
      rw [if_neg (show ¬ (_ ∨ _) from hw), List.append_assoc, e, List.filter_cons_of_neg (by simpa using hw)]
      exact ⟨m, r', rfl⟩

theorem length_le_size : ∀ (l : List Node), l.length ≤ sizeOfL l
  | [] => by simp
  | n :: l => by
    have := length_le_size l
    simp only [List.length_cons, Lint.sizeOfL]
    have h := size_kids n
    omega

theorem isNode_of {ty : NT} {n : Node} (h : hasType ty n = true) : isNode n = true := by
  cases n <;> simp_all [hasType, isNode]

/-- A statement that is not looked at does not matter. -/
theorem found_unwanted {n : Node} (hw : ¬ Wanted bodyNames n) : found n = .other := by
  cases hs : hasType .statement n with
  | false => exact found_other hs
  | true =>
    have hc : isCall bodyNames n = false := by
      cases hc : isCall bodyNames n with
      | false => rfl
      | true => exact absurd (Or.inr hc) hw
    simp only [isCall, hs, Bool.true_and, List.contains_eq_mem, decide_eq_false_iff_not, bodyNames, List.mem_cons,
      List.not_mem_nil, or_false, not_or] at hc
    simp [found, hs, hc.1, hc.2.1, hc.2.2]

theorem matter_filter (l : List Spot) :
    matter (((l.filter fun k => isNode k.node).filter fun s => decide (Wanted bodyNames s.node)).map fun s => found s.node) =
      matter (((l.map (·.node)).filter (hasType .statement)).map found) := by
  induction l with
  | nil => rfl
  | cons s l ih =>
    have skip : found s.node = .other → matter (found s.node :: ((l.map (·.node)).filter (hasType .statement)).map found) =
        matter (((l.map (·.node)).filter (hasType .statement)).map found) := by
      intro h
      rw [h]
      rfl
    by_cases hs : hasType .statement s.node = true
    · rw [List.filter_cons_of_pos (p := fun k : Spot => isNode k.node) (isNode_of hs), List.map_cons, List.filter_cons_of_pos hs, List.map_cons]
      by_cases hw : Wanted bodyNames s.node
      · rw [List.filter_cons_of_pos (by simpa using hw), List.map_cons]
        unfold matter at ih ⊢
        simp only [List.filter_cons, ih]
      · rw [List.filter_cons_of_neg (by simpa using hw), ih, skip (found_unwanted hw)]
    · have ho : found s.node = .other := found_other (by simpa using hs)
      rw [List.map_cons, List.filter_cons_of_neg hs, ← ih, List.filter_cons]
      split
      · rw [List.filter_cons]
        split
        · rw [List.map_cons, ho]
          rfl
        · rfl
      · rfl

/-- **What is found first in a body** are the statements directly in it, in their order. -/
theorem body_first (b : Attr) (bs : List Node) :
    ∃ rest, matter (bodyFound (.node .body b bs)) = matter ((bs.filter (hasType .statement)).map found) ++ rest := by
  unfold bodyFound findIn
  rw [size_kids]
  have e : find bodyNames (sizeOfL (kidsOf (.node .body b bs)) + 1) [⟨[], 0, .node .body b bs⟩] =
      find bodyNames (sizeOfL bs) (((spots (.node .body b bs)).filter fun k => isNode k.node) ++ []) := by
    have hw : ¬ Wanted bodyNames (.node .body b bs) := by
      rintro (h | h)
      · simp [roleOf] at h
      · simp [isCall, hasType] at h
    rw [find, if_neg (show ¬ (_ ∨ _) from hw)]
    simp [kidsOf]
  have hl : ((spots (.node .body b bs)).filter fun k => isNode k.node).length ≤ sizeOfL bs := by
    refine Nat.le_trans (List.length_filter_le _ _) ?_
    have : (spots (.node .body b bs)).length = bs.length := by
      rw [← List.length_map (f := fun s : Spot => s.node), show (spots (.node .body b bs)).map (·.node) = _ from spots_nodes _ _ _]
      rfl
    rw [this]
    exact length_le_size bs
  obtain ⟨m, r', e2⟩ := find_queue bodyNames _ _ [] hl
  refine ⟨matter ((find bodyNames m r').map fun s => found s.node), ?_⟩
  change matter ((find bodyNames (sizeOfL (kidsOf (.node .body b bs)) + 1) [⟨[], 0, .node .body b bs⟩]).map _) = _
  rw [e, e2, List.map_append, matter_append, matter_filter, show (spots (.node .body b bs)).map (·.node) = _ from spots_nodes _ _ _]
  rfl

/-! ## The statements directly in a body -/

theorem found_name {x : Str} {n : Node} (h : Stmt x n) (hx : lower x ∉ bodyNames) : found n = .other := by
  refine found_unwanted ?_
  rintro (hr | hc)
  · obtain ⟨a, t, cs, rfl, _⟩ := h
    simp [roleOf] at hr
  · simp only [isCall, Bool.and_eq_true, stmt_funName h, List.contains_eq_mem, decide_eq_true_eq] at hc
    exact hx hc.2

/-- The places of a sequence, and which of them are directly in it. -/
theorem seq_direct {m : Option (List Str)} {c : Bool} {ns : List Node} (h : Seq m c ns) : ∀ stop, m = some stop →
    ∀ (K : List Node) (st : List Str), Fit stop st → (c = false → K = []) →
      ∃ P, places st (stmtsL ns ++ K) = P ++ places st K ∧ P.map (·.cmd) = stmtsL ns ∧
        matter ((P.filter (·.blocks == st)).map fun p => found p.cmd) = matter ((ns.filter (hasType .statement)).map found) := by
  induction h with
  | nil => intro stop _ K st hf hc; exact ⟨[], by simp [stmtsL], by simp [stmtsL], by simp⟩
  | @other stop c n ns h1 _ ih =>
    intro stop' es K st hf hc
    obtain ⟨P, e, hp, hm⟩ := ih stop' es K st hf hc
    refine ⟨P, by simpa [stmtsL, leafy_stmts n h1] using e, by simpa [stmtsL, leafy_stmts n h1] using hp, ?_⟩
    rw [hm, List.filter_cons_of_neg (by simp [Lint.not_stmt_leafy h1])]
  | @stmt stop c n ns x h1 h2 h3 hs ih =>
    intro stop' es K st hf hc
    cases es
    obtain ⟨P, e, hp, hm⟩ := ih stop rfl K st hf hc
    refine ⟨⟨n, st, stmtsL ns ++ K⟩ :: P, ?_, by simp [stmtsL, stmt_stmtsOf h1, hp], ?_⟩
    · simp [stmtsL, stmt_stmtsOf h1, places, after_plain h1 h2 h3 hf, e]
    · rw [List.filter_cons_of_pos (by simp), List.filter_cons_of_pos (Lint.stmt_type h1)]
      unfold matter at hm ⊢
      simp only [List.map_cons, List.filter_cons, hm]
  | @loop stop c o e ns bs a' b x h1 h2 h3 h4 _ _ ih2 =>
    intro stop' es K st hf hc
    obtain ⟨n1, n2, n3, n4⟩ := loop_names h1
    have he : nameOf e = S "end" ++ lower x := by rw [stmt_nameOf h4, lower_end]
    obtain ⟨P2, e2, p2, q2⟩ := ih2 stop' es K st hf hc
    obtain ⟨P1, e1, p1, q1⟩ := seq_in h3 (e :: (stmtsL ns ++ K)) (lower x :: st) (fit_loop _ h1) (by simp)
    refine ⟨⟨o, st, stmtsL bs ++ (e :: (stmtsL ns ++ K))⟩ :: (P1 ++ ⟨e, lower x :: st, stmtsL ns ++ K⟩ :: P2), ?_, ?_, ?_⟩
    · have hs : stmtsL (.node .flowControl a' [o, .node .body b bs, e] :: ns) ++ K =
          o :: (stmtsL bs ++ (e :: (stmtsL ns ++ K))) := by
        simp [stmtsL, stmtsOf, stmt_stmtsOf h2, stmt_stmtsOf h4]
      rw [hs, places, after_open h2 n1, e1, places, after_end he n2, e2]
      simp
    · simp [stmtsL, stmtsOf, stmt_stmtsOf h2, stmt_stmtsOf h4, p1, p2]
    · have ho : found o = .other := by
        refine found_name h2 ?_
        simp only [List.mem_cons, List.not_mem_nil, or_false] at h1
        rcases h1 with rfl | rfl | rfl | rfl <;> decide
      have hP1 : P1.filter (·.blocks == st) = [] := by
        rw [List.filter_eq_nil_iff]
        intro p hp
        have hl : st.length < p.blocks.length := by
          rcases q1 p hp with ⟨e, _⟩ | l
          · rw [e]; simp
          · simp only [List.length_cons] at l; omega
        simp only [beq_iff_eq]
        intro e
        rw [e] at hl
        omega
      have hne : ¬ (lower x :: st == st) = true := by
        simp only [beq_iff_eq]
        intro e
        have := congrArg List.length e
        simp at this
      rw [List.filter_cons_of_pos (by simp), List.filter_append, hP1, List.nil_append, List.filter_cons_of_neg (by exact hne),
        List.filter_cons_of_neg (by simp [hasType]), List.map_cons, ← q2, ho]
      rfl
  | @ifs stop c o ns rest a' h1 h2 _ _ ih2 =>
    intro stop' es K st hf hc
    obtain ⟨P2, e2, p2, q2⟩ := ih2 stop' es K st hf hc
    obtain ⟨P1, e1, p1, q1⟩ := seq_in h2 (stmtsL ns ++ K) st (by simp)
    refine ⟨⟨o, st, stmtsL rest ++ (stmtsL ns ++ K)⟩ :: (P1 ++ P2), ?_, ?_, ?_⟩
    · have hs : stmtsL (.node .flowControl a' (o :: rest) :: ns) ++ K = o :: (stmtsL rest ++ (stmtsL ns ++ K)) := by
        simp [stmtsL, stmtsOf, stmt_stmtsOf h1]
      rw [hs, places, after_open h1 rfl, show lower (S "IF") = S "if" from rfl, e1, e2]
      simp
    · simp [stmtsL, stmtsOf, stmt_stmtsOf h1, p1, p2]
    · have ho : found o = .other := found_name h1 (by decide)
      have hP1 : P1.filter (·.blocks == st) = [] := by
        rw [List.filter_eq_nil_iff]
        intro p hp
        have hl := q1 p hp
        simp only [beq_iff_eq]
        intro e
        rw [e] at hl
        omega
      rw [List.filter_cons_of_pos (by simp), List.filter_append, hP1, List.nil_append,
        List.filter_cons_of_neg (by simp [hasType]), List.map_cons, ← q2, ho]
      rfl
  | @openIf stop o rest a' h1 h2 _ =>
    intro stop' es K st hf hc
    have := hc rfl
    subst this
    obtain ⟨P1, e1, p1, q1⟩ := seq_in h2 [] st (by simp)
    refine ⟨⟨o, st, stmtsL rest ++ []⟩ :: P1, ?_, by simp [stmtsL, stmtsOf, stmt_stmtsOf h1, p1], ?_⟩
    · have hs : stmtsL [.node .flowControl a' (o :: rest)] ++ [] = o :: (stmtsL rest ++ []) := by
        simp [stmtsL, stmtsOf, stmt_stmtsOf h1]
      simp only [hs, places, after_open h1 rfl, show lower (S "IF") = S "if" from rfl, e1]
      simp
    · have ho : found o = .other := found_name h1 (by decide)
      have hP1 : P1.filter (·.blocks == st) = [] := by
        rw [List.filter_eq_nil_iff]
        intro p hp
        have hl := q1 p hp
        simp only [beq_iff_eq]
        intro e
        rw [e] at hl
        omega
      rw [List.filter_cons_of_pos (by simp), hP1, List.filter_cons_of_neg (by simp [hasType]), List.map_cons, ho]
      rfl
  | branch => intro stop es; cases es
  | fi => intro stop es; cases es
  | unclosed => intro stop es; cases es

/-- The commands directly in a block: not in a block inside it. -/
def directIn (name : Str) (later : List Node) : List Node :=
  (((places [name] later).takeWhile fun p => !(p.blocks == [name] && nameOf p.cmd == c! "end" ++ name)).filter
    (·.blocks == [name])).map (·.cmd)

theorem prefix_eq {α : Type} {a b l r : List α} (h : a ++ r = l) (hb : b <+: l) (hl : a.length = b.length) : a = b := by
  obtain ⟨r', rfl⟩ := hb
  exact (List.append_inj h hl).1

/-- **The statements directly in a body** are found first. -/
theorem direct_first {x : Str} {b : Attr} {bs K : List Node} {e : Node} (h1 : lower x ∈ defNames) (hs : ∃ o, Stmt x o)
    (h3 : Seq (some [S "END" ++ x]) true bs) (hi : inside (lower x) (stmtsL bs ++ e :: K) = stmtsL bs) :
    ∃ rest, matter (bodyFound (.node .body b bs)) = matter ((directIn (lower x) (stmtsL bs ++ e :: K)).map found) ++ rest := by
  have hx : x ∈ [S "WHILE", S "FOREACH", S "FUNCTION", S "MACRO"] := by
    obtain ⟨o, ho⟩ := hs
    have hu := Lint.stmt_upper ho
    simp only [defNames, List.mem_cons, List.not_mem_nil, or_false] at h1
    rw [← hu]
    rcases h1 with h1 | h1 <;> rw [h1] <;> decide
  obtain ⟨P, e1, p1, q1⟩ := seq_direct h3 _ rfl (e :: K) [lower x] (fit_loop _ hx) (by simp)
  obtain ⟨rest, hr⟩ := body_first b bs
  refine ⟨rest, ?_⟩
  rw [hr, ← q1]
  have : P = (places [lower x] (stmtsL bs ++ e :: K)).takeWhile fun p => !(p.blocks == [lower x] && nameOf p.cmd == c! "end" ++ lower x) := by
    refine prefix_eq e1.symm (List.takeWhile_prefix _) ?_
    have := congrArg List.length hi
    rw [inside, List.length_map] at this
    rw [this, ← p1, List.length_map]
  rw [directIn, ← this, List.map_map]
  rfl

end Verif.Gen
