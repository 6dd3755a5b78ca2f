import Verif.LintHandSpec
import Verif.LintOk
import Verif.LintParams

/-!
# Argument parsers written by hand (lemmas for C96)
-/

namespace Verif.Lint
open Verif Py Lex Parse

/-! ## Choices -/

theorem OneOfEach.append {α : Type} {as bs : List (List α)} {xs ys : List α} (h : OneOfEach as xs) (h' : OneOfEach bs ys) :
    OneOfEach (as ++ bs) (xs ++ ys) := by
  induction h with
  | nil => exact h'
  | skip _ ih => exact .skip ih
  | pick hx _ ih => exact .pick hx ih

theorem OneOfEach.perm {α : Type} {as bs : List (List α)} (hp : as.Perm bs) : ∀ {xs : List α}, OneOfEach as xs →
    ∃ ys, xs.Perm ys ∧ OneOfEach bs ys := by
  induction hp with
  | nil => intro xs h; exact ⟨xs, .refl _, h⟩
  | cons a _ ih =>
    intro xs h
    cases h with
    | skip h => obtain ⟨ys, p, q⟩ := ih h; exact ⟨ys, p, .skip q⟩
    | pick hx h => obtain ⟨ys, p, q⟩ := ih h; exact ⟨_, p.cons _, .pick hx q⟩
  | swap a b l =>
    intro xs h
    cases h with
    | skip h =>
      cases h with
      | skip h => exact ⟨_, .refl _, .skip (.skip h)⟩
      | pick hx h => exact ⟨_, .refl _, .pick hx (.skip h)⟩
    | pick hx h =>
      cases h with
      | skip h => exact ⟨_, .refl _, .skip (.pick hx h)⟩
      | pick hy h => exact ⟨_, .swap _ _ _, .pick hy (.pick hx h)⟩
  | trans _ _ ih1 ih2 =>
    intro xs h
    obtain ⟨ys, p, h⟩ := ih1 h
    obtain ⟨zs, q, h⟩ := ih2 h
    exact ⟨zs, p.trans q, h⟩

/-! ## The queue -/

theorem mem_spotsFrom {all : List Node} {s : Spot} : ∀ {ns : List Node} {i : Nat}, s ∈ spotsFrom all i ns ↔
    s.kids = all ∧ i ≤ s.idx ∧ ns[s.idx - i]? = some s.node
  | [], i => by simp [spotsFrom]
  | n :: ns, i => by
    rw [spotsFrom, List.mem_cons, mem_spotsFrom (ns := ns)]
    constructor
    · rintro (rfl | ⟨h1, h2, h3⟩)
      · simp
      · refine ⟨h1, by omega, ?_⟩
        rw [show s.idx - i = (s.idx - (i + 1)) + 1 by omega]
        simpa using h3
    · rintro ⟨h1, h2, h3⟩
      by_cases e : s.idx = i
      · left
        rw [e] at h3
        simp only [Nat.sub_self, List.getElem?_cons_zero, Option.some.injEq] at h3
        cases s
        simp_all
      · right
        refine ⟨h1, by omega, ?_⟩
        rw [show s.idx - i = (s.idx - (i + 1)) + 1 by omega] at h3
        simpa using h3

theorem mem_spots {n : Node} {s : Spot} : s ∈ spots n ↔ s.kids = kidsOf n ∧ (kidsOf n)[s.idx]? = some s.node := by
  simp [spots, mem_spotsFrom]

theorem mem_bfs {s : Spot} : ∀ (n : Nat) (q : List Spot), sizeOfL (q.map (·.node)) ≤ n →
    (s ∈ bfs n q ↔ ∃ r ∈ q, s = r ∨ ∃ m, Sub m r.node ∧ s ∈ spots m)
  | 0, [], _ => by simp [bfs]
  | 0, s :: q, h => by
    rw [List.map_cons, sizeOfL, size_kids] at h
    omega
  | n + 1, [], _ => by simp [bfs]
  | n + 1, r :: q, h => by
    rw [List.map_cons, sizeOfL, size_kids] at h
    have hkids : (spots r.node).map (·.node) = kidsOf r.node := spots_nodes _ _ _
    rw [bfs, List.mem_cons, mem_bfs n (q ++ spots r.node) (by
      rw [List.map_append, sizeOfL_append, hkids]; omega)]
    constructor
    · rintro (rfl | ⟨r', hr, hs⟩)
      · exact ⟨s, by simp, Or.inl rfl⟩
      · rcases List.mem_append.1 hr with hr | hr
        · exact ⟨r', by simp [hr], hs⟩
        · refine ⟨r, by simp, Or.inr ?_⟩
          rcases hs with rfl | ⟨m, h1, h2⟩
          · exact ⟨r.node, .refl _, hr⟩
          · refine ⟨m, ?_, h2⟩
            have h3 := List.mem_of_getElem? (mem_spots.1 hr).2
            cases e : r.node with
            | tok t => rw [e] at h3; simp [kidsOf] at h3
            | node ty a cs => rw [e] at h3; exact .child h3 h1
    · rintro ⟨r', hr, hs⟩
      rcases List.mem_cons.1 hr with rfl | hr
      · rcases hs with rfl | ⟨m, h1, h2⟩
        · exact Or.inl rfl
        · right
          generalize e : r'.node = z at h1
          cases h1 with
          | refl => exact ⟨s, by simp [h2], Or.inl rfl⟩
          | @child c ty a cs hc h1 =>
            obtain ⟨i, hi⟩ := List.getElem?_of_mem hc
            refine ⟨⟨cs, i, c⟩, List.mem_append_right _ (mem_spots.2 ?_), Or.inr ⟨m, h1, h2⟩⟩
            exact ⟨rfl, hi⟩
      · exact Or.inr ⟨r', by simp [hr], hs⟩

/-! ## Nodes and visits -/

mutual
theorem sub_visit : ∀ (n : Node) (anc : List Frame) (ty : NT) (a : Attr) (cs : List Node), Sub (.node ty a cs) n →
    ∃ v ∈ visits anc n, v.2 = .node ty a cs
  | .tok t, anc, ty, a, cs, h => by cases h
  | .node ty' a' cs', anc, ty, a, cs, h => by
    cases h with
    | refl => exact ⟨(anc, .node ty' a' cs'), by simp [visits], rfl⟩
    | child hc h =>
      obtain ⟨v, h1, h2⟩ := sub_visitL cs' anc ty' a' cs' 0 ty a cs _ hc h
      exact ⟨v, by simp [visits, h1], h2⟩
theorem sub_visitL : ∀ (ns : List Node) (anc : List Frame) (ty' : NT) (a' : Attr) (all : List Node) (i : Nat) (ty : NT)
    (a : Attr) (cs : List Node) (c : Node), c ∈ ns → Sub (.node ty a cs) c →
    ∃ v ∈ visitsL anc ty' a' all i ns, v.2 = .node ty a cs
  | [], _, _, _, _, _, _, _, _, c, hc, _ => by simp at hc
  | n :: ns, anc, ty', a', all, i, ty, a, cs, c, hc, h => by
    rcases List.mem_cons.1 hc with e | hc
    · obtain ⟨v, h1, h2⟩ := sub_visit n (⟨ty', a', all, i⟩ :: anc) ty a cs (e ▸ h)
      exact ⟨v, by simp [visitsL, h1], h2⟩
    · obtain ⟨v, h1, h2⟩ := sub_visitL ns anc ty' a' all (i + 1) ty a cs c hc h
      exact ⟨v, by simp [visitsL, h1], h2⟩
end

theorem mem_nodesOf {β : Type} {ff : List Node → List β} {n : Node} {anc : List Frame} {x : β} :
    x ∈ nodesOf (fun _ _ => []) ff (visits anc n) ↔ ∃ a cs, Sub (.node .flowControl a cs) n ∧ x ∈ ff cs := by
  rw [nodesOf_loud, List.mem_flatMap]
  constructor
  · rintro ⟨v, hv, hx⟩
    have hs := visits_sub _ _ _ (List.mem_filter.1 hv).1
    rcases loud_types hv with ⟨a, cs, ev⟩ | ⟨a, cs, ev⟩ | ⟨a, cs, ev⟩ <;> rw [ev] at hx hs
    · simp [itemsOf_nil] at hx
    · exact ⟨a, cs, hs, hx⟩
    · simp at hx
  · rintro ⟨a, cs, hs, hx⟩
    obtain ⟨v, hv, e⟩ := sub_visit n anc _ a cs hs
    refine ⟨v, List.mem_filter.2 ⟨hv, by rw [e]; rfl⟩, ?_⟩
    rw [e]
    exact hx

/-! ## Where loops stand -/

/-- The loops that are looked at. -/
def loopNames : List Str := [S "foreach", S "while"]

/-- A block of a loop or of a definition. -/
def LoopShape (cs : List Node) : Prop :=
  ∃ x o b bs e, cs = [o, .node .body b bs, e] ∧ x ∈ [S "WHILE", S "FOREACH", S "FUNCTION", S "MACRO"] ∧ Stmt x o ∧
    Seq (some [S "END" ++ x]) true bs ∧ Stmt (S "END" ++ x) e

/-- The children of a node. -/
def KidShape (ty : NT) (cs : List Node) : Prop :=
  (ty = .flowControl ∧ LoopShape cs) ∨
    ((ty = .flowControl → ∃ o rest, cs = o :: rest ∧ Stmt (S "IF") o) ∧ ∀ c ∈ cs, isCall loopNames c = false)

theorem isCall_leafy {n : Node} (h : Leafy n) : isCall loopNames n = false := by
  simp [isCall, not_stmt_leafy h]

theorem not_loop {x : Str} (h2 : x ∉ flowNames) (hu : upper (lower x) = x) : loopNames.contains (lower x) = false := by
  cases e : loopNames.contains (lower x) with
  | false => rfl
  | true =>
    exfalso
    apply h2
    rw [← hu]
    simp only [loopNames, List.contains_eq_mem, List.mem_cons, List.not_mem_nil, or_false, decide_eq_true_eq] at e
    rcases e with e | e <;> rw [e] <;> decide

theorem isCall_stmt {x : Str} {n : Node} (h : Stmt x n) : isCall loopNames n = loopNames.contains (lower x) := by
  simp [isCall, stmt_type h, stmt_funName h]

theorem shape_leafy {n : Node} (h : Leafy n) {ty : NT} {a : Attr} {cs : List Node} (hs : Sub (.node ty a cs) n) :
    KidShape ty cs := by
  have h1 := h _ hs
  refine Or.inr ⟨fun e => ?_, fun c hc => ?_⟩
  · subst e; simp [quiet, quietT] at h1
  · exact isCall_leafy fun m hm => h m (sub_trans (.child hc hm) hs)

theorem shape_stmt {x : Str} {n : Node} (h : Stmt x n) {ty : NT} {a : Attr} {cs : List Node} (hs : Sub (.node ty a cs) n) :
    KidShape ty cs := by
  cases hs with
  | refl =>
    refine Or.inr ⟨fun e => ?_, fun c hc => isCall_leafy (stmt_kids h c hc)⟩
    subst e
    obtain ⟨_, _, _, e, _⟩ := h
    cases e
  | child hc hs => exact shape_leafy (stmt_kids h _ hc) hs

/-- What is known about a list of nodes. -/
def Shaped (ns : List Node) : Prop :=
  (∀ n ∈ ns, isCall loopNames n = false) ∧ ∀ n ∈ ns, ∀ ty a cs, Sub (.node ty a cs) n → KidShape ty cs

theorem shaped_cons {n : Node} {ns : List Node} (h1 : isCall loopNames n = false)
    (h2 : ∀ ty a cs, Sub (.node ty a cs) n → KidShape ty cs) (h : Shaped ns) : Shaped (n :: ns) := by
  constructor
  · intro m hm
    rcases List.mem_cons.1 hm with rfl | hm
    · exact h1
    · exact h.1 m hm
  · intro m hm
    rcases List.mem_cons.1 hm with rfl | hm
    · exact h2
    · exact h.2 m hm

theorem shaped_nil : Shaped [] := ⟨by simp, by simp⟩

theorem shape_body {b : Attr} {bs : List Node} (h : Shaped bs) : ∀ ty a cs, Sub (.node ty a cs) (.node .body b bs) → KidShape ty cs := by
  intro ty a cs hs
  cases hs with
  | refl => exact Or.inr ⟨by simp, h.1⟩
  | child hc hs => exact h.2 _ hc _ _ _ hs

theorem shape_if {a0 : Attr} {o : Node} {rest : List Node} (ho : Stmt (S "IF") o) (h : Shaped rest) :
    ∀ ty a cs, Sub (.node ty a cs) (.node .flowControl a0 (o :: rest)) → KidShape ty cs := by
  have ho' : isCall loopNames o = false := by rw [isCall_stmt ho]; decide
  intro ty a cs hs
  cases hs with
  | refl =>
    refine Or.inr ⟨fun _ => ⟨o, rest, rfl, ho⟩, fun c hc => ?_⟩
    rcases List.mem_cons.1 hc with rfl | hc
    · exact ho'
    · exact h.1 c hc
  | child hc hs =>
    rcases List.mem_cons.1 hc with rfl | hc
    · exact shape_stmt ho hs
    · exact h.2 _ hc _ _ _ hs

theorem seq_shaped {m : Option (List Str)} {c : Bool} {ns : List Node} (h : Seq m c ns) : Shaped ns := by
  induction h with
  | nil => exact shaped_nil
  | other h1 _ ih => exact shaped_cons (isCall_leafy h1) (fun _ _ _ hs => shape_leafy h1 hs) ih
  | stmt h1 h2 h3 _ ih =>
    exact shaped_cons (by rw [isCall_stmt h1, not_loop h3 (stmt_upper h1)]) (fun _ _ _ hs => shape_stmt h1 hs) ih
  | @loop stop c o e ns bs a b x h1 h2 h3 h4 _ ih1 ih2 =>
    refine shaped_cons rfl (fun ty a' cs hs => ?_) ih2
    cases hs with
    | refl => exact Or.inl ⟨rfl, x, o, b, bs, e, rfl, h1, h2, h3, h4⟩
    | child hc hs =>
      simp only [List.mem_cons, List.not_mem_nil, or_false] at hc
      rcases hc with rfl | rfl | rfl
      · exact shape_stmt h2 hs
      · exact shape_body ih1 _ _ _ hs
      · exact shape_stmt h4 hs
  | ifs h1 _ _ ih1 ih2 => exact shaped_cons rfl (shape_if h1 ih1) ih2
  | openIf h1 _ ih => exact shaped_cons rfl (shape_if h1 ih) shaped_nil
  | branch _ hx h2 _ ih1 ih2 =>
    refine shaped_cons rfl (shape_body ih1) (shaped_cons ?_ (fun _ _ _ hs => shape_stmt h2 hs) ih2)
    rw [isCall_stmt h2]
    rcases hx with rfl | rfl <;> decide
  | fi _ h2 ih =>
    refine shaped_cons rfl (shape_body ih) (shaped_cons ?_ (fun _ _ _ hs => shape_stmt h2 hs) shaped_nil)
    rw [isCall_stmt h2]
    decide
  | unclosed _ ih => exact shaped_cons rfl (shape_body ih) shaped_nil

/-! ## Loops in the tree and among the commands -/

/-- The loop that a block is, with the commands inside it. -/
def loopsF : List Node → List (Node × List Node)
  | [o, .node .body _ bs, _] => if loopNames.contains (funName o) then [(o, stmtsL bs)] else []
  | _ => []

/-- The loop that a command opens, with the commands inside it. -/
def loopsG (p : Place) : List (Node × List Node) :=
  if loopNames.contains (nameOf p.cmd) then [(p.cmd, inside (nameOf p.cmd) p.later)] else []

theorem loops_link : Link (fun _ _ => []) loopsF loopsG where
  quiet n ns h := rfl
  plain stop c x n ns K st h h1 h2 hs hf hk := by
    have := not_loop h2 (stmt_upper h)
    rw [← stmt_nameOf h] at this
    exact if_neg (by simp only [this]; simp)
  loop x o' e b bs K st h1 h2 h3 h4 := by
    simp only [loopsG, loopsF, stmt_nameOf h2, stmt_funName h2, inside_body h1 h3 h4]
  ifs o' rest K st h := by
    have hn : nameOf o' = S "if" := by rw [stmt_nameOf h]; rfl
    have hf : funName o' = S "if" := by rw [stmt_funName h]; rfl
    have z : loopsF (o' :: rest) = [] := by
      unfold loopsF
      split
      · rename_i e
        simp only [List.cons.injEq] at e
        obtain ⟨rfl, rfl⟩ := e
        rw [hf]
        rfl
      · rfl
    rw [z]
    exact if_neg (by rw [show (Place.mk o' st K).cmd = o' from rfl, hn]; decide)
  mark x n st K h h1 _ := by
    refine if_neg ?_
    rw [show (Place.mk n st K).cmd = n from rfl, stmt_nameOf h]
    simp only [List.mem_cons, List.not_mem_nil, or_false] at h1
    rcases h1 with rfl | rfl | rfl | rfl | rfl | rfl | rfl <;> decide

theorem loopsOf_eq (cmds : List Node) : loopsOf cmds = (places [] cmds).flatMap loopsG := by
  unfold loopsOf
  generalize places [] cmds = ps
  induction ps with
  | nil => rfl
  | cons p ps ih =>
    rw [List.flatMap_cons, ← ih, List.filter_cons]
    unfold loopsG
    split <;> rename_i h
    · rw [if_pos (by exact h)]; rfl
    · rw [if_neg (by exact h)]; rfl

theorem mem_loopsOf {stop : List Str} {c : Bool} {b : Attr} {bs : List Node} (h : Seq (some stop) c bs) {x : Node × List Node} :
    x ∈ loopsOf (stmtsL bs) ↔ ∃ a cs, Sub (.node .flowControl a cs) (.node .body b bs) ∧ x ∈ loopsF cs := by
  obtain ⟨P, e, hp⟩ := seq_link loops_link h [] b bs 0 [] [] trivial (by simp) (Or.inl rfl)
  simp only [List.append_nil, places] at e
  rw [loopsOf_eq, e, hp.mem_iff, itemsOf_nil, List.nil_append, ← mem_nodesOf (anc := []), nodesOf_body, itemsOf_nil,
    List.nil_append]

theorem spot_loop {stop : List Str} {b : Attr} {bs : List Node} (h : Seq (some stop) true bs) {s : Spot}
    (hs : s ∈ callsIn loopNames (.node .body b bs)) :
    ∃ b' bs', blockOf s.kids s.idx = some (s.node, .node .body b' bs') ∧ Sub (.node .body b' bs') (.node .body b bs) ∧
      (s.node, stmtsL bs') ∈ loopsOf (stmtsL bs) := by
  obtain ⟨h1, h2⟩ := List.mem_filter.1 hs
  rw [under, mem_bfs _ _ (by simp [sizeOfL])] at h1
  simp only [List.mem_singleton, exists_eq_left] at h1
  rcases h1 with rfl | ⟨m, hm, hsp⟩
  · simp [isCall, hasType] at h2
  · rw [mem_spots] at hsp
    have hmem := List.mem_of_getElem? hsp.2
    cases m with
    | tok t => simp [kidsOf] at hmem
    | node ty a cs =>
      simp only [kidsOf] at hsp hmem
      rcases shape_body (b := b) (seq_shaped h) _ _ _ hm with ⟨rfl, x, o, b', bs', e, rfl, hx, ho, hb, he⟩ | ⟨_, hn⟩
      · have hi : s.idx = 0 := by
          match hi : s.idx, hsp.2 with
          | 0, _ => rfl
          | 1, e1 =>
            simp only [List.getElem?_cons_succ, List.getElem?_cons_zero, Option.some.injEq] at e1
            rw [← e1] at h2
            simp [isCall, hasType] at h2
          | 2, e1 =>
            simp only [List.getElem?_cons_succ, List.getElem?_cons_zero, Option.some.injEq] at e1
            rw [← e1, isCall_stmt he] at h2
            simp only [List.mem_cons, List.not_mem_nil, or_false] at hx
            rcases hx with rfl | rfl | rfl | rfl <;> exact absurd h2 (by decide)
          | k + 3, e1 => simp at e1
        rw [hi] at hsp
        simp only [List.getElem?_cons_zero, Option.some.injEq] at hsp
        refine ⟨b', bs', ?_, sub_trans (.child (by simp) (.refl _)) hm, (mem_loopsOf h).2 ⟨a, _, hm, ?_⟩⟩
        · rw [hi, hsp.1, ← hsp.2]; rfl
        · simp only [isCall, Bool.and_eq_true] at h2
          rw [hsp.2]
          simp only [loopsF, h2.2, if_true, List.mem_singleton]
      · rw [hn _ hmem] at h2
        simp at h2

theorem loop_spot {stop : List Str} {b : Attr} {bs : List Node} (h : Seq (some stop) true bs) {x : Node × List Node}
    (hx : x ∈ loopsOf (stmtsL bs)) : ∃ s ∈ callsIn loopNames (.node .body b bs), s.node = x.1 ∧ ∃ b' bs',
      blockOf s.kids s.idx = some (s.node, .node .body b' bs') ∧ stmtsL bs' = x.2 := by
  obtain ⟨a, cs, hs, hx⟩ := (mem_loopsOf (b := b) h).1 hx
  unfold loopsF at hx
  split at hx
  · rename_i o b' bs' e
    split at hx
    · rename_i hn
      simp only [List.mem_singleton] at hx
      subst hx
      have ht : hasType .statement o = true := by
        rcases shape_body (b := b) (seq_shaped h) _ _ _ hs with ⟨_, y, o', _, _, _, e', _, ho, _⟩ | ⟨h1, _⟩
        · injection e' with e1 _
          subst e1
          exact stmt_type ho
        · obtain ⟨o', r', e', ho⟩ := h1 rfl
          injection e' with e1 _
          subst e1
          exact stmt_type ho
      refine ⟨⟨[o, .node .body b' bs', e], 0, o⟩, List.mem_filter.2 ⟨?_, ?_⟩, rfl, b', bs', rfl, rfl⟩
      · rw [under, mem_bfs _ _ (by simp [sizeOfL])]
        exact ⟨_, List.mem_singleton.2 rfl, Or.inr ⟨_, hs, mem_spots.2 ⟨rfl, rfl⟩⟩⟩
      · simp only [isCall, ht, Bool.true_and]; exact hn
    · simp at hx
  · simp at hx

/-! ## Conditions -/

/-- The condition that a node is. -/
def condOf : Node → List (List Token)
  | .tok _ => []
  | .node ty a cs => if ty = .argGroup ∧ a.role = .conditional then [program (toksL cs)] else []

mutual
theorem conditions_pre : ∀ n : Node, conditions n = (pre n).flatMap condOf
  | .tok t => by simp [conditions, pre, condOf]
  | .node ty a cs => by simp only [conditions, pre, List.flatMap_cons, condOf, conditionsL_pre cs]
theorem conditionsL_pre : ∀ ns : List Node, conditionsL ns = (preL ns).flatMap condOf
  | [] => by simp [conditionsL, preL]
  | n :: ns => by simp only [conditionsL, preL, List.flatMap_append, conditions_pre n, conditionsL_pre ns]
end

theorem conditionsL_leaves (ts : List Token) : conditionsL (leaves ts) = [] := by
  induction ts with
  | nil => simp [leaves, conditionsL]
  | cons t ts ih => simpa [leaves, conditionsL, conditions] using ih

theorem conditionsL_append (a b : List Node) : conditionsL (a ++ b) = conditionsL a ++ conditionsL b := by
  induction a with
  | nil => simp [conditionsL]
  | cons n ns ih => simp [conditionsL, ih]

theorem countConds_ok {var : Str} : ∀ {ss : List Spot} {n : Nat}, countConds var ss = .ok n →
    n = ((ss.map (·.node)).flatMap condOf).countP (compares var)
  | [], n, h => by simp only [countConds, Except.ok.injEq] at h; simp [← h]
  | s :: rest, n, h => by
    rw [List.map_cons, List.flatMap_cons, List.countP_append]
    unfold countConds at h
    split at h
    · rename_i a cs e
      rw [e]
      split at h
      · rename_i hr
        have hc : condOf (.node .argGroup a cs) = [program (toksL cs)] := by simp [condOf, hr]
        have ht : semToks s.node = program (toksL cs) := by rw [e, semToks, program_semantics]; simp
        rw [hc]
        rw [ht] at h
        split at h
        · rename_i et
          rw [countConds_ok h, et]
          simp [compares]
        · rename_i t ts et
          rw [et]
          split at h
          · rename_i hv
            split at h
            · simp at h
            · rename_i u us
              simp only [res_bind, res_pure] at h
              obtain ⟨k, hk, rfl⟩ := h
              rw [countConds_ok hk]
              simp only [List.countP_singleton, compares, hv, beq_self_eq_true, Bool.true_and]
              split <;> rename_i hu
              · rw [if_pos (by exact hu)]; omega
              · rw [if_neg (by exact hu)]; omega
          · rename_i hv
            rw [countConds_ok h]
            have : compares var (t :: ts) = false := by
              cases ts <;> simp [compares, hv]
            simp [this]
      · rename_i hr
        rw [countConds_ok h]
        simp [condOf, hr]
    · rename_i hne
      rw [countConds_ok h]
      have : condOf s.node = [] := by
        cases e : s.node with
        | tok t => rfl
        | node ty a cs =>
          simp only [condOf]
          rw [if_neg]
          rintro ⟨rfl, _⟩
          exact hne a cs e
      simp [this]

theorem countConds_succeeds {var : Str} : ∀ {ss : List Spot},
    (∀ w ∈ (ss.map (·.node)).flatMap condOf, w.map (·.spelling) ≠ [var]) → ∃ n, countConds var ss = .ok n
  | [], _ => ⟨_, rfl⟩
  | s :: rest, h => by
    rw [List.map_cons, List.flatMap_cons] at h
    obtain ⟨n, hn⟩ := countConds_succeeds (var := var) (ss := rest) fun w hw => h w (List.mem_append_right _ hw)
    unfold countConds
    split
    · rename_i a cs e
      split
      · rename_i hr
        have hc : condOf s.node = [semToks s.node] := by rw [e, semToks, program_semantics]; simp [condOf, hr]
        have h1 := h (semToks s.node) (by rw [hc]; simp)
        split
        · exact ⟨n, hn⟩
        · rename_i t ts et
          split
          · rename_i hv
            split
            · rw [et] at h1
              simp [hv] at h1
            · simp only [hn, bind, Except.bind]
              exact ⟨_, rfl⟩
          · exact ⟨n, hn⟩
      · exact ⟨n, hn⟩
    · exact ⟨n, hn⟩

variable {ctx : Parse.Ctx}

theorem conditions_comment {a : Attr} {ds : List Node} (h : Neat ctx (.node .comment a ds)) :
    conditions (.node .comment a ds) = [] := by
  obtain ⟨t, ts, rfl, _⟩ := (neat_node.1 h).1
  simp [conditions, conditionsL_leaves]

theorem conditions_trail {cs : List Node} (h : Trail cs) (hn : ∀ c ∈ cs, Neat ctx c) : conditionsL cs = [] := by
  rcases h with rfl | ⟨ws, a, ds, rfl, _⟩
  · simp [conditionsL]
  · simp [conditionsL_append, conditionsL_leaves, conditionsL, conditions_comment (hn (.node .comment a ds) (by simp))]

mutual
theorem conditions_stmts : ∀ n : Node, Neat ctx n → (Block n ∨ FlowPart n) → conditions n = (stmtsOf n).flatMap conditions
  | .tok t, _, h => by simp [Block, FlowPart] at h
  | .node ty a cs, hn, h => by
    obtain ⟨here, kids⟩ := neat_node.1 hn
    have hty : ty = .statement ∨ ty = .body ∨ ty = .flowControl ∨ ty = .whitespace ∨ ty = .comment ∨ ty = .onoff ∨
        ty = .atwordStatement := by
      simp only [Block, FlowPart] at h
      rcases h with (h | h | h | h | h | h) | (h | h) <;> simp [h]
    rcases hty with rfl | rfl | rfl | rfl | rfl | rfl | rfl
    · simp [stmtsOf]
    · simp only [conditions, stmtsOf]
      simpa using conditions_stmtsL cs kids fun c hc => Or.inl (here c hc)
    · simp only [conditions, stmtsOf]
      simpa using conditions_stmtsL cs kids fun c hc => Or.inr (here c hc)
    · rw [leafy_stmts _ (leafy_of_neat hn rfl)]
      obtain ⟨t, ts, rfl, _⟩ := here
      simp [conditions, conditionsL_leaves]
    · rw [leafy_stmts _ (leafy_of_neat hn rfl)]
      obtain ⟨t, ts, rfl, _⟩ := here
      simp [conditions, conditionsL_leaves]
    · rw [leafy_stmts _ (leafy_of_neat hn rfl)]
      obtain ⟨t, rfl, _⟩ := here
      simp [conditions, conditionsL]
    · rw [leafy_stmts _ (leafy_of_neat hn rfl)]
      obtain ⟨t, trail, rfl, ht⟩ := here
      have k := conditions_trail ht fun c hc => kids c (by simp [hc])
      simp [conditions, conditionsL, k, mk]
theorem conditions_stmtsL : ∀ ns : List Node, (∀ c ∈ ns, Neat ctx c) → (∀ c ∈ ns, Block c ∨ FlowPart c) →
    conditionsL ns = (stmtsL ns).flatMap conditions
  | [], _, _ => by simp [conditionsL, stmtsL]
  | n :: ns, h, h' => by
    simp only [conditionsL, stmtsL, List.flatMap_append]
    rw [conditions_stmts n (h n (by simp)) (h' n (by simp)),
      conditions_stmtsL ns (fun c hc => h c (by simp [hc])) fun c hc => h' c (by simp [hc])]
end

theorem under_conditions {b : Attr} {bs : List Node} (hn : Neat ctx (.node .body b bs)) :
    ((under (.node .body b bs)).map (·.node)).flatMap condOf |>.Perm ((stmtsL bs).flatMap conditions) := by
  refine ((under_perm _).flatMap_right _).trans (.of_eq ?_)
  rw [← conditions_pre, conditions_stmts _ hn (Or.inr (Or.inr rfl))]
  simp [stmtsOf]

/-! ## The check of a definition -/

/-- A loop for which the code makes the record. -/
def spotHand (limit : Int) (s : Spot) : Prop :=
  loopsOverArgn s.node = true ∧ ∃ t ts o b n, semToks (argTree s.node) = t :: ts ∧ blockOf s.kids s.idx = some (o, b) ∧
    countConds t.spelling (under b) = .ok n ∧ (n : Int) > limit

theorem checkLoops_ok {o : Opts} : ∀ {ss : List Spot} {c : List Call}, checkLoops o ss = .ok c →
    (c = [] ∧ ∀ s ∈ ss, loopsOverArgn s.node = true → ∃ t ts o' b n, semToks (argTree s.node) = t :: ts ∧
      blockOf s.kids s.idx = some (o', b) ∧ countConds t.spelling (under b) = .ok n ∧ ¬ (n : Int) > o.maxConditionals) ∨
    ∃ s ∈ ss, spotHand o.maxConditionals s ∧ c = [.record ⟨S "C0201", nodeLoc s.node, []⟩]
  | [], c, h => by simp only [checkLoops, Except.ok.injEq] at h; exact Or.inl ⟨h.symm, by simp⟩
  | s :: rest, c, h => by
    unfold checkLoops at h
    split at h
    · rename_i hl
      split at h
      · simp at h
      · simp at h
      · rename_i t ts o' b et eb
        simp only [res_bind] at h
        obtain ⟨n, hn, h⟩ := h
        split at h
        · rename_i hgt
          simp only [res_pure] at h
          exact Or.inr ⟨s, by simp, ⟨hl, t, ts, o', b, n, et, eb, hn, hgt⟩, h.symm⟩
        · rename_i hgt
          rcases checkLoops_ok h with ⟨h1, h2⟩ | ⟨s', h1, h2⟩
          · refine Or.inl ⟨h1, fun s' hs' => ?_⟩
            rcases List.mem_cons.1 hs' with rfl | hs'
            · exact fun _ => ⟨t, ts, o', b, n, et, eb, hn, hgt⟩
            · exact h2 s' hs'
          · exact Or.inr ⟨s', by simp [h1], h2⟩
    · rename_i hl
      rcases checkLoops_ok h with ⟨h1, h2⟩ | ⟨s', h1, h2⟩
      · refine Or.inl ⟨h1, fun s' hs' => ?_⟩
        rcases List.mem_cons.1 hs' with rfl | hs'
        · exact fun h => absurd h hl
        · exact h2 s' hs'
      · exact Or.inr ⟨s', by simp [h1], h2⟩

theorem sub_stmts {m n : Node} (h : Sub m n) (ht : Tidy n) (hm : quiet m = false) : ∀ s ∈ stmtsOf m, s ∈ stmtsOf n := by
  induction h with
  | refl => exact fun s hs => hs
  | @child c ty a cs hc h ih =>
    intro s hs
    by_cases hty : ty = .statement
    · subst hty
      have := ht _ (.refl _) rfl c hc m h
      rw [hm] at this
      simp at this
    · have h1 := ih (fun k hk => ht k (.child hc hk)) s hs
      simp only [stmtsOf, if_neg hty]
      clear ih h ht
      induction cs with
      | nil => simp at hc
      | cons d ds ih =>
        simp only [stmtsL, List.mem_append]
        rcases List.mem_cons.1 hc with rfl | hc
        · exact Or.inl h1
        · exact Or.inr (ih hc)

theorem loops_mem {cmds : List Node} {x : Node × List Node} (h : x ∈ loopsOf cmds) : x.1 ∈ cmds := by
  have hp : ∀ (cmds : List Node) (st : List Str) (p : Place), p ∈ places st cmds → p.cmd ∈ cmds := by
    intro cmds
    induction cmds with
    | nil => simp [places]
    | cons s ss ih =>
      intro st p hp
      simp only [places, List.mem_cons] at hp ⊢
      rcases hp with rfl | hp
      · exact Or.inl rfl
      · exact Or.inr (ih _ _ hp)
  obtain ⟨p, hm, rfl⟩ := List.mem_map.1 h
  exact hp _ _ _ (List.mem_filter.1 hm).1

/-- What the check of a definition makes of its body. -/
theorem custom_hand {o : Opts} {ts : List Token} {tree : Node} {stop : List Str} {b : Attr} {bs : List Node} {c : List Call}
    (hp : parse ctx ts = .ok tree) (hb : Sub (.node .body b bs) tree) (hs : Seq (some stop) true bs)
    (h : checkCustomParser o (.node .body b bs) = .ok c) :
    (c = [] ∧ handLoops o.maxConditionals (stmtsL bs) = []) ∨
      ∃ l ∈ handLoops o.maxConditionals (stmtsL bs), c = [.record ⟨S "C0201", l, []⟩] := by
  have hneat : Neat ctx tree := (parse_neat (ctx := ctx) hp).1
  have hcall : (callsIn [S "cmake_parse_arguments"] (.node .body b bs)).isEmpty =
      !(stmtsL bs).any fun s => nameOf s == c! "cmake_parse_arguments" := by
    have := callsIn_count (names := [S "cmake_parse_arguments"]) (a := b) hs
    rw [Bool.eq_iff_iff, List.isEmpty_iff_length_eq_zero, this, List.length_eq_zero_iff, List.filter_eq_nil_iff,
      Bool.not_eq_true', List.any_eq_false]
    constructor
    · intro h x hx
      have := h x hx
      simp only [List.contains_cons, List.contains_nil, Bool.or_false] at this
      exact this
    · intro h x hx
      have := h x hx
      simp only [List.contains_cons, List.contains_nil, Bool.or_false]
      exact this
  have hst : ∀ x ∈ loopsOf (stmtsL bs), semToks (argTree x.1) = argsOf x.1 ∧ nodeLoc x.1 = startOf x.1 := by
    intro x hx
    have hm : x.1 ∈ stmtsOf tree := by
      refine sub_stmts hb (parse_tidy hp) rfl _ ?_
      simpa [stmtsOf] using loops_mem hx
    obtain ⟨a0, cs0, c0, e0, hseq⟩ := parse_seq hp
    have hm' := hm
    rw [e0, show stmtsOf (.node .body a0 cs0) = stmtsL cs0 by simp [stmtsOf]] at hm'
    obtain ⟨y, hy⟩ := seq_stmts hseq _ hm'
    exact ⟨stmt_args hp hm, (stmt_startOf hy).symm⟩
  have hcount : ∀ (var : Str) (b' : Attr) (bs' : List Node) (n : Nat), Sub (.node .body b' bs') (.node .body b bs) →
      countConds var (under (.node .body b' bs')) = .ok n → n = ((stmtsL bs').flatMap conditions).countP (compares var) := by
    intro var b' bs' n hsub hn
    rw [countConds_ok hn]
    exact (under_conditions fun m hm => hneat m (sub_trans hm (sub_trans hsub hb))).countP_eq _
  unfold checkCustomParser at h
  rw [hcall] at h
  split at h
  · rename_i hc
    have hl : handLoops o.maxConditionals (stmtsL bs) = ((loopsOf (stmtsL bs)).filter fun q =>
        parsesByHand o.maxConditionals q.1 q.2).map fun q => startOf q.1 := by
      rw [Bool.not_eq_true'] at hc
      rw [handLoops, hc]
      rfl
    rw [hl]
    rcases checkLoops_ok h with ⟨rfl, h2⟩ | ⟨s, h1, ⟨h2, t, us, o', b1, n, et, eb, hn, hgt⟩, rfl⟩
    · refine Or.inl ⟨rfl, ?_⟩
      rw [List.map_eq_nil_iff, List.filter_eq_nil_iff]
      intro x hx hhand
      obtain ⟨s, hs1, hs2, b', bs', hbl, hbs⟩ := loop_spot (b := b) hs hx
      obtain ⟨b2, bs2, hbl2, hsub, _⟩ := spot_loop hs hs1
      rw [hbl] at hbl2
      injection hbl2 with hbl2
      injection hbl2 with _ hbl2
      injection hbl2 with _ q1 q2
      subst q1 q2
      obtain ⟨e1, _⟩ := hst x hx
      simp only [parsesByHand, Bool.and_eq_true] at hhand
      obtain ⟨k1, k2⟩ := hhand
      obtain ⟨t, us, o', b1, n, et, eb, hn, hgt⟩ := h2 s hs1 (by rw [hs2, loopsOverArgn, e1]; exact k1)
      rw [hbl] at eb
      injection eb with eb
      injection eb with _ eb
      subst eb
      rw [hs2, e1] at et
      rw [et] at k2
      apply hgt
      rw [hcount _ _ _ _ hsub hn, hbs]
      simpa using k2
    · refine Or.inr ⟨startOf s.node, ?_, ?_⟩
      · obtain ⟨b', bs', hbl, hsub, hmem⟩ := spot_loop hs h1
        obtain ⟨e1, _⟩ := hst _ hmem
        rw [hbl] at eb
        injection eb with eb
        injection eb with _ eb
        subst eb
        refine List.mem_map.2 ⟨_, List.mem_filter.2 ⟨hmem, ?_⟩, rfl⟩
        simp only at e1
        rw [e1] at et
        simp only [parsesByHand, Bool.and_eq_true]
        refine ⟨by rw [loopsOverArgn, e1] at h2; exact h2, ?_⟩
        rw [et]
        simp only
        rw [← hcount _ _ _ _ hsub hn]
        simpa using hgt
      · obtain ⟨b', bs', hbl, hsub, hmem⟩ := spot_loop hs h1
        rw [(hst _ hmem).2]
  · rename_i hc
    simp only [Except.ok.injEq] at h
    refine Or.inl ⟨h.symm, ?_⟩
    simp only [Bool.not_eq_true', Bool.not_eq_false] at hc
    rw [handLoops, if_pos hc]

/-- The conditions of the loops in definitions can be counted. -/
theorem loops_count {ts : List Token} {tree : Node} (hp : parse ctx ts = .ok tree)
    (h : ∀ q ∈ loopsOf (stmtsOf tree), ((argsOf q.1).any fun t => t.type == .deref && t.spelling == c! "${ARGN}") = true →
      ∀ v, (argsOf q.1).head? = some v → ∀ w ∈ q.2.flatMap conditions, w.map (·.spelling) ≠ [v.spelling])
    {a : Attr} {kids : List Node} {o b : Node} (hs : Sub (.node .flowControl a kids) tree) (hb : blockOf kids 0 = some (o, b))
    (hk : kids.head?.map funName ∈ [some (S "function"), some (S "macro")]) :
    ∀ s ∈ callsIn loopNames b, loopsOverArgn s.node = true → Counts s := by
  have hneat : Neat ctx tree := (parse_neat (ctx := ctx) hp).1
  have htree := hp
  obtain ⟨a0, cs0, c0, rfl, hseq⟩ := parse_seq hp
  rcases shape_body (b := a0) (seq_shaped hseq) _ _ _ hs with ⟨_, x, o', b', bs', e, rfl, hx, ho, hbs, he⟩ | ⟨h1, _⟩
  · have hb' : b = .node .body b' bs' := by
      simp only [blockOf, if_true, Nat.mul_zero, Nat.zero_add, List.getElem?_cons_zero, List.getElem?_cons_succ,
        Option.some.injEq, Prod.mk.injEq] at hb
      exact hb.2.symm
    subst hb'
    intro s hsp hl
    obtain ⟨b2, bs2, hbl, hsub, hmem⟩ := spot_loop hbs hsp
    have hbt : Sub (.node .body b' bs') (.node .body a0 cs0) := sub_trans (.child (by simp) (.refl _)) hs
    obtain ⟨a1, cs1, k1, k2⟩ := (mem_loopsOf (b := b') hbs).1 hmem
    have hall : (s.node, stmtsL bs2) ∈ loopsOf (stmtsL cs0) := (mem_loopsOf hseq).2 ⟨a1, cs1, sub_trans k1 hbt, k2⟩
    rw [show stmtsOf (.node .body a0 cs0) = stmtsL cs0 by simp [stmtsOf]] at h
    have hargs : semToks (argTree s.node) = argsOf s.node :=
      stmt_args htree (by simpa [stmtsOf] using loops_mem hall)
    have hl' := hl
    rw [loopsOverArgn, hargs] at hl'
    cases ea : argsOf s.node with
    | nil => rw [ea] at hl'; simp at hl'
    | cons t us =>
      have hw := h _ hall hl' t (by simp [ea])
      obtain ⟨n, hn⟩ := countConds_succeeds (var := t.spelling) (ss := under (.node .body b2 bs2)) fun w hw' =>
        hw w ((under_conditions fun m hm => hneat m (sub_trans hm (sub_trans hsub hbt))).mem_iff.1 hw')
      exact ⟨t, us, _, _, n, by rw [hargs, ea], hbl, hn⟩
  · obtain ⟨o', rest, rfl, ho⟩ := h1 rfl
    simp only [List.head?_cons, Option.map_some, stmt_funName ho] at hk
    exact absurd hk (by decide)

/-! ## The check of a file -/

/-- The places of the loops in the block of a definition. -/
def handF (limit : Int) : List Node → List (List (List Nat))
  | [o, .node .body _ bs, _] => if [S "function", S "macro"].contains (funName o) then [handLoops limit (stmtsL bs)] else []
  | _ => []

/-- The places of the loops in a definition. -/
def handG (limit : Int) (p : Place) : List (List (List Nat)) :=
  if p.defines then [handLoops limit (inside (nameOf p.cmd) p.later)] else []

theorem hand_link (limit : Int) : Link (fun _ _ => []) (handF limit) (handG limit) where
  quiet n ns h := rfl
  plain stop c x n ns K st h h1 h2 hs hf hk := by
    have := not_defn h2 (stmt_upper h)
    rw [← stmt_nameOf h] at this
    exact if_neg (by
      rw [Place.defines, show [c! "function", c! "macro"] = [S "function", S "macro"] from rfl]; simp only [this]; simp)
  loop x o' e b bs K st h1 h2 h3 h4 := by
    simp only [handG, Place.defines, handF, stmt_nameOf h2, stmt_funName h2, inside_body h1 h3 h4]
    rfl
  ifs o' rest K st h := by
    have hn : nameOf o' = S "if" := by rw [stmt_nameOf h]; rfl
    have hf : funName o' = S "if" := by rw [stmt_funName h]; rfl
    have z : handF limit (o' :: rest) = [] := by
      unfold handF
      split
      · rename_i e
        simp only [List.cons.injEq] at e
        obtain ⟨rfl, rfl⟩ := e
        rw [hf]
        rfl
      · rfl
    rw [z]
    exact if_neg (by rw [Place.defines, show (Place.mk o' st K).cmd = o' from rfl, hn]; decide)
  mark x n st K h h1 _ := by
    refine if_neg ?_
    rw [Place.defines, show (Place.mk n st K).cmd = n from rfl, stmt_nameOf h]
    simp only [List.mem_cons, List.not_mem_nil, or_false] at h1
    rcases h1 with rfl | rfl | rfl | rfl | rfl | rfl | rfl <;> decide

/-- One record of each that is not empty. -/
def OneEach (code : Str) (ls : List (List (List Nat))) (c : List Call) : Prop :=
  ∃ xs, OneOfEach ls xs ∧ c = xs.map fun l => .record ⟨code, l, []⟩

theorem oneEach_flatMap {code : Str} {α : Type} {f : α → List (List (List Nat))} {g : α → List Call} : ∀ (vs : List α),
    (∀ v ∈ vs, OneEach code (f v) (g v)) → OneEach code (vs.flatMap f) (vs.flatMap g)
  | [], _ => ⟨[], .nil, rfl⟩
  | v :: vs, h => by
    obtain ⟨xs, h1, e1⟩ := h v (by simp)
    obtain ⟨ys, h2, e2⟩ := oneEach_flatMap vs fun w hw => h w (by simp [hw])
    exact ⟨xs ++ ys, h1.append h2, by simp [e1, e2]⟩

theorem oneEach_nil (code : Str) : OneEach code [] [] := ⟨[], .nil, rfl⟩

theorem defn_hand {o : Opts} {p : Str} {s b : Node} {c : List Call} (h : checkDefn o p s b = .ok c) :
    ∃ c1, checkCustomParser o b = .ok c1 ∧ only (S "C0201") c = c1 := by
  simp only [checkDefn, res_bind, res_pure] at h
  obtain ⟨c1, h1, c2, h2, line, hl, rfl⟩ := h
  refine ⟨c1, h1, ?_⟩
  have self : only (S "C0201") c1 = c1 := by
    simp only [only, List.filter_eq_self, beq_iff_eq]
    intro c hc
    simpa using custom_codes h1 c hc
  rw [only_append, only_append, only_append, only_append, only_append, self,
      (defName_codes h2).only (by decide), (argNames_codes o s).only (by decide), (count_codes _ _ _ _).only (by decide),
      (count_codes _ _ _ _).only (by decide), (count_codes _ _ _ _).only (by decide)]
  simp

theorem flow_hand {o : Opts} {ts : List Token} {tree : Node} {a : Attr} {kids : List Node} {c : List Call}
    (hp : parse ctx ts = .ok tree) (hs : Sub (.node .flowControl a kids) tree) (h : checkFlow o kids = .ok c) :
    OneEach (S "C0201") (handF o.maxConditionals kids) (only (S "C0201") c) := by
  obtain ⟨a0, cs0, c0, rfl, hseq⟩ := parse_seq hp
  rcases shape_body (b := a0) (seq_shaped hseq) _ _ _ hs with ⟨_, x, o', b', bs', e, rfl, hx, ho, hb, he⟩ | ⟨h1, _⟩
  · have main : ∀ p, checkDefn o p o' (.node .body b' bs') = .ok c →
        [S "function", S "macro"].contains (funName o') = true →
        OneEach (S "C0201") (handF o.maxConditionals [o', .node .body b' bs', e]) (only (S "C0201") c) := by
      intro p h hn
      obtain ⟨c1, h1, e1⟩ := defn_hand h
      rw [e1]
      simp only [handF, hn, if_true]
      rcases custom_hand hp (sub_trans (.child (by simp) (.refl _)) hs) hb h1 with ⟨rfl, e2⟩ | ⟨l, hl, rfl⟩
      · rw [e2]; exact ⟨[], .skip .nil, rfl⟩
      · exact ⟨[l], .pick hl .nil, rfl⟩
    simp only [checkFlow] at h
    split at h
    · rename_i hn
      exact main _ h (by rw [hn]; decide)
    · rename_i n1
      split at h
      · rename_i hn
        exact main _ h (by rw [hn]; decide)
      · rename_i n2
        have z : handF o.maxConditionals [o', .node .body b' bs', e] = [] := by simp [handF, n1, n2]
        rw [z]
        split at h
        · rw [(foreach_codes h).only (by decide)]; exact oneEach_nil _
        · simp only [Except.ok.injEq] at h
          subst h
          exact oneEach_nil _
  · obtain ⟨o', rest, rfl, ho⟩ := h1 rfl
    have hf : funName o' = S "if" := by rw [stmt_funName ho]; rfl
    rw [← (hand_link o.maxConditionals).ifs o' rest [] [] ho]
    simp only [checkFlow, hf] at h
    rw [if_neg (by decide), if_neg (by decide), if_neg (by decide)] at h
    simp only [Except.ok.injEq] at h
    subst h
    have : handG o.maxConditionals ⟨o', [], []⟩ = [] := by
      rw [handG, if_neg]
      rw [Place.defines, show (Place.mk o' [] []).cmd = o' from rfl, stmt_nameOf ho]
      decide
    rw [this]
    exact oneEach_nil _

theorem hand_calls {o : Opts} {ts : List Token} {tree : Node} {calls : List Call}
    (hp : parse ctx ts = .ok tree) (h : checkParseTree o tree = .ok calls) :
    ∃ xs, OneOfEach ((places [] (stmtsOf tree)).flatMap (handG o.maxConditionals)) xs ∧
      (only (S "C0201") calls).Perm (xs.map fun l => .record ⟨S "C0201", l, []⟩) := by
  have hcalls := loud_calls (code := S "C0201") ⟨by decide, by decide, by decide⟩ h
    (f := fun v => only (S "C0201") (callsOf (checkNode o v.1 v.2))) (fun v hv c e => by simp [e, callsOf])
  have hone : OneEach (S "C0201") (nodesOf (fun _ _ => []) (handF o.maxConditionals) (visits [] tree)) (only (S "C0201") calls) := by
    rw [hcalls, nodesOf_loud]
    refine oneEach_flatMap _ fun v hv => ?_
    obtain ⟨c, e⟩ := (parseTree_calls (code := S "C0201") (by decide) (by decide) h).2 v (List.mem_filter.1 hv).1
    rw [e, callsOf]
    have hsub := visits_sub _ _ _ (List.mem_filter.1 hv).1
    rcases loud_types hv with ⟨a, cs, ev⟩ | ⟨a, cs, ev⟩ | ⟨a, cs, ev⟩ <;> rw [ev] at e hsub ⊢ <;>
      simp only [checkNode] at e ⊢
    · rw [itemsOf_nil, (body_codes e).only (by decide)]; exact oneEach_nil _
    · exact flow_hand hp hsub e
    · rw [(statement_codes e).only (by decide)]; exact oneEach_nil _
  obtain ⟨xs, h1, e1⟩ := hone
  obtain ⟨ys, p, q⟩ := OneOfEach.perm (tree_link (hand_link o.maxConditionals) hp).symm h1
  refine ⟨ys, q, ?_⟩
  rw [e1]
  exact p.map _

end Verif.Lint
