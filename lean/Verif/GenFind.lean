import Verif.GenArgs

/-!
# Which definitions are found (lemmas for cmake-genparsers)
-/

namespace Verif.Gen
open Verif Py Lex Parse
open Verif.Lint (Spot spots spotsFrom kidsOf semToks isNode hasType funName isCall argTree roleOf argsOf nameOf sizeOfL size_kids
  sizeOfL_append spots_nodes Place places inside stmt_nameOf stmt_funName stmt_stmtsOf leafy_stmts after_plain after_open after_end
  after_branch fit_loop fit_if Fit loop_names lower_end)

/-- What the search stops at. -/
def Wanted (names : List Str) (n : Node) : Prop :=
  (roleOf n = .set ∧ names.contains (S "set") = true) ∨ isCall names n = true

instance (names : List Str) (n : Node) : Decidable (Wanted names n) := by unfold Wanted; infer_instance

mutual
/-- What is found, in the order of the file. -/
def hits (names : List Str) (kids : List Node) (idx : Nat) : Node → List Spot
  | .tok _ => []
  | .node ty a cs => if Wanted names (.node ty a cs) then [⟨kids, idx, .node ty a cs⟩] else hitsL names cs 0 cs
/-- All of it. -/
def hitsL (names : List Str) (all : List Node) (i : Nat) : List Node → List Spot
  | [] => []
  | n :: ns => hits names all i n ++ hitsL names all (i + 1) ns
end

theorem hits_wanted {names : List Str} {kids : List Node} {idx : Nat} {n : Node} (h : Wanted names n) :
    hits names kids idx n = [⟨kids, idx, n⟩] := by
  cases n with
  | tok t => rcases h with h | h <;> simp [roleOf, isCall, hasType] at h
  | node ty a cs => simp [hits, h]

theorem hits_other {names : List Str} {kids : List Node} {idx : Nat} {n : Node} (h : ¬ Wanted names n) :
    hits names kids idx n = hitsL names (kidsOf n) 0 (kidsOf n) := by
  cases n with
  | tok t => simp [hits, kidsOf, hitsL]
  | node ty a cs => simp [hits, kidsOf, h]

theorem hitsL_spots (names : List Str) (all : List Node) : ∀ (ns : List Node) (i : Nat),
    ((spotsFrom all i ns).filter fun k => isNode k.node).flatMap (fun s => hits names s.kids s.idx s.node) = hitsL names all i ns
  | [], i => by simp [spotsFrom, hitsL]
  | n :: ns, i => by
    have ih := hitsL_spots names all ns (i + 1)
    cases n with
    | tok t =>
      rw [spotsFrom, List.filter_cons_of_neg (by simp [isNode]), hitsL, hits, List.nil_append, ih]
    | node ty a cs =>
      rw [spotsFrom, List.filter_cons_of_pos rfl, hitsL, List.flatMap_cons, ih]

theorem sizeOfL_filter (l : List Spot) (p : Spot → Bool) : sizeOfL ((l.filter p).map (·.node)) ≤ sizeOfL (l.map (·.node)) := by
  induction l with
  | nil => simp
  | cons s l ih =>
    simp only [List.filter_cons]
    split
    · simp only [List.map_cons, Lint.sizeOfL]
      omega
    · simp only [List.map_cons, Lint.sizeOfL]
      omega

/-- The search finds everything once. -/
theorem find_perm (names : List Str) : ∀ (n : Nat) (q : List Spot), sizeOfL (q.map (·.node)) ≤ n →
    (find names n q).Perm (q.flatMap fun s => hits names s.kids s.idx s.node)
  | 0, [], _ => by simp [find]
  | 0, s :: q, h => by
    rw [List.map_cons, sizeOfL, size_kids] at h
    omega
  | n + 1, [], _ => by simp [find]
  | n + 1, s :: q, h => by
    rw [List.map_cons, sizeOfL, size_kids] at h
    unfold find
    by_cases hw : Wanted names s.node
    · rw [if_pos (show _ ∨ _ from hw), List.flatMap_cons, hits_wanted hw]
      exact (find_perm names n q (by omega)).cons s
    · rw [if_neg (show ¬ (_ ∨ _) from hw), List.flatMap_cons, hits_other hw]
      have hs : (spots s.node).map (·.node) = kidsOf s.node := spots_nodes _ _ _
      have hf := sizeOfL_filter (spots s.node) fun k => isNode k.node
      rw [hs] at hf
      have := find_perm names n (q ++ (spots s.node).filter fun k => isNode k.node) (by
        rw [List.map_append, sizeOfL_append]
        omega)
      rw [List.flatMap_append, show spots s.node = spotsFrom (kidsOf s.node) 0 (kidsOf s.node) from rfl, hitsL_spots] at this
      exact this.trans List.perm_append_comm

theorem findIn_perm (names : List Str) (n : Node) : (findIn names n).Perm (hits names [] 0 n) := by
  have := find_perm names (Lint.sizeOf n) [⟨[], 0, n⟩] (by simp [Lint.sizeOfL])
  simpa [findIn] using this

theorem mem_hitsL {names : List Str} {all : List Node} {s : Spot} : ∀ {ns : List Node} {i : Nat}, s ∈ hitsL names all i ns →
    ∃ n ∈ ns, ∃ j, s ∈ hits names all j n
  | [], _, h => by simp [hitsL] at h
  | n :: ns, i, h => by
    simp only [hitsL, List.mem_append] at h
    rcases h with h | h
    · exact ⟨n, by simp, i, h⟩
    · obtain ⟨m, hm, j, hj⟩ := mem_hitsL h
      exact ⟨m, by simp [hm], j, hj⟩

/-! ## Definitions -/

/-- The names of definitions. -/
def defNames : List Str := [S "function", S "macro"]

theorem wanted_def {n : Node} : Wanted defNames n ↔ isCall defNames n = true := by
  have : defNames.contains (S "set") = false := by decide
  unfold Wanted
  rw [this]
  simp

theorem hits_leafy {n : Node} (hn : Leafy n) : ∀ {kids : List Node} {idx : Nat}, hits defNames kids idx n = [] := by
  have key : ∀ k, ∀ n : Node, Lint.sizeOf n ≤ k → Leafy n → ∀ kids idx, hits defNames kids idx n = [] := by
    intro k
    induction k with
    | zero => intro n h; rw [size_kids] at h; omega
    | succ k ih =>
      intro n h hn kids idx
      have hw : ¬ Wanted defNames n := by
        rw [wanted_def]
        have := Lint.not_stmt_leafy hn
        simp [isCall, this]
      rw [hits_other hw, List.eq_nil_iff_forall_not_mem]
      intro s hs
      obtain ⟨m, hm, j, hj⟩ := mem_hitsL hs
      have hsub : Leafy m := by
        intro x hx
        refine hn x ?_
        cases n with
        | tok t => simp [kidsOf] at hm
        | node ty a cs => exact .child hm hx
      have hsz : Lint.sizeOf m ≤ sizeOfL (kidsOf n) := by
        clear hs hj hsub hn h hw
        generalize kidsOf n = l at hm
        induction l with
        | nil => simp at hm
        | cons c l ihl =>
          simp only [Lint.sizeOfL]
          rcases List.mem_cons.1 hm with rfl | hm
          · omega
          · have := ihl hm; omega
      rw [size_kids] at h
      rw [ih m (by omega) hsub] at hj
      simp at hj
  intro kids idx
  exact key _ n (Nat.le_refl _) hn kids idx

theorem hits_stmt {x : Str} {n : Node} (h : Stmt x n) {kids : List Node} {idx : Nat} (hx : lower x ∉ defNames) :
    hits defNames kids idx n = [] := by
  have hw : ¬ Wanted defNames n := by
    rw [wanted_def]
    simp [isCall, stmt_funName h, hx]
  rw [hits_other hw, List.eq_nil_iff_forall_not_mem]
  intro s hs
  obtain ⟨m, hm, j, hj⟩ := mem_hitsL hs
  rw [hits_leafy (Lint.stmt_kids h m hm)] at hj
  simp at hj

theorem hits_def {x : Str} {n : Node} (h : Stmt x n) {kids : List Node} {idx : Nat} (hx : lower x ∈ defNames) :
    hits defNames kids idx n = [⟨kids, idx, n⟩] := by
  refine hits_wanted ?_
  rw [wanted_def]
  obtain ⟨a, t, cs, rfl, _⟩ := h
  have := stmt_funName (x := x) (n := .node .statement a (mk .funname [.tok t] :: cs)) ⟨a, t, cs, rfl, by assumption⟩
  simp [isCall, hasType, this, hx]

theorem hits_block {ty : NT} {a : Attr} {cs : List Node} (hty : ty = .body ∨ ty = .flowControl) {kids : List Node} {idx : Nat} :
    hits defNames kids idx (.node ty a cs) = hitsL defNames cs 0 cs := by
  refine hits_other ?_
  rw [wanted_def]
  rcases hty with rfl | rfl <;> simp [isCall, hasType]

/-- A definition of the file and where it is found. -/
structure SameDef (p : Place) (s : Spot) : Prop where
  ex : ∃ x b bs e K, lower x ∈ defNames ∧ s = ⟨[p.cmd, .node .body b bs, e], 0, p.cmd⟩ ∧ Stmt x p.cmd ∧
    Seq (some [S "END" ++ x]) true bs ∧ p.later = stmtsL bs ++ e :: K ∧ inside (nameOf p.cmd) p.later = stmtsL bs

/-- Two lists, element by element. -/
inductive Pairs {α β : Type} (R : α → β → Prop) : List α → List β → Prop
  | nil : Pairs R [] []
  | cons {a : α} {b : β} {l : List α} {m : List β} : R a b → Pairs R l m → Pairs R (a :: l) (b :: m)

theorem Pairs.append {α β : Type} {R : α → β → Prop} {a c : List α} {b d : List β} (h : Pairs R a b) (h' : Pairs R c d) :
    Pairs R (a ++ c) (b ++ d) := by
  induction h with
  | nil => exact h'
  | cons h1 _ ih => exact .cons h1 ih

theorem Pairs.left {α β : Type} {R : α → β → Prop} {l : List α} {m : List β} (h : Pairs R l m) : ∀ a ∈ l, ∃ b ∈ m, R a b := by
  induction h with
  | nil => simp
  | cons h1 _ ih =>
    intro a ha
    rcases List.mem_cons.1 ha with rfl | ha
    · exact ⟨_, by simp, h1⟩
    · obtain ⟨b, hb, hr⟩ := ih a ha
      exact ⟨b, by simp [hb], hr⟩

theorem Pairs.right {α β : Type} {R : α → β → Prop} {l : List α} {m : List β} (h : Pairs R l m) : ∀ b ∈ m, ∃ a ∈ l, R a b := by
  induction h with
  | nil => simp
  | cons h1 _ ih =>
    intro b hb
    rcases List.mem_cons.1 hb with rfl | hb
    · exact ⟨_, by simp, h1⟩
    · obtain ⟨a, ha, hr⟩ := ih b hb
      exact ⟨a, by simp [ha], hr⟩

/-- The definitions of a sequence. -/
def DefsAt : Option (List Str) → Bool → List Node → Prop
  | some stop, c, ns => ∀ (all : List Node) (idx : Nat) (K : List Node) (st : List Str), Fit stop st → (c = false → K = []) →
      ∃ P, places st (stmtsL ns ++ K) = P ++ places st K ∧ Pairs SameDef (P.filter (·.defines)) (hitsL defNames all idx ns)
  | none, c, ns => ∀ (all : List Node) (idx : Nat) (K : List Node) (st : List Str), (c = false → K = []) →
      ∃ P, places (S "if" :: st) (stmtsL ns ++ K) = P ++ places st K ∧
        Pairs SameDef (P.filter (·.defines)) (hitsL defNames all idx ns)

theorem defines_iff {p : Place} {x : Str} (h : Stmt x p.cmd) : p.defines = decide (lower x ∈ defNames) := by
  rw [Place.defines, stmt_nameOf h, List.contains_eq_mem]
  rfl

theorem defines_not {p : Place} {x : Str} (h : Stmt x p.cmd) (hx : lower x ∉ defNames) : p.defines = false := by
  rw [defines_iff h]; simpa using hx

theorem not_def {x : Str} {n : Node} (h : Stmt x n) (hx : x ∉ flowNames) : lower x ∉ defNames := by
  intro e
  have hu := Lint.stmt_upper h
  apply hx
  simp only [defNames, List.mem_cons, List.not_mem_nil, or_false] at e
  rw [← hu]
  rcases e with e | e <;> rw [e] <;> decide

theorem seq_defs {m : Option (List Str)} {c : Bool} {ns : List Node} (h : Seq m c ns) : DefsAt m c ns := by
  induction h with
  | nil => intro all idx K st hf hc; exact ⟨[], by simp [stmtsL], by simp only [List.filter_nil, hitsL]; exact .nil⟩
  | @other stop c n ns h1 _ ih =>
    intro all idx K st hf hc
    obtain ⟨P, e, hp⟩ := ih all (idx + 1) K st hf hc
    exact ⟨P, by simpa [stmtsL, leafy_stmts n h1] using e, by simpa [hitsL, hits_leafy h1] using hp⟩
  | @stmt stop c n ns x h1 h2 h3 hs ih =>
    intro all idx K st hf hc
    obtain ⟨P, e, hp⟩ := ih all (idx + 1) K st hf hc
    refine ⟨⟨n, st, stmtsL ns ++ K⟩ :: P, ?_, ?_⟩
    · simp [stmtsL, stmt_stmtsOf h1, places, after_plain h1 h2 h3 hf, e]
    · have hx := not_def h1 h3
      rw [List.filter_cons, defines_not (p := ⟨n, st, stmtsL ns ++ K⟩) h1 hx, hitsL, hits_stmt h1 hx]
      simpa using hp
  | @loop stop c o e ns bs a' b x h1 h2 h3 h4 _ ih1 ih2 =>
    intro all idx K st hf hc
    obtain ⟨n1, n2, n3, n4⟩ := loop_names h1
    have he : nameOf e = S "end" ++ lower x := by rw [stmt_nameOf h4, lower_end]
    obtain ⟨P2, e2, p2⟩ := ih2 all (idx + 1) K st hf hc
    obtain ⟨P1, e1, p1⟩ := ih1 bs 0 (e :: (stmtsL ns ++ K)) (lower x :: st) (fit_loop _ h1) (by simp)
    refine ⟨⟨o, st, stmtsL bs ++ (e :: (stmtsL ns ++ K))⟩ :: (P1 ++ ⟨e, lower x :: st, stmtsL ns ++ K⟩ :: P2), ?_, ?_⟩
    · have hs : stmtsL (.node .flowControl a' [o, .node .body b bs, e] :: ns) ++ K =
          o :: (stmtsL bs ++ (e :: (stmtsL ns ++ K))) := by
        simp [stmtsL, stmtsOf, stmt_stmtsOf h2, stmt_stmtsOf h4]
      rw [hs, places, after_open h2 n1, e1, places, after_end he n2, e2]
      simp
    · have hend : lower (S "END" ++ x) ∉ defNames := by
        rw [lower_end]
        intro e
        simp only [defNames, List.mem_cons, List.not_mem_nil, or_false] at e
        rcases e with e | e
        · exact absurd (congrArg List.head? e) (by simp [S])
        · exact absurd (congrArg List.head? e) (by simp [S])
      have hbody : hits defNames [o, .node .body b bs, e] 1 (.node .body b bs) = hitsL defNames bs 0 bs := hits_block (Or.inl rfl)
      rw [hitsL, hits_block (Or.inr rfl), hitsL, hitsL, hitsL, hitsL, hbody, hits_stmt h4 hend]
      simp only [List.append_nil]
      rw [List.filter_cons, List.filter_append, List.filter_cons,
        defines_not (p := ⟨e, lower x :: st, stmtsL ns ++ K⟩) h4 hend]
      simp only [Bool.false_eq_true, if_false]
      by_cases hx : lower x ∈ defNames
      · rw [defines_iff (p := ⟨o, st, stmtsL bs ++ (e :: (stmtsL ns ++ K))⟩) h2, hits_def h2 hx]
        simp only [hx, decide_true, if_true, List.cons_append, List.nil_append]
        refine .cons ⟨x, b, bs, e, _, hx, rfl, h2, h3, rfl, ?_⟩ (p1.append p2)
        dsimp only
        rw [stmt_nameOf h2]
        exact Lint.inside_body h1 h3 h4
      · rw [defines_not (p := ⟨o, st, stmtsL bs ++ (e :: (stmtsL ns ++ K))⟩) h2 hx, hits_stmt h2 hx]
        simp only [Bool.false_eq_true, if_false, List.nil_append]
        exact p1.append p2
  | @ifs stop c o ns rest a' h1 _ _ ih1 ih2 =>
    intro all idx K st hf hc
    have hx : lower (S "IF") ∉ defNames := by decide
    obtain ⟨P2, e2, p2⟩ := ih2 all (idx + 1) K st hf hc
    obtain ⟨P1, e1, p1⟩ := ih1 (o :: rest) 1 (stmtsL ns ++ K) st (by simp)
    refine ⟨⟨o, st, stmtsL rest ++ (stmtsL ns ++ K)⟩ :: (P1 ++ P2), ?_, ?_⟩
    · have hs : stmtsL (.node .flowControl a' (o :: rest) :: ns) ++ K = o :: (stmtsL rest ++ (stmtsL ns ++ K)) := by
        simp [stmtsL, stmtsOf, stmt_stmtsOf h1]
      rw [hs, places, after_open h1 rfl, show lower (S "IF") = S "if" from rfl, e1, e2]
      simp
    · rw [hitsL, hits_block (Or.inr rfl), hitsL, hits_stmt h1 hx, List.filter_cons,
        defines_not (p := ⟨o, st, stmtsL rest ++ (stmtsL ns ++ K)⟩) h1 hx, List.filter_append]
      simp only [Bool.false_eq_true, if_false, List.nil_append]
      exact p1.append p2
  | @openIf stop o rest a' h1 _ ih1 =>
    intro all idx K st hf hc
    have := hc rfl
    subst this
    have hx : lower (S "IF") ∉ defNames := by decide
    obtain ⟨P1, e1, p1⟩ := ih1 (o :: rest) 1 [] st (by simp)
    refine ⟨⟨o, st, stmtsL rest ++ []⟩ :: P1, ?_, ?_⟩
    · have hs : stmtsL [.node .flowControl a' (o :: rest)] ++ [] = o :: (stmtsL rest ++ []) := by
        simp [stmtsL, stmtsOf, stmt_stmtsOf h1]
      simp only [hs, places, after_open h1 rfl, show lower (S "IF") = S "if" from rfl, e1]
      simp
    · rw [hitsL, hits_block (Or.inr rfl), hitsL, hitsL, hits_stmt h1 hx, List.filter_cons,
        defines_not (p := ⟨o, st, stmtsL rest ++ []⟩) h1 hx]
      simpa using p1
  | @branch c s bs rest b x _ hx hs _ ih1 ih2 =>
    intro all idx K st hc
    have hn : lower x ∉ defNames := by rcases hx with rfl | rfl <;> decide
    obtain ⟨P2, e2, p2⟩ := ih2 all (idx + 1 + 1) K st hc
    obtain ⟨P1, e1, p1⟩ := ih1 bs 0 (s :: (stmtsL rest ++ K)) (S "if" :: st) (fit_if _) (by simp)
    refine ⟨P1 ++ ⟨s, S "if" :: st, stmtsL rest ++ K⟩ :: P2, ?_, ?_⟩
    · have e : stmtsL (.node .body b bs :: s :: rest) ++ K = stmtsL bs ++ (s :: (stmtsL rest ++ K)) := by
        simp [stmtsL, stmtsOf, stmt_stmtsOf hs]
      rw [e, e1, places, after_branch hs hx, e2]
      simp
    · rw [hitsL, hits_block (Or.inl rfl), hitsL, hits_stmt hs hn, List.filter_append, List.filter_cons,
        defines_not (p := ⟨s, S "if" :: st, stmtsL rest ++ K⟩) hs hn]
      simp only [Bool.false_eq_true, if_false, List.nil_append]
      exact p1.append p2
  | @fi e bs b _ he ih1 =>
    intro all idx K st hc
    have hn : lower (S "ENDIF") ∉ defNames := by decide
    have hne : nameOf e = S "end" ++ S "if" := by rw [stmt_nameOf he]; rfl
    obtain ⟨P1, e1, p1⟩ := ih1 bs 0 (e :: K) (S "if" :: st) (fit_if _) (by simp)
    refine ⟨P1 ++ [⟨e, S "if" :: st, K⟩], ?_, ?_⟩
    · have e' : stmtsL [.node .body b bs, e] ++ K = stmtsL bs ++ (e :: K) := by
        simp [stmtsL, stmtsOf, stmt_stmtsOf he]
      rw [e', e1, places, after_end hne rfl]
      simp
    · rw [hitsL, hits_block (Or.inl rfl), hitsL, hits_stmt he hn, List.filter_append, List.filter_cons,
        defines_not (p := ⟨e, S "if" :: st, K⟩) he hn]
      simpa [hitsL] using p1
  | @unclosed c bs b _ ih1 =>
    intro all idx K st hc
    have := hc rfl
    subst this
    obtain ⟨P1, e1, p1⟩ := ih1 bs 0 [] (S "if" :: st) (fit_if _) (by simp)
    refine ⟨P1, ?_, ?_⟩
    · have e' : stmtsL [.node .body b bs] ++ [] = stmtsL bs ++ [] := by simp [stmtsL, stmtsOf]
      rw [e', e1]
      simp [places]
    · rw [hitsL, hits_block (Or.inl rfl)]
      simpa [hitsL] using p1

/-- **The definitions of a file** are found, each with its body. -/
theorem tree_defs {ctx : Parse.Ctx} {ts : List Token} {tree : Node} (h : parse ctx ts = .ok tree) :
    Pairs SameDef ((places [] (stmtsOf tree)).filter (·.defines)) (hits defNames [] 0 tree) := by
  obtain ⟨a, cs, c, rfl, hs⟩ := parse_seq h
  obtain ⟨P, e, hp⟩ := seq_defs hs cs 0 [] [] trivial (by simp)
  have e' : stmtsOf (.node .body a cs) = stmtsL cs := by simp [stmtsOf]
  simp only [List.append_nil, places] at e
  rw [e', e, hits_block (Or.inl rfl)]
  exact hp

/-! ## Bodies -/

/-- What `process_defn_body` looks for. -/
def bodyNames : List Str := [S "list", S "cmake_parse_arguments", S "set"]

theorem found_other {n : Node} (h : hasType .statement n = false) : found n = .other := by simp [found, h]

/-- What matters of what is found. -/
def matter (l : List Found) : List Found := l.filter (· ≠ .other)

theorem matter_append (a b : List Found) : matter (a ++ b) = matter a ++ matter b := by simp [matter]

theorem matter_leafy {n : Node} (hn : Leafy n) : ∀ {kids : List Node} {idx : Nat},
    matter ((hits bodyNames kids idx n).map fun s => found s.node) = [] := by
  have key : ∀ k, ∀ n : Node, Lint.sizeOf n ≤ k → Leafy n → ∀ kids idx, ∀ s ∈ hits bodyNames kids idx n, found s.node = .other := by
    intro k
    induction k with
    | zero => intro n h; rw [size_kids] at h; omega
    | succ k ih =>
      intro n h hn kids idx s hs
      by_cases hw : Wanted bodyNames n
      · rw [hits_wanted hw, List.mem_singleton] at hs
        subst hs
        exact found_other (Lint.not_stmt_leafy hn)
      · rw [hits_other hw] at hs
        obtain ⟨m, hm, j, hj⟩ := mem_hitsL hs
        have hsub : Leafy m := by
          intro x hx
          refine hn x ?_
          cases n with
          | tok t => simp [kidsOf] at hm
          | node ty a cs => exact .child hm hx
        have hsz : Lint.sizeOf m ≤ sizeOfL (kidsOf n) := by
          clear hs hj hsub hn h hw
          generalize kidsOf n = l at hm
          induction l with
          | nil => simp at hm
          | cons c l ihl =>
            simp only [Lint.sizeOfL]
            rcases List.mem_cons.1 hm with rfl | hm
            · omega
            · have := ihl hm; omega
        rw [size_kids] at h
        exact ih m (by omega) hsub _ _ s hj
  intro kids idx
  rw [matter, List.filter_eq_nil_iff]
  intro f hf
  obtain ⟨s, hs, rfl⟩ := List.mem_map.1 hf
  simp [key _ n (Nat.le_refl _) hn kids idx s hs]

theorem hitsL_nil {names : List Str} {all : List Node} : ∀ {ns : List Node} {i : Nat},
    (∀ n ∈ ns, ∀ j, matter ((hits names all j n).map fun s => found s.node) = []) →
    matter ((hitsL names all i ns).map fun s => found s.node) = []
  | [], _, _ => by simp [hitsL, matter]
  | n :: ns, i, h => by
    rw [hitsL, List.map_append, matter_append, h n (by simp), hitsL_nil fun m hm => h m (by simp [hm])]
    rfl

/-- A statement contributes itself. -/
theorem matter_stmt {x : Str} {n : Node} (h : Stmt x n) {kids : List Node} {idx : Nat} :
    matter ((hits bodyNames kids idx n).map fun s => found s.node) = matter [found n] := by
  by_cases hw : Wanted bodyNames n
  · rw [hits_wanted hw]
    rfl
  · have ho : found n = .other := by
      have hc : isCall bodyNames n = false := by
        cases hc : isCall bodyNames n with
        | false => rfl
        | true => exact absurd (Or.inr hc) hw
      have hs : hasType .statement n = true := by
        obtain ⟨a, t, cs, rfl, _⟩ := h
        rfl
      simp only [isCall, hs, Bool.true_and, List.contains_eq_mem, decide_eq_false_iff_not, bodyNames, List.mem_cons,
        List.not_mem_nil, or_false, not_or] at hc
      simp [found, hs, hc.1, hc.2.1, hc.2.2]
    rw [ho, hits_other hw]
    exact hitsL_nil fun m hm j => matter_leafy (Lint.stmt_kids h m hm)

theorem matter_block {ty : NT} {a : Attr} {cs : List Node} (hty : ty = .body ∨ ty = .flowControl) {kids : List Node} {idx : Nat} :
    hits bodyNames kids idx (.node ty a cs) = hitsL bodyNames cs 0 cs := by
  refine hits_other ?_
  rintro (h | h)
  · rcases hty with rfl | rfl <;> simp [roleOf] at h
  · rcases hty with rfl | rfl <;> simp [isCall, hasType] at h

theorem seq_matter {m : Option (List Str)} {c : Bool} {ns : List Node} (h : Seq m c ns) : ∀ (all : List Node) (i : Nat),
    matter ((hitsL bodyNames all i ns).map fun s => found s.node) = matter ((stmtsL ns).map found) := by
  induction h with
  | nil => intro all i; simp [hitsL, stmtsL]
  | other h1 _ ih =>
    intro all i
    simp only [hitsL, List.map_append, matter_append, matter_leafy h1, stmtsL, leafy_stmts _ h1, List.nil_append, ih]
  | stmt h1 _ _ _ ih =>
    intro all i
    simp only [hitsL, List.map_append, matter_append, matter_stmt h1, stmtsL, stmt_stmtsOf h1, List.map_cons, List.map_nil, ih]
  | @loop stop c o e ns bs a' b x h1 h2 h3 h4 _ ih1 ih2 =>
    intro all i
    simp only [hitsL, matter_block (Or.inr rfl), matter_block (Or.inl rfl), List.map_append, matter_append, matter_stmt h2,
      matter_stmt h4, stmtsL, stmtsOf, reduceCtorEq, if_false, stmt_stmtsOf h2, stmt_stmtsOf h4, List.map_cons, List.map_nil,
      ih1, ih2]
  | @ifs stop c o ns rest a' h1 _ _ ih1 ih2 =>
    intro all i
    simp only [hitsL, matter_block (Or.inr rfl), List.map_append, matter_append, matter_stmt h1,
      stmtsL, stmtsOf, reduceCtorEq, if_false, stmt_stmtsOf h1, List.map_cons, List.map_nil, ih1, ih2]
  | @openIf stop o rest a' h1 _ ih1 =>
    intro all i
    simp only [hitsL, matter_block (Or.inr rfl), List.map_append, matter_append, matter_stmt h1,
      stmtsL, stmtsOf, reduceCtorEq, if_false, stmt_stmtsOf h1, List.map_cons, List.map_nil, ih1]
  | @branch c s bs rest b x _ hx hs _ ih1 ih2 =>
    intro all i
    simp only [hitsL, matter_block (Or.inl rfl), List.map_append, matter_append, matter_stmt hs,
      stmtsL, stmtsOf, reduceCtorEq, if_false, stmt_stmtsOf hs, List.map_cons, List.map_nil, ih1, ih2]
  | @fi e bs b _ he ih1 =>
    intro all i
    simp only [hitsL, matter_block (Or.inl rfl), List.map_append, matter_append, matter_stmt he,
      stmtsL, stmtsOf, reduceCtorEq, if_false, stmt_stmtsOf he, List.map_cons, List.map_nil, ih1]
  | @unclosed c bs b _ ih1 =>
    intro all i
    simp only [hitsL, matter_block (Or.inl rfl), List.map_append, matter_append,
      stmtsL, stmtsOf, reduceCtorEq, if_false, List.map_nil, ih1]

/-- What is found in a body are its commands, in some order. -/
theorem body_matter {m : Option (List Str)} {c : Bool} {bs : List Node} (h : Seq m c bs) (b : Attr) :
    (matter (bodyFound (.node .body b bs))).Perm (matter ((stmtsL bs).map found)) := by
  have := findIn_perm bodyNames (.node .body b bs)
  rw [matter_block (Or.inl rfl)] at this
  have := (this.map fun s => found s.node).filter (· ≠ .other)
  exact this.trans (.of_eq (seq_matter h bs 0))

end Verif.Gen
