import Verif.LintCount

/-!
# Checks of bodies and blocks as checks of commands (lemmas for the lint checks)
-/

namespace Verif.Lint
open Verif Py Lex Parse

/-- The contributions of the items of a body. -/
def itemsOf {β : Type} (fi : Node → List Node → List β) : List Node → List β
  | [] => []
  | n :: ns => fi n ns ++ itemsOf fi ns

/-- The contributions of the bodies and blocks among some visits. -/
def nodesOf {β : Type} (fi : Node → List Node → List β) (ff : List Node → List β) (vs : List (List Frame × Node)) : List β :=
  (loud vs).flatMap fun v =>
    match v.2 with
    | .node .body _ cs => itemsOf fi cs
    | .node .flowControl _ cs => ff cs
    | _ => []

/-- What links the checks of items and blocks to a check of commands. -/
structure Link {β : Type} (fi : Node → List Node → List β) (ff : List Node → List β) (g : Place → List β) : Prop where
  quiet : ∀ n ns, hasType .statement n = false → fi n ns = []
  plain : ∀ (stop : List Str) (c : Bool) (x : Str) (n : Node) (ns K : List Node) (st : List Str), Stmt x n → x ∉ stop →
    x ∉ flowNames → Seq (some stop) c ns → Fit stop st → (K = [] ∨ ∃ k K', K = k :: K' ∧ endsPart st (nameOf k) = true) →
    g ⟨n, st, stmtsL ns ++ K⟩ = fi n ns
  loop : ∀ (x : Str) (o e : Node) (b : Attr) (bs K : List Node) (st : List Str),
    x ∈ [S "WHILE", S "FOREACH", S "FUNCTION", S "MACRO"] → Stmt x o → Seq (some [S "END" ++ x]) true bs →
    Stmt (S "END" ++ x) e → g ⟨o, st, stmtsL bs ++ e :: K⟩ = ff [o, .node .body b bs, e]
  ifs : ∀ (o : Node) (rest K : List Node) (st : List Str), Stmt (S "IF") o → g ⟨o, st, K⟩ = ff (o :: rest)
  mark : ∀ (x : Str) (n : Node) (st K : List _), Stmt x n →
    x ∈ [S "ENDIF", S "ENDWHILE", S "ENDFOREACH", S "ENDFUNCTION", S "ENDMACRO", S "ELSE", S "ELSEIF"] →
    endsPart st (nameOf n) = true → g ⟨n, st, K⟩ = []

variable {β : Type} {fi : Node → List Node → List β} {ff : List Node → List β} {g : Place → List β}

theorem nodesOf_append (a b : List (List Frame × Node)) : nodesOf fi ff (a ++ b) = nodesOf fi ff a ++ nodesOf fi ff b := by
  simp [nodesOf, loud_append]

theorem nodesOf_leafy {n : Node} (h : Leafy n) (anc : List Frame) : nodesOf fi ff (visits anc n) = [] := by
  simp [nodesOf, leafy_loud h]

theorem nodesOf_stmt {x : Str} {n : Node} (h : Stmt x n) (anc : List Frame) : nodesOf fi ff (visits anc n) = [] := by
  rw [nodesOf, stmt_loud h]
  obtain ⟨a, t, cs, rfl, _⟩ := h
  simp

theorem nodesOf_body {anc : List Frame} {a : Attr} {cs : List Node} :
    nodesOf fi ff (visits anc (.node .body a cs)) = itemsOf fi cs ++ nodesOf fi ff (visitsL anc .body a cs 0 cs) := by
  simp [nodesOf, visits, loud, quiet, quietT]

theorem nodesOf_flow {anc : List Frame} {a : Attr} {cs : List Node} :
    nodesOf fi ff (visits anc (.node .flowControl a cs)) = ff cs ++ nodesOf fi ff (visitsL anc .flowControl a cs 0 cs) := by
  simp [nodesOf, visits, loud, quiet, quietT]

theorem not_stmt_leafy {n : Node} (h : Leafy n) : hasType .statement n = false := by
  have h1 := h n (.refl _)
  cases n with
  | tok t => rfl
  | node ty a cs => cases ty <;> first | rfl | simp [quiet, quietT] at h1

theorem not_stmt_flow {a : Attr} {cs : List Node} : hasType .statement (.node .flowControl a cs) = false := rfl

/-- The end of a part of a block, or of the file. -/
def PartEnd (st : List Str) (K : List Node) : Prop := K = [] ∨ ∃ k K', K = k :: K' ∧ endsPart st (nameOf k) = true

/-- The contributions of a sequence are those of its commands. -/
def LinkAt (fi : Node → List Node → List β) (ff : List Node → List β) (g : Place → List β) :
    Option (List Str) → Bool → List Node → Prop
  | some stop, c, ns => ∀ (anc : List Frame) (a : Attr) (all : List Node) (idx : Nat) (K : List Node) (st : List Str),
      Fit stop st → (c = false → K = []) → PartEnd st K →
      ∃ P, places st (stmtsL ns ++ K) = P ++ places st K ∧
        (P.flatMap g).Perm (itemsOf fi ns ++ nodesOf fi ff (visitsL anc .body a all idx ns))
  | none, c, ns => ∀ (anc : List Frame) (a : Attr) (all : List Node) (idx : Nat) (K : List Node) (st : List Str),
      (c = false → K = []) →
      ∃ P, places (S "if" :: st) (stmtsL ns ++ K) = P ++ places st K ∧
        (P.flatMap g).Perm (nodesOf fi ff (visitsL anc .flowControl a all idx ns))

theorem seq_link (L : Link fi ff g) {m : Option (List Str)} {c : Bool} {ns : List Node} (h : Seq m c ns) :
    LinkAt fi ff g m c ns := by
  induction h with
  | nil => intro anc a all idx K st hf hc hk; exact ⟨[], by simp [stmtsL], by simp [itemsOf, visitsL, nodesOf, loud]⟩
  | @other stop c n ns h1 _ ih =>
    intro anc a all idx K st hf hc hk
    obtain ⟨P, e, hp⟩ := ih anc a all (idx + 1) K st hf hc hk
    refine ⟨P, by simpa [stmtsL, leafy_stmts n h1] using e, ?_⟩
    simpa [itemsOf, L.quiet n ns (not_stmt_leafy h1), visitsL, nodesOf_append, nodesOf_leafy h1] using hp
  | @stmt stop c n ns x h1 h2 h3 hs ih =>
    intro anc a all idx K st hf hc hk
    obtain ⟨P, e, hp⟩ := ih anc a all (idx + 1) K st hf hc hk
    refine ⟨⟨n, st, stmtsL ns ++ K⟩ :: P, ?_, ?_⟩
    · simp [stmtsL, stmt_stmtsOf h1, places, after_plain h1 h2 h3 hf, e]
    · simp only [List.flatMap_cons, L.plain stop c x n ns K st h1 h2 h3 hs hf hk, itemsOf, visitsL, nodesOf_append,
        nodesOf_stmt h1, List.nil_append, List.append_assoc]
      exact hp.append_left _
  | @loop stop c o e ns bs a' b x h1 h2 h3 h4 _ ih1 ih2 =>
    intro anc a all idx K st hf hc hk
    obtain ⟨n1, n2, n3, n4⟩ := loop_names h1
    have he : nameOf e = S "end" ++ lower x := by rw [stmt_nameOf h4, lower_end]
    obtain ⟨P2, e2, p2⟩ := ih2 anc a all (idx + 1) K st hf hc hk
    obtain ⟨P1, e1, p1⟩ := ih1 (⟨.flowControl, a', [o, .node .body b bs, e], 1⟩ :: ⟨.body, a, all, idx⟩ :: anc) b bs 0
      (e :: (stmtsL ns ++ K)) (lower x :: st) (fit_loop _ h1) (by simp)
      (Or.inr ⟨_, _, rfl, by rw [he]; simp [endsPart]; exact Or.inl rfl⟩)
    refine ⟨⟨o, st, stmtsL bs ++ (e :: (stmtsL ns ++ K))⟩ :: (P1 ++ ⟨e, lower x :: st, stmtsL ns ++ K⟩ :: P2), ?_, ?_⟩
    · have hs : stmtsL (.node .flowControl a' [o, .node .body b bs, e] :: ns) ++ K =
          o :: (stmtsL bs ++ (e :: (stmtsL ns ++ K))) := by
        simp [stmtsL, stmtsOf, stmt_stmtsOf h2, stmt_stmtsOf h4]
      rw [hs, places, after_open h2 n1, e1, places, after_end he n2, e2]
      simp
    · have hm : g ⟨e, lower x :: st, stmtsL ns ++ K⟩ = [] := by
        refine L.mark _ _ _ _ h4 ?_ (by rw [he]; simp [endsPart]; exact Or.inl rfl)
        simp only [List.mem_cons, List.not_mem_nil, or_false] at h1
        rcases h1 with rfl | rfl | rfl | rfl <;> decide
      simp only [List.flatMap_cons, List.flatMap_append, L.loop x o e b bs _ st h1 h2 h3 h4, hm, List.nil_append, itemsOf,
        L.quiet _ _ not_stmt_flow, visitsL, nodesOf_append, nodesOf_flow, nodesOf_stmt h2, nodesOf_stmt h4, nodesOf_body]
      have z : nodesOf fi ff [] = [] := by simp [nodesOf, loud]
      rw [z, List.append_nil]
      have q : (P1.flatMap g ++ P2.flatMap g).Perm
          ((itemsOf fi bs ++ nodesOf fi ff (visitsL (⟨.flowControl, a', [o, .node .body b bs, e], 1⟩ ::
            ⟨.body, a, all, idx⟩ :: anc) .body b bs 0 bs)) ++
            (itemsOf fi ns ++ nodesOf fi ff (visitsL anc .body a all (idx + 1) ns))) := p1.append p2
      refine (q.append_left (ff [o, .node .body b bs, e])).trans ?_
      generalize ff [o, .node .body b bs, e] = A
      generalize itemsOf fi bs = B
      generalize itemsOf fi ns = C
      generalize nodesOf fi ff (visitsL anc .body a all (idx + 1) ns) = D
      generalize nodesOf fi ff (visitsL _ _ b bs 0 bs) = E
      have : (A ++ ((B ++ E) ++ (C ++ D))).Perm (C ++ ((A ++ (B ++ E)) ++ D)) := by
        have := (List.perm_append_comm (l₁ := A ++ (B ++ E)) (l₂ := C)).append_right D
        simpa only [List.append_assoc] using this
      exact this
  | @ifs stop c o ns rest a' h1 _ _ ih1 ih2 =>
    intro anc a all idx K st hf hc hk
    obtain ⟨P2, e2, p2⟩ := ih2 anc a all (idx + 1) K st hf hc hk
    obtain ⟨P1, e1, p1⟩ := ih1 (⟨.body, a, all, idx⟩ :: anc) a' (o :: rest) 1 (stmtsL ns ++ K) st (by simp)
    refine ⟨⟨o, st, stmtsL rest ++ (stmtsL ns ++ K)⟩ :: (P1 ++ P2), ?_, ?_⟩
    · have hs : stmtsL (.node .flowControl a' (o :: rest) :: ns) ++ K = o :: (stmtsL rest ++ (stmtsL ns ++ K)) := by
        simp [stmtsL, stmtsOf, stmt_stmtsOf h1]
      rw [hs, places, after_open h1 rfl, show lower (S "IF") = S "if" from rfl, e1, e2]
      simp
    · simp only [List.flatMap_cons, List.flatMap_append, L.ifs o rest _ st h1, itemsOf, List.nil_append,
        L.quiet _ _ not_stmt_flow, visitsL, nodesOf_append, nodesOf_flow, nodesOf_stmt h1]
      refine ((p1.append p2).append_left (ff (o :: rest))).trans ?_
      generalize ff (o :: rest) = A
      generalize itemsOf fi ns = C
      generalize nodesOf fi ff (visitsL anc .body a all (idx + 1) ns) = D
      generalize nodesOf fi ff (visitsL _ _ _ _ _ rest) = E
      have : (A ++ (E ++ (C ++ D))).Perm (C ++ ((A ++ E) ++ D)) := by
        rw [← List.append_assoc, ← List.append_assoc, ← List.append_assoc]
        exact (List.perm_append_comm (l₁ := A ++ E) (l₂ := C)).append_right D
      exact this
  | @openIf stop o rest a' h1 _ ih1 =>
    intro anc a all idx K st hf hc hk
    have := hc rfl
    subst this
    obtain ⟨P1, e1, p1⟩ := ih1 (⟨.body, a, all, idx⟩ :: anc) a' (o :: rest) 1 [] st (by simp)
    refine ⟨⟨o, st, stmtsL rest ++ []⟩ :: P1, ?_, ?_⟩
    · have hs : stmtsL [.node .flowControl a' (o :: rest)] ++ [] = o :: (stmtsL rest ++ []) := by
        simp [stmtsL, stmtsOf, stmt_stmtsOf h1]
      simp only [hs, places, after_open h1 rfl, show lower (S "IF") = S "if" from rfl, e1]
      simp
    · have z : nodesOf fi ff [] = [] := by simp [nodesOf, loud]
      simp only [List.flatMap_cons, L.ifs o rest _ st h1, itemsOf, List.nil_append, List.append_nil,
        L.quiet _ _ not_stmt_flow, visitsL, nodesOf_append, nodesOf_flow, nodesOf_stmt h1]
      exact p1.append_left _
  | @branch c s bs rest b x _ hx hs _ ih1 ih2 =>
    intro anc a all idx K st hc
    obtain ⟨P2, e2, p2⟩ := ih2 anc a all (idx + 1 + 1) K st hc
    obtain ⟨P1, e1, p1⟩ := ih1 (⟨.flowControl, a, all, idx⟩ :: anc) b bs 0 (s :: (stmtsL rest ++ K)) (S "if" :: st)
      (fit_if _) (by simp) (Or.inr ⟨_, _, rfl, by rw [stmt_nameOf hs]; rcases hx with rfl | rfl <;> rfl⟩)
    refine ⟨P1 ++ ⟨s, S "if" :: st, stmtsL rest ++ K⟩ :: P2, ?_, ?_⟩
    · have e : stmtsL (.node .body b bs :: s :: rest) ++ K = stmtsL bs ++ (s :: (stmtsL rest ++ K)) := by
        simp [stmtsL, stmtsOf, stmt_stmtsOf hs]
      rw [e, e1, places, after_branch hs hx, e2]
      simp
    · have hm : g ⟨s, S "if" :: st, stmtsL rest ++ K⟩ = [] :=
        L.mark _ _ _ _ hs (by rcases hx with rfl | rfl <;> decide)
          (by rw [stmt_nameOf hs]; rcases hx with rfl | rfl <;> rfl)
      simp only [List.flatMap_append, List.flatMap_cons, hm, List.nil_append, visitsL, nodesOf_append, nodesOf_body,
        nodesOf_stmt hs]
      exact p1.append p2
  | @fi e bs b _ he ih1 =>
    intro anc a all idx K st hc
    have hne : nameOf e = S "end" ++ S "if" := by rw [stmt_nameOf he]; rfl
    obtain ⟨P1, e1, p1⟩ := ih1 (⟨.flowControl, a, all, idx⟩ :: anc) b bs 0 (e :: K) (S "if" :: st)
      (fit_if _) (by simp) (Or.inr ⟨_, _, rfl, by rw [hne]; rfl⟩)
    refine ⟨P1 ++ [⟨e, S "if" :: st, K⟩], ?_, ?_⟩
    · have e' : stmtsL [.node .body b bs, e] ++ K = stmtsL bs ++ (e :: K) := by
        simp [stmtsL, stmtsOf, stmt_stmtsOf he]
      rw [e', e1, places, after_end hne rfl]
      simp
    · have hm : g ⟨e, S "if" :: st, K⟩ = [] := L.mark _ _ _ _ he (by decide) (by rw [hne]; rfl)
      have z : nodesOf fi ff [] = [] := by simp [nodesOf, loud]
      simp only [List.flatMap_append, List.flatMap_cons, List.flatMap_nil, hm, visitsL, nodesOf_append, nodesOf_body,
        nodesOf_stmt he]
      rw [z]
      simpa using p1
  | @unclosed c bs b _ ih1 =>
    intro anc a all idx K st hc
    have := hc rfl
    subst this
    obtain ⟨P1, e1, p1⟩ := ih1 (⟨.flowControl, a, all, idx⟩ :: anc) b bs 0 [] (S "if" :: st)
      (fit_if _) (by simp) (Or.inl rfl)
    refine ⟨P1, ?_, ?_⟩
    · have e' : stmtsL [.node .body b bs] ++ [] = stmtsL bs ++ [] := by simp [stmtsL, stmtsOf]
      rw [e', e1]
      simp [places]
    · have z : nodesOf fi ff [] = [] := by simp [nodesOf, loud]
      simp only [visitsL, nodesOf_append, nodesOf_body]
      rw [z]
      simpa using p1

/-- The contributions of a parsed file are those of its commands. -/
theorem tree_link (L : Link fi ff g) {ctx : Parse.Ctx} {ts : List Token} {tree : Node} (h : parse ctx ts = .ok tree) :
    ((places [] (stmtsOf tree)).flatMap g).Perm (nodesOf fi ff (visits [] tree)) := by
  obtain ⟨a, cs, c, rfl, hs⟩ := parse_seq h
  obtain ⟨P, e, hp⟩ := seq_link L hs [] a cs 0 [] [] trivial (by simp) (Or.inl rfl)
  have e' : stmtsOf (.node .body a cs) = stmtsL cs := by simp [stmtsOf]
  simp only [List.append_nil, places] at e
  rw [e', e, nodesOf_body]
  exact hp

/-! ## The commands inside a block -/

/-- Where the commands of a sequence are. -/
def InAt : Option (List Str) → Bool → List Node → Prop
  | some stop, c, ns => ∀ (K : List Node) (st : List Str), Fit stop st → (c = false → K = []) →
      ∃ P, places st (stmtsL ns ++ K) = P ++ places st K ∧ P.map (·.cmd) = stmtsL ns ∧
        ∀ p ∈ P, (p.blocks = st ∧ ((∃ x, nameOf p.cmd = lower x ∧ upper (lower x) = x ∧ x ∉ stop) ∨ nameOf p.cmd ∈ openers)) ∨
          st.length < p.blocks.length
  | none, c, ns => ∀ (K : List Node) (st : List Str), (c = false → K = []) →
      ∃ P, places (S "if" :: st) (stmtsL ns ++ K) = P ++ places st K ∧ P.map (·.cmd) = stmtsL ns ∧
        ∀ p ∈ P, st.length < p.blocks.length

theorem opener_name {x : Str} {o : Node} (h1 : x ∈ [S "WHILE", S "FOREACH", S "FUNCTION", S "MACRO"]) (h2 : Stmt x o) :
    nameOf o ∈ openers := by
  rw [stmt_nameOf h2]
  simp only [List.mem_cons, List.not_mem_nil, or_false] at h1
  rcases h1 with rfl | rfl | rfl | rfl <;> decide

theorem seq_in {m : Option (List Str)} {c : Bool} {ns : List Node} (h : Seq m c ns) : InAt m c ns := by
  induction h with
  | nil => intro K st hf hc; exact ⟨[], by simp [stmtsL], by simp [stmtsL], by simp⟩
  | @other stop c n ns h1 _ ih =>
    intro K st hf hc
    obtain ⟨P, e, hp, hq⟩ := ih K st hf hc
    exact ⟨P, by simpa [stmtsL, leafy_stmts n h1] using e, by simpa [stmtsL, leafy_stmts n h1] using hp, hq⟩
  | @stmt stop c n ns x h1 h2 h3 hs ih =>
    intro K st hf hc
    obtain ⟨P, e, hp, hq⟩ := ih K st hf hc
    refine ⟨⟨n, st, stmtsL ns ++ K⟩ :: P, ?_, by simp [stmtsL, stmt_stmtsOf h1, hp], ?_⟩
    · simp [stmtsL, stmt_stmtsOf h1, places, after_plain h1 h2 h3 hf, e]
    · intro p hp
      rcases List.mem_cons.1 hp with rfl | hp
      · exact Or.inl ⟨rfl, Or.inl ⟨x, stmt_nameOf h1, stmt_upper h1, h2⟩⟩
      · exact hq p hp
  | @loop stop c o e ns bs a' b x h1 h2 h3 h4 _ ih1 ih2 =>
    intro K st hf hc
    obtain ⟨n1, n2, n3, n4⟩ := loop_names h1
    have he : nameOf e = S "end" ++ lower x := by rw [stmt_nameOf h4, lower_end]
    obtain ⟨P2, e2, p2, q2⟩ := ih2 K st hf hc
    obtain ⟨P1, e1, p1, q1⟩ := ih1 (e :: (stmtsL ns ++ K)) (lower x :: st) (fit_loop _ h1) (by simp)
    refine ⟨⟨o, st, stmtsL bs ++ (e :: (stmtsL ns ++ K))⟩ :: (P1 ++ ⟨e, lower x :: st, stmtsL ns ++ K⟩ :: P2), ?_, ?_, ?_⟩
    · have hs : stmtsL (.node .flowControl a' [o, .node .body b bs, e] :: ns) ++ K =
          o :: (stmtsL bs ++ (e :: (stmtsL ns ++ K))) := by
        simp [stmtsL, stmtsOf, stmt_stmtsOf h2, stmt_stmtsOf h4]
      rw [hs, places, after_open h2 n1, e1, places, after_end he n2, e2]
      simp
    · simp [stmtsL, stmtsOf, stmt_stmtsOf h2, stmt_stmtsOf h4, p1, p2]
    · intro p hp
      simp only [List.mem_cons, List.mem_append] at hp
      rcases hp with rfl | hp | rfl | hp
      · exact Or.inl ⟨rfl, Or.inr (opener_name h1 h2)⟩
      · rcases q1 p hp with ⟨e, _⟩ | l
        · right; rw [e]; simp
        · right; simp only [List.length_cons] at l; omega
      · right; simp
      · exact q2 p hp
  | @ifs stop c o ns rest a' h1 _ _ ih1 ih2 =>
    intro K st hf hc
    obtain ⟨P2, e2, p2, q2⟩ := ih2 K st hf hc
    obtain ⟨P1, e1, p1, q1⟩ := ih1 (stmtsL ns ++ K) st (by simp)
    refine ⟨⟨o, st, stmtsL rest ++ (stmtsL ns ++ K)⟩ :: (P1 ++ P2), ?_, ?_, ?_⟩
    · have hs : stmtsL (.node .flowControl a' (o :: rest) :: ns) ++ K = o :: (stmtsL rest ++ (stmtsL ns ++ K)) := by
        simp [stmtsL, stmtsOf, stmt_stmtsOf h1]
      rw [hs, places, after_open h1 rfl, show lower (S "IF") = S "if" from rfl, e1, e2]
      simp
    · simp [stmtsL, stmtsOf, stmt_stmtsOf h1, p1, p2]
    · intro p hp
      simp only [List.mem_cons, List.mem_append] at hp
      rcases hp with rfl | hp | hp
      · exact Or.inl ⟨rfl, Or.inr (by rw [stmt_nameOf h1]; decide)⟩
      · exact Or.inr (q1 p hp)
      · exact q2 p hp
  | @openIf stop o rest a' h1 _ ih1 =>
    intro K st hf hc
    have := hc rfl
    subst this
    obtain ⟨P1, e1, p1, q1⟩ := ih1 [] st (by simp)
    refine ⟨⟨o, st, stmtsL rest ++ []⟩ :: P1, ?_, by simp [stmtsL, stmtsOf, stmt_stmtsOf h1, p1], ?_⟩
    · have hs : stmtsL [.node .flowControl a' (o :: rest)] ++ [] = o :: (stmtsL rest ++ []) := by
        simp [stmtsL, stmtsOf, stmt_stmtsOf h1]
      simp only [hs, places, after_open h1 rfl, show lower (S "IF") = S "if" from rfl, e1]
      simp
    · intro p hp
      simp only [List.mem_cons] at hp
      rcases hp with rfl | hp
      · exact Or.inl ⟨rfl, Or.inr (by rw [stmt_nameOf h1]; decide)⟩
      · exact Or.inr (q1 p hp)
  | @branch c s bs rest b x _ hx hs _ ih1 ih2 =>
    intro K st hc
    obtain ⟨P2, e2, p2, q2⟩ := ih2 K st hc
    obtain ⟨P1, e1, p1, q1⟩ := ih1 (s :: (stmtsL rest ++ K)) (S "if" :: st) (fit_if _) (by simp)
    refine ⟨P1 ++ ⟨s, S "if" :: st, stmtsL rest ++ K⟩ :: P2, ?_, by simp [stmtsL, stmtsOf, stmt_stmtsOf hs, p1, p2], ?_⟩
    · have e : stmtsL (.node .body b bs :: s :: rest) ++ K = stmtsL bs ++ (s :: (stmtsL rest ++ K)) := by
        simp [stmtsL, stmtsOf, stmt_stmtsOf hs]
      rw [e, e1, places, after_branch hs hx, e2]
      simp
    · intro p hp
      simp only [List.mem_cons, List.mem_append] at hp
      rcases hp with hp | rfl | hp
      · rcases q1 p hp with ⟨e, _⟩ | l
        · rw [e]; simp
        · simp only [List.length_cons] at l; omega
      · simp
      · exact q2 p hp
  | @fi e bs b _ he ih1 =>
    intro K st hc
    have hne : nameOf e = S "end" ++ S "if" := by rw [stmt_nameOf he]; rfl
    obtain ⟨P1, e1, p1, q1⟩ := ih1 (e :: K) (S "if" :: st) (fit_if _) (by simp)
    refine ⟨P1 ++ [⟨e, S "if" :: st, K⟩], ?_, by simp [stmtsL, stmtsOf, stmt_stmtsOf he, p1], ?_⟩
    · have e' : stmtsL [.node .body b bs, e] ++ K = stmtsL bs ++ (e :: K) := by
        simp [stmtsL, stmtsOf, stmt_stmtsOf he]
      rw [e', e1, places, after_end hne rfl]
      simp
    · intro p hp
      simp only [List.mem_cons, List.mem_append, List.not_mem_nil, or_false] at hp
      rcases hp with hp | rfl
      · rcases q1 p hp with ⟨e, _⟩ | l
        · rw [e]; simp
        · simp only [List.length_cons] at l; omega
      · simp
  | @unclosed c bs b _ ih1 =>
    intro K st hc
    have := hc rfl
    subst this
    obtain ⟨P1, e1, p1, q1⟩ := ih1 [] (S "if" :: st) (fit_if _) (by simp)
    refine ⟨P1, ?_, by simp [stmtsL, stmtsOf, p1], ?_⟩
    · have e' : stmtsL [.node .body b bs] ++ [] = stmtsL bs ++ [] := by simp [stmtsL, stmtsOf]
      rw [e', e1]
      simp [places]
    · intro p hp
      rcases q1 p hp with ⟨e, _⟩ | l
      · rw [e]; simp
      · simp only [List.length_cons] at l; omega

/-- The commands of a body are those inside its block. -/
theorem inside_body {x : Str} {bs K : List Node} {e : Node} (h1 : x ∈ [S "WHILE", S "FOREACH", S "FUNCTION", S "MACRO"])
    (h3 : Seq (some [S "END" ++ x]) true bs) (h4 : Stmt (S "END" ++ x) e) :
    inside (lower x) (stmtsL bs ++ e :: K) = stmtsL bs := by
  obtain ⟨n1, n2, n3, n4⟩ := loop_names h1
  have he : nameOf e = S "end" ++ lower x := by rw [stmt_nameOf h4, lower_end]
  obtain ⟨P, e1, p1, q1⟩ := seq_in h3 (e :: K) [lower x] (fit_loop _ h1) (by simp)
  unfold inside
  rw [e1, List.takeWhile_append_of_pos, places, List.takeWhile_cons_of_neg, List.append_nil, p1]
  · simp only [he, beq_self_eq_true, Bool.true_and, Bool.not_eq_true']
    simp only [Bool.not_eq_false]
    exact beq_iff_eq.2 rfl
  · intro p hp
    simp only [Bool.not_eq_true', Bool.and_eq_false_iff, beq_eq_false_iff_ne, ne_eq]
    rcases q1 p hp with ⟨_, ⟨y, hy, hu, hn⟩ | ho⟩ | l
    · right
      rw [hy]
      intro e
      apply hn
      rw [← hu, e, show (c! "end" ++ lower x) = S "end" ++ lower x from rfl, upper_append, n4]
      simp
      rfl
    · right
      intro e
      rw [e] at ho
      have : openers.contains (S "end" ++ lower x) = true := by
        rw [List.contains_eq_mem, decide_eq_true_eq]
        exact ho
      rw [n2] at this
      simp at this
    · left
      intro e
      rw [e] at l
      simp at l

/-- The first command of a body does not end a part of its block. -/
theorem head_stays {stop : List Str} {c : Bool} {ns : List Node} {st : List Str} (h : Seq (some stop) c ns) (hf : Fit stop st)
    {s : Node} {l : List Node} (hl : stmtsL ns = s :: l) : endsPart st (nameOf s) = false := by
  cases st with
  | nil => rfl
  | cons top rest =>
    have key : ∀ y, Stmt y s → ((y ∉ stop) ∨ nameOf s ∈ openers) → endsPart (top :: rest) (nameOf s) = false := by
      intro y hy ho
      rcases ho with ho | ho
      · have hu := stmt_upper hy
        rw [stmt_nameOf hy]
        simp only [endsPart, Bool.or_eq_false_iff, beq_eq_false_iff_ne, ne_eq]
        refine ⟨?_, ?_⟩
        · intro e
          apply ho
          rw [← hu, e, show (c! "end" ++ top) = S "end" ++ top from rfl, upper_append]
          exact hf.1
        · by_cases ht : top = c! "if"
          · obtain ⟨e1, e2⟩ := hf.2 ht
            simp only [ht, beq_self_eq_true, Bool.true_and, List.contains_eq_mem, decide_eq_false_iff_not, List.mem_cons,
              List.not_mem_nil, or_false]
            rintro (e | e) <;> apply ho <;> rw [← hu, e]
            · exact e1
            · exact e2
          · simp [ht]
      · simp only [openers, List.mem_cons, List.not_mem_nil, or_false] at ho
        simp only [endsPart, Bool.or_eq_false_iff, beq_eq_false_iff_ne, ne_eq]
        refine ⟨?_, ?_⟩
        · rcases ho with e | e | e | e | e <;> rw [e] <;> simp
        · rcases ho with e | e | e | e | e <;> rw [e] <;> simp
    generalize hm : some stop = m at h
    induction h with
    | nil => simp [stmtsL] at hl
    | @other stop' c n ns h1 _ ih =>
      simp only [stmtsL, leafy_stmts n h1, List.nil_append] at hl
      exact ih hl hm
    | @stmt stop' c n ns x h1 h2 h3 hs ih =>
      simp only [Option.some.injEq] at hm
      subst hm
      simp only [stmtsL, stmt_stmtsOf h1, List.cons_append, List.nil_append, List.cons.injEq] at hl
      obtain ⟨rfl, _⟩ := hl
      exact key x h1 (Or.inl h2)
    | @loop stop c o e ns bs a' b x h1 h2 h3 h4 _ ih1 ih2 =>
      simp only [stmtsL, stmtsOf, stmt_stmtsOf h2, reduceCtorEq, if_false, List.cons_append, List.nil_append,
        List.cons.injEq] at hl
      obtain ⟨rfl, _⟩ := hl
      exact key x h2 (Or.inr (opener_name h1 h2))
    | @ifs stop c o ns rest a' h1 _ _ ih1 ih2 =>
      simp only [stmtsL, stmtsOf, stmt_stmtsOf h1, reduceCtorEq, if_false, List.cons_append, List.nil_append,
        List.cons.injEq] at hl
      obtain ⟨rfl, _⟩ := hl
      exact key _ h1 (Or.inr (by rw [stmt_nameOf h1]; decide))
    | @openIf stop o rest a' h1 _ ih1 =>
      simp only [stmtsL, stmtsOf, stmt_stmtsOf h1, reduceCtorEq, if_false, List.cons_append, List.nil_append,
        List.cons.injEq] at hl
      obtain ⟨rfl, _⟩ := hl
      exact key _ h1 (Or.inr (by rw [stmt_nameOf h1]; decide))
    | branch => cases hm
    | fi => cases hm
    | unclosed => cases hm

end Verif.Lint
