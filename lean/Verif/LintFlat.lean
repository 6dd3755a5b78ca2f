import Verif.LintVisit
import Verif.Cover
import Verif.ParseBlank

/-!
# From the tree to the list of commands (lemmas for the lint checks)
-/

namespace Verif.Lint
open Verif Py Lex Parse

/-! ## Statements -/

theorem upper_upper (s : Str) : upper (upper s) = upper s := by
  rw [← Parse.upper_lower (upper s), Layout.lower_upper, Parse.upper_lower]

theorem stmt_funName {x : Str} {n : Node} (h : Stmt x n) : funName n = lower x := by
  obtain ⟨a, t, cs, rfl, _, rfl, _⟩ := h
  simp [funName, mk, Layout.lower_upper]

theorem stmt_toks {x : Str} {n : Node} (h : Stmt x n) : ∃ t ts, n.toks = t :: ts ∧ t.type = .word ∧ x = upper t.spelling ∧
    nodeLoc n = tokLoc t := by
  obtain ⟨a, t, cs, rfl, h1, h2, _⟩ := h
  exact ⟨t, toksL cs, by simp [mk], h1, h2, by simp [nodeLoc, mk]⟩

theorem stmt_nameOf {x : Str} {n : Node} (h : Stmt x n) : nameOf n = lower x := by
  obtain ⟨t, ts, e, h1, h2, _⟩ := stmt_toks h
  simp [nameOf, e, program, h1, h2, Layout.lower_upper]

theorem stmt_startOf {x : Str} {n : Node} (h : Stmt x n) : startOf n = nodeLoc n := by
  obtain ⟨t, ts, e, h1, h2, h3⟩ := stmt_toks h
  simp [startOf, e, h3, tokLoc, locOf]

theorem stmt_upper {x : Str} {n : Node} (h : Stmt x n) : upper (lower x) = x := by
  obtain ⟨t, ts, e, h1, h2, _⟩ := stmt_toks h
  rw [h2, Parse.upper_lower, upper_upper]

theorem stmt_type {x : Str} {n : Node} (h : Stmt x n) : hasType .statement n = true := by
  obtain ⟨a, t, cs, rfl, _⟩ := h
  simp [hasType]

theorem stmt_stmtsOf {x : Str} {n : Node} (h : Stmt x n) : stmtsOf n = [n] := by
  obtain ⟨a, t, cs, rfl, _⟩ := h
  simp [stmtsOf]

theorem stmtsL_append (a b : List Node) : stmtsL (a ++ b) = stmtsL a ++ stmtsL b := by
  induction a with
  | nil => simp [stmtsL]
  | cons n ns ih => simp [stmtsL, ih]

theorem leafy_kids {ty : NT} {a : Attr} {cs : List Node} (h : Leafy (.node ty a cs)) : ∀ c ∈ cs, Leafy c :=
  fun _ hc m hm => h m (.child hc hm)

mutual
theorem leafy_stmts : ∀ (n : Node), Leafy n → stmtsOf n = []
  | .tok t, _ => by simp [stmtsOf]
  | .node ty a cs, h => by
    have : ty ≠ .statement := by
      intro e
      have := h _ (.refl _)
      rw [e] at this
      simp [quiet, quietT] at this
    simp only [stmtsOf, if_neg this]
    exact leafyL_stmts cs (leafy_kids h)
theorem leafyL_stmts : ∀ (ns : List Node), (∀ c ∈ ns, Leafy c) → stmtsL ns = []
  | [], _ => by simp [stmtsL]
  | n :: ns, h => by
    simp [stmtsL, leafy_stmts n (h n (by simp)), leafyL_stmts ns fun c hc => h c (by simp [hc])]
end

mutual
theorem visits_sub : ∀ (n : Node) (anc : List Frame) (v : List Frame × Node), v ∈ visits anc n → Sub v.2 n
  | .tok t, anc, v, h => by simp [visits] at h
  | .node ty a cs, anc, v, h => by
    simp only [visits, List.mem_cons] at h
    rcases h with rfl | h
    · exact .refl _
    · obtain ⟨c, hc, hs⟩ := visitsL_sub cs _ _ _ _ _ v h
      exact .child hc hs
theorem visitsL_sub : ∀ (ns : List Node) (anc : List Frame) (ty : NT) (a : Attr) (all : List Node) (idx : Nat)
    (v : List Frame × Node), v ∈ visitsL anc ty a all idx ns → ∃ c ∈ ns, Sub v.2 c
  | [], anc, ty, a, all, idx, v, h => by simp [visitsL] at h
  | n :: ns, anc, ty, a, all, idx, v, h => by
    simp only [visitsL, List.mem_append] at h
    rcases h with h | h
    · exact ⟨n, by simp, visits_sub n _ v h⟩
    · obtain ⟨c, hc, hs⟩ := visitsL_sub ns _ _ _ _ _ v h
      exact ⟨c, by simp [hc], hs⟩
end

/-- The visited nodes that are statements, blocks or bodies. -/
def loud (vs : List (List Frame × Node)) : List (List Frame × Node) := vs.filter fun v => !quiet v.2

theorem loud_append (a b : List (List Frame × Node)) : loud (a ++ b) = loud a ++ loud b := by simp [loud]

theorem leafy_loud {n : Node} (h : Leafy n) (anc : List Frame) : loud (visits anc n) = [] := by
  simp only [loud, List.filter_eq_nil_iff]
  intro v hv
  simp [h _ (visits_sub n anc v hv)]

theorem leafyL_loud {ns : List Node} (h : ∀ c ∈ ns, Leafy c) (anc : List Frame) (ty : NT) (a : Attr) (all : List Node)
    (idx : Nat) : loud (visitsL anc ty a all idx ns) = [] := by
  simp only [loud, List.filter_eq_nil_iff]
  intro v hv
  obtain ⟨c, hc, hs⟩ := visitsL_sub ns _ _ _ _ _ v hv
  simp [h c hc _ hs]

theorem stmt_loud {x : Str} {n : Node} (h : Stmt x n) (anc : List Frame) : loud (visits anc n) = [(anc, n)] := by
  obtain ⟨a, t, cs, rfl, _, _, hl⟩ := h
  have hk : ∀ c ∈ mk .funname [.tok t] :: cs, Leafy c := by
    intro c hc
    rcases List.mem_cons.1 hc with rfl | hc
    · intro m hm
      cases hm with
      | refl => rfl
      | child hc hm =>
        simp only [List.mem_singleton] at hc
        subst hc
        cases hm
        rfl
    · exact hl c hc
  have := leafyL_loud hk anc .statement a (mk .funname [.tok t] :: cs) 0
  simp only [visits]
  simp only [loud] at this ⊢
  rw [List.filter_cons, if_pos (by simp [quiet, quietT]), this]

/-! ## Names -/

theorem lower_append (a b : Str) : lower (a ++ b) = lower a ++ lower b := by simp [lower]
theorem upper_append (a b : Str) : upper (a ++ b) = upper a ++ upper b := by simp [upper]

theorem lower_end (x : Str) : lower (S "END" ++ x) = S "end" ++ lower x := by
  rw [lower_append]; rfl

/-- The names of loops and definitions. -/
theorem loop_names {x : Str} (h : x ∈ [S "WHILE", S "FOREACH", S "FUNCTION", S "MACRO"]) :
    openers.contains (lower x) = true ∧ openers.contains (S "end" ++ lower x) = false ∧ lower x ≠ S "if" ∧
      upper (lower x) = x := by
  simp only [List.mem_cons, List.not_mem_nil, or_false] at h
  rcases h with rfl | rfl | rfl | rfl <;> decide

/-- A body with these end commands is inside these blocks. -/
def Fit (stop : List Str) : List Str → Prop
  | [] => True
  | top :: _ => S "END" ++ upper top ∈ stop ∧ (top = S "if" → S "ELSE" ∈ stop ∧ S "ELSEIF" ∈ stop)

theorem fit_loop {x : Str} (st : List Str) (h : x ∈ [S "WHILE", S "FOREACH", S "FUNCTION", S "MACRO"]) :
    Fit [S "END" ++ x] (lower x :: st) := by
  obtain ⟨_, _, h3, h4⟩ := loop_names h
  refine ⟨by simp [h4], fun e => absurd e h3⟩

theorem fit_if (st : List Str) : Fit ifStops (S "if" :: st) := by
  refine ⟨?_, fun _ => ?_⟩ <;> decide

theorem opener_flow {x : Str} (h : x ∉ flowNames) (hu : upper (lower x) = x) : openers.contains (lower x) = false := by
  cases e : openers.contains (lower x) with
  | false => rfl
  | true =>
    exfalso
    apply h
    rw [← hu]
    simp only [openers, List.contains_eq_mem, List.mem_cons, List.not_mem_nil, or_false, decide_eq_true_eq] at e
    rcases e with e | e | e | e | e <;> rw [e] <;> decide

/-- A plain command leaves the blocks alone. -/
theorem after_plain {x : Str} {n : Node} {stop st : List Str} (h : Stmt x n) (h1 : x ∉ stop) (h2 : x ∉ flowNames)
    (hf : Fit stop st) : after st (nameOf n) = st := by
  have hu := stmt_upper h
  rw [stmt_nameOf h]
  unfold after
  rw [opener_flow h2 hu]
  cases st with
  | nil => simp
  | cons top rest =>
    have : lower x ≠ S "end" ++ top := by
      intro e
      apply h1
      rw [← hu, e, upper_append]
      exact hf.1
    simp only [Bool.false_eq_true, if_false]
    exact if_neg this

theorem after_open {x : Str} {n : Node} {st : List Str} (h : Stmt x n) (hx : openers.contains (lower x) = true) :
    after st (nameOf n) = lower x :: st := by
  rw [stmt_nameOf h]
  unfold after
  rw [if_pos hx]

theorem after_end {top : Str} {n : Node} {st : List Str} (h : nameOf n = S "end" ++ top)
    (hx : openers.contains (S "end" ++ top) = false) : after (top :: st) (nameOf n) = st := by
  rw [h]
  unfold after
  rw [hx]
  simp only [Bool.false_eq_true, if_false]
  exact if_pos rfl

theorem after_branch {x : Str} {n : Node} {st : List Str} (h : Stmt x n) (hx : x = S "ELSE" ∨ x = S "ELSEIF") :
    after (S "if" :: st) (nameOf n) = S "if" :: st := by
  rw [stmt_nameOf h]
  rcases hx with rfl | rfl <;> rfl

/-! ## Statements with their blocks -/

/-- The first word of the first statement of a block. -/
def openName (f : Frame) : Str :=
  match f.kids with
  | [] => []
  | o :: _ => funName o

/-- The blocks around a node. -/
def stackOf : List Frame → List Str
  | [] => []
  | f :: fs => if f.ty = .flowControl ∧ f.idx ≠ 0 then openName f :: stackOf fs else stackOf fs

/-- Commands and the blocks around them. -/
def cmdBlocks (st : List Str) (cmds : List Node) : List (Node × List Str) :=
  (places st cmds).map fun p => (p.cmd, p.blocks)

theorem cmdBlocks_cons (st : List Str) (s : Node) (ss : List Node) :
    cmdBlocks st (s :: ss) = (s, st) :: cmdBlocks (after st (nameOf s)) ss := by simp [cmdBlocks, places]

/-- The visited statements. -/
def stmtsAt (vs : List (List Frame × Node)) : List (Node × List Str) :=
  ((loud vs).filter fun v => hasType .statement v.2).map fun v => (v.2, stackOf v.1)

theorem stmtsAt_append (a b : List (List Frame × Node)) : stmtsAt (a ++ b) = stmtsAt a ++ stmtsAt b := by
  simp [stmtsAt, loud_append]

theorem stmtsAt_leafy {n : Node} (h : Leafy n) (anc : List Frame) : stmtsAt (visits anc n) = [] := by
  simp [stmtsAt, leafy_loud h]

theorem stmtsAt_stmt {x : Str} {n : Node} (h : Stmt x n) (anc : List Frame) :
    stmtsAt (visits anc n) = [(n, stackOf anc)] := by
  simp [stmtsAt, stmt_loud h, stmt_type h]

theorem stmtsAt_cons {anc : List Frame} {ty : NT} {a : Attr} {cs : List Node} (hty : ty = .flowControl ∨ ty = .body) :
    stmtsAt (visits anc (.node ty a cs)) = stmtsAt (visitsL anc ty a cs 0 cs) := by
  have : loud (visits anc (.node ty a cs)) = (anc, .node ty a cs) :: loud (visitsL anc ty a cs 0 cs) := by
    rcases hty with rfl | rfl <;> simp [visits, loud, quiet, quietT]
  simp only [stmtsAt, this]
  rcases hty with rfl | rfl <;> simp [hasType]

/-- What the statements of a sequence are, in the list of commands. -/
def FlatAt : Option (List Str) → Bool → List Node → Prop
  | some stop, c, ns => ∀ (anc : List Frame) (a : Attr) (all : List Node) (idx : Nat) (K : List Node),
      Fit stop (stackOf anc) → (c = false → K = []) →
      cmdBlocks (stackOf anc) (stmtsL ns ++ K) = stmtsAt (visitsL anc .body a all idx ns) ++ cmdBlocks (stackOf anc) K
  | none, c, ns => ∀ (anc : List Frame) (a : Attr) (o : Node) (all : List Node) (idx : Nat) (K : List Node),
      funName o = S "if" → idx ≠ 0 → (c = false → K = []) →
      cmdBlocks (S "if" :: stackOf anc) (stmtsL ns ++ K) =
        stmtsAt (visitsL anc .flowControl a (o :: all) idx ns) ++ cmdBlocks (stackOf anc) K

theorem stackOf_body {a : Attr} {all : List Node} {idx : Nat} {anc : List Frame} :
    stackOf (⟨.body, a, all, idx⟩ :: anc) = stackOf anc := by simp [stackOf]

theorem stackOf_flow {a : Attr} {all : List Node} {o : Node} {idx : Nat} {anc : List Frame} (h : idx ≠ 0) :
    stackOf (⟨.flowControl, a, o :: all, idx⟩ :: anc) = funName o :: stackOf anc := by simp [stackOf, h, openName]

theorem stackOf_flow0 {a : Attr} {all : List Node} {anc : List Frame} :
    stackOf (⟨.flowControl, a, all, 0⟩ :: anc) = stackOf anc := by simp [stackOf]

theorem seq_flat {m : Option (List Str)} {c : Bool} {ns : List Node} (h : Seq m c ns) : FlatAt m c ns := by
  induction h with
  | nil => intro anc a all idx K hf hc; simp [stmtsL, visitsL, stmtsAt, loud]
  | @other stop c n ns h1 _ ih =>
    intro anc a all idx K hf hc
    simp only [stmtsL, leafy_stmts n h1, List.nil_append, visitsL, stmtsAt_append, stmtsAt_leafy h1]
    exact ih anc a all (idx + 1) K hf hc
  | @stmt stop c n ns x h1 h2 h3 _ ih =>
    intro anc a all idx K hf hc
    simp only [stmtsL, stmt_stmtsOf h1, List.cons_append, List.nil_append, cmdBlocks_cons, visitsL, stmtsAt_append,
      stmtsAt_stmt h1, stackOf_body, after_plain h1 h2 h3 hf]
    rw [ih anc a all (idx + 1) K hf hc]
  | @loop stop c o e ns bs a' b x h1 h2 h3 h4 _ ih1 ih2 =>
    intro anc a all idx K hf hc
    obtain ⟨n1, n2, n3, n4⟩ := loop_names h1
    have he : nameOf e = S "end" ++ lower x := by rw [stmt_nameOf h4, lower_end]
    have hb := ih1 (⟨.flowControl, a', [o, .node .body b bs, e], 1⟩ :: ⟨.body, a, all, idx⟩ :: anc) b bs 0
      (e :: (stmtsL ns ++ K)) (by
        rw [stackOf_flow (by simp), stmt_funName h2]
        exact fit_loop _ h1) (by simp)
    rw [stackOf_flow (by simp), stmt_funName h2, stackOf_body, cmdBlocks_cons, after_end he n2] at hb
    have hs : stmtsL (.node .flowControl a' [o, .node .body b bs, e] :: ns) ++ K =
        o :: (stmtsL bs ++ (e :: (stmtsL ns ++ K))) := by
      simp [stmtsL, stmtsOf, stmt_stmtsOf h2, stmt_stmtsOf h4]
    rw [hs, cmdBlocks_cons, after_open h2 n1, hb, ih2 anc a all (idx + 1) K hf hc]
    simp only [visitsL, stmtsAt_append, stmtsAt_cons (Or.inl rfl), stmtsAt_cons (Or.inr rfl), stmtsAt_stmt h2,
      stmtsAt_stmt h4, stackOf_flow0, stackOf_body, stackOf_flow (show (2 : Nat) ≠ 0 by decide), stmt_funName h2]
    simp [stmtsAt, loud]
  | @ifs stop c o ns rest a' h1 _ _ ih1 ih2 =>
    intro anc a all idx K hf hc
    have hn : funName o = S "if" := by rw [stmt_funName h1]; rfl
    have hb := ih1 (⟨.body, a, all, idx⟩ :: anc) a' o rest 1 (stmtsL ns ++ K) hn (by simp) (by simp)
    have hs : stmtsL (.node .flowControl a' (o :: rest) :: ns) ++ K = o :: (stmtsL rest ++ (stmtsL ns ++ K)) := by
      simp [stmtsL, stmtsOf, stmt_stmtsOf h1]
    rw [stackOf_body] at hb
    rw [hs, cmdBlocks_cons, after_open h1 rfl, show lower (S "IF") = S "if" from rfl, hb, ih2 anc a all (idx + 1) K hf hc]
    simp only [visitsL, stmtsAt_append, stmtsAt_cons (Or.inl rfl), stmtsAt_stmt h1, stackOf_flow0, stackOf_body]
    simp
  | @openIf stop o rest a' h1 _ ih1 =>
    intro anc a all idx K hf hc
    have hn : funName o = S "if" := by rw [stmt_funName h1]; rfl
    have hb := ih1 (⟨.body, a, all, idx⟩ :: anc) a' o rest 1 K hn (by simp) hc
    have hs : stmtsL [.node .flowControl a' (o :: rest)] ++ K = o :: (stmtsL rest ++ K) := by
      simp [stmtsL, stmtsOf, stmt_stmtsOf h1]
    rw [stackOf_body] at hb
    rw [hs, cmdBlocks_cons, after_open h1 rfl, show lower (S "IF") = S "if" from rfl, hb]
    simp only [visitsL, stmtsAt_append, stmtsAt_cons (Or.inl rfl), stmtsAt_stmt h1, stackOf_flow0, stackOf_body]
    simp [stmtsAt, loud]
  | @branch c s bs rest b x _ hx hs _ ih1 ih2 =>
    intro anc a o all idx K hn hi hc
    have hb := ih1 (⟨.flowControl, a, o :: all, idx⟩ :: anc) b bs 0 (s :: (stmtsL rest ++ K)) (by
      rw [stackOf_flow hi, hn]; exact fit_if _) (by simp)
    rw [stackOf_flow hi, hn, cmdBlocks_cons, after_branch hs hx, ih2 anc a o all (idx + 1 + 1) K hn (by simp) hc] at hb
    have e : stmtsL (.node .body b bs :: s :: rest) ++ K = stmtsL bs ++ (s :: (stmtsL rest ++ K)) := by
      simp [stmtsL, stmtsOf, stmt_stmtsOf hs]
    rw [e, hb]
    simp only [visitsL, stmtsAt_append, stmtsAt_cons (Or.inr rfl), stmtsAt_stmt hs,
      stackOf_flow (show idx + 1 ≠ 0 by simp), hn]
    simp
  | @fi e bs b _ he ih1 =>
    intro anc a o all idx K hn hi hc
    have hb := ih1 (⟨.flowControl, a, o :: all, idx⟩ :: anc) b bs 0 (e :: K) (by
      rw [stackOf_flow hi, hn]; exact fit_if _) (by simp)
    have hne : nameOf e = S "end" ++ S "if" := by rw [stmt_nameOf he]; rfl
    rw [stackOf_flow hi, hn, cmdBlocks_cons, after_end hne rfl] at hb
    have e' : stmtsL [.node .body b bs, e] ++ K = stmtsL bs ++ (e :: K) := by
      simp [stmtsL, stmtsOf, stmt_stmtsOf he]
    rw [e', hb]
    simp only [visitsL, stmtsAt_append, stmtsAt_cons (Or.inr rfl), stmtsAt_stmt he,
      stackOf_flow (show idx + 1 ≠ 0 by simp), hn]
    simp [stmtsAt, loud]
  | @unclosed c bs b _ ih1 =>
    intro anc a o all idx K hn hi hc
    have hk := hc rfl
    subst hk
    have hb := ih1 (⟨.flowControl, a, o :: all, idx⟩ :: anc) b bs 0 [] (by
      rw [stackOf_flow hi, hn]; exact fit_if _) (by simp)
    rw [stackOf_flow hi, hn] at hb
    have e' : stmtsL [.node .body b bs] ++ [] = stmtsL bs ++ [] := by
      simp [stmtsL, stmtsOf]
    rw [e', hb]
    simp only [visitsL, stmtsAt_append, stmtsAt_cons (Or.inr rfl)]
    simp [stmtsAt, loud, cmdBlocks, places]

/-- The commands of a parsed file and the blocks around them are the visited statements. -/
theorem tree_flat {ctx : Parse.Ctx} {ts : List Token} {tree : Node} (h : parse ctx ts = .ok tree) :
    cmdBlocks [] (stmtsOf tree) = stmtsAt (visits [] tree) := by
  obtain ⟨a, cs, c, rfl, hs⟩ := parse_seq h
  have := seq_flat hs [] a cs 0 [] trivial (by simp)
  simp only [List.append_nil, stackOf] at this
  rw [stmtsAt_cons (Or.inr rfl)]
  have e : stmtsOf (.node .body a cs) = stmtsL cs := by simp [stmtsOf]
  rw [e, this]
  simp [cmdBlocks, places]

end Verif.Lint
