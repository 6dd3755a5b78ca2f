import Verif.LintLinks

/-!
# The indentation of the lines of a file (specification and lemmas for C0307)
-/

namespace Verif.Lint
open Verif Py Lex Parse

/-! ## Specification -/

/-- A token, the number of blocks around it, and whether it stands among arguments. -/
structure Mark where
  tok : Token
  depth : Nat
  args : Bool
  deriving DecidableEq, Repr

mutual
/-- The commands of a file and what stands between them, in the order of the text. -/
def piecesOf : Node → List Node
  | .tok t => [.tok t]
  | .node ty a cs => if ty = .body ∨ ty = .flowControl then piecesL cs else [.node ty a cs]
/-- All of them. -/
def piecesL : List Node → List Node
  | [] => []
  | n :: ns => piecesOf n ++ piecesL ns
end

mutual
/-- The tokens of a piece, with a flag for those inside a group of arguments. -/
def tokArgs (g : Bool) : Node → List (Token × Bool)
  | .tok t => [(t, g)]
  | .node ty _ cs => tokArgsL (g || ty == .argGroup) cs
/-- All of them. -/
def tokArgsL (g : Bool) : List Node → List (Token × Bool)
  | [] => []
  | n :: ns => tokArgs g n ++ tokArgsL g ns
end

/-- The blocks around a command with this name, when these blocks are open before it: a command that
ends a part of the innermost block is not inside of it. -/
def depthOf (st : List Str) (name : Str) : Nat := if endsPart st name then st.length - 1 else st.length

/-- The tokens of the pieces; `st` are the blocks that are open before the first. -/
def marksFrom (st : List Str) : List Node → List Mark
  | [] => []
  | p :: ps =>
    if hasType .statement p then
      (tokArgs false p).map (fun x => ⟨x.1, depthOf st (nameOf p), x.2⟩) ++ marksFrom (after st (nameOf p)) ps
    else (tokArgs false p).map (fun x => ⟨x.1, st.length, x.2⟩) ++ marksFrom st ps

/-- Blanks at the start of a line. -/
def isIndent (t : Token) : Bool := t.type == .whitespace && t.begin_.col == 0

/-- How wide blanks are. -/
def widthOf (tab : Nat) (s : Str) : Nat := (s.map fun c => if c = '\t' then tab else 1).sum

/-- Blanks of a wrong width: arguments may stand further to the right. -/
def badIndent (tab : Nat) (w : Token) (m : Mark) : Bool :=
  if m.args then widthOf tab w.spelling < m.depth * tab else widthOf tab w.spelling ≠ m.depth * tab

/-- The record for the token after blanks at the start of a line. -/
def indentRec (tab : Nat) (w : Token) (m : Mark) : List Rec :=
  if badIndent tab w m then
    [⟨c! "C0307", [m.tok.begin_.line, m.tok.begin_.col, m.tok.begin_.offset],
      [w.spelling, m.tok.spelling, List.replicate (m.depth * tab) ' ']⟩]
  else []

/-- The expected records: for every token right after blanks at the start of a line. -/
def badIndents (tab : Nat) (ms : List Mark) : List Rec :=
  (ms.zip ms.tail).flatMap fun p => if isIndent p.1.tok && !isIndent p.2.tok then indentRec tab p.1.tok p.2 else []

/-! ## The traversal -/

mutual
/-- The tokens below a node with `d` bodies around it. -/
def marks (d : Nat) (g : Bool) : Node → List Mark
  | .tok t => [⟨t, d - 1, g⟩]
  | .node ty _ cs => marksL (if ty = .body then d + 1 else d) (g || ty == .argGroup) cs
/-- All of them. -/
def marksL (d : Nat) (g : Bool) : List Node → List Mark
  | [] => []
  | n :: ns => marks d g n ++ marksL d g ns
end

/-- The records, with the blanks before the first token and after the last. -/
def scan (tab : Nat) : Option Token → List Mark → List Rec × Option Token
  | p, [] => ([], p)
  | p, m :: ms =>
    if isIndent m.tok then scan tab (some m.tok) ms
    else
      ((match p with
        | none => []
        | some w => indentRec tab w m) ++ (scan tab none ms).1, (scan tab none ms).2)

theorem scan_append (tab : Nat) : ∀ (a b : List Mark) (p : Option Token),
    scan tab p (a ++ b) = ((scan tab p a).1 ++ (scan tab (scan tab p a).2 b).1, (scan tab (scan tab p a).2 b).2)
  | [], b, p => by simp [scan]
  | m :: a, b, p => by
    simp only [List.cons_append, scan]
    split
    · exact scan_append tab a b _
    · rw [scan_append tab a b none]
      simp

theorem scan_bad (tab : Nat) : ∀ (ms : List Mark),
    (scan tab none ms).1 = badIndents tab ms ∧
      ∀ m, isIndent m.tok = true → (scan tab (some m.tok) ms).1 = badIndents tab (m :: ms)
  | [] => by simp [scan, badIndents]
  | m :: ms => by
    obtain ⟨h1, h2⟩ := scan_bad tab ms
    have skip : isIndent m.tok = false → badIndents tab (m :: ms) = badIndents tab ms := by
      intro h
      cases ms with
      | nil => simp [badIndents]
      | cons n ns => simp [badIndents, h]
    simp only [scan]
    cases hm : isIndent m.tok with
    | true =>
      refine ⟨by simpa using h2 m hm, ?_⟩
      intro k hk
      have : badIndents tab (k :: m :: ms) = badIndents tab (m :: ms) := by simp [badIndents, hm]
      rw [this]
      simpa using h2 m hm
    | false =>
      refine ⟨by simp [h1, skip hm], ?_⟩
      intro k hk
      have : badIndents tab (k :: m :: ms) = indentRec tab k.tok m ++ badIndents tab (m :: ms) := by
        simp [badIndents, hm, hk]
      rw [this, skip hm, ← h1]
      simp

theorem width_eq (tab : Nat) : ∀ (s : Str), (widthOf tab s : Int) = s.length + (s.count '\t' : Int) * ((tab : Int) - 1)
  | [] => by simp [widthOf]
  | c :: s => by
    have ih := width_eq tab s
    simp only [widthOf, List.map_cons, List.sum_cons, Int.natCast_add, List.length_cons, List.count_cons] at ih ⊢
    by_cases h : c = '\t'
    · simp only [h, if_true, beq_self_eq_true, ih, Int.natCast_add, Int.add_mul, Int.natCast_one, Int.one_mul]
      omega
    · simp only [h, if_false, beq_iff_eq, ih, Int.natCast_add, Int.natCast_one]
      simp
      omega

/-- The check of one token. -/
theorem indentation_eq (o : Opts) {anc : List Frame} (h : 0 < scopeDepth anc) (w t : Token) :
    checkIndentation o anc w t = (indentRec o.tabSize w ⟨t, scopeDepth anc - 1, inArgGroup anc⟩).map .record := by
  have e1 : ((scopeDepth anc : Int) - 1) * o.tabSize = (((scopeDepth anc - 1) * o.tabSize : Nat) : Int) := by
    rw [Int.natCast_mul]
    congr 1
    omega
  have e2 := width_eq o.tabSize w.spelling
  simp only [checkIndentation, indentRec, badIndent, e1, ← e2, tokLoc, locOf]
  cases inArgGroup anc with
  | true =>
    simp only [if_true, decide_eq_true_eq, Int.ofNat_lt, Int.toNat_natCast]
    split <;> simp only [List.map_cons, List.map_nil] <;> rfl
  | false =>
    simp only [Bool.false_eq_true, if_false, decide_eq_true_eq, ne_eq, Int.natCast_inj, Int.toNat_natCast]
    split <;> simp only [List.map_cons, List.map_nil] <;> rfl

theorem token_scan (o : Opts) {anc : List Frame} (h : 0 < scopeDepth anc) (p : Option Token) (t : Token) :
    checkToken o anc p t =
      ((scan o.tabSize p [⟨t, scopeDepth anc - 1, inArgGroup anc⟩]).1.map .record,
        (scan o.tabSize p [⟨t, scopeDepth anc - 1, inArgGroup anc⟩]).2) := by
  simp only [checkToken, scan, isIndent]
  by_cases hi : t.type = .whitespace ∧ t.begin_.col = 0
  · simp [hi]
  · rw [if_neg hi]
    have : (t.type == .whitespace && t.begin_.col == 0) = false := by
      rw [← Bool.not_eq_true]
      simpa using hi
    simp only [this, Bool.false_eq_true, if_false]
    cases p with
    | none => simp
    | some w => simp [indentation_eq o h]

/-- The checks of nodes do not look at the indentation. -/
theorem node_indent {o : Opts} {anc : List Frame} {n : Node} {c : List Call} (h : checkNode o anc n = .ok c) :
    only (S "C0307") c = [] := by
  cases hq : quiet n with
  | true =>
    have := quiet_codes (o := o) (v := (anc, n)) hq
    simp only [h, callsOf_ok] at this
    exact this.only (by decide)
  | false =>
    cases n with
    | tok t => simp [quiet] at hq
    | node ty a cs =>
      cases ty <;> simp only [quiet, quietT, Bool.true_eq_false] at hq <;> simp only [checkNode] at h
      · exact (body_codes h).only (by decide)
      · exact (statement_codes h).only (by decide)
      · exact (flow_codes h).only (by decide)

theorem scopeDepth_cons (f : Frame) (anc : List Frame) :
    scopeDepth (f :: anc) = if f.ty = .body then scopeDepth anc + 1 else scopeDepth anc := by
  simp only [scopeDepth, List.filter_cons]
  by_cases h : f.ty = .body <;> simp [h]

theorem inArgGroup_cons (f : Frame) (anc : List Frame) :
    inArgGroup (f :: anc) = (inArgGroup anc || f.ty == .argGroup) := by
  simp [inArgGroup, Bool.or_comm]

theorem only_records (rs : List Rec) (h : ∀ r ∈ rs, r.id = S "C0307") :
    only (S "C0307") (rs.map Call.record) = rs.map .record := by
  simp only [only, List.filter_eq_self, List.mem_map]
  rintro c ⟨r, hr, rfl⟩
  simp [codeOf, h r hr]

theorem scan_ids (tab : Nat) : ∀ (ms : List Mark) (p : Option Token), ∀ r ∈ (scan tab p ms).1, r.id = S "C0307"
  | [], p => by simp [scan]
  | m :: ms, p => by
    intro r hr
    simp only [scan] at hr
    split at hr
    · exact scan_ids tab ms _ r hr
    · simp only [List.mem_append] at hr
      rcases hr with hr | hr
      · cases p with
        | none => simp at hr
        | some w =>
          simp only [indentRec] at hr
          split at hr
          · simp only [List.mem_singleton] at hr
            subst hr
            rfl
          · simp at hr
      · exact scan_ids tab ms _ r hr

mutual
/-- The records of the traversal, and the blanks it ends with. -/
theorem tree_scan (o : Opts) : ∀ (n : Node) (anc : List Frame) (p p' : Option Token) (calls : List Call),
    (0 < scopeDepth anc ∨ hasType .body n = true) → checkTree o anc p n = .ok (calls, p') →
    only (S "C0307") calls = (scan o.tabSize p (marks (scopeDepth anc) (inArgGroup anc) n)).1.map .record ∧
      p' = (scan o.tabSize p (marks (scopeDepth anc) (inArgGroup anc) n)).2
  | .tok t, anc, p, p', calls, hd, h => by
    have hd : 0 < scopeDepth anc := by simpa [hasType] using hd
    simp only [checkTree, Except.ok.injEq, token_scan o hd, Prod.mk.injEq] at h
    obtain ⟨rfl, rfl⟩ := h
    exact ⟨only_records _ (scan_ids _ _ _), rfl⟩
  | .node ty a cs, anc, p, p', calls, hd, h => by
    simp only [checkTree, res_bind, res_pure] at h
    obtain ⟨c, h1, ⟨more, q⟩, h2, h3⟩ := h
    simp only [Prod.mk.injEq] at h3
    obtain ⟨rfl, rfl⟩ := h3
    have hd' : 0 < scopeDepth (⟨ty, a, cs, 0⟩ :: anc) := by
      rw [scopeDepth_cons]
      split
      · omega
      · rename_i hb
        simpa [hasType, hb] using hd
    obtain ⟨k1, k2⟩ := kids_scan o cs anc ty a cs 0 p q more hd' h2
    rw [only_append, node_indent h1, k1, k2]
    simp [marks]
theorem kids_scan (o : Opts) : ∀ (ns : List Node) (anc : List Frame) (ty : NT)
    (a : Attr) (all : List Node) (idx : Nat) (p p' : Option Token) (calls : List Call),
    0 < scopeDepth (⟨ty, a, all, idx⟩ :: anc) →
    checkKids o anc ty a all idx p ns = .ok (calls, p') →
    only (S "C0307") calls = (scan o.tabSize p (marksL (if ty = .body then scopeDepth anc + 1 else scopeDepth anc)
        (inArgGroup anc || ty == .argGroup) ns)).1.map .record ∧
      p' = (scan o.tabSize p (marksL (if ty = .body then scopeDepth anc + 1 else scopeDepth anc)
        (inArgGroup anc || ty == .argGroup) ns)).2
  | [], anc, ty, a, all, idx, p, p', calls, hd, h => by
    simp only [checkKids, Except.ok.injEq, Prod.mk.injEq] at h
    obtain ⟨rfl, rfl⟩ := h
    simp [marksL, scan]
  | n :: ns, anc, ty, a, all, idx, p, p', calls, hd, h => by
    simp only [checkKids, res_bind, res_pure] at h
    obtain ⟨⟨c, q⟩, h1, ⟨more, q'⟩, h2, h3⟩ := h
    simp only [Prod.mk.injEq] at h3
    obtain ⟨rfl, rfl⟩ := h3
    obtain ⟨k1, k2⟩ := tree_scan o n _ _ _ _ (.inl hd) h1
    have hd' : 0 < scopeDepth (⟨ty, a, all, idx + 1⟩ :: anc) := by
      simpa only [scopeDepth_cons] using hd
    obtain ⟨l1, l2⟩ := kids_scan o ns _ _ _ _ _ _ _ _ hd' h2
    rw [scopeDepth_cons, inArgGroup_cons] at k1 k2
    dsimp only at k1 k2
    rw [only_append, k1, l1, l2, k2]
    simp only [marksL, scan_append, List.map_append, and_self]
end

/-! ## Flattening -/

mutual
theorem leafy_marks : ∀ (n : Node), Leafy n → ∀ (d : Nat) (g : Bool),
    marks d g n = (tokArgs g n).map fun x => ⟨x.1, d - 1, x.2⟩
  | .tok t, _, d, g => by simp [marks, tokArgs]
  | .node ty a cs, h, d, g => by
    have : ty ≠ .body := by
      intro e
      have := h _ (.refl _)
      rw [e] at this
      simp [quiet, quietT] at this
    simp only [marks, tokArgs, if_neg this]
    exact leafyL_marks cs (leafy_kids h) d _
theorem leafyL_marks : ∀ (ns : List Node), (∀ c ∈ ns, Leafy c) → ∀ (d : Nat) (g : Bool),
    marksL d g ns = (tokArgsL g ns).map fun x => ⟨x.1, d - 1, x.2⟩
  | [], _, d, g => by simp [marksL, tokArgsL]
  | n :: ns, h, d, g => by
    simp [marksL, tokArgsL, leafy_marks n (h n (by simp)), leafyL_marks ns fun c hc => h c (by simp [hc])]
end

theorem notArgs : (NT.statement == NT.argGroup) = false ∧ (NT.body == NT.argGroup) = false ∧
    (NT.flowControl == NT.argGroup) = false ∧ (NT.funname == NT.argGroup) = false := by decide

theorem stmt_marks {x : Str} {n : Node} (h : Stmt x n) (d : Nat) :
    marks d false n = (tokArgs false n).map fun x => ⟨x.1, d - 1, x.2⟩ := by
  obtain ⟨a, t, cs, rfl, _, _, hl⟩ := h
  have := leafyL_marks cs hl d false
  simp [marks, marksL, tokArgs, tokArgsL, mk, this, notArgs]

theorem leafy_pieces {n : Node} (h : Leafy n) : piecesOf n = [n] ∧ hasType .statement n = false := by
  cases n with
  | tok t => simp [piecesOf, hasType]
  | node ty a cs =>
    have := h _ (.refl _)
    cases ty <;> simp [quiet, quietT] at this <;> simp [piecesOf, hasType]

theorem stmt_pieces {x : Str} {n : Node} (h : Stmt x n) : piecesOf n = [n] := by
  obtain ⟨a, t, cs, rfl, _⟩ := h
  simp [piecesOf]

theorem marksFrom_leafy {n : Node} (h : Leafy n) (st : List Str) (ps : List Node) :
    marksFrom st (n :: ps) = marks (st.length + 1) false n ++ marksFrom st ps := by
  simp [marksFrom, (leafy_pieces h).2, leafy_marks n h]

theorem marksFrom_stmt {x : Str} {n : Node} (h : Stmt x n) (st : List Str) (ps : List Node) :
    marksFrom st (n :: ps) = marks (depthOf st (nameOf n) + 1) false n ++ marksFrom (after st (nameOf n)) ps := by
  simp [marksFrom, stmt_type h, stmt_marks h]

theorem ends_plain {x : Str} {n : Node} {stop st : List Str} (h : Stmt x n) (h1 : x ∉ stop) (hf : Fit stop st) :
    depthOf st (nameOf n) = st.length := by
  have hu := stmt_upper h
  have : endsPart st (nameOf n) = false := by
    rw [stmt_nameOf h]
    cases st with
    | nil => rfl
    | cons top rest =>
      simp only [endsPart, Bool.or_eq_false_iff, Bool.and_eq_false_iff, beq_eq_false_iff_ne, ne_eq]
      refine ⟨?_, ?_⟩
      · intro e
        apply h1
        rw [← hu, e, upper_append]
        exact hf.1
      · by_cases ht : top = S "if"
        · right
          cases e : List.contains [S "else", S "elseif"] (lower x) with
          | false => exact e
          | true =>
            exfalso
            apply h1
            rw [← hu]
            simp only [List.contains_eq_mem, List.mem_cons, List.not_mem_nil, or_false, decide_eq_true_eq] at e
            rcases e with e | e <;> rw [e]
            · exact (hf.2 ht).1
            · exact (hf.2 ht).2
        · exact .inl ht
  simp [depthOf, this]

theorem ends_open {x : Str} {n : Node} {st : List Str} (h : Stmt x n) (hx : openers.contains (lower x) = true) :
    depthOf st (nameOf n) = st.length := by
  have : endsPart st (nameOf n) = false := by
    rw [stmt_nameOf h]
    cases st with
    | nil => rfl
    | cons top rest =>
      have e : ∀ y ∈ openers, (∃ c s, y = c :: s ∧ c ≠ 'e') := by
        intro y hy
        simp only [openers, List.mem_cons, List.not_mem_nil, or_false] at hy
        rcases hy with rfl | rfl | rfl | rfl | rfl <;> exact ⟨_, _, rfl, by decide⟩
      obtain ⟨c, s, ey, hc⟩ := e (lower x) (by simpa using hx)
      rw [ey]
      simp only [endsPart, Bool.or_eq_false_iff, Bool.and_eq_false_iff, beq_eq_false_iff_ne, ne_eq]
      refine ⟨?_, .inr ?_⟩
      · intro e
        simp only [List.cons_append, List.cons.injEq] at e
        exact hc e.1
      · simp [hc]
  simp [depthOf, this]

/-- What the tokens of a sequence are, in the list of pieces. -/
def MarksAt : Option (List Str) → Bool → List Node → Prop
  | some stop, c, ns => ∀ (st : List Str) (K : List Node), Fit stop st → (c = false → K = []) →
      marksFrom st (piecesL ns ++ K) = marksL (st.length + 1) false ns ++ marksFrom st K
  | none, c, ns => ∀ (st : List Str) (K : List Node), (c = false → K = []) →
      marksFrom (S "if" :: st) (piecesL ns ++ K) = marksL (st.length + 1) false ns ++ marksFrom st K

theorem seq_marks {m : Option (List Str)} {c : Bool} {ns : List Node} (h : Seq m c ns) : MarksAt m c ns := by
  induction h with
  | nil => intro st K hf hc; simp [piecesL, marksL]
  | @other stop c n ns h1 _ ih =>
    intro st K hf hc
    simp only [piecesL, (leafy_pieces h1).1, List.cons_append, List.nil_append, marksFrom_leafy h1, marksL,
      ih st K hf hc, List.append_assoc]
  | @stmt stop c n ns x h1 h2 h3 _ ih =>
    intro st K hf hc
    simp only [piecesL, stmt_pieces h1, List.cons_append, List.nil_append, marksFrom_stmt h1, marksL,
      after_plain h1 h2 h3 hf, ends_plain h1 h2 hf, ih st K hf hc, List.append_assoc]
  | @loop stop c o e ns bs a' b x h1 h2 h3 h4 _ ih1 ih2 =>
    intro st K hf hc
    obtain ⟨n1, n2, n3, n4⟩ := loop_names h1
    have he : nameOf e = S "end" ++ lower x := by rw [stmt_nameOf h4, lower_end]
    have hb := ih1 (lower x :: st) (e :: (piecesL ns ++ K)) (fit_loop _ h1) (by simp)
    have hde : depthOf (lower x :: st) (nameOf e) = st.length := by
      simp [depthOf, endsPart, he]
      exact fun h => absurd rfl h
    rw [marksFrom_stmt h4, after_end he n2, hde, ih2 st K hf hc] at hb
    have hs : piecesL (.node .flowControl a' [o, .node .body b bs, e] :: ns) ++ K =
        o :: (piecesL bs ++ (e :: (piecesL ns ++ K))) := by
      simp [piecesL, piecesOf, stmt_pieces h2, stmt_pieces h4]
    rw [hs, marksFrom_stmt h2, after_open h2 n1, ends_open h2 n1, hb]
    simp [marksL, marks, notArgs]
  | @ifs stop c o ns rest a' h1 _ _ ih1 ih2 =>
    intro st K hf hc
    have hb := ih1 st (piecesL ns ++ K) (by simp)
    have hs : piecesL (.node .flowControl a' (o :: rest) :: ns) ++ K = o :: (piecesL rest ++ (piecesL ns ++ K)) := by
      simp [piecesL, piecesOf, stmt_pieces h1]
    rw [hs, marksFrom_stmt h1, after_open h1 rfl, ends_open h1 rfl, show lower (S "IF") = S "if" from rfl, hb,
      ih2 st K hf hc]
    simp [marksL, marks, notArgs]
  | @openIf stop o rest a' h1 _ ih1 =>
    intro st K hf hc
    have hb := ih1 st K hc
    have hs : piecesL [.node .flowControl a' (o :: rest)] ++ K = o :: (piecesL rest ++ K) := by
      simp [piecesL, piecesOf, stmt_pieces h1]
    rw [hs, marksFrom_stmt h1, after_open h1 rfl, ends_open h1 rfl, show lower (S "IF") = S "if" from rfl, hb]
    simp [marksL, marks, notArgs]
  | @branch c s bs rest b x _ hx hs _ ih1 ih2 =>
    intro st K hc
    have hb := ih1 (S "if" :: st) (s :: (piecesL rest ++ K)) (fit_if _) (by simp)
    have hde : depthOf (S "if" :: st) (nameOf s) = st.length := by
      rw [stmt_nameOf hs]
      rcases hx with rfl | rfl <;> rfl
    rw [marksFrom_stmt hs, after_branch hs hx, hde, ih2 st K hc] at hb
    have e : piecesL (.node .body b bs :: s :: rest) ++ K = piecesL bs ++ (s :: (piecesL rest ++ K)) := by
      simp [piecesL, piecesOf, stmt_pieces hs]
    rw [e, hb]
    simp [marksL, marks, notArgs]
  | @fi e bs b _ he ih1 =>
    intro st K hc
    have hb := ih1 (S "if" :: st) (e :: K) (fit_if _) (by simp)
    have hne : nameOf e = S "end" ++ S "if" := by rw [stmt_nameOf he]; rfl
    have hde : depthOf (S "if" :: st) (nameOf e) = st.length := by rw [hne]; rfl
    rw [marksFrom_stmt he, after_end hne rfl, hde] at hb
    have e' : piecesL [.node .body b bs, e] ++ K = piecesL bs ++ (e :: K) := by
      simp [piecesL, piecesOf, stmt_pieces he]
    rw [e', hb]
    simp [marksL, marks, notArgs]
  | @unclosed c bs b _ ih1 =>
    intro st K hc
    have hk := hc rfl
    subst hk
    have hb := ih1 (S "if" :: st) [] (fit_if _) (by simp)
    have e' : piecesL [.node .body b bs] ++ [] = piecesL bs ++ [] := by simp [piecesL, piecesOf]
    rw [e', hb]
    simp [marksL, marks, marksFrom, notArgs]

theorem indent_calls {o : Opts} {ctx : Parse.Ctx} {ts : List Token} {tree : Node} {calls : List Call}
    (hp : parse ctx ts = .ok tree) (h : checkParseTree o tree = .ok calls) :
    only (S "C0307") calls = (badIndents o.tabSize (marksFrom [] (piecesOf tree))).map .record := by
  simp only [checkParseTree, res_bind, res_pure] at h
  obtain ⟨c1, h1, ⟨c3, p⟩, h3, rfl⟩ := h
  rw [only_append, only_append, (assigns_codes _ h1).only (by decide), (refs_codes _).only (by decide)]
  obtain ⟨a, cs, c, rfl, hs⟩ := parse_seq hp
  have k := (tree_scan o _ _ _ _ _ (.inr rfl) h3).1
  have e := seq_marks hs [] [] trivial (by simp)
  simp only [List.append_nil, marksFrom] at e
  have e2 : marks (scopeDepth []) (inArgGroup []) (.node .body a cs) = marksFrom [] (piecesOf (.node .body a cs)) := by
    simp only [piecesOf, true_or, if_true, e]
    rfl
  rw [e2, (scan_bad _ _).1] at k
  simpa using k

mutual
/-- The pieces are the whole tree. -/
theorem pieces_toks : ∀ (n : Node), toksL (piecesOf n) = n.toks
  | .tok t => by simp [piecesOf, toksL]
  | .node ty a cs => by
    simp only [piecesOf]
    split
    · rw [piecesL_toks cs]
      simp [Node.toks]
    · simp [toksL]
theorem piecesL_toks : ∀ (ns : List Node), toksL (piecesL ns) = toksL ns
  | [] => by simp [piecesL]
  | n :: ns => by simp [piecesL, toksL, toksL_append, pieces_toks n, piecesL_toks ns]
end

mutual
theorem tokArgs_toks : ∀ (n : Node) (g : Bool), (tokArgs g n).map (·.1) = n.toks
  | .tok t, g => by simp [tokArgs, Node.toks]
  | .node ty a cs, g => by simp [tokArgs, Node.toks, tokArgsL_toks cs]
theorem tokArgsL_toks : ∀ (ns : List Node) (g : Bool), (tokArgsL g ns).map (·.1) = toksL ns
  | [], g => by simp [tokArgsL, toksL]
  | n :: ns, g => by simp [tokArgsL, toksL, tokArgs_toks n, tokArgsL_toks ns]
end

theorem marksFrom_toks : ∀ (ps : List Node) (st : List Str), (marksFrom st ps).map (·.tok) = toksL ps
  | [], st => by simp [marksFrom, toksL]
  | p :: ps, st => by
    have e : ∀ (f : Token × Bool → Mark), (∀ x, (f x).tok = x.1) →
        ((tokArgs false p).map f).map (·.tok) = p.toks := by
      intro f hf
      rw [List.map_map, ← tokArgs_toks p false]
      exact List.map_congr_left fun x _ => hf x
    simp only [marksFrom]
    split
    · rw [List.map_append, e _ fun _ => rfl, marksFrom_toks ps]
      simp [toksL]
    · rw [List.map_append, e _ fun _ => rfl, marksFrom_toks ps]
      simp [toksL]

theorem piecesL_filter_leafy {n : Node} (h : Leafy n) : (piecesOf n).filter (hasType .statement) = stmtsOf n := by
  rw [(leafy_pieces h).1, leafy_stmts n h]
  simp [(leafy_pieces h).2]

theorem piecesL_filter_stmt {x : Str} {n : Node} (h : Stmt x n) : (piecesOf n).filter (hasType .statement) = stmtsOf n := by
  rw [stmt_pieces h, stmt_stmtsOf h]
  simp [stmt_type h]

/-- The commands among the pieces. -/
theorem seq_pieces {m : Option (List Str)} {c : Bool} {ns : List Node} (h : Seq m c ns) :
    (piecesL ns).filter (hasType .statement) = stmtsL ns := by
  induction h with
  | nil => simp [piecesL, stmtsL]
  | other h1 _ ih => simp [piecesL, stmtsL, piecesL_filter_leafy h1, ih]
  | stmt h1 _ _ _ ih => simp [piecesL, stmtsL, piecesL_filter_stmt h1, ih]
  | loop _ h2 _ h4 _ ih1 ih2 =>
    simp [piecesL, stmtsL, piecesOf, stmtsOf, piecesL_filter_stmt h2, piecesL_filter_stmt h4, ih1, ih2]
  | ifs h1 _ _ ih1 ih2 => simp [piecesL, stmtsL, piecesOf, stmtsOf, piecesL_filter_stmt h1, ih1, ih2]
  | openIf h1 _ ih1 => simp [piecesL, stmtsL, piecesOf, stmtsOf, piecesL_filter_stmt h1, ih1]
  | branch _ _ hs _ ih1 ih2 => simp [piecesL, stmtsL, piecesOf, stmtsOf, piecesL_filter_stmt hs, ih1, ih2]
  | fi _ he ih1 => simp [piecesL, stmtsL, piecesOf, stmtsOf, piecesL_filter_stmt he, ih1]
  | unclosed _ ih1 => simp [piecesL, stmtsL, piecesOf, stmtsOf, ih1]

end Verif.Lint
