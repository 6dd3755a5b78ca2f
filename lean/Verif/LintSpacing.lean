import Verif.LintGapText
import Verif.LintLinks

/-!
# The spacing of commands (lemmas for C82)
-/

namespace Verif.Lint
open Verif Py Lex Parse

theorem startOf_head {c : Node} {t : Token} (h : c.toks.head? = some t) : startOf c = tokLoc t := by
  unfold startOf
  cases e : c.toks with
  | nil => rw [e] at h; simp at h
  | cons u us =>
    rw [e] at h
    simp only [List.head?_cons, Option.some.injEq] at h
    rw [h]
    rfl

theorem newlines_ws (w : List Token) : newlines (mk .whitespace (leaves w)) = (w.map fun t => t.spelling.count '\n').sum := by
  unfold newlines
  rw [show (mk .whitespace (leaves w)).toks = w from ?_]
  simp only [mk, Node.toks]
  exact Parse.toksL_leaves w

theorem check_spacing {o : Opts} {text : Str} (hb : text.head? ≠ some BOM) {prev : Option Node} {c : Node} (hi : isItem c = true)
    (h : Gap (Props.Lex.toks text) prev c) : checkSpacing o prev c = (spacingRecs o text c).map .record := by
  obtain ⟨pre, t, rest, e, ⟨ht, hloc⟩, h⟩ := h
  have hst := startOf_head ht
  have hbef : textBefore text c = (pre.map Token.spelling).flatten := by
    unfold textBefore
    rw [hst]
    exact toks_split hb e
  have hty : (hasType .flowControl c || hasType .statement c) = true := by
    cases c with
    | tok => simp [isItem] at hi
    | node ty a cs => cases ty <;> simp [isItem] at hi <;> rfl
  have hsh : ∀ t ∈ pre, Props.Lex.Shape t.type t.spelling := fun u hu =>
    Props.Lex.token_shape text _ (Props.Parse.tokenize_toks text) u (by simp [e, hu])
  have hne : ∀ t ∈ pre, t.spelling ≠ [] := fun u hu =>
    Props.Lex.tokens_nonempty text _ (Props.Parse.tokenize_toks text) u (by simp [e, hu])
  unfold checkSpacing spacingRecs
  rw [if_pos hty]
  rcases h with ⟨rfl, rfl⟩ | ⟨w, p, rfl, rfl, hw, hwne, hp⟩
  · simp [hbef]
  · have hn : newlinesBefore text c = newlines (mk .whitespace (leaves w)) := by
      rw [newlines_ws, ← count_gap hp hw hsh, newlinesBefore, hbef]
    have hbne : textBefore text c ≠ [] := by
      rw [hbef]
      obtain ⟨x, xs, rfl⟩ := List.exists_cons_of_ne_nil hwne
      intro e0
      simp only [List.map_append, List.map_cons, List.flatten_append, List.flatten_cons, List.append_eq_nil_iff] at e0
      exact hne x (by simp) e0.2.1
    rw [if_neg hbne, hn, hst, hloc]
    have : hasType .whitespace (mk .whitespace (leaves w)) = true := rfl
    simp only [this, Bool.not_true, Bool.false_eq_true, if_false]
    split
    · rfl
    · split
      · rfl
      · split <;> rfl

/-! ## The children of a body -/

/-- The records of a child of a body. -/
def itemRecs (o : Opts) (text : Str) (code : Str) (n : Node) (_ : List Node) : List Call :=
  if isItem n then only code ((spacingRecs o text n).map .record) else []

theorem spacing_quiet {o : Opts} {prev : Option Node} {c : Node} (h : isItem c = false) : checkSpacing o prev c = [] := by
  unfold checkSpacing
  rw [if_neg]
  cases c with
  | tok => simp [hasType]
  | node ty a cs => cases ty <;> first | (simp [isItem] at h; done) | simp [hasType]

/-- The codes of the spacing check. -/
def SpacingCode (code : Str) : Prop := code = S "C0321" ∨ code = S "C0305"

theorem items_spacing {o : Opts} {text : Str} (hb : text.head? ≠ some BOM) {code : Str} (hc : SpacingCode code) :
    ∀ (ns l : List Node) (p1 : Option Node) (supp supp' : List Str) (c : List Call), Gaps (Props.Lex.toks text) (l ++ ns) →
    checkItems o (l.filter isNode).getLast? p1 supp ns = .ok (c, supp') → only code c = itemsOf (itemRecs o text code) ns
  | [], l, p1, supp, supp', c, _, h => by
    simp only [checkItems, Except.ok.injEq, Prod.mk.injEq] at h
    rw [← h.1]
    rfl
  | .tok t :: ns, l, p1, supp, supp', c, hg, h => by
    simp only [checkItems] at h
    have := items_spacing hb hc ns (l ++ [.tok t]) p1 supp supp' c (by simpa using hg) (by simpa [isNode] using h)
    rw [this]
    simp [itemsOf, itemRecs, isItem]
  | .node ty a cs :: ns, l, p1, supp, supp', c, hg, h => by
    simp only [checkItems, res_bind, res_pure] at h
    obtain ⟨⟨c1, new⟩, h1, c2, h2, ⟨more, s⟩, h3, h4⟩ := h
    simp only [Prod.mk.injEq] at h4
    obtain ⟨rfl, rfl⟩ := h4
    have k1 := (bodyComment_codes h1).only (code := code) (by rcases hc with rfl | rfl <;> decide)
    have k2 := (doc_codes h2).only (code := code) (by rcases hc with rfl | rfl <;> decide)
    have k4 := (reach_codes (.node ty a cs) ns).only (code := code) (by rcases hc with rfl | rfl <;> decide)
    have k3 : only code (checkSpacing o (l.filter isNode).getLast? (.node ty a cs)) = itemRecs o text code (.node ty a cs) ns := by
      unfold itemRecs
      cases hi : isItem (.node ty a cs) with
      | false => rw [spacing_quiet hi]; rfl
      | true =>
        have hgap := hg l (.node ty a cs) ns rfl hi
        have hprev : (l.filter isNode).getLast? = l.getLast? := by
          have hlast : ∀ x, l.getLast? = some x → isNode x = true → (l.filter isNode).getLast? = some x := by
            intro x hx hn
            obtain ⟨l', rfl⟩ : ∃ l', l = l' ++ [x] := by
              cases hl : l with
              | nil => rw [hl] at hx; simp at hx
              | cons y ys =>
                rw [hl] at hx
                rw [List.getLast?_eq_some_iff] at hx
                exact hx
            simp [hn]
          obtain ⟨pre, t, rest, _, _, hh⟩ := hgap
          rcases hh with ⟨e, _⟩ | ⟨w, p, e, _⟩
          · rw [e]
            have : l = [] := by simpa using e
            rw [this]
            rfl
          · rw [e]
            exact hlast _ e rfl
        rw [hprev, check_spacing hb hi hgap]
        rfl
    have ih := items_spacing hb hc ns (l ++ [.node ty a cs]) (l.filter isNode).getLast? (supp ++ new) s more (by simpa using hg)
      (by simpa [isNode] using h3)
    simp only [only_append, k1, k2, k3, k4, List.nil_append, List.append_nil, itemsOf, ih]

theorem body_spacing {o : Opts} {text : Str} (hb : text.head? ≠ some BOM) {code : Str} (hc : SpacingCode code) {a : Attr}
    {cs : List Node} {c : List Call} (hg : Gaps (Props.Lex.toks text) cs) (h : checkBody o (.node .body a cs) = .ok c) :
    only code c = itemsOf (itemRecs o text code) cs := by
  simp only [checkBody, res_bind, res_pure] at h
  obtain ⟨⟨calls, supp⟩, h1, line, _, rfl⟩ := h
  rw [only_append, items_spacing hb hc cs [] none [] supp calls hg h1]
  split
  · simp [only]
  · rcases hc with rfl | rfl <;> simp [only, codeOf] <;> decide

/-! ## Blocks -/

/-- What a function says about a command or a block. -/
def itemF {β : Type} (F : Node → List β) (n : Node) (_ : List Node) : List β := if isItem n then F n else []

/-- What it says about a command. -/
def stmtF {β : Type} (F : Node → List β) (n : Node) (_ : List Node) : List β := if hasType .statement n then F n else []

/-- What it says about the command that opens a block. -/
def flowF {β : Type} (F : Node → List β) (cs : List Node) : List β := (cs.take 1).flatMap F

/-- What it says about a command that does not end a part of a block. -/
def placeF {β : Type} (F : Node → List β) (p : Place) : List β := if endsPart p.blocks (nameOf p.cmd) then [] else F p.cmd

theorem opener_stays {x : Str} (h : x ∈ openers) (st : List Str) : endsPart st x = false := by
  cases st with
  | nil => rfl
  | cons top rest =>
    simp only [openers, List.mem_cons, List.not_mem_nil, or_false] at h
    simp only [endsPart, Bool.or_eq_false_iff, beq_eq_false_iff_ne, ne_eq]
    refine ⟨?_, ?_⟩ <;> rcases h with e | e | e | e | e <;> rw [e] <;> simp

section
variable {β : Type} {F : Node → List β}

theorem stmtF_stmt {x : Str} {n : Node} (h : Stmt x n) (ns : List Node) : stmtF F n ns = F n := by
  obtain ⟨a, t, cs, rfl, _⟩ := h
  rfl

theorem itemF_stmt {x : Str} {n : Node} (h : Stmt x n) (ns : List Node) : itemF F n ns = F n := by
  obtain ⟨a, t, cs, rfl, _⟩ := h
  rfl

theorem flowF_cons (o : Node) (os : List Node) : flowF F (o :: os) = F o := by simp [flowF]

theorem head_link : Link (stmtF F) (flowF F) (placeF F) where
  quiet n ns h := if_neg (by rw [h]; simp)
  plain stop c x n ns K st h h1 h2 hs hf hk := by
    have := head_stays (.stmt h h1 h2 hs) hf (s := n) (l := stmtsL ns) (by simp [stmtsL, stmt_stmtsOf h])
    rw [stmtF_stmt h]
    exact if_neg (by rw [this]; simp)
  loop x o e b bs K st h1 h2 h3 h4 := by
    rw [flowF_cons]
    exact if_neg (by rw [opener_stays (opener_name h1 h2)]; simp)
  ifs o rest K st h := by
    rw [flowF_cons]
    exact if_neg (by rw [opener_stays (show nameOf o ∈ openers by rw [stmt_nameOf h]; decide)]; simp)
  mark x n st K h h1 h2 := if_pos h2

theorem itemF_flow (hF : ∀ x a o os, Stmt x o → F (.node .flowControl a (o :: os)) = F o) {x : Str} {o : Node} (h : Stmt x o)
    (a : Attr) (os ns : List Node) : itemF F (.node .flowControl a (o :: os)) ns = F o := hF x a o os h

theorem stmtF_flow (a : Attr) (os ns : List Node) : stmtF F (.node .flowControl a os) ns = [] := rfl

/-- Counting an opening command with the children of a body or with its block is the same. -/
theorem seq_heads (hF : ∀ x a o os, Stmt x o → F (.node .flowControl a (o :: os)) = F o) {m : Option (List Str)} {c : Bool} {ns : List Node} (h : Seq m c ns) :
    match m with
    | some _ => ∀ (anc : List Frame) (a : Attr) (all : List Node) (idx : Nat),
        (itemsOf (itemF F) ns ++ nodesOf (itemF F) (fun _ => []) (visitsL anc .body a all idx ns)).Perm
          (itemsOf (stmtF F) ns ++ nodesOf (stmtF F) (flowF F) (visitsL anc .body a all idx ns))
    | none => ∀ (anc : List Frame) (a : Attr) (all : List Node) (idx : Nat),
        (nodesOf (itemF F) (fun _ => []) (visitsL anc .flowControl a all idx ns)).Perm
          (nodesOf (stmtF F) (flowF F) (visitsL anc .flowControl a all idx ns)) := by
  have z1 : nodesOf (itemF F) (fun _ => []) [] = [] := by simp [nodesOf, loud]
  have z2 : nodesOf (stmtF F) (flowF F) [] = [] := by simp [nodesOf, loud]
  have swap : ∀ (A B C D B' C' D' : List β), (C ++ D).Perm (C' ++ D') → B.Perm B' →
      ((A ++ C) ++ (B ++ D)).Perm (C' ++ ((A ++ B') ++ D')) := by
    intro A B C D B' C' D' h1 h2
    have e1 : ((A ++ C) ++ (B ++ D)).Perm ((A ++ B) ++ (C ++ D)) := by
      simp only [List.append_assoc]
      refine List.Perm.append_left A ?_
      rw [← List.append_assoc, ← List.append_assoc]
      exact (List.perm_append_comm).append_right D
    have e2 : ((A ++ B') ++ (C' ++ D')).Perm (C' ++ ((A ++ B') ++ D')) := by
      rw [← List.append_assoc, ← List.append_assoc]
      exact (List.perm_append_comm).append_right D'
    exact e1.trans ((((h2.append_left A)).append h1).trans e2)
  induction h with
  | nil => intro anc a all idx; simp [itemsOf, visitsL, z1, z2]
  | @other stop c n ns h1 _ ih =>
    intro anc a all idx
    have q1 : itemF F n ns = [] := by
      have := h1 n (.refl _)
      cases n with
      | tok => rfl
      | node ty a cs => cases ty <;> first | rfl | simp [quiet, quietT] at this
    have q2 : stmtF F n ns = [] := head_link.quiet n ns (not_stmt_leafy h1)
    simpa [itemsOf, q1, q2, visitsL, nodesOf_append, nodesOf_leafy h1] using ih anc a all (idx + 1)
  | @stmt stop c n ns x h1 h2 h3 hs ih =>
    intro anc a all idx
    simp only [itemsOf, stmtF_stmt h1, itemF_stmt h1, visitsL, nodesOf_append, nodesOf_stmt h1, List.nil_append, List.append_assoc]
    exact (ih anc a all (idx + 1)).append_left (F n)
  | @loop stop c o e ns bs a' b x h1 h2 h3 h4 _ ih1 ih2 =>
    intro anc a all idx
    simp only [itemsOf, visitsL, nodesOf_append, nodesOf_flow, nodesOf_stmt h2, nodesOf_stmt h4, nodesOf_body, z1, z2,
      List.append_nil, List.nil_append, flowF_cons, itemF_flow hF h2, stmtF_flow]
    exact swap (F o) _ _ _ _ _ _ (ih2 anc a all (idx + 1)) (ih1 _ b bs 0)
  | @ifs stop c o ns rest a' h1 _ _ ih1 ih2 =>
    intro anc a all idx
    simp only [itemsOf, visitsL, nodesOf_append, nodesOf_flow, nodesOf_stmt h1, z1, z2,
      List.append_nil, List.nil_append, flowF_cons, itemF_flow hF h1, stmtF_flow]
    exact swap (F o) _ _ _ _ _ _ (ih2 anc a all (idx + 1)) (ih1 _ a' _ _)
  | @openIf stop o rest a' h1 _ ih1 =>
    intro anc a all idx
    simp only [itemsOf, visitsL, nodesOf_append, nodesOf_flow, nodesOf_stmt h1, z1, z2,
      List.append_nil, List.nil_append, flowF_cons, itemF_flow hF h1, stmtF_flow]
    exact (ih1 _ a' _ _).append_left (F o)
  | @branch c s bs rest b x _ hx hs _ ih1 ih2 =>
    intro anc a all idx
    simp only [visitsL, nodesOf_append, nodesOf_body, nodesOf_stmt hs, List.nil_append]
    exact (ih1 _ b bs 0).append (ih2 anc a all _)
  | @fi e bs b _ he ih1 =>
    intro anc a all idx
    simp only [visitsL, nodesOf_append, nodesOf_body, nodesOf_stmt he, List.nil_append, z1, z2, List.append_nil]
    exact ih1 _ b bs 0
  | @unclosed c bs b _ ih1 =>
    intro anc a all idx
    simp only [visitsL, nodesOf_append, nodesOf_body, z1, z2, List.append_nil]
    exact ih1 _ b bs 0

theorem tree_heads (hF : ∀ x a o os, Stmt x o → F (.node .flowControl a (o :: os)) = F o) {ctx : Parse.Ctx} {ts : List Token} {tree : Node} (h : parse ctx ts = .ok tree) :
    (nodesOf (itemF F) (fun _ => []) (visits [] tree)).Perm ((places [] (stmtsOf tree)).flatMap (placeF F)) := by
  refine List.Perm.trans ?_ (tree_link head_link h).symm
  obtain ⟨a, cs, c, rfl, hs⟩ := parse_seq h
  rw [nodesOf_body, nodesOf_body]
  exact seq_heads hF hs [] a cs 0

end

/-! ## The calls -/

/-- The records of a command with one code. -/
def codeRecs (o : Opts) (text : Str) (code : Str) (s : Node) : List Call := only code ((spacingRecs o text s).map .record)

theorem startOf_flow {x : Str} {a : Attr} {o : Node} {os : List Node} (h : Stmt x o) :
    startOf (.node .flowControl a (o :: os)) = startOf o := by
  obtain ⟨t, ts, e, _⟩ := stmt_toks h
  simp [startOf, Node.toks, toksL, e]

theorem codeRecs_flow (op : Opts) (text code : Str) (x : Str) (a : Attr) (o : Node) (os : List Node) (h : Stmt x o) :
    codeRecs op text code (.node .flowControl a (o :: os)) = codeRecs op text code o := by
  unfold codeRecs spacingRecs newlinesBefore textBefore
  rw [startOf_flow h]

theorem spacing_calls {o : Opts} {ctx : Parse.Ctx} (hfl : ∀ name, Flat (lookupParser ctx name)) {text : Str}
    (hb : text.head? ≠ some BOM) {code : Str} (hc : SpacingCode code) {tree : Node} {calls : List Call}
    (hp : parse ctx (Props.Lex.toks text) = .ok tree) (h : checkParseTree o tree = .ok calls) :
    (only code calls).Perm ((places [] (stmtsOf tree)).flatMap (placeF (codeRecs o text code))) := by
  refine List.Perm.trans (.of_eq ?_) (tree_heads (codeRecs_flow o text code) hp)
  have hg := parse_gapped hfl hp (text_behind hb) (Props.Parse.no_bom text _ (Props.Parse.tokenize_toks text) hb)
  refine loud_calls (by rcases hc with rfl | rfl <;> exact ⟨by decide, by decide, by decide⟩) h ?_
  intro v hv c e
  have hsub : Sub v.2 tree := visits_sub _ _ _ (List.mem_filter.1 hv).1
  rcases loud_types hv with ⟨a, cs, ev⟩ | ⟨a, cs, ev⟩ | ⟨a, cs, ev⟩ <;> rw [ev] at e hsub ⊢ <;> simp only [checkNode] at e ⊢
  · exact body_spacing hb hc (hg _ hsub) e
  · exact (flow_codes e).only (by rcases hc with rfl | rfl <;> decide)
  · exact (statement_codes e).only (by rcases hc with rfl | rfl <;> decide)

end Verif.Lint
