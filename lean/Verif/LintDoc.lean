import Verif.LintDocSpec
import Verif.LintSpacing
import Verif.LintOk

/-!
# Documentation comments (lemmas for C86)
-/

namespace Verif.Lint
open Verif Py Lex Parse

theorem all_flatten {p : Char → Bool} : ∀ l : List Str, l.flatten.all p = l.all fun s => s.all p
  | [] => rfl
  | s :: l => by simp [List.all_append]

theorem empty_says (o : Opts) (n : Node) : emptyComment o n = saysNothing o n := by
  cases n with
  | tok t => rfl
  | node ty a cs =>
    simp only [emptyComment, saysNothing, all_flatten]
    induction toksL cs with
    | nil => rfl
    | cons t ts ih =>
      rw [List.filterMap_cons, List.filter_cons]
      by_cases ht : t.type = .comment
      · rw [if_pos ht]
        simp only [ht, beq_self_eq_true, if_true, List.all_cons, ih]
        congr 1
        unfold wordless Markup.commentText
        dsimp only
        cases a.trailing == .explicit with
        | true => rfl
        | false =>
          cases o.markup.enableMarkup with
          | false => rfl
          | true =>
            simp only [Bool.false_eq_true, if_false, Bool.not_true, Bool.true_and, Bool.not_eq_true']
            cases startsWith (List.replicate o.markup.hashrulerMin '#') (Wrap.strip t.spelling) <;> rfl
      · rw [if_neg ht, if_neg (by simpa using ht)]
        exact ih

/-- The comment that the check finds is the one right above. -/
theorem prefix_above (l : List Node) (hl : ∀ n ∈ l, Block n) :
    prefixComment l.head? (l.drop 1).head? = commentAbove l := by
  cases l with
  | nil => rfl
  | cons w l =>
    cases w with
    | tok t => exact (hl (.tok t) (by simp)).elim
    | node ty a ws =>
      cases l with
      | nil => simp [prefixComment, commentAbove]
      | cons c l =>
        cases c with
        | tok t => exact (hl (.tok t) (by simp)).elim
        | node ty' b cs =>
          simp only [List.head?_cons, List.drop_succ_cons, List.drop_zero, prefixComment]
          have hn : newlines (.node ty a ws) = ((toksL ws).map fun t => t.spelling.count '\n').sum := by
            simp [newlines, Node.toks]
          by_cases e1 : ty = .whitespace
          · subst e1
            simp only [hasType, beq_self_eq_true, Bool.not_true, Bool.false_eq_true, if_false, hn]
            by_cases e2 : ty' = .comment
            · subst e2
              simp only [commentAbove]
              split
              · rw [if_neg (by omega)]
              · rw [if_pos (by omega)]
                rfl
            · have : commentAbove (.node .whitespace a ws :: .node ty' b cs :: l) = none := by
                cases ty' <;> first | rfl | exact absurd rfl e2
              rw [this]
              split
              · rfl
              · exact if_neg (show ¬ (hasType .comment (.node ty' b cs) = true) by simpa [hasType] using e2)
          · have : commentAbove (.node ty a ws :: .node ty' b cs :: l) = none := by
              cases ty <;> first | rfl | exact absurd rfl e1
            rw [this, if_pos (by simpa [hasType] using e1)]

/-- What a definition begins with. -/
def OpensWell (n : Node) : Prop := ∀ a cs, n = .node .flowControl a cs → ∃ x s rest, cs = s :: rest ∧ Stmt x s

theorem fundef_name (s : Node) : isFundef s = decide (nameOf s = S "function" ∨ nameOf s = S "macro") := by
  unfold isFundef nameOf semToks
  rw [Props.Parse.program_eq]
  cases program s.toks with
  | nil =>
    simp only
    decide
  | cons t ts => simp

theorem check_doc {o : Opts} {bef : List Node} {n : Node} {c : List Call} (hb : ∀ n ∈ bef, Block n) (ho : OpensWell n)
    (h : checkDoc o bef.head? (bef.drop 1).head? n = .ok c) :
    c = (((definition n).toList.map fun s => (s, commentAbove bef)).flatMap (docFault o)).map .record := by
  unfold checkDoc at h
  split at h
  · simp at h
  · rename_i a s rest
    obtain ⟨x, s', rest', e, hs⟩ := ho a (s :: rest) rfl
    simp only [List.cons.injEq] at e
    obtain ⟨rfl, rfl⟩ := e
    rw [fundef_name] at h
    have hloc : firstSem (.node .flowControl a (s :: rest)) = .ok (startOf s) := by
      obtain ⟨t, ts, e, hw, _, _⟩ := stmt_toks hs
      have hsem : isSemantic t = true := by simp [isSemantic, isWs, isAnyComment, isOnOff, hw]
      have : semToks (.node .flowControl a (s :: rest)) = t :: semantics (ts ++ toksL rest) := by
        simp [semToks, Node.toks, toksL, e, semantics, hsem]
      unfold firstSem
      rw [this]
      simp [startOf_head (c := s) (t := t) (by rw [e]; rfl)]
    by_cases hd : nameOf s = S "function" ∨ nameOf s = S "macro"
    · rw [if_pos (by simpa using hd), prefix_above bef hb] at h
      have hdef : definition (.node .flowControl a (s :: rest)) = some s := by
        simp only [definition]
        rw [if_pos hd]
      rw [hdef]
      cases hc : commentAbove bef with
      | none =>
        rw [hc] at h
        simp only [hloc] at h
        simp only [Option.toList_some, List.map_cons, List.map_nil, List.flatMap_cons, List.flatMap_nil, docFault, List.append_nil]
        injection h with h
        exact h.symm
      | some k =>
        rw [hc] at h
        simp only [hloc, empty_says] at h
        simp only [Option.toList_some, List.map_cons, List.map_nil, List.flatMap_cons, List.flatMap_nil, docFault, List.append_nil]
        split at h
        · rename_i he
          rw [if_pos he]
          injection h with h
          exact h.symm
        · rename_i he
          rw [if_neg he]
          injection h with h
          exact h.symm
    · rw [if_neg (by simpa using hd)] at h
      have hdef : definition (.node .flowControl a (s :: rest)) = none := by
        simp only [definition]
        rw [if_neg hd]
      rw [hdef]
      injection h with h
      exact h.symm
  · rename_i h1 h2
    have hdef : definition n = none := by
      unfold definition
      split
      · exact absurd rfl (h2 _ _ _)
      · rfl
    rw [hdef]
    injection h with h
    exact h.symm

/-- The codes of this check. -/
def DocCode (code : Str) : Prop := code = S "C0111" ∨ code = S "C0112"

theorem items_doc {o : Opts} {code : Str} (hc : DocCode code) :
    ∀ (ns bef : List Node) (supp supp' : List Str) (c : List Call), (∀ n ∈ bef, Block n) → (∀ n ∈ ns, Block n) →
    (∀ n ∈ ns, OpensWell n) → checkItems o bef.head? (bef.drop 1).head? supp ns = .ok (c, supp') →
    only code c = only code (((definitions bef ns).flatMap (docFault o)).map .record)
  | [], bef, supp, supp', c, _, _, _, h => by
    simp only [checkItems, Except.ok.injEq, Prod.mk.injEq] at h
    rw [← h.1]
    rfl
  | .tok t :: ns, bef, supp, supp', c, _, hn, _, h => (hn (.tok t) (by simp)).elim
  | .node ty a cs :: ns, bef, supp, supp', c, hb, hn, ho, h => by
    simp only [checkItems, res_bind, res_pure] at h
    obtain ⟨⟨c1, new⟩, h1, c2, h2, ⟨more, s⟩, h3, h4⟩ := h
    simp only [Prod.mk.injEq] at h4
    obtain ⟨rfl, rfl⟩ := h4
    have k1 := (bodyComment_codes h1).only (code := code) (by rcases hc with rfl | rfl <;> decide)
    have k3 := (spacing_codes o bef.head? (.node ty a cs)).only (code := code) (by rcases hc with rfl | rfl <;> decide)
    have k4 := (reach_codes (.node ty a cs) ns).only (code := code) (by rcases hc with rfl | rfl <;> decide)
    have k2 := check_doc hb (ho _ (by simp)) h2
    have ih := items_doc hc ns (.node ty a cs :: bef) (supp ++ new) s more
      (by intro n hm; rcases List.mem_cons.1 hm with rfl | hm
          · exact hn _ (by simp)
          · exact hb _ hm)
      (fun n hm => hn n (by simp [hm])) (fun n hm => ho n (by simp [hm])) (by simpa using h3)
    simp only [only_append, k1, k3, k4, List.nil_append, List.append_nil, definitions, List.flatMap_append, List.map_append, ih, k2]

theorem body_doc {o : Opts} {code : Str} (hc : DocCode code) {a : Attr} {cs : List Node} {c : List Call}
    (hn : ∀ n ∈ cs, Block n) (ho : ∀ n ∈ cs, OpensWell n) (h : checkBody o (.node .body a cs) = .ok c) :
    only code c = only code (((definitions [] cs).flatMap (docFault o)).map .record) := by
  simp only [checkBody, res_bind, res_pure] at h
  obtain ⟨⟨calls, supp⟩, h1, line, _, rfl⟩ := h
  rw [only_append, items_doc hc cs [] [] supp calls (by simp) hn ho h1]
  split
  · simp [only]
  · rcases hc with rfl | rfl <;> simp [only, codeOf] <;> decide

mutual
theorem visits_bodies {β : Type} (f : List Node → List β) : ∀ (n : Node) (anc : List Frame),
    ((visits anc n).flatMap fun v => match v.2 with | .node .body _ cs => f cs | _ => []) = (bodiesOf n).flatMap f
  | .tok t, anc => rfl
  | .node ty a cs, anc => by
    rw [visits, bodiesOf, List.flatMap_cons, List.flatMap_append, visitsL_bodies f cs anc ty a cs 0]
    cases ty <;> simp
theorem visitsL_bodies {β : Type} (f : List Node → List β) : ∀ (ns : List Node) (anc : List Frame) (ty : NT) (a : Attr)
    (all : List Node) (idx : Nat),
    ((visitsL anc ty a all idx ns).flatMap fun v => match v.2 with | .node .body _ cs => f cs | _ => []) = (bodiesOfL ns).flatMap f
  | [], anc, ty, a, all, idx => rfl
  | n :: ns, anc, ty, a, all, idx => by
    rw [visitsL, bodiesOfL, List.flatMap_append, List.flatMap_append, visits_bodies f n, visitsL_bodies f ns anc ty a all (idx + 1)]
end

theorem loud_bodies {β : Type} (f : List Node → List β) (vs : List (List Frame × Node)) :
    ((loud vs).flatMap fun v => match v.2 with | .node .body _ cs => f cs | _ => []) =
      vs.flatMap fun v => match v.2 with | .node .body _ cs => f cs | _ => [] := by
  induction vs with
  | nil => rfl
  | cons v vs ih =>
    rw [loud, List.filter_cons]
    by_cases hq : quiet v.2 = true
    · rw [if_neg (by simp [hq]), List.flatMap_cons]
      have : (match v.2 with | .node .body _ cs => f cs | _ => []) = [] := by
        obtain ⟨anc, n⟩ := v
        cases n with
        | tok => rfl
        | node ty a cs => cases ty <;> first | rfl | simp [quiet, quietT] at hq
      rw [this, List.nil_append]
      exact ih
    · rw [if_pos (by simp [hq]), List.flatMap_cons, List.flatMap_cons]
      congr 1

theorem opens_well {ctx : Parse.Ctx} {ts : List Token} {tree n : Node} (hp : parse ctx ts = .ok tree) (hs : Sub n tree) : OpensWell n := by
  rintro a cs rfl
  have := Props.Parse.tree_well_formed ctx ts tree hp _ hs
  simp only [Parse.Shape] at this
  have nm : ∀ {s : Node} {x : Str}, stmtName s = .some x → hasType .statement s = true := by
    intro s x e
    unfold stmtName at e
    split at e
    · rfl
    · cases e
  cases this with
  | ifBlock h1 _ _ =>
    obtain ⟨x, hx⟩ := stmt_of hp (sub_stmt hp (sub_trans (.child (by simp) (.refl _)) hs) (nm h1))
    exact ⟨x, _, _, rfl, hx⟩
  | loop _ h1 _ _ =>
    obtain ⟨x, hx⟩ := stmt_of hp (sub_stmt hp (sub_trans (.child (by simp) (.refl _)) hs) (nm h1))
    exact ⟨x, _, _, rfl, hx⟩

theorem doc_calls {o : Opts} {ctx : Parse.Ctx} {ts : List Token} {code : Str} (hc : DocCode code) {tree : Node} {calls : List Call}
    (hp : parse ctx ts = .ok tree) (h : checkParseTree o tree = .ok calls) :
    only code calls = only code ((docFaults o tree).map .record) := by
  have hneat := (Parse.parse_neat hp).1
  have hl : LoudCode code := by rcases hc with rfl | rfl <;> exact ⟨by decide, by decide, by decide⟩
  have key := loud_calls (f := fun v => match v.2 with
      | .node .body _ cs => only code (((definitions [] cs).flatMap (docFault o)).map .record)
      | _ => []) hl h (by
    intro v hv c e
    have hsub : Sub v.2 tree := visits_sub _ _ _ (List.mem_filter.1 hv).1
    rcases loud_types hv with ⟨a, cs, ev⟩ | ⟨a, cs, ev⟩ | ⟨a, cs, ev⟩ <;> rw [ev] at e hsub ⊢ <;> simp only [checkNode] at e ⊢
    · exact body_doc hc (hneat _ hsub) (fun n hn => opens_well hp (sub_trans (.child hn (.refl _)) hsub)) e
    · exact (flow_codes e).only (by rcases hc with rfl | rfl <;> decide)
    · exact (statement_codes e).only (by rcases hc with rfl | rfl <;> decide))
  rw [key, loud_bodies, visits_bodies]
  unfold docFaults
  induction bodiesOf tree with
  | nil => rfl
  | cons cs l ih => rw [List.flatMap_cons, List.flatMap_cons, List.map_append, only_append, ih]

/-! ## Every definition is looked at -/

/-- The command begins a definition. -/
def isDefinition (s : Node) : Bool := nameOf s == S "function" || nameOf s == S "macro"

/-- The definitions among the parts of a body. -/
def defsIn (cs : List Node) : List Node := cs.flatMap fun n => (definition n).toList

theorem definitions_fst : ∀ (ns bef : List Node), (definitions bef ns).map Prod.fst = defsIn ns
  | [], bef => rfl
  | n :: ns, bef => by
    rw [definitions, List.map_append, definitions_fst ns, show defsIn (n :: ns) = (definition n).toList ++ defsIn ns from List.flatMap_cons]
    congr 1
    cases definition n <;> rfl

theorem leafy_bodies {n : Node} (h : Leafy n) : bodiesOf n = [] := by
  have := visits_bodies (fun cs => [cs]) n []
  rw [← loud_bodies, leafy_loud h] at this
  simpa using this.symm

theorem stmt_bodies {x : Str} {n : Node} (h : Stmt x n) : bodiesOf n = [] := by
  have := visits_bodies (fun cs => [cs]) n []
  rw [← loud_bodies, stmt_loud h] at this
  obtain ⟨a, t, cs, rfl, _⟩ := h
  simpa using this.symm

theorem definition_stmt {x : Str} {n : Node} (h : Stmt x n) : definition n = none := by
  obtain ⟨a, t, cs, rfl, _⟩ := h
  rfl

theorem definition_leafy {n : Node} (h : Leafy n) : definition n = none := by
  have := h n (.refl _)
  cases n with
  | tok t => rfl
  | node ty a cs => cases ty <;> first | rfl | simp [quiet, quietT] at this

theorem not_definition {x : Str} {n : Node} (h : Stmt x n) (hx : lower x ≠ S "function") (hx' : lower x ≠ S "macro") :
    isDefinition n = false := by
  simp [isDefinition, stmt_nameOf h, hx, hx']

theorem opener_defs (o : Node) (a : Attr) (rest : List Node) :
    (definition (.node .flowControl a (o :: rest))).toList = [o].filter isDefinition := by
  simp only [definition, List.filter_cons, List.filter_nil, isDefinition, Bool.or_eq_true, beq_iff_eq]
  split <;> rfl

theorem seq_defs {m : Option (List Str)} {c : Bool} {ns : List Node} (h : Seq m c ns) :
    match m with
    | some _ => (defsIn ns ++ (bodiesOfL ns).flatMap defsIn).Perm ((stmtsL ns).filter isDefinition)
    | none => ((bodiesOfL ns).flatMap defsIn).Perm ((stmtsL ns).filter isDefinition) := by
  have swap : ∀ A B C D B' R : List Node, B.Perm B' → (C ++ D).Perm R → ((A ++ C) ++ (B ++ D)).Perm (A ++ (B' ++ R)) := by
    intro A B C D B' R h1 h2
    rw [List.append_assoc]
    refine List.Perm.append_left A ?_
    have e1 : (C ++ (B ++ D)).Perm (B ++ (C ++ D)) := by
      rw [← List.append_assoc, ← List.append_assoc]
      exact List.perm_append_comm.append_right D
    exact e1.trans (h1.append h2)
  induction h with
  | nil => simp [defsIn, bodiesOfL, stmtsL]
  | @other stop c n ns h1 _ ih =>
    simpa [defsIn, bodiesOfL, stmtsL, leafy_bodies h1, leafy_stmts n h1, definition_leafy h1] using ih
  | @stmt stop c n ns x h1 h2 h3 _ ih =>
    have hd : isDefinition n = false := by
      refine not_definition h1 ?_ ?_ <;> intro e2 <;> refine h3 ?_ <;> rw [← stmt_upper h1, e2] <;> decide
    simpa [defsIn, bodiesOfL, stmtsL, stmt_bodies h1, stmt_stmtsOf h1, definition_stmt h1, List.filter_cons, hd] using ih
  | @loop stop c o e ns bs a b x h1 h2 h3 h4 _ ih1 ih2 =>
    have he : isDefinition e = false := by
      simp only [List.mem_cons, List.not_mem_nil, or_false] at h1
      refine not_definition h4 ?_ ?_ <;> rcases h1 with rfl | rfl | rfl | rfl <;> decide
    have e1 : defsIn (.node .flowControl a [o, .node .body b bs, e] :: ns) = [o].filter isDefinition ++ defsIn ns := by
      rw [defsIn, List.flatMap_cons, opener_defs]
      rfl
    have e2 : (bodiesOfL (.node .flowControl a [o, .node .body b bs, e] :: ns)).flatMap defsIn =
        (defsIn bs ++ (bodiesOfL bs).flatMap defsIn) ++ (bodiesOfL ns).flatMap defsIn := by
      simp [bodiesOfL, bodiesOf, stmt_bodies h2, stmt_bodies h4]
    have e3 : (stmtsL (.node .flowControl a [o, .node .body b bs, e] :: ns)).filter isDefinition =
        [o].filter isDefinition ++ ((stmtsL bs).filter isDefinition ++ (stmtsL ns).filter isDefinition) := by
      simp [stmtsL, stmtsOf, stmt_stmtsOf h2, stmt_stmtsOf h4, List.filter_append, List.filter_cons, he]
      split <;> simp
    show List.Perm (_ ++ _) _
    rw [e1, e2, e3]
    exact swap _ _ _ _ _ _ ih1 ih2
  | @ifs stop c o ns rest a h1 _ _ ih1 ih2 =>
    have e1 : defsIn (.node .flowControl a (o :: rest) :: ns) = [o].filter isDefinition ++ defsIn ns := by
      rw [defsIn, List.flatMap_cons, opener_defs]
      rfl
    have e2 : (bodiesOfL (.node .flowControl a (o :: rest) :: ns)).flatMap defsIn =
        (bodiesOfL rest).flatMap defsIn ++ (bodiesOfL ns).flatMap defsIn := by
      simp [bodiesOfL, bodiesOf, stmt_bodies h1]
    have e3 : (stmtsL (.node .flowControl a (o :: rest) :: ns)).filter isDefinition =
        [o].filter isDefinition ++ ((stmtsL rest).filter isDefinition ++ (stmtsL ns).filter isDefinition) := by
      simp [stmtsL, stmtsOf, stmt_stmtsOf h1, List.filter_append, List.filter_cons]
      split <;> simp
    show List.Perm (_ ++ _) _
    rw [e1, e2, e3]
    exact swap _ _ _ _ _ _ ih1 ih2
  | @openIf stop o rest a h1 _ ih1 =>
    have e1 : defsIn [.node .flowControl a (o :: rest)] = [o].filter isDefinition := by
      rw [defsIn, List.flatMap_cons, opener_defs, List.flatMap_nil, List.append_nil]
    have e2 : (bodiesOfL [.node .flowControl a (o :: rest)]).flatMap defsIn = (bodiesOfL rest).flatMap defsIn := by
      simp [bodiesOfL, bodiesOf, stmt_bodies h1]
    have e3 : (stmtsL [.node .flowControl a (o :: rest)]).filter isDefinition =
        [o].filter isDefinition ++ (stmtsL rest).filter isDefinition := by
      simp [stmtsL, stmtsOf, stmt_stmtsOf h1, List.filter_append, List.filter_cons]
      split <;> simp
    show List.Perm (_ ++ _) _
    rw [e1, e2, e3]
    exact ih1.append_left _
  | @branch c s bs rest b x _ hx hs _ ih1 ih2 =>
    have hd : isDefinition s = false := by
      refine not_definition hs ?_ ?_ <;> rcases hx with rfl | rfl <;> decide
    simp only [bodiesOfL, bodiesOf, if_true, stmt_bodies hs, stmtsL, stmtsOf, stmt_stmtsOf hs, List.flatMap_append, List.flatMap_cons,
      List.flatMap_nil, List.append_nil, List.nil_append, List.filter_append, List.filter_cons, List.filter_nil, hd, reduceCtorEq, if_false, Bool.false_eq_true]
    exact ih1.append ih2
  | @fi e bs b _ he ih1 =>
    have hd : isDefinition e = false := not_definition he (by decide) (by decide)
    simp only [bodiesOfL, bodiesOf, if_true, stmt_bodies he, stmtsL, stmtsOf, stmt_stmtsOf he, List.flatMap_append, List.flatMap_cons,
      List.flatMap_nil, List.append_nil, List.filter_append, List.filter_cons, List.filter_nil, hd, reduceCtorEq, if_false, Bool.false_eq_true]
    exact ih1
  | @unclosed c bs b _ ih1 =>
    simp only [bodiesOfL, bodiesOf, if_true, stmtsL, stmtsOf, List.flatMap_append, List.flatMap_cons,
      List.flatMap_nil, List.append_nil, List.nil_append, reduceCtorEq, if_false]
    exact ih1

/-- The definitions in the bodies of a file are its `function` and `macro` commands. -/
theorem tree_defs {ctx : Parse.Ctx} {ts : List Token} {tree : Node} (h : parse ctx ts = .ok tree) :
    ((bodiesOf tree).flatMap defsIn).Perm ((stmtsOf tree).filter isDefinition) := by
  obtain ⟨a, cs, c, rfl, hs⟩ := parse_seq h
  have := seq_defs hs
  simpa [bodiesOf, stmtsOf] using this

/-! ## Blank lines before a definition -/

theorem definitions_split : ∀ (ns bef : List Node) (d : Node × Option Node), d ∈ definitions bef ns →
    ∃ l n r, ns = l ++ n :: r ∧ definition n = some d.1 ∧ d.2 = commentAbove (l.reverse ++ bef)
  | [], bef, d, h => by simp [definitions] at h
  | n :: ns, bef, d, h => by
    rw [definitions, List.mem_append] at h
    rcases h with h | h
    · simp only [List.mem_map, Option.mem_toList] at h
      obtain ⟨s, hs, rfl⟩ := h
      exact ⟨[], n, ns, rfl, hs, rfl⟩
    · obtain ⟨l, k, r, e, h1, h2⟩ := definitions_split ns (n :: bef) d h
      exact ⟨n :: l, k, r, by rw [e]; rfl, h1, by rw [h2]; simp⟩

theorem gap_newlines {text : Str} (hb : text.head? ≠ some BOM) {prev : Option Node} {c : Node}
    (h : Gap (Props.Lex.toks text) prev c) :
    (prev = none ∧ textBefore text c = []) ∨
      ∃ w, prev = some (mk .whitespace (leaves w)) ∧ textBefore text c ≠ [] ∧ newlinesBefore text c = (w.map fun t => t.spelling.count '\n').sum := by
  obtain ⟨pre, t, rest, e, ⟨ht, hloc⟩, h⟩ := h
  have hbef : textBefore text c = (pre.map Token.spelling).flatten := by
    unfold textBefore
    rw [startOf_head ht]
    exact toks_split hb e
  have hsh : ∀ t ∈ pre, Props.Lex.Shape t.type t.spelling := fun u hu =>
    Props.Lex.token_shape text _ (Props.Parse.tokenize_toks text) u (by simp [e, hu])
  rcases h with ⟨h1, rfl⟩ | ⟨w, p, h1, rfl, hw, hwne, hp⟩
  · exact Or.inl ⟨h1, by simp [hbef]⟩
  · refine Or.inr ⟨w, h1, ?_, by rw [← count_gap hp hw hsh, newlinesBefore, hbef]⟩
    rw [hbef]
    obtain ⟨x, xs, rfl⟩ := List.exists_cons_of_ne_nil hwne
    intro e0
    simp only [List.map_append, List.map_cons, List.flatten_append, List.flatten_cons, List.append_eq_nil_iff] at e0
    exact Props.Lex.tokens_nonempty text _ (Props.Parse.tokenize_toks text) x (by simp [e]) e0.2.1

theorem far_comment {text : Str} (hb : text.head? ≠ some BOM) {l : List Node} {c : Node}
    (h : Gap (Props.Lex.toks text) l.getLast? c) (hf : textBefore text c = [] ∨ 2 ≤ newlinesBefore text c) :
    commentAbove l.reverse = none := by
  have hh : l.reverse.head? = l.getLast? := by simp
  rcases gap_newlines hb h with ⟨h1, _⟩ | ⟨w, h1, hne, h2⟩
  · rw [h1] at hh
    rw [show l.reverse = [] by simpa using hh]
    rfl
  · rw [h1] at hh
    cases hl : l.reverse with
    | nil => rfl
    | cons x xs =>
      rw [hl] at hh
      simp only [List.head?_cons, Option.some.injEq] at hh
      subst hh
      cases xs with
      | nil => rfl
      | cons y ys =>
        cases y with
        | tok => rfl
        | node ty a cs =>
          by_cases e : ty = .comment
          · subst e
            simp only [mk, commentAbove, toksL_leaves]
            rcases hf with hf | hf
            · exact absurd hf hne
            · rw [if_neg (by omega)]
          · cases ty <;> first | rfl | exact absurd rfl e

end Verif.Lint
