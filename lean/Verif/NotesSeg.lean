import Verif.ParseSeg

/-!
# The tokens of a tree with comments between its commands (lemmas for C61)
-/

namespace Verif.Layout
open Verif Py Lex Parse

mutual
/-- The tokens a node was read from, with the tokens after them. -/
def SegC : Node → List Token → List Token → Prop
  | .tok _, _, _ => False
  | .node ty a cs, X, rest =>
    match ty with
    | .body => SegCL cs X rest
    | .flowControl => SegCL cs X rest
    | .statement => Inked X ∧ inkT X = inkT (toksL cs) ∧ semantics X = semantics (toksL cs) ∧
        (∀ t ∈ X, isWs t = true ∨ isSemantic t = true) ∧ ∀ t ∈ toksL cs, isAnyComment t = false ∧ isOnOff t = false
    | .atwordStatement => Inked X ∧ inkT X = inkT (toksL cs) ∧ semantics X = semantics (toksL cs) ∧
        (∀ t ∈ X, isWs t = true ∨ isSemantic t = true) ∧ ∀ t ∈ toksL cs, isAnyComment t = false ∧ isOnOff t = false
    | .comment => cs = leaves X ∧ a = {} ∧ Cut X rest
    | .whitespace => X = toksL cs ∧ ∀ t ∈ X, isWs t = true
    | _ => False
/-- One after the other. -/
def SegCL : List Node → List Token → List Token → Prop
  | [], X, _ => X = []
  | n :: ns, X, rest => ∃ a b, X = a ++ b ∧ SegC n a (b ++ rest) ∧ SegCL ns b rest
end

mutual
theorem segC_seg : ∀ (n : Node) (X rest : List Token), SegC n X rest → Seg n X
  | .tok t, X, rest, h => by simp only [SegC] at h
  | .node ty a cs, X, rest, h => by
    cases ty <;> simp only [SegC, Seg] at h ⊢ <;> first
      | exact h.elim
      | (obtain ⟨rfl, -⟩ := h; exact (toksL_leaves _).symm)
      | exact h
      | exact h.1
      | exact ⟨h.1, h.2.1⟩
      | exact segCL_segL cs X rest h
theorem segCL_segL : ∀ (ns : List Node) (X rest : List Token), SegCL ns X rest → SegL ns X
  | [], X, rest, h => by simpa only [SegCL, SegL] using h
  | n :: ns, X, rest, h => by
    simp only [SegCL] at h
    obtain ⟨a, b, rfl, h1, h2⟩ := h
    simp only [SegL]
    exact ⟨a, b, rfl, segC_seg n _ _ h1, segCL_segL ns _ _ h2⟩
end

theorem segCL_snoc {acc : List Node} {n : Node} {X Y rest : List Token} (h : SegCL acc X (Y ++ rest)) (hn : SegC n Y rest) :
    SegCL (acc ++ [n]) (X ++ Y) rest := by
  induction acc generalizing X with
  | nil =>
    simp only [SegCL] at h
    subst h
    simp only [List.nil_append, SegCL]
    exact ⟨Y, [], by simp, by simpa using hn, rfl⟩
  | cons m acc ih =>
    simp only [SegCL] at h
    obtain ⟨a, b, rfl, h1, h2⟩ := h
    simp only [List.cons_append, SegCL]
    exact ⟨a, b ++ Y, by simp, by simpa using h1, ih h2⟩

section
variable {ctx : Ctx} (C : CtxSame ctx)
include C

/-- The tokens of a command. -/
theorem stmt_segC {n : Nat} {up : Bool} {t : Token} {ts : List Token} {r : Node × List Token}
    (ok : Fair (t :: ts)) (ht : isWs t = false) (hb : Between r.1) (h : exec ctx n .statement up (t :: ts) = .ok r) :
    ∃ X, t :: ts = X ++ r.2 ∧ SegC r.1 X r.2 := by
  have hty := stmt_isType h
  obtain ⟨nd, m⟩ := r
  cases nd with
  | tok t => simp [Node.isType] at hty
  | node ty a cs =>
    cases ty <;> simp [Node.isType] at hty
    simp only [Between, toks_node] at hb
    have tsok : TsOk false (fun _ => True) (t :: ts) :=
      ⟨by simp, ok.nobom, fun _ a b hab hb => by
        have := ok.noswitch b (hab.subset (by simp))
        rw [this] at hb
        simp at hb⟩
    obtain ⟨c, e, hrel⟩ := exec_holds (s := false) (Q := fun _ => True) (fun _ _ => Props.Parse.argOk_all _ true) _ _ _ _ _ h
      trivial tsok
    simp only [Job.toks, List.nil_append, Rel, Bool.false_eq_true, if_false, toks_node] at hrel
    simp only at e
    have free : ∀ u ∈ c, isAnyComment u = false := fun u hu => hb u (hrel.1.symm.subset hu)
    have ink : ∀ u ∈ c, isWs u = true ∨ isSemantic u = true := by
      intro u hu
      cases hw : isWs u with
      | true => exact Or.inl rfl
      | false =>
        refine Or.inr ?_
        simp [isSemantic, hw, free u hu, ok.noswitch u (by rw [e]; simp [hu])]
    refine ⟨c, e, ?_⟩
    simp only [SegC]
    refine ⟨⟨?_, ?_⟩, ?_, hrel.2.symm, ink, fun u hu => ⟨hb u (by simpa using hu), ok.noswitch u ?_⟩⟩
    · rw [e] at h
      obtain ⟨y, q, rfl, hq⟩ := stmt_last C.flat free h
      cases y with
      | nil =>
        simp only [List.nil_append, List.cons_append, List.cons.injEq] at e
        exact ⟨q, [], rfl, by rw [← e.1]; exact ht⟩
      | cons y0 y =>
        simp only [List.cons_append, List.cons.injEq] at e
        exact ⟨y0, y ++ [q], rfl, by rw [← e.1]; exact ht⟩
    · intro k
      rw [e] at h
      obtain ⟨y, q, rfl, hq⟩ := stmt_last C.flat free h
      rw [left_append]
      simp [left, isWs, hq]
    · exact (inkT_rel (by simpa [Rel] using hrel) ink).symm
    · rw [e]; simp [hrel.1.subset hu]

/-- What the block-level jobs do. -/
structure SegCUpTo (ctx : Ctx) (n : Nat) : Prop where
  body : ∀ bs acc up ts r X, Fair ts → Between r.1 → SegCL acc X ts → exec ctx n (.body bs acc) up ts = .ok r →
    ∃ Y, ts = Y ++ r.2 ∧ SegC r.1 (X ++ Y) r.2 ∧ headWs r.2 = false
  flow : ∀ up ts r, Fair ts → Between r.1 → headWs ts = false → exec ctx n .flow up ts = .ok r →
    ∃ Y, ts = Y ++ r.2 ∧ SegC r.1 Y r.2
  ifs : ∀ acc up ts r X, Fair ts → Between r.1 → headWs ts = false → SegCL acc X ts → exec ctx n (.ifLoop acc) up ts = .ok r →
    ∃ Y, ts = Y ++ r.2 ∧ SegC r.1 (X ++ Y) r.2

theorem exec_segC (n : Nat) : SegCUpTo ctx n := by
  induction n with
  | zero => constructor <;> intros <;> rename_i h <;> simp [exec] at h
  | succ n ih =>
    refine ⟨?_, ?_, ?_⟩
    · intro bs acc up ts r X ok hbt hs h
      change bodyIter ctx (exec ctx n) bs acc ts = _ at h
      cases ts with
      | nil =>
        simp only [bodyIter, Except.ok.injEq] at h
        subst h
        exact ⟨[], rfl, by simpa [mk, SegC] using hs, rfl⟩
      | cons t ts =>
        have sub : ∀ {nd : Node} {up : Bool} {ts : List Token}, exec ctx n (.body bs (acc ++ [nd])) up ts = .ok r → Between nd := by
          intro nd up ts h
          obtain ⟨⟨cs, e⟩, _⟩ := body_out n (nd := r.1) (rest := r.2) h
          rw [e] at hbt
          simp only [mk, Between] at hbt
          exact betweenL_mem.1 hbt nd (by simp)
        have next : ∀ (m : Node) (Y1 rest : List Token), t :: ts = Y1 ++ rest → SegC m Y1 rest →
            exec ctx n (.body bs (acc ++ [m])) false rest = .ok r →
            ∃ Y, t :: ts = Y ++ r.2 ∧ SegC r.1 (X ++ Y) r.2 ∧ headWs r.2 = false := by
          intro m Y1 rest e hm h
          rw [e] at hs
          obtain ⟨Y, e2, h2, h3⟩ := ih.body _ _ _ _ _ _ (ok.suffix ⟨Y1, e.symm⟩) hbt (segCL_snoc hs hm) h
          exact ⟨Y1 ++ Y, by rw [e, e2]; simp, by simpa using h2, h3⟩
        simp only [bodyIter] at h
        split at h
        · exact next _ _ _ (ws_split _) (by
            simp only [mk, SegC, toksL_leaves, true_and]
            exact fun u hu => List.all_eq_true.1 List.all_takeWhile u hu) h
        · rename_i hw
          simp only [Bool.not_eq_true] at hw
          split at h
          · rename_i hc
            have e := consumeComment_splits t ts
            have hcom : ∃ c0, (consumeComment t ts).1 = mk .comment (leaves (t :: c0)) := by
              simp only [consumeComment]
              split
              · exact ⟨[], rfl⟩
              · rename_i hne
                have hct : isComment t = true := by
                  simp only [isAnyComment, Bool.or_eq_true, beq_iff_eq] at hc
                  simp only [not_or] at hne
                  exact beq_iff_eq.2 (hc.resolve_right hne.1)
                rw [commentRun_cons, hct]
                exact ⟨_, rfl⟩
            obtain ⟨c0, e1⟩ := hcom
            have e2 : (consumeComment t ts).1.toks = t :: c0 := by rw [e1]; simp [mk]
            rw [e2] at e
            refine next _ (t :: c0) _ e.symm ?_ h
            rw [e1]
            simp only [mk, SegC, true_and]
            refine ⟨t, c0, rfl, hc, ?_⟩
            simp only [List.cons_append, List.cons.injEq, true_and] at e
            rw [e]
            exact Prod.ext e1 rfl
          · split at h
            · rename_i hc
              rw [ok.noswitch t (by simp)] at hc
              simp at hc
            · split at h
              · split at h
                · simp only [Except.ok.injEq] at h
                  subst h
                  exact ⟨[], rfl, by simpa [mk, SegC] using hs, hw⟩
                · split at h
                  · obtain ⟨⟨sb, rest⟩, h1, h2⟩ := Parse.bind_ok.1 h
                    obtain ⟨Y, e, hY⟩ := ih.flow _ _ _ ok (sub h2) hw h1
                    exact next _ _ _ e hY h2
                  · obtain ⟨⟨sb, rest⟩, h1, h2⟩ := Parse.bind_ok.1 h
                    obtain ⟨Y, e, hY⟩ := stmt_segC C ok hw (sub h2) h1
                    exact next _ _ _ e hY h2
              · split at h
                · rename_i hat
                  have none : consumeTrailing ctx ts = ([], ts) := by
                    rcases trailing_or ctx ts with e | ⟨a, ha, hca⟩
                    · exact e
                    · have := sub h
                      simp only [mk, Between] at this
                      have := this a (by simp [ha])
                      rw [hca] at this; simp at this
                  rw [none] at h
                  refine next _ [t] ts rfl ?_ h
                  have hsem : isSemantic t = true := by
                    rw [beq_iff_eq] at hat
                    simp [isSemantic, isWs, isAnyComment, isOnOff, hat]
                  have hfree : isAnyComment t = false ∧ isOnOff t = false := by
                    rw [beq_iff_eq] at hat
                    simp [isAnyComment, isOnOff, hat]
                  simp [mk, SegC, Inked, left, hw, hsem, hfree]
                · split at h
                  · rename_i hb
                    exact absurd (by simpa using hb) (ok.nobom t (by simp))
                  · simp at h
    · intro up ts r ok hbt hw h
      change flowIter (exec ctx n) ts = _ at h
      cases ts with
      | nil => simp [flowIter] at h
      | cons t ts =>
        simp only [flowIter] at h
        split at h
        · obtain ⟨Y, e, hY⟩ := ih.ifs _ _ _ _ [] ok hbt hw (by simp [SegCL]) h
          exact ⟨Y, e, by simpa using hY⟩
        · obtain ⟨⟨o, r1⟩, h1, h⟩ := Parse.bind_ok.1 h
          obtain ⟨⟨b, r2⟩, h2, h⟩ := Parse.bind_ok.1 h
          obtain ⟨⟨c, r3⟩, h3, h⟩ := Parse.bind_ok.1 h
          simp only [pure, Except.pure, Except.ok.injEq] at h
          subst h
          simp only [mk, Between, BetweenL] at hbt
          obtain ⟨Y1, e1, hY1⟩ := stmt_segC C ok hw hbt.1 h1
          simp only at e1 hY1
          have ok1 : Fair r1 := ok.suffix ⟨Y1, e1.symm⟩
          obtain ⟨Y2, e2, hY2, hw2⟩ := ih.body _ _ _ _ _ [] ok1 hbt.2.1 (by simp [SegCL]) h2
          simp only [List.nil_append] at e2 hY2 hw2
          have ok2 : Fair r2 := ok1.suffix ⟨Y2, e2.symm⟩
          cases r2 with
          | nil => cases n <;> simp [exec, step, stmtIter] at h3
          | cons u us =>
            obtain ⟨Y3, e3, hY3⟩ := stmt_segC C ok2 hw2 hbt.2.2.1 h3
            simp only at e3 hY3
            refine ⟨Y1 ++ (Y2 ++ Y3), by rw [e1, e2, e3]; simp, ?_⟩
            simp only [mk, SegC, SegCL]
            refine ⟨Y1, Y2 ++ Y3, rfl, ?_, Y2, Y3, rfl, ?_, Y3, [], by simp, by simpa using hY3, rfl⟩
            · rw [List.append_assoc, ← e3, ← e2]; exact hY1
            · rw [← e3]; exact hY2
    · intro acc up ts r X ok hbt hw ha h
      have hcs := if_cs h
      change ifIter (exec ctx n) acc ts = _ at h
      cases ts with
      | nil =>
        simp only [ifIter, Except.ok.injEq] at h
        subst h
        exact ⟨[], rfl, by simpa [mk, SegC] using ha⟩
      | cons t ts =>
        simp only [ifIter] at h
        split at h
        · obtain ⟨⟨c, r1⟩, h1, h⟩ := Parse.bind_ok.1 h
          simp only [pure, Except.pure, Except.ok.injEq] at h
          subst h
          simp only [mk, Between] at hbt
          obtain ⟨Y, e, hY⟩ := stmt_segC C ok hw (betweenL_mem.1 hbt _ (by simp)) h1
          simp only at e hY
          rw [e] at ha
          exact ⟨Y, e, by simpa only [mk, SegC] using segCL_snoc ha hY⟩
        · obtain ⟨⟨o, r1⟩, h1, h⟩ := Parse.bind_ok.1 h
          obtain ⟨⟨b, r2⟩, h2, h⟩ := Parse.bind_ok.1 h
          have hb2 : BetweenL (acc ++ [o, b]) := by
            obtain ⟨cs, e⟩ := if_cs h
            rw [e] at hbt
            simp only [mk, Between] at hbt
            rw [betweenL_mem] at hbt ⊢
            intro n hn
            exact hbt n (by simp only [List.mem_append] at hn ⊢; exact Or.inl hn)
          rw [betweenL_mem] at hb2
          obtain ⟨Y1, e1, hY1⟩ := stmt_segC C ok hw (hb2 o (by simp)) h1
          simp only at e1 hY1
          have ok1 : Fair r1 := ok.suffix ⟨Y1, e1.symm⟩
          obtain ⟨Y2, e2, hY2, hw2⟩ := ih.body _ _ _ _ _ [] ok1 (hb2 b (by simp)) (by simp [SegCL]) h2
          simp only [List.nil_append] at e2 hY2 hw2
          have ok2 : Fair r2 := ok1.suffix ⟨Y2, e2.symm⟩
          rw [e1] at ha
          have ha1 := segCL_snoc ha hY1
          rw [e2] at ha1
          have := segCL_snoc ha1 hY2
          rw [List.append_assoc, List.cons_append, List.nil_append] at this
          obtain ⟨Y3, e3, hY3⟩ := ih.ifs _ _ _ _ _ ok2 hbt hw2 this h
          exact ⟨Y1 ++ (Y2 ++ Y3), by rw [e1, e2, e3]; simp, by simpa using hY3⟩

/-- A parse tree was read from its tokens, command by command and comment by comment. -/
theorem parse_segC {m : Nat} {ts : List Token} {tree : Node} (h : parseN ctx m ts = .ok tree) (ok : Fair ts) (hb : Between tree) :
    SegC tree ts [] := by
  obtain ⟨Y, e, hY, _⟩ := (exec_segC C m).body _ _ _ _ _ [] ok hb (by simp [SegCL]) (Props.Parse.parse_all h)
  simp only [List.append_nil] at e
  subst e
  simpa using hY
end

end Verif.Layout
