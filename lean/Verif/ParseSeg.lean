import Verif.TwinTree

/-!
# The tokens of a tree, statement by statement (lemmas for C61)

The parser may move blanks within a statement, but not over its ends.
-/

namespace Verif.Layout
open Verif Py Lex Parse

/-- Nothing but blanks and words. -/
structure Bald (ts : List Token) : Prop where
  ink : ∀ t ∈ ts, isWs t = true ∨ isSemantic t = true
  nobom : ∀ t ∈ ts, t.type ≠ .bom
  switch : ∀ t ∈ ts, isAnyComment t = false ∧ isOnOff t = false

theorem Bald.suffix {c ts : List Token} (h : Bald (c ++ ts)) : Bald ts :=
  ⟨fun t ht => h.ink t (by simp [ht]), fun t ht => h.nobom t (by simp [ht]), fun t ht => h.switch t (by simp [ht])⟩

theorem Bald.tsOk {ts : List Token} (h : Bald ts) : TsOk false (fun _ => True) ts where
  cmds := by simp
  nobom := h.nobom
  unglued _ a b hab hb := by
    have := (h.switch b (hab.subset (by simp))).2
    rw [this] at hb
    simp at hb

theorem explicit_bald (ctx : Ctx) {ts : List Token} (ok : Bald ts) : nextExplicit ctx ts = false := by
  induction ts with
  | nil => rfl
  | cons t ts ih =>
    have h := (ok.switch t (by simp)).1
    simp only [isAnyComment, Bool.or_eq_false_iff, beq_eq_false_iff_ne] at h
    simp only [nextExplicit]
    split
    · exact ih (Bald.suffix (c := [t]) ok)
    · simp [h.1]

theorem trailing_bald (ctx : Ctx) {ts : List Token} (ok : Bald ts) : consumeTrailing ctx ts = ([], ts) := by
  have : nextTrailing ctx ts = false := by
    cases ts with
    | nil => rfl
    | cons t ts =>
      simp only [nextTrailing, explicit_bald ctx ok, Bool.false_or, validTrailing, (ok.switch t (by simp)).1,
        Bool.false_and]
      cases ts with
      | nil => rfl
      | cons u us => simp [(ok.switch u (by simp)).1]
  simp [consumeTrailing, this]

theorem inkT_semantics {ts : List Token} (h : ∀ t ∈ ts, isWs t = true ∨ isSemantic t = true) :
    inkT ts = (semantics ts).map Token.spelling := by
  simp only [inkT, semantics]
  congr 1
  refine List.filter_congr fun t ht => ?_
  rcases h t ht with h | h
  · simp [h, isSemantic]
  · simp only [h, Bool.not_eq_true']
    simp only [isSemantic, Bool.not_eq_true', Bool.or_eq_false_iff] at h
    exact h.1.1

/-- Moving blanks does not change the words. -/
theorem inkT_rel {a b : List Token} (hr : Rel false a b) (h : ∀ t ∈ b, isWs t = true ∨ isSemantic t = true) :
    inkT a = inkT b := by
  simp only [Rel, Bool.false_eq_true, if_false] at hr
  rw [inkT_semantics h, inkT_semantics (fun t ht => h t (hr.1.subset ht)), hr.2]

theorem stmt_seg {ctx : Ctx} {n : Nat} {up : Bool} {t : Token} {ts : List Token} {r : Node × List Token}
    (ok : Bald (t :: ts)) (ht : isWs t = false) (h : exec ctx n .statement up (t :: ts) = .ok r) :
    ∃ X, t :: ts = X ++ r.2 ∧ Seg r.1 X := by
  cases n with
  | zero => simp [exec] at h
  | succ n =>
    obtain ⟨c, e, hrel⟩ := exec_holds (s := false) (Q := fun _ => True) (fun _ _ => Props.Parse.argOk_all _ true) _ _ _ _ _ h
      trivial ok.tsOk
    have hink : inkT r.1.toks = inkT c := inkT_rel (by simpa [Job.toks] using hrel) (fun u hu => ok.ink u (by rw [e]; simp [hu]))
    refine ⟨c, e, ?_⟩
    clear hrel
    simp only [exec, step, stmtIter] at h
    have e1 := ws_split ts
    cases hd : ts.dropWhile isWs with
    | nil => rw [hd] at h; simp at h
    | cons l ts1 =>
      rw [hd] at h e1
      simp only at h
      split at h
      · simp at h
      · obtain ⟨⟨sub, rest⟩, h1, h⟩ := Parse.bind_ok.1 h
        obtain ⟨⟨tail, rest1⟩, h2, h⟩ := Parse.bind_ok.1 h
        simp only at h
        cases rest1 with
        | nil => simp at h
        | cons q rest2 =>
          have ew := ws_split ts1
          have ok1 : Bald (ts1.dropWhile isWs) := by
            rw [e1, ew] at ok
            exact Bald.suffix (c := t :: ts.takeWhile isWs ++ l :: ts1.takeWhile isWs) (by simpa using ok)
          obtain ⟨d, e4, _⟩ := exec_holds (s := false) (Q := fun _ => True) (fun _ _ => Props.Parse.argOk_all _ true) _ _ _ _ _ h1
            ⟨true, fun _ => rfl, Props.Parse.argOk_all _ true⟩ ok1.tsOk
          have e2 : toksL tail ++ q :: rest2 = rest := stmtTail_splits _ _ _ _ h2
          have ok2 : Bald rest2 := by
            rw [e4, ← e2] at ok1
            exact Bald.suffix (c := d ++ toksL tail ++ [q]) (by simpa using ok1)
          have hq := (stmtTail_noText _ _ _ _ h2).2
          simp only [trailing_bald ctx ok2] at h
          simp only [pure_ok] at h
          subst h
          simp only at e4 e
          have ec : c = t :: (ts.takeWhile isWs ++ l :: (ts1.takeWhile isWs ++ (d ++ (toksL tail ++ [q])))) := by
            have : t :: ts = (t :: (ts.takeWhile isWs ++ l :: (ts1.takeWhile isWs ++ (d ++ (toksL tail ++ [q]))))) ++ rest2 := by
              have e5 : ts1 = ts1.takeWhile isWs ++ (d ++ (toksL tail ++ q :: rest2)) := by rw [e2, ← e4]; exact ew
              have e6 := congrArg (t :: ·) (e1.trans (congrArg (fun z => ts.takeWhile isWs ++ l :: z) e5))
              simpa using e6
            rw [e] at this
            exact List.append_cancel_right this
          simp only [Seg]
          refine ⟨⟨⟨t, _, ec, ht⟩, ?_⟩, by simpa using hink.symm⟩
          intro k
          rw [ec, show t :: (ts.takeWhile isWs ++ l :: (ts1.takeWhile isWs ++ (d ++ (toksL tail ++ [q])))) =
            (t :: (ts.takeWhile isWs ++ l :: (ts1.takeWhile isWs ++ (d ++ toksL tail)))) ++ [q] by simp, left_append]
          have hq' : isWs q = false := by
            simp [isWs, hq (Nat.le_refl _) q _ rfl]
          simp [left, hq']

theorem segL_snoc {acc : List Node} {n : Node} {X Y : List Token} (h : SegL acc X) (hn : Seg n Y) : SegL (acc ++ [n]) (X ++ Y) := by
  induction acc generalizing X with
  | nil =>
    simp only [SegL] at h
    subst h
    simp only [List.nil_append, SegL]
    exact ⟨Y, [], by simp, hn, rfl⟩
  | cons m acc ih =>
    simp only [SegL] at h
    obtain ⟨a, b, rfl, h1, h2⟩ := h
    simp only [List.cons_append, SegL]
    exact ⟨a, b ++ Y, by simp, h1, ih h2⟩

/-- What the block-level jobs do. -/
structure SegUpTo (ctx : Ctx) (n : Nat) : Prop where
  body : ∀ bs acc up ts r X, Bald ts → SegL acc X → exec ctx n (.body bs acc) up ts = .ok r →
    ∃ Y, ts = Y ++ r.2 ∧ Seg r.1 (X ++ Y) ∧ headWs r.2 = false
  flow : ∀ up ts r, Bald ts → headWs ts = false → exec ctx n .flow up ts = .ok r →
    ∃ Y, ts = Y ++ r.2 ∧ Seg r.1 Y
  ifs : ∀ acc up ts r X, Bald ts → headWs ts = false → SegL acc X → exec ctx n (.ifLoop acc) up ts = .ok r →
    ∃ Y, ts = Y ++ r.2 ∧ Seg r.1 (X ++ Y)

theorem exec_seg (ctx : Ctx) (n : Nat) : SegUpTo ctx n := by
  induction n with
  | zero => constructor <;> intros <;> rename_i h <;> simp [exec] at h
  | succ n ih =>
    refine ⟨?_, ?_, ?_⟩
    · intro bs acc up ts r X ok hs h
      simp only [exec, step] at h
      cases ts with
      | nil =>
        simp only [bodyIter, Except.ok.injEq] at h
        subst h
        exact ⟨[], rfl, by simpa [mk, Seg] using hs, rfl⟩
      | cons t ts =>
        have next : ∀ (m : Node) (Y1 rest : List Token), t :: ts = Y1 ++ rest → Seg m Y1 →
            exec ctx n (.body bs (acc ++ [m])) false rest = .ok r →
            ∃ Y, t :: ts = Y ++ r.2 ∧ Seg r.1 (X ++ Y) ∧ headWs r.2 = false := by
          intro m Y1 rest e hm h
          obtain ⟨Y, e2, h2, h3⟩ := ih.body _ _ _ _ _ _ (Bald.suffix (c := Y1) (by rw [← e]; exact ok)) (segL_snoc hs hm) h
          exact ⟨Y1 ++ Y, by rw [e, e2]; simp, by simpa using h2, h3⟩
        simp only [bodyIter] at h
        split at h
        · exact next _ _ _ (ws_split _) (by simp [mk, Seg]) h
        · rename_i hw
          simp only [Bool.not_eq_true] at hw
          split at h
          · rename_i hc
            rw [(ok.switch t (by simp)).1] at hc
            simp at hc
          · split at h
            · rename_i hc
              rw [(ok.switch t (by simp)).2] at hc
              simp at hc
            · split at h
              · split at h
                · simp only [Except.ok.injEq] at h
                  subst h
                  exact ⟨[], rfl, by simpa [mk, Seg] using hs, hw⟩
                · split at h
                  · obtain ⟨⟨sub, rest⟩, h1, h2⟩ := Parse.bind_ok.1 h
                    obtain ⟨Y, e, hY⟩ := ih.flow _ _ _ ok hw h1
                    exact next _ _ _ e hY h2
                  · obtain ⟨⟨sub, rest⟩, h1, h2⟩ := Parse.bind_ok.1 h
                    obtain ⟨Y, e, hY⟩ := stmt_seg ok hw h1
                    exact next _ _ _ e hY h2
              · split at h
                · rw [trailing_bald ctx (Bald.suffix (c := [t]) ok)] at h
                  refine next _ [t] ts rfl ?_ h
                  simp [mk, Seg, Inked, left, hw]
                · split at h
                  · rename_i hb
                    exact absurd (by simpa using hb) (ok.nobom t (by simp))
                  · simp at h
    · intro up ts r ok hw h
      simp only [exec, step] at h
      cases ts with
      | nil => simp [flowIter] at h
      | cons t ts =>
        simp only [flowIter] at h
        split at h
        · obtain ⟨Y, e, hY⟩ := ih.ifs _ _ _ _ [] ok hw (by simp [SegL]) h
          exact ⟨Y, e, by simpa using hY⟩
        · obtain ⟨⟨o, r1⟩, h1, h⟩ := Parse.bind_ok.1 h
          obtain ⟨⟨b, r2⟩, h2, h⟩ := Parse.bind_ok.1 h
          obtain ⟨⟨c, r3⟩, h3, h⟩ := Parse.bind_ok.1 h
          simp only [pure, Except.pure, Except.ok.injEq] at h
          subst h
          obtain ⟨Y1, e1, hY1⟩ := stmt_seg ok hw h1
          simp only at e1 hY1
          have ok1 : Bald r1 := Bald.suffix (c := Y1) (by rw [← e1]; exact ok)
          obtain ⟨Y2, e2, hY2, hw2⟩ := ih.body _ _ _ _ _ [] ok1 (by simp [SegL]) h2
          simp only [List.nil_append] at e2 hY2 hw2
          have ok2 : Bald r2 := Bald.suffix (c := Y2) (by rw [← e2]; exact ok1)
          cases r2 with
          | nil => cases n <;> simp [exec, step, stmtIter] at h3
          | cons u us =>
            obtain ⟨Y3, e3, hY3⟩ := stmt_seg ok2 hw2 h3
            simp only at e3 hY3
            refine ⟨Y1 ++ (Y2 ++ Y3), by rw [e1, e2, e3]; simp, ?_⟩
            simp only [mk, Seg, SegL]
            exact ⟨Y1, Y2 ++ Y3, rfl, hY1, Y2, Y3, rfl, hY2, Y3, [], by simp, hY3, rfl⟩
    · intro acc up ts r X ok hw ha h
      simp only [exec, step] at h
      cases ts with
      | nil =>
        simp only [ifIter, Except.ok.injEq] at h
        subst h
        exact ⟨[], rfl, by simpa [mk, Seg] using ha⟩
      | cons t ts =>
        simp only [ifIter] at h
        split at h
        · obtain ⟨⟨c, r1⟩, h1, h⟩ := Parse.bind_ok.1 h
          simp only [pure, Except.pure, Except.ok.injEq] at h
          subst h
          obtain ⟨Y, e, hY⟩ := stmt_seg ok hw h1
          exact ⟨Y, e, by simpa only [mk, Seg] using segL_snoc ha hY⟩
        · obtain ⟨⟨o, r1⟩, h1, h⟩ := Parse.bind_ok.1 h
          obtain ⟨⟨b, r2⟩, h2, h⟩ := Parse.bind_ok.1 h
          obtain ⟨Y1, e1, hY1⟩ := stmt_seg ok hw h1
          simp only at e1 hY1
          have ok1 : Bald r1 := Bald.suffix (c := Y1) (by rw [← e1]; exact ok)
          obtain ⟨Y2, e2, hY2, hw2⟩ := ih.body _ _ _ _ _ [] ok1 (by simp [SegL]) h2
          simp only [List.nil_append] at e2 hY2 hw2
          have ok2 : Bald r2 := Bald.suffix (c := Y2) (by rw [← e2]; exact ok1)
          have := segL_snoc (segL_snoc ha hY1) hY2
          rw [List.append_assoc, List.cons_append, List.nil_append] at this
          obtain ⟨Y3, e3, hY3⟩ := ih.ifs _ _ _ _ _ ok2 hw2 this h
          exact ⟨Y1 ++ (Y2 ++ Y3), by rw [e1, e2, e3]; simp, by simpa using hY3⟩

/-- A parse tree was read from its tokens, statement by statement. -/
theorem parse_seg {ctx : Ctx} {m : Nat} {ts : List Token} {tree : Node} (h : parseN ctx m ts = .ok tree) (ok : Bald ts) :
    Seg tree ts := by
  obtain ⟨Y, e, hY, _⟩ := (exec_seg ctx m).body _ _ _ _ _ [] ok (by simp [SegL]) (Props.Parse.parse_all h)
  simp only [List.append_nil] at e
  subst e
  simpa using hY

end Verif.Layout
