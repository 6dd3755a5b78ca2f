import Verif.NotesText
import Verif.SwitchText
import Verif.Props.Lex

/-!
# Comments between the commands: the tokens of the output (lemmas for C60 and C61)
-/

namespace Verif.Layout
open Verif Py Lex Parse

/-! ## Words -/

theorem csim_blankR {R : List Token → List Token → Prop} {ts us : List Token} (h : CSim R ts us) : ∀ {Y : List Token},
    (∀ u ∈ Y, isWs u = true) → CSim R ts (Y ++ us)
  | [], _ => h
  | y :: Y, hY => .wsR (hY y (by simp)) (csim_blankR h (fun u hu => hY u (by simp [hu])))

theorem csim_blankL {R : List Token → List Token → Prop} {ts us : List Token} (h : CSim R ts us) : ∀ {X : List Token},
    (∀ u ∈ X, isWs u = true) → CSim R (X ++ ts) us
  | [], _ => h
  | x :: X, hX => .wsL (hX x (by simp)) (csim_blankL h (fun u hu => hX u (by simp [hu])))

/-- Tokens with the same words. -/
theorem csim_words {R : List Token → List Token → Prop} {ts us : List Token} (h : CSim R ts us) : ∀ (X Y : List Token),
    (∀ t ∈ X, isWs t = true ∨ isSemantic t = true) → (∀ t ∈ Y, isWs t = true ∨ isSemantic t = true) →
    (semantics X).map canon = (semantics Y).map canon → CSim R (X ++ ts) (Y ++ us)
  | [], Y, _, hY, e => by
    refine csim_blankR h ?_
    intro u hu
    rcases hY u hu with h | h
    · exact h
    · simp only [semantics, List.filter_nil, List.map_nil] at e
      have := List.map_eq_nil_iff.1 e.symm
      rw [List.filter_eq_nil_iff] at this
      exact absurd h (this u hu)
  | x :: X, [], hX, _, e => by
    refine csim_blankL (X := x :: X) h ?_
    intro u hu
    rcases hX u hu with h | h
    · exact h
    · simp only [semantics, List.filter_nil, List.map_nil] at e
      have := List.map_eq_nil_iff.1 e
      rw [List.filter_eq_nil_iff] at this
      exact absurd h (this u hu)
  | x :: X, y :: Y, hX, hY, e => by
    have hX' : ∀ t ∈ X, isWs t = true ∨ isSemantic t = true := fun t ht => hX t (by simp [ht])
    have hY' : ∀ t ∈ Y, isWs t = true ∨ isSemantic t = true := fun t ht => hY t (by simp [ht])
    have drop : ∀ (z : Token) (Z : List Token), isWs z = true → semantics (z :: Z) = semantics Z := by
      intro z Z hz
      simp [semantics, List.filter_cons, isSemantic, hz]
    by_cases hx : isWs x = true
    · rw [drop x X hx] at e
      exact .wsL hx (csim_words h X (y :: Y) hX' hY e)
    · by_cases hy : isWs y = true
      · rw [drop y Y hy] at e
        exact .wsR hy (csim_words h (x :: X) Y hX hY' e)
      · have hx2 := (hX x (by simp)).resolve_left hx
        have hy2 := (hY y (by simp)).resolve_left hy
        simp only [semantics, List.filter_cons, hx2, hy2, if_true, List.map_cons, List.cons.injEq] at e
        exact .sem hx2 hy2 e.1 (csim_words h X Y hX' hY' e.2)
  termination_by X Y => X.length + Y.length

/-! ## The tokens of some texts -/

/-- The tokens of texts at positions, each after blanks and line ends. -/
def Weft : Cur → List Piece → List Token → Prop
  | _, [], us => us = []
  | c, p :: ps, us => ∃ ws u us', us = ws ++ u :: us' ∧ ws.map tySp = gapToks c p.pos ∧ (∀ t ∈ ws, isWs t = true) ∧
      u.spelling = p.text ∧ KindType p.kind u.type ∧ u.begin_.col = p.pos.col ∧ Weft p.stop ps us'

/-- The tokens of the first texts. -/
theorem woven_split : ∀ (g ps : List Piece) (c : Cur) (us : List Token), Woven c (g ++ ps) (us.map tySp) →
    InOrder c (g ++ ps) → Cols c.col us →
    ∃ Y us', us = Y ++ us' ∧ Weft c g Y ∧ Woven (lastStop c g) ps (us'.map tySp) ∧ Cols (lastStop c g).col us' ∧
      InOrder (lastStop c g) ps
  | [], ps, c, us, h, ho, hc => ⟨[], us, rfl, rfl, h, hc, ho⟩
  | p :: g, ps, c, us, h, ho, hc => by
    obtain ⟨ty, out', e, hi, hw'⟩ := h
    obtain ⟨ws, vs, rfl, e1, e2, hws, -, hcols⟩ := gap_split ho.1 e
    cases vs with
    | nil => simp at e1
    | cons v vs =>
      simp only [List.map_cons, List.cons.injEq] at e1
      obtain ⟨e1, rfl⟩ := e1
      simp only [tySp, Prod.mk.injEq] at e1
      obtain ⟨hv1, hv2⟩ := e1
      subst hv1
      have hc' := hcols hc
      have hstop : colAfter p.pos.col v.spelling = p.stop.col := by
        rw [hv2, Piece.stop, colAfter_advance]
      obtain ⟨Y, us', rfl, h1, h2, h3, h4⟩ := woven_split g ps p.stop vs hw' ho.2 (by rw [← hstop]; exact hc'.2)
      exact ⟨ws ++ v :: Y, us', by simp, ⟨ws, v, Y, rfl, e2, hws, hv2, hi, hc'.1, h1⟩, h2, h3, h4⟩

/-- The tokens of words. -/
theorem weft_words : ∀ (g : List Piece) (c : Cur) (Y : List Token), Weft c g Y → (∀ u ∈ Y, u.type ≠ .bom) →
    (∀ u ∈ Y, isOnOff u = false) → (∀ p ∈ g, p.kind.isProgram = true) →
    (∀ u ∈ Y, isWs u = true ∨ isSemantic u = true) ∧ (semantics Y).length = g.length
  | [], c, Y, h, _, _, _ => by
    simp only [Weft] at h
    subst h
    simp [semantics]
  | p :: g, c, Y, h, hb, hs, hp => by
    obtain ⟨ws, u, us', rfl, -, hws, -, hk, -, h'⟩ := h
    obtain ⟨ih1, ih2⟩ := weft_words g p.stop us' h' (fun u hu => hb u (by simp [hu])) (fun u hu => hs u (by simp [hu]))
      (fun q hq => hp q (by simp [hq]))
    obtain ⟨h1, h2, h3⟩ := kindType_ink hk (hb u (by simp)) (hs u (by simp))
    rw [hp p (by simp)] at h3
    refine ⟨?_, ?_⟩
    · intro v hv
      rcases List.mem_append.1 hv with hv | hv
      · exact Or.inl (hws v hv)
      · rcases List.mem_cons.1 hv with rfl | hv
        · exact Or.inr h3
        · exact ih1 v hv
    · have : semantics ws = [] := by
        rw [semantics, List.filter_eq_nil_iff]
        intro v hv
        simp [isSemantic, hws v hv]
      rw [Parse.semantics_append, this]
      simp only [semantics, List.nil_append, List.filter_cons, h3, if_true, List.length_cons] at ih2 ⊢
      rw [ih2]

/-! ## The lines of a comment -/

/-- No comment follows in the next line. -/
def Halt (us : List Token) : Prop :=
  ∀ a vs, us = a :: vs → isComment a = false ∧ (∀ v vs', vs = v :: vs' → isComment v = false) ∧
    ∀ v w vs', vs = v :: w :: vs' → v.type = .whitespace → isComment w = false

theorem halt_jump {us : List Token} (h : Halt us) : jump isComment us = ([], us) := by
  match us with
  | [] => rfl
  | [a] => rfl
  | a :: b :: ts2 =>
    obtain ⟨h1, h2, h3⟩ := h a (b :: ts2) rfl
    have hb := h2 b ts2 rfl
    match ts2 with
    | [] => simp [jump, hb]
    | c :: ts3 =>
      simp only [jump, hb, Bool.and_false, Bool.false_eq_true, if_false]
      by_cases hw : b.type = .whitespace
      · simp [h3 b c ts3 rfl hw]
      · simp [hw]

theorem halt_run {us : List Token} (h : Halt us) (last : Option Nat) : commentRun isComment last us = ([], us) := by
  cases us with
  | nil => rfl
  | cons a vs =>
    rw [commentRun_cons]
    simp [(h a vs rfl).1]

/-- The tokens of the lines of a comment are one run. -/
theorem lines_run : ∀ (ls : List Str) (l : Str) (c p : Cur) (Y : List Token), Weft c (linePieces p (l :: ls)) Y →
    (∀ x ∈ l :: ls, '\n' ∉ x) → (∀ u ∈ Y, isOnOff u = false) → (∀ u ∈ Y, u.type ≠ .bom) →
    ∃ ws u d, Y = ws ++ u :: d ∧ (∀ t ∈ ws, isWs t = true) ∧ ws.map tySp = gapToks c p ∧ isComment u = true ∧ u.begin_.col = p.col ∧
      u.spelling = l ∧ ((u :: d).filter isComment).map (·.spelling) = l :: ls ∧ inkT (u :: d) = l :: ls ∧
      (∀ j, left j (u :: d) = 0) ∧ (∀ t ∈ u :: d, isSemantic t = false) ∧
      (ls = [] → d = []) ∧ (ls ≠ [] → d ≠ []) ∧
      ∀ us' last, Halt us' → aligned last u = true → commentRun isComment last (u :: d ++ us') = (u :: d, us')
  | ls, l, c, p, Y, h, hl, hs, hb => by
    simp only [linePieces, Weft] at h
    obtain ⟨ws, u, us1, rfl, e2, hws, hsp, hk, hcol, h'⟩ := h
    have hu : isComment u = true := by
      have := hs u (by simp)
      rcases hk with e | e | e
      · simp [isComment, e]
      · simp [isOnOff, e] at this
      · simp [isOnOff, e] at this
    have hty : u.type = .comment := by simpa [isComment] using hu
    have huw : isWs u = false := by simp [isWs, hty]
    have hus : isSemantic u = false := by simp [isSemantic, isAnyComment, hty]
    cases ls with
    | nil =>
      simp only [linePieces, Weft] at h'
      subst h'
      refine ⟨ws, u, [], rfl, hws, e2, hu, hcol, hsp, by simp [hu, hsp], by simp [inkT, huw, hsp],
        by simp [left, huw], by simp [hus], fun _ => rfl, by simp, ?_⟩
      intro us' last hh ha
      rw [List.singleton_append, commentRun_cons, if_pos (by rw [hu, ha]; rfl), halt_jump hh, halt_run hh]
      rfl
    | cons m ls =>
      obtain ⟨ws1, u1, d, rfl, hw1, e3, hu1, hcol1, hsp1, hf1, hi1, hl1, hs1, -, -, hrun⟩ := lines_run ls m _ _ us1 h'
        (fun x hx => hl x (List.mem_cons_of_mem _ hx)) (fun x hx => hs x (by simp [hx])) (fun x hx => hb x (by simp [hx]))
      have hstop : Piece.stop ⟨.line, p, l⟩ = ⟨p.row, p.col + l.length⟩ := by
        simp only [Piece.stop, advance_flat (hl l (by simp)), Cur.right]
      rw [hstop] at e3
      have hfil : ws1.filter isComment = [] := by
        rw [List.filter_eq_nil_iff]
        intro t ht
        have := hw1 t ht
        simp only [isWs, Bool.or_eq_true, beq_iff_eq] at this
        rcases this with e | e <;> simp [isComment, e]
      have hink : inkT ws1 = [] := inkT_blank hw1
      have hty1 : u1.type = .comment := by simpa [isComment] using hu1
      refine ⟨ws, u, ws1 ++ u1 :: d, rfl, hws, e2, hu, hcol, hsp, ?_, ?_, ?_, ?_, by simp, by simp, ?_⟩
      · rw [List.filter_cons, if_pos hu, List.filter_append, hfil, List.nil_append, List.map_cons, hf1, hsp]
      · have : u :: (ws1 ++ u1 :: d) = [u] ++ (ws1 ++ u1 :: d) := rfl
        rw [this, inkT_append, inkT_append, hink, hi1]
        simp [inkT, huw, hsp]
      · intro j
        rw [left_ink huw, left_append]
        exact hl1 _
      · intro t ht
        rcases List.mem_cons.1 ht with rfl | ht
        · exact hus
        · rcases List.mem_append.1 ht with ht | ht
          · simp [isSemantic, hw1 t ht]
          · exact hs1 t ht
      · intro us' last hh ha
        have hj : jump isComment (ws1 ++ u1 :: d ++ us') = (ws1, u1 :: d ++ us') := by
          have hgap : gapToks ⟨p.row, p.col + l.length⟩ ⟨p.row + 1, p.col⟩ = [(.newline, ['\n'])] ++ blankToks p.col := by
            simp [gapToks]
          rw [hgap] at e3
          cases ws1 with
          | nil => simp at e3
          | cons a ws1 =>
            simp only [List.map_cons, List.singleton_append, List.cons.injEq, tySp, Prod.mk.injEq] at e3
            obtain ⟨⟨ha1, -⟩, e3⟩ := e3
            unfold blankToks at e3
            split at e3
            · rw [List.map_eq_nil_iff] at e3
              subst e3
              simp [jump, ha1, hu1]
            · cases ws1 with
              | nil => simp at e3
              | cons b ws1 =>
                simp only [List.map_cons, tySp, List.cons.injEq, Prod.mk.injEq, List.map_eq_nil_iff] at e3
                obtain ⟨⟨hb1, -⟩, rfl⟩ := e3
                have : isComment b = false := by simp [isComment, hb1]
                simp [jump, ha1, hu1, hb1, this]
        have e4 : u :: (ws1 ++ u1 :: d) ++ us' = u :: (ws1 ++ u1 :: d ++ us') := by simp
        rw [e4, commentRun_cons, if_pos (by rw [hu, ha]; rfl), hj, hrun us' _ hh (by simp [aligned, hcol1, hcol])]
        simp

/-- What follows a comment in the output. -/
theorem halt_of {o : Cur} {ps : List Piece} {us : List Token} (h : Woven o ps (us.map tySp)) (ho : InOrder o ps)
    (hp : ∀ p, ps.head? = some p → o.row + 1 ≤ p.pos.row ∧ (p.kind = .line → o.row + 2 ≤ p.pos.row)) : Halt us := by
  cases ps with
  | nil =>
    simp only [Woven] at h
    cases us with
    | nil => simp at h
    | cons u us =>
      simp only [List.map_cons, tySp, List.cons.injEq, Prod.mk.injEq, List.map_eq_nil_iff] at h
      obtain ⟨⟨h1, -⟩, rfl⟩ := h
      intro a vs e
      simp only [List.cons.injEq] at e
      obtain ⟨rfl, rfl⟩ := e
      simp [isComment, h1]
  | cons p ps =>
    obtain ⟨ty, out', e, hi, hw'⟩ := h
    obtain ⟨ws, vs, rfl, e1, e2, hws, -, -⟩ := gap_split ho.1 e
    obtain ⟨hr1, hr2⟩ := hp p rfl
    obtain ⟨k, hk⟩ : ∃ k, p.pos.row - o.row = k + 1 := ⟨p.pos.row - o.row - 1, by omega⟩
    rw [gapToks, if_pos (by omega), hk, List.replicate_succ, List.cons_append] at e2
    cases ws with
    | nil => simp at e2
    | cons a ws =>
      simp only [List.map_cons, List.cons.injEq, tySp, Prod.mk.injEq] at e2
      obtain ⟨⟨ha, -⟩, e2⟩ := e2
      cases vs with
      | nil => simp at e1
      | cons v vs =>
        simp only [List.map_cons, List.cons.injEq, tySp, Prod.mk.injEq] at e1
        obtain ⟨⟨hv, -⟩, -⟩ := e1
        intro a' vs' e3
        simp only [List.cons_append, List.cons.injEq] at e3
        obtain ⟨rfl, rfl⟩ := e3
        refine ⟨by simp [isComment, ha], ?_⟩
        cases k with
        | succ k =>
          rw [List.replicate_succ, List.cons_append] at e2
          cases ws with
          | nil => simp at e2
          | cons b ws =>
            simp only [List.map_cons, List.cons.injEq, tySp, Prod.mk.injEq] at e2
            obtain ⟨⟨hb, -⟩, -⟩ := e2
            refine ⟨?_, ?_⟩
            · intro v' vs' e4
              simp only [List.cons_append, List.cons.injEq] at e4
              rw [← e4.1]
              simp [isComment, hb]
            · intro v' w vs' e4 h5
              simp only [List.cons_append, List.cons.injEq] at e4
              rw [← e4.1, hb] at h5
              simp at h5
        | zero =>
          have hl : p.kind ≠ .line := fun h => by have := hr2 h; omega
          have hvc : isComment v = false ∧ v.type ≠ .whitespace := by
            rw [← hv] at hi
            revert hi hl
            cases p.kind <;> simp only [KindType] <;> intro hi hl <;> first
              | exact absurd rfl hl
              | (cases h : v.type <;> rw [h] at hi <;> simp [isIdle] at hi <;> simp [isComment, h])
          simp only [List.replicate_zero, List.nil_append] at e2
          unfold blankToks at e2
          split at e2
          · rw [List.map_eq_nil_iff] at e2
            subst e2
            refine ⟨?_, ?_⟩
            · intro v' vs' e4
              simp only [List.nil_append, List.cons.injEq] at e4
              rw [← e4.1]
              exact hvc.1
            · intro v' w vs' e4 h5
              simp only [List.nil_append, List.cons.injEq] at e4
              rw [← e4.1] at h5
              exact absurd h5 hvc.2
          · cases ws with
            | nil => simp at e2
            | cons b ws =>
              simp only [List.map_cons, tySp, List.cons.injEq, Prod.mk.injEq, List.map_eq_nil_iff] at e2
              obtain ⟨⟨hb, -⟩, rfl⟩ := e2
              refine ⟨?_, ?_⟩
              · intro v' vs' e4
                simp only [List.cons_append, List.nil_append, List.cons.injEq] at e4
                rw [← e4.1]
                simp [isComment, hb]
              · intro v' w vs' e4 h5
                simp only [List.cons_append, List.nil_append, List.cons.injEq] at e4
                rw [← e4.2.1]
                exact hvc.1

/-! ## Notes -/

/-- A comment of lines. -/
def isNote : Node → Bool
  | .node .comment _ cs => (bracketOf cs).isNone
  | _ => false

/-- Such a comment comes next. -/
def noteFirst : List Event → Bool
  | .block _ n :: _ => isNote n
  | _ => false

/-- No comment directly below a comment. -/
def spacedNotes : List Event → Bool
  | [] => true
  | .blank :: es => spacedNotes es
  | .block _ n :: es => !(isNote n && noteFirst es) && spacedNotes es

/-- **A comment that lasts.** However wide the page is: the lines written for it are no format switches
and no trailing comments, and formatting them again gives what formatting the comment gives. -/
def NoteLasts (markup : Markup.Cfg) (explicit : Str → Bool) (ls : List Str) : Prop :=
  ∀ first width out, Markup.formatComment markup false first (ls.headD []) width ls = .ok out →
    (∀ l ∈ out, ¬ Props.Lex.Shape .formatOn l ∧ ¬ Props.Lex.Shape .formatOff l ∧ explicit l = false) ∧
    ∀ width', Markup.formatComment markup false first (out.headD []) width' out =
      Markup.formatComment markup false first (ls.headD []) width' ls

/-- The comments that are considered. -/
structure NoteOk (markup : Markup.Cfg) (explicit : Str → Bool) (cs : List Node) : Prop where
  lines : bracketOf cs = none → NoteLasts markup explicit (((toksL cs).filter isComment).map (·.spelling))
  bracket : ∀ t, bracketOf cs = some t → Text.normalizeLineEndings t.spelling = t.spelling

/-- All of them. -/
def NotesOk (markup : Markup.Cfg) (explicit : Str → Bool) (es : List Event) : Prop :=
  ∀ d a cs, Event.block d (.node .comment a cs) ∈ es → NoteOk markup explicit cs

section
variable {cfg : Cfg} {f : Option Token} {explicit : Str → Bool}

theorem unitC_words {c : Cur} {n : Node} {g : List Piece} {o : Cur} {X rest : List Token} (h : UnitC cfg c n g o)
    (hu : unitNode n = true) (hs : SegC n X rest) (hn : n.isType .comment = false) :
    (∀ p ∈ g, p.kind.isProgram = true) ∧ g.length = (semantics X).length ∧ Inked X ∧
      ∀ t ∈ X, isWs t = true ∨ isSemantic t = true := by
  cases n with
  | tok t => simp [unitNode] at hu
  | node ty a cs =>
    simp only [UnitC] at h
    cases ty <;> simp [unitNode, isUnit] at hu <;> simp only [SegC] at hs
    case comment => simp [Node.isType] at hn
    case statement =>
      obtain ⟨h1, h2⟩ := h.2 (by simpa using hs.2.2.2.2)
      exact ⟨h1, by rw [h2, hs.2.2.1, toks_node], hs.1, hs.2.2.2.1⟩
    case atwordStatement =>
      obtain ⟨h1, h2⟩ := h.2 (by simpa using hs.2.2.2.2)
      exact ⟨h1, by rw [h2, hs.2.2.1, toks_node], hs.1, hs.2.2.2.1⟩

/-- The row of the next text. -/
theorem next_row : ∀ (es : List Event) (gs : List (List Piece)) (r r' : Nat) (ts : List Token),
    Stacked cfg (UnitC cfg) r es gs r' → Splits es ts → ∀ p, gs.flatten.head? = some p →
    r ≤ p.pos.row ∧ (p.kind = .line → noteFirst es = false → r + 1 ≤ p.pos.row)
  | [], gs, r, r', ts, h, _, p, hp => by
    simp only [Stacked] at h
    rw [h.1] at hp
    simp at hp
  | .blank :: es, gs, r, r', ts, h, hs, p, hp => by
    simp only [Stacked] at h
    have := next_row es gs (r + 1) r' ts h hs p hp
    exact ⟨by omega, fun _ _ => this.1⟩
  | .block d n :: es, [], r, r', ts, h, hs, p, hp => by simp at hp
  | .block d n :: es, g :: gs, r, r', ts, h, hs, p, hp => by
    simp only [Stacked] at h
    obtain ⟨o, hu, -⟩ := h
    obtain ⟨⟨⟨p0, hp0, hpos⟩, -⟩, -⟩ := id hu
    obtain ⟨ws, X, rest, rfl, -, hun, hseg, -⟩ := hs
    have : p = p0 := by
      rw [List.flatten_cons, head_append hp0] at hp
      simpa using hp.symm
    subst this
    rw [hpos]
    refine ⟨Nat.le_refl _, fun hk hf => ?_⟩
    exfalso
    have hm : p ∈ g := List.mem_of_head? hp0
    cases hty : n.isType .comment with
    | false =>
      have := (unitC_words hu hun hseg hty).1 p hm
      rw [hk] at this
      simp [PK.isProgram] at this
    | true =>
      cases n with
      | tok t => simp [Node.isType] at hty
      | node ty a cs =>
        cases ty <;> simp [Node.isType] at hty
        have hnt := hu.2
        simp only [NoteText] at hnt
        simp only [noteFirst, isNote] at hf
        cases hb : bracketOf cs with
        | none => rw [hb] at hf; simp at hf
        | some t =>
          rw [hb] at hnt
          simp only at hnt
          rw [hnt] at hm
          simp only [List.mem_singleton] at hm
          rw [hm] at hk
          simp at hk

theorem cut_line {t : Token} {c0 rest : List Token} (hc : isAnyComment t = true)
    (hcut : consumeComment t (c0 ++ rest) = (mk .comment (leaves (t :: c0)), rest)) (hb : bracketOf (leaves (t :: c0)) = none) :
    isComment t = true := by
  cases ht : isComment t with
  | true => rfl
  | false =>
    exfalso
    have hty2 : t.type = .bracketComment := by
      simp only [isComment, beq_eq_false_iff_ne] at ht
      simp only [isAnyComment, Bool.or_eq_true, beq_iff_eq] at hc
      exact hc.resolve_left ht
    simp only [consumeComment, hty2, true_or, if_true, Prod.mk.injEq] at hcut
    have hl := congrArg Node.toks hcut.1
    simp [mk] at hl
    subst hl
    simp [leaves, bracketOf, hty2] at hb

/-- The lines that are written. -/
theorem line_good : ∀ (es : List Event) (gs : List (List Piece)) (r r' : Nat) (ts : List Token),
    Stacked cfg (UnitC cfg) r es gs r' → Splits es ts → NotesOk cfg.markup explicit es → ∀ p ∈ gs.flatten, p.kind = .line →
    ¬ Props.Lex.Shape .formatOn p.text ∧ ¬ Props.Lex.Shape .formatOff p.text ∧ explicit p.text = false
  | [], gs, r, r', ts, h, _, _, p, hp, _ => by
    simp only [Stacked] at h
    rw [h.1] at hp
    simp at hp
  | .blank :: es, gs, r, r', ts, h, hs, hn, p, hp, hk => by
    simp only [Stacked] at h
    exact line_good es gs (r + 1) r' ts h hs (fun d a cs hm => hn d a cs (by simp [hm])) p hp hk
  | .block d n :: es, [], r, r', ts, h, hs, _, p, hp, _ => by simp at hp
  | .block d n :: es, g :: gs, r, r', ts, h, hs, hn, p, hp, hk => by
    simp only [Stacked] at h
    obtain ⟨o, hu, h⟩ := h
    obtain ⟨ws, X, rest, rfl, -, hun, hseg, hs⟩ := hs
    rw [List.flatten_cons, List.mem_append] at hp
    rcases hp with hm | hp
    · cases hty : n.isType .comment with
      | false =>
        have := (unitC_words hu hun hseg hty).1 p hm
        rw [hk] at this
        simp [PK.isProgram] at this
      | true =>
        cases n with
        | tok t => simp [Node.isType] at hty
        | node ty a cs =>
          cases ty <;> simp [Node.isType] at hty
          have hnt := hu.2
          simp only [NoteText] at hnt
          have hok := hn d a cs (by simp)
          cases hb : bracketOf cs with
          | some t =>
            rw [hb] at hnt
            simp only at hnt
            rw [hnt] at hm
            simp only [List.mem_singleton] at hm
            rw [hm] at hk
            simp at hk
          | none =>
            rw [hb] at hnt
            simp only at hnt
            simp only [SegC] at hseg
            obtain ⟨rfl, rfl, t, c0, rfl, hc, hcut⟩ := hseg
            obtain ⟨ts, lines, e1, e2, -, -, rfl⟩ := hnt
            simp only [commentToks_leaves, Except.ok.injEq] at e1
            subst e1
            have hct : isComment t = true := cut_line hc hcut hb
            have hl := hok.lines hb
            rw [toksL_leaves] at hl
            have hh : headSpelling (leaves (t :: c0)) = ((((t :: c0).filter isComment).map (·.spelling)).headD []) := by
              simp [leaves, headSpelling, hct]
            rw [hh] at e2
            have := (hl _ _ _ e2).1
            have hpt : p.text ∈ lines := by
              rw [← linePieces_texts ⟨r, d * cfg.tabSize⟩ lines]
              exact List.mem_map.2 ⟨p, hm, rfl⟩
            exact this _ hpt
    · exact line_good es gs _ r' rest h hs (fun d a cs hm => hn d a cs (by simp [hm])) p hp hk

/-- The first token of each text is known, or passed. -/
def FirstOk (cfg : Cfg) (f : Option Token) (ts us : List Token) : Prop :=
  (cfg.firstToken = firstNonWhitespace ts ∧ f = firstNonWhitespace us) ∨
    ((∀ t ∈ ts, cfg.firstToken ≠ some t) ∧ ∀ u ∈ us, f ≠ some u)

theorem fnw_blank {t : Token} {r : List Token} (ht : isWs t = false) : ∀ {ws : List Token}, (∀ x ∈ ws, isWs x = true) →
    firstNonWhitespace (ws ++ t :: r) = some t
  | [], _ => by
    simp only [isWs, Bool.or_eq_false_iff, beq_eq_false_iff_ne] at ht
    simp [firstNonWhitespace, ht.1, ht.2]
  | a :: ws, h => by
    have ha := h a (by simp)
    simp only [isWs, Bool.or_eq_true, beq_iff_eq] at ha
    rw [List.cons_append, firstNonWhitespace, if_pos ha]
    exact fnw_blank ht (fun x hx => h x (by simp [hx]))

/-- After the first text. -/
theorem FirstOk.next {ws X rest ws' Y' us' : List Token} {t u : Token} {X' : List Token}
    (h : FirstOk cfg f (ws ++ (X ++ rest)) (ws' ++ u :: (Y' ++ us'))) (hX : X = t :: X') (hws : ∀ x ∈ ws, isWs x = true)
    (hws' : ∀ x ∈ ws', isWs x = true) (ht : isWs t = false) (hu : isWs u = false)
    (hn : (ws ++ (X ++ rest)).Nodup) (hn' : (ws' ++ u :: (Y' ++ us')).Nodup) : FirstOk cfg f rest us' := by
  subst hX
  refine Or.inr ?_
  rcases h with ⟨h1, h2⟩ | ⟨h1, h2⟩
  · rw [List.cons_append, fnw_blank ht hws] at h1
    rw [fnw_blank hu hws'] at h2
    rw [List.nodup_append] at hn hn'
    have a1 := hn.2.1
    have a2 := hn'.2.1
    rw [List.cons_append, List.nodup_cons] at a1
    rw [List.nodup_cons] at a2
    constructor
    · intro x hx e
      rw [h1, Option.some.injEq] at e
      exact a1.1 (by simp [e, hx])
    · intro x hx e
      rw [h2, Option.some.injEq] at e
      exact a2.1 (by simp [e, hx])
  · exact ⟨fun x hx => h1 x (by simp [hx]), fun x hx => h2 x (by simp [hx])⟩

/-- The same question about the first token. -/
theorem FirstOk.same {ws X rest ws' Y' us' : List Token} {t u : Token}
    (h : FirstOk cfg f (ws ++ (t :: X ++ rest)) (ws' ++ u :: (Y' ++ us'))) (hws : ∀ x ∈ ws, isWs x = true)
    (hws' : ∀ x ∈ ws', isWs x = true) (ht : isWs t = false) (hu : isWs u = false) :
    isFirstToken (cfg.at f) (leaves (u :: Y')) = isFirstToken cfg (leaves (t :: X)) := by
  rcases h with ⟨h1, h2⟩ | ⟨h1, h2⟩
  · rw [List.cons_append, fnw_blank ht hws] at h1
    rw [fnw_blank hu hws'] at h2
    simp [isFirstToken, leaves, Cfg.at, h1, h2]
  · have a1 := h1 t (by simp)
    have a2 := h2 u (by simp)
    have e1 : isFirstToken (cfg.at f) (leaves (u :: Y')) = false := by
      simp only [isFirstToken, leaves, List.map_cons, Cfg.at]
      cases f with
      | none => rfl
      | some x => simpa using fun e : u = x => a2 (by rw [e])
    have e2 : isFirstToken cfg (leaves (t :: X)) = false := by
      simp only [isFirstToken, leaves, List.map_cons]
      cases hc : cfg.firstToken with
      | none => rfl
      | some x => simpa using fun e : t = x => a1 (by rw [e, hc])
    rw [e1, e2]

/-- A comment and its lines. -/
theorem note_lines {t u : Token} {c0 d : List Token} {lines : List Str} (hct : isComment t = true)
    (e2 : Markup.formatComment cfg.markup false (isFirstToken cfg (leaves (t :: c0))) (headSpelling (leaves (t :: c0)))
      (cfg.linewidth - u.begin_.col) (((t :: c0).filter isComment).map (·.spelling)) = .ok lines)
    (hl : NoteLasts cfg.markup explicit (((t :: c0).filter isComment).map (·.spelling)))
    (hb : bracketOf (leaves (t :: c0)) = none) (hu : isComment u = true)
    (hsp : ((u :: d).filter isComment).map (·.spelling) = lines) (hink : inkT (u :: d) = lines)
    (hleft : ∀ j, left j (u :: d) = 0)
    (hfirst : isFirstToken (cfg.at f) (leaves (u :: d)) = isFirstToken cfg (leaves (t :: c0))) :
    NoteRel cfg f (t :: c0) (u :: d) := by
  have hty : u.type = .comment := by simpa [isComment] using hu
  have hbd : bracketOf (leaves (u :: d)) = none := by
    cases d with
    | nil => simp [leaves, bracketOf, hty]
    | cons v d => simp [leaves, bracketOf]
  have hh : headSpelling (leaves (t :: c0)) = ((((t :: c0).filter isComment).map (·.spelling)).headD []) := by
    simp [leaves, headSpelling, hct]
  have hh' : headSpelling (leaves (u :: d)) = lines.headD [] := by
    rw [← hsp]
    simp [leaves, headSpelling, hu]
  refine ⟨⟨u, d, rfl, by simp [isAnyComment, hty]⟩, hleft, by rw [hb, hbd], ?_, ?_⟩
  · rw [hb]
    simp only
    rw [hink]
    exact e2
  · intro wrap p o h
    have key : reflowComment (cfg.at f) wrap {} (leaves (u :: d)) p = reflowComment cfg wrap {} (leaves (t :: c0)) p := by
      simp only [reflowComment, hb, hbd, commentToks_leaves, hfirst, hh', hsp]
      rw [hh] at e2 ⊢
      have := (hl _ _ _ e2).2 (cfg.linewidth - p.col)
      simp only [Cfg.at, Bind.bind, Except.bind]
      rw [show (({} : Attr).trailing == Trailing.explicit) = false from rfl, hsp, this]
    rw [key]
    exact h

/-- **The words and the comments of the output are those of the input.** -/
theorem notes_walk : ∀ (es : List Event) (ts : List Token) (gs : List (List Piece)) (r r' : Nat) (c : Cur) (us : List Token),
    Splits es ts → Stacked cfg (UnitC cfg) r es gs r' → Woven c gs.flatten (us.map tySp) → InOrder c gs.flatten →
    Cols c.col us → (∀ u ∈ us, u.type ≠ .bom) → (∀ u ∈ us, isOnOff u = false) → Alike ts us → spacedNotes es = true →
    NotesOk cfg.markup explicit es → ts.Nodup → us.Nodup → FirstOk cfg f ts us → CSim (NoteRel cfg f) ts us
  | [], ts, gs, r, r', c, us, hs, hst, hw, _, _, _, _, _, _, _, _, _, _ => by
    simp only [Stacked] at hst
    rw [hst.1] at hw
    simp only [List.flatten_nil, Woven] at hw
    have h1 : ∀ u ∈ us, isWs u = true := by
      intro u hu
      have : tySp u ∈ us.map tySp := List.mem_map.2 ⟨u, hu, rfl⟩
      rw [hw] at this
      simp only [List.mem_singleton, tySp, Prod.mk.injEq] at this
      simp [isWs, this.1]
    have h2 : ∀ t ∈ ts, isWs t = true := hs
    have := csim_blankL (csim_blankR (R := NoteRel cfg f) .nil h1) h2
    simpa using this
  | .blank :: es, ts, gs, r, r', c, us, hs, hst, hw, ho, hc, hb, hn, ha, hsp, hok, h1, h2, hf => by
    simp only [Stacked] at hst
    simp only [spacedNotes] at hsp
    exact notes_walk es ts gs (r + 1) r' c us hs hst hw ho hc hb hn ha hsp (fun d a cs hm => hok d a cs (by simp [hm])) h1 h2 hf
  | .block d n :: es, ts, [], r, r', c, us, hs, hst, _, _, _, _, _, _, _, _, _, _, _ => by simp [Stacked] at hst
  | .block d n :: es, ts, g :: gs, r, r', c, us, hs, hst, hw, ho, hc, hb, hn, ha, hsp, hok, h1, h2, hf => by
    simp only [Stacked] at hst
    obtain ⟨o, hu, hst⟩ := hst
    obtain ⟨ws, X, rest, rfl, hws, hun, hseg, hs⟩ := hs
    rw [List.flatten_cons] at hw ho
    obtain ⟨Y, us', rfl, hY, hw', hc', ho'⟩ := woven_split g gs.flatten c us hw ho hc
    obtain ⟨⟨p0, hp0, hpos⟩, q, hq, hstop⟩ := hu.1
    rw [lastStop_of hq, hstop] at hw' hc' ho'
    simp only [spacedNotes, Bool.and_eq_true, Bool.not_eq_true', Bool.and_eq_false_iff] at hsp
    have hrec : Alike rest us' → FirstOk cfg f rest us' → CSim (NoteRel cfg f) rest us' := fun ha hf =>
      notes_walk es rest gs (o.row + 1) r' o us' hs hst hw' ho' hc' (fun u hu => hb u (by simp [hu])) (fun u hu => hn u (by simp [hu]))
        ha hsp.2 (fun d a cs hm => hok d a cs (by simp [hm]))
        (List.Nodup.sublist (by simp) h1) (List.Nodup.sublist (by simp) h2) hf
    have hbY : ∀ u ∈ Y, u.type ≠ .bom := fun u hu => hb u (by simp [hu])
    have hnY : ∀ u ∈ Y, isOnOff u = false := fun u hu => hn u (by simp [hu])
    cases hty : n.isType .comment with
    | false =>
      obtain ⟨w1, w2, ⟨⟨t, X', rfl, ht⟩, -⟩, w4⟩ := unitC_words hu hun hseg hty
      obtain ⟨y1, y2⟩ := weft_words g c Y hY hbY hnY w1
      have hsplit : (semantics (t :: X')).map canon = (semantics Y).map canon ∧ Alike rest us' := by
        have ha' := ha
        simp only [Alike] at ha' ⊢
        have hws0 : semantics ws = [] := by
          rw [semantics, List.filter_eq_nil_iff]
          intro x hx
          simp [isSemantic, hws x hx]
        rw [semantics_append, semantics_append, hws0, List.nil_append, semantics_append, List.map_append, List.map_append] at ha'
        exact List.append_inj ha' (by simp [y2, w2])
      cases g with
      | nil => simp at hp0
      | cons p g =>
        obtain ⟨ws', u, Y', rfl, -, hws', -, hk, -, -⟩ := hY
        have hup : isWs u = false := (kindType_ink hk (hbY u (by simp)) (hnY u (by simp))).1
        have hf' : FirstOk cfg f rest us' := by
          refine FirstOk.next (X := t :: X') (ws := ws) (ws' := ws') (u := u) (Y' := Y') ?_ rfl hws hws' ht hup h1 ?_
          · simpa using hf
          · simpa using h2
        exact csim_blankL (csim_words (hrec hsplit.2 hf') _ _ w4 y1 hsplit.1) hws
    | true =>
      cases n with
      | tok t => simp [Node.isType] at hty
      | node ty a cs =>
        cases ty <;> simp [Node.isType] at hty
        have hnt := hu.2
        simp only [NoteText] at hnt
        have hokn := hok d a cs (by simp)
        simp only [SegC] at hseg
        obtain ⟨rfl, rfl, t, c0, rfl, hct, hcut⟩ := hseg
        have hX : semantics (t :: c0) = [] := by
          rw [semantics, List.filter_eq_nil_iff]
          intro x hx
          have := consumeComment_noText t (c0 ++ rest) hct x (by rw [hcut]; simpa [mk] using hx)
          rcases this with e | e <;> simp [isSemantic, e]
        have htw := (not_ws_sem hct).1
        have finish : ∀ ws' u Y', Y = ws' ++ u :: Y' → (∀ x ∈ ws', isWs x = true) → isWs u = false →
            (∀ x ∈ u :: Y', isSemantic x = false) → Cut (u :: Y') us' → NoteRel cfg f (t :: c0) (u :: Y') →
            CSim (NoteRel cfg f) (ws ++ (t :: c0 ++ rest)) (Y ++ us') := by
          intro ws' u Y' e hws' huw hsem hcutY hrel
          subst e
          have hf' : FirstOk cfg f rest us' := by
            refine FirstOk.next (X := t :: c0) (ws := ws) (ws' := ws') (u := u) (Y' := Y') ?_ rfl hws hws' htw huw h1 ?_
            · simpa using hf
            · simpa using h2
          have ha' : Alike rest us' := by
            have e1 : semantics (ws ++ (t :: c0 ++ rest)) = semantics rest := by
              have hws0 : semantics ws = [] := by
                rw [semantics, List.filter_eq_nil_iff]
                intro x hx
                simp [isSemantic, hws x hx]
              rw [semantics_append, semantics_append, hws0, hX]
              rfl
            have e2 : semantics (ws' ++ u :: Y' ++ us') = semantics us' := by
              have hws0 : semantics ws' = [] := by
                rw [semantics, List.filter_eq_nil_iff]
                intro x hx
                simp [isSemantic, hws' x hx]
              have hY0 : semantics (u :: Y') = [] := by
                rw [semantics, List.filter_eq_nil_iff]
                intro x hx
                simp [hsem x hx]
              rw [semantics_append, semantics_append, hws0, hY0]
              rfl
            simpa only [Alike, e1, e2] using ha
          rw [List.append_assoc]
          exact csim_blankL (csim_blankR (.com ⟨t, c0, rfl, hct, hcut⟩ hcutY hrel (hrec ha' hf')) hws') hws
        cases hbr : bracketOf (leaves (t :: c0)) with
        | some b =>
          rw [hbr] at hnt
          simp only at hnt
          subst hnt
          have hc0 : c0 = [] ∧ t = b ∧ t.type = .bracketComment := by
            cases c0 with
            | cons v c0 => simp [leaves, bracketOf] at hbr
            | nil =>
              simp only [leaves, List.map_cons, List.map_nil, bracketOf] at hbr
              split at hbr
              · rename_i h
                exact ⟨rfl, by simpa using hbr, h⟩
              · simp at hbr
          obtain ⟨rfl, rfl, htt⟩ := hc0
          obtain ⟨ws', u, Y', rfl, -, hws', husp, hk, -, hrestY⟩ := hY
          simp only [Weft] at hrestY
          subst hrestY
          simp only at husp hk
          have hut : u.type = .bracketComment := hk
          have huw : isWs u = false := by simp [isWs, hut]
          have hnorm := hokn.bracket t hbr
          rw [hnorm] at husp
          have hbu : bracketOf (leaves [u]) = some u := by simp [leaves, bracketOf, hut]
          refine finish ws' u [] rfl hws' huw ?_ ?_ ?_
          · intro x hx
            simp only [List.mem_singleton] at hx
            subst hx
            simp [isSemantic, isAnyComment, hut]
          · refine ⟨u, [], rfl, by simp [isAnyComment, hut], ?_⟩
            simp [consumeComment, hut, leaves]
          · refine ⟨⟨u, [], rfl, by simp [isAnyComment, hut]⟩, ?_, ?_, ?_, ?_⟩
            · intro j
              simp [left, hut, isWs]
            · rw [hbu, hbr]
              simp [husp]
            · rw [hbr]
              simp [inkT, huw, husp, hnorm]
            · intro wrap p o' h
              simp only [reflowComment, hbr, hbu, husp] at h ⊢
              exact h
        | none =>
          rw [hbr] at hnt
          simp only at hnt
          obtain ⟨ts0, lines, e1, e2, hne, hnl, rfl⟩ := hnt
          simp only [commentToks_leaves, Except.ok.injEq] at e1
          subst e1
          cases lines with
          | nil => exact absurd rfl hne
          | cons l ls =>
            have hcomm := cut_line hct hcut hbr
            obtain ⟨ws', u, d', rfl, hws', -, hu1, hcol, husp, hsps, hink, hleft, hsem, -, -, hrun⟩ := lines_run ls l c _ Y hY hnl hnY hbY
            have hut : u.type = .comment := by simpa [isComment] using hu1
            have huw : isWs u = false := by simp [isWs, hut]
            have hhalt : Halt us' := by
              refine halt_of hw' ho' ?_
              intro p hp
              have := next_row es gs (o.row + 1) r' rest hst hs p hp
              refine ⟨this.1, fun hk => ?_⟩
              have := this.2 hk (by simpa [isNote, hbr] using hsp.1)
              omega
            refine finish ws' u d' rfl hws' huw hsem ?_ ?_
            · refine ⟨u, d', rfl, by simp [isAnyComment, hut], ?_⟩
              have := hrun us' none hhalt rfl
              rw [List.cons_append] at this
              simp [consumeComment, hut, this, leaves]
            · have hl := hokn.lines hbr
              rw [toksL_leaves] at hl
              refine note_lines hcomm ?_ hl hbr hu1 hsps hink hleft ?_
              · rw [hcol]
                exact e2
              · refine FirstOk.same (rest := rest) (us' := us') (ws := ws) (ws' := ws') ?_ hws hws' htw huw
                simpa using hf

/-! ## Comments below commands -/

/-- A comment is below the word before it. -/
def Parted : List Piece → Prop
  | p :: q :: ps => (p.kind.isProgram = true → q.kind.isProgram = false → p.stop.row < q.pos.row) ∧ Parted (q :: ps)
  | _ => True

theorem parted_program : ∀ {g : List Piece}, (∀ p ∈ g, p.kind.isProgram = true) → Parted g
  | [], _ => trivial
  | [_], _ => trivial
  | p :: q :: ps, h => ⟨fun _ e => by rw [h q (by simp)] at e; simp at e, parted_program (fun x hx => h x (by simp [hx]))⟩

theorem parted_notes : ∀ {g : List Piece}, (∀ p ∈ g, p.kind.isProgram = false) → Parted g
  | [], _ => trivial
  | [_], _ => trivial
  | p :: q :: ps, h => ⟨fun e _ => by rw [h p (by simp)] at e; simp at e, parted_notes (fun x hx => h x (by simp [hx]))⟩

theorem parted_append : ∀ {g ps : List Piece}, Parted g → Parted ps →
    (∀ q p, g.getLast? = some q → ps.head? = some p → q.stop.row < p.pos.row) → Parted (g ++ ps)
  | [], ps, _, h, _ => h
  | [a], [], _, _, _ => trivial
  | [a], b :: ps, _, h, hj => ⟨fun _ _ => hj a b rfl rfl, h⟩
  | a :: b :: g, ps, h, h', hj => ⟨h.1, parted_append (g := b :: g) h.2 h' (fun q p hq hp => hj q p (by simpa using hq) hp)⟩

theorem linePieces_kind : ∀ (ls : List Str) (c : Cur), ∀ p ∈ linePieces c ls, p.kind = .line
  | [], c, p, h => by simp [linePieces] at h
  | l :: ls, c, p, h => by
    simp only [linePieces, List.mem_cons] at h
    rcases h with rfl | h
    · rfl
    · exact linePieces_kind ls _ p h

theorem stacked_parted : ∀ (es : List Event) (gs : List (List Piece)) (r r' : Nat) (ts : List Token),
    Stacked cfg (UnitC cfg) r es gs r' → Splits es ts → Parted gs.flatten
  | [], gs, r, r', ts, h, _ => by
    simp only [Stacked] at h
    rw [h.1]
    trivial
  | .blank :: es, gs, r, r', ts, h, hs => by
    simp only [Stacked] at h
    exact stacked_parted es gs (r + 1) r' ts h hs
  | .block d n :: es, [], r, r', ts, h, hs => trivial
  | .block d n :: es, g :: gs, r, r', ts, h, hs => by
    simp only [Stacked] at h
    obtain ⟨o, hu, h⟩ := h
    obtain ⟨ws, X, rest, rfl, -, hun, hseg, hs⟩ := hs
    rw [List.flatten_cons]
    refine parted_append ?_ (stacked_parted es gs _ r' rest h hs) ?_
    · cases hty : n.isType .comment with
      | false => exact parted_program (unitC_words hu hun hseg hty).1
      | true =>
        cases n with
        | tok t => simp [Node.isType] at hty
        | node ty a cs =>
          cases ty <;> simp [Node.isType] at hty
          have hnt := hu.2
          simp only [NoteText] at hnt
          cases hb : bracketOf cs with
          | some t =>
            rw [hb] at hnt
            simp only at hnt
            rw [hnt]
            trivial
          | none =>
            rw [hb] at hnt
            simp only at hnt
            obtain ⟨_, lines, -, -, -, -, rfl⟩ := hnt
            refine parted_notes fun p hp => ?_
            rw [linePieces_kind _ _ p hp]
            rfl
    · intro q p hq hp
      obtain ⟨-, q', hq', hstop⟩ := hu.1
      rw [hq] at hq'
      simp only [Option.some.injEq] at hq'
      subst hq'
      rw [hstop]
      exact (next_row es gs _ r' rest h hs p hp).1

/-- The tokens of woven texts. -/
theorem woven_mem : ∀ (ps : List Piece) (c : Cur) (us : List Token), Woven c ps (us.map tySp) →
    ∀ u ∈ us, isWs u = true ∨ ∃ p ∈ ps, KindType p.kind u.type ∧ u.spelling = p.text
  | [], c, us, h, u, hu => by
    have : tySp u ∈ us.map tySp := List.mem_map.2 ⟨u, hu, rfl⟩
    rw [h] at this
    simp only [List.mem_singleton, tySp, Prod.mk.injEq] at this
    exact Or.inl (by simp [isWs, this.1])
  | p :: ps, c, us, h, u, hu => by
    obtain ⟨ty, out', e, hi, hw'⟩ := h
    obtain ⟨ws, vs, rfl, e1, e2⟩ := List.map_eq_append_iff.1 e
    obtain ⟨v, vs', rfl, e3, e4⟩ := List.map_eq_cons_iff.1 e2
    subst e4
    simp only [tySp, Prod.mk.injEq] at e3
    simp only [List.mem_append, List.mem_cons] at hu
    rcases hu with hu | rfl | hu
    · left
      have : tySp u ∈ ws.map tySp := List.mem_map.2 ⟨u, hu, rfl⟩
      rw [e1] at this
      have hb : ∀ n, tySp u ∈ blankToks n → isWs u = true := by
        intro n hx
        unfold blankToks at hx
        split at hx
        · simp at hx
        · simp only [List.mem_singleton, tySp, Prod.mk.injEq] at hx
          simp [isWs, hx.1]
      unfold gapToks at this
      split at this
      · rcases List.mem_append.1 this with hx | hx
        · rw [List.mem_replicate] at hx
          have := hx.2
          simp only [tySp, Prod.mk.injEq] at this
          simp [isWs, this.1]
        · exact hb _ hx
      · exact hb _ this
    · exact Or.inr ⟨p, by simp, by rw [e3.1]; exact hi, e3.2⟩
    · rcases woven_mem ps p.stop vs' hw' u hu with h | ⟨q, hq, h⟩
      · exact Or.inl h
      · exact Or.inr ⟨q, by simp [hq], h⟩

theorem gap_blank {c p : Cur} {ws : List Token} (h : ws.map tySp = gapToks c p) : ∀ t ∈ ws, isWs t = true := by
  intro u hu
  have : tySp u ∈ ws.map tySp := List.mem_map.2 ⟨u, hu, rfl⟩
  rw [h] at this
  have hb : ∀ n, tySp u ∈ blankToks n → isWs u = true := by
    intro n hx
    unfold blankToks at hx
    split at hx
    · simp at hx
    · simp only [List.mem_singleton, tySp, Prod.mk.injEq] at hx
      simp [isWs, hx.1]
  unfold gapToks at this
  split at this
  · rcases List.mem_append.1 this with hx | hx
    · rw [List.mem_replicate] at hx
      have := hx.2
      simp only [tySp, Prod.mk.injEq] at this
      simp [isWs, this.1]
    · exact hb _ hx
  · exact hb _ this

theorem nextExplicit_blank {ctx : Ctx} {v : Token} {r : List Token} (hv : isWs v = false) : ∀ {ws : List Token},
    (∀ t ∈ ws, isWs t = true) → nextExplicit ctx (ws ++ v :: r) = (v.type == .comment && ctx.explicit v.spelling)
  | [], _ => by simp [nextExplicit, hv]
  | a :: ws, h => by
    rw [List.cons_append, nextExplicit, if_pos (h a (by simp))]
    exact nextExplicit_blank hv (fun t ht => h t (by simp [ht]))

theorem validTrailing_ws {t : Token} (h : isWs t = true) : validTrailing t = false := by
  simp only [isWs, Bool.or_eq_true, beq_iff_eq] at h
  rcases h with h | h <;> simp [validTrailing, isAnyComment, h]

/-- After a word: another word, or the next line. -/
theorem calm_after {ctx : Ctx} {p : Piece} {ps : List Piece} {b : List Token} (h : Woven p.stop ps (b.map tySp))
    (hp : p.kind.isProgram = true) (hpart : Parted (p :: ps)) (ho : InOrder p.stop ps)
    (hex : ∀ q ∈ ps, q.kind = .line → ctx.explicit q.text = false) : consumeTrailing ctx b = ([], b) := by
  have key : nextTrailing ctx b = false := by
    cases ps with
    | nil =>
      simp only [Woven] at h
      cases b with
      | nil => rfl
      | cons a b =>
        simp only [List.map_cons, tySp, List.cons.injEq, Prod.mk.injEq, List.map_eq_nil_iff] at h
        obtain ⟨⟨h1, -⟩, rfl⟩ := h
        have ha : isWs a = true := by simp [isWs, h1]
        simp [nextTrailing, nextExplicit, ha, validTrailing_ws ha]
    | cons q ps =>
      obtain ⟨ty, out', e, hi, hw'⟩ := h
      obtain ⟨ws, vs, rfl, e1, e2⟩ := List.map_eq_append_iff.1 e
      obtain ⟨v, vs', rfl, e3, e4⟩ := List.map_eq_cons_iff.1 e2
      have hws := gap_blank e1
      simp only [tySp, Prod.mk.injEq] at e3
      rw [← e3.1] at hi
      have hvw : isWs v = false := by
        revert hi
        cases q.kind <;> simp only [KindType] <;> intro hi <;>
          (cases h : v.type <;> rw [h] at hi <;> simp [isIdle] at hi <;> simp [isWs, h])
      have hne : nextExplicit ctx (ws ++ v :: vs') = false := by
        rw [nextExplicit_blank hvw hws, e3.2]
        cases hk : q.kind with
        | line => rw [hex q (by simp) hk]; simp
        | _ =>
          rw [hk] at hi
          cases h : v.type <;> rw [h] at hi <;> simp [KindType, isIdle] at hi <;> simp
      cases hkq : q.kind.isProgram with
      | true =>
        have hvt : validTrailing v = false := by
          have : isAnyComment v = false := by
            revert hi hkq
            cases q.kind <;> simp only [KindType, PK.isProgram] <;> intro hi hkq <;> first
              | exact absurd hkq (by decide)
              | (cases h : v.type <;> rw [h] at hi <;> simp [isIdle] at hi <;> simp [isAnyComment, h])
          simp [validTrailing, this]
        match ws, hws, hne with
        | [], _, hne =>
          simp only [List.nil_append] at hne ⊢
          simp only [nextTrailing, hne, hvt, Bool.false_or]
          cases vs' with
          | nil => rfl
          | cons w vs' =>
            simp only
            have : (v.type == TokType.whitespace) = false := by
              simp only [isWs, Bool.or_eq_false_iff] at hvw
              exact hvw.1
            rw [this]
            rfl
        | [a], hws, hne =>
          simp only [List.cons_append, List.nil_append] at hne ⊢
          simp [nextTrailing, hne, hvt, validTrailing_ws (hws a (by simp))]
        | a :: b' :: ws, hws, hne =>
          simp only [List.cons_append] at hne ⊢
          simp [nextTrailing, hne, validTrailing_ws (hws a (by simp)), validTrailing_ws (hws b' (by simp))]
      | false =>
        have hr := hpart.1 hp hkq
        obtain ⟨k, hk⟩ : ∃ k, q.pos.row - p.stop.row = k + 1 := ⟨q.pos.row - p.stop.row - 1, by omega⟩
        rw [gapToks, if_pos (by omega), hk, List.replicate_succ, List.cons_append] at e1
        cases ws with
        | nil => simp at e1
        | cons a ws =>
          simp only [List.map_cons, List.cons.injEq, tySp, Prod.mk.injEq] at e1
          have ha := e1.1.1
          simp only [List.cons_append] at hne ⊢
          simp only [nextTrailing, hne, validTrailing_ws (hws a (by simp)), Bool.false_or, ha]
          split <;> simp
  simp [consumeTrailing, key]

theorem kind_sem {k : PK} {t : Token} (h : KindType k t.type) (ht : isSemantic t = true) : k.isProgram = true := by
  cases k <;> simp only [KindType] at h <;> first
    | rfl
    | (rcases h with e | e | e <;> simp [isSemantic, isAnyComment, isOnOff, e] at ht)
    | simp [isSemantic, isAnyComment, isOnOff, h] at ht

theorem woven_noTrail {ctx : Ctx} : ∀ (ps : List Piece) (c : Cur) (us : List Token), Woven c ps (us.map tySp) → Parted ps →
    InOrder c ps → (∀ q ∈ ps, q.kind = .line → ctx.explicit q.text = false) → (∀ u ∈ us, isOnOff u = false) → NoTrail ctx us
  | [], c, us, h, _, _, _, _ => by
    intro a t b e ht
    rcases woven_mem [] c us h t (by rw [e]; simp) with h | ⟨p, hp, -⟩
    · simp [isSemantic, h] at ht
    · simp at hp
  | p :: ps, c, us, h, hpart, ho, hex, hn => by
    obtain ⟨ty, out', e, hi, hw'⟩ := h
    obtain ⟨ws, vs, rfl, e1, e2⟩ := List.map_eq_append_iff.1 e
    obtain ⟨v, vs', rfl, e3, e4⟩ := List.map_eq_cons_iff.1 e2
    have hws := gap_blank e1
    simp only [tySp, Prod.mk.injEq] at e3
    subst e4
    have hpart' : Parted ps := by
      cases ps with
      | nil => trivial
      | cons q ps => exact hpart.2
    have ih := woven_noTrail (ctx := ctx) ps p.stop vs' hw' hpart' ho.2 (fun q hq => hex q (by simp [hq])) (fun u hu => hn u (by simp [hu]))
    intro a t b e ht
    rcases List.append_eq_append_iff.1 e with ⟨a', e5, e6⟩ | ⟨a', e5, e6⟩
    · -- the token is `v` or after it
      cases a' with
      | nil =>
        simp only [List.nil_append, List.cons.injEq] at e6
        obtain ⟨rfl, rfl⟩ := e6
        refine calm_after hw' ?_ hpart ho.2 (fun q hq => hex q (by simp [hq]))
        exact kind_sem (by rw [e3.1]; exact hi) ht
      | cons x a' =>
        simp only [List.cons_append, List.cons.injEq] at e6
        exact ih a' t b e6.2 ht
    · cases a' with
      | nil =>
        simp only [List.nil_append, List.cons.injEq] at e6
        obtain ⟨rfl, rfl⟩ := e6
        refine calm_after hw' ?_ hpart ho.2 (fun q hq => hex q (by simp [hq]))
        exact kind_sem (by rw [e3.1]; exact hi) ht
      | cons x a' =>
        simp only [List.cons_append, List.cons.injEq] at e6
        have := hws t (by rw [e5, e6.1]; simp)
        simp [isSemantic, this] at ht
end

end Verif.Layout
