import Verif.TwinTree
import Verif.RelexWeave

/-!
# The root of two trees that are laid out alike, and what is written for them
-/

namespace Verif.Layout
open Verif Py Lex Parse

/-! ## Writing texts -/

mutual
/-- A tree that has texts is written by writing its texts. -/
theorem writeNode_pieces {cfg : Cfg} {content : Str} : ∀ (l : Laid) (parent : Option Str) (ps : List Piece)
    (w w' : W), w.off = none → pieces cfg parent l = .ok ps → writePieces cfg ps w = .ok w' →
    writeNode cfg content parent l w = .ok w'
  | .mk ty attr pkids info lines kids, parent, ps, w, w', hw, hp, h => by
    have one : ∀ {k : PK} {c : Cur} {s : Str}, writePieces cfg [⟨k, c, s⟩] w = .ok w' →
        writeAt cfg w c s = .ok w' := by
      intro k c s h
      simp only [writePieces, bind_ok] at h
      obtain ⟨w1, h1, h2⟩ := h
      simp only [Except.ok.injEq] at h2
      subst h2
      exact h1
    cases ty <;> simp only [writeNode, pieces, hw, Option.isSome_none, Bool.false_eq_true, if_false] at hp ⊢
    case lparen => simp only [Except.ok.injEq] at hp; subst hp; exact one h
    case rparen => simp only [Except.ok.injEq] at hp; subst hp; exact one h
    case onoff => simp at hp
    case comment =>
      cases hb : bracketOf pkids with
      | some t => simp only [hb, Except.ok.injEq] at hp ⊢; subst hp; exact one h
      | none => simp only [hb, Except.ok.injEq] at hp ⊢; subst hp; rw [writeLines_eq]; exact h
    case whitespace =>
      simp only [Except.ok.injEq] at hp
      subst hp
      simpa [writePieces] using h
    case statement => exact writeL_pieces kids _ ps w w' hw hp h
    case atwordStatement => exact writeL_pieces kids _ ps w w' hw hp h
    case argGroup => exact writeL_pieces kids _ ps w w' hw hp h
    case parenGroup => exact writeL_pieces kids _ ps w w' hw hp h
    case body => exact writeL_pieces kids _ ps w w' hw hp h
    case flowControl => exact writeL_pieces kids _ ps w w' hw hp h
    case pargGroup => exact writeL_pieces kids _ ps w w' hw hp h
    case flagGroup => exact writeL_pieces kids _ ps w w' hw hp h
    case kwargGroup => exact writeL_pieces kids _ ps w w' hw hp h
    all_goals
      simp only [bind_ok, check_ok, Except.ok.injEq, Bool.and_eq_true, decide_eq_true_eq] at hp
      obtain ⟨t, ht, text, hsc, _, hk, qs, hq, rfl⟩ := hp
      simp only [ht, hsc]
      simp only [writePieces, bind_ok] at h
      obtain ⟨w1, h1, h2⟩ := h
      simp only [h1]
      rw [if_pos hk]
      exact writeL_pieces kids none qs w1 w' ((writeAt_off h1).trans hw) hq h2
/-- The children. -/
theorem writeL_pieces {cfg : Cfg} {content : Str} : ∀ (ls : List Laid) (parent : Option Str) (ps : List Piece)
    (w w' : W), w.off = none → piecesL cfg parent ls = .ok ps → writePieces cfg ps w = .ok w' →
    writeL cfg content parent ls w = .ok w'
  | [], parent, ps, w, w', _, hp, h => by
    simp only [piecesL, Except.ok.injEq] at hp
    subst hp
    simpa [writePieces, writeL] using h
  | l :: ls, parent, ps, w, w', hw, hp, h => by
    simp only [piecesL, bind_ok, Except.ok.injEq] at hp
    obtain ⟨a, ha, b, hb, rfl⟩ := hp
    rw [writePieces_append] at h
    simp only [bind_ok] at h
    obtain ⟨w1, h1, h2⟩ := h
    simp only [writeL, writeNode_pieces l parent a w w1 hw ha h1]
    exact writeL_pieces ls parent b w1 w' ((writePieces_off h1).trans hw) hb h2
end

/-- The written text of a tree that has texts. -/
theorem writeTree_pieces {cfg : Cfg} {content : Str} {l : Laid} {ps : List Piece}
    (hp : pieces cfg none l = .ok ps) (ho : InOrder ⟨0, 0⟩ ps) :
    writeTree cfg content l = .ok (weave cfg.endl ⟨0, 0⟩ ps ++ cfg.endl) := by
  unfold writeTree
  rw [writeNode_pieces l none ps .start
    { out := W.start.out ++ weave cfg.endl W.start.cur ps, cur := lastStop W.start.cur ps, off := W.start.off }
    rfl hp (writePieces_iff.2 ⟨ho, rfl⟩)]
  rfl

theorem scalarText_at {cfg : Cfg} {f : Option Token} {ty : NT} {par : Option Str} {t : Token} :
    scalarText (cfg.at f) ty par t = scalarText cfg ty par t := by
  cases ty <;> rfl

mutual
/-- The texts do not depend on the first token of the file. -/
theorem pieces_at {cfg : Cfg} {f : Option Token} : ∀ (l : Laid) (par : Option Str),
    pieces (cfg.at f) par l = pieces cfg par l
  | .mk ty attr pkids info lines kids, par => by
    have e := fun p => piecesL_at (cfg := cfg) (f := f) kids p
    cases ty <;> simp only [pieces, e, scalarText_at]
/-- The children. -/
theorem piecesL_at {cfg : Cfg} {f : Option Token} : ∀ (ls : List Laid) (par : Option Str),
    piecesL (cfg.at f) par ls = piecesL cfg par ls
  | [], par => rfl
  | l :: ls, par => by simp only [piecesL, pieces_at l, piecesL_at ls]
end

/-! ## A blank line at the end -/

theorem children_append {cfg : Cfg} : ∀ (as bs : List Box) (n : Nat), ∃ m,
    children cfg n (as ++ bs) = children cfg n as ++ children cfg m bs
  | [], bs, n => ⟨n, by simp [children]⟩
  | a :: as, bs, n => by
    obtain ⟨m, e⟩ := children_append (cfg := cfg) as bs (if isParg a then n + 1 else n)
    exact ⟨m, by simp only [List.cons_append, children, e]⟩

theorem bodyLoop_append {path : List Str} {p : Int} {col : Nat} : ∀ (as bs : List Child) (s : Loop)
    (ls : List Laid) (s' : Loop), bodyLoop path p col (as ++ bs) s = .ok (ls, s') →
    ∃ l1 s1 l2, bodyLoop path p col as s = .ok (l1, s1) ∧ bodyLoop path p col bs s1 = .ok (l2, s') ∧ ls = l1 ++ l2
  | [], bs, s, ls, s', h => ⟨[], s, ls, rfl, h, rfl⟩
  | a :: as, bs, s, ls, s', h => by
    simp only [List.cons_append, bodyLoop, bind_ok, Except.ok.injEq, Prod.mk.injEq] at h
    obtain ⟨r, hr, rest, hrest, rfl, rfl⟩ := h
    obtain ⟨l1, s1, l2, h1, h2, h3⟩ := bodyLoop_append as bs _ rest.1 rest.2 hrest
    refine ⟨r.1 :: l1, s1, l2, ?_, h2, by rw [h3]; rfl⟩
    simp only [bodyLoop, bind_ok, Except.ok.injEq, Prod.mk.injEq]
    exact ⟨r, hr, (l1, s1), h1, rfl, rfl⟩

theorem piecesL_append {cfg : Cfg} {par : Option Str} : ∀ (as bs : List Laid) (qs : List Piece),
    piecesL cfg par bs = .ok [] → piecesL cfg par as = .ok qs → piecesL cfg par (as ++ bs) = .ok qs
  | [], bs, qs, hb, ha => by
    simp only [piecesL, Except.ok.injEq] at ha
    subst ha
    exact hb
  | a :: as, bs, qs, hb, ha => by
    simp only [piecesL, bind_ok, Except.ok.injEq] at ha
    obtain ⟨x, hx, y, hy, rfl⟩ := ha
    simp only [List.cons_append, piecesL, bind_ok, Except.ok.injEq]
    exact ⟨x, hx, y, piecesL_append as bs y hb hy, rfl⟩

theorem piecesL_front {cfg : Cfg} {par : Option Str} : ∀ (as bs : List Laid) (qs : List Piece),
    piecesL cfg par bs = .ok [] → piecesL cfg par (as ++ bs) = .ok qs → piecesL cfg par as = .ok qs
  | [], bs, qs, hb, ha => by
    simp only [List.nil_append, hb] at ha
    simp only [piecesL]
    exact ha
  | a :: as, bs, qs, hb, ha => by
    simp only [List.cons_append, piecesL, bind_ok, Except.ok.injEq] at ha ⊢
    obtain ⟨x, hx, y, hy, rfl⟩ := ha
    exact ⟨x, hx, y, piecesL_front as bs y hb hy, rfl⟩

/-- The root without the blank line at its end is laid out alike. -/
theorem drop_blank {cfg : Cfg} (hc : Harmless cfg) {a aw : Attr} {pk pw : List Node} {ks kw : List Box}
    {l : Laid} {o : Cur} {ps : List Piece}
    (h : reflow cfg (.mk .body a pk (ks ++ [.mk .whitespace aw pw kw])) 0 [] false ⟨0, 0⟩ 0 = .ok (l, o))
    (hp : pieces cfg none l = .ok ps) :
    ∃ l' o', reflow cfg (.mk .body a pk ks) 0 [] false ⟨0, 0⟩ 0 = .ok (l', o') ∧
      pieces cfg none l' = .ok ps ∧ l'.valid = l.valid := by
  have h1 : passesOf cfg .body = [(0, false)] := by
    have : className .body = S "BodyNode" := rfl
    simp only [passesOf, this, hc.body, defaultPasses]
  obtain ⟨m, hm⟩ := children_append (cfg := cfg) ks [.mk .whitespace aw pw kw] 0
  have hpn : ∀ k, pathName 0 (.mk .body a pk k) = pathName 0 (.mk .body a pk []) := fun k => rfl
  simp only [reflow, reflowNode, hm, hpn, Box.ty, h1, limitOf, runPasses, attempt, gt_iff_lt, Int.lt_irrefl,
    if_false, reflowBody] at h ⊢
  generalize [] ++ (pathName 0 (.mk .body a pk [])).toList = path at h ⊢
  generalize hr : bodyLoop path 0 _ (children cfg 0 ks ++ children cfg m [.mk .whitespace aw pw kw]) _ = r at h
  cases r with
  | error e => simp [bind, Except.bind] at h
  | ok r =>
    obtain ⟨ls, s'⟩ := r
    obtain ⟨l1, s1, l2, e1, e2, rfl⟩ := bodyLoop_append _ _ _ _ _ hr
    have ew : bodyLoop path 0 0 (children cfg m [.mk .whitespace aw pw kw]) s1 =
        .ok ([.mk .whitespace aw pw { pos := ⟨s1.colRow, 0⟩, passno := 0, wrap := false, valid := true, colext := 0 } [] []],
          { prev := some (.mk .whitespace aw pw kw), cur := ⟨s1.colRow, 0⟩, colRow := s1.colRow + 1, rows := 0,
            colext := s1.colext, valid := s1.valid }) := by
      simp only [children, bodyLoop, blank_run hc]
      simp [bind, Except.bind, Laid.colext, Laid.valid, Laid.info]
    rw [ew] at e2
    simp only [Except.ok.injEq, Prod.mk.injEq] at e2
    obtain ⟨rfl, rfl⟩ := e2
    simp only [e1, bind, Except.bind] at h ⊢
    have hv : ∀ (k k' : List Box) (q q' : Cur) (x x' : List Laid) (v : Bool),
        validate cfg (.mk .body a pk k) path ⟨0, 0⟩
          { kids := x, cur := q, colext := s1.colext, valid := v, wrap := false } =
        validate cfg (.mk .body a pk k') path ⟨0, 0⟩
          { kids := x', cur := q', colext := s1.colext, valid := v, wrap := false } := by
      intro k k' q q' x x' v
      simp [validate, Box.ty]
    rw [hv _ ks _ s1.cur _ l1] at h
    generalize validate cfg (.mk .body a pk ks) path ⟨0, 0⟩
      { kids := l1, cur := s1.cur, colext := s1.colext, valid := s1.valid, wrap := false } = v at h ⊢
    generalize hsv : (s1.valid && v) = sv at h ⊢
    have hws : ∀ i, piecesL cfg none [.mk .whitespace aw pw i [] []] = .ok [] := fun i => rfl
    cases sv <;>
      · simp only [Bool.false_eq_true, if_false, if_true, Except.ok.injEq, Prod.mk.injEq] at h ⊢
        obtain ⟨rfl, rfl⟩ := h
        simp only [pieces] at hp
        exact ⟨_, _, ⟨rfl, rfl⟩, by simpa only [pieces] using piecesL_front _ _ _ (hws _) hp, rfl⟩

/-! ## The rows of a text that was read back -/

/-- The column after a text. -/
def colAfter (c : Nat) (s : Str) : Nat :=
  if s.count '\n' = 0 then c + s.length else (s.reverse.takeWhile (· != '\n')).length

/-- Every token starts in the column where the one before ends. -/
def Cols : Nat → List Token → Prop
  | _, [] => True
  | c, t :: ts => t.begin_.col = c ∧ Cols (colAfter c t.spelling) ts

theorem cols_locate : ∀ (out : List (TokType × Str)) (i : Nat) (l : Loc), Cols l.col (locate i l out)
  | [], _, _ => trivial
  | (ty, s) :: out, i, l => ⟨rfl, cols_locate out (i + 1) (Lex.advance l s)⟩

theorem reverse_takeWhile {p : Char → Bool} {c : Char} : ∀ (s : Str), (∃ x ∈ s, p x = false) →
    ((c :: s).reverse.takeWhile p) = (s.reverse.takeWhile p) := by
  intro s h
  rw [List.reverse_cons, List.takeWhile_append]
  split
  · rename_i he
    obtain ⟨x, hx, hp⟩ := h
    have : s.reverse.takeWhile p = s.reverse := (List.takeWhile_prefix p).eq_of_length he
    have h1 := List.all_eq_true.1 (List.all_takeWhile (l := s.reverse) (p := p)) x (by rw [this]; simpa using hx)
    rw [hp] at h1
    simp at h1
  · rfl

/-- The column of the end of a text. -/
theorem colAfter_advance : ∀ (s : Str) (c : Cur), colAfter c.col s = (Layout.advance c s).col
  | [], c => by simp [colAfter, Layout.advance]
  | x :: s, c => by
    have ih := colAfter_advance s
    simp only [Layout.advance]
    by_cases hx : x = '\n'
    · subst hx
      rw [if_pos rfl, ← ih]
      simp only [colAfter, List.count_cons_self, Nat.add_eq_zero_iff, Nat.succ_ne_self, and_false, if_false]
      by_cases hs : s.count '\n' = 0
      · rw [if_pos hs, List.reverse_cons, List.takeWhile_append_of_pos]
        · simp
        · intro y hy
          simp only [List.mem_reverse] at hy
          simp only [bne_iff_ne, ne_eq]
          rintro rfl
          exact absurd hy (List.count_eq_zero.1 hs)
      · rw [if_neg hs, reverse_takeWhile]
        exact ⟨'\n', by simpa [List.count_eq_zero] using hs, by simp⟩
    · rw [if_neg hx, ← ih]
      have hcount : (x :: s).count '\n' = s.count '\n' := by
        rw [List.count_cons_of_ne]; exact hx
      simp only [colAfter, hcount]
      by_cases hs : s.count '\n' = 0
      · rw [if_pos hs, if_pos hs, List.length_cons]
        omega
      · rw [if_neg hs, if_neg hs, reverse_takeWhile]
        exact ⟨'\n', by simpa [List.count_eq_zero] using hs, by simp⟩

/-- The type and the spelling of a token. -/
def tySp (t : Token) : TokType × Str := (t.type, t.spelling)

theorem blank_gap {n : Nat} : ∀ (us out : _), us.map tySp = blankToks n ++ out →
    ∃ ws vs, us = ws ++ vs ∧ vs.map tySp = out ∧ ws.map tySp = blankToks n ∧ (∀ t ∈ ws, isWs t = true) ∧
      (∀ k, left k ws = k) ∧ ∀ c, Cols c us → Cols (c + n) vs := by
  intro us out h
  unfold blankToks at h ⊢
  split at h
  · rename_i hn
    exact ⟨[], us, rfl, h, by rw [if_pos hn]; rfl, by simp, fun k => rfl, fun c hc => by rw [hn]; exact hc⟩
  · rename_i hn
    cases us with
    | nil => simp at h
    | cons u us =>
      simp only [List.map_cons, List.singleton_append, List.cons.injEq] at h
      have h1 := h.1
      simp only [tySp, Prod.mk.injEq] at h1
      have hc : u.spelling.count '\n' = 0 := by
        rw [h1.2]
        exact List.count_eq_zero.2 (by simp [List.mem_replicate])
      have hw : isWs u = true := by simp [isWs, h1.1]
      refine ⟨[u], us, rfl, h.2, by rw [if_neg hn]; simp [h.1], by simpa using hw, fun k => by simp [left, hw, hc], ?_⟩
      intro c hcol
      have := hcol.2
      rwa [colAfter, if_pos hc, h1.2, List.length_replicate] at this

theorem line_gap : ∀ (n : Nat) (us out : _),
    us.map tySp = List.replicate n (.newline, ['\n']) ++ out →
    ∃ ws vs, us = ws ++ vs ∧ vs.map tySp = out ∧ ws.map tySp = List.replicate n (.newline, ['\n']) ∧ (∀ t ∈ ws, isWs t = true) ∧
      (∀ k, left k ws = k + n) ∧ ∀ c, Cols c us → Cols (if n = 0 then c else 0) vs
  | 0, us, out, h => ⟨[], us, rfl, h, rfl, by simp, fun k => rfl, fun c hc => hc⟩
  | n + 1, us, out, h => by
    cases us with
    | nil => simp [List.replicate_succ] at h
    | cons u us =>
      simp only [List.map_cons, List.replicate_succ, List.cons_append, List.cons.injEq] at h
      obtain ⟨ws, vs, rfl, e, e2, hw, hl, hc⟩ := line_gap n us out h.2
      have h1 := h.1
      simp only [tySp, Prod.mk.injEq] at h1
      have hc1 : u.spelling.count '\n' = 1 := by rw [h1.2]; rfl
      have hw1 : isWs u = true := by simp [isWs, h1.1]
      refine ⟨u :: ws, vs, rfl, e, by simp [List.replicate_succ, e2, h.1], ?_, ?_, ?_⟩
      · intro t ht
        rcases List.mem_cons.1 ht with rfl | ht
        · exact hw1
        · exact hw t ht
      · intro k
        simp only [left, hw1, if_true, hc1, hl]
        omega
      · intro c hcol
        have := hc _ hcol.2
        have e0 : colAfter c u.spelling = 0 := by
          rw [colAfter, h1.2]
          rfl
        rw [e0] at this
        simpa using this

/-- The blanks between two texts. -/
theorem gap_split {a b : Cur} {us : List Token} {out : _} (hab : a.le b) (h : us.map tySp = gapToks a b ++ out) :
    ∃ ws vs, us = ws ++ vs ∧ vs.map tySp = out ∧ ws.map tySp = gapToks a b ∧ (∀ t ∈ ws, isWs t = true) ∧
      (∀ k, left k ws = k + (b.row - a.row)) ∧ (Cols a.col us → Cols b.col vs) := by
  unfold gapToks at h ⊢
  split at h
  · rename_i hlt
    rw [List.append_assoc] at h
    obtain ⟨ws, vs, rfl, e, e2, hw, hl, hc⟩ := line_gap _ us _ h
    obtain ⟨ws', vs', rfl, e', e2', hw', hl', hc'⟩ := blank_gap vs _ e
    refine ⟨ws ++ ws', vs', by simp, e', by rw [if_pos hlt, List.map_append, e2, e2'], ?_, ?_, ?_⟩
    · intro t ht
      rcases List.mem_append.1 ht with ht | ht
      · exact hw t ht
      · exact hw' t ht
    · intro k
      rw [left_append, hl, hl']
    · intro hcol
      have := hc' _ (hc _ hcol)
      rw [if_neg (by omega)] at this
      simpa using this
  · rename_i hlt
    obtain ⟨ws', vs', rfl, e', e2', hw', hl', hc'⟩ := blank_gap us _ h
    refine ⟨ws', vs', rfl, e', by rw [if_neg hlt, e2'], hw', ?_, ?_⟩
    · intro k
      rw [hl']
      omega
    · intro hcol
      have := hc' _ hcol
      unfold Cur.le at hab
      rwa [show a.col + (b.col - a.col) = b.col by omega] at this

theorem kindType_ink {k : PK} {t : Token} (h : KindType k t.type) (hb : t.type ≠ .bom) (hs : isOnOff t = false) :
    isWs t = false ∧ isAnyComment t = !k.isProgram ∧ (isSemantic t = k.isProgram) := by
  have hk := h.idle
  have e : isAnyComment t = !k.isProgram := by
    simp only [isAnyComment, isOnOff] at hs ⊢
    cases k <;> simp only [KindType] at h <;> cases ht : t.type <;> rw [ht] at h hs hb <;>
      first | rfl | (exact absurd hs (by decide)) | (simp [isIdle] at h; done) | (simp at hb)
  have hw : isWs t = false := by
    simp only [isWs]
    cases k <;> simp only [KindType] at h <;> cases ht : t.type <;> rw [ht] at h hb <;>
      first | rfl | (simp [isIdle] at h)
  refine ⟨hw, e, ?_⟩
  simp only [isSemantic, hw, e, hs]
  cases k.isProgram <;> rfl

/-- **The rows between the words of a text that was read back are those between the written
texts, comments are in the columns where they were written, and the text ends with one line end.** -/
theorem woven_gaps : ∀ (ps : List Piece) (c : Cur) (us : List Token), Woven c ps (us.map tySp) → InOrder c ps →
    (∀ t ∈ us, t.type ≠ .bom) → (∀ t ∈ us, isOnOff t = false) → Cols c.col us →
    inkGaps 0 us = rowGaps c.row ps ∧ left 0 us = 1
  | [], c, us, hw, _, _, _, _ => by
    simp only [Woven] at hw
    cases us with
    | nil => simp at hw
    | cons u us =>
      simp only [List.map_cons, tySp, List.cons.injEq, Prod.mk.injEq, List.map_eq_nil_iff] at hw
      obtain ⟨⟨h1, h2⟩, rfl⟩ := hw
      simp [inkGaps, left, rowGaps, isWs, h1, h2]
  | p :: ps, c, us, hw, ho, hb, hs, hcol => by
    obtain ⟨ty, out', e, hi, hw'⟩ := hw
    obtain ⟨ws, vs, rfl, e1, -, hws, hleft, hcols⟩ := gap_split ho.1 e
    cases vs with
    | nil => simp at e1
    | cons v vs =>
      simp only [List.map_cons, List.cons.injEq] at e1
      obtain ⟨e1, rfl⟩ := e1
      simp only [tySp, Prod.mk.injEq] at e1
      obtain ⟨hv1, hv2⟩ := e1
      subst hv1
      have hc := hcols hcol
      obtain ⟨hk1, hk2, -⟩ := kindType_ink hi (hb v (by simp)) (hs v (by simp))
      have hstop : colAfter p.pos.col v.spelling = p.stop.col := by
        rw [hv2, Piece.stop, colAfter_advance]
      have ih := woven_gaps ps p.stop vs hw' ho.2 (fun t ht => hb t (by simp [ht])) (fun t ht => hs t (by simp [ht]))
        (by rw [← hstop]; exact hc.2)
      rw [inkGaps_blank hws, left_append, hleft]
      simp only [List.nil_append, inkGaps, left, hk1, Bool.false_eq_true, if_false, rowGaps, hk2, hv2, ih.1, ih.2, hc.1]
      cases p.kind.isProgram <;> simp

end Verif.Layout
