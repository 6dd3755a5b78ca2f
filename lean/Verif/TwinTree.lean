import Verif.Twin
import Verif.Stack
import Verif.NotesSame
import Verif.ParseSpread

/-!
# The tree read from the output is a twin of the tree that was written (lemmas for C61)

Two trees without comments that differ in blanks and letter case only are compared.  The first
one has been laid out; the tokens of the second one are the texts that were written, with as
many line ends between them as there are rows between the texts.
-/

namespace Verif.Layout
open Verif Py Lex Parse

/-! ## Line ends before words -/

/-- The words of a list with the number of line ends before them, and the columns of the comments;
`k` line ends are before the list. -/
def inkGaps : Nat → List Token → List (Nat × Nat × Str)
  | _, [] => []
  | k, t :: ts =>
    if isWs t then inkGaps (k + t.spelling.count '\n') ts
    else (k, (if isAnyComment t then t.begin_.col else 0), t.spelling) :: inkGaps 0 ts

/-- The line ends after the last word. -/
def left : Nat → List Token → Nat
  | k, [] => k
  | k, t :: ts => if isWs t then left (k + t.spelling.count '\n') ts else left 0 ts

/-- The texts with the number of rows since the end of the text before, and the columns of the
comments. -/
def rowGaps : Nat → List Piece → List (Nat × Nat × Str)
  | _, [] => []
  | r, p :: ps => (p.pos.row - r, (if p.kind.isProgram then 0 else p.pos.col), p.text) :: rowGaps p.stop.row ps

/-- The row of the end of the last text. -/
def endRow : Nat → List Piece → Nat
  | r, [] => r
  | _, p :: ps => endRow p.stop.row ps

theorem inkGaps_append (k : Nat) (a b : List Token) : inkGaps k (a ++ b) = inkGaps k a ++ inkGaps (left k a) b := by
  induction a generalizing k with
  | nil => rfl
  | cons t a ih => simp only [List.cons_append, inkGaps, left]; split <;> simp [ih]

theorem left_append (k : Nat) (a b : List Token) : left k (a ++ b) = left (left k a) b := by
  induction a generalizing k with
  | nil => rfl
  | cons t a ih => simp only [List.cons_append, left]; split <;> simp [ih]

theorem inkGaps_blank {ws : List Token} (h : ∀ t ∈ ws, isWs t = true) (k : Nat) (R : List Token) :
    inkGaps k (ws ++ R) = inkGaps (left k ws) R := by
  induction ws generalizing k with
  | nil => rfl
  | cons t ws ih =>
    simp only [List.cons_append, inkGaps, left, h t (by simp), if_true]
    exact ih (fun u hu => h u (by simp [hu])) _

theorem inkGaps_ink {t : Token} (h : isWs t = false) (k : Nat) (R : List Token) :
    inkGaps k (t :: R) = (k, (if isAnyComment t then t.begin_.col else 0), t.spelling) :: inkGaps 0 R := by simp [inkGaps, h]

theorem left_ink {t : Token} (h : isWs t = false) (k : Nat) (R : List Token) : left k (t :: R) = left 0 R := by
  simp [left, h]

theorem endRow_append (r : Nat) (a b : List Piece) : endRow r (a ++ b) = endRow (endRow r a) b := by
  induction a generalizing r with
  | nil => rfl
  | cons p a ih => simp only [List.cons_append, endRow, ih]

theorem endRow_last {r : Nat} {ps : List Piece} {q : Piece} (h : ps.getLast? = some q) : endRow r ps = q.stop.row := by
  induction ps generalizing r with
  | nil => simp at h
  | cons p ps ih =>
    cases ps with
    | nil => simp at h; subst h; rfl
    | cons p' ps => rw [List.getLast?_cons_cons] at h; exact ih (r := p.stop.row) h

@[simp] theorem toksL_leaves (ws : List Token) : toksL (leaves ws) = ws := by
  induction ws with
  | nil => rfl
  | cons t ws ih => simp only [leaves, List.map_cons, toksL_cons, toks_tok] at *; rw [ih]; rfl

theorem newlines_leaves (ws : List Token) (k : Nat) (h : ∀ t ∈ ws, isWs t = true) :
    left k ws = k + newlinesL (leaves ws) := by
  induction ws generalizing k with
  | nil => rfl
  | cons t ws ih =>
    have := ih (k + t.spelling.count '\n') (fun u hu => h u (by simp [hu]))
    simp only [left, h t (by simp), if_true, this, leaves, List.map_cons, newlinesL, newlines]
    omega

/-! ## Trees without comments -/

/-- A neat tree without comments and switches. -/
structure Quiet (ctx : Ctx) (n : Node) : Prop where
  neat : Neat ctx n
  quiet : ∀ t ∈ n.toks, isAnyComment t = false ∧ isOnOff t = false

theorem quiet_child {ctx : Ctx} {ty : NT} {a : Attr} {cs : List Node} (h : Quiet ctx (.node ty a cs)) :
    ∀ c ∈ cs, Quiet ctx c := fun c hc =>
  ⟨(neat_node.1 h.neat).2 c hc, fun t ht => h.quiet t (by simp only [toks_node]; exact mem_toksL.2 ⟨c, hc, ht⟩)⟩

theorem quiet_nocomment {ctx : Ctx} {a : Attr} {cs : List Node} (h : Quiet ctx (.node .comment a cs)) : False := by
  obtain ⟨t, ts, rfl, ht, _⟩ := (neat_node.1 h.neat).1
  have := (h.quiet t (by simp [leaves])).1
  rw [ht] at this; simp at this

theorem quiet_noonoff {ctx : Ctx} {a : Attr} {cs : List Node} (h : Quiet ctx (.node .onoff a cs)) : False := by
  obtain ⟨t, rfl, ht⟩ := (neat_node.1 h.neat).1
  have := (h.quiet t (by simp)).2
  rw [ht] at this; simp at this

theorem quiet_trail {ctx : Ctx} {cs : List Node} (h : Trail cs) (hq : ∀ c ∈ cs, Quiet ctx c) : cs = [] := by
  rcases h with h | ⟨ws, a, ds, rfl, _⟩
  · exact h
  · exact (quiet_nocomment (hq (.node .comment a ds) (by simp))).elim

/-- What stands in a statement. -/
def Part : Node → Prop
  | .tok t => isWs t = true
  | .node ty _ _ => ty ≠ .whitespace ∧ ty ≠ .body ∧ ty ≠ .flowControl

theorem part_leaves {ws : List Token} (h : ∀ t ∈ ws, isWs t = true) : ∀ c ∈ leaves ws, Part c := by
  intro c hc
  simp only [leaves, List.mem_map] at hc
  obtain ⟨t, ht, rfl⟩ := hc
  exact h t ht

theorem part_inner {n : Node} (h : Inner n) : Part n := by
  cases n with
  | tok t => exact h
  | node ty a cs => rcases h with rfl | rfl | rfl | rfl | rfl | rfl | rfl | rfl <;> simp [Part]

theorem part_filler {n : Node} (h : Filler n) : Part n := by
  cases n with
  | tok t => exact h
  | node ty a cs => cases (h : ty = .comment); simp [Part]

theorem part_mk {ty : NT} {cs : List Node} (h : ty ≠ .whitespace ∧ ty ≠ .body ∧ ty ≠ .flowControl) : Part (mk ty cs) := h

/-- A node with children in it. -/
def isHull (ty : NT) : Bool :=
  ty == .statement || ty == .atwordStatement || ty == .kwargGroup || ty == .parenGroup || ty == .argGroup || ty == .pargGroup

theorem part_kids {ctx : Ctx} {ty : NT} {a : Attr} {cs : List Node} (h : Quiet ctx (.node ty a cs)) (ht : isHull ty = true) :
    ∀ c ∈ cs, Part c := by
  have hn := (neat_node.1 h.neat).1
  have hq := quiet_child h
  simp only [isHull, Bool.or_eq_true, beq_iff_eq] at ht
  rcases ht with ((((rfl | rfl) | rfl) | rfl) | rfl) | rfl
  · obtain ⟨f, l, r, ws, ws1, sub, mid, trail, rfl, h1, h2, h3, h4, h5, _⟩ := hn
    have htr := quiet_trail h5 (fun c hc => hq c (by simp [hc]))
    subst htr
    intro c hc
    simp only [List.mem_append, List.mem_singleton, List.append_nil] at hc
    rcases hc with (((((rfl | hc) | rfl) | hc) | rfl) | hc) | rfl
    · exact part_mk (by simp)
    · exact part_leaves h1 c hc
    · exact part_mk (by simp)
    · exact part_leaves h2 c hc
    · exact part_inner (grp_inner h3)
    · exact part_filler (h4 c hc)
    · exact part_mk (by simp)
  · obtain ⟨t, trail, rfl, h5⟩ := hn
    have htr := quiet_trail h5 (fun c hc => hq c (by simp [hc]))
    subst htr
    intro c hc
    simp only [List.mem_singleton] at hc
    subst hc
    exact part_mk (by simp)
  · obtain ⟨t, ws, body, rfl, h1, h2⟩ := hn
    intro c hc
    simp only [List.mem_append, List.cons_append, List.mem_cons] at hc
    rcases hc with rfl | hc | hc
    · exact part_mk (by simp)
    · exact part_leaves h1 c hc
    · rcases h2 with rfl | ⟨sub, rfl, h2⟩
      · simp at hc
      · simp only [List.mem_singleton] at hc
        subst hc
        exact part_inner (grp_inner h2)
  · obtain ⟨l, r, sub, trail, rfl, h3, h5⟩ := hn
    have htr := quiet_trail h5 (fun c hc => hq c (by simp [hc]))
    subst htr
    intro c hc
    simp only [List.append_nil, List.mem_cons, List.not_mem_nil, or_false] at hc
    rcases hc with rfl | rfl | rfl
    · exact part_mk (by simp)
    · exact part_inner (grp_inner h3)
    · exact part_mk (by simp)
  · exact fun c hc => part_inner (hn c hc)
  · exact fun c hc => part_inner (hn c hc)

/-! ## Children in front of blanks -/

theorem bareL_blank {cs : List Node} (h : Parse.bareL cs = []) (hp : ∀ c ∈ cs, Part c) :
    ∃ ws, cs = leaves ws ∧ ∀ t ∈ ws, isWs t = true := by
  induction cs with
  | nil => exact ⟨[], rfl, by simp⟩
  | cons c cs ih =>
    have hc := hp c (by simp)
    cases c with
    | tok t =>
      have ht : isWs t = true := hc
      rw [bareL_ws _ _ ht] at h
      obtain ⟨ws, rfl, h2⟩ := ih h (fun x hx => hp x (by simp [hx]))
      refine ⟨t :: ws, rfl, ?_⟩
      intro u hu
      rcases List.mem_cons.1 hu with rfl | hu
      · exact ht
      · exact h2 u hu
    | node ty a ds =>
      rw [bareL_node _ _ _ _ hc.1] at h
      simp at h

theorem bareL_split {cs : List Node} {m : Node} {ms : List Node} (h : Parse.bareL cs = m :: ms) (hp : ∀ c ∈ cs, Part c) :
    ∃ ws y rest, cs = leaves ws ++ y :: rest ∧ (∀ t ∈ ws, isWs t = true) ∧ blankNode y = false ∧ Parse.bare y = m ∧ Parse.bareL rest = ms := by
  induction cs with
  | nil => simp at h
  | cons c cs ih =>
    have hc := hp c (by simp)
    cases c with
    | tok t =>
      have ht : isWs t = true := hc
      rw [bareL_ws _ _ ht] at h
      obtain ⟨ws, y, rest, rfl, h2, h3⟩ := ih h (fun x hx => hp x (by simp [hx]))
      refine ⟨t :: ws, y, rest, rfl, ?_, h3⟩
      intro u hu
      rcases List.mem_cons.1 hu with rfl | hu
      · exact ht
      · exact h2 u hu
    | node ty a ds =>
      rw [bareL_node _ _ _ _ hc.1] at h
      simp only [List.cons.injEq] at h
      exact ⟨[], _, cs, rfl, by simp, by simp [blankNode, hc.1], by simp [h.1], h.2⟩

/-- Words with the same letters are twins when one is written as the other. -/
def Leaves (cfg : Cfg) (P P' : Token → Prop) : Prop :=
  ∀ ty par t u, P t → isAnyComment t = false → P' u → isWs u = false → canon t = canon u → scalarText cfg ty par t = .ok u.spelling → WordTwin cfg ty par t u

theorem boxOf_node {ty : NT} {a : Attr} {cs : List Node} (h : ty ≠ .whitespace) :
    boxOf (.node ty a cs) = [.mk ty a cs (boxesOf cs)] := by
  simp [boxOf, h]

theorem headIsComment_quiet {ctx : Ctx} {ty : NT} {a : Attr} {cs : List Node} (h : Quiet ctx (.node ty a cs)) :
    headIsComment cs = false := by
  unfold headIsComment
  split
  · rename_i t rest
    have := (h.quiet t (by simp)).1
    simp only [isAnyComment, Bool.or_eq_false_iff] at this
    exact this.1
  · rfl

theorem canon_eq_of_bare {t u : Token} (h : Parse.bare (.tok t) = Parse.bare (.tok u)) : canon t = canon u := by
  simpa using h

/-- A keyword is no blank. -/
theorem kwarg_ws {t : Token} (h : normKwarg t ≠ none) : isWs t = false := by
  cases hw : isWs t with
  | false => rfl
  | true =>
    exfalso
    apply h
    simp only [isWs, Bool.or_eq_true, beq_iff_eq] at hw
    rcases hw with e | e <;> simp [normKwarg, e]

/-- The words of a list of tokens. -/
def inkT (ts : List Token) : List Str := (ts.filter fun t => !isWs t).map Token.spelling

/-- The written texts. -/
def texts (ps : List Piece) : List Str := ps.map Piece.text

theorem inkT_append (a b : List Token) : inkT (a ++ b) = inkT a ++ inkT b := by simp [inkT]
theorem texts_append (a b : List Piece) : texts (a ++ b) = texts a ++ texts b := by simp [texts]
theorem inkT_blank {ws : List Token} (h : ∀ t ∈ ws, isWs t = true) : inkT ws = [] := by
  simp only [inkT, List.map_eq_nil_iff, List.filter_eq_nil_iff]
  intro t ht
  simp [h t ht]

theorem inkGaps_texts (k : Nat) (ts : List Token) : (inkGaps k ts).map (fun x => x.2.2) = inkT ts := by
  induction ts generalizing k with
  | nil => rfl
  | cons t ts ih =>
    simp only [inkGaps, inkT, List.filter_cons]
    cases isWs t with
    | true => simpa [inkT] using ih _
    | false => simpa [inkT] using ih 0

theorem rowGaps_texts (r : Nat) (ps : List Piece) : (rowGaps r ps).map (fun x => x.2.2) = texts ps := by
  induction ps generalizing r with
  | nil => rfl
  | cons p ps ih => simp [rowGaps, texts, ih]

theorem rowGaps_append (r : Nat) (a b : List Piece) : rowGaps r (a ++ b) = rowGaps r a ++ rowGaps (endRow r a) b := by
  induction a generalizing r with
  | nil => rfl
  | cons p a ih => simp [rowGaps, endRow, ih]

section
variable {cfg : Cfg} {f : Option Token} {ctx : Ctx} {P P' : Token → Prop} (H : Leaves cfg P P')
include H

theorem scalar_twin {ty : NT} {a : Attr} {t u : Token} (hty : isScalar ty = true)
    (hq : Quiet ctx (.node ty a [.tok t])) (hq' : Quiet ctx (.node ty a [.tok u])) (hc : canon t = canon u)
    (hP : P t) (hP' : P' u) (hu : isWs u = false)
    {c : Cur} {l : Laid} {o : Cur} {par : Option Str} {ps : List Piece} {Q R : List Str}
    (hpl : Placed cfg (.mk ty a [.tok t] []) c l o) (hps : pieces cfg par l = .ok ps)
    (hg : u.spelling :: R = texts ps ++ Q) :
    Twin cfg f par (.mk ty a [.tok t] []) (.mk ty a [.tok u] []) ∧ R = Q := by
  have h1 := headIsComment_quiet hq
  have h2 := headIsComment_quiet hq'
  cases l with
  | mk ty' a' pk' info lines kids' =>
    simp only [Placed] at hpl
    obtain ⟨rfl, rfl, rfl, rfl, _, hpl⟩ := hpl
    have key : ∀ text, scalarText cfg ty' par t = .ok text → ∀ kd, ps = [⟨kd, info.pos, text⟩] →
        WordTwin cfg ty' par t u ∧ R = Q := by
      rintro text hs kd rfl
      simp only [texts, List.map_cons, List.map_nil, List.cons_append, List.nil_append, List.cons.injEq] at hg
      exact ⟨H _ _ _ _ hP (hq.quiet t (by simp [toks_node, toksL])).1 hP' hu hc (by rw [hs, hg.1]), hg.2⟩
    cases ty' <;> first
      | (simp [isScalar] at hty; done)
      | (obtain ⟨_, _, _, _, _, _, hk⟩ := hpl
         simp only [PlacedL] at hk
         obtain ⟨rfl, _⟩ := hk
         simp only [pieces, bind_ok, headTok, Except.ok.injEq, piecesL] at hps
         obtain ⟨_, rfl, text, hs, _, _, qs, rfl, rfl⟩ := hps
         obtain ⟨w, hr⟩ := key text hs _ rfl
         refine ⟨?_, hr⟩
         simp only [Twin, implies_true, true_and]
         exact ⟨h1, h2, t, u, rfl, rfl, w⟩)

mutual
/-- A node in a statement, or a statement. -/
theorem stmt_node : ∀ (n n' : Node), Parse.bare n = Parse.bare n' → Quiet ctx n → Quiet ctx n' → Part n → blankNode n = false →
    (∀ t ∈ n.toks, P t) → (∀ t ∈ n'.toks, P' t) →
    ∀ ⦃b : Box⦄ ⦃c : Cur⦄ ⦃l : Laid⦄ ⦃o : Cur⦄ ⦃par : Option Str⦄ ⦃ps : List Piece⦄ ⦃Q R : List Str⦄,
    boxOf n = [b] → Placed cfg b c l o → pieces cfg par l = .ok ps → inkT n'.toks ++ R = texts ps ++ Q →
    ∃ b', boxOf n' = [b'] ∧ Twin cfg f par b b' ∧ R = Q
  | .tok t, _, _, _, _, hp, hb, _, _ => by
    intros
    have hp : isWs t = true := hp
    simp [blankNode, hp] at hb
  | .node ty a cs, .tok u, hbare, _, _, _, _, _, _ => by simp at hbare
  | .node ty a cs, .node ty' a' cs', hbare, hq, hq', hp, hb, hP, hP' => by
    intro b c l o par ps Q R hbox hpl hps hg
    simp only [bare_node, Node.node.injEq] at hbare
    obtain ⟨rfl, rfl, hbare⟩ := hbare
    obtain ⟨n1, n2, n3⟩ := hp
    rw [boxOf_node n1] at hbox ⊢
    simp only [List.cons.injEq, and_true] at hbox
    subst hbox
    refine ⟨_, rfl, ?_⟩
    simp only [toks_node] at hg ⊢
    have hh := (neat_node.1 hq.neat).1
    have hh' := (neat_node.1 hq'.neat).1
    have hc1 := headIsComment_quiet hq
    have hc2 := headIsComment_quiet hq'
    have scal : ∀ t u, isScalar ty = true → cs = [.tok t] → cs' = [.tok u] → isWs t = false →
        Twin cfg f par (.mk ty a cs (boxesOf cs)) (.mk ty a cs' (boxesOf cs')) ∧
          R = Q := by
      rintro t u hs rfl rfl hwt
      have hwu : isWs u = false := by
        cases hw : isWs u with
        | false => rfl
        | true => rw [bareL_ink _ _ hwt, bareL_ws _ _ hw] at hbare; simp at hbare
      have hcan : canon t = canon u := by
        rw [bareL_ink _ _ hwt, bareL_ink _ _ hwu] at hbare
        simpa using hbare
      have := scalar_twin (f := f) H hs hq hq' hcan (hP t (by simp)) (hP' u (by simp)) hwu hpl hps (by simpa [inkT, hwu] using hg)
      simpa [boxesOf, boxOf] using this
    have paren : ∀ t u, (ty = .lparen ∨ ty = .rparen) → cs = [.tok t] → cs' = [.tok u] → isWs u = false →
        Twin cfg f par (.mk ty a cs (boxesOf cs)) (.mk ty a cs' (boxesOf cs')) ∧
          R = Q := by
      rintro t u hty rfl rfl hwu
      cases l with
      | mk ty' a' pk' info lines kids' =>
        simp only [Placed] at hpl
        obtain ⟨rfl, rfl, rfl, rfl, _, hpl⟩ := hpl
        have hpc : ∃ p, ps = [p] := by
          rcases hty with rfl | rfl <;> (simp only [pieces, Except.ok.injEq] at hps; exact ⟨_, hps.symm⟩)
        obtain ⟨p, rfl⟩ := hpc
        simp [inkT, hwu, texts] at hg
        refine ⟨?_, hg.2⟩
        rcases hty with rfl | rfl <;> (simp only [Twin, implies_true, true_and, and_true]; exact ⟨hc1, hc2⟩)
    have hull : isHull ty = true → ∀ {S kids'} {c : Cur} (par' : Option Str),
        PlacedL cfg S none c (boxesOf cs) kids' o → piecesL cfg par' kids' = .ok ps →
        TwinL cfg f par' (boxesOf cs) (boxesOf cs') ∧ R = Q := by
      intro hty S kids' c par' hpk hpp
      exact stmt_list cs cs' hbare (quiet_child hq) (quiet_child hq') (part_kids hq hty) (part_kids hq' hty)
        (fun t ht => hP t (by simpa using ht)) (fun t ht => hP' t (by simpa using ht)) hpk hpp hg
    have first : ∀ {par'}, (∃ t u as bs, boxesOf cs = .mk (if ty = .statement then .funname else .keyword) {} [.tok t] [] :: as ∧
        boxesOf cs' = .mk (if ty = .statement then .funname else .keyword) {} [.tok u] [] :: bs) →
        TwinL cfg f par' (boxesOf cs) (boxesOf cs') → lower (firstName (boxesOf cs')) = lower (firstName (boxesOf cs)) := by
      rintro par' ⟨t, u, as, bs, e1, e2⟩ htw
      rw [e1, e2] at htw ⊢
      simp only [TwinL] at htw
      have htw := htw.1
      split at htw <;>
      · simp only [Twin, headTok, Except.ok.injEq] at htw
        obtain ⟨_, _, _, _, _, _, _, _, rfl, rfl, w⟩ := htw
        exact w.name
    have mkbox : ∀ (ty : NT) (t : Token), ty ≠ .whitespace → boxOf (mk ty [.tok t]) = [.mk ty {} [.tok t] []] := by
      intro ty t h
      rw [mk, boxOf_node h]; simp [boxesOf, boxOf]
    cases l with
    | mk ty' a' pk' info lines kids' =>
    have hpl' := hpl
    have hps' := hps
    simp only [Placed] at hpl
    obtain ⟨rfl, rfl, rfl, rfl, _, hpl⟩ := hpl
    cases ty' with
    | whitespace => exact absurd rfl n1
    | body => exact absurd rfl n2
    | flowControl => exact absurd rfl n3
    | comment => exact (quiet_nocomment hq).elim
    | onoff => exact (quiet_noonoff hq).elim
    | flagGroup => exact hh.elim
    | funname =>
      obtain ⟨t, rfl, h1⟩ := hh
      obtain ⟨u, rfl, h2⟩ := hh'
      exact scal t u rfl rfl rfl (by simp [isWs, h1])
    | atword =>
      obtain ⟨t, rfl, h1⟩ := hh
      obtain ⟨u, rfl, h2⟩ := hh'
      exact scal t u rfl rfl rfl (by simp [isWs, h1])
    | lparen =>
      obtain ⟨t, rfl, h1⟩ := hh
      obtain ⟨u, rfl, h2⟩ := hh'
      exact paren t u (Or.inl rfl) rfl rfl (by simp [isWs, h2])
    | rparen =>
      obtain ⟨t, rfl, h1⟩ := hh
      obtain ⟨u, rfl, h2⟩ := hh'
      exact paren t u (Or.inr rfl) rfl rfl (by simp [isWs, h2])
    | keyword =>
      obtain ⟨t, rfl, h1⟩ := hh
      obtain ⟨u, rfl, h2⟩ := hh'
      exact scal t u rfl rfl rfl (kwarg_ws h1)
    | argument =>
      obtain ⟨t, tr, rfl, h1, h3⟩ := hh
      obtain ⟨u, tr', rfl, h2, h4⟩ := hh'
      have e1 := quiet_trail h3 (fun c hc => quiet_child hq c (by simp [hc]))
      have e2 := quiet_trail h4 (fun c hc => quiet_child hq' c (by simp [hc]))
      subst e1 e2
      exact scal t u rfl rfl rfl h1.1
    | flag =>
      obtain ⟨t, tr, rfl, h1, h3⟩ := hh
      obtain ⟨u, tr', rfl, h2, h4⟩ := hh'
      have e1 := quiet_trail h3 (fun c hc => quiet_child hq c (by simp [hc]))
      have e2 := quiet_trail h4 (fun c hc => quiet_child hq' c (by simp [hc]))
      subst e1 e2
      exact scal t u rfl rfl rfl h1.1
    | statement =>
      simp only [pieces] at hps
      obtain ⟨h1, h2⟩ := hull rfl _ hpl.2 hps
      refine ⟨?_, h2⟩
      simp only [Twin, implies_true, true_and]
      refine ⟨hc1, hc2, first ?_ h1, h1⟩
      obtain ⟨f, l, r, ws, ws1, sub, mid, trail, e1, _⟩ := hh
      obtain ⟨f', l', r', ws', ws1', sub', mid', trail', e2, _⟩ := hh'
      obtain ⟨X, e1⟩ : ∃ X, pk' = mk .funname [.tok f] :: X := ⟨_, e1⟩
      obtain ⟨Y, e2⟩ : ∃ X, cs' = mk .funname [.tok f'] :: X := ⟨_, e2⟩
      exact ⟨f, f', boxesOf X, boxesOf Y, by rw [e1, boxesOf, mkbox _ _ (by simp)]; rfl,
        by rw [e2, boxesOf, mkbox _ _ (by simp)]; rfl⟩
    | kwargGroup =>
      simp only [pieces] at hps
      obtain ⟨h1, h2⟩ := hull rfl _ hpl.2 hps
      refine ⟨?_, h2⟩
      simp only [Twin, implies_true, true_and]
      refine ⟨hc1, hc2, first ?_ h1, h1⟩
      obtain ⟨f, ws, body, e1, _⟩ := hh
      obtain ⟨f', ws', body', e2, _⟩ := hh'
      obtain ⟨X, e1⟩ : ∃ X, pk' = mk .keyword [.tok f] :: X := ⟨_, e1⟩
      obtain ⟨Y, e2⟩ : ∃ X, cs' = mk .keyword [.tok f'] :: X := ⟨_, e2⟩
      exact ⟨f, f', boxesOf X, boxesOf Y, by rw [e1, boxesOf, mkbox _ _ (by simp)]; rfl,
        by rw [e2, boxesOf, mkbox _ _ (by simp)]; rfl⟩
    | atwordStatement =>
      simp only [pieces] at hps
      obtain ⟨h1, h2⟩ := hull rfl _ hpl.2 hps
      refine ⟨?_, h2⟩
      simp only [Twin, implies_true, true_and]
      exact ⟨hc1, hc2, h1⟩
    | argGroup =>
      simp only [pieces] at hps
      obtain ⟨h1, h2⟩ := hull rfl _ hpl.2 hps
      refine ⟨?_, h2⟩
      simp only [Twin, implies_true, true_and]
      exact ⟨hc1, hc2, h1⟩
    | parenGroup =>
      simp only [pieces] at hps
      obtain ⟨h1, h2⟩ := hull rfl _ hpl.2 hps
      refine ⟨?_, h2⟩
      simp only [Twin, implies_true, true_and]
      exact ⟨hc1, hc2, h1⟩
    | pargGroup =>
      simp only [pieces] at hps
      obtain ⟨h1, h2⟩ := hull rfl _ hpl.2 hps
      refine ⟨?_, h2⟩
      simp only [Twin, implies_true, true_and]
      exact ⟨hc1, hc2, h1⟩
/-- The children. -/
theorem stmt_list : ∀ (cs cs' : List Node), Parse.bareL cs = Parse.bareL cs' → (∀ c ∈ cs, Quiet ctx c) → (∀ c ∈ cs', Quiet ctx c) →
    (∀ c ∈ cs, Part c) → (∀ c ∈ cs', Part c) → (∀ t ∈ toksL cs, P t) → (∀ t ∈ toksL cs', P' t) →
    ∀ ⦃S : Option Box → Cur → Box → Cur → Prop⦄ ⦃prev : Option Box⦄ ⦃c : Cur⦄ ⦃ls : List Laid⦄ ⦃o : Cur⦄ ⦃par : Option Str⦄
      ⦃ps : List Piece⦄ ⦃Q R : List Str⦄,
    PlacedL cfg S prev c (boxesOf cs) ls o → piecesL cfg par ls = .ok ps →
    inkT (toksL cs') ++ R = texts ps ++ Q →
    TwinL cfg f par (boxesOf cs) (boxesOf cs') ∧ R = Q
  | [], cs', hbare, _, _, _, hp', _, _ => by
    intro S prev c ls o par ps Q R hpl hps hg
    rw [bareL_nil] at hbare
    obtain ⟨ws, rfl, hws⟩ := bareL_blank hbare.symm hp'
    simp only [boxesOf, PlacedL] at hpl
    obtain ⟨rfl, _⟩ := hpl
    simp only [piecesL, Except.ok.injEq] at hps
    subst hps
    rw [boxesOf_leaves]
    rw [toksL_leaves, inkT_blank hws] at hg
    exact ⟨by simp [TwinL, boxesOf], hg⟩
  | .tok t :: cs, cs', hbare, hq, hq', hp, hp', hP, hP' => by
    intro S prev c ls o par ps Q R hpl hps hg
    have ht : isWs t = true := hp (.tok t) (by simp)
    rw [bareL_ws _ _ ht] at hbare
    exact stmt_list cs cs' hbare (fun x hx => hq x (by simp [hx])) hq' (fun x hx => hp x (by simp [hx])) hp'
      (fun u hu => hP u (by simp [hu])) hP' hpl hps hg
  | .node ty a ds :: cs, cs', hbare, hq, hq', hp, hp', hP, hP' => by
    intro S prev c ls o par ps Q R hpl hps hg
    have hn := hp (.node ty a ds) (by simp)
    rw [bareL_node _ _ _ _ hn.1] at hbare
    obtain ⟨ws, y, rest, rfl, hws, hy, hby, hrest⟩ := bareL_split hbare.symm hp'
    have hbox : boxOf (.node ty a ds) = [.mk ty a ds (boxesOf ds)] := boxOf_node hn.1
    rw [boxesOf, hbox] at hpl ⊢
    simp only [List.cons_append, List.nil_append] at hpl ⊢
    match ls, hpl, hps with
    | [], hpl, _ => simp [PlacedL] at hpl
    | l :: ls, hpl, hps =>
      rw [PlacedL] at hpl
      obtain ⟨c1, o1, _, h1, h2⟩ := hpl
      simp only [piecesL, bind_ok, Except.ok.injEq] at hps
      obtain ⟨pa, hpa, pb, hpb, rfl⟩ := hps
      rw [toksL_append, toksL_leaves, toksL_cons, inkT_append, inkT_append, inkT_blank hws, texts_append,
        List.nil_append, List.append_assoc, List.append_assoc] at hg
      obtain ⟨b', hb', htw, hg2⟩ := stmt_node (.node ty a ds) y (by rw [hby]; simp) (hq _ (by simp)) (hq' y (by simp)) hn
        (by simp [blankNode, hn.1]) (fun t ht => hP t (by rw [toksL_cons]; exact List.mem_append_left _ ht))
        (fun t ht => hP' t (by simp [ht])) hbox h1 hpa hg
      obtain ⟨htl, hg3⟩ := stmt_list cs rest hrest.symm (fun x hx => hq x (by simp [hx])) (fun x hx => hq' x (by simp [hx]))
        (fun x hx => hp x (by simp [hx])) (fun x hx => hp' x (by simp [hx])) (fun t ht => hP t (by simp [ht]))
        (fun t ht => hP' t (by simp [ht])) h2 hpb hg2
      rw [boxesOf_append, boxesOf_leaves, boxesOf, hb']
      simp only [List.nil_append, List.cons_append, TwinL]
      exact ⟨⟨htw, htl⟩, hg3⟩
end

end
/-! ## Statements and what contains them -/

/-- A neat tree whose comments stand between the commands, without switches. -/
structure Calm (ctx : Ctx) (n : Node) : Prop where
  neat : Neat ctx n
  switch : ∀ t ∈ n.toks, isOnOff t = false
  between : Between n

theorem calm_child {ctx : Ctx} {ty : NT} {a : Attr} {cs : List Node} (hty : ty = .body ∨ ty = .flowControl)
    (h : Calm ctx (.node ty a cs)) : ∀ c ∈ cs, Calm ctx c := fun c hc =>
  ⟨(neat_node.1 h.neat).2 c hc, fun t ht => h.switch t (by simp only [toks_node]; exact mem_toksL.2 ⟨c, hc, ht⟩), by
    have := h.between
    rcases hty with rfl | rfl <;> (simp only [Between] at this; exact betweenL_mem.1 this c hc)⟩

theorem calm_quiet {ctx : Ctx} {ty : NT} {a : Attr} {cs : List Node} (hty : ty = .statement ∨ ty = .atwordStatement)
    (h : Calm ctx (.node ty a cs)) : Quiet ctx (.node ty a cs) :=
  ⟨h.neat, fun t ht => ⟨by
    have := h.between
    rcases hty with rfl | rfl <;> (simp only [Between] at this; exact this t ht), h.switch t ht⟩⟩

theorem calm_noonoff {ctx : Ctx} {a : Attr} {cs : List Node} (h : Calm ctx (.node .onoff a cs)) : False := by
  obtain ⟨t, rfl, ht⟩ := (neat_node.1 h.neat).1
  have := h.switch t (by simp)
  rw [ht] at this; simp at this

theorem headIsComment_block {cs : List Node} (h : ∀ c ∈ cs, ∀ t, c ≠ .tok t) : headIsComment cs = false := by
  unfold headIsComment
  split
  · rename_i t rest
    exact absurd rfl (h (.tok t) (by simp) t)
  · rfl

/-- The first token is no blank, and after the last one there is none. -/
def Inked (ts : List Token) : Prop := (∃ t rest, ts = t :: rest ∧ isWs t = false) ∧ ∀ k, left k ts = 0

theorem inked_append {a b : List Token} (ha : ∃ t rest, a = t :: rest ∧ isWs t = false) (hb : ∀ k, left k b = 0) :
    Inked (a ++ b) := by
  obtain ⟨t, rest, rfl, h⟩ := ha
  exact ⟨⟨t, rest ++ b, rfl, h⟩, fun k => by rw [left_append]; exact hb _⟩

mutual
/-- The tokens a node was read from: those of the node, except that the blanks in a statement
may be elsewhere in it. -/
def Seg : Node → List Token → Prop
  | .tok t, X => X = [t]
  | .node ty _ cs, X =>
    match ty with
    | .body | .flowControl => SegL cs X
    | .statement | .atwordStatement => Inked X ∧ inkT X = inkT (toksL cs)
    | _ => X = toksL cs
/-- One after the other. -/
def SegL : List Node → List Token → Prop
  | [], X => X = []
  | n :: ns, X => ∃ a b, X = a ++ b ∧ Seg n a ∧ SegL ns b
end

theorem segL_append {a b : List Node} {X : List Token} (h : SegL (a ++ b) X) : ∃ x y, X = x ++ y ∧ SegL a x ∧ SegL b y := by
  induction a generalizing X with
  | nil => exact ⟨[], X, rfl, rfl, h⟩
  | cons n a ih =>
    simp only [List.cons_append, SegL] at h
    obtain ⟨u, v, rfl, h1, h2⟩ := h
    obtain ⟨x, y, rfl, h3, h4⟩ := ih h2
    exact ⟨u ++ x, y, by simp, by simp only [SegL]; exact ⟨u, x, rfl, h1, h3⟩, h4⟩

/-- Blanks at the start of a body. -/
def Lead (cs : List Node) : Prop := cs = [] ∨ ∃ a t ts, cs = [.node .whitespace a (leaves (t :: ts))] ∧ ∀ u ∈ t :: ts, isWs u = true

theorem lead_seg {cs : List Node} {X : List Token} (h : Lead cs) (hs : SegL cs X) : X = toksL cs := by
  rcases h with rfl | ⟨a, t, ts, rfl, _⟩
  · exact hs
  · simp only [SegL, Seg] at hs
    obtain ⟨x, y, rfl, rfl, rfl⟩ := hs
    simp

theorem block_ws {ctx : Ctx} {a : Attr} {ds : List Node} (h : Calm ctx (.node .whitespace a ds)) :
    Lead [.node .whitespace a ds] := by
  obtain ⟨t, ts, rfl, hw⟩ := (neat_node.1 h.neat).1
  exact Or.inr ⟨a, t, ts, rfl, hw⟩

theorem apart_tail {c : Node} {cs : List Node} (h : apart (c :: cs) = true) : apart cs = true := by
  cases cs with
  | nil => rfl
  | cons d ds => simp only [apart, Bool.and_eq_true] at h; exact h.2

/-- A body starts with a blank, if at all, and goes on with a block. -/
theorem split_lead {ctx : Ctx} {cs : List Node} (hq : ∀ c ∈ cs, Calm ctx c) (hb : ∀ c ∈ cs, Block c) (ha : apart cs = true) :
    ∃ lead tail, cs = lead ++ tail ∧ Lead lead ∧ (∀ c ∈ lead, blankNode c = true) ∧ apart tail = true ∧
      (tail = [] ∨ ∃ x rest, tail = x :: rest ∧ blankNode x = false) := by
  cases cs with
  | nil => exact ⟨[], [], rfl, Or.inl rfl, by simp, rfl, Or.inl rfl⟩
  | cons c cs =>
    cases hc : blankNode c with
    | false => exact ⟨[], c :: cs, rfl, Or.inl rfl, by simp, ha, Or.inr ⟨c, cs, rfl, hc⟩⟩
    | true =>
      have hblk := hb c (by simp)
      cases c with
      | tok t => exact hblk.elim
      | node ty a ds =>
        simp only [blankNode, beq_iff_eq] at hc
        subst hc
        refine ⟨[.node .whitespace a ds], cs, rfl, block_ws (hq _ (by simp)), by simp [blankNode], apart_tail ha, ?_⟩
        cases cs with
        | nil => exact Or.inl rfl
        | cons d rest =>
          refine Or.inr ⟨d, rest, rfl, ?_⟩
          simp only [apart, Bool.and_eq_true, Bool.not_eq_true', Bool.and_eq_false_iff] at ha
          have hd := hb d (by simp)
          cases d with
          | tok t => exact hd.elim
          | node ty' a' ds' =>
            have := ha.1
            simp only [isBlankNode] at this
            cases ty' <;> simp_all [blankNode, isBlankNode]

/-- A blank line or none. -/
def Gap (e : List Box) : Prop := e = [] ∨ ∃ a pk ks, e = [.mk .whitespace a pk ks] ∧ headIsComment pk = false

theorem lead_gap {cs : List Node} (h : Lead cs) : Gap (boxesOf cs) ∧ (boxesOf cs = [] ↔ left 0 (toksL cs) < 2) ∧
    ∀ k R, inkGaps k (toksL cs ++ R) = inkGaps (left k (toksL cs)) R ∧ left k (toksL cs) = k + left 0 (toksL cs) := by
  rcases h with rfl | ⟨a, t, ts, rfl, hw⟩
  · exact ⟨Or.inl rfl, by simp [boxesOf, left], by simp [left]⟩
  · have e : toksL [Node.node .whitespace a (leaves (t :: ts))] = t :: ts := by simp
    rw [e]
    have hn := newlines_leaves (t :: ts) 0 hw
    refine ⟨?_, ?_, fun k R => ⟨inkGaps_blank hw k R, ?_⟩⟩
    · simp only [boxesOf, boxOf, List.append_nil]
      split
      · exact Or.inl rfl
      · refine Or.inr ⟨_, _, _, rfl, ?_⟩
        have := hw t (by simp)
        simp only [leaves, List.map_cons, headIsComment]
        cases ht : t.type <;> simp [isWs, ht] at this <;> rfl
    · simp only [boxesOf, boxOf, List.append_nil, true_and]
      rw [hn, Nat.zero_add]
      constructor
      · intro h
        by_cases hlt : newlinesL (leaves (t :: ts)) < 2
        · exact hlt
        · rw [if_neg hlt] at h; simp at h
      · intro h; rw [if_pos h]
    · rw [hn, newlines_leaves (t :: ts) k hw]; omega

/-- The column of the first token. -/
def headCol : List Token → Nat
  | [] => 0
  | t :: _ => t.begin_.col

/-- A comment `c` and the tokens `d` that were read from what was written for it. -/
structure NoteRel (cfg : Cfg) (f : Option Token) (c d : List Token) : Prop where
  head : ∃ u rest, d = u :: rest ∧ isAnyComment u = true
  last : ∀ j, left j d = 0
  kind : (bracketOf (leaves d)).map (fun t => Text.normalizeLineEndings t.spelling) =
    (bracketOf (leaves c)).map fun t => Text.normalizeLineEndings t.spelling
  texts : match bracketOf (leaves c) with
    | some t => inkT d = [Text.normalizeLineEndings t.spelling]
    | none => Markup.formatComment cfg.markup false (isFirstToken cfg (leaves c)) (headSpelling (leaves c))
      (cfg.linewidth - headCol d) ((c.filter isComment).map (·.spelling)) = .ok (inkT d)
  run : ∀ wrap p o, reflowComment cfg wrap {} (leaves c) p = .ok o → reflowComment (cfg.at f) wrap {} (leaves d) p = .ok o

section
variable {cfg : Cfg} {f : Option Token} {ctx : Ctx} {P P' : Token → Prop}

/-- A block and what was written for it. -/
def BlockTwin (cfg : Cfg) (f : Option Token) (ctx : Ctx) (P P' : Token → Prop) (n : Node) : Prop :=
  ∀ n', Kin (NoteRel cfg f) n n' → Calm ctx n → Calm ctx n' → spread n = true → spread n' = true →
    (∀ t ∈ n.toks, P t) → (∀ t ∈ n'.toks, P' t) →
    ∀ ⦃b : Box⦄ ⦃c : Cur⦄ ⦃l : Laid⦄ ⦃o : Cur⦄ ⦃ps Q : List Piece⦄ ⦃k r : Nat⦄ ⦃X R : List Token⦄,
    Seg n' X → boxOf n = [b] → tidy b = true → framed b = true → Sourced ctx none b → Placed cfg b c l o →
    pieces cfg none l = .ok ps → inkGaps k (X ++ R) = rowGaps r (ps ++ Q) →
    ∃ b', boxOf n' = [b'] ∧ (Twin cfg f none b b' ∨ NoteTwin cfg f b b') ∧ k = c.row - r ∧ (∀ j, left j X = 0) ∧ endRow r ps = o.row ∧
      inkGaps 0 R = rowGaps o.row Q

/-- The first gap. -/
theorem first_gap {ts R : List Token} {ps Q : List Piece} {k r : Nat} {p : Piece} (hi : Inked ts) (hp : ps.head? = some p)
    (hg : inkGaps k (ts ++ R) = rowGaps r (ps ++ Q)) : k = p.pos.row - r := by
  obtain ⟨⟨t, rest, rfl, ht⟩, _⟩ := hi
  cases ps with
  | nil => simp at hp
  | cons q ps =>
    simp only [List.head?_cons, Option.some.injEq] at hp
    subst hp
    simp only [List.cons_append, rowGaps] at hg
    rw [inkGaps_ink ht] at hg
    simp only [List.cons.injEq, Prod.mk.injEq] at hg
    exact hg.1.1

theorem unit_twin (H : Leaves cfg P P') (hcfg : Markup.CleanCfg cfg.markup) {ty : NT} {a : Attr} {cs : List Node}
    (hty : ty = .statement ∨ ty = .atwordStatement) : BlockTwin cfg f ctx P P' (.node ty a cs) := by
  intro n' hkin hq hq' _ _ hP hP' b c l o ps Q k r X R hseg hbox ht hf hs hpl hps hg
  have hbare : Parse.bare (.node ty a cs) = Parse.bare n' := by
    rcases hty with rfl | rfl <;> simpa only [Kin] using hkin
  have hq := calm_quiet hty hq
  have hq' : Quiet ctx n' := by
    cases n' with
    | tok t => simp at hbare
    | node ty' a' cs' =>
      simp only [bare_node, Node.node.injEq] at hbare
      rw [← hbare.1] at hq' ⊢
      exact calm_quiet hty hq'
  have hpart : Part (.node ty a cs) := by rcases hty with rfl | rfl <;> simp [Part]
  have hi : Inked X ∧ inkT X = inkT n'.toks := by
    cases n' with
    | tok t => simp at hbare
    | node ty' a' cs' =>
      simp only [bare_node, Node.node.injEq] at hbare
      rw [← hbare.1] at hseg
      rcases hty with rfl | rfl <;> simpa only [Seg, toks_node] using hseg
  have htexts : inkT n'.toks ++ inkT R = texts ps ++ texts Q := by
    have := congrArg (List.map fun x => x.2.2) hg
    rwa [inkGaps_texts, rowGaps_texts, inkT_append, texts_append, hi.2] at this
  obtain ⟨b', hb', htw, hg2⟩ := stmt_node H (.node ty a cs) n' hbare hq hq' hpart
    (by rcases hty with rfl | rfl <;> rfl) hP hP' hbox hpl hps htexts
  have hlen : (inkGaps k X).length = (rowGaps r ps).length := by
    rw [hg2, List.append_cancel_right_eq] at htexts
    rw [← List.length_map (f := fun x : Nat × Nat × Str => x.2.2), inkGaps_texts, hi.2, htexts, ← rowGaps_texts r ps, List.length_map]
  have hbt : isUnit b.ty = true := by
    rw [boxOf_node hpart.1] at hbox
    simp only [List.cons.injEq, and_true] at hbox
    rw [← hbox]
    rcases hty with rfl | rfl <;> rfl
  obtain ⟨⟨p, h1, h2⟩, q, h3, h4⟩ := unit_spans hcfg hbt ht hf hs hpl hps
  have he : endRow r ps = o.row := by rw [endRow_last h3, h4]
  refine ⟨b', hb', Or.inl htw, ?_, hi.1.2, he, ?_⟩
  · have := first_gap hi.1 h1 hg
    rw [h2] at this
    exact this
  · rw [inkGaps_append, rowGaps_append, hi.1.2, he] at hg
    exact (List.append_inj hg hlen).2

theorem linePieces_texts (c : Cur) (ls : List Str) : texts (linePieces c ls) = ls := by
  induction ls generalizing c with
  | nil => rfl
  | cons l ls ih => simp only [linePieces, texts, List.map_cons, List.cons.injEq, true_and]; exact ih _

@[simp] theorem commentToks_leaves (c : List Token) : commentToks (leaves c) = .ok c := by
  induction c with
  | nil => rfl
  | cons t c ih => simp only [leaves, List.map_cons, commentToks] at ih ⊢; rw [ih]

/-- A comment. -/
theorem note_unit (hcfg : Markup.CleanCfg cfg.markup) {a : Attr} {cs : List Node} :
    BlockTwin cfg f ctx P P' (.node .comment a cs) := by
  intro n' hkin hq hq' _ _ hP hP' b c l o ps Q k r X R hseg hbox ht hf hs hpl hps hg
  simp only [Kin] at hkin
  obtain ⟨c0, d, e1, rfl, hR⟩ := hkin
  simp only [mk, Node.node.injEq, true_and] at e1
  obtain ⟨rfl, rfl⟩ := e1
  simp only [mk, Seg, toksL_leaves] at hseg
  subst hseg
  rw [boxOf_node (by simp)] at hbox
  simp only [List.cons.injEq, and_true] at hbox
  subst hbox
  obtain ⟨u, rest, rfl, hu⟩ := hR.head
  have hin : Inked (u :: rest) := ⟨⟨u, rest, rfl, (not_ws_sem hu).1⟩, hR.last⟩
  obtain ⟨⟨p, h1, h2⟩, q, h3, h4⟩ := unit_spans hcfg rfl ht hf hs hpl hps
  have he : endRow r ps = o.row := by rw [endRow_last h3, h4]
  have hk := first_gap hin h1 hg
  rw [h2] at hk
  have hcol : (if p.kind.isProgram then 0 else p.pos.col) = u.begin_.col := by
    cases ps with
    | nil => simp at h1
    | cons p' ps =>
      simp only [List.head?_cons, Option.some.injEq] at h1
      subst h1
      rw [List.cons_append, inkGaps_ink (not_ws_sem hu).1, List.cons_append, rowGaps] at hg
      simp only [List.cons.injEq, Prod.mk.injEq, hu, if_true] at hg
      exact hg.1.2.1.symm
  have htx : texts ps = inkT (u :: rest) := by
    cases l with
    | mk ty' a' pk' info lines kids' =>
      simp only [Placed] at hpl
      obtain ⟨rfl, rfl, rfl, rfl, _, -, hpl⟩ := hpl
      have hR := hR.texts
      cases hb : bracketOf (leaves c0) with
      | some t =>
        rw [hb] at hR
        simp only [pieces, hb, Except.ok.injEq] at hps
        subst hps
        simp only at hR
        rw [hR]; rfl
      | none =>
        rw [hb] at hR
        simp only [pieces, hb, Except.ok.injEq] at hps
        simp only [hb, commentToks_leaves] at hpl
        obtain ⟨ts, last, e, h5, -⟩ := hpl
        simp only [Except.ok.injEq] at e
        subst e
        subst hps
        have : p.kind.isProgram = false := by
          cases lines with
          | nil => simp [linePieces] at h1
          | cons l ls =>
            simp only [linePieces, List.head?_cons, Option.some.injEq] at h1
            subst h1; rfl
        rw [this, h2] at hcol
        simp only [Bool.false_eq_true, if_false] at hcol
        simp only [headCol, ← hcol] at hR
        have h6 : ((({} : Attr).trailing == Trailing.explicit) = false) := rfl
        rw [h6, hR] at h5
        simp only [Except.ok.injEq] at h5
        rw [linePieces_texts, h5]
  have hlen : (inkGaps k (u :: rest)).length = (rowGaps r ps).length := by
    rw [← List.length_map (f := fun x : Nat × Nat × Str => x.2.2), inkGaps_texts, ← htx, ← rowGaps_texts r ps, List.length_map]
  refine ⟨_, boxOf_node (by simp), Or.inr ⟨rfl, rfl, rfl, hR.kind, hR.run⟩, hk, hR.last, he, ?_⟩
  rw [inkGaps_append, rowGaps_append, hR.last, he] at hg
  exact (List.append_inj hg hlen).2

theorem twinB_append : ∀ {as bs as' bs' : List Box}, TwinB cfg f as as' → TwinB cfg f bs bs' →
    TwinB cfg f (as ++ bs) (as' ++ bs')
  | [], bs, as', bs', h1, h2 => by simp only [TwinB] at h1; subst h1; exact h2
  | a :: as, bs, [], bs', h1, h2 => by simp [TwinB] at h1
  | a :: as, bs, a' :: as', bs', h1, h2 => by
    simp only [List.cons_append, TwinB] at h1 ⊢
    exact ⟨h1.1, twinB_append h1.2 h2⟩

theorem twinL_append {par : Option Str} : ∀ {as bs as' bs' : List Box}, TwinL cfg f par as as' → TwinL cfg f par bs bs' →
    TwinL cfg f par (as ++ bs) (as' ++ bs')
  | [], bs, as', bs', h1, h2 => by simp only [TwinL] at h1; subst h1; exact h2
  | a :: as, bs, [], bs', h1, h2 => by simp [TwinL] at h1
  | a :: as, bs, a' :: as', bs', h1, h2 => by
    simp only [List.cons_append, TwinL] at h1 ⊢
    exact ⟨h1.1, twinL_append h1.2 h2⟩

theorem gap_twin {e e' : List Box} (h : Gap e) (h' : Gap e') (hiff : e = [] ↔ e' = []) : TwinB cfg f e e' := by
  rcases h with rfl | ⟨a, pk, ks, rfl, hc⟩
  · rw [hiff.1 rfl]; simp [TwinB]
  · rcases h' with rfl | ⟨a', pk', ks', rfl, hc'⟩
    · simp at hiff
    · simp only [TwinB, Twin, true_and, and_true]
      exact Or.inl ⟨fun h => absurd rfl h, hc, hc'⟩

/-- A whitespace box is nothing. -/
theorem gap_placed {S : Option Box → Cur → Box → Cur → Prop} {e bs : List Box} (he : Gap e) {prev : Option Box} {c : Cur}
    {ls : List Laid} {o : Cur} {par : Option Str} {ps : List Piece}
    (hp : PlacedL cfg S prev c (e ++ bs) ls o) (hps : piecesL cfg par ls = .ok ps) :
    (e = [] ∧ PlacedL cfg S prev c bs ls o) ∨
    ∃ b c1 ls1, e = [b] ∧ S prev c b c1 ∧ PlacedL cfg S (some b) c1 bs ls1 o ∧ piecesL cfg par ls1 = .ok ps := by
  rcases he with rfl | ⟨a, pk, ks, rfl, _⟩
  · exact Or.inl ⟨rfl, hp⟩
  · right
    match ls, hp, hps with
    | [], hp, _ => simp [PlacedL] at hp
    | l :: ls, hp, hps =>
      simp only [List.cons_append, List.nil_append] at hp
      rw [PlacedL] at hp
      obtain ⟨c', o', hs, h1, h2⟩ := hp
      cases l with
      | mk ty' a' pk' info lines kids' =>
        simp only [Placed] at h1
        obtain ⟨rfl, rfl, rfl, rfl, _, h1, rfl⟩ := h1
        simp only [piecesL, bind_ok, Except.ok.injEq] at hps
        obtain ⟨x, hx, y, hy, rfl⟩ := hps
        simp only [pieces, Except.ok.injEq] at hx
        subst hx
        exact ⟨_, _, ls, rfl, hs, h2, hy⟩

/-- What is known of the children of two bodies. -/
structure Bodies (ctx : Ctx) (P : Token → Prop) (cs : List Node) : Prop where
  calm : ∀ c ∈ cs, Calm ctx c
  block : ∀ c ∈ cs, Block c
  apart : apart cs = true
  spread : spreadL cs = true
  toks : ∀ t ∈ toksL cs, P t

theorem spreadL_mem {cs : List Node} (h : spreadL cs = true) : ∀ c ∈ cs, Parse.spread c = true := by
  induction cs with
  | nil => simp
  | cons c cs ih =>
    simp only [spreadL, Bool.and_eq_true] at h
    intro d hd
    rcases List.mem_cons.1 hd with rfl | hd
    · exact h.1
    · exact ih h.2 d hd

theorem Bodies.suffix {cs ds : List Node} (h : Bodies ctx P (cs ++ ds)) (ha : Parse.apart ds = true) : Bodies ctx P ds where
  calm c hc := h.calm c (by simp [hc])
  block c hc := h.block c (by simp [hc])
  apart := ha
  spread := by have := h.spread; rw [spreadL_append, Bool.and_eq_true] at this; exact this.2
  toks t ht := h.toks t (by simp [ht])

/-- No blank line at the start. -/
def NoLead2 (cs : List Node) : Prop := ∀ a ds rest, cs = .node .whitespace a ds :: rest → newlinesL ds < 2

theorem noLead2_gap {lead tail : List Node} (hl : Lead lead) (h : NoLead2 (lead ++ tail)) : boxesOf lead = [] := by
  rcases hl with rfl | ⟨a, t, ts, rfl, _⟩
  · rfl
  · have := h a _ tail rfl
    simp [boxesOf, boxOf, this]

omit cfg ctx P P' in
theorem tidyL_append (a b : List Box) : tidyL (a ++ b) = (tidyL a && tidyL b) := by
  induction a with
  | nil => rfl
  | cons x a ih => simp [tidyL, ih, Bool.and_assoc]

omit cfg ctx P P' in
theorem framedL_append (a b : List Box) : framedL (a ++ b) = (framedL a && framedL b) := by
  induction a with
  | nil => rfl
  | cons x a ih => simp [framedL, ih, Bool.and_assoc]

omit cfg P P' in
theorem sourcedL_append (par : Option Str) (a b : List Box) :
    SourcedL ctx par (a ++ b) ↔ SourcedL ctx par a ∧ SourcedL ctx par b := by
  induction a with
  | nil => simp [SourcedL]
  | cons x a ih => simp [SourcedL, ih, and_assoc]

theorem kinL_lead {Rn : List Token → List Token → Prop} {lead tail cs' : List Node} (h : ∀ c ∈ lead, blankNode c = true) :
    KinL Rn (lead ++ tail) cs' ↔ KinL Rn tail cs' := by
  induction lead with
  | nil => rfl
  | cons c lead ih =>
    rw [List.cons_append, KinL, if_pos (h c (by simp))]
    exact ih fun x hx => h x (by simp [hx])

theorem inkNodes_lead {lead tail : List Node} (h : ∀ c ∈ lead, blankNode c = true) : inkNodes (lead ++ tail) = inkNodes tail := by
  induction lead with
  | nil => rfl
  | cons c lead ih =>
    simp only [inkNodes, List.cons_append, List.filter_cons, h c (by simp)] at *
    exact ih fun x hx => h x (by simp [hx])

theorem inkNodes_cons {x : Node} {rest : List Node} (h : blankNode x = false) : inkNodes (x :: rest) = x :: inkNodes rest := by
  simp [inkNodes, h]

/-- The children of a body. -/
theorem body_list {col : Nat} : ∀ (m : Nat) (cs cs' : List Node), cs.length < m → KinL (NoteRel cfg f) cs (inkNodes cs') →
    Bodies ctx P cs → Bodies ctx P' cs' → (∀ x ∈ cs, blankNode x = false → BlockTwin cfg f ctx P P' x) →
    ∀ ⦃prev : Option Box⦄ ⦃c : Cur⦄ ⦃ls : List Laid⦄ ⦃o : Cur⦄ ⦃ps Q : List Piece⦄ ⦃r : Nat⦄ ⦃X R : List Token⦄ ⦃s : Nat⦄,
    SegL cs' X → tidyL (boxesOf cs) = true → framedL (boxesOf cs) = true → SourcedL ctx none (boxesOf cs) →
    PlacedL cfg (Blocks col 0) prev c (boxesOf cs) ls o → piecesL cfg none ls = .ok ps →
    inkGaps 0 (X ++ R) = rowGaps r (ps ++ Q) →
    nextRow prev c = r + s → s ≤ 1 → (s = 0 → NoLead2 cs) → (prev ≠ none → c.row = r) →
    ∃ ks ks' e e', boxesOf cs = ks ++ e ∧ boxesOf cs' = ks' ++ e' ∧ TwinB cfg f ks ks' ∧ Gap e ∧ Gap e' ∧
      (e' = [] ↔ left 0 X < 2) ∧
      (ks = [] → prev = none → o.row = c.row ∧ endRow r ps = r) ∧
      (ks ≠ [] ∨ prev ≠ none → o.row = endRow r ps + e.length) ∧
      inkGaps (left 0 X) R = rowGaps (endRow r ps) Q
  | 0, cs, cs', hlen, _, _, _, _ => by omega
  | m + 1, cs, cs', hlen, hbare, hB, hB', hT => by
    intro prev c ls o ps Q r X R s hseg htd hfr hsr hpl hps hg hN hs1 hs0 hprev
    obtain ⟨lead, tail, rfl, hlead, hbl, hap, htail⟩ := split_lead hB.calm hB.block hB.apart
    obtain ⟨lead', tail', rfl, hlead', hbl', hap', htail'⟩ := split_lead hB'.calm hB'.block hB'.apart
    obtain ⟨hgap, _, _⟩ := lead_gap hlead
    obtain ⟨hgap', hiff', hink'⟩ := lead_gap hlead'
    obtain ⟨X1, X2, rfl, hseg1, hseg2⟩ := segL_append hseg
    obtain rfl := lead_seg hlead' hseg1
    rw [inkNodes_lead hbl', kinL_lead hbl] at hbare
    rw [boxesOf_append] at hpl htd hfr hsr ⊢
    rw [boxesOf_append]
    rw [List.append_assoc, (hink' 0 _).1] at hg
    rcases htail with rfl | ⟨x, rest, rfl, hx⟩
    · -- nothing left
      rcases htail' with rfl | ⟨x', rest', rfl, hx'⟩
      · simp only [SegL] at hseg2
        subst hseg2
        simp only [boxesOf, List.nil_append] at hpl hg
        have hend : ps = [] ∧ (prev = none → o.row = c.row) ∧ (prev ≠ none → o.row = c.row + (boxesOf lead).length) := by
          rcases gap_placed hgap hpl hps with ⟨he, hp⟩ | ⟨b, c1, ls1, he, hst, hp, hp2⟩
          · simp only [PlacedL] at hp
            obtain ⟨rfl, rfl⟩ := hp
            simp only [piecesL, Except.ok.injEq] at hps
            exact ⟨hps.symm, fun _ => rfl, fun _ => by rw [he]; rfl⟩
          · simp only [PlacedL] at hp
            obtain ⟨rfl, rfl⟩ := hp
            simp only [piecesL, Except.ok.injEq] at hp2
            refine ⟨hp2.symm, ?_, ?_⟩
            · rintro rfl
              exact hst.2
            · intro hne
              cases prev with
              | none => exact absurd rfl hne
              | some p => rw [he]; exact hst.2
        obtain ⟨rfl, h1, h2⟩ := hend
        refine ⟨[], [], boxesOf lead, boxesOf lead', by simp [boxesOf], by simp [boxesOf], by simp [TwinB], hgap, hgap',
          by simpa using hiff', ?_, ?_, ?_⟩
        · exact fun _ hn => ⟨h1 hn, rfl⟩
        · rintro (h | h)
          · exact absurd rfl h
          · rw [h2 h, hprev h]; rfl
        · simpa [endRow] using hg
      · rw [inkNodes_cons hx', KinL] at hbare; simp at hbare
    · rcases htail' with rfl | ⟨x', rest', rfl, hx'⟩
      · rw [KinL, hx] at hbare
        simp [inkNodes] at hbare
      · rw [inkNodes_cons hx', KinL, hx] at hbare
        simp only [Bool.false_eq_true, if_false, List.cons.injEq] at hbare
        obtain ⟨_, _, ⟨rfl, rfl⟩, hbx, hbrest⟩ := hbare
        have hBx := hB.suffix hap
        have hBx' := hB'.suffix hap'
        obtain ⟨bx, hbox⟩ : ∃ bx, boxOf x = [bx] := by
          have := hBx.block x (by simp)
          cases x with
          | tok t => exact this.elim
          | node ty a ds => exact ⟨_, boxOf_node (by simpa [blankNode] using hx)⟩
        have hbxs : boxesOf (x :: rest) = bx :: boxesOf rest := by simp [boxesOf, hbox]
        rw [hbxs] at hpl htd hfr hsr ⊢
        have hstart : ∃ prev2 c2 ls2, PlacedL cfg (Blocks col 0) prev2 c2 (bx :: boxesOf rest) ls2 o ∧
            piecesL cfg none ls2 = .ok ps ∧ nextRow prev2 c2 = r + s + (boxesOf lead).length := by
          rcases gap_placed hgap hpl hps with ⟨he, hp⟩ | ⟨b, c1, ls1, he, hst, hp, hp2⟩
          · exact ⟨prev, c, ls, hp, hps, by rw [he, hN]; rfl⟩
          · refine ⟨some b, c1, ls1, hp, hp2, ?_⟩
            rw [he, ← hN]
            cases prev with
            | none => simp only [nextRow, List.length_singleton]; rw [hst.2]
            | some p => simp only [nextRow, List.length_singleton]; rw [hst.2]
        obtain ⟨prev2, c2, ls2, hp2, hps2, hN2⟩ := hstart
        match ls2, hp2, hps2 with
        | [], hp2, _ => simp [PlacedL] at hp2
        | l :: ls2, hp2, hps2 =>
          rw [PlacedL] at hp2
          obtain ⟨c3, o1, hst, h1, h2⟩ := hp2
          have hrow : c3.row = r + s + (boxesOf lead).length := by
            rw [← hN2]
            cases prev2 <;> exact hst.2
          simp only [piecesL, bind_ok, Except.ok.injEq] at hps2
          obtain ⟨pa, hpa, pb, hpb, rfl⟩ := hps2
          rw [tidyL_append, Bool.and_eq_true] at htd
          rw [framedL_append, Bool.and_eq_true] at hfr
          rw [sourcedL_append] at hsr
          simp only [tidyL, framedL, SourcedL, Bool.and_eq_true] at htd hfr hsr
          simp only [SegL] at hseg2
          obtain ⟨X3, X4, rfl, hseg3, hseg4⟩ := hseg2
          rw [List.append_assoc, List.append_assoc] at hg
          obtain ⟨b', hb', htw, hk, hleft, hend, hg2⟩ := hT x (by simp) hx x' hbx (hBx.calm x (by simp)) (hBx'.calm x' (by simp))
            (spreadL_mem hBx.spread x (by simp)) (spreadL_mem hBx'.spread x' (by simp))
            (fun t ht => hBx.toks t (by simp [ht])) (fun t ht => hBx'.toks t (by simp [ht]))
            hseg3 hbox htd.2.1 hfr.2.1 hsr.2.1 h1 hpa hg
          obtain ⟨ks, ks', e, e', e1, e2, htl, hge, hge', hiff, _, hrow2, hg3⟩ := body_list m rest rest'
            (by simp only [List.length_append, List.length_cons] at hlen; omega) hbrest
            (Bodies.suffix (cs := [x]) hBx (apart_tail hap)) (Bodies.suffix (cs := [x']) hBx' (apart_tail hap'))
            (fun y hy => hT y (by simp [hy])) hseg4 htd.2.2 hfr.2.2 hsr.2.2 h2 hpb hg2 (s := 1) rfl (Nat.le_refl _) (by omega)
            (fun _ => rfl)
          have hlr : left 0 (toksL lead' ++ (X3 ++ X4)) = left 0 X4 := by
            rw [left_append, left_append, hleft]
          refine ⟨boxesOf lead ++ bx :: ks, boxesOf lead' ++ b' :: ks', e, e', ?_, ?_, ?_, hge, hge', ?_, ?_, ?_, ?_⟩
          · rw [e1]; simp
          · simp [boxesOf, hb', e2]
          · refine twinB_append (gap_twin hgap hgap' ?_) (by rw [TwinB]; exact ⟨htw, htl⟩)
            rw [hiff', hk, hrow]
            have hlen1 : boxesOf lead = [] ↔ (boxesOf lead).length = 0 := by simp
            rw [hlen1]
            by_cases hs : s = 0
            · have := noLead2_gap hlead (hs0 hs)
              rw [this, hs]; simp
            · omega
          · rw [hlr]; exact hiff
          · intro h; simp at h
          · intro _
            rw [hrow2 (Or.inr (by simp)), endRow_append, hend]
          · rw [hlr, endRow_append, hend]; exact hg3

/-! ## Blocks with bodies -/

theorem body_box {a : Attr} {ds : List Node} {b : Box} (h : boxOf (.node .body a ds) = [b]) : b = .mk .body a ds (boxesOf ds) := by
  rw [boxOf_node (by simp)] at h
  simp only [List.cons.injEq, and_true] at h
  exact h.symm

/-- What is known of the children of a block with bodies. -/
structure Flows (ctx : Ctx) (P : Token → Prop) (cs : List Node) : Prop where
  calm : ∀ c ∈ cs, Calm ctx c
  part : ∀ c ∈ cs, FlowPart c
  spread : spreadL cs = true
  toks : ∀ t ∈ toksL cs, P t

theorem Flows.tail {c : Node} {cs : List Node} (h : Flows ctx P (c :: cs)) : Flows ctx P cs where
  calm x hx := h.calm x (by simp [hx])
  part x hx := h.part x (by simp [hx])
  spread := by have := h.spread; simp only [spreadL, Bool.and_eq_true] at this; exact this.2
  toks t ht := h.toks t (by simp [ht])

theorem flow_ink {n : Node} (h : FlowPart n) : blankNode n = false := by
  cases n with
  | tok t => exact h.elim
  | node ty a ds => rcases h with rfl | rfl <;> rfl

theorem flow_inks {cs : List Node} (h : ∀ c ∈ cs, FlowPart c) : inkNodes cs = cs := by
  rw [inkNodes, List.filter_eq_self]
  intro c hc
  simp [flow_ink (h c hc)]

theorem flow_bare {Rn : List Token → List Token → Prop} {n : Node} {ns cs' : List Node} (hn : FlowPart n)
    (h : KinL Rn (n :: ns) cs') : ∃ n' ns', cs' = n' :: ns' ∧ Kin Rn n n' ∧ KinL Rn ns ns' := by
  rw [KinL, flow_ink hn] at h
  simpa using h

/-- The children after a statement. -/
theorem flow_list {col : Nat} : ∀ (m : Nat) (cs cs' : List Node), cs.length < m → KinL (NoteRel cfg f) cs cs' →
    Flows ctx P cs → Flows ctx P' cs' → (∀ a ds, Node.node .statement a ds ∈ cs → BlockTwin cfg f ctx P P' (.node .statement a ds)) →
    (∀ a ds, Node.node .body a ds ∈ cs → ∀ x ∈ ds, blankNode x = false → BlockTwin cfg f ctx P P' x) →
    ∀ ⦃prev : Box⦄ ⦃c : Cur⦄ ⦃ls : List Laid⦄ ⦃o : Cur⦄ ⦃ps Q : List Piece⦄ ⦃r : Nat⦄ ⦃X R : List Token⦄,
    SegL cs' X → tidyL (boxesOf cs) = true → framedL (boxesOf cs) = true → SourcedL ctx none (boxesOf cs) →
    alternates false (boxesOf cs) = true →
    PlacedL cfg (Blocks col cfg.tabSize) (some prev) c (boxesOf cs) ls o → piecesL cfg none ls = .ok ps →
    inkGaps 0 (X ++ R) = rowGaps r (ps ++ Q) → c.row = r →
    TwinL cfg f none (boxesOf cs) (boxesOf cs') ∧ left 0 X = 0 ∧ endRow r ps = o.row ∧
      inkGaps 0 R = rowGaps o.row Q
  | 0, cs, cs', hlen, _, _, _, _, _ => by omega
  | m + 1, [], cs', hlen, hbare, hF, hF', _, _ => by
    intro prev c ls o ps Q r X R hseg _ _ _ _ hpl hps hg hr
    have : cs' = [] := by simpa only [KinL] using hbare
    subst this
    simp only [SegL] at hseg
    subst hseg
    simp only [boxesOf, PlacedL] at hpl
    obtain ⟨rfl, rfl⟩ := hpl
    simp only [piecesL, Except.ok.injEq] at hps
    subst hps
    refine ⟨by simp [boxesOf, TwinL], rfl, hr.symm, ?_⟩
    rw [hr]
    simpa using hg
  | m + 1, n1 :: cs, cs', hlen, hbare, hF, hF', hS, hBd => by
    intro prev c ls o ps Q r X R hseg htd hfr hsr hal hpl hps hg hr
    have hn1 := hF.part n1 (by simp)
    obtain ⟨n1', cs1', rfl, hb1, hbare1⟩ := flow_bare hn1 hbare
    have hn1' := hF'.part n1' (by simp)
    cases n1 with
    | tok t => exact hn1.elim
    | node ty a ds =>
    have hty : ty = .body := by
      rcases hn1 with rfl | rfl
      · rw [boxesOf, boxOf_node (by simp)] at hal
        simp [alternates, Box.ty] at hal
      · rfl
    subst hty
    cases n1' with
    | tok t => exact hn1'.elim
    | node ty' a' ds' =>
    simp only [Kin, Node.node.injEq] at hb1
    obtain ⟨_, ⟨rfl, ea, rfl⟩, hbd⟩ := hb1
    have ea := ea.symm
    subst ea
    cases cs with
    | nil => rw [boxesOf, boxOf_node (by simp)] at hal; simp [boxesOf, alternates] at hal
    | cons n2 cs =>
    have hn2 := hF.part n2 (by simp)
    obtain ⟨n2', cs2', rfl, hb2, hbare2⟩ := flow_bare hn2 hbare1
    cases n2 with
    | tok t => exact hn2.elim
    | node ty a2 ds2 =>
    have hty : ty = .statement := by
      rcases hn2 with rfl | rfl
      · rfl
      · rw [boxesOf, boxOf_node (by simp), boxesOf, boxOf_node (by simp)] at hal
        simp [alternates, Box.ty] at hal
    subst hty
    have hx1 : boxOf (.node .body a ds) = [.mk .body a ds (boxesOf ds)] := boxOf_node (by simp)
    have hx2 : boxOf (.node .statement a2 ds2) = [.mk .statement a2 ds2 (boxesOf ds2)] := boxOf_node (by simp)
    have hxs : boxesOf (.node .body a ds :: .node .statement a2 ds2 :: cs) =
        .mk .body a ds (boxesOf ds) :: .mk .statement a2 ds2 (boxesOf ds2) :: boxesOf cs := by
      rw [boxesOf, boxesOf, hx1, hx2]; rfl
    rw [hxs] at htd hfr hsr hal hpl ⊢
    simp only [alternates, Bool.and_eq_true] at hal
    rw [tidyL, tidyL, Bool.and_eq_true, Bool.and_eq_true] at htd
    rw [framedL, framedL, Bool.and_eq_true, Bool.and_eq_true] at hfr
    rw [SourcedL, SourcedL] at hsr
    match ls, hpl, hps with
    | [], hpl, _ => simp [PlacedL] at hpl
    | [_], hpl, _ => simp [PlacedL] at hpl
    | l1 :: l2 :: ls, hpl, hps =>
      rw [PlacedL] at hpl
      obtain ⟨c1, o1, hst1, hp1, hpl1⟩ := hpl
      rw [PlacedL] at hpl1
      obtain ⟨c2, o2, hst2, hp2, hpl2⟩ := hpl1
      simp only [piecesL, bind_ok, Except.ok.injEq] at hps
      obtain ⟨pa, hpa, _, ⟨pb, hpb, pc, hpc, rfl⟩, rfl⟩ := hps
      cases l1 with
      | mk ty1 a1 pk1 info lines kids1 =>
      simp only [Placed] at hp1
      obtain ⟨rfl, rfl, rfl, rfl, _, hp1⟩ := hp1
      simp only [pieces] at hpa
      have hd := htd.1
      have hfd := hfr.1
      have hsd := hsr.1
      simp only [tidy, Bool.and_eq_true] at hd
      simp only [framed, Bool.and_eq_true] at hfd
      simp only [Sourced] at hsd
      simp only [SegL] at hseg
      obtain ⟨X1, _, rfl, hseg1, X2, X3, rfl, hseg2, hseg3⟩ := hseg
      simp only [Seg] at hseg1
      rw [List.append_assoc, List.append_assoc, List.append_assoc, List.append_assoc] at hg
      have hQ := hF.calm (.node .body a1 pk1) (by simp)
      have hQ' := hF'.calm (.node .body a1 ds') (by simp)
      have sp := spreadL_mem hF.spread (.node .body a1 pk1) (by simp)
      have sp' := spreadL_mem hF'.spread (.node .body a1 ds') (by simp)
      simp only [Parse.spread, Bool.and_eq_true] at sp sp'
      obtain ⟨ks, ks', e, e', e1, e2, htl, hge, hge', hiff, hnil, hrow, hg2⟩ := body_list (cfg := cfg) (ctx := ctx) (P := P) (P' := P')
        (pk1.length + 1) pk1 ds' (Nat.lt_succ_self _) hbd
        ⟨calm_child (Or.inl rfl) hQ, (neat_node.1 hQ.neat).1, sp.1, sp.2, fun t ht => hF.toks t (by simp [ht])⟩
        ⟨calm_child (Or.inl rfl) hQ', (neat_node.1 hQ'.neat).1, sp'.1, sp'.2, fun t ht => hF'.toks t (by simp [ht])⟩
        (hBd a1 pk1 (by simp)) hseg1 hd.2 hfd.2 hsd.2 hp1.2 hpa hg (s := 1) (by rw [nextRow, hst1.2, hr]) (Nat.le_refl _) (by omega)
        (by simp)
      obtain ⟨b', hb', htw, hk, hleft, hend, hg3⟩ := hS a2 ds2 (by simp) n2' hb2 (hF.calm _ (by simp)) (hF'.calm n2' (by simp))
        (spreadL_mem hF.spread _ (by simp)) (spreadL_mem hF'.spread n2' (by simp))
        (fun t ht => hF.toks t (by rw [toksL_cons, toksL_cons]; exact List.mem_append_right _ (List.mem_append_left _ ht))) (fun t ht => hF'.toks t (by simp [ht]))
        hseg2 hx2 htd.2.1 hfr.2.1 hsr.2.1 hp2 hpb hg2
      obtain ⟨hk1, hk2, hk3, hk4⟩ := flow_list m cs cs2' (by simp only [List.length_cons] at hlen; omega) hbare2
        hF.tail.tail hF'.tail.tail (fun a ds h => hS a ds (by simp [h])) (fun a ds h => hBd a ds (by simp [h]))
        hseg3 htd.2.2 hfr.2.2 hsr.2.2 hal.2.2 hpl2 hpc hg3 rfl
      have hrow2 : c2.row = o1.row + 1 := hst2.2
      have hrow1 : info.pos.row = r + 1 := by rw [hst1.2, hr]
      have hc1 : headIsComment pk1 = false := headIsComment_block fun x hx t e => by
        have := (neat_node.1 hQ.neat).1 x hx; rw [e] at this; exact this
      have hc2 : headIsComment ds' = false := headIsComment_block fun x hx t e => by
        have := (neat_node.1 hQ'.neat).1 x hx; rw [e] at this; exact this
      have hbody : Twin cfg f none (.mk .body a1 pk1 (boxesOf pk1)) (.mk .body a1 ds' (boxesOf ds')) := by
        simp only [Twin, implies_true, true_and]
        refine ⟨hc1, hc2, ?_⟩
        rw [e1, e2]
        have hlen0 : e = [] ↔ e.length = 0 := by simp
        cases ks with
        | nil =>
          simp only [TwinB] at htl
          subst htl
          obtain ⟨h1, h2⟩ := hnil rfl rfl
          have hne : e' ≠ [] := by
            rw [ne_eq, hiff, hk]; omega
          rcases hge with rfl | ⟨a, pk, ks, rfl, hh⟩
          · right
            rcases hge' with rfl | ⟨a', pk', ks', rfl, _⟩
            · exact absurd rfl hne
            · exact ⟨rfl, a', pk', ks', rfl⟩
          · left
            exact gap_twin (Or.inr ⟨a, pk, ks, rfl, hh⟩) hge' (by simp [hne])
        | cons k1 ks =>
          left
          refine twinB_append htl (gap_twin hge hge' ?_)
          have := hrow (Or.inl (by simp))
          rw [hiff, hk, hlen0]
          omega
      have htw : Twin cfg f none (.mk .statement a2 ds2 (boxesOf ds2)) b' :=
        htw.resolve_right fun h => absurd h.ty (by simp [Box.ty])
      refine ⟨?_, ?_, ?_, hk4⟩
      · rw [boxesOf, boxesOf, boxOf_node (by simp), hb']
        simp only [List.cons_append, List.nil_append, TwinL]
        exact ⟨hbody, htw, hk1⟩
      · rw [left_append, left_append, hleft]; exact hk2
      · rw [endRow_append, endRow_append, hend]; exact hk3

/-- A block with bodies. -/
theorem flow_twin {a : Attr} {cs : List Node}
    (hS : ∀ a ds, Node.node .statement a ds ∈ cs → BlockTwin cfg f ctx P P' (.node .statement a ds))
    (hBd : ∀ a ds, Node.node .body a ds ∈ cs → ∀ x ∈ ds, blankNode x = false → BlockTwin cfg f ctx P P' x) :
    BlockTwin cfg f ctx P P' (.node .flowControl a cs) := by
  intro n' hkin hq hq' hsp hsp' hP hP' b c l o ps Q k r X R hseg hbox ht hf hs hpl hps hg
  rw [boxOf_node (by simp)] at hbox
  simp only [List.cons.injEq, and_true] at hbox
  subst hbox
  simp only [Kin] at hkin
  obtain ⟨cs', rfl, hbare⟩ := hkin
  rw [flow_inks (neat_node.1 hq'.neat).1] at hbare
  refine ⟨_, boxOf_node (by simp), ?_⟩
  have hc1 : headIsComment cs = false := headIsComment_block fun x hx t e => by
    have := (neat_node.1 hq.neat).1 x hx; rw [e] at this; exact this
  have hc2 : headIsComment cs' = false := headIsComment_block fun x hx t e => by
    have := (neat_node.1 hq'.neat).1 x hx; rw [e] at this; exact this
  cases l with
  | mk ty1 a1 pk1 info lines kids1 =>
  simp only [Placed] at hpl
  obtain ⟨rfl, rfl, rfl, rfl, ⟨_, hal⟩, hpl⟩ := hpl
  have hal := hal trivial
  simp only [pieces] at hps
  simp only [tidy, framed, Sourced, Parse.spread, Bool.and_eq_true] at ht hf hs hsp hsp'
  have hF : Flows ctx P pk1 := ⟨calm_child (Or.inr rfl) hq, (neat_node.1 hq.neat).1, hsp, fun t ht => hP t (by simpa using ht)⟩
  have hF' : Flows ctx P' cs' := ⟨calm_child (Or.inr rfl) hq', (neat_node.1 hq'.neat).1, hsp', fun t ht => hP' t (by simpa using ht)⟩
  cases pk1 with
  | nil => simp [boxesOf, alternates] at hal
  | cons n1 cs =>
  have hn1 := hF.part n1 (by simp)
  obtain ⟨n1', cs1', rfl, hb1, hbare1⟩ := flow_bare hn1 hbare
  cases n1 with
  | tok t => exact hn1.elim
  | node ty a2 ds2 =>
  have hty : ty = .statement := by
    rcases hn1 with rfl | rfl
    · rfl
    · rw [boxesOf, boxOf_node (by simp)] at hal
      simp [alternates, Box.ty] at hal
  subst hty
  have hx2 : boxOf (.node .statement a2 ds2) = [.mk .statement a2 ds2 (boxesOf ds2)] := boxOf_node (by simp)
  have hxs : boxesOf (.node .statement a2 ds2 :: cs) = .mk .statement a2 ds2 (boxesOf ds2) :: boxesOf cs := by
    rw [boxesOf, hx2]; rfl
  rw [hxs] at ht hf hs hal hpl ⊢
  simp only [alternates, Bool.and_eq_true] at hal
  rw [tidyL, Bool.and_eq_true] at ht
  rw [framedL, Bool.and_eq_true] at hf
  rw [SourcedL] at hs
  match kids1, hpl, hps with
  | [], hpl, _ => simp [PlacedL] at hpl
  | l2 :: ls, hpl, hps =>
    obtain ⟨_, hpl1⟩ := hpl
    rw [PlacedL] at hpl1
    obtain ⟨c2, o2, hst2, hp2, hpl2⟩ := hpl1
    simp only [piecesL, bind_ok, Except.ok.injEq] at hps
    obtain ⟨pb, hpb, pc, hpc, rfl⟩ := hps
    simp only [Seg, SegL] at hseg
    obtain ⟨X1, X2, rfl, hseg1, hseg2⟩ := hseg
    rw [List.append_assoc, List.append_assoc] at hg
    obtain ⟨b', hb', htw, hk, hleft, hend, hg3⟩ := hS a2 ds2 (by simp) n1' hb1 (hF.calm _ (by simp)) (hF'.calm n1' (by simp))
      (spreadL_mem hF.spread _ (by simp)) (spreadL_mem hF'.spread n1' (by simp))
      (fun t ht => hF.toks t (by rw [toksL_cons]; exact List.mem_append_left _ ht)) (fun t ht => hF'.toks t (by simp [ht]))
      hseg1 hx2 ht.2.1 hf.2.1 hs.2.1 hp2 hpb hg
    obtain ⟨hk1, hk2, hk3, hk4⟩ := flow_list (cs.length + 1) cs cs1' (Nat.lt_succ_self _) hbare1
      hF.tail hF'.tail (fun a ds h => hS a ds (by simp [h])) (fun a ds h => hBd a ds (by simp [h]))
      hseg2 ht.2.2 hf.2.2 hs.2.2 hal.2 hpl2 hpc hg3 rfl
    have hrow : c2.row = info.pos.row := hst2.2
    have htw : Twin cfg f none (.mk .statement a2 ds2 (boxesOf ds2)) b' :=
      htw.resolve_right fun h => absurd h.ty (by simp [Box.ty])
    refine ⟨Or.inl ?_, ?_, ?_, ?_, hk4⟩
    · simp only [Twin, implies_true, true_and]
      refine ⟨hc1, hc2, ?_⟩
      rw [boxesOf, hb']
      simp only [List.cons_append, List.nil_append, TwinL]
      exact ⟨htw, hk1⟩
    · rw [hk, hrow]
    · intro j
      rw [left_append, hleft]; exact hk2
    · rw [endRow_append, hend]; exact hk3

/-- Every block. -/
theorem block_twin (H : Leaves cfg P P') (hcfg : Markup.CleanCfg cfg.markup) : ∀ n : Node, Block n → blankNode n = false →
    Calm ctx n → BlockTwin cfg f ctx P P' n
  | .tok _, h, _, _ => h.elim
  | .node ty a cs, h, hb, hq => by
    rcases h with rfl | rfl | rfl | rfl | rfl | rfl
    · simp [blankNode] at hb
    · exact note_unit hcfg
    · exact (calm_noonoff hq).elim
    · exact unit_twin H hcfg (Or.inl rfl)
    · refine flow_twin (fun a ds _ => unit_twin H hcfg (Or.inl rfl)) ?_
      intro a ds hm x hx hbx
      have hqb := calm_child (Or.inr rfl) hq _ hm
      have h1 := List.sizeOf_lt_of_mem hm
      have h2 := List.sizeOf_lt_of_mem hx
      exact block_twin H hcfg x ((neat_node.1 hqb.neat).1 x hx) hbx (calm_child (Or.inl rfl) hqb x hx)
    · exact unit_twin H hcfg (Or.inr rfl)
termination_by n => sizeOf n
decreasing_by
  simp only [Node.node.sizeOf_spec] at h1 ⊢
  omega

end

end Verif.Layout
