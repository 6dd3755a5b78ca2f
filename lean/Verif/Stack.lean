import Verif.OutlineSpec
import Verif.Width
import Verif.Props.Parse

/-!
# Blocks are stacked

Each block starts on the line below the end of the previous one, in the column of its depth.
-/

namespace Verif.Layout
open Verif Py Lex Parse

section
variable {cfg : Cfg} {ctx : Ctx}

/-- The first text starts at `c` and the last one ends at `o`. -/
def Spans (ps : List Piece) (c o : Cur) : Prop :=
  (∃ p, ps.head? = some p ∧ p.pos = c) ∧ ∃ q, ps.getLast? = some q ∧ q.stop = o

/-- What a statement or comment may end with. -/
def isEnd (ty : NT) : Bool := ty == .comment || ty == .rparen || ty == .atword

theorem linePieces_head (c : Cur) (l : Str) (ls : List Str) : ∃ p, (linePieces c (l :: ls)).head? = some p ∧ p.pos = c :=
  ⟨_, rfl, rfl⟩

theorem end_spans (hcfg : Markup.CleanCfg cfg.markup) {b : Box} {c : Cur} {l : Laid} {o : Cur} {parent : Option Str}
    {ps : List Piece} (hb : isEnd b.ty = true) (ht : tidy b = true) (hf : framed b = true) (hp : Placed cfg b c l o)
    (hps : pieces cfg parent l = .ok ps) : Spans ps c o := by
  cases b with
  | mk ty a pk kids =>
    cases l with
    | mk ty' a' pk' info lines kids' =>
      simp only [Box.ty, isEnd, Bool.or_eq_true, beq_iff_eq] at hb
      simp only [tidy, Bool.and_eq_true] at ht
      simp only [framed, Bool.and_eq_true] at hf
      simp only [Placed] at hp
      obtain ⟨rfl, rfl, rfl, rfl, _, hp⟩ := hp
      rcases hb with (rfl | rfl) | rfl
      · obtain ⟨_, hpl⟩ := hp
        simp only [tidyHere] at ht
        cases hbr : bracketOf pk' with
        | some t =>
          simp only [hbr] at hpl
          simp only [pieces, hbr, Except.ok.injEq] at hps
          subst hps
          exact ⟨⟨_, rfl, rfl⟩, _, rfl, by rw [hpl.1, flow_advance]; rfl⟩
        | none =>
          simp only [hbr] at hpl
          simp only [pieces, hbr, Except.ok.injEq] at hps
          obtain ⟨ts, last, hts, hfc, hlast, rfl, _⟩ := hpl
          subst hps
          have hone := comment_oneLine hcfg hbr ht.1 hts hfc
          cases lines with
          | nil => simp at hlast
          | cons l ls =>
            obtain ⟨_, r, last', h2, h3, _, h5⟩ := lines_chain (c := info.pos) (prev := none) hone (by simp)
            rw [h3] at hlast
            simp only [Option.some.injEq] at hlast
            subst hlast
            refine ⟨linePieces_head _ _ _, r, h2, ?_⟩
            rw [h5]; simp
      · simp only [pieces, Except.ok.injEq] at hps
        subst hps
        refine ⟨⟨_, rfl, rfl⟩, _, rfl, ?_⟩
        rw [hp.2.1]; rfl
      · obtain ⟨t, h1, h2, h3, h4, h5, h6⟩ := hp
        simp only [pieces, bind_ok, Except.ok.injEq] at hps
        obtain ⟨t', h1', text, h7, _, _, qs, h8, rfl⟩ := hps
        simp only [framedHere, List.isEmpty_iff] at hf
        obtain ⟨rfl, _⟩ := hf
        simp only [PlacedL] at h6
        obtain ⟨rfl, rfl⟩ := h6
        simp only [piecesL, Except.ok.injEq] at h8
        subst h8
        rw [h1] at h1'
        simp only [Except.ok.injEq] at h1'
        subst h1'
        refine ⟨⟨_, rfl, rfl⟩, _, rfl, ?_⟩
        rw [flow_advance, ← scalar_stop (by simp) ht.1 h1 h7]; rfl

theorem last_spans (hcfg : Markup.CleanCfg cfg.markup) {S : Option Box → Cur → Box → Cur → Prop} :
    ∀ {bs : List Box} {prev : Option Box} {c : Cur} {ls : List Laid} {o : Cur} {parent : Option Str} {ps : List Piece} {k : Box},
    bs.getLast? = some k → isEnd k.ty = true → tidyL bs = true → framedL bs = true → PlacedL cfg S prev c bs ls o →
    piecesL cfg parent ls = .ok ps → ∃ q, ps.getLast? = some q ∧ q.stop = o
  | [], _, _, _, _, _, _, _, hk, _, _, _, _, _ => by simp at hk
  | [b], prev, c, ls, o, parent, ps, k, hk, he, ht, hf, hp, hps => by
    simp only [List.getLast?_singleton, Option.some.injEq] at hk
    subst hk
    simp only [tidyL, framedL, Bool.and_true] at ht hf
    match ls, hp, hps with
    | [], hp, _ => simp [PlacedL] at hp
    | l :: ls, hp, hps =>
      simp only [PlacedL] at hp
      obtain ⟨c', o', hs, h1, rfl, rfl⟩ := hp
      simp only [piecesL, bind_ok, Except.ok.injEq] at hps
      obtain ⟨a, ha, b', rfl, rfl⟩ := hps
      have := end_spans hcfg he ht hf h1 ha
      simpa using this.2
  | b :: b2 :: bs, prev, c, ls, o, parent, ps, k, hk, he, ht, hf, hp, hps => by
    simp only [List.getLast?_cons_cons] at hk
    rw [tidyL, Bool.and_eq_true] at ht
    rw [framedL, Bool.and_eq_true] at hf
    match ls, hp, hps with
    | [], hp, _ => simp [PlacedL] at hp
    | l :: ls, hp, hps =>
      rw [PlacedL] at hp
      obtain ⟨c', o', hs, h1, hp⟩ := hp
      simp only [piecesL, bind_ok, Except.ok.injEq] at hps
      obtain ⟨a, ha, b', hb', rfl⟩ := hps
      obtain ⟨q, h2, h3⟩ := last_spans hcfg hk he ht.2 hf.2 hp hb'
      exact ⟨q, by simp [List.getLast?_append, h2], h3⟩

/-- A statement or a comment. -/
def isUnit (ty : NT) : Bool := ty == .comment || ty == .statement || ty == .atwordStatement

theorem head_append {a b : List Piece} {p : Piece} (h : a.head? = some p) : (a ++ b).head? = some p := by
  cases a with
  | nil => simp at h
  | cons x a => exact h

theorem unit_spans (hcfg : Markup.CleanCfg cfg.markup) {b : Box} {c : Cur} {l : Laid} {o : Cur} {parent parent' : Option Str}
    {ps : List Piece} (hb : isUnit b.ty = true) (ht : tidy b = true) (hf : framed b = true) (hs : Sourced ctx parent' b)
    (hp : Placed cfg b c l o) (hps : pieces cfg parent l = .ok ps) : Spans ps c o := by
  have ht' := ht
  have hf' := hf
  have hp' := hp
  have hps' := hps
  cases b with
  | mk ty a pk kids =>
    cases l with
    | mk ty' a' pk' info lines kids' =>
      simp only [Box.ty, isUnit, Bool.or_eq_true, beq_iff_eq] at hb
      simp only [tidy, Bool.and_eq_true] at ht
      simp only [framed, Bool.and_eq_true] at hf
      simp only [Sourced] at hs
      simp only [Placed] at hp
      obtain ⟨rfl, rfl, rfl, rfl, _, hp⟩ := hp
      rcases hb with (rfl | rfl) | rfl
      · exact end_spans hcfg rfl ht' hf' hp' hps'
      · simp only [pieces] at hps
        obtain ⟨_, hp⟩ := hp
        match kids, kids', hp, hps, hs, hf, ht with
        | fn :: lp :: rest, ls, hp, hps, hs, hf, ht =>
          simp only [framedHere, Bool.and_eq_true, beq_iff_eq] at hf
          obtain ⟨⟨⟨⟨e1, e2⟩, e3⟩, e4⟩, hf2⟩ := hf
          cases hl : rest.getLast? with
          | none => rw [hl] at e4; simp at e4
          | some k =>
            rw [hl] at e4
            have hlast : (fn :: lp :: rest).getLast? = some k := by
              simp [List.getLast?_cons, hl]
            have hk : isEnd k.ty = true := by
              simp only [Bool.or_eq_true, beq_iff_eq] at e4
              rcases e4 with e | e <;> rw [e] <;> rfl
            refine ⟨?_, last_spans hcfg hlast hk ht.2 hf2 hp hps⟩
            match ls, hp, hps with
            | [], hp, _ => simp [PlacedL] at hp
            | l1 :: ls, hp, hps =>
              rw [PlacedL] at hp
              obtain ⟨c1, o1, s1, p1, hp⟩ := hp
              simp only [piecesL, bind_ok, Except.ok.injEq] at hps
              obtain ⟨x1, hx1, y1, _, rfl⟩ := hps
              simp only [tidyL, Bool.and_eq_true] at ht
              simp only [SourcedL] at hs
              obtain ⟨_, t1, rfl⟩ := name_pieces e1 ht.2.1 hs.2.1 p1 hx1
              have := s1.2
              simp only at this
              exact ⟨_, rfl, this⟩
      · simp only [pieces] at hps
        obtain ⟨_, hp⟩ := hp
        match kids, kids', hp, hps, hs, hf, ht with
        | w :: rest, ls, hp, hps, hs, hf, ht =>
          simp only [framedHere, Bool.and_eq_true, beq_iff_eq, List.all_eq_true] at hf
          obtain ⟨⟨e1, e2⟩, hf2⟩ := hf
          have hlast : ∃ k, (w :: rest).getLast? = some k ∧ isEnd k.ty = true := by
            cases hl : rest.getLast? with
            | none => exact ⟨w, by simp [List.getLast?_cons, hl], by rw [e1]; rfl⟩
            | some k =>
              exact ⟨k, by simp [List.getLast?_cons, hl], by rw [e2 k (List.mem_of_getLast? hl)]; rfl⟩
          obtain ⟨k, hl, hk⟩ := hlast
          refine ⟨?_, last_spans hcfg hl hk ht.2 hf2 hp hps⟩
          match ls, hp, hps with
          | [], hp, _ => simp [PlacedL] at hp
          | l1 :: ls, hp, hps =>
            rw [PlacedL] at hp
            obtain ⟨c1, o1, s1, p1, hp⟩ := hp
            simp only [piecesL, bind_ok, Except.ok.injEq] at hps
            obtain ⟨x1, hx1, y1, _, rfl⟩ := hps
            simp only [tidyL, Bool.and_eq_true] at ht
            simp only [framedL, Bool.and_eq_true] at hf2
            obtain ⟨⟨p, h1, h2⟩, _⟩ := end_spans hcfg (by rw [e1]; rfl) ht.2.1 hf2.1 p1 hx1
            have := s1.2
            simp only at this
            exact ⟨p, head_append h1, by rw [h2, this]⟩

/-! ## Groups of texts -/

/-- The texts of a block. -/
def Unit' (cfg : Cfg) (W : Token → Piece → Prop) (c : Cur) (n : Node) (g : List Piece) (o : Cur) : Prop :=
  Spans g c o ∧ ∃ ts, ts.Perm (program n.toks) ∧ (cfg.autosort = false → ts = program n.toks) ∧
    AllWritten W ts (g.filter fun p => p.kind.isProgram)

/-- Groups of texts for events, from a row on and up to a row.  `U` says what is known of the texts
of a block. -/
def Stacked (cfg : Cfg) (U : Cur → Node → List Piece → Cur → Prop) : Nat → List Event → List (List Piece) → Nat → Prop
  | r, [], gs, r' => gs = [] ∧ r' = r
  | r, .blank :: es, gs, r' => Stacked cfg U (r + 1) es gs r'
  | r, .block d n :: es, gs, r' =>
    match gs with
    | [] => False
    | g :: gs' => ∃ o, U ⟨r, d * cfg.tabSize⟩ n g o ∧ Stacked cfg U (o.row + 1) es gs' r'

theorem stacked_append {W : Cur → Node → List Piece → Cur → Prop} : ∀ {es es' : List Event} {gs gs' : List (List Piece)} {r r' r'' : Nat},
    Stacked cfg W r es gs r' → Stacked cfg W r' es' gs' r'' → Stacked cfg W r (es ++ es') (gs ++ gs') r''
  | [], es', gs, gs', r, r', r'', h, h' => by
    obtain ⟨rfl, rfl⟩ := h
    exact h'
  | .blank :: es, es', gs, gs', r, r', r'', h, h' => by
    simp only [Stacked, List.cons_append] at *
    exact stacked_append h h'
  | .block d n :: es, es', [], gs', r, r', r'', h, h' => by simp [Stacked] at h
  | .block d n :: es, es', g :: gs, gs', r, r', r'', h, h' => by
    simp only [Stacked, List.cons_append] at *
    obtain ⟨o, h1, h2⟩ := h
    exact ⟨o, h1, stacked_append h2 h'⟩

theorem sourceOf_cons (n : Node) (ns : List Node) : sourceOf (n :: ns) = sourceOf [n] ++ sourceOf ns := by
  simp [sourceOf]

mutual
theorem newlines_source : ∀ n : Node, newlines n = (sourceOf [n]).count '\n'
  | .tok t => by simp [newlines, sourceOf]
  | .node ty a cs => by
    simp only [newlines]
    rw [newlinesL_source cs]
    simp [sourceOf]
theorem newlinesL_source : ∀ cs : List Node, newlinesL cs = (sourceOf cs).count '\n'
  | [] => by simp [newlinesL, sourceOf]
  | n :: ns => by
    rw [sourceOf_cons, List.count_append, ← newlines_source n, ← newlinesL_source ns]
    rfl
end

/-- Blocks and what contains them. -/
def isLevel (ty : NT) : Bool :=
  isUnit ty || ty == .whitespace || ty == .body || ty == .flowControl

theorem level_cases {ty : NT} (h : isLevel ty = true) :
    isUnit ty = true ∨ ty = .whitespace ∨ ty = .body ∨ ty = .flowControl := by
  simpa [isLevel, or_assoc] using h

theorem outline_unit {ty : NT} (h : isUnit ty = true) (d : Nat) (a : Attr) (cs : List Node) :
    outline d (.node ty a cs) = [.block d (.node ty a cs)] := by
  cases ty <;> first | rfl | simp [isUnit] at h

/-- A node without a box has no events. -/
theorem outline_nil {n : Node} (h : boxOf n = []) (d : Nat) : outline d n = [] := by
  cases n with
  | tok t => rfl
  | node ty a cs =>
    simp only [boxOf] at h
    split at h
    · rename_i hc
      obtain ⟨rfl, hc⟩ := hc
      simp only [outline]
      rw [← newlinesL_source, if_pos hc]
    · simp at h

theorem boxOf_cases (n : Node) : boxOf n = [] ∨ ∃ ty a cs, n = .node ty a cs ∧ boxOf n = [.mk ty a cs (boxesOf cs)] := by
  cases n with
  | tok t => exact Or.inl rfl
  | node ty a cs =>
    simp only [boxOf]
    split
    · exact Or.inl rfl
    · exact Or.inr ⟨ty, a, cs, rfl, rfl⟩

theorem isBody_false {ty : NT} {a : Attr} {cs : List Node} (h : ty ≠ .body) : isBody (.node ty a cs) = false := by
  cases ty <;> first | rfl | exact absurd rfl h

/-- Depth of a child. -/
def deeper (flow : Bool) (d : Nat) (n : Node) : Nat := if flow && isBody n then d + 1 else d

/-- Both ways of going through children. -/
def outlineKids (flow : Bool) (d : Nat) (cs : List Node) : List Event := cs.flatMap fun n => outline (deeper flow d n) n

theorem outlineBody_eq (d : Nat) (cs : List Node) : outlineBody d cs = outlineKids false d cs := by
  induction cs with
  | nil => rfl
  | cons c cs ih => simp [outlineBody, outlineKids, ih, deeper]

theorem outlineFlow_eq (d : Nat) (cs : List Node) : outlineFlow d cs = outlineKids true d cs := by
  induction cs with
  | nil => rfl
  | cons c cs ih => simp [outlineFlow, outlineKids, ih, deeper]

theorem outlineKids_nil {flow : Bool} {d : Nat} {cs : List Node} (h : boxesOf cs = []) : outlineKids flow d cs = [] := by
  induction cs with
  | nil => rfl
  | cons c cs ih =>
    simp only [boxesOf, List.append_eq_nil_iff] at h
    have := ih h.2
    simp only [outlineKids] at this
    simp [outlineKids, outline_nil h.1, this]

/-- The row of the next block. -/
def nextRow (prev : Option Box) (c : Cur) : Nat :=
  match prev with
  | none => c.row
  | some _ => c.row + 1

/-- What is known of the texts of every statement and comment. -/
def UnitRule (cfg : Cfg) (ctx : Ctx) (U : Cur → Node → List Piece → Cur → Prop) : Prop :=
  ∀ {ty : NT} {a : Attr} {cs : List Node} {b : Box} {c : Cur} {l : Laid} {o : Cur} {parent : Option Str} {ps : List Piece},
    isUnit ty = true → Neat ctx (.node ty a cs) → (∀ t ∈ toksL cs, TokOk t) →
    boxOf (.node ty a cs) = [.mk ty a cs (boxesOf cs)] → b = lock cfg (.mk ty a cs (boxesOf cs)) →
    tidy b = true → framed b = true → Sourced ctx parent b → Placed cfg b c l o → pieces cfg parent l = .ok ps →
    U c (.node ty a cs) ps o

/-- The words of a statement or a comment are written in order. -/
theorem unit_rule {W : Token → Piece → Prop} (R : Rule cfg ctx W) (hcfg : Markup.CleanCfg cfg.markup) :
    UnitRule cfg ctx (Unit' cfg W) := by
  intro ty a cs b c l o parent ps hu hn hk hcon hbe ht hf hs hp hps
  have hty : b.ty = ty := by rw [hbe, (lock_same cfg _).1]; rfl
  have h1 := prog_node (.node ty a cs) hn (by simpa using hk) (by simp)
  rw [hcon] at h1
  simp only [progBL, List.append_nil] at h1
  refine ⟨unit_spans hcfg (by rw [hty]; exact hu) ht hf hs hp hps, progB b, ?_, ?_, covers_node R b c l o parent ps hs hp hps⟩
  · rw [← Props.Parse.program_eq, ← h1, hbe]
    exact progB_lock cfg _
  · intro hauto
    rw [← Props.Parse.program_eq, ← h1, hbe, lock_id hauto]

section
variable {U : Cur → Node → List Piece → Cur → Prop} (R : UnitRule cfg ctx U) (hcfg : Markup.CleanCfg cfg.markup)
include R hcfg
set_option linter.unusedSectionVars false

/-- A statement or a comment is a block. -/
theorem stack_unit {ty : NT} {a : Attr} {cs : List Node} {d : Nat} {b : Box} {c : Cur} {l : Laid} {o : Cur} {parent : Option Str}
    {ps : List Piece} (hu : isUnit ty = true) (hn : Neat ctx (.node ty a cs)) (hk : ∀ t ∈ toksL cs, TokOk t)
    (hcon : boxOf (.node ty a cs) = [.mk ty a cs (boxesOf cs)]) (hbe : b = lock cfg (.mk ty a cs (boxesOf cs)))
    (ht : tidy b = true) (hf : framed b = true) (hs : Sourced ctx parent b) (hp : Placed cfg b c l o)
    (hps : pieces cfg parent l = .ok ps) (hcol : c.col = d * cfg.tabSize) :
    ∃ gs, ps = gs.flatten ∧ Stacked cfg U c.row [.block d (.node ty a cs)] gs (o.row + 1) := by
  refine ⟨[ps], by simp, ?_⟩
  simp only [Stacked]
  refine ⟨o, ?_, trivial, rfl⟩
  rw [← hcol]
  exact R hu hn hk hcon hbe ht hf hs hp hps

set_option maxHeartbeats 1000000 in
mutual
/-- A node at a column that belongs to its depth is stacked. -/
theorem stack_node : ∀ (n : Node) (d : Nat) (b : Box) (c : Cur) (l : Laid) (o : Cur) (parent : Option Str) (ps : List Piece),
    Neat ctx n → (∀ t ∈ n.toks, TokOk t) → lockL cfg (boxOf n) = [b] → isLevel b.ty = true → tidy b = true →
    framed b = true → Sourced ctx parent b → Placed cfg b c l o → pieces cfg parent l = .ok ps →
    c.col = d * cfg.tabSize →
    ∃ gs, ps = gs.flatten ∧ Stacked cfg U c.row (outline d n) gs (o.row + 1)
  | .tok t, d, b, c, l, o, parent, ps, _, _, hb, _, _, _, _, _, _, _ => by simp [boxOf, lockL] at hb
  | .node ty a cs, d, b, c, l, o, parent, ps, hn, hk, hb, hlev, ht, hf, hs, hp, hps, hcol => by
    have ht0 := ht
    have hp0 := hp
    have hps0 := hps
    have hcon : boxOf (.node ty a cs) = [.mk ty a cs (boxesOf cs)] := by
      rcases boxOf_cases (.node ty a cs) with h | ⟨ty', a', cs', e, h⟩
      · rw [h] at hb; simp [lockL] at hb
      · simp only [Node.node.injEq] at e
        obtain ⟨rfl, rfl, rfl⟩ := e
        exact h
    have hbe : b = lock cfg (.mk ty a cs (boxesOf cs)) := by
      rw [hcon] at hb
      simp only [lockL, List.cons.injEq, and_true] at hb
      exact hb.symm
    have hty : b.ty = ty := by rw [hbe, (lock_same cfg _).1]; rfl
    rw [hty] at hlev
    simp only [toks_node] at hk
    have hkidsN := (neat_node.1 hn).2
    have hneat := (neat_node.1 hn).1
    rcases level_cases hlev with hu | hu
    · rw [outline_unit hu]
      exact stack_unit R hcfg hu hn hk hcon hbe ht hf hs hp hps hcol
    · have hpl : lock cfg (.mk ty a cs (boxesOf cs)) = .mk ty a cs (lockL cfg (boxesOf cs)) := by
        refine lock_plain ⟨?_, ?_⟩ <;> (rintro rfl; simp at hu)
      rw [hpl] at hbe
      subst hbe
      cases l with
      | mk ty' a' pk' info lines kids' =>
        simp only [tidy, Bool.and_eq_true] at ht
        simp only [framed, Bool.and_eq_true] at hf
        simp only [Sourced] at hs
        simp only [Placed] at hp
        obtain ⟨rfl, rfl, rfl, rfl, hal, hp⟩ := hp
        rcases hu with rfl | rfl | rfl
        · simp only [pieces, Except.ok.injEq] at hps
          subst hps
          refine ⟨[], rfl, ?_⟩
          have : outline d (.node .whitespace a' pk') = [.blank] := by
            simp only [boxOf] at hcon
            split at hcon
            · simp at hcon
            · rename_i hc
              simp only [true_and] at hc
              simp only [outline]
              rw [← newlinesL_source, if_neg hc]
          rw [this, hp.2]
          exact ⟨rfl, rfl⟩
        · simp only [pieces] at hps
          have hlv : ∀ k ∈ lockL cfg (boxesOf pk'), isLevel k.ty = true := by
            intro k hk
            have := List.all_eq_true.1 hf.1 k hk
            have htk := tidyL_iff.1 ht.2 k hk
            revert this htk
            cases k with
            | mk kt _ _ _ => cases kt <;> simp [isBodyPart, isLevel, isUnit, Box.ty, tidy, tidyHere]
          obtain ⟨gs, r', e, h1, h2, h3⟩ := stack_list pk' false d none info.pos kids' o none ps info.pos.col 0
            hkidsN hk hlv ht.2 hf.2 hs.2 hp.2 hps hcol (by simp)
            (fun k hk he => by
              have := List.all_eq_true.1 hf.1 k hk
              rw [he] at this; simp [isBodyPart] at this)
          refine ⟨gs, e, ?_⟩
          simp only [outline]
          rw [outlineBody_eq]
          by_cases hnil : boxesOf pk' = []
          · have hz : outlineKids false d pk' = [] := outlineKids_nil hnil
            rw [hz] at h1 ⊢
            simp only [Stacked] at h1
            rw [h1.1, h3 hnil rfl]
            exact ⟨rfl, rfl⟩
          · have hr := h2 (Or.inl hnil)
            have hne : (outlineKids false d pk').isEmpty = false := by
              cases hz : outlineKids false d pk' with
              | cons x xs => rfl
              | nil =>
                exfalso
                rw [hz] at h1
                simp only [Stacked, nextRow] at h1
                have hle := (chain_node (cfg := cfg) hcfg _ _ _ _ _ _ none ht0 hp0 hps0 (by simp)).2.1
                have := Cur.le_row hle
                omega
            rw [hne, ← hr]
            exact h1
        · simp only [pieces] at hps
          have hlv : ∀ k ∈ lockL cfg (boxesOf pk'), isLevel k.ty = true := by
            intro k hk
            have := List.all_eq_true.1 hf.1 k hk
            simp only [Bool.or_eq_true, beq_iff_eq] at this
            rcases this with e | e <;> rw [e] <;> rfl
          obtain ⟨gs, r', e, h1, h2, h3⟩ := stack_list pk' true d none info.pos kids' o none ps info.pos.col cfg.tabSize
            hkidsN hk hlv ht.2 hf.2 hs.2 hp.2 hps hcol (by simp) (fun k hk he => Or.inl rfl)
          refine ⟨gs, e, ?_⟩
          simp only [outline]
          rw [outlineFlow_eq]
          have hne : boxesOf pk' ≠ [] := by
            intro hz
            have := hal.2 rfl
            rw [hz] at this
            simp [lockL, alternates] at this
          rw [← h2 (Or.inl hne)]
          exact h1
/-- The children of a body or of a flow-control block are stacked. -/
theorem stack_list : ∀ (cs : List Node) (flow : Bool) (d : Nat) (prev : Option Box) (c : Cur) (ls : List Laid) (o : Cur)
    (parent : Option Str) (ps : List Piece) (col tab : Nat),
    (∀ c ∈ cs, Neat ctx c) → (∀ t ∈ toksL cs, TokOk t) → (∀ k ∈ lockL cfg (boxesOf cs), isLevel k.ty = true) →
    tidyL (lockL cfg (boxesOf cs)) = true → framedL (lockL cfg (boxesOf cs)) = true →
    SourcedL ctx parent (lockL cfg (boxesOf cs)) → PlacedL cfg (Blocks col tab) prev c (lockL cfg (boxesOf cs)) ls o →
    piecesL cfg parent ls = .ok ps → col = d * cfg.tabSize → (flow = true → tab = cfg.tabSize) →
    (∀ k ∈ lockL cfg (boxesOf cs), k.ty = .body → flow = true ∨ False) →
    ∃ gs e, ps = gs.flatten ∧ Stacked cfg U (nextRow prev c) (outlineKids flow d cs) gs e ∧
      (boxesOf cs ≠ [] ∨ prev ≠ none → e = o.row + 1) ∧ (boxesOf cs = [] → prev = none → o = c)
  | [], flow, d, prev, c, ls, o, parent, ps, col, tab, _, _, _, _, _, _, hp, hps, _, _, _ => by
    simp only [boxesOf, lockL, PlacedL] at hp
    obtain ⟨rfl, rfl⟩ := hp
    simp only [piecesL, Except.ok.injEq] at hps
    subst hps
    refine ⟨[], nextRow prev o, rfl, ⟨rfl, rfl⟩, ?_, fun _ _ => rfl⟩
    cases prev <;> simp [boxesOf, nextRow]
  | n :: ns, flow, d, prev, c, ls, o, parent, ps, col, tab, hn, hk, hlv, ht, hf, hs, hp, hps, hcol, htab, hbody => by
    have hkn : ∀ t ∈ n.toks, TokOk t := fun t h => hk t (by simp [h])
    have hks : ∀ t ∈ toksL ns, TokOk t := fun t h => hk t (by simp [h])
    rcases boxOf_cases n with he | ⟨ty, a, cs, rfl, he⟩
    · have e : boxesOf (n :: ns) = boxesOf ns := by simp [boxesOf, he]
      have e2 : outlineKids flow d (n :: ns) = outlineKids flow d ns := by
        simp [outlineKids, outline_nil he]
      rw [e] at hp ht hf hs hlv hbody ⊢
      rw [e2]
      exact stack_list ns flow d prev c ls o parent ps col tab (fun x hx => hn x (by simp [hx])) hks hlv ht hf hs hp hps
        hcol htab hbody
    · generalize hbe : lock cfg (.mk ty a cs (boxesOf cs)) = b
      have e : lockL cfg (boxesOf (.node ty a cs :: ns)) = b :: lockL cfg (boxesOf ns) := by
        rw [boxesOf, he]
        simp [lockL, hbe]
      have e0 : boxesOf (.node ty a cs :: ns) ≠ [] := by
        rw [boxesOf, he]; simp
      have hty : b.ty = ty := by rw [← hbe, (lock_same cfg _).1]; rfl
      rw [e] at hp ht hf hs hlv hbody
      simp only [tidyL, Bool.and_eq_true] at ht
      simp only [framedL, Bool.and_eq_true] at hf
      simp only [SourcedL] at hs
      match ls, hp, hps with
      | [], hp, _ => simp [PlacedL] at hp
      | l :: ls, hp, hps =>
        simp only [PlacedL] at hp
        obtain ⟨c', o', hb, h1, hp⟩ := hp
        simp only [piecesL, bind_ok, Except.ok.injEq] at hps
        obtain ⟨p1, hp1, p2, hp2, rfl⟩ := hps
        have hrow : c'.row = nextRow prev c := by
          have := hb.2
          cases prev <;> exact this
        have hcol' : c'.col = deeper flow d (.node ty a cs) * cfg.tabSize := by
          rw [hb.1, hty]
          by_cases hB : ty = .body
          · subst hB
            have hfl : flow = true := (hbody b (by simp) hty).resolve_right id
            rw [if_pos rfl, hcol, htab hfl, hfl]
            simp [deeper, isBody, Nat.add_mul]
          · rw [if_neg hB, hcol]
            simp [deeper, isBody_false hB]
        obtain ⟨g1, e1, s1⟩ := stack_node (.node ty a cs) (deeper flow d (.node ty a cs)) b c' l o' parent p1
          (hn _ (by simp)) hkn (by rw [he]; simp [lockL, hbe]) (hlv b (by simp)) ht.1 hf.1 hs.1 h1 hp1 hcol'
        obtain ⟨g2, r', e2, s2, s3, s4⟩ := stack_list ns flow d (some b) o' ls o parent p2 col tab
          (fun x hx => hn x (by simp [hx])) hks (fun k hk => hlv k (by simp [hk])) ht.2 hf.2 hs.2 hp hp2 hcol htab
          (fun k hk => hbody k (by simp [hk]))
        refine ⟨g1 ++ g2, r', by rw [e1, e2]; simp, ?_, fun _ => s3 (Or.inr (by simp)), fun h => absurd h e0⟩
        rw [hrow] at s1
        exact stacked_append s1 s2
end
end

end

end Verif.Layout
