import Verif.Props.Layout
import Verif.Props.Text

/-!
# C15, C17, C23 and C29: the writer, the choice of a layout, letter case and the last line
-/

namespace Verif.Props.Write
open Verif Py Layout

/-! ## C15 -/

/-- `out` is `pre` followed by the texts in the given order, each exactly at its row and
column, with nothing in front of it but line ends and blanks. -/
def Shows (endl : Str) : Str → List (Cur × Str) → Str → Prop
  | pre, [], out => out = pre
  | pre, (c, s) :: ws, out =>
    ∃ m n, let gap := (List.replicate m endl).flatten ++ List.replicate n ' '
      advance ⟨0, 0⟩ (pre ++ gap) = c ∧ Shows endl (pre ++ gap ++ withEndings endl s) ws out

/-- Each text starts where the previous one ended, or after that. -/
def Ordered : Cur → List (Cur × Str) → Prop
  | _, [] => True
  | c, (d, s) :: ws => c.le d ∧ Ordered (advance d s) ws

theorem advance_endl {endl : Str} (h : endl = S "\n" ∨ endl = S "\r\n") (c : Cur) :
    advance c endl = ⟨c.row + 1, 0⟩ := by
  rcases h with rfl | rfl
  · rfl
  · rfl

theorem advance_withEndings {endl : Str} (h : endl = S "\n" ∨ endl = S "\r\n") (s : Str) (c : Cur) :
    advance c (withEndings endl s) = advance c s := by
  induction s generalizing c with
  | nil => rfl
  | cons x xs ih =>
    simp only [withEndings, advance_append, ih]
    by_cases hx : x = '\n'
    · rw [if_pos hx, advance_endl h]
      simp [advance, hx]
    · rw [if_neg hx]
      simp [advance, hx]

theorem advance_blanks (n : Nat) (c : Cur) : advance c (List.replicate n ' ') = ⟨c.row, c.col + n⟩ := by
  induction n generalizing c with
  | zero => rfl
  | succ n ih =>
    simp only [List.replicate_succ, advance, if_neg (by decide : (' ' : Char) ≠ '\n'), ih]
    simp; omega

theorem advance_endls {endl : Str} (h : endl = S "\n" ∨ endl = S "\r\n") (n : Nat) (c : Cur) :
    advance c (List.replicate (n + 1) endl).flatten = ⟨c.row + n + 1, 0⟩ := by
  induction n generalizing c with
  | zero => simp [advance_endl h]
  | succ n ih =>
    rw [List.replicate_succ, List.flatten_cons, advance_append, advance_endl h, ih]
    simp; omega

theorem space_form (endl : Str) (a b : Cur) :
    ∃ m n, space endl a b = (List.replicate m endl).flatten ++ List.replicate n ' ' := by
  unfold space
  split
  · exact ⟨_, _, rfl⟩
  · exact ⟨0, b.col - a.col, by simp⟩

theorem advance_space {endl : Str} (h : endl = S "\n" ∨ endl = S "\r\n") {a b : Cur} (hab : a.le b) :
    advance a (space endl a b) = b := by
  unfold space
  split
  · rename_i hr
    obtain ⟨k, hk⟩ : ∃ k, b.row - a.row = k + 1 := ⟨b.row - a.row - 1, by omega⟩
    rw [hk, advance_append, advance_endls h, advance_blanks]
    cases b; simp at hk ⊢; omega
  · rename_i hr
    rw [advance_blanks]
    rcases hab with hab | ⟨h1, h2⟩
    · omega
    · cases b; simp at h1 h2 ⊢; omega

theorem write_shows (cfg : Cfg) (hend : cfg.endl = S "\n" ∨ cfg.endl = S "\r\n") (ws : List (Cur × Str)) (w w' : W)
    (hw : w.cur = advance ⟨0, 0⟩ w.out)
    (h : ws.foldlM (fun w p => writeAt cfg w p.1 p.2) w = .ok w') :
    Shows cfg.endl w.out ws w'.out ∧ Ordered w.cur ws := by
  induction ws generalizing w with
  | nil =>
    simp only [List.foldlM_nil, pure, Except.pure, Except.ok.injEq] at h
    exact ⟨by rw [h]; rfl, trivial⟩
  | cons p ws ih =>
    obtain ⟨c, s⟩ := p
    rw [List.foldlM_cons, bind_ok] at h
    obtain ⟨w1, h1, h2⟩ := h
    unfold writeAt at h1
    split at h1
    · rename_i hb
      simp only [Except.ok.injEq] at h1
      rw [before_iff] at hb
      have hpos : advance ⟨0, 0⟩ (w.out ++ space cfg.endl w.cur c) = c := by
        rw [advance_append, ← hw, advance_space hend hb]
      have hcur : w1.cur = advance c s := by subst h1; exact flow_advance c s
      have hout : w1.out = w.out ++ space cfg.endl w.cur c ++ withEndings cfg.endl s := by
        subst h1; simp only [gap_eq, render_eq]
      obtain ⟨hs, ho⟩ := ih w1 (by rw [hcur, hout, advance_append, hpos, advance_withEndings hend]) h2
      obtain ⟨m, n, e⟩ := space_form cfg.endl w.cur c
      refine ⟨⟨m, n, ?_, ?_⟩, hb, by rw [← hcur]; exact ho⟩
      · rw [← e]; exact hpos
      · rw [← e, ← hout]; exact hs
    · simp at h1

/-- **C15.** Whatever is written in whatever order, if the writer does not raise then its
output shows each text, in that order, exactly at its row and column. -/
theorem writer_in_place (cfg : Cfg) (hend : cfg.endl = S "\n" ∨ cfg.endl = S "\r\n") (ws : List (Cur × Str)) (w : W)
    (h : ws.foldlM (fun w p => writeAt cfg w p.1 p.2) W.start = .ok w) : Shows cfg.endl [] ws w.out :=
  (write_shows cfg hend ws .start w rfl h).1

/-- **C15.** The writer raises exactly when some text would start before the end of the
previous one. -/
theorem writer_raises_iff (cfg : Cfg) (ws : List (Cur × Str)) :
    ws.foldlM (fun w p => writeAt cfg w p.1 p.2) W.start = .error .assertion ↔ ¬ Ordered ⟨0, 0⟩ ws := by
  suffices ∀ w : W, ws.foldlM (fun w p => writeAt cfg w p.1 p.2) w = .error .assertion ↔ ¬ Ordered w.cur ws from
    this .start
  intro w
  induction ws generalizing w with
  | nil => simp [Ordered, pure, Except.pure]
  | cons p ws ih =>
    obtain ⟨c, s⟩ := p
    rw [List.foldlM_cons]
    by_cases hb : w.cur.le c
    · have : writeAt cfg w c s =
          .ok { w with out := w.out ++ gap cfg.endl w.cur c ++ render cfg.endl s, cur := (flow c s).1 } := by
        unfold writeAt
        rw [if_pos (before_iff.2 hb)]
      simp only [this, bind, Except.bind, ih, flow_advance]
      simp [Ordered, hb]
    · have : writeAt cfg w c s = .error .assertion := by
        unfold writeAt
        rw [if_neg (by rw [before_iff]; exact hb)]
      simp [this, bind, Except.bind, Ordered, hb]

/-- What has been written stays. -/
theorem writer_appends (cfg : Cfg) (ws : List (Cur × Str)) (w w' : W)
    (h : ws.foldlM (fun w p => writeAt cfg w p.1 p.2) w = .ok w') : w.out <+: w'.out := by
  induction ws generalizing w with
  | nil =>
    simp only [List.foldlM_nil, pure, Except.pure, Except.ok.injEq] at h
    rw [h]
    exact List.prefix_refl _
  | cons p ws ih =>
    rw [List.foldlM_cons, bind_ok] at h
    obtain ⟨w1, h1, h2⟩ := h
    refine List.IsPrefix.trans ?_ (ih w1 h2)
    unfold writeAt at h1
    split at h1
    · simp only [Except.ok.injEq] at h1
      subst h1
      exact ⟨_, (List.append_assoc ..).symm⟩
    · simp at h1

example : ([(⟨0, 0⟩, S "foo("), (⟨0, 4⟩, S "\"a\nb\""), (⟨2, 4⟩, S "c")].foldlM
      (fun w p => writeAt { Props.Layout.exampleLayout with endl := S "\r\n" } w p.1 p.2) W.start).map (·.out) =
    .ok (S "foo(\"a\r\nb\"\r\n    c") := by decide +kernel

/-! ## C17 -/

/-- A layout is accepted: nothing inside it was rejected, it fits the line width, and, unless
it is wrapped vertically, it is not too long: a statement or keyword group with a long name
has at most two rows; other groups no more rows than configured, and they are not configured
to be always wrapped. -/
structure Acceptable (cfg : Cfg) (b : Box) (path : List Str) (start : Cur) (o : Out) : Prop where
  inside : o.valid = true
  width : (o.colext : Int) ≤ cfg.linewidth
  short : o.wrap = true ∨
    match b.ty with
    | .statement => o.cur.row ≤ start.row + 1 ∨ (prefixWidth cfg b.kids : Int) ≤ cfg.maxPrefixChars
    | .kwargGroup => o.cur.row ≤ start.row + 1 ∨ ((firstName b.kids).length : Int) ≤ cfg.maxPrefixChars
    | .body | .comment | .flowControl => join ['/'] path ∉ cfg.alwaysWrap
    | _ => ((o.cur.row - start.row : Nat) : Int) ≤ cfg.maxLinesHwrap ∧ join ['/'] path ∉ cfg.alwaysWrap

theorem acceptable_iff (cfg : Cfg) (b : Box) (path : List Str) (c : Cur) (o : Out) :
    (o.valid && validate cfg b path c o) = true ↔ Acceptable cfg b path c o := by
  rw [Bool.and_eq_true]
  have unfolded : Acceptable cfg b path c o ↔ o.valid = true ∧ (o.colext : Int) ≤ cfg.linewidth ∧
      (o.wrap = true ∨ match b.ty with
        | .statement => o.cur.row ≤ c.row + 1 ∨ (prefixWidth cfg b.kids : Int) ≤ cfg.maxPrefixChars
        | .kwargGroup => o.cur.row ≤ c.row + 1 ∨ ((firstName b.kids).length : Int) ≤ cfg.maxPrefixChars
        | .body | .comment | .flowControl => join ['/'] path ∉ cfg.alwaysWrap
        | _ => ((o.cur.row - c.row : Nat) : Int) ≤ cfg.maxLinesHwrap ∧ join ['/'] path ∉ cfg.alwaysWrap) :=
    ⟨fun h => ⟨h.1, h.2, h.3⟩, fun h => ⟨h.1, h.2.1, h.2.2⟩⟩
  rw [unfolded]
  refine and_congr_right fun _ => ?_
  unfold validate
  simp only
  by_cases hw : (o.colext : Int) > cfg.linewidth
  · rw [if_pos hw]
    simp; omega
  · rw [if_neg hw]
    have : (o.colext : Int) ≤ cfg.linewidth := by omega
    rw [and_iff_right this]
    cases o.wrap <;> cases b.ty <;> simp <;> omega

/-- Of the passes tried in turn, `p` with result `o` is the one whose result is kept: the
first accepted one, or the last one if none is. -/
def Chosen (attempt : Int × Bool → Except Err Out) (accepted : Out → Prop) (tried : List (Int × Bool))
    (p : Int × Bool) (o : Out) : Prop :=
  ∃ pre post, tried = pre ++ p :: post ∧ attempt p = .ok o ∧
    (∀ q ∈ pre, ∃ o', attempt q = .ok o' ∧ ¬ accepted o') ∧ (accepted o ∨ post = [])

theorem runPasses_iff {limit : Int} {att : Int × Bool → Except Err Out} {val : Out → Bool} {acc : Out → Prop}
    (hacc : ∀ o, (o.valid && val o) = true ↔ acc o) (ps : List (Int × Bool)) (best : Option (Int × Out)) (r : Int × Out) :
    runPasses limit att val best ps = .ok r ↔
      (ps.takeWhile (fun p => decide (p.1 ≤ limit)) = [] ∧ best = some r) ∨
      ∃ p o, Chosen att acc (ps.takeWhile (fun p => decide (p.1 ≤ limit))) p o ∧
        r = (p.1, { o with valid := o.valid && val o }) := by
  induction ps generalizing best with
  | nil =>
    simp only [runPasses, List.takeWhile_nil, Chosen]
    cases best with
    | none => simp
    | some b => simp
  | cons p ps ih =>
    simp only [runPasses]
    by_cases hp : p.1 > limit
    · rw [if_pos hp, List.takeWhile_cons_of_neg (by simp; omega)]
      cases best with
      | none => simp [Chosen]
      | some b => simp [Chosen]
    · rw [if_neg hp, List.takeWhile_cons_of_pos (by simp; omega)]
      cases ha : att p with
      | error e =>
        simp only [reduceCtorEq, false_and, false_or, false_iff, not_exists, not_and]
        rintro q o ⟨pre, post, e1, e2, e3, -⟩ -
        cases pre with
        | nil =>
          simp only [List.nil_append, List.cons.injEq] at e1
          rw [← e1.1, ha] at e2; simp at e2
        | cons x pre =>
          simp only [List.cons_append, List.cons.injEq] at e1
          obtain ⟨o', h1, -⟩ := e3 x (by simp)
          rw [← e1.1, ha] at h1; simp at h1
      | ok o =>
        simp only
        by_cases hok : (o.valid && val o) = true
        · rw [if_pos hok]
          simp only [Except.ok.injEq, reduceCtorEq, false_and, false_or]
          constructor
          · rintro rfl
            exact ⟨p, o, ⟨[], _, rfl, ha, by simp, Or.inl ((hacc o).1 hok)⟩, rfl⟩
          · rintro ⟨q, o2, ⟨pre, post, e1, e2, e3, -⟩, rfl⟩
            cases pre with
            | nil =>
              simp only [List.nil_append, List.cons.injEq] at e1
              rw [← e1.1, ha, Except.ok.injEq] at e2
              rw [← e1.1, ← e2]
            | cons x pre =>
              simp only [List.cons_append, List.cons.injEq] at e1
              obtain ⟨o', h1, h2⟩ := e3 x (by simp)
              rw [← e1.1, ha, Except.ok.injEq] at h1
              rw [← h1] at h2
              exact absurd ((hacc o).1 hok) h2
        · rw [if_neg hok, ih]
          have hna : ¬ acc o := fun h => hok ((hacc o).2 h)
          simp only [reduceCtorEq, false_and, false_or]
          constructor
          · rintro (⟨e1, e2⟩ | ⟨q, o2, ⟨pre, post, e1, e2, e3, e4⟩, rfl⟩)
            · simp only [Option.some.injEq] at e2
              exact ⟨p, o, ⟨[], [], by rw [e1]; rfl, ha, by simp, Or.inr rfl⟩, e2.symm⟩
            · refine ⟨q, o2, ⟨p :: pre, post, by rw [e1]; rfl, e2, ?_, e4⟩, rfl⟩
              intro x hx
              rcases List.mem_cons.1 hx with rfl | hx
              · exact ⟨o, ha, hna⟩
              · exact e3 x hx
          · rintro ⟨q, o2, ⟨pre, post, e1, e2, e3, e4⟩, rfl⟩
            cases pre with
            | nil =>
              simp only [List.nil_append, List.cons.injEq] at e1
              rw [← e1.1, ha, Except.ok.injEq] at e2
              subst e2
              rcases e4 with e4 | rfl
              · exact absurd e4 hna
              · exact Or.inl ⟨e1.2, by rw [e1.1]⟩
            | cons x pre =>
              simp only [List.cons_append, List.cons.injEq] at e1
              exact Or.inr ⟨q, o2, ⟨pre, post, e1.2, e2, fun y hy => e3 y (by simp [hy]), e4⟩, rfl⟩

/-- The passes a node may try: those configured for its class, or the built-in ones, up to
the first one numbered above its parent's pass; statements ignore their parent's pass. -/
def permitted (cfg : Cfg) (b : Box) (parent : Int) : List (Int × Bool) :=
  let limit := if b.ty = .statement then 5 else if b.ty = .atwordStatement then 0 else parent
  let table := match cfg.layoutPasses (className b.ty) with
    | some ps => ps
    | none => defaultPasses b.ty
  table.takeWhile fun p => decide (p.1 ≤ limit)

theorem permitted_eq (cfg : Cfg) (b : Box) (parent : Int) :
    permitted cfg b parent = (passesOf cfg b.ty).takeWhile fun p => decide (p.1 ≤ limitOf b.ty parent) := by
  unfold permitted passesOf limitOf
  cases b.ty <;> rfl

/-- **C17.** The layout of a node, its children being laid out by `reflow` as well, is that of
the first permitted pass whose result is accepted, and that of the last permitted pass if
none is; it is reported valid exactly if accepted. -/
theorem first_acceptable_pass (cfg : Cfg) (b : Box) (idx : Nat) (path : List Str) (term : Bool) (c : Cur) (parent : Int)
    (l : Laid) (out : Cur) :
    let path' := path ++ (pathName idx b).toList
    reflow cfg b idx path term c parent = .ok (l, out) ↔
      ∃ p o valid, Chosen (attempt cfg b (children cfg 0 b.kids) path' term c) (Acceptable cfg b path' c)
          (permitted cfg b parent) p o ∧
        (valid = true ↔ Acceptable cfg b path' c o) ∧
        l = .mk b.ty b.attr b.pkids { pos := c, passno := p.1, wrap := o.wrap, valid := valid, colext := o.colext }
          o.lines o.kids ∧ out = o.cur := by
  intro path'
  have hr : reflow cfg b idx path term c parent = reflowNode cfg b idx (children cfg 0 b.kids) path term c parent := by
    cases b; rw [reflow]; rfl
  rw [hr]
  unfold reflowNode
  have key := runPasses_iff (limit := limitOf b.ty parent)
    (att := attempt cfg b (children cfg 0 b.kids) path' term c) (val := validate cfg b path' c)
    (acceptable_iff cfg b path' c) (passesOf cfg b.ty) none
  rw [permitted_eq]
  constructor
  · intro h
    simp only at h
    split at h
    · simp at h
    · rename_i n o hn
      simp only [Except.ok.injEq, Prod.mk.injEq] at h
      rw [key] at hn
      simp only [reduceCtorEq, and_false, false_or] at hn
      obtain ⟨p, o', hch, e⟩ := hn
      simp only [Prod.mk.injEq] at e
      obtain ⟨rfl, rfl⟩ := e
      exact ⟨p, o', _, hch, acceptable_iff cfg b path' c o', h.1.symm, h.2.symm⟩
  · rintro ⟨p, o, valid, hch, hv, rfl, rfl⟩
    have hv' : valid = (o.valid && validate cfg b path' c o) := by
      rw [← acceptable_iff] at hv
      exact Bool.eq_iff_iff.2 hv
    have := (key (p.1, { o with valid := o.valid && validate cfg b path' c o })).2 (Or.inr ⟨p, o, hch, rfl⟩)
    simp only
    rw [this, hv']

/-- **C17.** The choice is unique: the layout of a node is a function of the node, the
configuration, its position and its parent's pass. -/
theorem chosen_unique {att : Int × Bool → Except Err Out} {acc : Out → Prop} {tried : List (Int × Bool)} {p p' : Int × Bool}
    {o o' : Out} (h : Chosen att acc tried p o) (h' : Chosen att acc tried p' o') : p = p' ∧ o = o' := by
  obtain ⟨pre, post, e1, e2, e3, e4⟩ := h
  obtain ⟨pre', post', f1, f2, f3, f4⟩ := h'
  have both : ∀ (q : Int × Bool), q = p → q = p' → p = p' ∧ o = o' := by
    rintro q rfl rfl
    rw [e2, Except.ok.injEq] at f2
    exact ⟨rfl, f2⟩
  induction pre generalizing pre' tried with
  | nil =>
    cases pre' with
    | nil =>
      rw [e1] at f1
      simp only [List.nil_append, List.cons.injEq] at f1
      exact both p rfl f1.1
    | cons x pre' =>
      rw [e1] at f1
      simp only [List.nil_append, List.cons_append, List.cons.injEq] at f1
      obtain ⟨y, g1, g2⟩ := f3 x (by simp)
      rw [← f1.1, e2, Except.ok.injEq] at g1
      subst g1
      rcases e4 with e4 | rfl
      · exact absurd e4 g2
      · simp at f1
  | cons x pre ih =>
    cases pre' with
    | nil =>
      rw [f1] at e1
      simp only [List.nil_append, List.cons_append, List.cons.injEq] at e1
      obtain ⟨y, g1, g2⟩ := e3 x (by simp)
      rw [← e1.1, f2, Except.ok.injEq] at g1
      subst g1
      rcases f4 with f4 | rfl
      · exact absurd f4 g2
      · simp at e1
    | cons x' pre' =>
      rw [e1] at f1
      simp only [List.cons_append, List.cons.injEq] at f1
      exact ih rfl (fun q hq => e3 q (by simp [hq])) pre' f1.2 (fun q hq => f3 q (by simp [hq]))

/-- The children of a laid out node. -/
def kidsOf : Laid → List Laid
  | .mk _ _ _ _ _ ks => ks

/-- The pass number, wrapping and validity of the first statement of a text. -/
def firstPass (s : Str) : Option (Int × Bool × Bool) :=
  match Parse.parse Props.Layout.exampleFile.ctx (Props.Lex.toks s) with
  | .ok tree =>
    match layoutTree { Props.Layout.exampleLayout with linewidth := 24 } tree with
    | .ok l => (kidsOf l).head?.map fun k => (k.info.passno, k.info.wrap, k.info.valid)
    | .error _ => none
  | .error _ => none

example : firstPass (S "foo(a b)") = some (0, false, true) ∧
    firstPass (S "foo_foo_foo(aaaa bbbb cccc dddd eeee)") = some (1, true, true) ∧
    firstPass (S "foo(aaaa bbbb cccc dddd eeee ffff gggg hhhh iiii jjjj)") = some (4, false, true) ∧
    firstPass (S "foo(aaaaaaaaaaaaaaaaaaaaaaaaaaaaaaaaaaaaaa)") = some (5, false, false) := by decide +kernel

/-! ## C23 -/

/-- **C23.** Whatever the options say, what is written for a word of the program (a command
name, a keyword, a flag, an argument) is the word itself up to letter case and line ends, or, for
a command name under `canonical`, the spelling configured for that command or known to
the command database. -/
theorem case_only (cfg : Cfg) (ty : Parse.NT) (parent : Option Str) (t : Lex.Token) (text : Str)
    (h : scalarText cfg ty parent t = .ok text) :
    SameLetters text t.spelling ∨ text = Text.normalizeLineEndings t.spelling ∨
    (ty = .funname ∧ cfg.commandCase t.spelling = S "canonical" ∧
      text = parent.getD (cfg.spelling t.spelling)) := by
  have kw : (if cfg.keywordCase = S "lower" then Except.ok (lower t.spelling)
      else if cfg.keywordCase = S "upper" then .ok (upper t.spelling)
      else .ok (Text.normalizeLineEndings t.spelling)) = (Except.ok text : Except Err Str) →
      SameLetters text t.spelling ∨ text = Text.normalizeLineEndings t.spelling := by
    intro h
    split at h
    · simp only [Except.ok.injEq] at h; subst h; exact Or.inl (lower_lower _)
    · split at h
      · simp only [Except.ok.injEq] at h; subst h; exact Or.inl (lower_upper _)
      · simp only [Except.ok.injEq] at h; subst h; exact Or.inr rfl
  cases ty
  case funname =>
    simp only [scalarText] at h
    split at h
    · simp only [Except.ok.injEq] at h; subst h; exact Or.inl (lower_lower _)
    · split at h
      · simp only [Except.ok.injEq] at h; subst h; exact Or.inl (lower_upper _)
      · split at h
        · rename_i hc
          refine Or.inr (Or.inr ⟨rfl, hc, ?_⟩)
          cases parent <;> (simp only [Except.ok.injEq] at h; subst h; rfl)
        · split at h
          · simp only [Except.ok.injEq] at h; subst h; exact Or.inr (Or.inl rfl)
          · simp at h
  case keyword => exact (kw h).imp_right Or.inl
  case flag => exact (kw h).imp_right Or.inl
  all_goals
    simp only [scalarText, Except.ok.injEq] at h
    exact Or.inr (Or.inl h.symm)

/-- **C23.** The two policies exactly: `lower`, `upper` and `unchanged` for command names, and
for keywords and flags; other words are never changed. -/
theorem case_exact (cfg : Cfg) (parent : Option Str) (t : Lex.Token) :
    (cfg.commandCase t.spelling = S "lower" → scalarText cfg .funname parent t = .ok (lower t.spelling)) ∧
    (cfg.commandCase t.spelling = S "upper" → scalarText cfg .funname parent t = .ok (upper t.spelling)) ∧
    (cfg.commandCase t.spelling = S "unchanged" → flatSpelling t.spelling = true →
      scalarText cfg .funname parent t = .ok t.spelling) ∧
    (cfg.commandCase t.spelling = S "canonical" →
      scalarText cfg .funname parent t = .ok (parent.getD (cfg.spelling t.spelling))) ∧
    (∀ ty, ty = .keyword ∨ ty = .flag →
      (cfg.keywordCase = S "lower" → scalarText cfg ty parent t = .ok (lower t.spelling)) ∧
      (cfg.keywordCase = S "upper" → scalarText cfg ty parent t = .ok (upper t.spelling)) ∧
      (cfg.keywordCase = S "unchanged" → flatSpelling t.spelling = true →
        scalarText cfg ty parent t = .ok t.spelling)) ∧
    (flatSpelling t.spelling = true → scalarText cfg .argument parent t = .ok t.spelling) := by
  refine ⟨?_, ?_, ?_, ?_, ?_, ?_⟩
  · intro h; simp only [scalarText, h, if_true]
  · intro h; simp only [scalarText, h, if_true, if_neg (by decide : S "upper" ≠ S "lower")]
  · intro h hf
    simp only [scalarText, h, if_true, if_neg (by decide : S "unchanged" ≠ S "lower"),
      if_neg (by decide : S "unchanged" ≠ S "upper"), if_neg (by decide : S "unchanged" ≠ S "canonical"), normalize_flat hf]
  · intro h
    simp only [scalarText, h, if_true, if_neg (by decide : S "canonical" ≠ S "lower"),
      if_neg (by decide : S "canonical" ≠ S "upper")]
    cases parent <;> rfl
  · rintro ty (rfl | rfl) <;> refine ⟨?_, ?_, ?_⟩
    all_goals first
      | (intro h; simp only [scalarText, h, if_true]; done)
      | (intro h; simp only [scalarText, h, if_true, if_neg (by decide : S "upper" ≠ S "lower")]; done)
      | (intro h hf
         simp only [scalarText, h, if_neg (by decide : S "unchanged" ≠ S "lower"),
           if_neg (by decide : S "unchanged" ≠ S "upper"), normalize_flat hf])
  · intro hf; simp only [scalarText, normalize_flat hf]

example : scalarText { Props.Layout.exampleLayout with keywordCase := S "upper" } .keyword none
    ⟨.word, S "public", 0, ⟨1, 0, 0⟩, ⟨1, 6, 6⟩⟩ = .ok (S "PUBLIC") := by decide +kernel

/-! ## C29 -/

theorem splitOn_snoc (s : Str) : splitOn '\n' (s ++ ['\n']) = splitOn '\n' s ++ [[]] := by
  induction s with
  | nil => rfl
  | cons x xs ih =>
    simp only [List.cons_append, splitOn]
    rw [ih]
    cases h : splitOn '\n' xs with
    | nil => exact absurd h (splitOn_ne_nil _ _)
    | cons l ls => by_cases hx : x = '\n' <;> simp [hx]

theorem splitOn_char {x : Char} (hx : x ≠ '\n') (s : Str) :
    ∃ ls l, splitOn '\n' (s ++ [x]) = ls ++ [l ++ [x]] := by
  induction s with
  | nil => exact ⟨[], [], by simp [splitOn, hx]⟩
  | cons y ys ih =>
    obtain ⟨ls, l, e⟩ := ih
    simp only [List.cons_append, splitOn]
    rw [e]
    by_cases hy : y = '\n'
    · exact ⟨[] :: ls, l, by simp [hy]⟩
    · cases ls with
      | nil => exact ⟨[], y :: l, by simp [hy]⟩
      | cons k ls => exact ⟨(y :: k) :: ls, l, by simp [hy]⟩

theorem join_snoc (ls : List Str) (hne : ls ≠ []) (l : Str) : join ['\n'] (ls ++ [l]) = join ['\n'] ls ++ '\n' :: l := by
  induction ls with
  | nil => exact absurd rfl hne
  | cons a ls ih =>
    cases ls with
    | nil => simp [join]
    | cons b ls => simp only [List.cons_append, join] at ih ⊢; rw [ih (by simp)]; simp

theorem tabLines_snoc {cfg : Text.TabConfig} (ls : List Str) (l : Str) (os : List Str)
    (h : Text.tabLines cfg (ls ++ [l]) = .ok os) :
    ∃ os' o, os = os' ++ [o] ∧ Text.tabLines cfg ls = .ok os' ∧ Text.tabLine cfg l = .ok o := by
  induction ls generalizing os with
  | nil =>
    simp only [List.nil_append, Text.tabLines] at h
    cases hl : Text.tabLine cfg l with
    | error e => simp [hl] at h
    | ok o =>
      simp only [hl, Except.ok.injEq] at h
      exact ⟨[], o, h.symm, rfl, rfl⟩
  | cons a ls ih =>
    simp only [List.cons_append, Text.tabLines] at h ⊢
    cases ha : Text.tabLine cfg a with
    | error e => simp [ha] at h
    | ok a' =>
      simp only [ha] at h ⊢
      cases hl : Text.tabLines cfg (ls ++ [l]) with
      | error e => simp [hl] at h
      | ok os1 =>
        simp only [hl, Except.ok.injEq] at h
        obtain ⟨os', o, e1, e2, e3⟩ := ih os1 hl
        exact ⟨a' :: os', o, by rw [← h, e1]; rfl, by rw [e2], e3⟩

theorem tabLine_nil {cfg : Text.TabConfig} {o : Str} (h : Text.tabLine cfg [] = .ok o) : o = [] := by
  rcases Props.Text.tabLine_spec cfg [] with ⟨_, e⟩ | ⟨o', e, hr⟩ | ⟨_, _, _, _, e⟩
  · rw [e] at h; simp at h
  · rw [e, Except.ok.injEq] at h
    subst h
    generalize hl : ([] : Str) = l at hr
    cases hr with
    | blankLine n => rfl
    | whole k c text hc => simp at hl
    | spaces k r c text hc hr hp => simp at hl
    | roundUp k r c text hc hr hp => simp at hl
  · rw [e] at h; simp at h

theorem tabLine_char {cfg : Text.TabConfig} {l o : Str} {x : Char} (hx : x ≠ ' ') (h : Text.tabLine cfg (l ++ [x]) = .ok o) :
    ∃ o', o = o' ++ [x] := by
  have tail : ∀ {a b : Str} {c : Char} {text : Str}, a ++ c :: text = l ++ [x] → ∃ o', b ++ c :: text = o' ++ [x] := by
    intro a b c text e
    have h1 : (a ++ c :: text).getLast? = some x := by rw [e]; simp
    have h2 : (c :: text).getLast? = some x := by
      rw [List.getLast?_append] at h1
      cases hc : (c :: text).getLast? with
      | none => simp at hc
      | some y => rw [hc] at h1; simpa using h1
    obtain ⟨ys, e2⟩ := List.getLast?_eq_some_iff.1 h2
    exact ⟨b ++ ys, by rw [e2]; simp⟩
  rcases Props.Text.tabLine_spec cfg (l ++ [x]) with ⟨_, e⟩ | ⟨o', e, hr⟩ | ⟨_, _, _, _, e⟩
  · rw [e] at h; simp at h
  · rw [e, Except.ok.injEq] at h
    subst h
    generalize hl : l ++ [x] = l' at hr
    cases hr with
    | blankLine n =>
      have : x ∈ List.replicate n ' ' := by rw [← hl]; simp
      exact absurd (List.eq_of_mem_replicate this) hx
    | whole k c text hc => exact tail hl.symm
    | spaces k r c text hc hr hp => exact tail hl.symm
    | roundUp k r c text hc hr hp => exact tail hl.symm
  · rw [e] at h; simp at h

theorem tabs_keep_end {cfg : Text.TabConfig} {s endl out : Str} (hend : endl = S "\n" ∨ endl = S "\r\n")
    (h : Text.replaceWithTabs (s ++ endl) cfg = .ok out) : ∃ pre, out = pre ++ endl := by
  unfold Text.replaceWithTabs at h
  split at h
  · simp only [Except.ok.injEq] at h
    exact ⟨s, h.symm⟩
  · split at h
    · simp at h
    · rename_i ls hls
      simp only [Except.ok.injEq] at h
      subst h
      have one : ∀ (u : Str), Text.tabLines cfg (splitOn '\n' (u ++ ['\n'])) = .ok ls →
          ∃ os, Text.tabLines cfg (splitOn '\n' u) = .ok os ∧ join ['\n'] ls = join ['\n'] os ++ ['\n'] := by
        intro u hu
        rw [splitOn_snoc] at hu
        obtain ⟨os, o, e1, e2, e3⟩ := tabLines_snoc _ _ _ hu
        have := tabLine_nil e3
        subst this
        refine ⟨os, e2, ?_⟩
        rw [e1, join_snoc]
        intro he
        subst he
        have := (Props.Text.tabLines_ok e2).length
        exact splitOn_ne_nil '\n' u (List.length_eq_zero_iff.1 (by simpa using this))
      rcases hend with rfl | rfl
      · obtain ⟨os, -, e⟩ := one s hls
        exact ⟨_, e⟩
      · have e0 : s ++ S "\r\n" = (s ++ ['\r']) ++ ['\n'] := by
          rw [List.append_assoc]; rfl
        rw [e0] at hls
        obtain ⟨os, h1, e⟩ := one _ hls
        obtain ⟨as, a, e2⟩ := splitOn_char (x := '\r') (by decide) s
        rw [e2] at h1
        obtain ⟨os', o, f1, f2, f3⟩ := tabLines_snoc _ _ _ h1
        obtain ⟨o', f4⟩ := tabLine_char (by decide) f3
        rw [e, f1, f4]
        by_cases hos : os' = []
        · exact ⟨o', by rw [hos]; show o' ++ ['\r'] ++ ['\n'] = _; rw [List.append_assoc]; rfl⟩
        · rw [join_snoc _ hos]
          exact ⟨join ['\n'] os' ++ '\n' :: o', by
            simp only [List.append_assoc, List.cons_append]; rfl⟩

/-- **C29.** Whatever the file and the configuration, a successful run ends its output with
the line end of that file. -/
theorem ends_with_line_end (cfg : FileCfg) (content text : Str) (valid : Bool)
    (hend : Props.Layout.lineEnd cfg content = S "\n" ∨ Props.Layout.lineEnd cfg content = S "\r\n")
    (h : processFile cfg content = .ok (text, valid)) :
    ∃ pre, text = pre ++ Props.Layout.lineEnd cfg content := by
  unfold processFile at h
  rw [Props.Parse.tokenize_toks] at h
  simp only at h
  split at h
  · simp at h
  · split at h
    · simp at h
    · split at h
      · simp at h
      · rename_i out h4
        split at h
        · simp at h
        · rename_i t h5
          simp only [Except.ok.injEq, Prod.mk.injEq] at h
          obtain ⟨rfl, -⟩ := h
          simp only [writeTree] at h4
          split at h4
          · simp at h4
          · rename_i w hw
            simp only [Except.ok.injEq] at h4
            subst h4
            have he : (cfg.cfgFor content (Props.Lex.toks content)).endl = Props.Layout.lineEnd cfg content := rfl
            rw [he] at h5
            split at h5
            · rw [← List.cons_append] at h5
              exact tabs_keep_end hend h5
            · exact tabs_keep_end hend h5

/-- With detection, or with either of the documented settings, the hypothesis of
`ends_with_line_end` holds. -/
theorem lineEnd_cases (cfg : FileCfg) (content : Str) (h : cfg.auto = true ∨ cfg.layout.endl = S "\n" ∨ cfg.layout.endl = S "\r\n") :
    Props.Layout.lineEnd cfg content = S "\n" ∨ Props.Layout.lineEnd cfg content = S "\r\n" := by
  unfold Props.Layout.lineEnd
  split
  · cases Text.detectLineEndings content
    · exact Or.inl rfl
    · exact Or.inr rfl
  · rename_i hn
    rcases h with h | h
    · exact absurd h hn
    · exact h

example : (processFile { Props.Layout.exampleFile with auto := true, tabs := ⟨true, 2, S "use-space"⟩ }
      (S "if(a)\r\nfoo(b)\r\nendif()")).map (·.1) = .ok (S "if(a)\r\n\tfoo(b)\r\nendif()\r\n") := by decide +kernel

end Verif.Props.Write
