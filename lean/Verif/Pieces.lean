import Verif.LayoutSpec
import Verif.LayoutLemmas

/-!
# The texts of a laid out tree, and writing them
-/

namespace Verif.Layout
open Verif Py Lex Parse

/-! ## Texts of a tree -/

/-- The kind of a word. -/
def kindOf : NT → PK
  | .funname => .name
  | _ => .word

/-- The lines of a comment. -/
def linePieces : Cur → List Str → List Piece
  | _, [] => []
  | c, l :: ls => ⟨.line, c, l⟩ :: linePieces ⟨c.row + 1, c.col⟩ ls

mutual
/-- What `writeNode` writes when nothing is switched off. -/
def pieces (cfg : Cfg) : Option Str → Laid → Except Err (List Piece)
  | parent, .mk ty attr pkids info lines kids =>
    match ty with
    | .lparen => .ok [⟨.lparen, info.pos, S "("⟩]
    | .rparen => .ok [⟨.rparen, info.pos, S ")"⟩]
    | .funname | .argument | .keyword | .flag | .atword => do
      let t ← headTok pkids
      let text ← scalarText cfg ty parent t
      check (decide (kids.length ≤ 1) && kids.all (fun k => k.ty == .comment))
      let ps ← piecesL cfg none kids
      .ok (⟨kindOf ty, info.pos, text⟩ :: ps)
    | .onoff => .error .assertion
    | .comment =>
      match bracketOf pkids with
      | some t => .ok [⟨.bracket, info.pos, Text.normalizeLineEndings t.spelling⟩]
      | none => .ok (linePieces info.pos lines)
    | .whitespace => .ok []
    | .statement | .atwordStatement | .argGroup | .parenGroup => piecesL cfg attr.spelling kids
    | .body | .flowControl | .pargGroup | .flagGroup | .kwargGroup => piecesL cfg none kids
/-- The children in order. -/
def piecesL (cfg : Cfg) : Option Str → List Laid → Except Err (List Piece)
  | _, [] => .ok []
  | parent, l :: ls => do
    let a ← pieces cfg parent l
    let b ← piecesL cfg parent ls
    .ok (a ++ b)
end

mutual
/-- No format switch in the tree. -/
def noSwitch : Laid → Bool
  | .mk ty _ _ _ _ kids => ty != .onoff && noSwitchL kids
/-- All of them. -/
def noSwitchL : List Laid → Bool
  | [] => true
  | l :: ls => noSwitch l && noSwitchL ls
end

/-- Write texts in order. -/
def writePieces (cfg : Cfg) : List Piece → W → Except Err W
  | [], w => .ok w
  | p :: ps, w => do
    let w' ← writeAt cfg w p.pos p.text
    writePieces cfg ps w'

theorem writePieces_append {cfg : Cfg} (ps qs : List Piece) (w : W) :
    writePieces cfg (ps ++ qs) w = (writePieces cfg ps w >>= writePieces cfg qs) := by
  induction ps generalizing w with
  | nil => simp [writePieces, bind, Except.bind]
  | cons p ps ih =>
    simp only [List.cons_append, writePieces]
    cases writeAt cfg w p.pos p.text with
    | error e => rfl
    | ok w' => exact ih w'

theorem writeAt_off {cfg : Cfg} {w w' : W} {c : Cur} {s : Str} (h : writeAt cfg w c s = .ok w') :
    w'.off = w.off := by
  unfold writeAt at h
  split at h
  · simp only [Except.ok.injEq] at h; subst h; rfl
  · simp at h

theorem writePieces_off {cfg : Cfg} {ps : List Piece} {w w' : W} (h : writePieces cfg ps w = .ok w') :
    w'.off = w.off := by
  induction ps generalizing w with
  | nil => simp only [writePieces, Except.ok.injEq] at h; rw [h]
  | cons p ps ih =>
    simp only [writePieces, bind_ok] at h
    obtain ⟨w1, h1, h2⟩ := h
    rw [ih h2, writeAt_off h1]

theorem writeLines_eq {cfg : Cfg} (c : Cur) (ls : List Str) (w : W) :
    writeLines cfg c ls w = writePieces cfg (linePieces c ls) w := by
  induction ls generalizing c w with
  | nil => rfl
  | cons l ls ih =>
    simp only [writeLines, linePieces, writePieces]
    cases writeAt cfg w c l with
    | error e => rfl
    | ok w' => exact ih _ w'

mutual
/-- Writing a tree without switches is writing its texts. -/
theorem writeNode_ok {cfg : Cfg} {content : Str} : ∀ (l : Laid) (parent : Option Str) (w w' : W),
    noSwitch l = true → w.off = none → writeNode cfg content parent l w = .ok w' →
    ∃ ps, pieces cfg parent l = .ok ps ∧ writePieces cfg ps w = .ok w'
  | .mk ty attr pkids info lines kids, parent, w, w', hn, hw, h => by
    simp only [noSwitch, Bool.and_eq_true, bne_iff_ne, ne_eq] at hn
    have one : ∀ {k : PK} {c : Cur} {s : Str}, writeAt cfg w c s = .ok w' →
        writePieces cfg [⟨k, c, s⟩] w = .ok w' := by
      intro k c s h
      simp only [writePieces, h]; rfl
    cases ty <;> simp only [writeNode, pieces, hw, Option.isSome_none, Bool.false_eq_true, if_false] at h ⊢
    case lparen => exact ⟨_, rfl, one h⟩
    case rparen => exact ⟨_, rfl, one h⟩
    case onoff => simp at hn
    case comment =>
      cases hb : bracketOf pkids with
      | some t => simp only [hb] at h ⊢; exact ⟨_, rfl, one h⟩
      | none => simp only [hb] at h ⊢; exact ⟨_, rfl, by rw [← writeLines_eq]; exact h⟩
    case whitespace =>
      simp only [Except.ok.injEq] at h
      exact ⟨[], rfl, by simp [writePieces, h]⟩
    case statement => exact writeL_ok kids _ w w' hn.2 hw h
    case atwordStatement => exact writeL_ok kids _ w w' hn.2 hw h
    case argGroup => exact writeL_ok kids _ w w' hn.2 hw h
    case parenGroup => exact writeL_ok kids _ w w' hn.2 hw h
    case body => exact writeL_ok kids _ w w' hn.2 hw h
    case flowControl => exact writeL_ok kids _ w w' hn.2 hw h
    case pargGroup => exact writeL_ok kids _ w w' hn.2 hw h
    case flagGroup => exact writeL_ok kids _ w w' hn.2 hw h
    case kwargGroup => exact writeL_ok kids _ w w' hn.2 hw h
    all_goals
      cases ht : headTok pkids with
      | error e => simp [ht] at h
      | ok t =>
        simp only [ht] at h ⊢
        generalize hsc : scalarText cfg _ parent t = sc at h ⊢
        cases sc with
        | error e => simp at h
        | ok text =>
          simp only at h
          cases hw1 : writeAt cfg w info.pos text with
          | error e => simp [hw1] at h
          | ok w1 =>
            simp only [hw1] at h
            split at h
            · rename_i hk
              obtain ⟨ps, h1, h2⟩ := writeL_ok kids none w1 w' hn.2 ((writeAt_off hw1).trans hw) h
              simp only [bind_ok, check_ok, Except.ok.injEq, Bool.and_eq_true, decide_eq_true_eq]
              refine ⟨_, ⟨t, rfl, text, hsc, (), hk, ps, h1, rfl⟩, ?_⟩
              simp only [writePieces, bind_ok]
              exact ⟨w1, hw1, h2⟩
            · simp at h
theorem writeL_ok {cfg : Cfg} {content : Str} : ∀ (ls : List Laid) (parent : Option Str) (w w' : W),
    noSwitchL ls = true → w.off = none → writeL cfg content parent ls w = .ok w' →
    ∃ ps, piecesL cfg parent ls = .ok ps ∧ writePieces cfg ps w = .ok w'
  | [], parent, w, w', _, _, h => by
    simp only [writeL, Except.ok.injEq] at h
    exact ⟨[], by simp [piecesL], by simp [writePieces, h]⟩
  | l :: ls, parent, w, w', hn, hw, h => by
    simp only [noSwitchL, Bool.and_eq_true] at hn
    simp only [writeL] at h
    cases h1 : writeNode cfg content parent l w with
    | error e => simp [h1] at h
    | ok w1 =>
      simp only [h1] at h
      obtain ⟨ps, a1, a2⟩ := writeNode_ok l parent w w1 hn.1 hw h1
      obtain ⟨qs, b1, b2⟩ := writeL_ok ls parent w1 w' hn.2 ((writePieces_off a2).trans hw) h
      refine ⟨ps ++ qs, ?_, ?_⟩
      · simp only [piecesL, bind_ok, Except.ok.injEq]
        exact ⟨ps, a1, qs, b1, rfl⟩
      · rw [writePieces_append, a2]; exact b2
end

/-! ## Positions -/

theorem walk_fst (ls : List Str) : ∀ (c : Cur) (e e' : Nat), (walk c e ls).1 = (walk c e' ls).1 := by
  induction ls with
  | nil => intros; rfl
  | cons l ls ih => intro c e e'; simp only [walk]; exact ih _ _ _

theorem advance_append (c : Cur) (a b : Str) : advance c (a ++ b) = advance (advance c a) b := by
  induction a generalizing c with
  | nil => rfl
  | cons x xs ih => simp only [List.cons_append, advance, ih]

theorem splitOn_ne (sep : Char) (s : Str) : splitOn sep s ≠ [] := by
  cases s with
  | nil => simp [splitOn]
  | cons c cs =>
    simp only [splitOn]
    split
    · simp
    · split <;> simp

theorem flow_advance (c : Cur) (s : Str) : (flow c s).1 = advance c s := by
  induction s generalizing c with
  | nil => rfl
  | cons x xs ih =>
    simp only [advance]
    by_cases hx : x = '\n'
    · subst hx
      simp only [if_true]
      rw [← ih]
      simp only [flow, splitOn, if_true]
      cases h : splitOn '\n' xs with
      | nil => exact absurd h (splitOn_ne _ _)
      | cons l ls =>
        simp only [walk, Cur.right]
        rw [Nat.zero_add]
        exact walk_fst ls _ _ _
    · simp only [if_neg hx]
      rw [← ih]
      simp only [flow, splitOn, if_neg hx]
      cases h : splitOn '\n' xs with
      | nil => exact absurd h (splitOn_ne _ _)
      | cons l ls =>
        simp only [Cur.right, List.length_cons]
        rw [walk_fst ls]
        congr 2
        simp only [Cur.mk.injEq, true_and]
        omega

theorem render_eq (endl s : Str) : render endl s = withEndings endl s := by
  unfold render
  induction s with
  | nil => rfl
  | cons x xs ih =>
    simp only [splitOn, withEndings]
    cases h : splitOn '\n' xs with
    | nil => exact absurd h (splitOn_ne _ _)
    | cons l ls =>
      rw [h] at ih
      by_cases hx : x = '\n'
      · simp only [if_pos hx, join]
        rw [← ih]; simp
      · simp only [if_neg hx]
        rw [← ih]
        cases ls <;> simp [join]

theorem times_eq (s : Str) (n : Nat) : times s n = (List.replicate n s).flatten := by
  induction n with
  | zero => rfl
  | succ n ih => simp [times, ih, List.replicate_succ]

theorem before_iff {a b : Cur} : before a b = true ↔ a.le b := by
  simp [before, Cur.le]

theorem gap_eq {endl : Str} {a b : Cur} : gap endl a b = space endl a b := by
  unfold gap space
  by_cases hr : a.row < b.row
  · rw [if_neg (by omega), if_pos hr, times_eq]; rfl
  · rw [if_pos (by omega), if_neg hr]; rfl

/-- Where the texts end. -/
def lastStop : Cur → List Piece → Cur
  | c, [] => c
  | _, p :: ps => lastStop p.stop ps

/-- The writer either fails or puts every text where it belongs. -/
theorem writePieces_iff {cfg : Cfg} {ps : List Piece} {w w' : W} :
    writePieces cfg ps w = .ok w' ↔
      InOrder w.cur ps ∧
        w' = { out := w.out ++ weave cfg.endl w.cur ps, cur := lastStop w.cur ps, off := w.off } := by
  induction ps generalizing w with
  | nil =>
    simp only [writePieces, InOrder, weave, lastStop, List.append_nil, true_and, Except.ok.injEq]
    exact eq_comm
  | cons p ps ih =>
    simp only [writePieces, bind_ok, ih, InOrder, weave, lastStop]
    constructor
    · rintro ⟨w1, h1, h2, rfl⟩
      unfold writeAt at h1
      split at h1
      · rename_i hb
        simp only [Except.ok.injEq] at h1
        subst h1
        rw [before_iff] at hb
        rw [flow_advance] at h2
        refine ⟨⟨hb, h2⟩, ?_⟩
        simp only [gap_eq, render_eq, flow_advance, Piece.stop, List.append_assoc]
      · simp at h1
    · rintro ⟨⟨hb, h2⟩, rfl⟩
      refine ⟨{ out := w.out ++ space cfg.endl w.cur p.pos ++ withEndings cfg.endl p.text,
                cur := p.stop, off := w.off }, ?_, ?_, ?_⟩
      · unfold writeAt
        rw [if_pos (before_iff.2 hb), gap_eq, render_eq, flow_advance]; rfl
      · exact h2
      · simp [List.append_assoc]

end Verif.Layout
