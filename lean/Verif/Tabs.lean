import Verif.RelexWeave
import Verif.Props.Text

/-!
# Texts at positions, indented with tabs

The texts of an output keep their places when the blanks at the start of a line become tabs,
as long as no text has a line of its own that starts with a blank.
-/

namespace Verif.Layout
open Verif Py Lex Props.Lex

/-! ## Gaps with tabs -/

/-- How many columns a gap has after its last line end. -/
def gapWidth (a b : Cur) : Nat := if a.row < b.row then b.col else b.col - a.col

/-- A text of blanks and tabs. -/
def Blanks (w : Str) : Prop := ∀ c ∈ w, c = ' ' ∨ c = '\t'

/-- A gap between two positions: the line ends between them, then blanks or tabs, none if
there is no column to fill. -/
def IsGap (a b : Cur) (s : Str) : Prop :=
  ∃ w, s = List.replicate (b.row - a.row) '\n' ++ w ∧ Blanks w ∧ (w = [] ↔ gapWidth a b = 0)

/-- Texts at positions, with such gaps between, and a line end. -/
inductive Loose : Cur → List Piece → Str → Prop
  | nil (c : Cur) : Loose c [] ['\n']
  | cons {c : Cur} {p : Piece} {ps : List Piece} {s rest : Str} (hg : IsGap c p.pos s) (hr : Loose p.stop ps rest) :
      Loose c (p :: ps) (s ++ (p.text ++ rest))

/-- The tokens of a gap. -/
def GapToks (a b : Cur) (g : List (TokType × Str)) : Prop :=
  ∃ w, Blanks w ∧ (w = [] ↔ gapWidth a b = 0) ∧
    g = List.replicate (b.row - a.row) (.newline, ['\n']) ++ if w = [] then [] else [(.whitespace, w)]

theorem GapToks.busy {a b : Cur} {g : List (TokType × Str)} (h : GapToks a b g) : busy g = [] := by
  obtain ⟨w, _, _, rfl⟩ := h
  rw [busy_append]
  split <;> simp [Layout.busy, isIdle]

theorem lex_blanks_tabs (prev : Option Char) {w : Str} (hw : Blanks w) (hne : w ≠ []) (rest : Str)
    (h : ∀ c, rest.head? = some c → isBlank c = false) : lexOne prev (w ++ rest) = some (.whitespace, w, rest) := by
  have hb : ∀ x ∈ w, isBlank x = true := by
    intro x hx; rcases hw x hx with rfl | rfl <;> rfl
  have ht : (w ++ rest).takeWhile isBlank = w := by
    rw [List.takeWhile_append_of_pos hb]
    cases rest with
    | nil => simp
    | cons c cs => simp [h c rfl]
  have hd : (w ++ rest).dropWhile isBlank = rest := by
    rw [List.dropWhile_append_of_pos hb]
    cases rest with
    | nil => rfl
    | cons c cs => simp [h c rfl]
  have r14 : ruleBlank (w ++ rest) = some (w, rest) := by
    unfold ruleBlank
    rw [ht, hd]
    cases w with
    | nil => exact absurd rfl hne
    | cons => rfl
  cases w with
  | nil => exact absurd rfl hne
  | cons c cs =>
    rw [List.cons_append] at r14 ⊢
    unfold lexOne
    rcases hw c (by simp) with rfl | rfl
    · rw [dq_none (by decide), sq_none (by decide), ba_none (by decide), num_none (by decide) (by decide),
        word_none (by decide), at_none (by decide), deref_none (by decide), leg_none (by rfl), r14]
      simp [tryRule, ruleChar, ruleNewline]
    · rw [dq_none (by decide), sq_none (by decide), ba_none (by decide), num_none (by decide) (by decide),
        word_none (by decide), at_none (by decide), deref_none (by decide), leg_none (by rfl), r14]
      simp [tryRule, ruleChar, ruleNewline]

theorem blanks_space {w : Str} (h : Blanks w) : ∀ c ∈ w, isSpace c = true := by
  intro c hc; rcases h c hc with rfl | rfl <;> rfl

theorem flatten_feeds (n : Nat) : (List.replicate n ['\n']).flatten = List.replicate n '\n' := by
  induction n with
  | zero => rfl
  | succ n ih => rw [List.replicate_succ, List.flatten_cons, ih]; rfl

/-- The text of a gap is read as blanks and line ends. -/
theorem lexes_gap {a b : Cur} {s : Str} (hg : IsGap a b s) (rest : Str) (prev : Option Char) (Q : List (TokType × Str) → Prop)
    (hle : a.le b) (hb : ∀ c, rest.head? = some c → isBlank c = false)
    (h : ∀ p, (a = b ∧ p = prev) ∨ (a.lt b ∧ prevOk p = true) → ∃ out, Lexes p rest out ∧ Q out) :
    ∃ g out, GapToks a b g ∧ Lexes prev (s ++ rest) (g ++ out) ∧ Q out := by
  obtain ⟨w, rfl, hw, hz⟩ := hg
  -- the blanks
  have blanks : ∀ (q : Option Char) (out : List (TokType × Str)),
      (∀ p, (w = [] ∧ p = q) ∨ (w ≠ [] ∧ w.getLast? = p) → Lexes p rest out) →
      Lexes q (w ++ rest) ((if w = [] then [] else [(.whitespace, w)]) ++ out) := by
    intro q out hl
    by_cases he : w = []
    · rw [if_pos he]
      subst he
      exact hl q (Or.inl ⟨rfl, rfl⟩)
    · rw [if_neg he]
      exact lexes_cons (lex_blanks_tabs q hw he rest hb) (fun p hp => hl (some p) (Or.inr ⟨he, hp⟩))
  have last : ∀ p, w.getLast? = p → w ≠ [] → prevOk p = true := by
    intro p hp hne
    obtain ⟨x, hx⟩ : ∃ x, w.getLast? = some x := ⟨_, List.getLast?_eq_some_getLast hne⟩
    rw [hx] at hp
    subst hp
    rcases hw x (List.mem_of_getLast? hx) with rfl | rfl <;> rfl
  by_cases hrow : a.row < b.row
  · have hab : a.lt b := Or.inl hrow
    obtain ⟨n, hn⟩ : ∃ n, b.row - a.row = n + 1 := ⟨b.row - a.row - 1, by omega⟩
    have fin : ∀ q, (w = [] ∧ q = some '\n') ∨ (w ≠ [] ∧ w.getLast? = q) → ∃ out, Lexes q rest out ∧ Q out := by
      rintro q (⟨h1, rfl⟩ | ⟨h1, h2⟩)
      · exact h _ (Or.inr ⟨hab, rfl⟩)
      · exact h _ (Or.inr ⟨hab, last q h2 h1⟩)
    obtain ⟨out, hl, hq⟩ := fin (if w = [] then some '\n' else w.getLast?) (by split <;> simp_all)
    refine ⟨_, out, ⟨w, hw, hz, rfl⟩, ?_, hq⟩
    have h1 := blanks (some '\n') out (by
      rintro p (⟨h1, rfl⟩ | ⟨h1, h2⟩)
      · rw [if_pos h1] at hl; exact hl
      · rw [if_neg h1, h2] at hl; exact hl)
    have h2 := lexes_newlines n _ _ h1 prev
    rw [flatten_feeds] at h2
    rw [hn, List.append_assoc, List.append_assoc]
    exact h2
  · have hr : a.row = b.row ∧ a.col ≤ b.col := by unfold Cur.le at hle; omega
    have h0 : b.row - a.row = 0 := by omega
    have hgw : gapWidth a b = b.col - a.col := by unfold gapWidth; rw [if_neg hrow]
    have fin : ∀ q, (w = [] ∧ q = prev) ∨ (w ≠ [] ∧ w.getLast? = q) → ∃ out, Lexes q rest out ∧ Q out := by
      rintro q (⟨h1, rfl⟩ | ⟨h1, h2⟩)
      · refine h _ (Or.inl ⟨?_, rfl⟩)
        have := hz.1 h1
        cases a; cases b
        simp_all
        omega
      · refine h _ (Or.inr ⟨Or.inr ⟨hr.1, ?_⟩, last q h2 h1⟩)
        have : ¬ gapWidth a b = 0 := fun e => h1 (hz.2 e)
        omega
    obtain ⟨out, hl, hq⟩ := fin (if w = [] then prev else w.getLast?) (by split <;> simp_all)
    refine ⟨_, out, ⟨w, hw, hz, rfl⟩, ?_, hq⟩
    rw [h0]
    simp only [List.replicate_zero, List.nil_append]
    refine blanks prev out ?_
    rintro p (⟨h1, rfl⟩ | ⟨h1, h2⟩)
    · rw [if_pos h1] at hl; exact hl
    · rw [if_neg h1, h2] at hl; exact hl

theorem gap_head {a b : Cur} {s : Str} (h : a.lt b) (hg : IsGap a b s) : ∃ c t, s = c :: t ∧ (c = ' ' ∨ c = '\t' ∨ c = '\n') ∧
    (∀ x ∈ t, isSpace x = true) ∧ (a.row < b.row → c = '\n') := by
  obtain ⟨w, rfl, hw, hz⟩ := hg
  by_cases hr : a.row < b.row
  · obtain ⟨n, hn⟩ : ∃ n, b.row - a.row = n + 1 := ⟨b.row - a.row - 1, by omega⟩
    rw [hn, List.replicate_succ]
    refine ⟨'\n', List.replicate n '\n' ++ w, rfl, Or.inr (Or.inr rfl), ?_, fun _ => rfl⟩
    intro x hx
    rcases List.mem_append.1 hx with hx | hx
    · rw [(List.mem_replicate.1 hx).2]; rfl
    · exact blanks_space hw x hx
  · have : a.row = b.row ∧ a.col < b.col := by unfold Cur.lt at h; omega
    have h0 : b.row - a.row = 0 := by omega
    have hgw : gapWidth a b = b.col - a.col := by unfold gapWidth; rw [if_neg hr]
    cases w with
    | nil => have := hz.1 rfl; omega
    | cons c t =>
      rw [h0]
      refine ⟨c, t, rfl, ?_, fun x hx => blanks_space hw x (by simp [hx]), fun h => absurd h hr⟩
      rcases hw c (by simp) with h | h
      · exact Or.inl h
      · exact Or.inr (Or.inl h)

theorem gap_same {a : Cur} {s : Str} (hg : IsGap a a s) : s = [] := by
  obtain ⟨w, rfl, _, hz⟩ := hg
  have : w = [] := hz.2 (by simp [gapWidth])
  subst this
  simp

/-- What comes after a text is what it needs. -/
theorem next_loose : ∀ {qs : List Piece} {p : Piece} {rest : Str}, Loose p.stop qs rest → InOrder p.stop qs → Linked (p :: qs) →
    Named (p :: qs) → (∀ q ∈ qs, Reads q) → NextFor p rest
  | [], p, rest, hl, _, _, _, _ => by
    cases hl
    refine ⟨fun _ => rfl, fun _ => rfl, fun _ => ⟨[], rfl, ?_⟩⟩
    intro w
    have e1 : S "cmake-format: " = 'c' :: S "make-format: " := by decide
    have e2 : S "cmf: " = 'c' :: S "mf: " := by decide
    simp [sentinelTail, e1, e2, stripPrefix?]
  | q :: qs, p, rest, hl, ho, hlk, hnm, hr => by
    cases hl with
    | cons hg hl' =>
    rename_i s rest'
    have hn : NextFor q rest' := next_loose hl' ho.2 hlk.2 hnm.2 (fun x h => hr x (by simp [h]))
    have hf := hlk.1
    rcases eq_or_lt ho.1 with he | hlt
    · have hnot : ¬ p.stop.lt q.pos := by rw [← he]; unfold Cur.lt; omega
      have hms : mustSeparate p.kind q.kind = false := by
        cases h : mustSeparate p.kind q.kind with
        | false => rfl
        | true => exact absurd (hf.2 h) hnot
      rw [← he] at hg
      rw [gap_same hg, List.nil_append]
      have hq := hr q (by simp)
      refine ⟨fun hk => ?_, fun hk => ?_, fun hk => ?_⟩
      · obtain ⟨q', hq', hk'⟩ := hnm.1 hk
        simp only [List.head?_cons, Option.some.injEq] at hq'
        subst hq'
        simp only [Reads, hk'] at hq
        rw [hq]; rfl
      · have hk' : q.kind = .rparen := by
          rw [hk] at hms
          revert hms
          cases q.kind <;> simp [mustSeparate]
        simp only [Reads, hk'] at hq
        rw [hq]; rfl
      · have := hf.1 hk
        rw [← he] at this
        omega
    · obtain ⟨c, t, e, hc, ht, hrow⟩ := gap_head hlt hg
      rw [e, List.cons_append]
      refine ⟨fun _ => ?_, fun _ => ?_, fun hk => ?_⟩
      · rcases hc with rfl | rfl | rfl <;> rfl
      · rcases hc with rfl | rfl | rfl <;> rfl
      · have := hrow (hf.1 hk)
        subst this
        refine ⟨_, rfl, ?_⟩
        intro w
        obtain ⟨x, xs, ex, hx⟩ := reads_head (hr q (by simp))
        have hd : (t ++ (q.text ++ rest')).dropWhile isSpace = q.text ++ rest' := by
          rw [List.dropWhile_append_of_pos ht, ex, List.cons_append, List.dropWhile_cons, hx]
          rfl
        rw [hd]
        exact reads_noSentinel (hr q (by simp)) hn w

/-- The tokens of texts at positions: each text is a token, with blanks and line ends between. -/
def LooselyWoven : Cur → List Piece → List (TokType × Str) → Prop
  | _, [], out => out = [(.newline, ['\n'])]
  | c, p :: ps, out => ∃ g ty out', out = g ++ (ty, p.text) :: out' ∧ GapToks c p.pos g ∧
      KindType p.kind ty ∧ LooselyWoven p.stop ps out'

/-- **Texts at positions are read back text by text, whatever the blanks between them.** -/
theorem lexes_loose : ∀ (ps : List Piece) (c : Cur) (prev : Option Char) (text : Str), Loose c ps text → InOrder c ps → Linked ps →
    Named ps → (∀ p ∈ ps, Reads p) → (∀ p, ps.head? = some p → c = p.pos → PrevFor p prev) →
    ∃ out, Lexes prev text out ∧ LooselyWoven c ps out ∧ AllRead (ps.filter fun p => p.kind.isProgram) (busy out)
  | [], c, prev, text, hlo, _, _, _, _, _ => by
    cases hlo
    refine ⟨[(.newline, ['\n'])], ?_, rfl, by simp [busy, isIdle, AllRead]⟩
    have e : (['\n'] : Str) = ['\n'] ++ [] := rfl
    rw [e]
    exact lexes_cons (lex_nl _ _) (fun _ _ => lexes_nil _)
  | p :: qs, c, prev, text, hlo, ho, hl, hn, hr, hs => by
    cases hlo with
    | cons hg hlo' =>
    rename_i s rest
    have hp := hr p (by simp)
    have hnext := next_loose hlo' ho.2 hl hn (fun q h => hr q (by simp [h]))
    obtain ⟨x, xs, ex, hx⟩ := reads_head hp
    have main : ∀ p' : Option Char, PrevFor p p' → ∃ out, Lexes p' (p.text ++ rest) out ∧
        ((∃ ty out', out = (ty, p.text) :: out' ∧ KindType p.kind ty ∧ LooselyWoven p.stop qs out') ∧
        AllRead ((p :: qs).filter fun p => p.kind.isProgram) (busy out)) := by
      intro p' hp'
      obtain ⟨l, hlast⟩ : ∃ l, p.text.getLast? = some l := by
        rw [ex]; exact ⟨_, List.getLast?_eq_some_getLast (by simp)⟩
      obtain ⟨out, h1, hwov, h2⟩ := lexes_loose qs p.stop (some l) rest hlo' ho.2 (by
          cases qs with
          | nil => trivial
          | cons q qs => exact hl.2) hn.2 (fun q h => hr q (by simp [h])) (by
        intro q hq he hk
        cases qs with
        | nil => simp at hq
        | cons q' qs =>
          simp only [List.head?_cons, Option.some.injEq] at hq
          subst hq
          have hnot : ¬ p.stop.lt q'.pos := by rw [← he]; unfold Cur.lt; omega
          have hms : mustSeparate p.kind q'.kind = false := by
            cases h : mustSeparate p.kind q'.kind with
            | false => rfl
            | true => exact absurd (hl.1.2 h) hnot
          have hpk : p.kind = .lparen ∨ p.kind = .name := by
            revert hms
            rcases hk with hk | hk <;> rw [hk] <;> cases p.kind <;> simp [mustSeparate]
          rcases hpk with hpk | hpk
          · simp only [Reads, hpk] at hp
            rw [hp] at hlast
            simp at hlast
            subst hlast
            rfl
          · obtain ⟨q'', e, hk'⟩ := hn.1 hpk
            simp only [List.head?_cons, Option.some.injEq] at e
            subst e
            rw [hk'] at hk
            simp at hk)
      obtain ⟨ty, h3, h4⟩ := reads_lex hp hp' hnext
      refine ⟨(ty, p.text) :: out, lexes_cons h3 (fun q hq => by rw [hlast] at hq; simp at hq; subst hq; exact h1),
        ⟨ty, out, rfl, h4, hwov⟩, ?_⟩
      replace h4 := h4.idle
      cases hprog : p.kind.isProgram with
      | true =>
        rw [hprog] at h4
        have : busy ((ty, p.text) :: out) = (ty, p.text) :: busy out := by simp [busy, h4]
        rw [this, List.filter_cons, if_pos (by simpa using hprog)]
        exact ⟨⟨rfl, by simpa using h4, p', _, hp', hnext, h3⟩, h2⟩
      | false =>
        rw [hprog] at h4
        have : busy ((ty, p.text) :: out) = busy out := by simp [busy, h4]
        rw [this, List.filter_cons, if_neg (by simp [hprog])]
        exact h2
    have hsp := lexes_gap hg (p.text ++ rest) prev (fun out =>
      ((∃ ty out', out = (ty, p.text) :: out' ∧ KindType p.kind ty ∧ LooselyWoven p.stop qs out') ∧
        AllRead ((p :: qs).filter fun p => p.kind.isProgram) (busy out))) ho.1 (by
      intro c hc
      rw [ex] at hc
      simp at hc
      subst hc
      exact blank_space hx) (by
      rintro p' (⟨he, rfl⟩ | ⟨_, hp'⟩)
      · exact main _ (hs p rfl he)
      · exact main _ (fun _ => hp'))
    obtain ⟨g, out, hgt, hlex, ⟨ty, out', e, hi, hw⟩, hall⟩ := hsp
    exact ⟨_, hlex, ⟨g, ty, out', by rw [e], hgt, hi, hw⟩, by rw [busy_append, hgt.busy, List.nil_append]; exact hall⟩

/-! ## Re-indenting -/

/-- A new indentation for a line: blanks and tabs, none exactly if there was none. -/
def NewIndent (n : Nat) (w : Str) : Prop := Blanks w ∧ (w = [] ↔ n = 0)

mutual
/-- Re-indented, in the middle of a line. -/
inductive Mid : Str → Str → Prop
  | nil : Mid [] []
  | char {c : Char} {s s' : Str} (hc : c ≠ '\n') (h : Mid s s') : Mid (c :: s) (c :: s')
  | feed {s s' : Str} (h : AtStart s s') : Mid ('\n' :: s) ('\n' :: s')
/-- Re-indented, at the start of a line. -/
inductive AtStart : Str → Str → Prop
  | line {n : Nat} {w s s' : Str} (hs : s.head? ≠ some ' ') (hw : NewIndent n w) (h : Mid s s') :
      AtStart (List.replicate n ' ' ++ s) (w ++ s')
end

theorem mid_line {l : Str} (h : '\n' ∉ l) {r r' : Str} (hr : Mid r r') : Mid (l ++ r) (l ++ r') := by
  induction l with
  | nil => exact hr
  | cons c l ih =>
    simp only [List.mem_cons, not_or] at h
    exact .char (Ne.symm h.1) (ih h.2)

theorem start_line {size : Nat} {policy : Str} (hsz : 0 < size) {l l' : Str} (h : Props.Text.Retabbed size policy l l')
    (hl : '\n' ∉ l) {r r' : Str} (hr : Mid r r') (hh : r.head? ≠ some ' ') : AtStart (l ++ r) (l' ++ r') := by
  cases h with
  | blankLine n =>
    refine AtStart.line hh ⟨?_, by simp⟩ hr
    intro c hc; exact Or.inl (List.mem_replicate.1 hc).2
  | whole k c text hc =>
    rw [List.append_assoc, List.append_assoc]
    refine AtStart.line (by simpa using hc) ⟨?_, ?_⟩ (mid_line (fun hm => hl (List.mem_append_right _ hm)) hr)
    · intro c hc; exact Or.inr (List.mem_replicate.1 hc).2
    · have : size ≠ 0 := by omega
      simp only [List.replicate_eq_nil_iff, Nat.mul_eq_zero, this, or_false]
  | spaces k m c text hc hm hp =>
    rw [List.append_assoc, List.append_assoc]
    refine AtStart.line (by simpa using hc) ⟨?_, ?_⟩ (mid_line (fun hm => hl (List.mem_append_right _ hm)) hr)
    · intro c hc
      rcases List.mem_append.1 hc with hc | hc
      · exact Or.inr (List.mem_replicate.1 hc).2
      · exact Or.inl (List.mem_replicate.1 hc).2
    · simp; omega
  | roundUp k m c text hc hm hp =>
    rw [List.append_assoc, List.append_assoc]
    refine AtStart.line (by simpa using hc) ⟨?_, ?_⟩ (mid_line (fun hm => hl (List.mem_append_right _ hm)) hr)
    · intro c hc; exact Or.inr (List.mem_replicate.1 hc).2
    · simp; omega

theorem start_lines {size : Nat} {policy : Str} (hsz : 0 < size) : ∀ {ls ls' : List Str},
    Props.Text.Pairwise2 (Props.Text.Retabbed size policy) ls ls' → ls ≠ [] → (∀ l ∈ ls, '\n' ∉ l) →
    AtStart (join ['\n'] ls) (join ['\n'] ls')
  | [], _, _, hne, _ => absurd rfl hne
  | _ :: _, [], h, _, _ => h.elim
  | [l], [l'], h, _, hn => by
    have := start_line hsz h.1 (hn l (by simp)) Mid.nil (by simp)
    simpa [join] using this
  | [_], _ :: _ :: _, h, _, _ => h.2.elim
  | _ :: _ :: _, [_], h, _, _ => h.2.elim
  | l :: m :: ls, l' :: m' :: ls', h, _, hn => by
    have ih := start_lines hsz (ls := m :: ls) (ls' := m' :: ls') h.2 (by simp) (fun x hx => hn x (by simp [hx]))
    have e : join ['\n'] (l :: m :: ls) = l ++ '\n' :: join ['\n'] (m :: ls) := by simp [join]
    have e' : join ['\n'] (l' :: m' :: ls') = l' ++ '\n' :: join ['\n'] (m' :: ls') := by simp [join]
    rw [e, e']
    exact start_line hsz h.1 (hn l (by simp)) (.feed ih) (by simp)

/-- What tab conversion does, character by character. -/
theorem start_tabs {content out : Str} {cfg : Text.TabConfig} (h : Text.replaceWithTabs content cfg = .ok out)
    (hu : cfg.useTabchars = true) : AtStart content out := by
  rcases Props.Text.tabs_only_change_indentation content out cfg h with ⟨hf, _⟩ | ⟨_, hsz, hp, _⟩
  · rw [hu] at hf; simp at hf
  · have := start_lines hsz hp (splitOn_ne_nil _ _) (fun l hl => not_mem_splitOn hl)
    rwa [join_splitOn, join_splitOn] at this

/-! ## Texts whose lines are not indented -/

/-- Every line end within the text is followed by something other than a blank. -/
def NoIndent (s : Str) : Prop := ∀ a b, s = a ++ '\n' :: b → ∃ c b', b = c :: b' ∧ c ≠ ' '

theorem NoIndent.tail {c : Char} {s : Str} (h : NoIndent (c :: s)) : NoIndent s :=
  fun a b e => h (c :: a) b (by rw [e]; rfl)

theorem start_other {c : Char} {s t : Str} (hc : c ≠ ' ') (h : AtStart (c :: s) t) : Mid (c :: s) t := by
  generalize e : c :: s = u at h
  cases h with
  | @line n w s₁ s' hs hw h =>
    cases n with
    | zero =>
      have : w = [] := hw.2.2 rfl
      subst this
      simpa using h
    | succ n =>
      rw [List.replicate_succ, List.cons_append] at e
      injection e with e1 _
      exact absurd e1 hc

theorem mid_keeps : ∀ {s rest t : Str}, NoIndent s → Mid (s ++ rest) t → ∃ rest', t = s ++ rest' ∧ Mid rest rest'
  | [], rest, t, _, h => ⟨t, rfl, h⟩
  | c :: s, rest, t, hs, h => by
    rw [List.cons_append] at h
    cases h with
    | char hc h' =>
      obtain ⟨r, e, hm⟩ := mid_keeps hs.tail h'
      exact ⟨r, by rw [e]; rfl, hm⟩
    | feed h' =>
      obtain ⟨d, s', e, hd⟩ := hs [] s rfl
      subst e
      rw [List.cons_append] at h'
      have h'' := start_other hd h'
      rw [← List.cons_append] at h''
      obtain ⟨r, e, hm⟩ := mid_keeps hs.tail h''
      exact ⟨r, by rw [e]; rfl, hm⟩

theorem start_blanks {n : Nat} {s t : Str} (hs : s.head? ≠ some ' ') (h : AtStart (List.replicate n ' ' ++ s) t) :
    ∃ w s', t = w ++ s' ∧ NewIndent n w ∧ Mid s s' := by
  generalize e : List.replicate n ' ' ++ s = u at h
  cases h with
  | @line m w s₁ s' hs₁ hw h =>
    have : n = m ∧ s = s₁ := by
      clear h hw
      induction n generalizing m with
      | zero =>
        cases m with
        | zero => exact ⟨rfl, by simpa using e⟩
        | succ m => simp [List.replicate_succ] at e; rw [e] at hs; simp at hs
      | succ n ih =>
        cases m with
        | zero => simp [List.replicate_succ] at e; rw [← e] at hs₁; simp at hs₁
        | succ m =>
          simp only [List.replicate_succ, List.cons_append, List.cons.injEq, true_and] at e
          obtain ⟨h1, h2⟩ := ih e
          exact ⟨by rw [h1], h2⟩
    obtain ⟨rfl, rfl⟩ := this
    exact ⟨w, s', rfl, hw, h⟩

theorem mid_chars {n : Nat} {s t : Str} (h : Mid (List.replicate n ' ' ++ s) t) : ∃ s', t = List.replicate n ' ' ++ s' ∧ Mid s s' := by
  induction n generalizing t with
  | zero => exact ⟨t, rfl, by simpa using h⟩
  | succ n ih =>
    rw [List.replicate_succ, List.cons_append] at h
    cases h with
    | char hc h' =>
      obtain ⟨s', e, hm⟩ := ih h'
      exact ⟨s', by rw [e, List.replicate_succ]; rfl, hm⟩

theorem mid_feeds {n k : Nat} {s t : Str} (hs : s.head? ≠ some ' ')
    (h : Mid (List.replicate (n + 1) '\n' ++ (List.replicate k ' ' ++ s)) t) :
    ∃ w s', t = List.replicate (n + 1) '\n' ++ (w ++ s') ∧ NewIndent k w ∧ Mid s s' := by
  induction n generalizing t with
  | zero =>
    simp only [Nat.zero_add, List.replicate_one, List.cons_append, List.nil_append] at h
    cases h with
    | char hc _ => exact absurd rfl hc
    | feed h' =>
      obtain ⟨w, s', e, hw, hm⟩ := start_blanks hs h'
      exact ⟨w, s', by rw [e]; rfl, hw, hm⟩
  | succ n ih =>
    rw [List.replicate_succ, List.cons_append] at h
    cases h with
    | char hc _ => exact absurd rfl hc
    | feed h' =>
      rename_i t'
      have h'' : Mid (List.replicate (n + 1) '\n' ++ (List.replicate k ' ' ++ s)) t' := by
        rw [List.replicate_succ, List.cons_append] at h' ⊢
        exact start_other (by decide) h'
      obtain ⟨w, s', e, hw, hm⟩ := ih h''
      exact ⟨w, s', by rw [e]; rfl, hw, hm⟩

theorem space_feed (a b : Cur) : space ['\n'] a b = List.replicate (b.row - a.row) '\n' ++ List.replicate (gapWidth a b) ' ' := by
  unfold space gapWidth
  split
  · rw [flatten_feeds]
  · have : b.row - a.row = 0 := by omega
    rw [this]; rfl

/-- Re-indenting texts at positions from the middle of a line. -/
theorem loose_mid : ∀ {ps : List Piece} {c : Cur} {t : Str}, (∀ p ∈ ps, NoIndent p.text ∧ ∃ x xs, p.text = x :: xs ∧ x ≠ ' ') →
    Mid (weave ['\n'] c ps ++ ['\n']) t → Loose c ps t
  | [], c, t, _, h => by
    simp only [weave, List.nil_append] at h
    cases h with
    | char hc _ => exact absurd rfl hc
    | feed h' =>
      generalize e : ([] : Str) = u at h'
      cases h' with
      | @line n w s s' hs hw hm =>
        have hn : n = 0 ∧ s = [] := by
          cases n with
          | zero => exact ⟨rfl, by simpa using e.symm⟩
          | succ n => simp [List.replicate_succ] at e
        obtain ⟨rfl, rfl⟩ := hn
        have : w = [] := hw.2.2 rfl
        subst this
        cases hm
        exact .nil c
  | p :: ps, c, t, hp, h => by
    obtain ⟨hno, x, xs, ex, hx⟩ := hp p (by simp)
    simp only [weave, withEndings_feed, space_feed, List.append_assoc] at h
    have hh : (p.text ++ (weave ['\n'] p.stop ps ++ ['\n'])).head? ≠ some ' ' := by rw [ex]; simpa using hx
    have fin : ∀ {w s' : Str}, NewIndent (gapWidth c p.pos) w → Mid (p.text ++ (weave ['\n'] p.stop ps ++ ['\n'])) s' →
        Loose c (p :: ps) ((List.replicate (p.pos.row - c.row) '\n' ++ w) ++ s') := by
      intro w s' hw hm
      obtain ⟨r, e, hm'⟩ := mid_keeps hno hm
      rw [e]
      exact .cons ⟨w, rfl, hw.1, hw.2⟩ (loose_mid (fun q hq => hp q (by simp [hq])) hm')
    cases hr : p.pos.row - c.row with
    | zero =>
      rw [hr, List.replicate_zero, List.nil_append] at h
      obtain ⟨s', e, hm⟩ := mid_chars h
      have := fin (w := List.replicate (gapWidth c p.pos) ' ') ⟨fun c hc => Or.inl (List.mem_replicate.1 hc).2, by simp⟩ hm
      rw [hr, List.replicate_zero, List.nil_append] at this
      rw [e]; exact this
    | succ n =>
      rw [hr] at h
      obtain ⟨w, s', e, hw, hm⟩ := mid_feeds hh h
      have := fin hw hm
      rw [hr, List.append_assoc] at this
      rw [e]; exact this

/-- The same from the start of the text. -/
theorem loose_start {ps : List Piece} {t : Str} (hp : ∀ p ∈ ps, NoIndent p.text ∧ ∃ x xs, p.text = x :: xs ∧ x ≠ ' ')
    (h : AtStart (weave ['\n'] ⟨0, 0⟩ ps ++ ['\n']) t) : Loose ⟨0, 0⟩ ps t := by
  cases ps with
  | nil => exact loose_mid (by simp) (start_other (by decide) h)
  | cons p ps =>
    obtain ⟨hno, x, xs, ex, hx⟩ := hp p (by simp)
    have hh : (p.text ++ (weave ['\n'] p.stop ps ++ ['\n'])).head? ≠ some ' ' := by rw [ex]; simpa using hx
    cases hr : p.pos.row - 0 with
    | zero =>
      simp only [weave, withEndings_feed, space_feed, List.append_assoc] at h
      rw [hr, List.replicate_zero, List.nil_append] at h
      obtain ⟨w, s', rfl, hw, hm⟩ := start_blanks hh h
      obtain ⟨r, rfl, hm'⟩ := mid_keeps hno hm
      refine .cons ⟨w, ?_, hw.1, hw.2⟩ (loose_mid (fun q hq => hp q (by simp [hq])) hm')
      rw [hr]; rfl
    | succ n =>
      refine loose_mid hp ?_
      have e : weave ['\n'] ⟨0, 0⟩ (p :: ps) ++ ['\n'] =
          '\n' :: (List.replicate n '\n' ++ (List.replicate (gapWidth ⟨0, 0⟩ p.pos) ' ' ++ (p.text ++ (weave ['\n'] p.stop ps ++ ['\n'])))) := by
        simp only [weave, withEndings_feed, space_feed, List.append_assoc]
        rw [hr, List.replicate_succ]; rfl
      rw [e] at h ⊢
      exact start_other (by decide) h

end Verif.Layout
