import Verif.WrapLemmas
import Verif.Props.Lex

/-!
# Properties of comment reflow (C24 - C27)
-/

namespace Verif.Props.Markup
open Verif Py Verif.Wrap Verif.Markup

/-! ## C24 -/

theorem words_join (ls : List Str) : words (join ['\n'] ls) = ls.flatMap words := by
  induction ls with
  | nil => rfl
  | cons l ls ih =>
    cases ls with
    | nil => simp [join]
    | cons m ms =>
      have e : isWhite '\n' = true := by decide
      have : join ['\n'] (l :: m :: ms) = l ++ '\n' :: join ['\n'] (m :: ms) := by simp [join]
      rw [this, words_white _ _ _ e, ih]; rfl

theorem wrap_words {width : Int} {t : Str} {ls : List Str} (h : wrap width t = .ok ls) :
    ls.flatMap words = words t := by
  simp only [wrap] at h
  split at h
  · simp at h
  · simp only [Except.ok.injEq] at h
    subst h
    rw [wrapChunks_words _ _ _ (chunks_alt _) (Nat.le_refl _), ← words_flatten (chunks_alt _),
      chunks_flatten, words_munge]

theorem wrap_width {width : Int} {t : Str} {ls : List Str} (h : wrap width t = .ok ls) :
    ∀ l ∈ ls, (l.length : Int) ≤ width ∨ ' ' ∉ l := by
  intro l hl
  simp only [wrap] at h
  split at h
  · simp at h
  · rename_i hw
    simp only [Except.ok.injEq] at h
    subst h
    obtain ⟨a, h1, _, rfl, h3 | ⟨c, rfl, hb⟩⟩ := wrapChunks_mem _ _ _ hl
    · left; omega
    · right
      have hc := (chunks_alt _).chunk c (h1.subset (by simp))
      rcases hc.2 with h4 | h4
      · rw [blankChunk, allSp_white h4] at hb; simp at hb
      · simpa using h4

theorem stableLoop_ok {width : Int} {n : Nat} {t : Str} {ls : List Str}
    (h : stableLoop width n t = .ok ls) :
    wrap width (join ['\n'] ls) = .ok ls ∧ ls.flatMap words = words t := by
  induction n generalizing t with
  | zero => simp [stableLoop] at h
  | succ n ih =>
    simp only [stableLoop] at h
    split at h
    · simp at h
    · rename_i lines hl
      have hw := wrap_words hl
      split at h
      · rename_i he
        simp only [Except.ok.injEq] at h
        subst h
        exact ⟨by rw [he]; exact hl, hw⟩
      · split at h
        · simp at h
        · have := ih h
          exact ⟨this.1, by rw [this.2, words_join, hw]⟩

/-- **C24.** Reflowing keeps the sequence of words, and a line is at most as long as the
width unless it has no space. -/
theorem reflow_keeps_words (width : Int) (t : Str) (ls : List Str) (h : stableWrap width t = .ok ls) :
    ls.flatMap words = words t ∧ ∀ l ∈ ls, (l.length : Int) ≤ width ∨ ' ' ∉ l :=
  ⟨(stableLoop_ok h).2, wrap_width (stableLoop_ok h).1⟩

example : (stableWrap 10 (S "the quick\tbrown   foxxxxxxxxxxx jumps")).toOption =
    some [S "the quick", S "brown", S "foxxxxxxxxxxx", S "jumps"] := by decide +kernel

theorem splitWords_rstrip (cur s : Str) : splitWords cur (rstripBy isWhite s) = splitWords cur s := by
  have hs : s = rstripBy isWhite s ++ (s.reverse.takeWhile isWhite).reverse := by
    have := List.takeWhile_append_dropWhile (p := isWhite) (l := s.reverse)
    have h2 := congrArg List.reverse this
    simp only [List.reverse_append, List.reverse_reverse] at h2
    exact h2.symm
  have hw : ((s.reverse.takeWhile isWhite).reverse).all isWhite = true := by
    rw [List.all_reverse]; exact List.all_takeWhile
  conv => rhs; rw [hs]
  cases hb : (s.reverse.takeWhile isWhite).reverse with
  | nil => simp
  | cons c cs =>
    rw [hb] at hw
    simp only [List.all_cons, Bool.and_eq_true] at hw
    rw [splitWords_white _ _ _ _ hw.1, words_all_white hw.2, List.append_nil]

theorem words_lstrip (s : Str) : words (lstripBy isWhite s) = words s := by
  induction s with
  | nil => rfl
  | cons c cs ih =>
    simp only [lstripBy, List.dropWhile_cons] at ih ⊢
    split
    · rename_i hc
      rw [ih]
      simp [words, splitWords, hc]
    · rfl

theorem words_strip (s : Str) : words (strip s) = words s := by
  rw [strip, words, splitWords_rstrip]; exact words_lstrip s

/-- Leading blanks add no word. -/
theorem words_spaces (n : Nat) (s : Str) : words (spaces n ++ s) = words s := by
  cases n with
  | zero => simp [spaces]
  | succ n =>
    have := words_append_white_append [] (spaces (n + 1)) s (by simp [spaces])
      (by simp [spaces, isWhite_space])
    simpa [words_nil] using this

theorem words_lead (a s : Str) : words (a ++ [' '] ++ s) = words a ++ words s :=
  words_append_white_append a [' '] s (by simp) (by simp [isWhite_space])

theorem entry_words {lead pad : Str} {r : Except Err (List Str)} {ls : List Str}
    (h : entry lead pad r = .ok ls) (ws : List Str) (hlead : ∀ s, words (lead ++ s) = ws ++ words s)
    (hpad : ∀ s, words (pad ++ s) = words s) :
    ∃ inner, r = .ok inner ∧ ls.flatMap words = ws ++ inner.flatMap words := by
  unfold entry at h
  split at h
  · simp at h
  · simp at h
  · rename_i l ls'
    simp only [Except.ok.injEq] at h
    subst h
    refine ⟨_, rfl, ?_⟩
    simp [hlead, List.flatMap_map, hpad]

theorem entries_words {width : Int} {lead : Nat → Str} {pad : Str} {k : Nat} {items ls : List Str}
    (h : entries width lead pad k items = .ok ls) (ws : Nat → List Str)
    (hlead : ∀ k s, words (lead k ++ s) = ws k ++ words s) (hpad : ∀ s, words (pad ++ s) = words s) :
    ls.flatMap words = (items.zipIdx k).flatMap fun lk => ws lk.2 ++ words lk.1 := by
  induction items generalizing k ls with
  | nil => simp [entries] at h; subst h; rfl
  | cons i is ih =>
    simp only [entries] at h
    split at h
    · simp at h
    · rename_i a ha
      split at h
      · simp at h
      · rename_i b hb
        simp only [Except.ok.injEq] at h
        subst h
        obtain ⟨inner, h1, h2⟩ := entry_words ha (ws k) (hlead k) hpad
        rw [List.flatMap_append, h2, (stableLoop_ok h1).2, ih hb, words_strip]
        simp

theorem zipIdx_flatMap {α β : Type} (l : List α) (f : α → List β) (k : Nat) :
    (l.zipIdx k).flatMap (fun p => f p.1) = l.flatMap f := by
  induction l generalizing k with
  | nil => rfl
  | cons a l ih => simp [ih]

theorem zipIdx_shift {α β : Type} (l : List α) (f : α → Nat → List β) (k : Nat) :
    (l.zipIdx k).flatMap (fun p => f p.1 (p.2 + 1)) = (l.zipIdx (k + 1)).flatMap (fun p => f p.1 p.2) := by
  induction l generalizing k with
  | nil => rfl
  | cons a l ih => simp [ih]

theorem ruler_word {n : Nat} (h : n ≠ 0) : words (List.replicate n '#') = [List.replicate n '#'] := by
  apply words_word
  · intro c hc; rw [List.eq_of_mem_replicate hc]; decide
  · simpa using h

/-- **C24.** The words of a formatted item, for every kind of markup. -/
theorem item_keeps_words (cfg : Cfg) (width : Int) (i : Item) (ls : List Str)
    (hw : i.kind = .ruler → 0 < width) (h : formatItem cfg width i = .ok ls) : ls.flatMap words = outWords cfg width i := by
  have hpara : ∀ {ls}, stableWrap width (strip (join ['\n'] i.lines)) = .ok ls →
      ls.flatMap words = i.lines.flatMap words := by
    intro ls h
    rw [(stableLoop_ok h).2, words_strip, words_join]
  unfold formatItem at h
  unfold outWords
  cases hk : i.kind <;> simp only [hk] at h ⊢
  · exact hpara h
  · split at h
    · simp at h
    · rw [entries_words h (fun _ => words cfg.bulletChar) (fun _ s => words_lead _ s)
        (fun s => words_spaces 2 s)]
      exact zipIdx_flatMap _ (fun l => words cfg.bulletChar ++ words l) 0
  · split at h
    · simp at h
    · rw [entries_words h
        (fun k => words (padNum (digitsOf i.lines.length) (k + 1) ++ cfg.enumChar))
        (fun k s => words_lead _ s) (fun s => words_spaces _ s)]
      exact zipIdx_shift i.lines
        (fun l k => words (padNum (digitsOf i.lines.length) k ++ cfg.enumChar) ++ words l) 0
  · exact hpara h
  · split at h
    · rename_i hh
      rw [if_pos hh]
      simp only [Except.ok.injEq] at h
      subst h
      have := hw hk
      simp [ruler_word (show width.toNat ≠ 0 by omega)]
    · rename_i hh
      rw [if_neg hh]; exact hpara h
  · simp only [Except.ok.injEq] at h; subst h; rfl
  · simp only [Except.ok.injEq] at h; subst h; decide +kernel
  · simp only [Except.ok.injEq] at h
    subst h
    rw [List.flatMap_map]
    congr 1
    funext l
    exact splitWords_rstrip [] l

/-! ## C25 -/

theorem expandTabs_snoc (col : Nat) (a : Str) (c : Char) (hc : c ≠ '\t') :
    expandTabs col (a ++ [c]) = expandTabs col a ++ [c] := by
  induction a generalizing col with
  | nil => simp [expandTabs, hc]
  | cons d ds ih =>
    simp only [List.cons_append, expandTabs]
    split <;> simp [ih]

theorem lstrip_head {s : Str} {c : Char} {cs : Str} (h : lstripBy isWhite s = c :: cs) :
    isWhite c = false := by
  simp only [lstripBy] at h
  have := List.head?_dropWhile_not (p := isWhite) (l := s)
  rw [h] at this
  simpa using this

theorem strip_head {s : Str} {c : Char} {cs : Str} (h : strip s = c :: cs) : isWhite c = false := by
  have hp : strip s <+: lstripBy isWhite s := by
    simp only [strip, rstripBy]
    have := (List.dropWhile_suffix isWhite (l := (lstripBy isWhite s).reverse))
    simpa using List.reverse_prefix.2 this
  obtain ⟨t, ht⟩ := hp
  rw [h] at ht
  exact lstrip_head ht.symm

theorem strip_last {s : Str} {c : Char} {cs : Str} (h : strip s = cs ++ [c]) : isWhite c = false := by
  simp only [strip, rstripBy] at h
  have h2 := congrArg List.reverse h
  simp only [List.reverse_reverse, List.reverse_append, List.reverse_cons, List.reverse_nil,
    List.nil_append, List.cons_append] at h2
  exact lstrip_head (s := (lstripBy isWhite s).reverse) h2

theorem munge_plain {t : Str} (h : PlainBlanks t) : ∀ c ∈ munge t, isWhite c = true → c = ' ' := by
  have key : ∀ col, ∀ c ∈ expandTabs col t, c = ' ' ∨ c ∈ t := by
    intro col
    clear h
    induction t generalizing col with
    | nil => simp [expandTabs]
    | cons d ds ih =>
      intro c hc
      simp only [expandTabs] at hc
      split at hc
      · rcases List.mem_append.1 hc with h | h
        · exact Or.inl (List.eq_of_mem_replicate h)
        · rcases ih _ c h with h | h
          · exact Or.inl h
          · exact Or.inr (by simp [h])
      · rcases List.mem_cons.1 hc with h | h
        · exact Or.inr (by simp [h])
        · rcases ih _ c h with h | h
          · exact Or.inl h
          · exact Or.inr (by simp [h])
  intro c hc hw
  simp only [munge, List.mem_map] at hc
  obtain ⟨d, hd, rfl⟩ := hc
  split at hw
  · rename_i hs; simp [hs]
  · rename_i hs
    rcases key 0 d hd with rfl | hd
    · rfl
    · exact absurd (h d hd hw) hs

/-- A text of words and gaps. -/
theorem decompose {m : Str} (hp : ∀ c ∈ m, isWhite c = true → c = ' ') (hne : m ≠ [])
    (hl : ∀ a c, m = a ++ [c] → c ≠ ' ') :
    ∃ k w0 gs, m = sp k ++ (w0 ++ gapText gs) ∧ (w0 ≠ [] ∧ ∀ c ∈ w0, isWhite c = false) ∧
      ∀ g ∈ gs, 1 ≤ g.1 ∧ (g.2 ≠ [] ∧ ∀ c ∈ g.2, isWhite c = false) := by
  induction m with
  | nil => exact absurd rfl hne
  | cons c cs ih =>
    have hc : c ≠ ' ' → isWhite c = false := by
      intro h
      cases hw : isWhite c with
      | false => rfl
      | true => exact absurd (hp c (by simp) hw) h
    cases cs with
    | nil =>
      have := hl [] c (by simp)
      exact ⟨0, [c], [], by simp [sp, gapText], ⟨by simp, by simpa using hc this⟩, by simp⟩
    | cons d ds =>
      obtain ⟨k, w0, gs, h1, h2, h3⟩ := ih (fun x hx => hp x (by simp [hx])) (by simp)
        (fun a x e => hl (c :: a) x (by simp [e]))
      rw [h1]
      by_cases e : c = ' '
      · exact ⟨k + 1, w0, gs, by simp [sp, e, List.replicate_succ], h2, h3⟩
      · cases k with
        | zero =>
          refine ⟨0, c :: w0, gs, by simp [sp], ⟨by simp, ?_⟩, h3⟩
          intro x hx
          rcases List.mem_cons.1 hx with rfl | hx
          · exact hc e
          · exact h2.2 x hx
        | succ k =>
          refine ⟨0, [c], (k + 1, w0) :: gs, by simp [sp, gapText], ⟨by simp, by simpa using hc e⟩, ?_⟩
          intro g hg
          rcases List.mem_cons.1 hg with rfl | hg
          · exact ⟨by simp, h2⟩
          · exact h3 g hg

theorem isWord_of {w : Str} (hne : w ≠ []) (h : ∀ c ∈ w, isWhite c = false) : IsWord w := by
  refine ⟨hne, ?_, ?_, ?_⟩
  · intro hs; have := h _ hs; simp [isWhite_space] at this
  · cases w with
    | nil => exact absurd rfl hne
    | cons c cs => simp [blankChunk, h c (by simp)]
  · intro c hc
    cases hs : isSpace c with
    | false => rfl
    | true => have := h c hc; rw [isWhite_of_isSpace hs] at this; simp at this

theorem words_gaps {w0 : Str} {gs : List Gap} (h0 : w0 ≠ [] ∧ ∀ c ∈ w0, isWhite c = false)
    (hg : ∀ g ∈ gs, 1 ≤ g.1 ∧ (g.2 ≠ [] ∧ ∀ c ∈ g.2, isWhite c = false)) :
    words (w0 ++ gapText gs) = w0 :: gs.map (·.2) := by
  have hG : Gaps gs := fun g h => ⟨(hg g h).1, isWord_of (hg g h).2.1 (hg g h).2.2⟩
  have h := chunks_words (isWord_of h0.1 h0.2) hG
  rw [← chunks_flatten (w0 ++ gapText gs), words_flatten (chunks_alt _), h]
  have : ∀ gs : List Gap, (∀ g ∈ gs, 1 ≤ g.1 ∧ (g.2 ≠ [] ∧ ∀ c ∈ g.2, isWhite c = false)) →
      (gapChunks gs).flatMap words = gs.map (·.2) := by
    intro gs hg
    induction gs with
    | nil => rfl
    | cons g gs ih =>
      have h1 := hg g (by simp)
      have := ih fun g hg' => hg g (by simp [hg'])
      simp only [gapChunks, List.flatMap_cons, List.flatMap_append, List.map_cons] at this ⊢
      rw [this]
      have e1 := words_all_white (s := sp g.1) (sp_blank g.1)
      have e2 := words_word h1.2.2 h1.2.1
      simp [e1, e2]
  rw [List.flatMap_cons, words_word h0.2 h0.1, this gs hg]
  rfl

theorem join_length (w0 : Str) (ws : List Str) :
    (join [' '] (w0 :: ws)).length = w0.length + (ws.map fun w => 1 + w.length).sum := by
  induction ws generalizing w0 with
  | nil => simp [join]
  | cons w ws ih =>
    have := ih w
    simp only [join, List.length_append, this, List.map_cons, List.sum_cons, List.length_cons,
      List.length_nil]
    omega

theorem surplus_excess {w0 t : Str} {gs : List Gap} (h0 : w0 ≠ [] ∧ ∀ c ∈ w0, isWhite c = false)
    (hg : ∀ g ∈ gs, 1 ≤ g.1 ∧ (g.2 ≠ [] ∧ ∀ c ∈ g.2, isWhite c = false))
    (ht : munge t = w0 ++ gapText gs) : surplus t = excess gs := by
  rw [surplus, ← words_munge, ht, words_gaps h0 hg, join_length]
  have : ∀ gs : List Gap, (∀ g ∈ gs, 1 ≤ g.1) → (gapText gs).length =
      excess gs + ((gs.map (·.2)).map fun w => 1 + w.length).sum := by
    intro gs hg
    induction gs with
    | nil => rfl
    | cons g gs ih =>
      have h1 := hg g (by simp)
      have := ih fun g hg' => hg g (by simp [hg'])
      simp only [gapText, excess, List.flatMap_cons, List.length_append, List.map_cons,
        List.sum_cons] at this ⊢
      rw [this]; simp [sp]; omega
  rw [List.length_append, this gs fun g h => (hg g h).1]
  omega

/-- **C25.** The text of a paragraph, if long enough a loop was allowed, would always
converge: at most two rounds more than it has surplus blanks. -/
theorem reflow_ends (width : Int) (hw : 0 < width) (t : Str) (hs : strip t = t) (hp : PlainBlanks t)
    (n : Nat) (hn : surplus t ≤ n) : ∃ ls, stableLoop width (n + 2) t = .ok ls := by
  by_cases hne : t = []
  · subst hne
    refine ⟨[], ?_⟩
    simp only [stableLoop, wrap]
    rw [if_neg (by omega)]
    simp [munge, expandTabs, chunks, wrapChunks, join]
  obtain ⟨a, c, rfl⟩ : ∃ a c, t = a ++ [c] := by
    rcases List.eq_nil_or_concat t with h | ⟨a, c, h⟩
    · exact absurd h hne
    · exact ⟨a, c, by simpa using h⟩
  have hcw := strip_last hs
  have hct : c ≠ '\t' := by rintro rfl; simp [isWhite, isSpace] at hcw
  have hcs : isSpace c = false := by
    cases h : isSpace c with
    | false => rfl
    | true => rw [isWhite_of_isSpace h] at hcw; simp at hcw
  have hm : munge (a ++ [c]) = munge a ++ [c] := by
    simp [munge, expandTabs_snoc 0 a c hct, hcs]
  have hhead : ∀ x xs, munge (a ++ [c]) = x :: xs → x ≠ ' ' := by
    intro x xs hx
    cases ha : a ++ [c] with
    | nil => simp at ha
    | cons d ds =>
      have hdw := strip_head (hs.trans ha)
      have hdt : d ≠ '\t' := by rintro rfl; simp [isWhite, isSpace] at hdw
      have hds : isSpace d = false := by
        cases h : isSpace d with
        | false => rfl
        | true => rw [isWhite_of_isSpace h] at hdw; simp at hdw
      rw [ha] at hx
      simp only [munge, expandTabs, hdt, if_false, List.map_cons, hds, Bool.false_eq_true,
        List.cons.injEq] at hx
      rw [← hx.1]
      rintro rfl
      simp [isWhite_space] at hdw
  obtain ⟨k, w0, gs, h1, h2, h3⟩ := decompose (munge_plain hp) (by rw [hm]; simp)
    (by
      intro x y hxy
      rw [hm] at hxy
      have := (List.append_inj_right' hxy (by simp))
      simp only [List.cons.injEq, and_true] at this
      rw [← this]
      rintro rfl
      simp [isWhite_space] at hcw)
  cases k with
  | succ k =>
    exact absurd rfl (hhead ' ' _ (by rw [h1]; simp [sp, List.replicate_succ]; rfl))
  | zero =>
    have h1 : munge (a ++ [c]) = w0 ++ gapText gs := by rw [h1]; simp [sp]
    exact stableLoop_ends hw n h1 (isWord_of h2.1 h2.2)
      (fun g h => ⟨(h3 g h).1, isWord_of (h3 g h).2.1 (h3 g h).2.2⟩)
      (by rw [← surplus_excess h2 h3 h1]; exact hn)

/-- **C25.** A paragraph with at most six surplus blanks is reflowed without error. -/
theorem reflow_converges_partial (width : Int) (hw : 0 < width) (t : Str) (hs : strip t = t)
    (hp : PlainBlanks t) (hn : surplus t ≤ 6) : ∃ ls, stableWrap width t = .ok ls :=
  reflow_ends width hw t hs hp 6 hn

/-- **C25.** Reflowing the result gives the same lines. -/
theorem reflow_idempotent (width : Int) (t : Str) (ls : List Str) (h : stableWrap width t = .ok ls) :
    stableWrap width (join ['\n'] ls) = .ok ls := by
  simp [stableWrap, stableLoop, (stableLoop_ok h).1]

/-- A paragraph of eleven one-letter words with wide gaps. -/
def wideGaps : Str :=
  'x' :: [3, 18, 16, 14, 12, 10, 8, 6, 4, 2].flatMap (fun k => List.replicate k ' ' ++ ['x'])

/-- **C25 is false** of the code: eight rounds are not always enough. -/
theorem reflow_fails : stableWrap 55 wideGaps = .error .assertion := by decide +kernel

example : strip wideGaps = wideGaps ∧ (∀ c ∈ wideGaps, isWhite c = true → isSpace c = true) ∧
    surplus wideGaps = 83 := by decide +kernel

example : strip (S "one two\tthree  four") = S "one two\tthree  four" ∧
    (∀ c ∈ S "one two\tthree  four", isWhite c = true → isSpace c = true) ∧
    surplus (S "one two\tthree  four") = 1 := by decide +kernel

/-! ## C27 -/

/-- A measure of a text: its words or its non-blank characters. -/
structure Meas {β : Type} (f : Str → List β) : Prop where
  cat : ∀ a b c, isWhite c = true → f (a ++ c :: b) = f a ++ f b
  nil : f [] = []

theorem words_meas : Meas words := ⟨fun a b c h => words_white a b c h, rfl⟩

theorem ink_meas : Meas ink := ⟨fun a b c h => by simp [ink, h], rfl⟩

section Conserve
variable {β : Type} {f : Str → List β} (hf : Meas f)
include hf

theorem Meas.lead {w : Str} (h : w.all isWhite = true) (s : Str) : f (w ++ s) = f s := by
  induction w with
  | nil => rfl
  | cons c cs ih =>
    simp only [List.all_cons, Bool.and_eq_true] at h
    have := hf.cat [] (cs ++ s) c h.1
    simp only [List.nil_append, hf.nil] at this
    rw [List.cons_append, this, ih h.2]

theorem Meas.trail {w : Str} (h : w.all isWhite = true) (s : Str) : f (s ++ w) = f s := by
  cases w with
  | nil => simp
  | cons c cs =>
    simp only [List.all_cons, Bool.and_eq_true] at h
    rw [hf.cat _ _ _ h.1]
    have := hf.lead h.2 []
    simp only [List.append_nil, hf.nil] at this
    simp [this]

theorem Meas.lstrip (s : Str) : f (lstripBy isWhite s) = f s := by
  have := List.takeWhile_append_dropWhile (p := isWhite) (l := s)
  conv => rhs; rw [← this]
  rw [hf.lead List.all_takeWhile]
  rfl

theorem Meas.rstrip (s : Str) : f (rstripBy isWhite s) = f s := by
  have h2 := congrArg List.reverse (List.takeWhile_append_dropWhile (p := isWhite) (l := s.reverse))
  simp only [List.reverse_append, List.reverse_reverse] at h2
  conv => rhs; rw [← h2]
  rw [hf.trail (by rw [List.all_reverse]; exact List.all_takeWhile)]
  rfl

theorem Meas.strip (s : Str) : f (strip s) = f s := by
  rw [Wrap.strip, hf.rstrip, hf.lstrip]

/-- Everything in the items, in order. -/
def total (f : Str → List β) (items : List Item) : List β := items.flatMap fun i => i.lines.flatMap f

/-- What of a line is kept, in any measure. -/
def KeptBy (f : Str → List β) (line : Str) (piece : List β) : Prop :=
  f line = piece ∨ ∃ m, IsMarker m ∧ (∀ c ∈ m, isWhite c = false) ∧ f line = f m ++ piece

omit hf in
theorem total_snoc (items : List Item) (i : Item) :
    total f (items ++ [i]) = total f items ++ i.lines.flatMap f := by
  simp [total]

omit hf in
theorem onLast_snoc (g : Item → Item) (items : List Item) (i : Item) :
    onLast g (items ++ [i]) = items ++ [g i] := by
  induction items with
  | nil => rfl
  | cons a as ih =>
    cases as with
    | nil => simp [onLast]
    | cons b bs => simp only [List.cons_append, onLast] at ih ⊢; rw [ih]

/-- What the state says of the items. -/
def StOk (items : List Item) : State → Prop
  | .paragraph | .note | .verbatim => items ≠ []
  | .bullet ind p => (∃ a i, items = a ++ [i] ∧ i.lines ≠ []) ∧ ind.all isWhite = true ∧ (p = '*' ∨ p = '-')
  | .enum ind _ => (∃ a i, items = a ++ [i] ∧ i.lines ≠ []) ∧ ind.all isWhite = true
  | _ => True

omit hf in
theorem total_addLine {items : List Item} (h : items ≠ []) (line : Str) :
    total f (addLine line items) = total f items ++ f line := by
  obtain ⟨a, i, rfl⟩ : ∃ a i, items = a ++ [i] := by
    rcases List.eq_nil_or_concat items with e | ⟨a, i, e⟩
    · exact absurd e h
    · exact ⟨a, i, by simpa using e⟩
  simp [addLine, onLast_snoc, total]

theorem total_extendLine {a : List Item} {i : Item} (h : i.lines ≠ []) (line : Str) :
    total f (extendLine line (a ++ [i])) = total f (a ++ [i]) ++ f line := by
  rw [extendLine, onLast_snoc]
  obtain ⟨ls, l, e⟩ : ∃ ls l, i.lines = ls ++ [l] := by
    rcases List.eq_nil_or_concat i.lines with e | ⟨a, i, e⟩
    · exact absurd e h
    · exact ⟨a, i, by simpa using e⟩
  have hn : isWhite '\n' = true := by decide
  have := hf.cat l line '\n' hn
  simp [total, e, this]

omit hf in
theorem addLine_last {a : List Item} {i : Item} (line : Str) :
    ∃ j, addLine line (a ++ [i]) = a ++ [j] ∧ j.lines ≠ [] := by
  rw [addLine, onLast_snoc]; exact ⟨_, rfl, by simp⟩

omit hf in
theorem extendLine_last {a : List Item} {i : Item} (h : i.lines ≠ []) (line : Str) :
    ∃ j, extendLine line (a ++ [i]) = a ++ [j] ∧ j.lines ≠ [] := by
  rw [extendLine, onLast_snoc]
  refine ⟨_, rfl, ?_⟩
  cases e : i.lines.getLast? with
  | none => rw [List.getLast?_eq_none_iff] at e; exact absurd e h
  | some l => simp

theorem bulletMatch_kept {line ind text : Str} {p : Char} (h : bulletMatch line = some (ind, p, text)) :
    KeptBy f line (f text) := by
  unfold bulletMatch at h
  split at h
  · rename_i c x xs e
    split at h
    · rename_i hc
      simp only [Option.some.injEq, Prod.mk.injEq] at h
      obtain ⟨-, -, rfl⟩ := h
      right
      have h1 : f line = f (c :: ' ' :: x :: xs) := by
        rw [← e]; exact (hf.lstrip line).symm
      have h2 := hf.cat [c] (x :: xs) ' ' isWhite_space
      have h3 := hf.cat [] (x :: xs) ' ' isWhite_space
      simp only [List.nil_append, hf.nil] at h3
      refine ⟨[c], ?_, ?_, by rw [h1, h3]; exact h2⟩
      · simp only [Bool.or_eq_true, beq_iff_eq] at hc
        rcases hc with rfl | rfl
        · exact Or.inl rfl
        · exact Or.inr (Or.inl rfl)
      · simp only [Bool.or_eq_true, beq_iff_eq] at hc
        intro d hd
        rw [List.mem_singleton] at hd
        subst hd
        rcases hc with rfl | rfl <;> decide
    · simp at h
  · simp at h

omit hf in
theorem digit_not_white {c : Char} (h : isDigit c = true) : isWhite c = false := by
  simp only [isDigit, Bool.and_eq_true, decide_eq_true_eq] at h
  have h1 : ∀ d : Char, d.toNat < 48 → c ≠ d := by
    rintro d hd rfl; omega
  have e : isSpace c = false := by
    simp [isSpace, h1 ' ' (by decide), h1 '\t' (by decide), h1 '\n' (by decide),
      h1 '\r' (by decide), h1 '\x0b' (by decide), h1 '\x0c' (by decide)]
  simp only [isWhite, e, Bool.false_or, Bool.or_eq_false_iff, Bool.and_eq_false_iff,
    decide_eq_false_iff_not, List.contains_eq_mem, List.mem_cons, List.not_mem_nil, or_false]
  omega

omit hf in
theorem split_while (q : Char → Bool) (s : Str) : s = s.takeWhile q ++ s.dropWhile q :=
  List.takeWhile_append_dropWhile.symm

omit hf in
theorem takeWhile_digit {s : Str} : ∀ c ∈ s.takeWhile isDigit, isDigit c = true := by
  have := List.all_takeWhile (p := isDigit) (l := s)
  rwa [List.all_eq_true] at this

/-- Digits, a character and a space. -/
theorem digits_kept {s : Str} {c : Char} {xs : Str} (hd : (s.takeWhile isDigit).isEmpty = false)
    (e : s.dropWhile isDigit = c :: ' ' :: xs) : KeptBy f s (f (' ' :: xs)) := by
  have hs := split_while isDigit s
  rw [e] at hs
  have hne : s.takeWhile isDigit ≠ [] := by simpa using hd
  have h3 := hf.cat [] xs ' ' isWhite_space
  simp only [List.nil_append, hf.nil] at h3
  right
  cases hc : isWhite c with
  | false =>
    refine ⟨s.takeWhile isDigit ++ [c], Or.inr (Or.inr ⟨_, _, rfl, hne, takeWhile_digit, by simp⟩), ?_, ?_⟩
    · intro d hd
      rcases List.mem_append.1 hd with h | h
      · exact digit_not_white (takeWhile_digit d h)
      · rw [List.mem_singleton] at h; rwa [h]
    · have := hf.cat (s.takeWhile isDigit ++ [c]) xs ' ' isWhite_space
      rw [h3, ← this]
      conv => lhs; rw [hs]
      simp
  | true =>
    refine ⟨s.takeWhile isDigit, Or.inr (Or.inr ⟨_, [], by simp, hne, takeWhile_digit, by simp⟩),
      fun d h => digit_not_white (takeWhile_digit d h), ?_⟩
    conv => lhs; rw [hs]
    exact hf.cat _ _ _ hc

theorem enumMatch_kept {line ind text : Str} {p : Char} (h : enumMatch line = some (ind, p, text)) :
    KeptBy f line (f text) := by
  unfold enumMatch at h
  simp only at h
  split at h
  · simp at h
  · rename_i hd
    split at h
    · rename_i c x xs e
      split at h
      · simp only [Option.some.injEq, Prod.mk.injEq] at h
        obtain ⟨-, -, rfl⟩ := h
        have := digits_kept hf (by simpa using hd) e
        have hl : f (line.dropWhile isWhite) = f line := hf.lstrip line
        simpa only [KeptBy, hl] using this
      · simp at h
    · simp at h

theorem bulletNext_kept {ind line text : Str} {p : Char} (hi : ind.all isWhite = true)
    (hp : p = '*' ∨ p = '-') (h : bulletNext ind p line = some text) : KeptBy f line (f text) := by
  unfold bulletNext at h
  split at h
  · rename_i c xs e
    split at h
    · rename_i hc
      simp only [Option.some.injEq] at h
      subst h; subst hc
      have e' := stripPrefix?_eq e
      right
      have h2 := hf.cat [c] xs ' ' isWhite_space
      have h3 := hf.cat [] xs ' ' isWhite_space
      simp only [List.nil_append, hf.nil] at h3
      refine ⟨[c], ?_, ?_, by rw [e', hf.lead hi, h3]; exact h2⟩
      · rcases hp with rfl | rfl
        · exact Or.inl rfl
        · exact Or.inr (Or.inl rfl)
      · intro d hd
        rw [List.mem_singleton] at hd
        subst hd
        rcases hp with rfl | rfl <;> decide
    · simp at h
  · simp at h

theorem enumNext_kept {ind line text : Str} {p : Char} (hi : ind.all isWhite = true)
    (h : enumNext ind p line = some text) : KeptBy f line (f text) := by
  unfold enumNext at h
  split at h
  · rename_i s e
    have e' := stripPrefix?_eq e
    have hl : f line = f s := by rw [e', hf.lead hi]
    simp only at h
    split at h
    · simp at h
    · rename_i hd
      split at h
      · rename_i c xs e2
        split at h
        · simp only [Option.some.injEq] at h
          subst h
          have := digits_kept hf (by simpa using hd) e2
          simpa only [KeptBy, hl] using this
        · simp at h
      · rename_i xs hno e2
        split at h
        · simp only [Option.some.injEq] at h
          subst h
          right
          have h3 := hf.cat [] xs ' ' isWhite_space
          simp only [List.nil_append, hf.nil] at h3
          refine ⟨s.takeWhile isDigit, Or.inr (Or.inr ⟨s.takeWhile isDigit, [], by simp,
            by simpa using hd, takeWhile_digit, by simp⟩), fun d h => digit_not_white (takeWhile_digit d h), ?_⟩
          rw [hl, h3, ← hf.cat _ _ _ isWhite_space]
          congr 1
          rw [← e2]; exact split_while _ _
        · simp at h
      · simp at h
  · simp at h

omit hf in
theorem bulletMatch_head {line ind text : Str} {p : Char} (h : bulletMatch line = some (ind, p, text)) :
    ind.all isWhite = true ∧ (p = '*' ∨ p = '-') := by
  unfold bulletMatch at h
  split at h
  · split at h
    · rename_i hc
      simp only [Option.some.injEq, Prod.mk.injEq] at h
      obtain ⟨rfl, rfl, -⟩ := h
      exact ⟨List.all_takeWhile, by simpa using hc⟩
    · simp at h
  · simp at h

omit hf in
theorem enumMatch_head {line ind text : Str} {p : Char} (h : enumMatch line = some (ind, p, text)) :
    ind.all isWhite = true := by
  unfold enumMatch at h
  simp only at h
  split at h
  · simp at h
  · split at h
    · split at h
      · simp only [Option.some.injEq, Prod.mk.injEq] at h
        obtain ⟨rfl, -, -⟩ := h
        exact List.all_takeWhile
      · simp at h
    · simp at h

/-- One line is added to the items. -/
def Step (f : Str → List β) (items : List Item) (line : Str) (r : List Item × State) : Prop :=
  StOk r.1 r.2 ∧ ∃ piece, KeptBy f line piece ∧ total f r.1 = total f items ++ piece

theorem step_push (items : List Item) (line : Str) (k : Kind) (st : State)
    (hst : st = .paragraph ∨ st = .note ∨ st = .ruler) :
    Step f items line (items ++ [{ kind := k, lines := [strip line] }], st) := by
  refine ⟨?_, f line, Or.inl rfl, by simp [total_snoc, hf.strip]⟩
  rcases hst with rfl | rfl | rfl <;> simp [StOk]

theorem freshLine_step (cfg : Cfg) (items : List Item) (line : Str) :
    Step f items line (freshLine cfg items line) := by
  unfold freshLine
  split
  · rename_i ind p text h
    have hh := bulletMatch_head h
    exact ⟨⟨⟨_, _, rfl, by simp⟩, hh⟩, _, bulletMatch_kept hf h, by simp [total_snoc]⟩
  · split
    · rename_i ind p text h
      have hh := enumMatch_head h
      exact ⟨⟨⟨_, _, rfl, by simp⟩, hh⟩, _, enumMatch_kept hf h, by simp [total_snoc, hf.strip]⟩
    · split
      · exact step_push hf _ _ _ _ (by simp)
      · split
        · exact step_push hf _ _ _ _ (by simp)
        · exact step_push hf _ _ _ _ (by simp)

theorem plainLine_step (cfg : Cfg) (items : List Item) (st : State) (line : Str) (h : StOk items st) :
    Step f items line (plainLine cfg items st line) := by
  have hadd : ∀ st : State, (st = .paragraph ∨ st = .note ∨ st = .verbatim) → items ≠ [] → ∀ l,
      f l = f line → Step f items line (addLine l items, st) := by
    intro st hst hne l hl
    refine ⟨?_, f line, Or.inl rfl, by rw [total_addLine hne, hl]⟩
    have : addLine l items ≠ [] := by
      obtain ⟨a, i, rfl⟩ : ∃ a i, items = a ++ [i] := by
        rcases List.eq_nil_or_concat items with e | ⟨a, i, e⟩
        · exact absurd e hne
        · exact ⟨a, i, by simpa using e⟩
      rw [addLine, onLast_snoc]; simp
    rcases hst with rfl | rfl | rfl <;> exact this
  unfold plainLine
  split
  · rename_i hv
    subst hv
    refine hadd _ (by simp) h _ ?_
    split
    · have h3 := fun l => hf.cat [] l ' ' isWhite_space
      simp only [List.nil_append, hf.nil] at h3
      exact (h3 _).symm
    · rfl
  split
  · rename_i hempty
    have hl : line = [] := by simpa using hempty
    subst hl
    split
    · exact ⟨h, [], Or.inl hf.nil, by simp⟩
    · exact ⟨trivial, [], Or.inl hf.nil, by simp [total_snoc]⟩
  split
  · exact step_push hf _ _ _ _ (by simp)
  · rename_i hv _ _
    cases st with
    | none => exact freshLine_step hf cfg items line
    | separator => exact freshLine_step hf cfg items line
    | ruler => exact freshLine_step hf cfg items line
    | verbatim => exact absurd rfl hv
    | paragraph =>
      simp only
      split
      · exact step_push hf _ _ _ _ (by simp)
      · split
        · exact step_push hf _ _ _ _ (by simp)
        · exact hadd _ (by simp) h _ (hf.strip _)
    | note =>
      simp only
      split
      · exact step_push hf _ _ _ _ (by simp)
      · split
        · exact step_push hf _ _ _ _ (by simp)
        · exact hadd _ (by simp) h _ (hf.strip _)
    | bullet ind p =>
      obtain ⟨⟨a, i, rfl, hi⟩, hw, hp⟩ := h
      simp only
      split
      · rename_i t ht
        obtain ⟨j, e1, e2⟩ := addLine_last (a := a) (i := i) (strip t)
        exact ⟨⟨⟨a, j, e1, e2⟩, hw, hp⟩, f t, bulletNext_kept hf hw hp ht,
          by rw [total_addLine (by simp), hf.strip]⟩
      · obtain ⟨j, e1, e2⟩ := extendLine_last (a := a) hi (strip line)
        exact ⟨⟨⟨a, j, e1, e2⟩, hw, hp⟩, f line, Or.inl rfl,
          by rw [total_extendLine hf hi, hf.strip]⟩
    | enum ind p =>
      obtain ⟨⟨a, i, rfl, hi⟩, hw⟩ := h
      simp only
      split
      · rename_i t ht
        obtain ⟨j, e1, e2⟩ := addLine_last (a := a) (i := i) (strip t)
        exact ⟨⟨⟨a, j, e1, e2⟩, hw⟩, f t, enumNext_kept hf hw ht,
          by rw [total_addLine (by simp), hf.strip]⟩
      · obtain ⟨j, e1, e2⟩ := extendLine_last (a := a) hi (strip line)
        exact ⟨⟨⟨a, j, e1, e2⟩, hw⟩, f line, Or.inl rfl,
          by rw [total_extendLine hf hi, hf.strip]⟩

end Conserve

theorem ink_marker {m : Str} (h : ∀ c ∈ m, isWhite c = false) : ink m = m := by
  rw [ink, List.filter_eq_self]
  intro c hc
  simp [h c hc]

theorem parseLine_step (cfg : Cfg)
    (hfence : ∀ l g1 g2, cfg.fence l = some (g1, g2) → ink l = ink g1 ++ ink g2)
    (acc : List Item × State) (line : Str) (h : StOk acc.1 acc.2) :
    StOk (parseLine cfg acc line).1 (parseLine cfg acc line).2 ∧
      ∃ piece, Kept cfg line piece ∧
        itemsInk (parseLine cfg acc line).1 = itemsInk acc.1 ++ piece := by
  have key : ∀ (items : List Item) (st : State) (g1 l2 : Str), StOk items st →
      cfg.fence line ≠ none → ink line = ink g1 ++ ink l2 → itemsInk items = itemsInk acc.1 ++ ink g1 →
      StOk (plainLine cfg items st l2).1 (plainLine cfg items st l2).2 ∧
      ∃ piece, Kept cfg line piece ∧ itemsInk (plainLine cfg items st l2).1 = itemsInk acc.1 ++ piece := by
    intro items st g1 l2 hst hfl hink hit
    obtain ⟨h1, piece, hk, ht⟩ := plainLine_step ink_meas cfg items st l2 hst
    refine ⟨h1, ink g1 ++ piece, ?_, ?_⟩
    · rcases hk with hk | ⟨m, hm, hmw, hk⟩
      · left; rw [hink, hk]
      · right
        exact ⟨ink g1, m, piece, hm, by rw [hink, hk, ink_marker hmw, List.append_assoc], rfl, fun _ => hfl⟩
    · have ht' : itemsInk (plainLine cfg items st l2).1 = itemsInk items ++ piece := ht
      rw [ht', hit, List.append_assoc]
  have hstrip : ∀ s, ink (strip s) = ink s := ink_meas.strip
  unfold parseLine
  split
  · rename_i g1 g2 hfl
    have hl := hfence _ _ _ hfl
    have hfl' : cfg.fence line ≠ none := by rw [hfl]; simp
    have hnil : (strip g2).isEmpty = true → ink g2 = [] := by
      intro he
      rw [← hstrip g2]
      have : strip g2 = [] := by simpa using he
      rw [this]; rfl
    simp only
    split
    · split
      · rename_i he
        exact ⟨trivial, ink g1, Or.inl (by rw [hl, hnil he, List.append_nil]),
          by simp [itemsInk, hstrip]⟩
      · exact key _ _ g1 _ trivial hfl' (by rw [hl, hstrip]) (by simp [itemsInk, hstrip])
    · split
      · rename_i he
        exact ⟨by simp [StOk], ink g1, Or.inl (by rw [hl, hnil he, List.append_nil]),
          by simp [itemsInk, hstrip]⟩
      · exact key _ _ g1 _ (by simp [StOk]) hfl' (by rw [hl, hstrip]) (by simp [itemsInk, hstrip])
  · obtain ⟨h1, piece, hk, ht⟩ := plainLine_step ink_meas cfg acc.1 acc.2 line h
    refine ⟨h1, piece, ?_, ht⟩
    rcases hk with hk | ⟨m, hm, hmw, hk⟩
    · exact Or.inl hk
    · exact Or.inr ⟨[], m, piece, hm, by rw [hk, ink_marker hmw]; rfl, rfl, fun h => absurd rfl h⟩

/-- Item by item: a list relation. -/
inductive Each {α β : Type} (R : α → β → Prop) : List α → List β → Prop
  | nil : Each R [] []
  | cons {a b as bs} : R a b → Each R as bs → Each R (a :: as) (b :: bs)

/-- **C27.** Every line of a comment is kept in the items, in order; only blanks and list
markers are dropped. -/
theorem markup_keeps_lines (cfg : Cfg)
    (hfence : ∀ l g1 g2, cfg.fence l = some (g1, g2) → ink l = ink g1 ++ ink g2) (lines : List Str) :
    ∃ pieces, Each (Kept cfg) lines pieces ∧ itemsInk (parse cfg lines) = pieces.flatten := by
  have key : ∀ (lines : List Str) (acc : List Item × State), StOk acc.1 acc.2 →
      ∃ pieces, Each (Kept cfg) lines pieces ∧
        itemsInk (lines.foldl (parseLine cfg) acc).1 = itemsInk acc.1 ++ pieces.flatten := by
    intro lines
    induction lines with
    | nil => intro acc _; exact ⟨[], .nil, by simp⟩
    | cons l ls ih =>
      intro acc h
      obtain ⟨h1, piece, hk, ht⟩ := parseLine_step cfg hfence acc l h
      obtain ⟨ps, he, ht2⟩ := ih _ h1
      exact ⟨piece :: ps, .cons hk he, by rw [List.foldl_cons, ht2, ht]; simp⟩
  obtain ⟨ps, h1, h2⟩ := key lines ([], .none) trivial
  exact ⟨ps, h1, by simpa [parse, itemsInk] using h2⟩

/-- Without fences, the words of every line are kept. -/
theorem markup_keeps_words (cfg : Cfg) (lines : List Str) (hfence : ∀ l ∈ lines, cfg.fence l = none) :
    ∃ pieces, Each KeptWords lines pieces ∧ itemsWords (parse cfg lines) = pieces.flatten := by
  have key : ∀ (lines : List Str) (acc : List Item × State), (∀ l ∈ lines, cfg.fence l = none) →
      StOk acc.1 acc.2 → ∃ pieces, Each KeptWords lines pieces ∧
        itemsWords (lines.foldl (parseLine cfg) acc).1 = itemsWords acc.1 ++ pieces.flatten := by
    intro lines
    induction lines with
    | nil => intro acc _ _; exact ⟨[], .nil, by simp⟩
    | cons l ls ih =>
      intro acc hfence h
      obtain ⟨h1, piece, hk, ht⟩ := plainLine_step words_meas cfg acc.1 acc.2 l h
      have e : parseLine cfg acc l = plainLine cfg acc.1 acc.2 l := by
        unfold parseLine; rw [hfence l (by simp)]
      rw [← e] at h1 ht
      obtain ⟨ps, he, ht2⟩ := ih _ (fun x hx => hfence x (by simp [hx])) h1
      refine ⟨piece :: ps, .cons ?_ he, ?_⟩
      · rcases hk with hk | ⟨m, hm, hmw, hk⟩
        · exact Or.inl hk
        · refine Or.inr ⟨m, hm, ?_⟩
          rw [hk, words_word hmw]
          · rfl
          · rcases hm with rfl | rfl | ⟨ds, t, rfl, hd, -⟩
            · simp
            · simp
            · intro e; exact hd (List.append_eq_nil_iff.1 e).1
      · rw [List.foldl_cons, ht2]
        have : itemsWords (parseLine cfg acc l).1 = itemsWords acc.1 ++ piece := ht
        rw [this]; simp
  obtain ⟨ps, h1, h2⟩ := key lines ([], .none) hfence trivial
  exact ⟨ps, h1, by simpa [parse, itemsWords] using h2⟩

/-- The default fence pattern splits a line in two. -/
theorem defaultFence_ink (l g1 g2 : Str) (h : defaultFence l = some (g1, g2)) :
    ink l = ink g1 ++ ink g2 := by
  unfold defaultFence at h
  simp only at h
  split at h
  · simp only [Option.some.injEq, Prod.mk.injEq] at h
    obtain ⟨rfl, rfl⟩ := h
    rw [← ink_meas.lstrip l]
    conv => lhs; rw [split_while (fun c => c == '`' || c == '~') (lstripBy isWhite l)]
    simp only [ink, List.filter_append]
    rfl
  · simp at h

/-- The default patterns. -/
def defaultCfg : Cfg := { fence := defaultFence, ruler := defaultRuler, ruler0 := defaultRuler }

example : parse defaultCfg [S " Some text", S "", S " * one", S "   more", S " * two", S "", S " ~~~cmake",
      S "  foo()", S " ~~~", S " 1. first", S " 2. second"] =
    [⟨.paragraph, 0, [S "Some text"]⟩, ⟨.separator, 0, []⟩,
     ⟨.bulletList, 1, [S " one\nmore", S "two"]⟩, ⟨.separator, 0, []⟩, ⟨.fence, 0, [S "~~~"]⟩,
     ⟨.verbatim, 0, [S "cmake", S " foo()"]⟩, ⟨.fence, 0, [S "~~~"]⟩,
     ⟨.enumList, 1, [S "first", S "second"]⟩] := by decide +kernel

/-- Two blank lines in a row. -/
def NoDouble : List Item → Prop
  | a :: b :: r => ¬ (a.kind = .separator ∧ b.kind = .separator) ∧ NoDouble (b :: r)
  | _ => True

theorem noDouble_snoc {items : List Item} {i : Item} :
    NoDouble (items ++ [i]) ↔
      NoDouble items ∧ ¬ (i.kind = .separator ∧ ∃ a b, items = a ++ [b] ∧ b.kind = .separator) := by
  induction items with
  | nil => simp [NoDouble]
  | cons a as ih =>
    cases as with
    | nil => simp only [List.cons_append, List.nil_append, NoDouble, and_true, true_and]
             constructor
             · rintro h ⟨h1, x, y, e, h2⟩
               cases x with
               | nil => simp at e; subst e; exact h ⟨h2, h1⟩
               | cons => simp at e
             · rintro h ⟨h1, h2⟩
               exact h ⟨h2, [], a, rfl, h1⟩
    | cons b bs =>
      simp only [List.cons_append, NoDouble] at ih ⊢
      rw [ih]
      constructor
      · rintro ⟨h1, h2, h3⟩
        refine ⟨⟨h1, h2⟩, ?_⟩
        rintro ⟨h4, x, y, e, h5⟩
        cases x with
        | nil => simp at e
        | cons z zs =>
          simp only [List.cons_append, List.cons.injEq] at e
          exact h3 ⟨h4, zs, y, e.2, h5⟩
      · rintro ⟨⟨h1, h2⟩, h3⟩
        refine ⟨h1, h2, ?_⟩
        rintro ⟨h4, x, y, e, h5⟩
        exact h3 ⟨h4, a :: x, y, by rw [e]; rfl, h5⟩

/-- After a separator, the state says so. -/
def SepOk (r : List Item × State) : Prop :=
  NoDouble r.1 ∧ ∀ a i, r.1 = a ++ [i] → i.kind = .separator → r.2 = .separator

theorem sepOk_push {items : List Item} {st : State} (i : Item) (hi : i.kind ≠ .separator)
    (h : NoDouble items) : SepOk (items ++ [i], st) := by
  refine ⟨noDouble_snoc.2 ⟨h, fun h => hi h.1⟩, ?_⟩
  intro a j e hj
  have := (List.append_inj_right' e (by simp))
  simp only [List.cons.injEq, and_true] at this
  subst this
  exact absurd hj hi

theorem sepOk_onLast {items : List Item} {st : State} (g : Item → Item) (hg : ∀ i, (g i).kind = i.kind)
    (h : SepOk (items, st)) : SepOk (onLast g items, st) := by
  rcases List.eq_nil_or_concat items with rfl | ⟨a, i, e⟩
  · exact h
  · rw [List.concat_eq_append] at e
    subst e
    rw [onLast_snoc]
    obtain ⟨h1, h2⟩ := h
    refine ⟨noDouble_snoc.2 ?_, ?_⟩
    · rw [hg]; exact noDouble_snoc.1 h1
    · intro b j e hj
      have := (List.append_inj_right' e (by simp))
      simp only [List.cons.injEq, and_true] at this
      subst this
      exact h2 a i rfl (by rw [← hg]; exact hj)

theorem freshLine_sep (cfg : Cfg) (items : List Item) (line : Str) (h : NoDouble items) :
    SepOk (freshLine cfg items line) := by
  unfold freshLine
  split
  · exact sepOk_push _ (by simp) h
  · split
    · exact sepOk_push _ (by simp) h
    · split
      · exact sepOk_push _ (by simp) h
      · split
        · exact sepOk_push _ (by simp) h
        · exact sepOk_push _ (by simp) h

theorem plainLine_sep (cfg : Cfg) (items : List Item) (st : State) (line : Str)
    (h : SepOk (items, st)) : SepOk (plainLine cfg items st line) := by
  unfold plainLine
  split
  · rename_i hv
    subst hv
    exact sepOk_onLast _ (fun _ => rfl) h
  split
  · split
    · exact h
    · rename_i hs
      refine ⟨noDouble_snoc.2 ⟨h.1, ?_⟩, fun _ _ _ _ => rfl⟩
      rintro ⟨_, a, b, e, hb⟩
      exact hs (h.2 a b e hb)
  split
  · exact sepOk_push _ (by simp) h.1
  · cases st with
    | none => exact freshLine_sep cfg items line h.1
    | separator => exact freshLine_sep cfg items line h.1
    | ruler => exact freshLine_sep cfg items line h.1
    | verbatim => exact freshLine_sep cfg items line h.1
    | paragraph =>
      simp only
      split
      · exact sepOk_push _ (by simp) h.1
      · split
        · exact sepOk_push _ (by simp) h.1
        · exact sepOk_onLast _ (fun _ => rfl) h
    | note =>
      simp only
      split
      · exact sepOk_push _ (by simp) h.1
      · split
        · exact sepOk_push _ (by simp) h.1
        · exact sepOk_onLast _ (fun _ => rfl) h
    | bullet ind p =>
      simp only
      split
      · exact sepOk_onLast _ (fun _ => rfl) h
      · exact sepOk_onLast _ (fun _ => rfl) h
    | enum ind p =>
      simp only
      split
      · exact sepOk_onLast _ (fun _ => rfl) h
      · exact sepOk_onLast _ (fun _ => rfl) h

/-- **C27.** Blank lines are merged: no two separators follow one another. -/
theorem markup_merges_blank (cfg : Cfg) (lines : List Str) (a b : List Item) (x y : Item)
    (h : parse cfg lines = a ++ x :: y :: b) : ¬ (x.kind = .separator ∧ y.kind = .separator) := by
  have step : ∀ acc line, SepOk acc → SepOk (parseLine cfg acc line) := by
    intro acc line h
    unfold parseLine
    split
    · rename_i g1 g2 _
      have h1 := fun st => sepOk_push (st := st) { kind := .fence, lines := [strip g1] } (by simp) h.1
      have h2 := fun st => sepOk_push (st := st) { kind := .verbatim } (by simp) (h1 st).1
      simp only
      split
      · split
        · exact h1 _
        · exact plainLine_sep cfg _ _ _ (h1 _)
      · split
        · exact h2 _
        · exact plainLine_sep cfg _ _ _ (h2 .verbatim)
    · exact plainLine_sep cfg acc.1 acc.2 line h
  have all : ∀ (lines : List Str) acc, SepOk acc → SepOk (lines.foldl (parseLine cfg) acc) := by
    intro lines
    induction lines with
    | nil => exact fun _ h => h
    | cons l ls ih => exact fun acc h => ih _ (step acc l h)
  have hd : NoDouble (parse cfg lines) := (all lines ([], .none) ⟨trivial, by simp⟩).1
  rw [h] at hd
  clear h
  induction a with
  | nil => exact hd.1
  | cons z zs ih =>
    apply ih
    cases zs with
    | nil => exact hd.2
    | cons => exact hd.2

/-- A defect: a number at the start of a continuation line is taken for an enumerator and
lost, since the enumerator's dot is used unescaped in a regular expression. -/
theorem enum_loses_number :
    formatComment defaultCfg false false [] 80 [S "# 1. The answer is", S "# 42 times bigger"] =
      .ok [S "# 1. The answer is", S "# 2. times bigger"] := by decide +kernel

/-! ## C24: whole comments -/

/-- **C24.** The words of the lines of a formatted list of items. -/
theorem items_keep_words (cfg : Cfg) (width : Int) (hw : 0 < width) (hist : List Nat)
    (items : List Item) (ls : List Str) (h : formatItems cfg width hist items = .ok ls) :
    ls.flatMap words = items.flatMap (outWords cfg width) := by
  induction items generalizing hist ls with
  | nil => simp only [formatItems, Except.ok.injEq] at h; subst h; rfl
  | cons i is ih =>
    simp only [formatItems] at h
    generalize hn : (if decide (i.kind = .bulletList ∨ i.kind = .enumList) = true then
      2 * ((if decide (i.kind = .bulletList ∨ i.kind = .enumList) = true then
        i.indent :: popIndent i.indent hist else if i.kind = .separator then hist else []).length - 1)
      else 0) = n at h
    split at h
    · simp at h
    · rename_i l1 h1
      split at h
      · simp at h
      · rename_i l2 h2
        simp only [Except.ok.injEq] at h
        subst h
        have hn' : i.kind = .ruler → n = 0 := by
          intro hk; rw [← hn, hk]; rfl
        have e1 := item_keeps_words cfg _ i l1 (fun hk => by rw [hn' hk]; simpa using hw) h1
        have e2 : outWords cfg (width - n) i = outWords cfg width i := by
          unfold outWords
          cases hk : i.kind <;> simp only []
          rw [hn' hk]; simp
        rw [List.flatMap_append, ih _ _ h2, List.flatMap_cons, ← e2, ← e1, List.flatMap_map]
        congr 2
        funext l
        exact words_spaces n l

/-- The lines of a comment that is reformatted. -/
theorem comment_keeps_words (cfg : Cfg) (et first : Bool) (fs : Str) (width : Int)
    (spellings out : List Str) (h : formatComment cfg et first fs width spellings = .ok out)
    (hm : cfg.enableMarkup = true) (hl : cfg.literal = none) (hf : first = false) :
    ∃ ls : List Str, out = ls.map (fun l => (if et then cfg.explicitTrailing else S "#") ++
        spaces (l.take 1).length ++ l) ∧
      ls.flatMap words =
        (parse cfg (spellings.map (commentText cfg et))).flatMap (outWords cfg (max 10 (width - 2))) := by
  simp only [formatComment, isLiteral, hm, hl, hf, Bool.not_true, Bool.false_eq_true, if_false, Bool.false_and] at h
  split at h
  · simp at h
  · rename_i ls hls
    simp only [Except.ok.injEq] at h
    exact ⟨ls, h.symm, items_keep_words cfg _ (by omega) [] _ _ hls⟩

/-! ## C26 -/

theorem directive_word {x : Str} (h : Directive ('#' :: x)) :
    S "cmake-format:" ∈ words x ∨ S "cmf:" ∈ words x := by
  obtain ⟨ws, name, rest, e, hw, hn⟩ := h
  simp only [List.cons_append, List.cons.injEq, true_and] at e
  have e2 : x = ws ++ ((name ++ [':']) ++ ' ' :: rest) := by
    rw [e]
    have : S ": " = [':', ' '] := by decide
    rw [this]; simp
  have hx : words x = words (name ++ [':']) ++ words rest := by
    rw [e2, words_meas.lead (List.all_eq_true.2 hw), words_white _ _ _ isWhite_space]
  rcases hn with rfl | rfl
  · left
    have : words (S "cmake-format" ++ [':']) = [S "cmake-format:"] := by decide +kernel
    rw [hx, this]; simp
  · right
    have : words (S "cmf" ++ [':']) = [S "cmf:"] := by decide +kernel
    rw [hx, this]; simp

theorem keptWords_sub {lines : List Str} {pieces : List (List Str)} (h : Each KeptWords lines pieces) :
    ∀ w ∈ pieces.flatten, ∃ l ∈ lines, w ∈ words l := by
  induction h with
  | nil => simp
  | cons hr _ ih =>
    rename_i a b as bs _
    intro w hw
    rw [List.flatten_cons, List.mem_append] at hw
    rcases hw with hw | hw
    · refine ⟨a, by simp, ?_⟩
      rcases hr with hr | ⟨m, -, hr⟩
      · rw [hr]; exact hw
      · rw [hr]; simp [hw]
    · obtain ⟨l, hl, h⟩ := ih w hw
      exact ⟨l, by simp [hl], h⟩

theorem digit_ofNat (k : Nat) (h : k < 10) : isDigit (Char.ofNat (48 + k)) = true := by
  have : ∀ k : Fin 10, isDigit (Char.ofNat (48 + k.val)) = true := by decide +kernel
  exact this ⟨k, h⟩

theorem decimal_digits (f n : Nat) : ∀ c ∈ decimal f n, isDigit c = true := by
  induction f generalizing n with
  | zero => simp [decimal]
  | succ f ih =>
    intro c hc
    simp only [decimal, List.mem_append, List.mem_singleton] at hc
    rcases hc with hc | rfl
    · split at hc
      · simp at hc
      · exact ih _ c hc
    · exact digit_ofNat _ (Nat.mod_lt _ (by omega))

/-- A word that does not start with a digit and is not in the text or the markers of a
comment is not in the output. -/
theorem outWords_sub (cfg : Cfg) (width : Int) (i : Item) (key : Str)
    (hb : key ∉ words cfg.bulletChar) (he : ∀ c ∈ cfg.enumChar, isWhite c = false)
    (hk : ∃ c cs, key = c :: cs ∧ isDigit c = false ∧ c ≠ '~' ∧ c ≠ '#')
    (hi : ∀ l ∈ i.lines, key ∉ words l) : key ∉ outWords cfg width i := by
  obtain ⟨c, cs, rfl, hd, ht, hh⟩ := hk
  have hlines : (c :: cs) ∉ i.lines.flatMap words := by
    intro h
    obtain ⟨l, hl, h⟩ := List.mem_flatMap.1 h
    exact hi l hl h
  unfold outWords
  cases i.kind <;> simp only []
  · exact hlines
  · intro h
    obtain ⟨l, hl, h⟩ := List.mem_flatMap.1 h
    rcases List.mem_append.1 h with h | h
    · exact hb h
    · exact hi l hl h
  · intro h
    obtain ⟨⟨l, k⟩, hl, h⟩ := List.mem_flatMap.1 h
    rcases List.mem_append.1 h with h | h
    · have hne : decimal (k + 1) k ≠ [] := by simp [decimal]
      have e : words (padNum (digitsOf i.lines.length) k ++ cfg.enumChar) =
          [decimal (k + 1) k ++ cfg.enumChar] := by
        simp only [padNum, List.append_assoc]
        rw [words_spaces, words_word]
        · intro x hx
          rcases List.mem_append.1 hx with hx | hx
          · exact digit_not_white (decimal_digits _ _ x hx)
          · exact he x hx
        · intro e; exact hne (List.append_eq_nil_iff.1 e).1
      simp only [e, List.mem_singleton] at h
      cases hx : decimal (k + 1) k with
      | nil => exact hne hx
      | cons y ys =>
        rw [hx] at h
        simp only [List.cons_append, List.cons.injEq] at h
        have := decimal_digits (k + 1) k y (by rw [hx]; simp)
        rw [← h.1, hd] at this
        simp at this
    · exact hi l (List.fst_mem_of_mem_zipIdx hl) h
  · exact hlines
  · split
    · intro h
      rw [List.mem_singleton] at h
      have : c ∈ List.replicate width.toNat '#' := by rw [← h]; simp
      exact hh (List.eq_of_mem_replicate this)
    · exact hlines
  · simp
  · intro h
    rw [List.mem_singleton] at h
    have : S "~~~" = ['~', '~', '~'] := by decide
    rw [this] at h
    simp only [List.cons.injEq] at h
    exact ht h.1
  · exact hlines

/-- **C26.** If `cmake-format:` and `cmf:` are not among the words of a comment, no line of
the reformatted comment is a directive.  Not covered: comments with fences, explicit
trailing comments; and it is not true if they are among the words, see
`reflow_invents_directive`. -/
theorem reflow_no_directive_partial (cfg : Cfg) (first : Bool) (fs : Str) (width : Int)
    (spellings out : List Str) (h : formatComment cfg false first fs width spellings = .ok out)
    (hfence : ∀ s ∈ spellings, cfg.fence (commentText cfg false s) = none)
    (hwords : ∀ s ∈ spellings, S "cmake-format:" ∉ words (commentText cfg false s) ∧
      S "cmf:" ∉ words (commentText cfg false s))
    (hb : S "cmake-format:" ∉ words cfg.bulletChar ∧ S "cmf:" ∉ words cfg.bulletChar)
    (he : ∀ c ∈ cfg.enumChar, isWhite c = false) : ∀ line ∈ out, ¬ Directive line := by
  have e1 : S "#" = ['#'] := by decide
  have lit : ∀ line ∈ (spellings.map (commentText cfg false)).map (fun l => S "#" ++ rstripBy isWhite l),
      ¬ Directive line := by
    intro line hl hd
    simp only [List.map_map, List.mem_map, Function.comp_apply] at hl
    obtain ⟨s, hs, rfl⟩ := hl
    rw [e1, List.singleton_append] at hd
    have := directive_word hd
    rw [words_meas.rstrip] at this
    rcases this with h | h
    · exact (hwords s hs).1 h
    · exact (hwords s hs).2 h
  unfold formatComment at h
  simp only [Bool.false_eq_true, if_false] at h
  split at h
  · cases h; exact lit
  split at h
  · cases h; exact lit
  split at h
  · cases h; exact lit
  split at h
  · simp at h
  rename_i ls hls
  simp only [Except.ok.injEq] at h
  subst h
  have hw := items_keep_words cfg _ (by omega) [] _ _ hls
  obtain ⟨pieces, hp1, hp2⟩ := markup_keeps_words cfg (spellings.map (commentText cfg false))
    (by intro l hl; obtain ⟨s, hs, rfl⟩ := List.mem_map.1 hl; exact hfence s hs)
  have no : ∀ key, (∃ c cs, key = c :: cs ∧ isDigit c = false ∧ c ≠ '~' ∧ c ≠ '#') →
      key ∉ words cfg.bulletChar → (∀ s ∈ spellings, key ∉ words (commentText cfg false s)) →
      ∀ l ∈ ls, key ∉ words l := by
    intro key hk hb hs l hl hin
    have : key ∈ ls.flatMap words := List.mem_flatMap.2 ⟨l, hl, hin⟩
    rw [hw] at this
    obtain ⟨i, hi, hin⟩ := List.mem_flatMap.1 this
    refine outWords_sub cfg _ i key hb he hk ?_ hin
    intro l hl hkey
    have : key ∈ itemsWords (parse cfg (spellings.map (commentText cfg false))) :=
      List.mem_flatMap.2 ⟨i, hi, List.mem_flatMap.2 ⟨l, hl, hkey⟩⟩
    rw [hp2] at this
    obtain ⟨l', hl', h⟩ := keptWords_sub hp1 key this
    obtain ⟨s, hs', rfl⟩ := List.mem_map.1 hl'
    exact hs s hs' h
  intro line hline hd
  obtain ⟨l, hl, rfl⟩ := List.mem_map.1 hline
  rw [e1, List.append_assoc, List.singleton_append] at hd
  have := directive_word hd
  rw [words_spaces] at this
  rcases this with h | h
  · exact no _ ⟨'c', S "make-format:", by decide, by decide, by decide, by decide⟩ hb.1
      (fun s hs => (hwords s hs).1) l hl h
  · exact no _ ⟨'c', S "mf:", by decide, by decide, by decide, by decide⟩ hb.2
      (fun s hs => (hwords s hs).2) l hl h

example : formatComment defaultCfg false false [] 12 [S "#  one two three", S "# * four cmf off"] =
    .ok [S "# one two", S "# three *", S "# four cmf", S "# off"] := by decide +kernel

/-- **C26 is false** of the code: a comment that is not a directive is reflowed into one
that switches formatting off. -/
theorem reflow_invents_directive :
    (Lex.toks (S "# about the cmf: off\n")).map (fun t => (t.type, t.spelling)) =
        [(.comment, S "# about the cmf: off"), (.newline, S "\n")] ∧
      formatComment defaultCfg false false [] 14 [S "# about the cmf: off"] =
        .ok [S "# about the", S "# cmf: off"] ∧
      Directive (S "# cmf: off") ∧
      (Lex.toks (S "# about the\n# cmf: off\n")).map (fun t => t.type) =
        [.comment, .newline, .formatOff, .newline] := by
  refine ⟨by decide +kernel, by decide +kernel, ⟨[' '], S "cmf", S "off", by decide +kernel, ?_,
    Or.inr rfl⟩, by decide +kernel⟩
  simp [isWhite_space]

/-! ## C52: formatting a comment can only fail by an assertion -/

/-- The text does not end in a blank. -/
def Tight (s : Str) : Prop := ∀ a c, s = a ++ [c] → isWhite c = false

theorem tight_words {s : Str} (h : Tight s) (hne : s ≠ []) : words s ≠ [] := by
  obtain ⟨a, c, rfl⟩ : ∃ a c, s = a ++ [c] := by
    rcases List.eq_nil_or_concat s with e | ⟨a, i, e⟩
    · exact absurd e hne
    · exact ⟨a, i, by simpa using e⟩
  have hc := h a c rfl
  intro hw
  have : ink (a ++ [c]) ≠ [] := by simp [ink, hc]
  apply this
  have flat : ∀ cur s : Str, (∀ c ∈ cur, isWhite c = false) →
      (splitWords cur s).flatten = cur ++ ink s := by
    intro cur s
    induction s generalizing cur with
    | nil =>
      intro _
      simp only [splitWords]
      split
      · rename_i h; simp only [List.isEmpty_iff] at h; subst h; rfl
      · simp [ink]
    | cons d ds ih =>
      intro hcur
      simp only [splitWords]
      cases hd : isWhite d with
      | true =>
        simp only [if_true, List.flatten_append]
        rw [ih [] (by simp)]
        cases hcur' : cur with
        | nil => simp [ink, hd]
        | cons x xs => simp [ink, hd]
      | false =>
        simp only [Bool.false_eq_true, if_false]
        rw [ih (cur ++ [d])]
        · simp [ink, hd]
        · intro x hx
          rcases List.mem_append.1 hx with h | h
          · exact hcur x h
          · rw [List.mem_singleton] at h; rwa [h]
  have := flat [] (a ++ [c]) (by simp)
  rw [show splitWords [] (a ++ [c]) = [] from hw] at this
  simpa using this.symm

theorem tight_strip (s : Str) : Tight (strip s) := fun _ _ h => strip_last h

theorem tight_suffix {a b : Str} (h : Tight b) (hs : a <:+ b) : Tight a := by
  rintro x c rfl
  obtain ⟨p, rfl⟩ := hs
  exact h (p ++ x) c (by simp)

theorem commentText_tight (cfg : Cfg) (et : Bool) (s : Str) : Tight (commentText cfg et s) := by
  unfold commentText
  simp only
  have h := tight_strip s
  split
  · exact tight_suffix h (List.drop_suffix _ _)
  · split
    · exact tight_suffix h (List.drop_suffix _ _)
    · split
      · exact tight_suffix h (List.drop_suffix _ _)
      · exact tight_suffix h (List.dropWhile_suffix _)

/-- Every entry of every list has a word. -/
def IsList (i : Item) : Prop := i.kind = .bulletList ∨ i.kind = .enumList

def Full (items : List Item) : Prop := ∀ i ∈ items, IsList i → ∀ l ∈ i.lines, words l ≠ []

/-- In a verbatim block, the last item is no list. -/
def FullSt (r : List Item × State) : Prop :=
  Full r.1 ∧ (r.2 = .verbatim → ∀ a i, r.1 = a ++ [i] → ¬ IsList i)

theorem full_snoc {items : List Item} {i : Item} (h : Full items)
    (hi : IsList i → ∀ l ∈ i.lines, words l ≠ []) : Full (items ++ [i]) := by
  intro j hj
  rcases List.mem_append.1 hj with hj | hj
  · exact h j hj
  · rw [List.mem_singleton] at hj; subst hj; exact hi

theorem full_onLast {items : List Item} (g : Item → Item) (h : Full items)
    (hg : ∀ a i, items = a ++ [i] → IsList (g i) → ∀ l ∈ (g i).lines, words l ≠ []) :
    Full (onLast g items) := by
  rcases List.eq_nil_or_concat items with rfl | ⟨a, i, e⟩
  · exact h
  · rw [List.concat_eq_append] at e
    subst e
    rw [onLast_snoc]
    exact full_snoc (fun j hj => h j (by simp [hj])) (hg a i rfl)

theorem full_addLine {items : List Item} {l : Str} (h : Full items) (hl : words l ≠ []) :
    Full (addLine l items) := by
  refine full_onLast _ h ?_
  rintro a i rfl hi x hx
  rcases List.mem_append.1 hx with hx | hx
  · exact h i (by simp) hi x hx
  · rw [List.mem_singleton] at hx; rwa [hx]

theorem full_extendLine {items : List Item} {l : Str} (h : Full items) : Full (extendLine l items) := by
  refine full_onLast _ h ?_
  rintro a i rfl hi x hx
  simp only at hx
  have hi' := h i (by simp) hi
  split at hx
  · rename_i y hy
    rcases List.mem_append.1 hx with hx | hx
    · exact hi' x (List.dropLast_subset _ hx)
    · rw [List.mem_singleton] at hx
      subst hx
      have hn : isWhite '\n' = true := by decide
      rw [List.append_assoc, List.singleton_append, words_white _ _ _ hn]
      have := hi' y (List.mem_of_getLast? hy)
      intro e
      exact this (List.append_eq_nil_iff.1 e).1
  · exact hi' x hx

theorem kept_tail_words {line text : Str} (h : Tight line) (hs : text <:+ line) (hne : text ≠ []) :
    words text ≠ [] := tight_words (tight_suffix h hs) hne

theorem bulletMatch_suffix {line ind text : Str} {p : Char} (h : bulletMatch line = some (ind, p, text)) :
    text <:+ line ∧ text ≠ [] := by
  unfold bulletMatch at h
  split at h
  · rename_i c x xs e
    split at h
    · simp only [Option.some.injEq, Prod.mk.injEq] at h
      obtain ⟨-, -, rfl⟩ := h
      refine ⟨?_, by simp⟩
      exact List.IsSuffix.trans ⟨[c], by rw [e]; rfl⟩ (List.dropWhile_suffix isWhite)
    · simp at h
  · simp at h

theorem enumMatch_suffix {line ind text : Str} {p : Char} (h : enumMatch line = some (ind, p, text)) :
    text <:+ line ∧ text ≠ [] := by
  unfold enumMatch at h
  simp only at h
  split at h
  · simp at h
  · split at h
    · rename_i c x xs e
      split at h
      · simp only [Option.some.injEq, Prod.mk.injEq] at h
        obtain ⟨-, -, rfl⟩ := h
        refine ⟨?_, by simp⟩
        exact (List.IsSuffix.trans ⟨[c], by rw [e]; rfl⟩ (List.dropWhile_suffix isDigit)).trans
          (List.dropWhile_suffix isWhite)
      · simp at h
    · simp at h

theorem bulletNext_suffix {ind line text : Str} {p : Char} (h : bulletNext ind p line = some text) :
    text <:+ line ∧ text ≠ [] := by
  unfold bulletNext at h
  split at h
  · rename_i c xs e
    split at h
    · simp only [Option.some.injEq] at h
      subst h
      exact ⟨⟨ind ++ [c], by rw [stripPrefix?_eq e]; simp⟩, by simp⟩
    · simp at h
  · simp at h

theorem enumNext_suffix {ind line text : Str} {p : Char} (h : enumNext ind p line = some text) :
    text <:+ line ∧ text ≠ [] := by
  unfold enumNext at h
  split at h
  · rename_i s e
    have hs : s <:+ line := ⟨ind, (stripPrefix?_eq e).symm⟩
    simp only at h
    split at h
    · simp at h
    · split at h
      · rename_i c xs e2
        split at h
        · simp only [Option.some.injEq] at h
          subst h
          exact ⟨(List.IsSuffix.trans ⟨[c], by rw [e2]; rfl⟩ (List.dropWhile_suffix isDigit)).trans hs, by simp⟩
        · simp at h
      · rename_i xs _ e2
        split at h
        · simp only [Option.some.injEq] at h
          subst h
          exact ⟨(List.IsSuffix.trans ⟨[], by rw [e2]; rfl⟩ (List.dropWhile_suffix isDigit)).trans hs, by simp⟩
        · simp at h
      · simp at h
  · simp at h

theorem freshLine_full (cfg : Cfg) (items : List Item) (line : Str) (h : Full items) (ht : Tight line) :
    FullSt (freshLine cfg items line) := by
  have other : ∀ (k : Kind) (st : State), k ≠ .bulletList → k ≠ .enumList → st ≠ .verbatim →
      FullSt (items ++ [{ kind := k, lines := [strip line] }], st) := by
    intro k st h1 h2 h3
    refine ⟨full_snoc h ?_, fun e => absurd e h3⟩
    rintro (e | e)
    · exact absurd e h1
    · exact absurd e h2
  unfold freshLine
  split
  · rename_i hm
    obtain ⟨h1, h2⟩ := bulletMatch_suffix hm
    refine ⟨full_snoc h fun _ l hl => ?_, by simp⟩
    rw [List.mem_singleton] at hl
    rw [hl]; exact kept_tail_words ht h1 h2
  · split
    · rename_i hm
      obtain ⟨h1, h2⟩ := enumMatch_suffix hm
      refine ⟨full_snoc h fun _ l hl => ?_, by simp⟩
      rw [List.mem_singleton] at hl
      rw [hl, words_strip]; exact kept_tail_words ht h1 h2
    · split
      · exact other _ _ (by simp) (by simp) (by simp)
      · split
        · exact other _ _ (by simp) (by simp) (by simp)
        · exact other _ _ (by simp) (by simp) (by simp)

theorem plainLine_full (cfg : Cfg) (items : List Item) (st : State) (line : Str)
    (h : FullSt (items, st)) (ht : Tight line) : FullSt (plainLine cfg items st line) := by
  have other : ∀ (k : Kind) (st : State), k ≠ .bulletList → k ≠ .enumList → st ≠ .verbatim →
      FullSt (items ++ [{ kind := k, lines := [strip line] }], st) := by
    intro k st h1 h2 h3
    refine ⟨full_snoc h.1 ?_, fun e => absurd e h3⟩
    rintro (e | e)
    · exact absurd e h1
    · exact absurd e h2
  unfold plainLine
  split
  · rename_i hv
    subst hv
    have hn := h.2 rfl
    refine ⟨full_onLast _ h.1 ?_, ?_⟩
    · rintro a i e hi
      exact absurd hi (hn a i e)
    · intro _ a i e
      rcases List.eq_nil_or_concat items with rfl | ⟨b, j, e2⟩
      · simp [addLine, onLast] at e
      · rw [List.concat_eq_append] at e2
        subst e2
        simp only [addLine] at e
        rw [onLast_snoc] at e
        have := (List.append_inj_right' e (by simp))
        simp only [List.cons.injEq, and_true] at this
        subst this
        exact hn b j rfl
  split
  · split
    · exact h
    · refine ⟨full_snoc h.1 ?_, by simp⟩
      simp
  rename_i hv hne
  have hw : words line ≠ [] := tight_words ht (by simpa using hne)
  have hws : words (strip line) ≠ [] := by rw [words_strip]; exact hw
  split
  · exact other _ _ (by simp) (by simp) (by simp)
  · cases st with
    | none => exact freshLine_full cfg items line h.1 ht
    | separator => exact freshLine_full cfg items line h.1 ht
    | ruler => exact freshLine_full cfg items line h.1 ht
    | verbatim => exact absurd rfl hv
    | paragraph =>
      simp only
      split
      · exact other _ _ (by simp) (by simp) (by simp)
      · split
        · exact other _ _ (by simp) (by simp) (by simp)
        · exact ⟨full_addLine h.1 hws, by simp⟩
    | note =>
      simp only
      split
      · exact other _ _ (by simp) (by simp) (by simp)
      · split
        · exact other _ _ (by simp) (by simp) (by simp)
        · exact ⟨full_addLine h.1 hws, by simp⟩
    | bullet ind p =>
      simp only
      split
      · rename_i hm
        obtain ⟨h1, h2⟩ := bulletNext_suffix hm
        exact ⟨full_addLine h.1 (by rw [words_strip]; exact kept_tail_words ht h1 h2), by simp⟩
      · exact ⟨full_extendLine h.1, by simp⟩
    | enum ind p =>
      simp only
      split
      · rename_i hm
        obtain ⟨h1, h2⟩ := enumNext_suffix hm
        exact ⟨full_addLine h.1 (by rw [words_strip]; exact kept_tail_words ht h1 h2), by simp⟩
      · exact ⟨full_extendLine h.1, by simp⟩

theorem parse_full (cfg : Cfg) (lines : List Str) (h : ∀ l ∈ lines, Tight l) : Full (parse cfg lines) := by
  have step : ∀ acc line, FullSt acc → Tight line → FullSt (parseLine cfg acc line) := by
    intro acc line h ht
    unfold parseLine
    split
    · rename_i g1 g2 _
      have h1 : Full (acc.1 ++ [{ kind := .fence, lines := [strip g1] }]) :=
        full_snoc h.1 (by rintro (e | e) <;> simp at e)
      have h2 : Full (acc.1 ++ [{ kind := .fence, lines := [strip g1] }] ++ [{ kind := .verbatim }]) :=
        full_snoc h1 (by simp)
      have hv : FullSt (acc.1 ++ [{ kind := .fence, lines := [strip g1] }] ++ [{ kind := .verbatim }],
          .verbatim) := by
        refine ⟨h2, fun _ a i e => ?_⟩
        have := (List.append_inj_right' e (by simp))
        simp only [List.cons.injEq, and_true] at this
        subst this
        rintro (e | e) <;> simp at e
      simp only
      split
      · split
        · exact ⟨h1, by simp⟩
        · exact plainLine_full cfg _ _ _ ⟨h1, by simp⟩ (tight_strip _)
      · split
        · exact hv
        · exact plainLine_full cfg _ _ _ hv (tight_strip _)
    · exact plainLine_full cfg acc.1 acc.2 line h ht
  have all : ∀ (lines : List Str) acc, FullSt acc → (∀ l ∈ lines, Tight l) →
      FullSt (lines.foldl (parseLine cfg) acc) := by
    intro lines
    induction lines with
    | nil => exact fun _ h _ => h
    | cons l ls ih =>
      exact fun acc h hl => ih _ (step acc l h (hl l (by simp))) fun x hx => hl x (by simp [hx])
  exact (all lines ([], .none) ⟨by simp [Full], by simp⟩ h).1

theorem strip_words (s : Str) : strip s = [] ∨ words (strip s) ≠ [] := by
  by_cases h : strip s = []
  · exact Or.inl h
  · exact Or.inr (tight_words (tight_strip s) h)

theorem stableLoop_err {width : Int} (hw : 0 < width) {n : Nat} {t : Str} {e : Err}
    (ht : t = [] ∨ words t ≠ []) (h : stableLoop width n t = .error e) : e = .assertion := by
  induction n generalizing t with
  | zero => simpa [stableLoop] using h.symm
  | succ n ih =>
    simp only [stableLoop] at h
    split at h
    · rename_i e' he
      simp only [wrap] at he
      rw [if_neg (by omega)] at he
      simp at he
    · rename_i lines hl
      have hws := wrap_words hl
      split at h
      · simp at h
      · rename_i hne
        split at h
        · rename_i hemp
          have hemp : lines = [] := by simpa using hemp
          subst hemp
          rcases ht with rfl | ht
          · exact absurd rfl hne
          · exact absurd hws.symm ht
        · refine ih (Or.inr ?_) h
          rw [words_join, hws]
          rcases ht with rfl | ht
          · exfalso
            simp only [wrap] at hl
            rw [if_neg (by omega)] at hl
            simp only [Except.ok.injEq] at hl
            subst hl
            exact hne (by simp [munge, expandTabs, chunks, wrapChunks, join])
          · exact ht

theorem entries_err {width : Int} (hw : 0 < width) {lead : Nat → Str} {pad : Str} {k : Nat}
    {items : List Str} {e : Err} (hi : ∀ l ∈ items, words l ≠ [])
    (h : entries width lead pad k items = .error e) : e = .assertion := by
  induction items generalizing k with
  | nil => simp [entries] at h
  | cons i is ih =>
    simp only [entries] at h
    split at h
    · rename_i e' he
      simp only [Except.error.injEq] at h
      subst h
      unfold entry at he
      split at he
      · rename_i e2 h2
        simp only [Except.error.injEq] at he
        rw [← he]
        exact stableLoop_err hw (strip_words _) h2
      · rename_i h2
        have := (stableLoop_ok h2).2
        rw [words_strip] at this
        exact absurd this.symm (hi i (by simp))
      · simp at he
    · split at h
      · rename_i e' he
        simp only [Except.error.injEq] at h
        subst h
        exact ih (fun l hl => hi l (by simp [hl])) he
      · simp at h

theorem formatItem_err (cfg : Cfg) {width : Int} {i : Item} {e : Err} (hw : ¬ IsList i → 0 < width)
    (hi : IsList i → ∀ l ∈ i.lines, words l ≠ []) (h : formatItem cfg width i = .error e) :
    e = .assertion := by
  unfold formatItem at h
  cases hk : i.kind <;> simp only [hk] at h
  · exact stableLoop_err (hw (by simp [IsList, hk])) (strip_words _) h
  · split at h
    · simpa using h.symm
    · exact entries_err (by omega) (hi (Or.inl hk)) h
  · split at h
    · simpa using h.symm
    · exact entries_err (by omega) (hi (Or.inr hk)) h
  · exact stableLoop_err (hw (by simp [IsList, hk])) (strip_words _) h
  · split at h
    · simp at h
    · exact stableLoop_err (hw (by simp [IsList, hk])) (strip_words _) h
  · simp at h
  · simp at h
  · simp at h

theorem formatItems_err (cfg : Cfg) {width : Int} (hw : 0 < width) {hist : List Nat} {items : List Item}
    {e : Err} (hi : Full items) (h : formatItems cfg width hist items = .error e) : e = .assertion := by
  induction items generalizing hist with
  | nil => simp [formatItems] at h
  | cons i is ih =>
    simp only [formatItems] at h
    generalize hn : (if decide (i.kind = .bulletList ∨ i.kind = .enumList) = true then
      2 * ((if decide (i.kind = .bulletList ∨ i.kind = .enumList) = true then
        i.indent :: popIndent i.indent hist else if i.kind = .separator then hist else []).length - 1)
      else 0) = n at h
    have hn' : ¬ IsList i → n = 0 := by
      intro hk; rw [← hn, if_neg]; simpa [IsList] using hk
    split at h
    · rename_i e' he
      simp only [Except.error.injEq] at h
      subst h
      exact formatItem_err cfg (fun hk => by rw [hn' hk]; simpa using hw) (hi i (by simp)) he
    · split at h
      · rename_i e' he
        simp only [Except.error.injEq] at h
        subst h
        exact ih (fun j hj => hi j (by simp [hj])) he
      · simp at h

/-- **C52.** Formatting a comment never fails with anything but the tool's own assertions. -/
theorem comment_errors (cfg : Cfg) (et first : Bool) (fs : Str) (width : Int) (spellings : List Str)
    (e : Err) (h : formatComment cfg et first fs width spellings = .error e) : e = .assertion := by
  unfold formatComment at h
  simp only at h
  split at h
  · simp at h
  split at h
  · simp at h
  split at h
  · simp at h
  split at h
  · rename_i e' he
    simp only [Except.error.injEq] at h
    subst h
    refine formatItems_err cfg (by omega) (parse_full cfg _ ?_) he
    intro l hl
    obtain ⟨s, -, rfl⟩ := List.mem_map.1 hl
    exact commentText_tight cfg et s
  · simp at h

/-- A defect: the assertion fails for lists nested five deep in a narrow column. -/
theorem nested_list_fails :
    formatComment defaultCfg false false [] 10
      [S "# * a", S "", S "#   * b", S "", S "#     * c", S "", S "#       * d", S "", S "#         * e"] =
    .error .assertion := by decide +kernel

/-- A defect: the numbers of an enumeration are not counted in the width. -/
theorem enum_too_wide :
    formatItem defaultCfg 10 { kind := .enumList, lines := List.replicate 11 (S "aaa bbbb") } =
      .ok ((List.range 9).map (fun k => [' ', Char.ofNat (49 + k)] ++ S ". aaa bbbb") ++
        [S "10. aaa bbbb", S "11. aaa bbbb"]) := by decide +kernel

/-! ## Widths of list entries -/

/-- **C24.** A line of a bullet list is at most as long as the width unless what follows the
bullet or the indentation has no space. -/
theorem bullet_width (cfg : Cfg) (width : Int) (i : Item) (ls : List Str) (hk : i.kind = .bulletList)
    (hb : cfg.bulletChar.length ≤ 1) (h : formatItem cfg width i = .ok ls) :
    ∀ l ∈ ls, ∃ mark text, l = mark ++ text ∧ (mark = cfg.bulletChar ++ [' '] ∨ mark = S "  ") ∧
      ((l.length : Int) ≤ width ∨ ' ' ∉ text) := by
  unfold formatItem at h
  simp only [hk] at h
  split at h
  · simp at h
  · have key : ∀ (lines ls : List Str) k, entries (width - 2) (fun _ => cfg.bulletChar ++ [' ']) (S "  ") k
        lines = .ok ls → ∀ l ∈ ls, ∃ mark text, l = mark ++ text ∧
        (mark = cfg.bulletChar ++ [' '] ∨ mark = S "  ") ∧ ((l.length : Int) ≤ width ∨ ' ' ∉ text) := by
      intro lines
      induction lines with
      | nil => intro ls k h; simp only [entries, Except.ok.injEq] at h; subst h; simp
      | cons x xs ih =>
        intro ls k h
        simp only [entries] at h
        split at h
        · simp at h
        · rename_i a ha
          split at h
          · simp at h
          · rename_i b hb'
            simp only [Except.ok.injEq] at h
            subst h
            intro l hl
            rcases List.mem_append.1 hl with hl | hl
            · unfold entry at ha
              split at ha
              · simp at ha
              · simp at ha
              · rename_i y ys hy
                have hw := wrap_width (stableLoop_ok hy).1
                simp only [Except.ok.injEq] at ha
                subst ha
                rcases List.mem_cons.1 hl with rfl | hl
                · refine ⟨_, y, rfl, Or.inl rfl, ?_⟩
                  rcases hw y (by simp) with h | h
                  · left; simp only [List.length_append, List.length_cons, List.length_nil]; omega
                  · exact Or.inr h
                · obtain ⟨z, hz, rfl⟩ := List.mem_map.1 hl
                  refine ⟨_, z, rfl, Or.inr rfl, ?_⟩
                  rcases hw z (by simp [hz]) with h | h
                  · left
                    have : (S "  ").length = 2 := by decide
                    simp only [List.length_append, this]; omega
                  · exact Or.inr h
            · exact ih b (k + 1) hb' l hl
    exact key _ _ _ h

end Verif.Props.Markup
