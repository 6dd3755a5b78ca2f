import Verif.Wrap
import Verif.MarkupSpec

/-!
# Helper lemmas about wrapping
-/

namespace Verif.Wrap
open Verif Py

/-! ## Words -/

theorem words_nil : words [] = [] := rfl

theorem splitWords_white (cur a b : Str) (w : Char) (hw : isWhite w = true) :
    splitWords cur (a ++ w :: b) = splitWords cur a ++ words b := by
  induction a generalizing cur with
  | nil => simp [splitWords, hw, words]
  | cons c cs ih =>
    simp only [List.cons_append, splitWords]
    split
    · rw [ih, List.append_assoc]
    · exact ih _

theorem words_white (a b : Str) (w : Char) (hw : isWhite w = true) :
    words (a ++ w :: b) = words a ++ words b := splitWords_white [] a b w hw

theorem words_all_white {s : Str} (h : s.all isWhite = true) : words s = [] := by
  induction s with
  | nil => rfl
  | cons c cs ih =>
    simp only [List.all_cons, Bool.and_eq_true] at h
    simp only [words, splitWords, h.1, if_true, List.isEmpty_nil, List.nil_append]
    exact ih h.2

theorem splitWords_all_white (cur : Str) {s : Str} (h : s.all isWhite = true) :
    splitWords cur s = if cur.isEmpty then [] else [cur] := by
  cases s with
  | nil => rfl
  | cons c cs =>
    simp only [List.all_cons, Bool.and_eq_true] at h
    have := words_all_white h.2
    simp only [words] at this
    simp [splitWords, h.1, this]

/-- Blanks in the middle separate words. -/
theorem words_append_white_append (a s b : Str) (hs : s ≠ []) (h : s.all isWhite = true) :
    words (a ++ s ++ b) = words a ++ words b := by
  induction s generalizing a with
  | nil => exact absurd rfl hs
  | cons c cs ih =>
    simp only [List.all_cons, Bool.and_eq_true] at h
    rw [List.append_assoc, List.cons_append, words_white _ _ _ h.1]
    cases cs with
    | nil => rfl
    | cons d ds =>
      have := ih [] (by simp) h.2
      simp only [List.nil_append] at this
      rw [this, words_nil, List.nil_append]

theorem splitWords_word (cur : Str) {s : Str} (h : ∀ c ∈ s, isWhite c = false) :
    splitWords cur s = if (cur ++ s).isEmpty then [] else [cur ++ s] := by
  induction s generalizing cur with
  | nil => simp [splitWords]
  | cons c cs ih =>
    simp only [splitWords, h c (by simp), Bool.false_eq_true, if_false]
    rw [ih _ fun x hx => h x (by simp [hx])]
    simp

theorem words_word {s : Str} (h : ∀ c ∈ s, isWhite c = false) (hne : s ≠ []) : words s = [s] := by
  rw [words, splitWords_word [] h]
  cases s with
  | nil => exact absurd rfl hne
  | cons => rfl

/-! ## Whitespace munging -/

theorem isWhite_of_isSpace {c : Char} (h : isSpace c = true) : isWhite c = true := by
  simp [isWhite, h]

theorem isWhite_space : isWhite ' ' = true := by decide

theorem splitWords_spaces (cur : Str) (n : Nat) (x : Str) :
    splitWords cur (List.replicate (n + 1) ' ' ++ x) = (if cur.isEmpty then [] else [cur]) ++ words x := by
  have : List.replicate (n + 1) ' ' ++ x = [] ++ ' ' :: (List.replicate n ' ' ++ x) := by
    simp [List.replicate_succ]
  rw [this, splitWords_white _ _ _ _ isWhite_space]
  congr 1
  cases n with
  | zero => simp
  | succ n =>
    have := words_append_white_append [] (List.replicate (n + 1) ' ') x (by simp)
      (by simp [isWhite_space])
    simpa [words_nil] using this

theorem splitWords_munge (cur : Str) (col : Nat) (s : Str) :
    splitWords cur ((expandTabs col s).map fun c => if isSpace c then ' ' else c) =
      splitWords cur s := by
  induction s generalizing cur col with
  | nil => rfl
  | cons c cs ih =>
    simp only [expandTabs]
    split
    · rename_i h
      subst h
      have hpos : ∃ n, 8 - col % 8 = n + 1 := ⟨8 - col % 8 - 1, by omega⟩
      obtain ⟨n, hn⟩ := hpos
      rw [hn, List.map_append, List.map_replicate]
      have e : (if isSpace ' ' = true then ' ' else ' ') = ' ' := by simp
      rw [e, splitWords_spaces, words, ih]
      have e2 : isWhite '\t' = true := by decide
      simp [splitWords, e2]
    · simp only [List.map_cons, splitWords]
      by_cases hsp : isSpace c = true
      · simp only [hsp, if_true, isWhite_space, isWhite_of_isSpace hsp]
        rw [ih]
      · simp only [hsp, Bool.false_eq_true, if_false]
        split <;> rw [ih]

theorem words_munge (s : Str) : words (munge s) = words s := splitWords_munge [] 0 s

/-- After munging the only ASCII blank is the space. -/
theorem munge_space {s : Str} {c : Char} (h : c ∈ munge s) (hc : isSpace c = true) : c = ' ' := by
  simp only [munge, List.mem_map] at h
  obtain ⟨d, _, rfl⟩ := h
  split at hc
  · simp_all
  · simp_all

theorem expandTabs_no_tab {s : Str} (col : Nat) (h : '\t' ∉ s) : expandTabs col s = s := by
  induction s generalizing col with
  | nil => rfl
  | cons c cs ih =>
    simp only [List.mem_cons, not_or] at h
    simp only [expandTabs]
    rw [if_neg (fun e => h.1 e.symm), ih _ h.2]

theorem munge_no_tab {s : Str} (h : '\t' ∉ s) :
    munge s = s.map fun c => if isSpace c then ' ' else c := by
  rw [munge, expandTabs_no_tab 0 h]

theorem munge_id {s : Str} (h : ∀ c ∈ s, isSpace c = true → c = ' ') : munge s = s := by
  rw [munge_no_tab (fun ht => by have := h _ ht (by decide); exact absurd this (by decide))]
  conv => rhs; rw [← List.map_id s]
  apply List.map_congr_left
  intro c hc
  by_cases hs : isSpace c = true
  · simp [h c hc hs]
  · simp [hs]

/-! ## Chunks -/

/-- All spaces. -/
def AllSp (c : Str) : Prop := ∀ x ∈ c, x = ' '

/-- A chunk: spaces only, or no space. -/
def Chunk (c : Str) : Prop := c ≠ [] ∧ (AllSp c ∨ ' ' ∉ c)

/-- Two neighbouring chunks: one of them is blank. -/
structure Alt (cs : List Str) : Prop where
  chunk : ∀ c ∈ cs, Chunk c
  apart : ∀ a b, [a, b] <:+: cs → AllSp a ∨ AllSp b

theorem Alt.infix {a b : List Str} (h : Alt b) (hab : a <:+: b) : Alt a :=
  ⟨fun c hc => h.chunk c (hab.subset hc), fun x y hxy => h.apart x y (hxy.trans hab)⟩

theorem chunks_flatten (s : Str) : (chunks s).flatten = s := by
  induction s with
  | nil => rfl
  | cons c cs ih =>
    simp only [chunks]
    split
    · rename_i d ds rest h
      rw [h] at ih
      split <;> simp_all
    · simp [ih]

theorem chunks_alt (s : Str) : Alt (chunks s) := by
  induction s with
  | nil => exact ⟨by simp [chunks], by intro a b h; simp [chunks] at h⟩
  | cons c cs ih =>
    simp only [chunks]
    split
    · rename_i d ds rest h
      rw [h] at ih
      have hd := ih.chunk (d :: ds) (by simp)
      split
      · rename_i hcd
        constructor
        · intro x hx
          rcases List.mem_cons.1 hx with rfl | hx
          · refine ⟨by simp, ?_⟩
            rcases hd.2 with h1 | h1
            · left
              intro y hy
              rcases List.mem_cons.1 hy with rfl | hy
              · have := h1 d (by simp); simp_all
              · exact h1 y hy
            · right
              simp only [List.mem_cons, not_or] at h1 ⊢
              refine ⟨?_, h1⟩
              intro e
              subst e
              simp at hcd
              exact h1.1 hcd.symm
          · exact ih.chunk x (by simp [hx])
        · intro a b hab
          rw [List.infix_cons_iff] at hab
          rcases hab with hab | hab
          · simp only [List.cons_prefix_cons] at hab
            obtain ⟨rfl, hab⟩ := hab
            have h0 := ih.apart (d :: ds) b (by
              rw [List.infix_cons_iff]; left
              simp only [List.cons_prefix_cons]; exact ⟨trivial, hab⟩)
            rcases h0 with h0 | h0
            · left
              intro y hy
              rcases List.mem_cons.1 hy with rfl | hy
              · have := h0 d (by simp); simp_all
              · exact h0 y hy
            · exact Or.inr h0
          · exact ih.apart a b (by rw [List.infix_cons_iff]; right; exact hab)
      · rename_i hcd
        constructor
        · intro x hx
          rcases List.mem_cons.1 hx with rfl | hx
          · refine ⟨by simp, ?_⟩
            by_cases e : c = ' '
            · left; intro y hy; simp_all
            · right; simp only [List.mem_singleton]; exact fun e' => e e'.symm
          · exact ih.chunk x hx
        · intro a b hab
          rw [List.infix_cons_iff] at hab
          rcases hab with hab | hab
          · simp only [List.cons_prefix_cons, List.nil_prefix, and_true] at hab
            obtain ⟨rfl, rfl⟩ := hab
            by_cases e : c = ' '
            · left; intro y hy; simp_all
            · right
              rcases hd.2 with h1 | h1
              · exact h1
              · exfalso
                simp only [List.mem_cons, not_or] at h1
                apply hcd
                have h2 : (c == ' ') = false := by simpa using e
                have h3 : (d == ' ') = false := by simpa using fun e' => h1.1 (Eq.symm e')
                rw [h2, h3]
          · exact ih.apart a b hab
    · rename_i h
      have : chunks cs = [] := by
        cases hc : chunks cs with
        | nil => rfl
        | cons x xs =>
          exfalso
          cases x with
          | nil => have := (ih.chunk [] (by simp [hc])).1; exact this rfl
          | cons d ds => exact h d ds xs hc
      rw [this]
      constructor
      · intro x hx
        simp only [List.mem_singleton] at hx
        subst hx
        refine ⟨by simp, ?_⟩
        by_cases e : c = ' '
        · left; intro y hy; simp_all
        · right; simp only [List.mem_singleton]; exact fun e' => e e'.symm
      · intro a b hab
        have := hab.length_le; simp at this

theorem allSp_white {c : Str} (h : AllSp c) : c.all isWhite = true := by
  rw [List.all_eq_true]; intro x hx; rw [h x hx]; decide

/-- The words of chunks are the words of the text. -/
theorem words_flatten {cs : List Str} (h : Alt cs) : words cs.flatten = cs.flatMap words := by
  induction cs with
  | nil => rfl
  | cons a cs ih =>
    have ih := ih (h.infix ⟨[a], [], by simp⟩)
    rw [List.flatten_cons, List.flatMap_cons, ← ih]
    cases cs with
    | nil => simp [words_nil]
    | cons b cs =>
      have ha := (h.chunk a (by simp)).1
      have hb := (h.chunk b (by simp)).1
      rcases h.apart a b ⟨[], cs, by simp⟩ with h1 | h1
      · have := words_append_white_append [] a (b :: cs).flatten ha (allSp_white h1)
        simp only [List.nil_append, words_nil] at this
        rw [this, words_all_white (allSp_white h1), List.nil_append]
      · have e := words_append_white_append a b cs.flatten hb (allSp_white h1)
        have e2 := words_append_white_append [] b cs.flatten hb (allSp_white h1)
        simp only [List.nil_append, words_nil] at e2
        rw [List.flatten_cons, ← List.append_assoc, e, e2]

/-! ## Wrapping chunks -/

theorem takeFit_append (width cur : Nat) (cs : List Str) :
    (takeFit width cur cs).1 ++ (takeFit width cur cs).2 = cs := by
  induction cs generalizing cur with
  | nil => rfl
  | cons c cs ih =>
    simp only [takeFit]
    split
    · simp [ih]
    · rfl

theorem takeFit_width (width cur : Nat) (cs : List Str) (h : (takeFit width cur cs).1 ≠ []) :
    cur + (takeFit width cur cs).1.flatten.length ≤ width := by
  induction cs generalizing cur with
  | nil => simp [takeFit] at h
  | cons c cs ih =>
    simp only [takeFit] at h ⊢
    split
    · rename_i hc
      rw [if_pos hc] at h
      by_cases he : (takeFit width (cur + c.length) cs).1 = []
      · simp [he]; omega
      · have := ih _ he
        simp at this ⊢; omega
    · rename_i hc
      simp [hc] at h

theorem nextLine_append (width : Nat) (cs : List Str) :
    (nextLine width cs).1 ++ (nextLine width cs).2 = cs := by
  have := takeFit_append width 0 cs
  simp only [nextLine]
  split
  · rename_i c rest h
    split
    · rename_i hc
      simp only [Bool.and_eq_true, List.isEmpty_iff] at hc
      rw [hc.2, h] at this
      simpa using this
    · exact this
  · exact this

theorem nextLine_ne (width : Nat) {cs : List Str} (h : cs ≠ []) : (nextLine width cs).1 ≠ [] := by
  cases cs with
  | nil => exact absurd rfl h
  | cons c cs =>
    simp only [nextLine, takeFit]
    by_cases hc : 0 + c.length ≤ width
    · simp only [if_pos hc]
      split
      · simp
      · simp
    · simp only [if_neg hc]
      rw [if_pos (by simp; omega)]
      simp

theorem nextLine_width (width : Nat) (cs : List Str) :
    (nextLine width cs).1.flatten.length ≤ width ∨ ∃ c, (nextLine width cs).1 = [c] := by
  simp only [nextLine]
  have key : (takeFit width 0 cs).1.flatten.length ≤ width := by
    by_cases h : (takeFit width 0 cs).1 = []
    · simp [h]
    · have := takeFit_width width 0 cs h; omega
  split
  · split
    · exact Or.inr ⟨_, rfl⟩
    · exact Or.inl key
  · exact Or.inl key

theorem dropBlank_prefix (cs : List Str) : dropBlank cs <+: cs := by
  simp only [dropBlank]
  split
  · split
    · exact List.dropLast_prefix cs
    · exact List.prefix_refl _
  · exact List.prefix_refl _

theorem dropBlank_words (cs : List Str) : (dropBlank cs).flatMap words = cs.flatMap words := by
  simp only [dropBlank]
  split
  · rename_i c h
    split
    · rename_i hb
      obtain ⟨ys, rfl⟩ := List.getLast?_eq_some_iff.1 h
      simp [words_all_white hb]
    · rfl
  · rfl

theorem wrapChunks_words (width n : Nat) (first : Bool) {cs : List Str} (h : Alt cs)
    (hn : cs.length ≤ n) : (wrapChunks width n first cs).flatMap words = cs.flatMap words := by
  induction n generalizing first cs with
  | zero =>
    have : cs = [] := List.length_eq_zero_iff.1 (by omega)
    subst this; rfl
  | succ n ih =>
    cases cs with
    | nil => rfl
    | cons c cs =>
      simp only [wrapChunks]
      generalize hcs' : (if (!first && blankChunk c) = true then cs else c :: cs) = cs'
      have hw : cs'.flatMap words = (c :: cs).flatMap words := by
        rw [← hcs']
        split
        · rename_i hb
          simp only [Bool.and_eq_true] at hb
          simp [words_all_white hb.2]
        · rfl
      have hsuf : cs' <:+ c :: cs := by
        rw [← hcs']; split
        · exact List.suffix_cons c cs
        · exact List.suffix_refl _
      have halt : Alt cs' := h.infix hsuf.isInfix
      have happ := nextLine_append width cs'
      have hlen : (nextLine width cs').2.length ≤ n := by
        by_cases he : cs' = []
        · subst he; simp [nextLine, takeFit]
        · have h1 := List.length_pos_iff.2 (nextLine_ne width he)
          have h2 := congrArg List.length happ
          have h3 := hsuf.length_le
          simp only [List.length_append, List.length_cons] at h2 h3 hn
          omega
      have h2 : Alt (nextLine width cs').2 := halt.infix ⟨(nextLine width cs').1, [], by simp [happ]⟩
      have h1 : Alt (dropBlank (nextLine width cs').1) := halt.infix
        ((dropBlank_prefix _).isInfix.trans ⟨[], (nextLine width cs').2, by simp [happ]⟩)
      have hsum : (dropBlank (nextLine width cs').1).flatMap words ++
          (nextLine width cs').2.flatMap words = (c :: cs).flatMap words := by
        rw [dropBlank_words, ← List.flatMap_append, happ, hw]
      split
      · rename_i he
        simp only [List.isEmpty_iff] at he
        rw [ih _ h2 hlen]
        rw [he] at hsum
        simpa using hsum
      · rw [List.flatMap_cons, ih _ h2 hlen, words_flatten h1, hsum]

theorem wrapChunks_mem (width n : Nat) (first : Bool) {cs : List Str} {l : Str}
    (h : l ∈ wrapChunks width n first cs) :
    ∃ a, a <:+: cs ∧ a ≠ [] ∧ l = a.flatten ∧
      (l.length ≤ width ∨ ∃ c, a = [c] ∧ blankChunk c = false) := by
  induction n generalizing first cs with
  | zero => simp [wrapChunks] at h
  | succ n ih =>
    cases cs with
    | nil => simp [wrapChunks] at h
    | cons c cs =>
      simp only [wrapChunks] at h
      generalize hcs' : (if (!first && blankChunk c) = true then cs else c :: cs) = cs' at h
      have hsuf : cs' <:+: c :: cs := by
        rw [← hcs']; split
        · exact (List.suffix_cons c cs).isInfix
        · exact List.infix_refl _
      have happ := nextLine_append width cs'
      have rest : ∀ b, l ∈ wrapChunks width n b (nextLine width cs').2 → ∃ a, a <:+: c :: cs ∧ a ≠ [] ∧
          l = a.flatten ∧ (l.length ≤ width ∨ ∃ c, a = [c] ∧ blankChunk c = false) := by
        intro b hb
        obtain ⟨a, h1, h2⟩ := ih b hb
        exact ⟨a, (h1.trans ⟨(nextLine width cs').1, [], by simp [happ]⟩).trans hsuf, h2⟩
      split at h
      · exact rest _ h
      · rename_i hne
        rcases List.mem_cons.1 h with rfl | h
        · have hp := dropBlank_prefix (nextLine width cs').1
          refine ⟨_, (hp.isInfix.trans ⟨[], (nextLine width cs').2, by simp [happ]⟩).trans hsuf,
            by simpa using hne, rfl, ?_⟩
          rcases nextLine_width width cs' with hw | ⟨d, hd⟩
          · left
            obtain ⟨t, ht⟩ := hp
            rw [← ht] at hw
            simp only [List.flatten_append, List.length_append] at hw
            omega
          · right
            refine ⟨d, ?_, ?_⟩
            · rw [hd] at hne ⊢
              simp only [dropBlank, List.getLast?_singleton] at hne ⊢
              split
              · rename_i hb; rw [if_pos hb] at hne; simp at hne
              · rfl
            · rw [hd] at hne
              simp only [dropBlank, List.getLast?_singleton] at hne
              cases hb : blankChunk d with
              | false => rfl
              | true => simp [hb] at hne
        · exact rest _ h

/-! ## Wrapping as packing -/

/-- Spaces. -/
def sp (n : Nat) : Str := List.replicate n ' '

/-- A gap and the word after it. -/
abbrev Gap := Nat × Str

/-- The text of a sequence of gaps and words. -/
def gapText (gs : List Gap) : Str := gs.flatMap fun g => sp g.1 ++ g.2

/-- Its chunks. -/
def gapChunks (gs : List Gap) : List Str := gs.flatMap fun g => [sp g.1, g.2]

/-- A word without spaces that is not blank. -/
def IsWord (w : Str) : Prop := w ≠ [] ∧ ' ' ∉ w ∧ blankChunk w = false ∧ ∀ c ∈ w, isSpace c = false

/-- Gaps of at least one space, between words. -/
def Gaps (gs : List Gap) : Prop := ∀ g ∈ gs, 1 ≤ g.1 ∧ IsWord g.2

/-- Greedy filling: a word goes on the current line if gap and word fit, else it starts
the next. -/
def pack (width : Nat) (line : Str) : List Gap → List Str
  | [] => [line]
  | (k, w) :: gs =>
    if line.length + k + w.length ≤ width then pack width (line ++ (sp k ++ w)) gs
    else line :: pack width w gs

/-- The gaps after one pass: line breaks become one blank. -/
def collapse (width : Nat) (len : Nat) : List Gap → List Gap
  | [] => []
  | (k, w) :: gs =>
    if len + k + w.length ≤ width then (k, w) :: collapse width (len + (k + w.length)) gs
    else (1, w) :: collapse width w.length gs

/-- The gaps that fit on a line and the others. -/
def fit (width cur : Nat) : List Gap → List Gap × List Gap
  | [] => ([], [])
  | (k, w) :: gs =>
    if cur + k + w.length ≤ width then
      let r := fit width (cur + (k + w.length)) gs
      ((k, w) :: r.1, r.2)
    else ([], (k, w) :: gs)

theorem fit_append (width cur : Nat) (gs : List Gap) :
    (fit width cur gs).1 ++ (fit width cur gs).2 = gs := by
  induction gs generalizing cur with
  | nil => rfl
  | cons g gs ih =>
    simp only [fit]
    split
    · simp [ih]
    · rfl

theorem pack_fit (width : Nat) (line : Str) (gs : List Gap) :
    pack width line gs = (line ++ gapText (fit width line.length gs).1) ::
      (match (fit width line.length gs).2 with
        | [] => []
        | (_, w) :: gs' => pack width w gs') := by
  induction gs generalizing line with
  | nil => simp [pack, fit, gapText]
  | cons g gs ih =>
    obtain ⟨k, w⟩ := g
    simp only [pack, fit]
    split
    · rw [ih]
      have e : (line ++ (sp k ++ w)).length = line.length + (k + w.length) := by simp [sp]
      rw [e]
      simp [gapText]
    · simp [gapText]

theorem takeFit_gaps (width cur : Nat) (gs : List Gap) (hg : Gaps gs) :
    ((fit width cur gs).2 = [] ∧ takeFit width cur (gapChunks gs) = (gapChunks (fit width cur gs).1, [])) ∨
    ∃ k w gs', (fit width cur gs).2 = (k, w) :: gs' ∧
      (takeFit width cur (gapChunks gs) =
          (gapChunks (fit width cur gs).1 ++ [sp k], w :: gapChunks gs') ∨
       takeFit width cur (gapChunks gs) =
          (gapChunks (fit width cur gs).1, sp k :: w :: gapChunks gs')) := by
  induction gs generalizing cur with
  | nil => left; exact ⟨rfl, rfl⟩
  | cons g gs ih =>
    obtain ⟨k, w⟩ := g
    have hgs : Gaps gs := fun g hg' => hg g (by simp [hg'])
    have e : gapChunks ((k, w) :: gs) = sp k :: w :: gapChunks gs := by simp [gapChunks]
    rw [e]
    simp only [fit, takeFit]
    have hl : (sp k).length = k := by simp [sp]
    by_cases h : cur + k + w.length ≤ width
    · rw [if_pos (by omega : cur + (sp k).length ≤ width), if_pos h, hl, if_pos h]
      have := ih (cur + (k + w.length)) hgs
      rw [Nat.add_assoc]
      rcases this with ⟨h1, h2⟩ | ⟨k', w', gs', h1, h2⟩
      · left
        refine ⟨h1, ?_⟩
        rw [h2]; simp [gapChunks]
      · right
        refine ⟨k', w', gs', h1, ?_⟩
        rcases h2 with h2 | h2
        · left; rw [h2]; simp [gapChunks]
        · right; rw [h2]; simp [gapChunks]
    · rw [if_neg h]
      right
      refine ⟨k, w, gs, rfl, ?_⟩
      by_cases h' : cur + k ≤ width
      · left
        rw [if_pos (by rw [hl]; exact h'), hl, if_neg h]
        simp [gapChunks]
      · right
        rw [if_neg (by rw [hl]; exact h')]
        simp [gapChunks]

theorem sp_blank (k : Nat) : blankChunk (sp k) = true := by
  simp only [blankChunk, sp, List.all_eq_true]
  intro x hx
  rw [List.eq_of_mem_replicate hx]; decide

theorem gapChunks_last {gs : List Gap} (hg : Gaps gs) {w0 : Str} (h0 : IsWord w0) :
    dropBlank (w0 :: gapChunks gs) = w0 :: gapChunks gs := by
  have : ∃ w, (w0 :: gapChunks gs).getLast? = some w ∧ blankChunk w = false := by
    rcases List.eq_nil_or_concat gs with rfl | ⟨gs', g, rfl⟩
    · exact ⟨w0, by simp [gapChunks], h0.2.2.1⟩
    · refine ⟨g.2, ?_, (hg g (by simp)).2.2.2.1⟩
      simp [gapChunks, List.getLast?_cons, List.getLast?_append]
  obtain ⟨w, h1, h2⟩ := this
  simp only [dropBlank, h1, h2, Bool.false_eq_true, if_false]

theorem dropBlank_sp (cs : List Str) (k : Nat) : dropBlank (cs ++ [sp k]) = cs := by
  simp [dropBlank, sp_blank]

theorem gapChunks_flatten (gs : List Gap) : (gapChunks gs).flatten = gapText gs := by
  induction gs with
  | nil => rfl
  | cons g gs ih =>
    simp only [gapChunks, gapText, List.flatMap_cons, List.flatten_append] at ih ⊢
    rw [ih]; simp

theorem fit_long {width cur : Nat} (h : width < cur) (gs : List Gap) : fit width cur gs = ([], gs) := by
  cases gs with
  | nil => rfl
  | cons g gs =>
    obtain ⟨k, w⟩ := g
    simp only [fit]
    rw [if_neg (by omega)]

theorem wrapChunks_pack (width n : Nat) (first : Bool) (w0 : Str) (gs : List Gap) (h0 : IsWord w0)
    (hg : Gaps gs) (hn : 1 + 2 * gs.length ≤ n) :
    wrapChunks width n first (w0 :: gapChunks gs) = pack width w0 gs := by
  induction hm : gs.length using Nat.strongRecOn generalizing n first w0 gs with
  | _ m ih =>
    obtain ⟨n, rfl⟩ : ∃ k, n = k + 1 := ⟨n - 1, by omega⟩
    have hw0 := h0.2.2.1
    simp only [wrapChunks, hw0, Bool.and_false, Bool.false_eq_true, if_false]
    rw [pack_fit]
    have hfa := fit_append width w0.length gs
    have hga : Gaps (fit width w0.length gs).1 := fun g hg' => hg g (by rw [← hfa]; simp [hg'])
    have hgb : Gaps (fit width w0.length gs).2 := fun g hg' => hg g (by rw [← hfa]; simp [hg'])
    -- the rest after the line
    have next : ∀ k w gs', (fit width w0.length gs).2 = (k, w) :: gs' →
        wrapChunks width n false (w :: gapChunks gs') = pack width w gs' ∧
        wrapChunks width n false (sp k :: w :: gapChunks gs') = pack width w gs' := by
      intro k w gs' hb
      have hw : IsWord w := (hgb (k, w) (by simp [hb])).2
      have hgs' : Gaps gs' := fun g hg' => hgb g (by simp [hb, hg'])
      have hlen : gs'.length + 1 ≤ gs.length := by
        rw [← hfa, hb]; simp
      have h1 : ∀ n', 1 + 2 * gs'.length ≤ n' → ∀ f,
          wrapChunks width n' f (w :: gapChunks gs') = pack width w gs' := by
        intro n' hn' f
        exact ih gs'.length (by omega) n' f w gs' hw hgs' hn' rfl
      refine ⟨h1 n (by omega) false, ?_⟩
      obtain ⟨n', rfl⟩ : ∃ k, n = k + 1 := ⟨n - 1, by omega⟩
      have := h1 (n' + 1) (by omega) false
      simp only [wrapChunks, hw.2.2.1, Bool.and_false, Bool.false_eq_true, if_false] at this
      simp only [wrapChunks, sp_blank, Bool.not_false, Bool.and_true, if_true]
      exact this
    have line : dropBlank (w0 :: gapChunks (fit width w0.length gs).1) =
        w0 :: gapChunks (fit width w0.length gs).1 := gapChunks_last hga h0
    have flat : (w0 :: gapChunks (fit width w0.length gs).1).flatten =
        w0 ++ gapText (fit width w0.length gs).1 := by
      simp [gapChunks_flatten]
    by_cases hc : w0.length ≤ width
    · have e0 : takeFit width 0 (w0 :: gapChunks gs) =
          (w0 :: (takeFit width w0.length (gapChunks gs)).1, (takeFit width w0.length (gapChunks gs)).2) := by
        simp [takeFit, hc]
      have e : nextLine width (w0 :: gapChunks gs) = takeFit width 0 (w0 :: gapChunks gs) := by
        simp only [nextLine]
        rw [e0]
        split <;> simp
      rw [e, e0]
      rcases takeFit_gaps width w0.length gs hg with ⟨hb, ht⟩ | ⟨k, w, gs', hb, ht | ht⟩
      · rw [ht, hb]
        simp only [line, flat]
        have : wrapChunks width n false [] = [] := by cases n <;> rfl
        simp [this]
      · rw [ht, hb]
        have : w0 :: (gapChunks (fit width w0.length gs).1 ++ [sp k]) =
            (w0 :: gapChunks (fit width w0.length gs).1) ++ [sp k] := by simp
        rw [this, dropBlank_sp]
        simp only [flat, (next k w gs' hb).1]
        simp
      · rw [ht, hb]
        simp only [line, flat, (next k w gs' hb).2]
        simp
    · have e : nextLine width (w0 :: gapChunks gs) = ([w0], gapChunks gs) := by
        simp only [nextLine, takeFit]
        rw [if_neg (by omega)]
        simp; omega
      have hf := fit_long (width := width) (cur := w0.length) (by omega) gs
      have : dropBlank [w0] = [w0] := by
        simp [dropBlank, hw0]
      rw [e]
      simp only [this]
      rw [hf] at next ⊢
      cases gs with
      | nil =>
        have : wrapChunks width n false [] = [] := by cases n <;> rfl
        simp [gapChunks, gapText, this]
      | cons g gs' =>
        obtain ⟨k, w⟩ := g
        have := (next k w gs' rfl).2
        simp only [gapChunks, List.flatMap_cons] at this ⊢
        simp [gapText, ← this]

theorem isWord_space {w : Str} (h : IsWord w) : ∀ c ∈ w, (c == ' ') = false := by
  intro c hc
  have := h.2.1
  cases hb : c == ' ' with
  | false => rfl
  | true => simp only [beq_iff_eq] at hb; subst hb; exact absurd hc this

/-- A run in front of a text that starts with the other kind. -/
theorem chunks_run {b : Bool} {r : Str} (hr : ∀ c ∈ r, (c == ' ') = b) (hne : r ≠ []) {s : Str}
    (hs : ∀ c cs, s = c :: cs → (c == ' ') ≠ b) : chunks (r ++ s) = r :: chunks s := by
  induction r with
  | nil => exact absurd rfl hne
  | cons c cs ih =>
    cases cs with
    | nil =>
      simp only [List.cons_append, List.nil_append, chunks]
      split
      · rename_i d ds rest h
        have : (d == ' ') ≠ b := by
          cases s with
          | nil => simp [chunks] at h
          | cons x xs =>
            have hf := chunks_flatten (x :: xs)
            rw [h] at hf
            simp only [List.flatten_cons, List.cons_append, List.cons.injEq] at hf
            exact hf.1 ▸ hs x xs rfl
        rw [if_neg (by rw [hr c (by simp)]; exact fun e => this e.symm), h]
      · rename_i h; rfl
    | cons d ds =>
      have := ih (fun x hx => hr x (by simp [hx])) (by simp)
      rw [List.cons_append, chunks, this]
      simp only
      rw [if_pos (by rw [hr c (by simp), hr d (by simp)])]

theorem chunks_gapText {gs : List Gap} (hg : Gaps gs) : chunks (gapText gs) = gapChunks gs := by
  induction gs with
  | nil => rfl
  | cons g gs ih =>
    obtain ⟨k, w⟩ := g
    have hgs : Gaps gs := fun g hg' => hg g (by simp [hg'])
    have h1 := hg (k, w) (by simp)
    have hw := h1.2
    have e : gapText ((k, w) :: gs) = sp k ++ (w ++ gapText gs) := by simp [gapText]
    have e2 : gapChunks ((k, w) :: gs) = sp k :: w :: gapChunks gs := by simp [gapChunks]
    rw [e, e2, chunks_run (b := true), chunks_run (b := false), ih hgs]
    · exact isWord_space hw
    · exact hw.1
    · intro c cs hc
      cases gs with
      | nil => simp [gapText] at hc
      | cons g gs =>
        obtain ⟨k', w'⟩ := g
        have := (hgs (k', w') (by simp)).1
        obtain ⟨m, hm⟩ : ∃ m, k' = m + 1 := ⟨k' - 1, by simp at this; omega⟩
        simp only [gapText, List.flatMap_cons, sp, hm, List.replicate_succ, List.cons_append,
          List.cons.injEq] at hc
        simp [← hc.1]
    · intro c hc; simp [List.eq_of_mem_replicate hc]
    · have := h1.1; simp only at this; simp [sp]; omega
    · intro c cs hc
      have hne := hw.1
      cases w with
      | nil => exact absurd rfl hne
      | cons x xs =>
        simp only [List.cons_append, List.cons.injEq] at hc
        have := isWord_space hw x (by simp)
        rw [← hc.1]; simp [this]

theorem chunks_words {w0 : Str} (h0 : IsWord w0) {gs : List Gap} (hg : Gaps gs) :
    chunks (w0 ++ gapText gs) = w0 :: gapChunks gs := by
  rw [chunks_run (b := false) (isWord_space h0) h0.1, chunks_gapText hg]
  intro c cs hc
  cases gs with
  | nil => simp [gapText] at hc
  | cons g gs =>
    obtain ⟨k', w'⟩ := g
    have := (hg (k', w') (by simp)).1
    obtain ⟨m, hm⟩ : ∃ m, k' = m + 1 := ⟨k' - 1, by simp at this; omega⟩
    simp only [gapText, List.flatMap_cons, sp, hm, List.replicate_succ, List.cons_append,
      List.cons.injEq] at hc
    simp [← hc.1]

theorem gapChunks_length (gs : List Gap) : (gapChunks gs).length = 2 * gs.length := by
  induction gs with
  | nil => rfl
  | cons g gs ih => simp only [gapChunks, List.flatMap_cons, List.length_append] at ih ⊢; simp [ih]; omega

/-- Wrapping a text of words and gaps packs it. -/
theorem wrap_pack {width : Int} (hw : 0 < width) {t w0 : Str} {gs : List Gap}
    (ht : munge t = w0 ++ gapText gs) (h0 : IsWord w0) (hg : Gaps gs) :
    wrap width t = .ok (pack width.toNat w0 gs) := by
  simp only [wrap]
  rw [if_neg (by omega), ht, chunks_words h0 hg, wrapChunks_pack _ _ _ _ _ h0 hg]
  simp [gapChunks_length]; omega

/-- No tab and no ASCII blank other than the space. -/
def Clean (s : Str) : Prop := ∀ c ∈ s, isSpace c = true → c = ' '

theorem isWord_clean {w : Str} (h : IsWord w) : Clean w := by
  intro c hc hs
  rw [h.2.2.2 c hc] at hs; simp at hs

theorem clean_append {a b : Str} (ha : Clean a) (hb : Clean b) : Clean (a ++ b) := by
  intro c hc
  rcases List.mem_append.1 hc with h | h
  · exact ha c h
  · exact hb c h

theorem clean_sp (k : Nat) : Clean (sp k) := fun _ hc _ => List.eq_of_mem_replicate hc

theorem pack_clean {width : Nat} {line : Str} {gs : List Gap} (hl : Clean line) (hg : Gaps gs) :
    ∀ l ∈ pack width line gs, Clean l := by
  induction gs generalizing line with
  | nil => simp [pack]; exact hl
  | cons g gs ih =>
    obtain ⟨k, w⟩ := g
    have hgs : Gaps gs := fun g hg' => hg g (by simp [hg'])
    have hw := isWord_clean (hg (k, w) (by simp)).2
    simp only [pack]
    split
    · exact ih (clean_append hl (clean_append (clean_sp k) hw)) hgs
    · intro l hl'
      rcases List.mem_cons.1 hl' with rfl | h
      · exact hl
      · exact ih hw hgs l h

theorem pack_ne (width : Nat) (line : Str) (gs : List Gap) : pack width line gs ≠ [] := by
  induction gs generalizing line with
  | nil => simp [pack]
  | cons g gs ih =>
    obtain ⟨k, w⟩ := g
    simp only [pack]
    split
    · exact ih _
    · simp

theorem join_tab {ls : List Str} (h : ∀ l ∈ ls, Clean l) : '\t' ∉ join ['\n'] ls := by
  induction ls with
  | nil => simp [join]
  | cons l ls ih =>
    have hl : '\t' ∉ l := fun ht => by
      have := h l (by simp) _ ht (by decide); exact absurd this (by decide)
    cases ls with
    | nil => simpa [join] using hl
    | cons m ms =>
      have := ih (fun x hx => h x (by simp [hx]))
      simp [join, hl, this]

theorem map_clean {s : Str} (h : Clean s) : s.map (fun c => if isSpace c then ' ' else c) = s := by
  conv => rhs; rw [← List.map_id s]
  apply List.map_congr_left
  intro c hc
  by_cases hs : isSpace c = true
  · simp [h c hc hs]
  · simp [hs]

theorem join_pack (width : Nat) {line : Str} {gs : List Gap} (hl : Clean line) (hg : Gaps gs) :
    (join ['\n'] (pack width line gs)).map (fun c => if isSpace c then ' ' else c) =
      line ++ gapText (collapse width line.length gs) := by
  induction gs generalizing line with
  | nil => simp [pack, join, collapse, gapText, map_clean hl]
  | cons g gs ih =>
    obtain ⟨k, w⟩ := g
    have hgs : Gaps gs := fun g hg' => hg g (by simp [hg'])
    have hw := isWord_clean (hg (k, w) (by simp)).2
    simp only [pack, collapse]
    split
    · rw [ih (clean_append hl (clean_append (clean_sp k) hw)) hgs]
      simp [gapText, sp]
    · obtain ⟨m, ms, hm⟩ := List.exists_cons_of_ne_nil (pack_ne width w gs)
      have := ih hw hgs
      rw [hm] at this ⊢
      simp only [join, List.map_append, this, map_clean hl]
      have e : isSpace '\n' = true := by decide
      simp [gapText, sp, e]

theorem munge_join_pack (width : Nat) {w0 : Str} {gs : List Gap} (h0 : IsWord w0) (hg : Gaps gs) :
    munge (join ['\n'] (pack width w0 gs)) = w0 ++ gapText (collapse width w0.length gs) := by
  rw [munge_no_tab (join_tab (pack_clean (isWord_clean h0) hg)), join_pack width (isWord_clean h0) hg]

theorem collapse_gaps {width len : Nat} {gs : List Gap} (hg : Gaps gs) : Gaps (collapse width len gs) := by
  induction gs generalizing len with
  | nil => exact hg
  | cons g gs ih =>
    obtain ⟨k, w⟩ := g
    have hgs : Gaps gs := fun g hg' => hg g (by simp [hg'])
    have h1 := hg (k, w) (by simp)
    simp only [collapse]
    split
    · intro g hg'
      rcases List.mem_cons.1 hg' with rfl | h
      · exact h1
      · exact ih hgs g h
    · intro g hg'
      rcases List.mem_cons.1 hg' with rfl | h
      · exact ⟨Nat.le_refl _, h1.2⟩
      · exact ih hgs g h

/-- The blanks beyond one per gap. -/
def excess (gs : List Gap) : Nat := (gs.map fun g => g.1 - 1).sum

/-- One pass keeps the gaps or removes blanks. -/
theorem collapse_excess (width len : Nat) {gs : List Gap} (hg : Gaps gs) :
    collapse width len gs = gs ∨ excess (collapse width len gs) < excess gs := by
  have le : ∀ len gs, excess (collapse width len gs) ≤ excess gs := by
    intro len gs
    induction gs generalizing len with
    | nil => exact Nat.le_refl _
    | cons g gs ih =>
      obtain ⟨k, w⟩ := g
      simp only [collapse]
      split
      · have := ih (len + (k + w.length))
        simp only [excess, List.map_cons, List.sum_cons] at this ⊢; omega
      · have := ih w.length
        simp only [excess, List.map_cons, List.sum_cons] at this ⊢; omega
  induction gs generalizing len with
  | nil => exact Or.inl rfl
  | cons g gs ih =>
    obtain ⟨k, w⟩ := g
    have hgs : Gaps gs := fun g hg' => hg g (by simp [hg'])
    have h1 := (hg (k, w) (by simp)).1
    simp only [collapse]
    split
    · rcases ih (len + (k + w.length)) hgs with h | h
      · left; rw [h]
      · right; simp only [excess, List.map_cons, List.sum_cons] at h ⊢; omega
    · rcases ih w.length hgs with h | h
      · simp only at h1
        by_cases hk : k = 1
        · left; rw [h, hk]
        · right; rw [h]; simp only [excess, List.map_cons, List.sum_cons]; omega
      · have := le w.length gs
        right; simp only [excess, List.map_cons, List.sum_cons] at h this ⊢; omega

/-- The loop ends after at most two rounds more than there are surplus blanks. -/
theorem stableLoop_ends {width : Int} (hw : 0 < width) (n : Nat) {t w0 : Str} {gs : List Gap}
    (ht : munge t = w0 ++ gapText gs) (h0 : IsWord w0) (hg : Gaps gs) (he : excess gs ≤ n) :
    ∃ ls, stableLoop width (n + 2) t = .ok ls := by
  induction n using Nat.strongRecOn generalizing t gs with
  | _ n ih =>
    rw [stableLoop, wrap_pack hw ht h0 hg]
    simp only
    split
    · exact ⟨_, rfl⟩
    · rw [if_neg (by simp [pack_ne])]
      have hm := munge_join_pack width.toNat h0 hg
      rcases collapse_excess width.toNat w0.length hg with h | h
      · rw [h] at hm
        rw [stableLoop, wrap_pack hw hm h0 hg]
        simp
      · obtain ⟨m, rfl⟩ : ∃ m, n = m + 1 := ⟨n - 1, by omega⟩
        exact ih m (by omega) hm (collapse_gaps hg) (by omega)

end Verif.Wrap
