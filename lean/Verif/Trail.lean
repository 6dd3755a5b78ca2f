import Verif.MarkupLines
import Verif.Props.Markup
import Verif.RelexPieces

/-!
# Texts without blanks at the end of their lines
-/

namespace Verif.Wrap
open Verif Py

/-- A line that does not end in a blank. -/
def Trim (s : Str) : Prop := ∀ a c, s = a ++ [c] → isSpace c = false

theorem trim_nil : Trim [] := by
  intro a c h
  have := congrArg List.length h
  simp at this

theorem trim_append {a b : Str} (hb : Trim b) (hne : b ≠ []) : Trim (a ++ b) := by
  intro u c h
  obtain ⟨b', d, rfl⟩ : ∃ b' d, b = b' ++ [d] := ⟨_, _, (List.dropLast_concat_getLast hne).symm⟩
  rw [← List.append_assoc] at h
  have := (List.append_inj' h rfl).2
  simp only [List.cons.injEq, and_true] at this
  subst this
  exact hb b' _ rfl

theorem trim_of_tight {s : Str} (h : Props.Markup.Tight s) : Trim s := by
  intro a c e
  have := h a c e
  cases hs : isSpace c with
  | false => rfl
  | true => rw [isWhite_of_isSpace hs] at this; simp at this

theorem trim_rstrip (s : Str) : Trim (rstripBy isWhite s) := by
  intro a c e
  simp only [rstripBy] at e
  have h' : s.reverse.dropWhile isWhite = c :: a.reverse := by
    have := congrArg List.reverse e
    simpa using this
  have := List.head?_dropWhile_not isWhite s.reverse
  rw [h'] at this
  simp only [List.head?_cons] at this
  cases hs : isSpace c with
  | false => rfl
  | true => rw [isWhite_of_isSpace hs] at this; simp at this

/-- The number of characters that are not blank. -/
def inkCount (s : Str) : Nat := s.countP fun c => !isSpace c

theorem inkCount_append (a b : Str) : inkCount (a ++ b) = inkCount a + inkCount b := by
  simp [inkCount]

theorem inkCount_munge (s : Str) : inkCount (munge s) = inkCount s := by
  have e : ∀ (n : Nat), inkCount (List.replicate n ' ') = 0 := by
    intro n
    simp only [inkCount, List.countP_eq_zero]
    intro c hc
    rw [List.eq_of_mem_replicate hc]; decide
  have e1 : ∀ (col : Nat) (s : Str), inkCount (expandTabs col s) = inkCount s := by
    intro col s
    induction s generalizing col with
    | nil => rfl
    | cons c cs ih =>
      simp only [expandTabs]
      split
      · rename_i hc
        subst hc
        rw [inkCount_append, e, ih]
        simp [inkCount, isSpace]
      · simp only [inkCount, List.countP_cons] at ih ⊢
        rw [ih]
  rw [munge, ← e1 0 s]
  simp only [inkCount, List.countP_map]
  apply List.countP_congr
  intro c _
  simp only [Function.comp_apply]
  split
  · rename_i h
    rw [h]
    exact Iff.rfl
  · exact Iff.rfl

theorem inkCount_join (ls : List Str) : inkCount (join ['\n'] ls) = inkCount ls.flatten := by
  induction ls with
  | nil => rfl
  | cons l ls ih =>
    cases ls with
    | nil => simp [join]
    | cons m ms =>
      simp only [join, inkCount_append, ih, List.flatten_cons]
      simp [inkCount, isSpace]

/-- No two neighbouring chunks are spaces. -/
def NoTwo (cs : List Str) : Prop := ∀ a b, [a, b] <:+: cs → ¬ (AllSp a ∧ AllSp b)

theorem NoTwo.infix {a b : List Str} (h : NoTwo b) (hab : a <:+: b) : NoTwo a :=
  fun x y hxy => h x y (hxy.trans hab)

theorem chunks_two (s : Str) : NoTwo (chunks s) := by
  induction s with
  | nil => intro a b h; simp [chunks] at h
  | cons c cs ih =>
    simp only [chunks]
    split
    · rename_i d ds rest h
      rw [h] at ih
      split
      · rename_i hcd
        intro a b hab
        rw [List.infix_cons_iff] at hab
        rcases hab with hab | hab
        · simp only [List.cons_prefix_cons] at hab
          obtain ⟨rfl, hab⟩ := hab
          have h0 := ih (d :: ds) b (by
            rw [List.infix_cons_iff]; left
            simp only [List.cons_prefix_cons]; exact ⟨trivial, hab⟩)
          intro ⟨h1, h2⟩
          exact h0 ⟨fun y hy => h1 y (List.mem_cons_of_mem _ hy), h2⟩
        · exact ih a b (by rw [List.infix_cons_iff]; right; exact hab)
      · rename_i hcd
        intro a b hab
        rw [List.infix_cons_iff] at hab
        rcases hab with hab | hab
        · simp only [List.cons_prefix_cons, List.nil_prefix, and_true] at hab
          obtain ⟨rfl, rfl⟩ := hab
          intro ⟨h1, h2⟩
          have e1 := h1 c (by simp)
          have e2 := h2 d (by simp)
          rw [e1, e2] at hcd
          exact hcd rfl
        · exact ih a b hab
    · rename_i h
      have : chunks cs = [] := by
        cases hc : chunks cs with
        | nil => rfl
        | cons x xs =>
          exfalso
          cases x with
          | nil => have := ((chunks_alt cs).chunk [] (by simp [hc])).1; exact this rfl
          | cons d ds => exact h d ds xs hc
      rw [this]
      intro a b hab
      have := hab.length_le; simp at this

/-- A line is trim, or something that is no space was dropped. -/
theorem dropBlank_trim {cs : List Str} (h : Alt cs) (h2 : NoTwo cs) (hsp : ∀ c ∈ cs, ∀ x ∈ c, isSpace x = true → x = ' ') :
    (dropBlank cs ≠ [] → Trim (dropBlank cs).flatten ∧ (dropBlank cs).flatten ≠ []) ∨
      inkCount (dropBlank cs).flatten < inkCount cs.flatten := by
  have last : ∀ (as : List Str) (c : Str), Alt (as ++ [c]) → (∀ x ∈ c, isSpace x = true → x = ' ') → ¬ AllSp c →
      Trim (as ++ [c]).flatten ∧ (as ++ [c]).flatten ≠ [] := by
    intro as c ha hx hn
    have hc := ha.chunk c (by simp)
    have hno : ' ' ∉ c := hc.2.resolve_left hn
    have ht : Trim c := by
      intro u d e
      cases hs : isSpace d with
      | false => rfl
      | true =>
        have hm : d ∈ c := by rw [e]; simp
        have := hx d hm hs
        subst this
        exact absurd hm hno
    simp only [List.flatten_append, List.flatten_cons, List.flatten_nil, List.append_nil]
    exact ⟨trim_append ht hc.1, by simp [hc.1]⟩
  rcases List.eq_nil_or_concat cs with rfl | ⟨as, c, rfl⟩
  · left; intro h; exact absurd rfl h
  simp only [List.concat_eq_append] at *
  have hc := h.chunk c (by simp)
  simp only [dropBlank, List.getLast?_append, List.getLast?_singleton, Option.some_or, List.dropLast_concat]
  split
  · rename_i hb
    by_cases hs : AllSp c
    · left
      intro hne
      obtain ⟨bs, d, rfl⟩ : ∃ bs d, as = bs ++ [d] := ⟨_, _, (List.dropLast_concat_getLast hne).symm⟩
      by_cases hd : AllSp d
      · exact absurd ⟨hd, hs⟩ (h2 d c ⟨bs, [], by simp⟩)
      · exact last bs d (h.infix ⟨[], [c], by simp⟩) (hsp d (by simp)) hd
    · right
      have hno : ' ' ∉ c := hc.2.resolve_left hs
      simp only [List.flatten_append, inkCount_append, List.flatten_cons, List.flatten_nil, List.append_nil]
      have : 0 < inkCount c := by
        simp only [inkCount, List.countP_pos_iff]
        obtain ⟨x, xs, e⟩ := List.exists_cons_of_ne_nil hc.1
        refine ⟨x, by rw [e]; simp, ?_⟩
        cases hx : isSpace x with
        | false => rfl
        | true =>
          have := hsp c (by simp) x (by rw [e]; simp) hx
          subst this
          exact absurd (by rw [e]; simp) hno
      omega
  · rename_i hb
    left
    intro _
    refine last as c h (hsp c (by simp)) ?_
    intro hs
    exact hb (allSp_white hs)

theorem wrapChunks_trim (width n : Nat) (first : Bool) {cs : List Str} (h : Alt cs) (h2 : NoTwo cs)
    (hsp : ∀ c ∈ cs, ∀ x ∈ c, isSpace x = true → x = ' ') :
    inkCount (wrapChunks width n first cs).flatten ≤ inkCount cs.flatten ∧
    ((∀ l ∈ wrapChunks width n first cs, Trim l ∧ l ≠ []) ∨
      inkCount (wrapChunks width n first cs).flatten < inkCount cs.flatten) := by
  induction n generalizing first cs with
  | zero => simp [wrapChunks, inkCount]
  | succ n ih =>
    cases cs with
    | nil => simp [wrapChunks]
    | cons c cs =>
      simp only [wrapChunks]
      generalize hcs : (if (!first && blankChunk c) = true then cs else c :: cs) = cs'
      have hsuf : cs' <:+ c :: cs := by
        rw [← hcs]; split
        · exact List.suffix_cons c cs
        · exact List.suffix_refl _
      have hink : inkCount cs'.flatten ≤ inkCount (c :: cs).flatten := by
        obtain ⟨u, hu⟩ := hsuf
        rw [← hu, List.flatten_append, inkCount_append]; omega
      have happ := nextLine_append width cs'
      have hl : (nextLine width cs').1 <:+: c :: cs := List.IsInfix.trans ⟨[], _, by rw [List.nil_append]; exact happ⟩ hsuf.isInfix
      have hr : (nextLine width cs').2 <:+: c :: cs := List.IsInfix.trans ⟨_, [], by rw [List.append_nil]; exact happ⟩ hsuf.isInfix
      have hsum : inkCount cs'.flatten = inkCount (nextLine width cs').1.flatten + inkCount (nextLine width cs').2.flatten := by
        rw [← inkCount_append, ← List.flatten_append, happ]
      obtain ⟨t, ht⟩ := dropBlank_prefix (nextLine width cs').1
      have hle : inkCount (dropBlank (nextLine width cs').1).flatten ≤ inkCount (nextLine width cs').1.flatten := by
        conv => rhs; rw [← ht]
        rw [List.flatten_append, inkCount_append]; omega
      have hline := dropBlank_trim (h.infix hl) (h2.infix hl) (fun x hx => hsp x (hl.subset hx))
      have hrest := fun b => ih b (h.infix hr) (h2.infix hr) (fun x hx => hsp x (hr.subset hx))
      split
      · have := hrest first
        refine ⟨by omega, ?_⟩
        rcases this.2 with h' | h'
        · exact Or.inl h'
        · right; omega
      · rename_i hne
        have hne' : dropBlank (nextLine width cs').1 ≠ [] := by simpa using hne
        have := hrest false
        simp only [List.flatten_cons, inkCount_append] at hink ⊢
        refine ⟨by omega, ?_⟩
        rcases hline with h1 | h1
        · rcases this.2 with h' | h'
          · left
            intro l hl'
            rcases List.mem_cons.1 hl' with rfl | hl'
            · exact h1 hne'
            · exact h' l hl'
          · right; omega
        · right; omega

/-- Reflowed lines do not end in blanks, and none is empty. -/
theorem stableWrap_trim {width : Int} {s : Str} {ls : List Str} (h : stableWrap width s = .ok ls) :
    ∀ l ∈ ls, Trim l ∧ l ≠ [] := by
  have hw := (Props.Markup.stableLoop_ok h).1
  simp only [wrap] at hw
  split at hw
  · simp at hw
  · simp only [Except.ok.injEq] at hw
    have hsp : ∀ c ∈ chunks (munge (join ['\n'] ls)), ∀ x ∈ c, isSpace x = true → x = ' ' := by
      intro c hc x hx hs
      refine munge_space (s := join ['\n'] ls) ?_ hs
      rw [← chunks_flatten (munge (join ['\n'] ls))]
      exact List.mem_flatten.2 ⟨c, hc, hx⟩
    have := (wrapChunks_trim width.toNat (chunks (munge (join ['\n'] ls))).length true (chunks_alt _) (chunks_two _) hsp).2
    rw [hw] at this
    rcases this with h' | h'
    · exact h'
    · rw [chunks_flatten, inkCount_munge, inkCount_join] at h'
      omega

end Verif.Wrap

namespace Verif.Markup
open Verif Py Verif.Wrap

theorem entries_trim {width : Int} {lead : Nat → Str} {pad : Str} {k : Nat} {xs ls : List Str}
    (h : entries width lead pad k xs = .ok ls) : ∀ l ∈ ls, Trim l ∧ l ≠ [] := by
  induction xs generalizing k ls with
  | nil => simp only [entries, Except.ok.injEq] at h; subst h; simp
  | cons x xs ih =>
    simp only [entries] at h
    split at h
    · simp at h
    · rename_i a ha
      split at h
      · simp at h
      · rename_i b hb
        simp only [Except.ok.injEq] at h
        subst h
        intro l hm
        rcases List.mem_append.1 hm with hm | hm
        · unfold entry at ha
          split at ha
          · simp at ha
          · simp at ha
          · rename_i y ys hy
            simp only [Except.ok.injEq] at ha
            subst ha
            have hw := stableWrap_trim hy
            rcases List.mem_cons.1 hm with rfl | hm
            · have := hw y (by simp)
              exact ⟨trim_append this.1 this.2, by simp [this.2]⟩
            · obtain ⟨z, hz, rfl⟩ := List.mem_map.1 hm
              have := hw z (by simp [hz])
              exact ⟨trim_append this.1 this.2, by simp [this.2]⟩
        · exact ih hb l hm

theorem formatItem_trim {cfg : Cfg} {width : Int} {i : Item} {ls : List Str} (h : formatItem cfg width i = .ok ls) :
    ∀ l ∈ ls, Trim l ∧ (i.kind = .bulletList ∨ i.kind = .enumList → l ≠ []) := by
  have wr : ∀ {s : Str}, stableWrap width s = .ok ls → ∀ l ∈ ls, Trim l ∧ (i.kind = .bulletList ∨ i.kind = .enumList → l ≠ []) :=
    fun h l hl => ⟨(stableWrap_trim h l hl).1, fun _ => (stableWrap_trim h l hl).2⟩
  unfold formatItem at h
  split at h
  · rename_i hk
    simp only [Except.ok.injEq] at h; subst h
    intro l hl
    simp only [List.mem_singleton] at hl
    subst hl
    exact ⟨trim_nil, by rw [hk]; simp⟩
  · rename_i hk
    simp only [Except.ok.injEq] at h; subst h
    intro l hl; simp only [List.mem_singleton] at hl; subst hl
    refine ⟨?_, by rw [hk]; simp⟩
    exact trim_append (a := S "~~") (b := S "~") (by
      intro a c e
      have : a ++ [c] = [] ++ ['~'] := e.symm
      have := (List.append_inj' this rfl).2
      simp only [List.cons.injEq, and_true] at this
      rw [this]; rfl) (by decide)
  · rename_i hk
    simp only [Except.ok.injEq] at h; subst h
    intro l hl
    obtain ⟨x, hx, rfl⟩ := List.mem_map.1 hl
    exact ⟨trim_rstrip x, by rw [hk]; simp⟩
  · exact wr h
  · exact wr h
  · rename_i hk
    split at h
    · simp only [Except.ok.injEq] at h; subst h
      intro l hl; simp only [List.mem_singleton] at hl; subst hl
      refine ⟨?_, by rw [hk]; simp⟩
      intro a c e
      have hm : c ∈ List.replicate width.toNat '#' := by rw [e]; simp
      rw [List.eq_of_mem_replicate hm]; rfl
    · exact wr h
  · split at h
    · simp at h
    · exact fun l hl => ⟨(entries_trim h l hl).1, fun _ => (entries_trim h l hl).2⟩
  · split at h
    · simp at h
    · exact fun l hl => ⟨(entries_trim h l hl).1, fun _ => (entries_trim h l hl).2⟩

theorem formatItems_trim {cfg : Cfg} {width : Int} {hist : List Nat} {is : List Item} {ls : List Str}
    (h : formatItems cfg width hist is = .ok ls) : ∀ l ∈ ls, Trim l := by
  induction is generalizing hist ls with
  | nil => simp only [formatItems, Except.ok.injEq] at h; subst h; simp
  | cons i is ih =>
    simp only [formatItems] at h
    split at h
    · simp at h
    · rename_i a ha
      split at h
      · simp at h
      · rename_i b hb
        simp only [Except.ok.injEq] at h
        subst h
        intro l hm
        rcases List.mem_append.1 hm with hm | hm
        · obtain ⟨x, hx, rfl⟩ := List.mem_map.1 hm
          obtain ⟨h1, h2⟩ := formatItem_trim ha x hx
          by_cases hk : i.kind = .bulletList ∨ i.kind = .enumList
          · exact trim_append h1 (h2 hk)
          · simp only [hk, decide_false, Bool.false_eq_true, if_false, spaces, List.replicate_zero, List.nil_append]
            exact h1
        · exact ih hb l hm

/-- A sign that is not empty and does not end in a blank. -/
structure TrimSign (s : Str) : Prop where
  some : s ≠ []
  trim : Trim s

/-- Lines of a formatted comment do not end in blanks. -/
theorem formatComment_trim {cfg : Cfg} (hg : TrimSign cfg.explicitTrailing) {ex first : Bool} {fs : Str} {width : Int}
    {ss ls : List Str} (h : formatComment cfg ex first fs width ss = .ok ls) :
    ∀ l ∈ ls, Trim l ∧ ∃ t, l = (if ex = true then cfg.explicitTrailing else S "#") ++ t := by
  have hpre : TrimSign (if ex = true then cfg.explicitTrailing else S "#") := by
    split
    · exact hg
    · refine ⟨by decide, ?_⟩
      intro a c e
      have : a ++ [c] = [] ++ ['#'] := e.symm
      have := (List.append_inj' this rfl).2
      simp only [List.cons.injEq, and_true] at this
      rw [this]; rfl
  have app : ∀ (n : Nat) (x : Str), Trim x → (x = [] → n = 0) →
      Trim ((if ex = true then cfg.explicitTrailing else S "#") ++ spaces n ++ x) := by
    intro n x hx hn
    by_cases e : x = []
    · rw [hn e, e]; simpa [spaces] using hpre.trim
    · exact trim_append hx e
  have hlit : ∀ l ∈ (ss.map (commentText cfg ex)).map fun l =>
      (if ex = true then cfg.explicitTrailing else S "#") ++ rstripBy isWhite l,
      Trim l ∧ ∃ t, l = (if ex = true then cfg.explicitTrailing else S "#") ++ t := by
    intro l hl
    obtain ⟨x, hx, rfl⟩ := List.mem_map.1 hl
    exact ⟨by simpa [spaces] using app 0 _ (trim_rstrip x) (fun _ => rfl), _, rfl⟩
  unfold formatComment at h
  simp only at h
  split at h
  · simp only [Except.ok.injEq] at h; subst h; exact hlit
  · split at h
    · simp only [Except.ok.injEq] at h; subst h; exact hlit
    · split at h
      · simp only [Except.ok.injEq] at h; subst h; exact hlit
      · split at h
        · simp at h
        · rename_i xs hx
          simp only [Except.ok.injEq] at h
          subst h
          intro l hl
          obtain ⟨x, hm, rfl⟩ := List.mem_map.1 hl
          exact ⟨app _ x (formatItems_trim hx x hm) (fun e => by rw [e]; rfl), _, List.append_assoc _ _ _⟩

end Verif.Markup
