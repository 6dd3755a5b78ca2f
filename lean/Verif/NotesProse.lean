import Verif.NotesWalk
import Verif.Props.Markup

/-!
# Comments that last

Comments of words in sentences, and comments that are not touched, are formatted in the same way again.
-/

namespace Verif.Markup
open Verif Py Verif.Wrap

/-- A word of a sentence.  It starts with a letter, a digit or an underscore, is no number of a list, has no
parenthesis after capital letters, and is no tag of a directive. -/
def proseWord : Str → Bool
  | [] => false
  | c :: cs => (c :: cs).all (fun x => !isWhite x) &&
    (isLower c || ((isUpper c || c == '_') && !(c :: cs).contains '(') ||
      (isDigit c && (c :: cs).getLast? != some '.' && (c :: cs).getLast? != some ':')) &&
    (c :: cs) != S "cmake-format:" && (c :: cs) != S "cmf:"

/-- A line of such words with one blank between two. -/
def ProseText (s : Str) : Prop := ∃ ws, ws ≠ [] ∧ (∀ w ∈ ws, proseWord w = true) ∧ s = join [' '] ws

/-- A comment line of such words, with blanks before and after them. -/
def ProseLine (cfg : Cfg) (l : Str) : Prop :=
  ∃ k t, l = List.replicate (k + 1) '#' ++ t ∧ k + 1 < cfg.hashrulerMin ∧ ProseText (strip t)

/-- Options with which a line that starts with a letter, a digit or an underscore is no fence and no ruler. -/
structure PlainMarkup (cfg : Cfg) : Prop where
  patterns : ∀ line c cs, line.dropWhile isWhite = c :: cs → isPunct c = false →
    cfg.fence line = none ∧ cfg.ruler line = false ∧ cfg.ruler0 line = false
  enabled : cfg.enableMarkup = true
  literal : cfg.literal = none
  firstLiteral : cfg.firstLiteral = false

theorem default_plain (cfg : Cfg) (h1 : cfg.fence = defaultFence) (h2 : cfg.ruler = defaultRuler) (h3 : cfg.ruler0 = defaultRuler)
    (h4 : cfg.enableMarkup = true) (h5 : cfg.literal = none) (h6 : cfg.firstLiteral = false) : PlainMarkup cfg := by
  refine ⟨?_, h4, h5, h6⟩
  intro line c cs e hp
  rw [h1, h2, h3]
  have hr : defaultRuler line = false := by
    simp only [defaultRuler, e]
    cases cs with
    | nil => simp
    | cons d ds => simp [hp]
  refine ⟨?_, hr, hr⟩
  simp only [defaultFence, e]
  have : (c == '`' || c == '~') = false := by
    cases hb : (c == '`' || c == '~') with
    | false => rfl
    | true =>
      simp only [Bool.or_eq_true, beq_iff_eq] at hb
      rcases hb with rfl | rfl <;> revert hp <;> decide
  rw [List.takeWhile_cons_of_neg (by simp [this])]
  simp

/-! ## Words -/

theorem proseWord_ne {w : Str} (h : proseWord w = true) : w ≠ [] := by
  rintro rfl
  simp [proseWord] at h

theorem proseWord_ink {w : Str} (h : proseWord w = true) : ∀ c ∈ w, isWhite c = false := by
  cases w with
  | nil => simp
  | cons c cs =>
    simp only [proseWord, Bool.and_eq_true, List.all_eq_true] at h
    intro x hx
    simpa using h.1.1.1 x hx

theorem proseWord_isWord {w : Str} (h : proseWord w = true) : IsWord w :=
  Props.Markup.isWord_of (proseWord_ne h) (proseWord_ink h)

theorem word_sign {c : Char} {cs : Str} (h : proseWord (c :: cs) = true) : isPunct c = false := by
  have hc := proseWord_ink h c (by simp)
  simp only [proseWord, Bool.and_eq_true, Bool.or_eq_true] at h
  simp only [isPunct, Bool.not_eq_false', Bool.or_eq_true]
  rcases h.1.1.2 with (h | h) | h
  · simp [h]
  · rcases h.1 with h | h
    · simp [h]
    · simp [h]
  · simp [h.1.1]

theorem join_cons {w : Str} {ws : List Str} : join [' '] (w :: ws) = w ++ gapText (ws.map fun v => (1, v)) := by
  induction ws generalizing w with
  | nil => simp [join, gapText]
  | cons v ws ih =>
    simp only [join, ih]
    simp [gapText, sp, List.replicate]

theorem join_words {ws : List Str} (hw : ∀ w ∈ ws, proseWord w = true) : words (join [' '] ws) = ws := by
  cases ws with
  | nil => rfl
  | cons w ws =>
    rw [join_cons, Props.Markup.words_gaps]
    · simp [Function.comp_def]
    · exact ⟨proseWord_ne (hw w (by simp)), proseWord_ink (hw w (by simp))⟩
    · intro g hg
      obtain ⟨v, hv, rfl⟩ := List.mem_map.1 hg
      exact ⟨by simp, proseWord_ne (hw v (by simp [hv])), proseWord_ink (hw v (by simp [hv]))⟩

theorem gapText_append (a b : List Gap) : gapText (a ++ b) = gapText a ++ gapText b := by simp [gapText]

theorem join_snoc {ws : List Str} (hne : ws ≠ []) (v : Str) : join [' '] (ws ++ [v]) = join [' '] ws ++ (sp 1 ++ v) := by
  cases ws with
  | nil => exact absurd rfl hne
  | cons w ws =>
    rw [List.cons_append, join_cons, join_cons, List.map_append, gapText_append]
    simp [gapText]

/-! ## Filling lines -/

theorem pack_lines (width : Nat) : ∀ (ws vs : List Str), vs ≠ [] →
    ∃ vss : List (List Str), pack width (join [' '] vs) (ws.map fun v => (1, v)) = vss.map (join [' ']) ∧ vss.flatten = vs ++ ws ∧ ∀ v ∈ vss, v ≠ []
  | [], vs, h => ⟨[vs], by simp [pack], by simp, by simpa using h⟩
  | w :: ws, vs, h => by
    simp only [List.map_cons, pack]
    split
    · rw [← join_snoc h]
      obtain ⟨vss, h1, h2, h3⟩ := pack_lines width ws (vs ++ [w]) (by simp)
      exact ⟨vss, h1, by simpa using h2, h3⟩
    · obtain ⟨vss, h1, h2, h3⟩ := pack_lines width ws [w] (by simp)
      refine ⟨vs :: vss, by simpa [join] using h1, by simp [h2], ?_⟩
      intro v hv
      rcases List.mem_cons.1 hv with rfl | hv
      · exact h
      · exact h3 v hv

theorem munge_lines {wss : List (List Str)} (hne : wss ≠ []) (hn : ∀ ws ∈ wss, ws ≠ []) (hw : ∀ ws ∈ wss, ∀ w ∈ ws, proseWord w = true) :
    munge (join ['\n'] (wss.map (join [' ']))) = join [' '] wss.flatten := by
  have hclean : ∀ ws, (∀ w ∈ ws, proseWord w = true) → Clean (join [' '] ws) := by
    intro ws h
    cases ws with
    | nil => intro c hc; simp [join] at hc
    | cons w ws =>
      rw [join_cons]
      refine clean_append (isWord_clean (proseWord_isWord (h w (by simp)))) ?_
      intro c hc
      simp only [gapText, List.mem_flatMap, List.mem_map] at hc
      obtain ⟨g, ⟨v, hv, rfl⟩, hc⟩ := hc
      exact clean_append (clean_sp 1) (isWord_clean (proseWord_isWord (h v (by simp [hv])))) c hc
  rw [munge_no_tab]
  · induction wss with
    | nil => exact absurd rfl hne
    | cons ws wss ih =>
      cases wss with
      | nil => simp [join, map_clean (hclean ws (hw ws (by simp)))]
      | cons vs wss =>
        have := ih (by simp) (fun x hx => hn x (by simp [hx])) (fun x hx => hw x (by simp [hx]))
        simp only [List.map_cons] at this
        simp only [List.map_cons, join, List.map_append, this, map_clean (hclean ws (hw ws (by simp)))]
        have e : isSpace '\n' = true := by decide
        simp only [List.map_cons, List.map_nil, e, if_true]
        have hws := hn ws (by simp)
        have hvs := hn vs (by simp)
        obtain ⟨w, ws, rfl⟩ := List.exists_cons_of_ne_nil hws
        obtain ⟨v, vs, rfl⟩ := List.exists_cons_of_ne_nil hvs
        simp only [List.flatten_cons, List.cons_append, join_cons, List.map_append, gapText_append, List.map_cons]
        simp [gapText, sp, List.replicate]
  · refine join_tab ?_
    intro l hl
    obtain ⟨ws, h, rfl⟩ := List.mem_map.1 hl
    exact hclean ws (hw ws h)

/-- Lines of words are filled in one way. -/
theorem fill_lines {width : Int} (hwd : 0 < width) {wss : List (List Str)} (hne : wss ≠ []) (hn : ∀ ws ∈ wss, ws ≠ [])
    (hw : ∀ ws ∈ wss, ∀ w ∈ ws, proseWord w = true) {w0 : Str} {ws : List Str} (hfl : wss.flatten = w0 :: ws) :
    stableWrap width (join ['\n'] (wss.map (join [' ']))) = .ok (pack width.toNat w0 (ws.map fun v => (1, v))) := by
  have hm := munge_lines hne hn hw
  rw [hfl, join_cons] at hm
  have hall : ∀ w ∈ w0 :: ws, proseWord w = true := by
    intro w h
    rw [← hfl] at h
    obtain ⟨x, hx, h⟩ := List.mem_flatten.1 h
    exact hw x hx w h
  have h0 := proseWord_isWord (hall w0 (by simp))
  have hg : Gaps (ws.map fun v => (1, v)) := by
    intro g hg
    obtain ⟨v, hv, rfl⟩ := List.mem_map.1 hg
    exact ⟨by simp, proseWord_isWord (hall v (by simp [hv]))⟩
  have he : excess (ws.map fun v => ((1, v) : Gap)) = 0 := by
    have : ∀ ws : List Str, excess (ws.map fun v => ((1, v) : Gap)) = 0 := by
      intro ws
      induction ws with
      | nil => rfl
      | cons w ws ih => simpa [excess] using ih
    exact this ws
  unfold stableWrap
  rw [stableLoop, wrap_pack hwd hm h0 hg]
  simp only
  split
  · rfl
  · rw [if_neg (by simp [pack_ne])]
    have hm2 := munge_join_pack width.toNat h0 hg
    rcases collapse_excess width.toNat w0.length hg with h | h
    · rw [h] at hm2
      rw [stableLoop, wrap_pack hwd hm2 h0 hg]
      simp
    · omega

/-! ## Blanks around a text -/

theorem rstrip_append {f : Char → Bool} (a : Str) {b : Str} (h : ∃ x ∈ b, f x = false) :
    rstripBy f (a ++ b) = a ++ rstripBy f b := by
  simp only [rstripBy, List.reverse_append, List.dropWhile_append]
  rw [if_neg]
  · simp
  · obtain ⟨x, hx, hf⟩ := h
    intro he
    simp only [List.isEmpty_iff] at he
    have hs := List.takeWhile_append_dropWhile (p := f) (l := b.reverse)
    rw [he, List.append_nil] at hs
    have : f x = true := List.all_eq_true.1 (List.all_takeWhile (l := b.reverse) (p := f)) x (by rw [hs]; simpa using hx)
    rw [hf] at this
    simp at this

theorem rstrip_fix {f : Char → Bool} {s : Str} {c : Char} (h : f c = false) : rstripBy f (s ++ [c]) = s ++ [c] := by
  simp [rstripBy, h]

theorem rstrip_strip (s : Str) : rstripBy isWhite (strip s) = strip s := by
  rcases List.eq_nil_or_concat (strip s) with h | ⟨a, c, h⟩
  · rw [h]; rfl
  · have h : strip s = a ++ [c] := by simpa using h
    rw [h, rstrip_fix (Props.Markup.strip_last h)]

/-- Blanks before a text, and none after it. -/
theorem rstrip_split {t : Str} {c : Char} {cs : Str} (h : strip t = c :: cs) :
    ∃ b, rstripBy isWhite t = b ++ (c :: cs) ∧ ∀ x ∈ b, isWhite x = true := by
  refine ⟨t.takeWhile isWhite, ?_, fun x hx => List.all_eq_true.1 List.all_takeWhile x hx⟩
  have hc := Props.Markup.strip_head h
  have hm : ∃ x ∈ lstripBy isWhite t, isWhite x = false := by
    refine ⟨c, mem_rstrip (f := isWhite) ?_, hc⟩
    change c ∈ strip t
    rw [h]; simp
  have e : t = t.takeWhile isWhite ++ lstripBy isWhite t := (List.takeWhile_append_dropWhile).symm
  conv => lhs; rw [e]
  rw [rstrip_append _ hm]
  change _ ++ strip t = _
  rw [h]

theorem stripPrefix_hashes {m k : Nat} (h : k < m) {d : Char} {ds : Str} (hd : d ≠ '#') :
    stripPrefix? (List.replicate m '#') (List.replicate k '#' ++ d :: ds) = none := by
  induction k generalizing m with
  | zero =>
    obtain ⟨m, rfl⟩ : ∃ n, m = n + 1 := ⟨m - 1, by omega⟩
    simp [List.replicate_succ, stripPrefix?, hd.symm]
  | succ k ih =>
    obtain ⟨m, rfl⟩ : ∃ n, m = n + 1 := ⟨m - 1, by omega⟩
    simp only [List.replicate_succ, List.cons_append, stripPrefix?]
    simp only [if_true]
    exact ih (by omega)

theorem dropWhile_hashes (k : Nat) {d : Char} {ds : Str} (hd : d ≠ '#') :
    (List.replicate k '#' ++ d :: ds).dropWhile (· == '#') = d :: ds := by
  induction k with
  | zero => simp [hd]
  | succ k ih => simpa [List.replicate_succ] using ih

/-! ## The parser of comments -/

theorem prose_head {c : Char} {cs : Str} (h : ProseText (c :: cs)) :
    ∃ w gs, c :: cs = (c :: w) ++ gapText gs ∧ proseWord (c :: w) = true ∧ Gaps gs := by
  obtain ⟨ws, hne, hw, e⟩ := h
  obtain ⟨w, ws, rfl⟩ := List.exists_cons_of_ne_nil hne
  obtain ⟨d, w, rfl⟩ := List.exists_cons_of_ne_nil (proseWord_ne (hw w (by simp)))
  rw [join_cons] at e
  simp only [List.cons_append, List.cons.injEq] at e
  obtain ⟨rfl, e⟩ := e
  refine ⟨w, _, by rw [e]; rfl, hw _ (by simp), ?_⟩
  intro g hg
  obtain ⟨v, hv, rfl⟩ := List.mem_map.1 hg
  exact ⟨by simp, proseWord_isWord (hw v (by simp [hv]))⟩

/-- The text of a comment line. -/
theorem prose_read {cfg : Cfg} (hp : PlainMarkup cfg) {l : Str} {k : Nat} {t : Str} (hl : l = List.replicate (k + 1) '#' ++ t)
    (hk : k + 1 < cfg.hashrulerMin) (ht : ProseText (strip t)) :
    ∃ b c cs, ProseText (c :: cs) ∧ commentText cfg false l = b ++ (c :: cs) ∧ (∀ x ∈ b, isWhite x = true) ∧
      strip (commentText cfg false l) = c :: cs ∧ strip t = c :: cs ∧ ∃ t, l = '#' :: t ∧ t.head? ≠ some '!' := by
  subst hl
  obtain ⟨ws, hne, hw, e⟩ := id ht
  obtain ⟨c, cs, hcs⟩ : ∃ c cs, strip t = c :: cs := by
    cases hs : strip t with
    | nil =>
      obtain ⟨w, ws, rfl⟩ := List.exists_cons_of_ne_nil hne
      obtain ⟨d, w, rfl⟩ := List.exists_cons_of_ne_nil (proseWord_ne (hw w (by simp)))
      rw [hs, join_cons] at e
      simp at e
    | cons c cs => exact ⟨c, cs, rfl⟩
  rw [hcs] at ht
  obtain ⟨w, gs, -, hword, -⟩ := prose_head ht
  have hsign := word_sign hword
  have hcw := proseWord_ink hword c (by simp)
  obtain ⟨b, hb, hbw⟩ := rstrip_split hcs
  have hin : strip (List.replicate (k + 1) '#' ++ t) = List.replicate (k + 1) '#' ++ (b ++ (c :: cs)) := by
    have h1 : lstripBy isWhite (List.replicate (k + 1) '#' ++ t) = List.replicate (k + 1) '#' ++ t := by
      have : isWhite '#' = false := by decide
      simp [lstripBy, List.replicate_succ, this]
    rw [strip, h1, rstrip_append, hb]
    refine ⟨c, ?_, hcw⟩
    have : c ∈ strip t := by rw [hcs]; simp
    exact mem_strip this
  have hchash : c ≠ '#' := by
    rintro rfl
    revert hsign; decide
  obtain ⟨d, ds, hd, hdn⟩ : ∃ d ds, b ++ (c :: cs) = d :: ds ∧ d ≠ '#' := by
    cases b with
    | nil => exact ⟨c, cs, rfl, hchash⟩
    | cons x b =>
      refine ⟨x, b ++ (c :: cs), rfl, ?_⟩
      rintro rfl
      have := hbw '#' (by simp)
      revert this; decide
  have hct : commentText cfg false (List.replicate (k + 1) '#' ++ t) = b ++ (c :: cs) := by
    simp only [commentText, hin, hp.enabled, Bool.not_true, Bool.false_eq_true, if_false]
    rw [hd, if_neg, dropWhile_hashes _ hdn]
    rw [startsWith, stripPrefix_hashes hk hdn]
    simp
  have hdw : lstripBy isWhite (b ++ (c :: cs)) = c :: cs := by
    have : ∀ b : Str, (∀ x ∈ b, isWhite x = true) → lstripBy isWhite (b ++ (c :: cs)) = c :: cs := by
      intro b hb
      induction b with
      | nil => simp [lstripBy, hcw]
      | cons x b ih =>
        have := ih fun y hy => hb y (by simp [hy])
        simpa [lstripBy, hb x (by simp)] using this
    exact this b hbw
  refine ⟨b, c, cs, ht, hct, hbw, ?_, hcs, ?_⟩
  · rw [hct, strip, hdw, ← hcs, rstrip_strip]
  · refine ⟨List.replicate k '#' ++ t, by simp [List.replicate_succ], ?_⟩
    cases k with
    | succ k => simp [List.replicate_succ]
    | zero =>
      simp only [List.replicate_zero, List.nil_append]
      intro he
      cases t with
      | nil => simp at he
      | cons x t =>
        simp only [List.head?_cons, Option.some.injEq] at he
        subst he
        have h1 : lstripBy isWhite ('!' :: t) = '!' :: t := by
          have : isWhite '!' = false := by decide
          simp [lstripBy, this]
        have hpre : strip ('!' :: t) <+: '!' :: t := by
          rw [strip, h1, rstripBy]
          simpa using List.reverse_prefix.2 (List.dropWhile_suffix isWhite (l := ('!' :: t).reverse))
        rw [hcs] at hpre
        obtain ⟨r, hr⟩ := hpre
        simp only [List.cons_append, List.cons.injEq] at hr
        rw [hr.1] at hsign
        revert hsign; decide

theorem prose_text {cfg : Cfg} (hp : PlainMarkup cfg) {l : Str} (h : ProseLine cfg l) :
    ∃ b c cs, ProseText (c :: cs) ∧ commentText cfg false l = b ++ (c :: cs) ∧ (∀ x ∈ b, isWhite x = true) ∧
      strip (commentText cfg false l) = c :: cs ∧ ∃ t, l = '#' :: t ∧ t.head? ≠ some '!' := by
  obtain ⟨k, t, rfl, hk, ht⟩ := h
  obtain ⟨b, c, cs, h1, h2, h3, h4, -, h5⟩ := prose_read hp rfl hk ht
  exact ⟨b, c, cs, h1, h2, h3, h4, h5⟩

theorem gapText_head {gs : List Gap} (h : Gaps gs) : gapText gs = [] ∨ ∃ r, gapText gs = ' ' :: r := by
  cases gs with
  | nil => exact Or.inl rfl
  | cons g gs =>
    right
    obtain ⟨k, w⟩ := g
    have := (h (k, w) (by simp)).1
    obtain ⟨k, rfl⟩ : ∃ j, k = j + 1 := ⟨k - 1, by simp at this; omega⟩
    exact ⟨sp k ++ w ++ gapText gs, by simp [gapText, sp, List.replicate_succ]⟩

/-- The first word of a text. -/
theorem first_word {w : Str} {gs : List Gap} (hw : ∀ c ∈ w, isWhite c = false) (hg : Gaps gs) :
    (w ++ gapText gs).takeWhile (fun c => !isWhite c) = w := by
  rw [List.takeWhile_append_of_pos (by simpa using hw)]
  rcases gapText_head hg with h | ⟨r, h⟩ <;> rw [h] <;> simp [isWhite_space]

theorem digit_cond {x : Char} (h : isDigit x = true) : isLower x = false ∧ isUpper x = false ∧ x ≠ '_' := by
  simp only [isDigit, isLower, isUpper, Bool.and_eq_true, decide_eq_true_eq] at h ⊢
  have h1 : '9'.toNat = 57 := rfl
  have h2 : 'a'.toNat = 97 := rfl
  have h3 : 'A'.toNat = 65 := rfl
  refine ⟨by simp; omega, by simp; omega, ?_⟩
  rintro rfl
  revert h
  decide

theorem lower_cond {x : Char} (h : isLower x = true) : isUpper x = false ∧ x ≠ '_' := by
  simp only [isLower, isUpper, Bool.and_eq_true, decide_eq_true_eq] at h ⊢
  have h2 : 'a'.toNat = 97 := rfl
  have h3 : 'Z'.toNat = 90 := rfl
  refine ⟨by simp; omega, ?_⟩
  rintro rfl
  revert h
  decide

theorem upper_ink : ∀ n < 128, isUpper (Char.ofNat n) = true → isWhite (Char.ofNat n) = false := by decide +kernel

/-- Such a line is no item of a list and no note. -/
theorem prose_line {line c : _} {cs : Str} (hd : line.dropWhile isWhite = c :: cs) (h : ProseText (c :: cs)) :
    bulletMatch line = none ∧ enumMatch line = none ∧ isNote line = false := by
  obtain ⟨w, gs, e, hw, hg⟩ := prose_head h
  have hsign := word_sign hw
  have hink := proseWord_ink hw
  have hfw := first_word hink hg
  rw [← e] at hfw
  refine ⟨?_, ?_, ?_⟩
  · unfold bulletMatch
    rw [hd]
    split
    · rename_i c' x xs he
      simp only [List.cons.injEq] at he
      rw [if_neg]
      rw [← he.1]
      simp only [Bool.or_eq_true, beq_iff_eq]
      rintro (rfl | rfl) <;> revert hsign <;> decide
    · rfl
  · unfold enumMatch
    rw [hd]
    simp only
    split
    · rfl
    · rename_i hne
      split
      · rename_i c' x xs he
        rw [if_neg]
        intro hc'
        have hs := List.takeWhile_append_dropWhile (p := isDigit) (l := c :: cs)
        rw [he] at hs
        have hall : ∀ y ∈ (c :: cs).takeWhile isDigit, isDigit y = true := fun y hy => List.all_eq_true.1 List.all_takeWhile y hy
        have hnw : isWhite c' = false := by
          simp only [Bool.or_eq_true, beq_iff_eq] at hc'
          rcases hc' with rfl | rfl <;> decide
        have hword : (c :: cs).takeWhile isDigit ++ [c'] = c :: w := by
          rw [← hfw]
          conv => rhs; rw [← hs]
          have : ∀ y ∈ (c :: cs).takeWhile isDigit ++ [c'], (!isWhite y) = true := by
            intro y hy
            rcases List.mem_append.1 hy with hy | hy
            · simp [Props.Markup.digit_not_white (hall y hy)]
            · simp only [List.mem_singleton] at hy
              simp [hy, hnw]
          have e3 : (c :: cs).takeWhile isDigit ++ c' :: ' ' :: x :: xs = ((c :: cs).takeWhile isDigit ++ [c']) ++ ' ' :: x :: xs := by simp
          rw [e3, List.takeWhile_append_of_pos this]
          simp [isWhite_space]
        have hcd : isDigit c = true := by
          cases hcd : isDigit c with
          | true => rfl
          | false => simp [hcd] at hne
        have hlast : (c :: w).getLast? = some c' := by rw [← hword]; simp
        obtain ⟨d1, d2, d3⟩ := digit_cond hcd
        simp only [proseWord, d1, d2, hlast, Bool.false_or, Bool.and_eq_true, Bool.or_eq_true, beq_iff_eq, d3, false_and,
          Bool.false_eq_true, false_or, bne_iff_ne, ne_eq, Option.some.injEq] at hw
        simp only [Bool.or_eq_true, beq_iff_eq] at hc'
        rcases hc' with rfl | rfl
        · exact hw.1.1.2.1.2 rfl
        · exact hw.1.1.2.2 rfl
      · rfl
  · unfold isNote
    rw [hd]
    simp only
    split
    · rfl
    · rename_i hne
      split
      · rename_i r he
        exfalso
        have hs := List.takeWhile_append_dropWhile (p := fun c => isUpper c || c == '_') (l := c :: cs)
        rw [he] at hs
        have hall : ∀ y ∈ (c :: cs).takeWhile (fun c => isUpper c || c == '_'), (isUpper y || y == '_') = true :=
          fun y hy => List.all_eq_true.1 List.all_takeWhile y hy
        have hcu : (isUpper c || c == '_') = true := by
          cases hcu : (isUpper c || c == '_') with
          | true => rfl
          | false => simp [hcu] at hne
        have hnw : ∀ y, (isUpper y || y == '_') = true → isWhite y = false := by
          intro y hy
          simp only [Bool.or_eq_true, beq_iff_eq, isUpper, Bool.and_eq_true, decide_eq_true_eq] at hy
          rcases hy with hy | rfl
          · have := upper_ink y.toNat (by have h3 : 'Z'.toNat = 90 := rfl; omega)
            rw [Char.ofNat_toNat] at this
            exact this (by simp [isUpper, hy])
          · decide
        have hin : '(' ∈ c :: w := by
          rw [← hfw, ← hs]
          have : ∀ y ∈ (c :: cs).takeWhile (fun c => isUpper c || c == '_') ++ ['('], (!isWhite y) = true := by
            intro y hy
            rcases List.mem_append.1 hy with hy | hy
            · simp [hnw y (hall y hy)]
            · simp only [List.mem_singleton] at hy
              rw [hy]; decide
          have e3 : (c :: cs).takeWhile (fun c => isUpper c || c == '_') ++ '(' :: r = ((c :: cs).takeWhile (fun c => isUpper c || c == '_') ++ ['(']) ++ r := by simp
          rw [e3, List.takeWhile_append_of_pos this]
          simp
        simp only [proseWord, Bool.and_eq_true, Bool.or_eq_true] at hw
        rcases hw.1.1.2 with (h | h) | h
        · have := lower_cond h
          simp [this.1, this.2] at hcu
        · have := h.2
          simp only [Bool.not_eq_true', List.contains_eq_mem, decide_eq_false_iff_not] at this
          exact this hin
        · have := digit_cond h.1.1
          simp [this.2.1, this.2.2] at hcu
      · rfl

theorem prose_drop {line b : Str} {c : Char} {cs : Str} (e : line = b ++ (c :: cs)) (hb : ∀ x ∈ b, isWhite x = true)
    (h : ProseText (c :: cs)) : line.dropWhile isWhite = c :: cs := by
  obtain ⟨w, gs, -, hw, -⟩ := prose_head h
  have hc := proseWord_ink hw c (by simp)
  subst e
  induction b with
  | nil => simp [hc]
  | cons x b ih =>
    have := ih fun y hy => hb y (by simp [hy])
    simpa [hb x (by simp)] using this

/-- All lines of words are one paragraph. -/
theorem prose_parse {cfg : Cfg} (hp : PlainMarkup cfg) {ls : List Str} (hne : ls ≠ []) (h : ∀ l ∈ ls, ProseLine cfg l) :
    parse cfg (ls.map (commentText cfg false)) =
      [{ kind := .paragraph, lines := ls.map fun l => strip (commentText cfg false l) }] := by
  have more : ∀ (ls xs : List Str), (∀ l ∈ ls, ProseLine cfg l) →
      (ls.map (commentText cfg false)).foldl (parseLine cfg) ([{ kind := .paragraph, lines := xs }], .paragraph) =
        ([{ kind := .paragraph, lines := xs ++ ls.map fun l => strip (commentText cfg false l) }], .paragraph) := by
    intro ls
    induction ls with
    | nil => intro xs _; simp
    | cons l ls ih =>
      intro xs h
      obtain ⟨b, c, cs, ht, e, hb, hs, -⟩ := prose_text hp (h l (by simp))
      have hd := prose_drop e hb ht
      obtain ⟨w, gs, -, hw, -⟩ := prose_head ht
      obtain ⟨p1, p2, p3⟩ := hp.patterns _ c cs hd (word_sign hw)
      have hn := (prose_line hd ht).2.2
      have hem : (commentText cfg false l).isEmpty = false := by rw [e]; simp
      rw [List.map_cons, List.foldl_cons]
      have step : parseLine cfg ([{ kind := .paragraph, lines := xs }], .paragraph) (commentText cfg false l) =
          ([{ kind := .paragraph, lines := xs ++ [strip (commentText cfg false l)] }], .paragraph) := by
        simp [parseLine, p1, plainLine, hem, p2, p3, hn, addLine, onLast]
      rw [step, ih _ fun x hx => h x (by simp [hx])]
      simp
  cases ls with
  | nil => exact absurd rfl hne
  | cons l ls =>
    obtain ⟨b, c, cs, ht, e, hb, hs, -⟩ := prose_text hp (h l (by simp))
    have hd := prose_drop e hb ht
    obtain ⟨w, gs, -, hw, -⟩ := prose_head ht
    obtain ⟨p1, p2, p3⟩ := hp.patterns _ c cs hd (word_sign hw)
    obtain ⟨n1, n2, n3⟩ := prose_line hd ht
    have hem : (commentText cfg false l).isEmpty = false := by rw [e]; simp
    have step : parseLine cfg ([], .none) (commentText cfg false l) =
        ([{ kind := .paragraph, lines := [strip (commentText cfg false l)] }], .paragraph) := by
      simp [parseLine, p1, plainLine, hem, p2, freshLine, n1, n2, n3]
    rw [parse, List.map_cons, List.foldl_cons, step, more _ _ fun x hx => h x (by simp [hx])]
    simp

theorem strip_fix {c d : Char} {cs a : Str} (hc : isWhite c = false) (hd : isWhite d = false) (e : c :: cs = a ++ [d]) :
    strip (c :: cs) = c :: cs := by
  rw [strip]
  have : lstripBy isWhite (c :: cs) = c :: cs := by simp [lstripBy, hc]
  rw [this, e, rstrip_fix hd]

/-- Lines of words have no blanks around them. -/
theorem strip_lines {wss : List (List Str)} (hne : wss ≠ []) (hn : ∀ ws ∈ wss, ws ≠ []) (hw : ∀ ws ∈ wss, ∀ w ∈ ws, proseWord w = true) :
    strip (join ['\n'] (wss.map (join [' ']))) = join ['\n'] (wss.map (join [' '])) := by
  have first : ∃ c cs, join ['\n'] (wss.map (join [' '])) = c :: cs ∧ isWhite c = false := by
    obtain ⟨ws, wss, rfl⟩ := List.exists_cons_of_ne_nil hne
    obtain ⟨w, ws, rfl⟩ := List.exists_cons_of_ne_nil (hn ws (by simp))
    have hpw := hw (w :: ws) (by simp) w (by simp)
    obtain ⟨c, w, rfl⟩ := List.exists_cons_of_ne_nil (proseWord_ne hpw)
    refine ⟨c, ?_⟩
    have hc := proseWord_ink hpw c (by simp)
    cases wss with
    | nil => exact ⟨_, by simp only [List.map_cons, List.map_nil, join, join_cons]; rfl, hc⟩
    | cons vs wss => exact ⟨_, by simp only [List.map_cons, join, join_cons]; rfl, hc⟩
  have lastWord : ∀ ws : List Str, ws ≠ [] → (∀ w ∈ ws, proseWord w = true) → ∃ a d, join [' '] ws = a ++ [d] ∧ isWhite d = false := by
    intro ws h1 h2
    rcases List.eq_nil_or_concat ws with h | ⟨us, w, h⟩
    · exact absurd h h1
    · have h : ws = us ++ [w] := by simpa using h
      subst h
      have hpw := h2 w (by simp)
      rcases List.eq_nil_or_concat w with h | ⟨a, d, h⟩
      · exact absurd h (proseWord_ne hpw)
      · have h : w = a ++ [d] := by simpa using h
        subst h
        have hd := proseWord_ink hpw d (by simp)
        cases us with
        | nil => exact ⟨a, d, by simp [join], hd⟩
        | cons u us => exact ⟨join [' '] (u :: us) ++ sp 1 ++ a, d, by rw [join_snoc (by simp)]; simp, hd⟩
  have last : ∃ a d, join ['\n'] (wss.map (join [' '])) = a ++ [d] ∧ isWhite d = false := by
    clear first
    induction wss with
    | nil => exact absurd rfl hne
    | cons ws wss ih =>
      cases wss with
      | nil =>
        simp only [List.map_cons, List.map_nil, join]
        exact lastWord ws (hn ws (by simp)) (hw ws (by simp))
      | cons vs wss =>
        obtain ⟨a, d, e, hd⟩ := ih (by simp) (fun x hx => hn x (by simp [hx])) (fun x hx => hw x (by simp [hx]))
        simp only [List.map_cons] at e
        refine ⟨join [' '] ws ++ ['\n'] ++ a, d, ?_, hd⟩
        simp only [List.map_cons, join, e]
        simp
  obtain ⟨c, cs, e1, hc⟩ := first
  obtain ⟨a, d, e2, hd⟩ := last
  rw [e1] at e2 ⊢
  exact strip_fix hc hd e2

/-- What is written for lines of words. -/
theorem prose_format {cfg : Cfg} (hp : PlainMarkup cfg) {ls : List Str} (hne : ls ≠ []) (h : ∀ l ∈ ls, ProseLine cfg l) :
    ∃ (w0 : Str) (ws : List Str), (∀ w ∈ w0 :: ws, proseWord w = true) ∧
      (ls.map fun l => words (commentText cfg false l)).flatten = w0 :: ws ∧
      ∀ (first : Bool) (width : Int), formatComment cfg false first (ls.headD []) width ls =
        .ok ((pack (max 10 (width - 2)).toNat w0 (ws.map fun v => (1, v))).map fun l => ['#', ' '] ++ l) := by
  have hlines : ∀ l ∈ ls, ProseText (strip (commentText cfg false l)) := by
    intro l hl
    obtain ⟨b, c, cs, ht, -, -, hs, -⟩ := prose_text hp (h l hl)
    rw [hs]; exact ht
  obtain ⟨wss, e1, hn, hw⟩ : ∃ wss : List (List Str), (ls.map fun l => strip (commentText cfg false l)) = wss.map (join [' ']) ∧
      (∀ ws ∈ wss, ws ≠ []) ∧ ∀ ws ∈ wss, ∀ w ∈ ws, proseWord w = true := by
    clear hne h
    induction ls with
    | nil => exact ⟨[], rfl, by simp, by simp⟩
    | cons l ls ih =>
      obtain ⟨wss, h1, h2, h3⟩ := ih fun x hx => hlines x (by simp [hx])
      obtain ⟨ws, h4, h5, h6⟩ := hlines l (by simp)
      refine ⟨ws :: wss, by simp [h1, h6], ?_, ?_⟩
      · intro x hx
        rcases List.mem_cons.1 hx with rfl | hx
        · exact h4
        · exact h2 x hx
      · intro x hx
        rcases List.mem_cons.1 hx with rfl | hx
        · exact h5
        · exact h3 x hx
  have hwne : wss ≠ [] := by
    rintro rfl
    simp at e1
    exact hne e1
  have e2 : (ls.map fun l => words (commentText cfg false l)) = wss := by
    have : (ls.map fun l => words (commentText cfg false l)) = (ls.map fun l => strip (commentText cfg false l)).map words := by
      simp [Function.comp_def, Props.Markup.words_strip]
    rw [this, e1, List.map_map]
    conv => rhs; rw [← List.map_id wss]
    exact List.map_congr_left fun x hx => join_words (hw x hx)
  obtain ⟨w0, ws, hfl⟩ : ∃ w0 ws, wss.flatten = w0 :: ws := by
    obtain ⟨x, xs, rfl⟩ := List.exists_cons_of_ne_nil hwne
    obtain ⟨w, x, rfl⟩ := List.exists_cons_of_ne_nil (hn x (by simp))
    exact ⟨w, x ++ xs.flatten, by simp⟩
  have hall : ∀ w ∈ w0 :: ws, proseWord w = true := by
    intro w h
    rw [← hfl] at h
    obtain ⟨x, hx, h⟩ := List.mem_flatten.1 h
    exact hw x hx w h
  refine ⟨w0, ws, hall, by rw [e2, hfl], ?_⟩
  intro first width
  have hhash : (first && (cfg.firstLiteral || startsWith (S "#!") (ls.headD []))) = false := by
    obtain ⟨l, ls, rfl⟩ := List.exists_cons_of_ne_nil hne
    obtain ⟨b, c, cs, -, -, -, -, t, rfl, ht⟩ := prose_text hp (h l (by simp))
    simp only [hp.firstLiteral, Bool.false_or, List.headD_cons]
    have : startsWith (S "#!") ('#' :: t) = false := by
      cases t with
      | nil => rfl
      | cons x t =>
        have hx : '!' ≠ x := by
          rintro rfl
          simp at ht
        simp [startsWith, S, stripPrefix?, hx]
    rw [this]
    simp
  simp only [formatComment, hp.enabled, isLiteral, hp.literal, hhash, Bool.not_true, Bool.false_eq_true, if_false]
  rw [prose_parse hp hne h]
  simp only [formatItems, formatItem]
  rw [e1, strip_lines hwne hn hw]
  have hf : ∀ W : Int, 0 < W → stableWrap W (join ['\n'] (wss.map (join [' ']))) = .ok (pack W.toNat w0 (ws.map fun v => (1, v))) :=
    fun W hW => fill_lines hW hwne hn hw hfl
  simp only [reduceCtorEq, or_self, decide_false, if_false, Bool.false_eq_true]
  have e3 : (max 10 (width - 2) - ((0 : Nat) : Int)) = max 10 (width - 2) := by simp
  rw [e3, hf _ (by omega)]
  simp only [List.append_nil, Except.ok.injEq, List.map_map]
  refine List.map_congr_left fun l hl => ?_
  obtain ⟨vss, hv1, hv2, hv3⟩ := pack_lines (max 10 (width - 2)).toNat ws [w0] (by simp)
  have hv1 : pack (max 10 (width - 2)).toNat w0 (ws.map fun v => (1, v)) = vss.map (join [' ']) := by simpa [join] using hv1
  rw [hv1] at hl
  obtain ⟨vs, hvs, rfl⟩ := List.mem_map.1 hl
  obtain ⟨v, vs, rfl⟩ := List.exists_cons_of_ne_nil (hv3 vs hvs)
  have hv : proseWord v = true := hall v (by
    have : v ∈ vss.flatten := List.mem_flatten.2 ⟨_, hvs, by simp⟩
    rw [hv2] at this
    simpa using this)
  obtain ⟨c, v, rfl⟩ := List.exists_cons_of_ne_nil (proseWord_ne hv)
  rw [join_cons]
  simp [spaces, S]

/-- A line that is written is a line of words. -/
theorem written_prose {cfg : Cfg} (hmin : 1 < cfg.hashrulerMin) {vs : List Str} (hne : vs ≠ []) (hw : ∀ w ∈ vs, proseWord w = true) :
    ProseText (strip (' ' :: join [' '] vs)) ∧ strip (' ' :: join [' '] vs) = join [' '] vs ∧
      ProseLine cfg (['#', ' '] ++ join [' '] vs) := by
  have e : strip (' ' :: join [' '] vs) = join [' '] vs := by
    have := strip_lines (wss := [vs]) (by simp) (by simpa using hne) (by simpa using hw)
    simp only [List.map_cons, List.map_nil, join] at this
    rw [strip] at this ⊢
    have h2 : lstripBy isWhite (' ' :: join [' '] vs) = lstripBy isWhite (join [' '] vs) := by simp [lstripBy, isWhite_space]
    rw [h2, this]
  have h : ProseText (strip (' ' :: join [' '] vs)) := ⟨vs, hne, hw, e⟩
  exact ⟨h, e, 0, ' ' :: join [' '] vs, rfl, hmin, h⟩

/-- **Comments of words last.** -/
theorem prose_lasts {cfg : Cfg} {explicit : Str → Bool} (hp : PlainMarkup cfg) (hmin : 1 < cfg.hashrulerMin)
    (hex : ∀ s, explicit ('#' :: ' ' :: s) = false) {ls : List Str} (h : ∀ l ∈ ls, ProseLine cfg l) :
    Layout.NoteLasts cfg explicit ls := by
  intro first width out hout
  by_cases hne : ls = []
  · subst hne
    have : ∀ (f : Bool) (w : Int), formatComment cfg false f [] w [] = .ok [] := by
      intro f w
      simp only [formatComment, List.map_nil, parse, List.foldl_nil, formatItems]
      split
      · rfl
      · split
        · rfl
        · split <;> rfl
    rw [List.headD_nil, this] at hout
    injection hout with hout
    subst hout
    exact ⟨by simp, fun _ => rfl⟩
  obtain ⟨w0, ws, hall, hfl, hfmt⟩ := prose_format hp hne h
  rw [hfmt, Except.ok.injEq] at hout
  obtain ⟨vss, hv1, hv2, hv3⟩ := pack_lines (max 10 (width - 2)).toNat ws [w0] (by simp)
  have hv1 : pack (max 10 (width - 2)).toNat w0 (ws.map fun v => (1, v)) = vss.map (join [' ']) := by simpa [join] using hv1
  rw [hv1, List.map_map] at hout
  have hvw : ∀ vs ∈ vss, ∀ w ∈ vs, proseWord w = true := by
    intro vs h1 w h2
    refine hall w ?_
    have : w ∈ vss.flatten := List.mem_flatten.2 ⟨vs, h1, h2⟩
    rw [hv2] at this
    simpa using this
  have hone : out ≠ [] := by
    rintro rfl
    simp only [List.map_eq_nil_iff] at hout
    subst hout
    simp at hv2
  have hlines : ∀ l ∈ out, ∃ vs ∈ vss, l = ['#', ' '] ++ join [' '] vs := by
    intro l hl
    rw [← hout] at hl
    obtain ⟨vs, hvs, rfl⟩ := List.mem_map.1 hl
    exact ⟨vs, hvs, rfl⟩
  refine ⟨?_, ?_⟩
  · intro l hl
    obtain ⟨vs, hvs, rfl⟩ := hlines l hl
    have hno : ¬ Directive ('#' :: (' ' :: join [' '] vs)) := by
      intro hd
      have := Props.Markup.directive_word hd
      rw [← Props.Markup.words_strip, (written_prose hmin (hv3 vs hvs) (hvw vs hvs)).2.1, join_words (hvw vs hvs)] at this
      rcases this with h | h
      · exact absurd (hvw vs hvs _ h) (by decide +kernel)
      · exact absurd (hvw vs hvs _ h) (by decide +kernel)
    have hwhite : ∀ c ∈ S " \t\n\r\x0b\x0c", isWhite c = true := by decide +kernel
    refine ⟨?_, ?_, hex _⟩
    · rintro ⟨us, name, t, e, hus, hname, -⟩
      refine hno ⟨us, name, S "on" ++ t, ?_, fun c hc => hwhite c (hus c hc), hname⟩
      have : S ": on" = S ": " ++ S "on" := by decide +kernel
      rw [this] at e
      simpa using e
    · rintro ⟨us, name, t, e, hus, hname, -⟩
      refine hno ⟨us, name, S "off" ++ t, ?_, fun c hc => hwhite c (hus c hc), hname⟩
      have : S ": off" = S ": " ++ S "off" := by decide +kernel
      rw [this] at e
      simpa using e
  · intro width'
    have hprose : ∀ l ∈ out, ProseLine cfg l := by
      intro l hl
      obtain ⟨vs, hvs, rfl⟩ := hlines l hl
      exact (written_prose hmin (hv3 vs hvs) (hvw vs hvs)).2.2
    obtain ⟨w0', ws', -, hfl', hfmt'⟩ := prose_format hp hone hprose
    have hwords : (out.map fun l => words (commentText cfg false l)) = vss := by
      rw [← hout, List.map_map]
      conv => rhs; rw [← List.map_id vss]
      refine List.map_congr_left fun vs hvs => ?_
      obtain ⟨h1, h2, -⟩ := written_prose (cfg := cfg) hmin (hv3 vs hvs) (hvw vs hvs)
      obtain ⟨b, c, cs, -, -, -, h3, h4, -⟩ := prose_read hp (l := ['#', ' '] ++ join [' '] vs) (k := 0) (t := ' ' :: join [' '] vs) rfl hmin h1
      simp only [Function.comp_apply, id_eq]
      rw [← Props.Markup.words_strip, h3, ← h4, h2, join_words (hvw vs hvs)]
    rw [hwords, hv2] at hfl'
    simp only [List.cons_append, List.nil_append, List.cons.injEq] at hfl'
    obtain ⟨rfl, rfl⟩ := hfl'
    rw [hfmt', hfmt]

theorem strip_strip (s : Str) : strip (strip s) = strip s := by
  cases h : strip s with
  | nil => rfl
  | cons c cs =>
    have hc := Props.Markup.strip_head h
    have h1 : lstripBy isWhite (c :: cs) = c :: cs := by simp [lstripBy, hc]
    rw [strip, h1, ← h, rstrip_strip]

/-- **Comments that are left alone last.** -/
theorem literal_lasts {cfg : Cfg} {explicit : Str → Bool} (hoff : cfg.enableMarkup = false) {ls : List Str}
    (h : ∀ l ∈ ls, (∃ t, l = '#' :: t) ∧ ¬ Props.Lex.Shape .formatOn (strip l) ∧ ¬ Props.Lex.Shape .formatOff (strip l) ∧
      explicit (strip l) = false) : Layout.NoteLasts cfg explicit ls := by
  have hash : isWhite '#' = false := by decide
  have line : ∀ t : Str, ['#'] ++ rstripBy isWhite (commentText cfg false ('#' :: t)) = strip ('#' :: t) := by
    intro t
    have h1 : strip ('#' :: t) = rstripBy isWhite ('#' :: t) := by simp [strip, lstripBy, hash]
    simp only [commentText, hoff, Bool.not_false, if_true, Bool.false_eq_true, if_false]
    have hs := rstrip_strip ('#' :: t)
    obtain ⟨u, hu⟩ : ∃ u, strip ('#' :: t) = '#' :: u := by
      rw [h1]
      by_cases hx : ∃ x ∈ t, isWhite x = false
      · exact ⟨_, rstrip_append ['#'] hx⟩
      · refine ⟨[], ?_⟩
        have : (List.dropWhile isWhite t.reverse) = [] := by
          have : ∀ s : Str, (∀ x ∈ s, isWhite x = true) → s.dropWhile isWhite = [] := by
            intro s hs
            induction s with
            | nil => rfl
            | cons x s ih => simp [hs x (by simp), ih fun y hy => hs y (by simp [hy])]
          refine this _ fun x hxm => ?_
          cases hw : isWhite x with
          | true => rfl
          | false => exact absurd ⟨x, by simpa using hxm, hw⟩ hx
        simp [rstripBy, List.dropWhile_append, this, hash]
    rw [hu] at hs ⊢
    simp only [List.drop_succ_cons, List.drop_zero]
    by_cases hx : ∃ x ∈ u, isWhite x = false
    · rw [← rstrip_append ['#'] hx]
      exact hs
    · cases u with
      | nil => rfl
      | cons x u =>
        exfalso
        obtain ⟨a, d, e⟩ : ∃ a d, x :: u = a ++ [d] := by
          rcases List.eq_nil_or_concat (x :: u) with h | ⟨a, d, h⟩
          · simp at h
          · exact ⟨a, d, by simpa using h⟩
        have := Props.Markup.strip_last (s := '#' :: t) (cs := '#' :: a) (c := d) (by rw [hu, e]; rfl)
        exact hx ⟨d, by rw [e]; simp, this⟩
  have all : ∀ xs : List Str, (∀ l ∈ xs, ∃ t, l = '#' :: t) → ∀ (first : Bool) (fs : Str) (width : Int),
      formatComment cfg false first fs width xs = .ok (xs.map strip) := by
    intro xs hxs first fs width
    simp only [formatComment, hoff, Bool.not_false, if_true, Bool.false_eq_true, if_false, Except.ok.injEq, List.map_map]
    refine List.map_congr_left fun l hl => ?_
    obtain ⟨t, rfl⟩ := hxs l hl
    exact line t
  intro first width out hout
  rw [all ls fun l hl => (h l hl).1] at hout
  injection hout with hout
  subst hout
  refine ⟨?_, ?_⟩
  · intro l hl
    obtain ⟨l', hl', rfl⟩ := List.mem_map.1 hl
    exact (h l' hl').2
  · intro width'
    rw [all _ ?_, all ls fun l hl => (h l hl).1]
    · simp [List.map_map, Function.comp_def, strip_strip]
    · intro l hl
      obtain ⟨l', hl', rfl⟩ := List.mem_map.1 hl
      obtain ⟨t, rfl⟩ := (h l' hl').1
      exact ⟨_, (line t).symm⟩

/-- A computable test for lines of words. -/
def proseLineB (cfg : Cfg) (l : Str) : Bool :=
  let t := l.dropWhile (· == '#')
  startsWith ['#'] l && decide ((l.takeWhile (· == '#')).length < cfg.hashrulerMin) && (words t).all proseWord && !(words t).isEmpty &&
    strip t == join [' '] (words t)

theorem proseLine_of {cfg : Cfg} {l : Str} (h : proseLineB cfg l = true) : ProseLine cfg l := by
  simp only [proseLineB, Bool.and_eq_true, decide_eq_true_eq, List.all_eq_true, Bool.not_eq_true', List.isEmpty_eq_false_iff,
    beq_iff_eq] at h
  obtain ⟨⟨⟨⟨h1, h2⟩, h3⟩, h4⟩, h5⟩ := h
  have e := List.takeWhile_append_dropWhile (p := fun c => c == '#') (l := l)
  have hrep : l.takeWhile (· == '#') = List.replicate (l.takeWhile (· == '#')).length '#' := by
    refine List.eq_replicate_iff.2 ⟨rfl, fun c hc => ?_⟩
    have := List.all_eq_true.1 (List.all_takeWhile (l := l) (p := fun c => c == '#')) c hc
    simpa using this
  have hpos : (l.takeWhile (· == '#')).length ≠ 0 := by
    cases l with
    | nil => simp [startsWith, stripPrefix?] at h1
    | cons c l =>
      simp only [startsWith, stripPrefix?] at h1
      split at h1
      · rename_i hc
        rw [List.takeWhile_cons_of_pos (by simp [← hc])]
        simp
      · simp at h1
  refine ⟨(l.takeWhile (· == '#')).length - 1, l.dropWhile (· == '#'), ?_, by omega, words (l.dropWhile (· == '#')), h4, h3, h5⟩
  rw [Nat.sub_add_cancel (by omega), ← hrep, e]

end Verif.Markup
