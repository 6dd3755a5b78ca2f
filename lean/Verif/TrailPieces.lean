import Verif.Trail

/-!
# The texts that are written have no blanks at line ends
-/

namespace Verif.Layout
open Verif Py Lex Parse

/-! ## Where texts come from -/

/-- A line of a comment comes out of `formatComment`; a word is the normalized spelling of a
token, or another case of a spelling on one line. -/
structure Origin (cfg : Cfg) (P : Token → Prop) (p : Piece) : Prop where
  line : p.kind = .line → ∃ ex first fs width ss ls, Markup.formatComment cfg.markup ex first fs width ss = .ok ls ∧
    p.text ∈ ls ∧ (∀ l ∈ ls, '\n' ∉ l) ∧ ∀ s ∈ ss, ∃ t, P t ∧ t.type = .comment ∧ s = t.spelling
  bracket : p.kind = .bracket → ∃ t, P t ∧ t.type = .bracketComment ∧ p.text = Text.normalizeLineEndings t.spelling
  word : p.kind = .word → ∃ t, P t ∧ (p.text = Text.normalizeLineEndings t.spelling ∨
    (flatSpelling t.spelling = true ∧ (p.text = lower t.spelling ∨ p.text = upper t.spelling)))

section
set_option linter.unusedSectionVars false
variable {cfg : Cfg} {P : Token → Prop} (hclean : Markup.CleanCfg cfg.markup)
include hclean

mutual
theorem origin_node : ∀ (b : Box) (c : Cur) (l : Laid) (o : Cur) (parent : Option Str) (ps : List Piece),
    tidy b = true → EveryTok P b → Placed cfg b c l o → pieces cfg parent l = .ok ps → ∀ p ∈ ps, Origin cfg P p
  | .mk ty a pk kids, c, .mk ty' a' pk' info lines kids', o, parent, ps, ht, hf, hp, h => by
    simp only [tidy, Bool.and_eq_true] at ht
    simp only [EveryTok] at hf
    simp only [Placed] at hp
    obtain ⟨e1, e2, e3, e4, -, hp⟩ := hp
    subst e1; subst e2; subst e3
    have group : ∀ step prev c', PlacedL cfg step prev c' kids kids' o → ∀ q,
        piecesL cfg q kids' = .ok ps → ∀ p ∈ ps, Origin cfg P p :=
      fun step prev c' hp q h => origin_list step kids prev c' kids' o q ps ht.2 hf.2 hp h
    have other : ∀ {p : Piece}, p.kind ≠ .line → p.kind ≠ .bracket → p.kind ≠ .word → Origin cfg P p :=
      fun h1 h2 h3 => ⟨fun h => absurd h h1, fun h => absurd h h2, fun h => absurd h h3⟩
    have scalar :
        (∀ t text, headTok pk' = .ok t → scalarText cfg ty' parent t = .ok text → Origin cfg P ⟨kindOf ty', info.pos, text⟩) →
        (∃ t, headTok pk' = .ok t ∧ (flow c (Text.normalizeLineEndings t.spelling)).2 ≤ info.colext ∧
          kids.length ≤ 1 ∧ (∀ k ∈ kids, k.ty = .comment) ∧ (∀ k ∈ kids', k.colext ≤ info.colext) ∧
          PlacedL cfg Step (some (.mk ty' a' pk' [])) (flow c (Text.normalizeLineEndings t.spelling)).1 kids kids' o) →
        (headTok pk' >>= fun t => scalarText cfg ty' parent t >>= fun text =>
          check (decide (kids'.length ≤ 1) && kids'.all (fun k => k.ty == .comment)) >>= fun _ =>
          piecesL cfg none kids' >>= fun ps => Except.ok (⟨kindOf ty', info.pos, text⟩ :: ps)) = Except.ok ps →
        ∀ p ∈ ps, Origin cfg P p := by
      intro hw hp h
      simp only [bind_ok, check_ok, Except.ok.injEq] at h
      obtain ⟨t, ht', text, hx, -, -, p2, hp2, rfl⟩ := h
      obtain ⟨t', _, _, _, hc, _, hpl⟩ := hp
      intro p hm
      rcases List.mem_cons.1 hm with rfl | hm
      · exact hw t text ht' hx
      · exact origin_list _ kids _ _ kids' o none p2 ht.2 hf.2 hpl hp2 p hm
    have head : ∀ {t : Token}, headTok pk' = .ok t → P t ∧ headSpelling pk' = t.spelling := by
      intro t h
      unfold headTok at h
      split at h <;> simp at h
      subst h
      exact ⟨hf.1 _ (by simp), rfl⟩
    have plain : ∀ {t : Token} {text : Str}, headTok pk' = .ok t → text = Text.normalizeLineEndings t.spelling →
        Origin cfg P ⟨.word, info.pos, text⟩ := by
      intro t text h1 h2
      exact ⟨fun h => by simp at h, fun h => by simp at h, fun _ => ⟨t, (head h1).1, Or.inl h2⟩⟩
    have cased : tidyHere .keyword pk' kids = true → ∀ {t : Token} {text : Str}, headTok pk' = .ok t →
        scalarText cfg .keyword parent t = .ok text → Origin cfg P ⟨.word, info.pos, text⟩ := by
      intro hti t text h1 h2
      have hfl : flatSpelling t.spelling = true := by rw [← (head h1).2]; exact hti
      refine ⟨fun h => by simp at h, fun h => by simp at h, fun _ => ⟨t, (head h1).1, ?_⟩⟩
      simp only [scalarText] at h2
      split at h2
      · simp only [Except.ok.injEq] at h2; exact Or.inr ⟨hfl, Or.inl h2.symm⟩
      · split at h2
        · simp only [Except.ok.injEq] at h2; exact Or.inr ⟨hfl, Or.inr h2.symm⟩
        · simp only [Except.ok.injEq] at h2; exact Or.inl h2.symm
    cases ty' <;> simp only [pieces] at h hp
    case lparen =>
      simp only [Except.ok.injEq] at h; subst h
      intro p hm; simp only [List.mem_singleton] at hm; subst hm; exact other (by simp) (by simp) (by simp)
    case rparen =>
      simp only [Except.ok.injEq] at h; subst h
      intro p hm; simp only [List.mem_singleton] at hm; subst hm; exact other (by simp) (by simp) (by simp)
    case whitespace => simp only [Except.ok.injEq] at h; subst h; simp
    case onoff => simp at h
    case comment =>
      cases hb : bracketOf pk' with
      | some t =>
        simp only [hb, Except.ok.injEq] at h
        subst h
        intro p hm
        simp only [List.mem_singleton] at hm
        subst hm
        refine ⟨fun h => by simp at h, fun _ => ⟨t, ?_⟩, fun h => by simp at h⟩
        unfold bracketOf at hb
        split at hb
        · split at hb
          · rename_i hty
            simp only [Option.some.injEq] at hb
            subst hb
            exact ⟨hf.1 _ (by simp), hty, rfl⟩
          · simp at hb
        · simp at hb
      | none =>
        simp only [hb, Except.ok.injEq] at h
        subst h
        obtain ⟨-, hp⟩ := hp
        rw [hb] at hp
        simp only at hp
        obtain ⟨ts, last, hts, hfc, -⟩ := hp
        intro p hm
        obtain ⟨hk, hl⟩ := linePieces_mem hm
        refine ⟨fun _ => ?_, fun h => by rw [hk] at h; simp at h, fun h => by rw [hk] at h; simp at h⟩
        refine ⟨_, _, _, _, _, _, hfc, hl, comment_oneLine hclean hb (by simpa [tidyHere] using ht.1) hts hfc, ?_⟩
        intro s hs
        simp only [List.mem_map, List.mem_filter] at hs
        obtain ⟨u, ⟨hu, hc⟩, rfl⟩ := hs
        refine ⟨u, hf.1 u ?_, by simpa [isComment] using hc, rfl⟩
        rw [commentToks_mem hts]; exact hu
    case funname => exact scalar (fun _ _ _ _ => other (by simp [kindOf]) (by simp [kindOf]) (by simp [kindOf])) hp h
    case argument =>
      refine scalar (fun t text h1 h2 => plain h1 ?_) hp h
      simp only [scalarText, Except.ok.injEq] at h2; exact h2.symm
    case keyword => exact scalar (fun t text h1 h2 => cased ht.1 h1 h2) hp h
    case flag => exact scalar (fun t text h1 h2 => cased ht.1 h1 h2) hp h
    case atword =>
      refine scalar (fun t text h1 h2 => plain h1 ?_) hp h
      simp only [scalarText, Except.ok.injEq] at h2; exact h2.symm
    all_goals exact group _ _ _ hp.2 _ h
theorem origin_list : ∀ (step : Option Box → Cur → Box → Cur → Prop) (bs : List Box) (prev : Option Box) (c : Cur)
    (ls : List Laid) (o : Cur) (parent : Option Str) (ps : List Piece), tidyL bs = true → EveryTokL P bs →
    PlacedL cfg step prev c bs ls o → piecesL cfg parent ls = .ok ps → ∀ p ∈ ps, Origin cfg P p
  | step, [], prev, c, ls, o, parent, ps, _, _, hp, h => by
    simp only [PlacedL] at hp
    obtain ⟨rfl, _⟩ := hp
    simp only [piecesL, Except.ok.injEq] at h
    subst h; simp
  | step, b :: bs, prev, c, [], o, parent, ps, _, _, hp, h => by simp [PlacedL] at hp
  | step, b :: bs, prev, c, l :: ls, o, parent, ps, ht, hf, hp, h => by
    simp only [PlacedL] at hp
    simp only [tidyL, EveryTokL, Bool.and_eq_true] at ht hf
    obtain ⟨c', o', _, h1, h2⟩ := hp
    simp only [piecesL, bind_ok, Except.ok.injEq] at h
    obtain ⟨p1, hp1, p2, hp2, rfl⟩ := h
    intro p hm
    rcases List.mem_append.1 hm with hm | hm
    · exact origin_node b c' l o' parent p1 ht.1 hf.1 h1 hp1 p hm
    · exact origin_list step bs (some b) o' ls o parent p2 ht.2 hf.2 h2 hp2 p hm
end
end

/-! ## Blanks before line feeds -/

/-- A blank that is no line feed. -/
def trailing (c : Char) : Bool := isSpace c && c != '\n'

/-- No line feed comes after a blank; `prev` is the character before the text. -/
def trimmed (prev : Char) : Str → Bool
  | [] => true
  | c :: cs => (c != '\n' || !trailing prev) && trimmed c cs

/-- The last character of a text after `prev`. -/
def lastChar (prev : Char) (s : Str) : Char := s.getLast?.getD prev

theorem lastChar_cons (p c : Char) (s : Str) : lastChar p (c :: s) = lastChar c s := by
  simp only [lastChar, List.getLast?_cons]; rfl

theorem trimmed_append (p : Char) (a b : Str) : trimmed p (a ++ b) = (trimmed p a && trimmed (lastChar p a) b) := by
  induction a generalizing p with
  | nil => rfl
  | cons c a ih => simp only [List.cons_append, trimmed, ih, lastChar_cons, Bool.and_assoc]

theorem lastChar_append {p : Char} {a b : Str} (h : b ≠ []) : lastChar p (a ++ b) = lastChar p b := by
  simp only [lastChar, List.getLast?_append]
  cases hb : b.getLast? with
  | none => exact absurd (List.getLast?_eq_none_iff.1 hb) h
  | some c => rfl

theorem trimmed_flat {p : Char} {s : Str} (h : '\n' ∉ s) : trimmed p s = true := by
  induction s generalizing p with
  | nil => rfl
  | cons c s ih =>
    simp only [List.mem_cons, not_or] at h
    simp [trimmed, ih h.2, Ne.symm h.1]

theorem trimmed_iff {p : Char} {s : Str} : trimmed p s = true ↔
    (s.head? = some '\n' → trailing p = false) ∧ ∀ u b v, s = u ++ b :: '\n' :: v → trailing b = false := by
  induction s generalizing p with
  | nil => simp [trimmed]
  | cons c s ih =>
    simp only [trimmed, Bool.and_eq_true, ih, List.head?_cons, Option.some.injEq, Bool.or_eq_true, bne_iff_ne, ne_eq,
      Bool.not_eq_true']
    constructor
    · rintro ⟨h1, h2, h3⟩
      refine ⟨fun e => h1.resolve_left (fun h => h e), ?_⟩
      intro u b v e
      cases u with
      | nil =>
        simp only [List.nil_append, List.cons.injEq] at e
        obtain ⟨rfl, rfl⟩ := e
        exact h2 rfl
      | cons x u =>
        simp only [List.cons_append, List.cons.injEq] at e
        exact h3 u b v e.2
    · rintro ⟨h1, h2⟩
      refine ⟨?_, ?_, fun u b v e => h2 (c :: u) b v (by rw [e]; rfl)⟩
      · by_cases hc : c = '\n'
        · exact Or.inr (h1 hc)
        · exact Or.inl hc
      · intro e
        obtain ⟨s', rfl⟩ : ∃ s', s = '\n' :: s' := by
          cases s with
          | nil => simp at e
          | cons x s => simp only [List.head?_cons, Option.some.injEq] at e; exact ⟨s, by rw [e]⟩
        exact h2 [] c s' rfl

/-- A text that can be written anywhere: it starts and ends with a character that is not
blank, and no line of it ends in a blank. -/
structure TrimText (s : Str) : Prop where
  start : ∃ c cs, s = c :: cs ∧ c ≠ '\n'
  inside : ∀ u b v, s = u ++ b :: '\n' :: v → trailing b = false
  stop : Wrap.Trim s

theorem trimmed_feeds (p : Char) (hp : trailing p = false) (n : Nat) :
    trimmed p (List.replicate n ['\n']).flatten = true := by
  induction n generalizing p with
  | zero => rfl
  | succ n ih =>
    simp only [List.replicate_succ, List.flatten_cons, List.singleton_append, trimmed, hp, Bool.not_false,
      Bool.or_true, Bool.true_and]
    exact ih '\n' rfl

theorem trimmed_space {p : Char} (hp : trailing p = false) (a b : Cur) : trimmed p (space ['\n'] a b) = true := by
  have hb : ∀ (q : Char) (n : Nat), trimmed q (List.replicate n ' ') = true := fun q n =>
    trimmed_flat (fun h => absurd (List.eq_of_mem_replicate h) (by decide))
  unfold space
  split
  · rw [trimmed_append, trimmed_feeds p hp, Bool.true_and]
    exact hb _ _
  · exact hb _ _

/-- Written texts. -/
theorem trimmed_weave (ps : List Piece) (h : ∀ p ∈ ps, TrimText p.text) (c : Cur) (q : Char) (hq : trailing q = false) :
    trimmed q (weave ['\n'] c ps) = true ∧ trailing (lastChar q (weave ['\n'] c ps)) = false := by
  induction ps generalizing c q with
  | nil => exact ⟨rfl, hq⟩
  | cons p ps ih =>
    have hp := h p (by simp)
    simp only [weave, withEndings_feed]
    have hne : p.text ≠ [] := by
      obtain ⟨d, ds, e, _⟩ := hp.start
      rw [e]; simp
    have h1 : trimmed q (space ['\n'] c p.pos ++ p.text) = true := by
      rw [trimmed_append, trimmed_space hq, Bool.true_and, trimmed_iff]
      refine ⟨?_, hp.inside⟩
      obtain ⟨d, ds, e, hd⟩ := hp.start
      rw [e]
      intro h'
      simp only [List.head?_cons, Option.some.injEq] at h'
      exact absurd h' hd
    have h2 : trailing (lastChar q (space ['\n'] c p.pos ++ p.text)) = false := by
      rw [lastChar_append hne]
      obtain ⟨u, d, e⟩ : ∃ u d, p.text = u ++ [d] := ⟨_, _, (List.dropLast_concat_getLast hne).symm⟩
      have := hp.stop u d e
      rw [e]
      simp [lastChar, trailing, this]
    obtain ⟨h3, h4⟩ := ih (fun p hp => h p (by simp [hp])) p.stop _ h2
    rw [trimmed_append, h1, h3]
    refine ⟨rfl, ?_⟩
    have : lastChar q (space ['\n'] c p.pos ++ p.text ++ weave ['\n'] p.stop ps) =
        lastChar (lastChar q (space ['\n'] c p.pos ++ p.text)) (weave ['\n'] p.stop ps) := by
      simp only [lastChar, List.getLast?_append (l := space ['\n'] c p.pos ++ p.text)]
      cases (weave ['\n'] p.stop ps).getLast? <;> rfl
    rw [this]
    exact h4

/-! ## Lines -/

theorem withEndings_append (endl a b : Str) : withEndings endl (a ++ b) = withEndings endl a ++ withEndings endl b := by
  induction a with
  | nil => rfl
  | cons x a ih => simp only [List.cons_append, withEndings, ih, List.append_assoc]

theorem withEndings_noFeed (endl s : Str) (h : '\n' ∉ s) : withEndings endl s = s := by
  induction s with
  | nil => rfl
  | cons x s ih =>
    simp only [List.mem_cons, not_or] at h
    rw [withEndings, if_neg (Ne.symm h.1), ih h.2]; rfl

theorem endings_space (endl : Str) (a b : Cur) : withEndings endl (space ['\n'] a b) = space endl a b := by
  have hb : ∀ n, withEndings endl (List.replicate n ' ') = List.replicate n ' ' := fun n =>
    withEndings_noFeed _ _ (fun h => absurd (List.eq_of_mem_replicate h) (by decide))
  have hf : ∀ n, withEndings endl (List.replicate n ['\n']).flatten = (List.replicate n endl).flatten := by
    intro n
    induction n with
    | zero => rfl
    | succ n ih =>
      simp only [List.replicate_succ, List.flatten_cons, withEndings_append, ih]
      simp [withEndings]
  unfold space
  split
  · rw [withEndings_append, hf, hb]
  · exact hb _

/-- The output is the output with line feeds, with the configured line ends. -/
theorem weave_feeds (endl : Str) (c : Cur) (ps : List Piece) : weave endl c ps = withEndings endl (weave ['\n'] c ps) := by
  induction ps generalizing c with
  | nil => rfl
  | cons p ps ih => simp only [weave, withEndings_append, endings_space, withEndings_feed, ih]

/-- A text whose lines do not end in blanks, cut into lines. -/
theorem lines_of (s cur : Str) (hc : '\n' ∉ cur) (h : trimmed (lastChar '\n' cur) (s ++ ['\n']) = true) :
    ∃ lines : List Str, cur ++ s ++ ['\n'] = (lines.map (· ++ ['\n'])).flatten ∧
      ∀ l ∈ lines, '\n' ∉ l ∧ ∀ u c, l = u ++ [c] → trailing c = false := by
  have last : ∀ cur : Str, trailing (lastChar '\n' cur) = false → ∀ u c, cur = u ++ [c] → trailing c = false := by
    rintro cur h u c rfl
    simpa [lastChar] using h
  induction s generalizing cur with
  | nil =>
    simp only [List.nil_append, trimmed, bne_self_eq_false, Bool.false_or, Bool.and_true, Bool.not_eq_true'] at h
    exact ⟨[cur], by simp, by simpa using ⟨hc, last cur h⟩⟩
  | cons x s ih =>
    simp only [List.cons_append, trimmed, Bool.and_eq_true] at h
    by_cases hx : x = '\n'
    · subst hx
      obtain ⟨h1, h2⟩ := h
      obtain ⟨lines, e, hl⟩ := ih [] (by simp) h2
      refine ⟨cur :: lines, ?_, ?_⟩
      · simp only [List.map_cons, List.flatten_cons, ← e]; simp
      · intro l hm
        rcases List.mem_cons.1 hm with rfl | hm
        · exact ⟨hc, last l (by simpa using h1)⟩
        · exact hl l hm
    · have e : lastChar '\n' (cur ++ [x]) = x := by simp [lastChar]
      obtain ⟨lines, e, hl⟩ := ih (cur ++ [x]) (by simp [hc, Ne.symm hx]) (by rw [e]; exact h.2)
      exact ⟨lines, by rw [← e]; simp, hl⟩

end Verif.Layout
