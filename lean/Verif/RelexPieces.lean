import Verif.RelexWeave
import Verif.Cover
import Verif.Framed

/-!
# The texts that are written stand alone
-/

namespace Verif.Layout
open Verif Py Lex Parse

/-! ## Names are followed by parentheses -/

theorem named_append {a b : List Piece} (ha : Named a) (hb : Named b) : Named (a ++ b) := by
  induction a with
  | nil => exact hb
  | cons p a ih =>
    refine ⟨fun hk => ?_, ih ha.2⟩
    obtain ⟨q, hq, hk'⟩ := ha.1 hk
    refine ⟨q, ?_, hk'⟩
    cases a with
    | nil => simp at hq
    | cons x xs => simpa using hq

theorem named_lines (c : Cur) (ls : List Str) : Named (linePieces c ls) := by
  induction ls generalizing c with
  | nil => trivial
  | cons l ls ih => exact ⟨fun h => by simp at h, ih _⟩

section
variable {cfg : Cfg}

mutual
theorem named_node : ∀ (b : Box) (c : Cur) (l : Laid) (o : Cur) (parent : Option Str) (ps : List Piece),
    tidy b = true → framed b = true → b.ty ≠ .funname → Placed cfg b c l o → pieces cfg parent l = .ok ps → Named ps
  | .mk ty a pk kids, c, .mk ty' a' pk' info lines kids', o, parent, ps, ht, hf, hn, hp, h => by
    simp only [tidy, Bool.and_eq_true] at ht
    simp only [framed, Bool.and_eq_true] at hf
    simp only [Placed] at hp
    simp only [Box.ty] at hn
    obtain ⟨e1, e2, e3, e4, -, hp⟩ := hp
    subst e1; subst e2; subst e3
    have group : (∀ k ∈ kids, k.ty ≠ .funname) → ∀ step prev c', PlacedL cfg step prev c' kids kids' o → ∀ q,
        piecesL cfg q kids' = .ok ps → Named ps :=
      fun hk step prev c' hp q h => named_list step kids prev c' kids' o q ps ht.2 hf.2 hk hp h
    have inner : (∀ k ∈ kids, isInner k.ty = true) → ∀ k ∈ kids, k.ty ≠ .funname := by
      intro h k hk e
      have := h k hk
      rw [e] at this
      simp [isInner] at this
    have scalar : kindOf ty' = .word →
        (∃ t, headTok pk' = .ok t ∧ (flow c (Text.normalizeLineEndings t.spelling)).2 ≤ info.colext ∧
          kids.length ≤ 1 ∧ (∀ k ∈ kids, k.ty = .comment) ∧ (∀ k ∈ kids', k.colext ≤ info.colext) ∧
          PlacedL cfg Step (some (.mk ty' a' pk' [])) (flow c (Text.normalizeLineEndings t.spelling)).1 kids kids' o) →
        (headTok pk' >>= fun t => scalarText cfg ty' parent t >>= fun text =>
          check (decide (kids'.length ≤ 1) && kids'.all (fun k => k.ty == .comment)) >>= fun _ =>
          piecesL cfg none kids' >>= fun ps => Except.ok (⟨kindOf ty', info.pos, text⟩ :: ps)) = Except.ok ps →
        Named ps := by
      intro hty hp h
      simp only [bind_ok, check_ok, Except.ok.injEq] at h
      obtain ⟨t, ht', text, hx, -, -, p2, hp2, rfl⟩ := h
      obtain ⟨t', _, _, _, hc, _, hpl⟩ := hp
      refine ⟨fun hk => by rw [hty] at hk; simp at hk, ?_⟩
      exact named_list _ kids _ _ kids' o none p2 ht.2 hf.2 (fun k hk => by rw [hc k hk]; simp) hpl hp2
    cases ty' <;> simp only [pieces] at h hp
    case lparen => simp only [Except.ok.injEq] at h; subst h; exact ⟨fun h => by simp at h, trivial⟩
    case rparen => simp only [Except.ok.injEq] at h; subst h; exact ⟨fun h => by simp at h, trivial⟩
    case whitespace => simp only [Except.ok.injEq] at h; subst h; exact trivial
    case onoff => simp at h
    case comment =>
      split at h
      · simp only [Except.ok.injEq] at h; subst h; exact ⟨fun h => by simp at h, trivial⟩
      · simp only [Except.ok.injEq] at h; subst h; exact named_lines _ _
    case funname => exact absurd rfl hn
    case argument => exact scalar rfl hp h
    case keyword => exact scalar rfl hp h
    case flag => exact scalar rfl hp h
    case atword => exact scalar rfl hp h
    case statement =>
      have hf1 := hf.1
      have ht2 := ht.2
      have hf2 := hf.2
      clear group scalar inner
      cases kids with
      | nil => simp [framedHere] at hf1
      | cons fn kids =>
        cases kids with
        | nil => simp [framedHere] at hf1
        | cons lp rest =>
          simp only [framedHere, Bool.and_eq_true, beq_iff_eq, List.all_eq_true] at hf1
          simp only [tidyL, framedL, Bool.and_eq_true] at ht2 hf2
          obtain ⟨⟨⟨hfn, hlp⟩, hrest⟩, -⟩ := hf1
          have hpl := hp.2
          match kids', hpl, h with
          | lf :: ll :: lr, hpl, h =>
            simp only [PlacedL] at hpl
            obtain ⟨c1, o1, _, p1, c2, o2, _, p2, p3⟩ := hpl
            simp only [piecesL, bind_ok, Except.ok.injEq] at h
            obtain ⟨q1, hq1, q23, ⟨q2, hq2, q3, hq3, rfl⟩, rfl⟩ := h
            have hr := named_list _ rest _ _ lr o _ q3 ht2.2.2 hf2.2.2 (fun k hk e => by
              have := hrest k hk
              rw [e] at this
              simp [isInner] at this) p3 hq3
            have e1 : ∃ pos text, q1 = [⟨.name, pos, text⟩] := by
              cases fn with
              | mk fty fa fpk fk =>
                simp only [Box.ty] at hfn
                subst hfn
                cases lf with
                | mk ty2 a2 pk2 info2 lines2 kids2 =>
                  simp only [Placed] at p1
                  obtain ⟨rfl, rfl, rfl, -, -, t, _, _, _, _, _, hk⟩ := p1
                  simp only [tidy, tidyHere, Bool.and_eq_true, List.isEmpty_iff] at ht2
                  obtain ⟨⟨rfl, -⟩, -⟩ := ht2
                  simp only [PlacedL] at hk
                  obtain ⟨rfl, -⟩ := hk
                  simp only [pieces, piecesL, bind_ok, check_ok, Except.ok.injEq] at hq1
                  obtain ⟨t', _, text, _, -, -, ps2, rfl, rfl⟩ := hq1
                  exact ⟨_, _, rfl⟩
            have e2 : ∃ pos text, q2 = [⟨.lparen, pos, text⟩] := by
              cases lp with
              | mk fty fa fpk fk =>
                simp only [Box.ty] at hlp
                subst hlp
                cases ll with
                | mk ty2 a2 pk2 info2 lines2 kids2 =>
                  simp only [Placed] at p2
                  obtain ⟨rfl, rfl, rfl, -⟩ := p2
                  simp only [pieces, Except.ok.injEq] at hq2
                  exact ⟨_, _, hq2.symm⟩
            obtain ⟨pos1, t1, rfl⟩ := e1
            obtain ⟨pos2, t2, rfl⟩ := e2
            exact ⟨fun _ => ⟨_, rfl, rfl⟩, fun h => by simp at h, hr⟩
          | [], hpl, h => simp [PlacedL] at hpl
          | [lf], hpl, h =>
            simp only [PlacedL] at hpl
            obtain ⟨_, _, _, _, hf⟩ := hpl
            exact hf.elim
    case atwordStatement =>
      refine group ?_ _ _ _ hp.2 _ h
      have hf1 := hf.1
      intro k hk e
      cases kids with
      | nil => simp at hk
      | cons w rest =>
        simp only [framedHere, Bool.and_eq_true, beq_iff_eq, List.all_eq_true] at hf1
        rcases List.mem_cons.1 hk with rfl | hk
        · rw [hf1.1] at e; simp at e
        · rw [hf1.2 k hk] at e; simp at e
    case argGroup => exact group (inner (by simpa [framedHere] using hf.1)) _ _ _ hp.2 _ h
    case parenGroup => exact group (inner (by simpa [framedHere] using hf.1)) _ _ _ hp.2 _ h
    case body =>
      refine group ?_ _ _ _ hp.2 _ h
      have hf1 := hf.1
      simp only [framedHere, List.all_eq_true] at hf1
      intro k hk e
      have := hf1 k hk
      rw [e] at this
      simp [isBodyPart] at this
    case flowControl =>
      refine group ?_ _ _ _ hp.2 _ h
      have hf1 := hf.1
      simp only [framedHere, List.all_eq_true] at hf1
      intro k hk e
      have := hf1 k hk
      rw [e] at this
      simp at this
    case pargGroup => exact group (inner (by simpa [framedHere] using hf.1)) _ _ _ hp.2 _ h
    case flagGroup => exact group (inner (by simpa [framedHere] using hf.1)) _ _ _ hp.2 _ h
    case kwargGroup => exact group (inner (by simpa [framedHere] using hf.1)) _ _ _ hp.2 _ h
theorem named_list : ∀ (step : Option Box → Cur → Box → Cur → Prop) (bs : List Box) (prev : Option Box) (c : Cur)
    (ls : List Laid) (o : Cur) (parent : Option Str) (ps : List Piece), tidyL bs = true → framedL bs = true →
    (∀ k ∈ bs, k.ty ≠ .funname) → PlacedL cfg step prev c bs ls o → piecesL cfg parent ls = .ok ps → Named ps
  | step, [], prev, c, ls, o, parent, ps, _, _, _, hp, h => by
    simp only [PlacedL] at hp
    obtain ⟨rfl, _⟩ := hp
    simp only [piecesL, Except.ok.injEq] at h
    subst h; exact trivial
  | step, b :: bs, prev, c, [], o, parent, ps, _, _, _, hp, h => by simp [PlacedL] at hp
  | step, b :: bs, prev, c, l :: ls, o, parent, ps, ht, hf, hk, hp, h => by
    simp only [PlacedL] at hp
    simp only [tidyL, framedL, Bool.and_eq_true] at ht hf
    obtain ⟨c', o', _, h1, h2⟩ := hp
    simp only [piecesL, bind_ok, Except.ok.injEq] at h
    obtain ⟨p1, hp1, p2, hp2, rfl⟩ := h
    exact named_append (named_node b c' l o' parent p1 ht.1 hf.1 (hk b (by simp)) h1 hp1)
      (named_list step bs (some b) o' ls o parent p2 ht.2 hf.2 (fun k h => hk k (by simp [h])) h2 hp2)
end

/-! ## The tokens of boxes -/

mutual
/-- All tokens of all boxes. -/
def EveryTok (P : Token → Prop) : Box → Prop
  | .mk _ _ pk kids => (∀ t ∈ toksL pk, P t) ∧ EveryTokL P kids
/-- Of a list. -/
def EveryTokL (P : Token → Prop) : List Box → Prop
  | [] => True
  | b :: bs => EveryTok P b ∧ EveryTokL P bs
end

theorem everyTokL_iff {P : Token → Prop} {bs : List Box} : EveryTokL P bs ↔ ∀ b ∈ bs, EveryTok P b := by
  induction bs with
  | nil => simp [EveryTokL]
  | cons b bs ih => simp [EveryTokL, ih]

mutual
theorem everyTok_node {P : Token → Prop} : ∀ n : Node, (∀ t ∈ n.toks, P t) → ∀ b ∈ lockL cfg (boxOf n), EveryTok P b
  | .tok t, _, b, hb => by simp [boxOf, lockL] at hb
  | .node ty a cs, ht, b, hb => by
    simp only [toks_node] at ht
    have ih := everyTok_list cs ht
    simp only [boxOf] at hb
    split at hb
    · simp [lockL] at hb
    · simp only [lockL, List.mem_singleton] at hb
      subst hb
      simp only [lock]
      split
      · refine ⟨ht, everyTokL_iff.2 ?_⟩
        intro b hb
        exact ih b ((Props.ArgSort.sort_perm _ _ _).mem_iff.1 hb)
      · exact ⟨ht, everyTokL_iff.2 ih⟩
theorem everyTok_list {P : Token → Prop} : ∀ cs : List Node, (∀ t ∈ toksL cs, P t) →
    ∀ b ∈ lockL cfg (boxesOf cs), EveryTok P b
  | [], _, b, hb => by simp [boxesOf, lockL] at hb
  | c :: cs, ht, b, hb => by
    simp only [boxesOf, lockL_append, List.mem_append] at hb
    rcases hb with hb | hb
    · exact everyTok_node c (fun t h => ht t (by simp [h])) b hb
    · exact everyTok_list cs (fun t h => ht t (by simp [h])) b hb
end

/-! ## Comments -/

theorem commentToks_mem {pk : List Node} {ts : List Token} (h : commentToks pk = .ok ts) : toksL pk = ts := by
  induction pk generalizing ts with
  | nil => simp only [commentToks, Except.ok.injEq] at h; subst h; rfl
  | cons n ns ih =>
    cases n with
    | node => simp [commentToks] at h
    | tok t =>
      simp only [commentToks] at h
      split at h
      case h_2 => simp at h
      rename_i a ha
      simp only [Except.ok.injEq] at h
      subst h
      simp [ih ha]

/-- The sign of a comment, whatever comes after, does not start a bracket comment. -/
def NoOpener (s : Str) : Prop := (s.dropWhile (· == '#')).head? ≠ some '['

theorem rstrip_prefix (f : Char → Bool) (s : Str) : ∃ u, s = rstripBy f s ++ u := by
  unfold rstripBy
  obtain ⟨u, hu⟩ := List.dropWhile_suffix (l := s.reverse) f
  refine ⟨u.reverse, ?_⟩
  rw [← List.reverse_append, hu, List.reverse_reverse]

theorem rstrip_head {f : Char → Bool} {s : Str} {c : Char} (h : s.head? ≠ some c) : (rstripBy f s).head? ≠ some c := by
  intro e
  apply h
  obtain ⟨u, hu⟩ := rstrip_prefix f s
  rw [hu]
  cases hx : rstripBy f s with
  | nil => rw [hx] at e; simp at e
  | cons x xs => rw [hx] at e; simpa using e

/-- What is left of a comment after its sign. -/
theorem commentText_head {mcfg : Markup.Cfg} {t : Str} (h : NoOpener ('#' :: t)) :
    (Markup.commentText mcfg false ('#' :: t)).head? ≠ some '[' := by
  have hl : lstripBy Wrap.isWhite ('#' :: t) = '#' :: t := by
    have : Wrap.isWhite '#' = false := by decide
    simp [lstripBy, this]
  obtain ⟨u, hu⟩ := rstrip_prefix Wrap.isWhite ('#' :: t)
  have hd1 : ((Wrap.strip ('#' :: t)).drop 1).head? ≠ some '[' := by
    unfold Wrap.strip
    rw [hl]
    intro e
    generalize rstripBy Wrap.isWhite ('#' :: t) = r at *
    match r, hu, e with
    | x :: y :: r, hu, e =>
      simp at e hu
      apply h
      rw [hu.2, e]
      simp
  have hd2 : ((Wrap.strip ('#' :: t)).dropWhile (· == '#')).head? ≠ some '[' := by
    unfold Wrap.strip
    rw [hl]
    intro e
    apply h
    rw [hu, List.dropWhile_append]
    split
    · rename_i he; rw [List.isEmpty_iff] at he; rw [he] at e; simp at e
    · cases hx : (rstripBy Wrap.isWhite ('#' :: t)).dropWhile (· == '#') with
      | nil => rw [hx] at e; simp at e
      | cons x xs => rw [hx] at e; simpa using e
  unfold Markup.commentText
  simp only [Bool.false_eq_true, if_false]
  split
  · exact hd1
  · split
    · exact hd1
    · exact hd2

/-- The sign of explicit trailing comments. -/
def GoodSign (s : Str) : Prop := ∃ c r, s = '#' :: c :: r ∧ c ≠ '['

theorem comment_lines {mcfg : Markup.Cfg} {ex first : Bool} {fs : Str} {width : Int} {ss ls : List Str}
    (hg : GoodSign mcfg.explicitTrailing) (hs : ∀ s ∈ ss, (∃ t, s = '#' :: t) ∧ NoOpener s)
    (h : Markup.formatComment mcfg ex first fs width ss = .ok ls) :
    ∀ l ∈ ls, ∃ t, l = '#' :: t ∧ t.head? ≠ some '[' := by
  have hlit : ∀ l ∈ (ss.map (Markup.commentText mcfg ex)).map fun l =>
      (if ex = true then mcfg.explicitTrailing else S "#") ++ rstripBy Wrap.isWhite l, ∃ t, l = '#' :: t ∧ t.head? ≠ some '[' := by
    intro l hl
    obtain ⟨x, hx, rfl⟩ := List.mem_map.1 hl
    obtain ⟨y, hy, rfl⟩ := List.mem_map.1 hx
    obtain ⟨⟨t, rfl⟩, hno⟩ := hs y hy
    cases ex with
    | true =>
      obtain ⟨c, r, e, hc⟩ := hg
      simp only [if_true]
      rw [e]
      exact ⟨_, rfl, by simpa using hc⟩
    | false =>
      exact ⟨_, rfl, rstrip_head (commentText_head hno)⟩
  unfold Markup.formatComment at h
  simp only at h
  split at h
  · simp only [Except.ok.injEq] at h; subst h; exact hlit
  · split at h
    · simp only [Except.ok.injEq] at h; subst h; exact hlit
    · split at h
      · simp only [Except.ok.injEq] at h; subst h; exact hlit
      · split at h
        · simp at h
        · rename_i xs hx
          simp only [Except.ok.injEq] at h
          subst h
          intro l hl
          obtain ⟨x, hm, rfl⟩ := List.mem_map.1 hl
          cases ex with
          | true =>
            obtain ⟨c, r, e, hc⟩ := hg
            simp only [if_true]
            rw [e]
            exact ⟨_, rfl, by simpa using hc⟩
          | false =>
            refine ⟨Markup.spaces (x.take 1).length ++ x, rfl, ?_⟩
            cases x with
            | nil => simp [Markup.spaces]
            | cons y ys => simp [Markup.spaces, List.replicate_succ]

/-- What is known of the texts of comments. -/
def CommentPiece (P : Token → Prop) (p : Piece) : Prop :=
  (p.kind = .line → ∃ t, p.text = '#' :: t ∧ '\n' ∉ t ∧ t.head? ≠ some '[') ∧
  (p.kind = .bracket → ∃ t, P t ∧ t.type = .bracketComment ∧ p.text = Text.normalizeLineEndings t.spelling)

theorem linePieces_mem {p : Piece} {c : Cur} {ls : List Str} (h : p ∈ linePieces c ls) : p.kind = .line ∧ p.text ∈ ls := by
  induction ls generalizing c with
  | nil => simp [linePieces] at h
  | cons l ls ih =>
    simp only [linePieces, List.mem_cons] at h
    rcases h with rfl | h
    · simp
    · have := ih h
      exact ⟨this.1, List.mem_cons_of_mem _ this.2⟩

section
set_option linter.unusedSectionVars false
variable {P : Token → Prop} (hclean : Markup.CleanCfg cfg.markup) (hg : GoodSign cfg.markup.explicitTrailing)
  (hP : ∀ t, P t → t.type = .comment → (∃ s, t.spelling = '#' :: s) ∧ NoOpener t.spelling)
include hclean hg hP

mutual
theorem comment_node : ∀ (b : Box) (c : Cur) (l : Laid) (o : Cur) (parent : Option Str) (ps : List Piece),
    tidy b = true → EveryTok P b → Placed cfg b c l o → pieces cfg parent l = .ok ps → ∀ p ∈ ps, CommentPiece P p
  | .mk ty a pk kids, c, .mk ty' a' pk' info lines kids', o, parent, ps, ht, hf, hp, h => by
    simp only [tidy, Bool.and_eq_true] at ht
    simp only [EveryTok] at hf
    simp only [Placed] at hp
    obtain ⟨e1, e2, e3, e4, -, hp⟩ := hp
    subst e1; subst e2; subst e3
    have group : ∀ step prev c', PlacedL cfg step prev c' kids kids' o → ∀ q,
        piecesL cfg q kids' = .ok ps → ∀ p ∈ ps, CommentPiece P p :=
      fun step prev c' hp q h => comment_list step kids prev c' kids' o q ps ht.2 hf.2 hp h
    have other : ∀ {p : Piece}, p.kind ≠ .line → p.kind ≠ .bracket → CommentPiece P p :=
      fun h1 h2 => ⟨fun h => absurd h h1, fun h => absurd h h2⟩
    have scalar : 
        (∃ t, headTok pk' = .ok t ∧ (flow c (Text.normalizeLineEndings t.spelling)).2 ≤ info.colext ∧
          kids.length ≤ 1 ∧ (∀ k ∈ kids, k.ty = .comment) ∧ (∀ k ∈ kids', k.colext ≤ info.colext) ∧
          PlacedL cfg Step (some (.mk ty' a' pk' [])) (flow c (Text.normalizeLineEndings t.spelling)).1 kids kids' o) →
        (headTok pk' >>= fun t => scalarText cfg ty' parent t >>= fun text =>
          check (decide (kids'.length ≤ 1) && kids'.all (fun k => k.ty == .comment)) >>= fun _ =>
          piecesL cfg none kids' >>= fun ps => Except.ok (⟨kindOf ty', info.pos, text⟩ :: ps)) = Except.ok ps →
        ∀ p ∈ ps, CommentPiece P p := by
      intro hp h
      simp only [bind_ok, check_ok, Except.ok.injEq] at h
      obtain ⟨t, ht', text, hx, -, -, p2, hp2, rfl⟩ := h
      obtain ⟨t', _, _, _, hc, _, hpl⟩ := hp
      intro p hm
      rcases List.mem_cons.1 hm with rfl | hm
      · refine other ?_ ?_ <;> simp only [kindOf] <;> split <;> simp
      · exact comment_list _ kids _ _ kids' o none p2 ht.2 hf.2 hpl hp2 p hm
    cases ty' <;> simp only [pieces] at h hp
    case lparen =>
      simp only [Except.ok.injEq] at h; subst h
      intro p hm; simp only [List.mem_singleton] at hm; subst hm; exact other (by simp) (by simp)
    case rparen =>
      simp only [Except.ok.injEq] at h; subst h
      intro p hm; simp only [List.mem_singleton] at hm; subst hm; exact other (by simp) (by simp)
    case whitespace => simp only [Except.ok.injEq] at h; subst h; simp
    case onoff => simp at h
    case comment =>
      cases hb : bracketOf pk' with
      | some t =>
        simp only [hb, Except.ok.injEq] at h
        subst h
        intro p hm
        simp only [List.mem_singleton] at hm
        subst hm
        refine ⟨fun h => by simp at h, fun _ => ⟨t, ?_⟩⟩
        unfold bracketOf at hb
        split at hb
        · split at hb
          · rename_i hty
            simp only [Option.some.injEq] at hb
            subst hb
            exact ⟨hf.1 _ (by simp), hty, rfl⟩
          · simp at hb
        · simp at hb
      | none =>
        simp only [hb, Except.ok.injEq] at h
        subst h
        obtain ⟨-, hp⟩ := hp
        rw [hb] at hp
        simp only at hp
        obtain ⟨ts, last, hts, hfc, -⟩ := hp
        intro p hm
        obtain ⟨hk, hl⟩ := linePieces_mem hm
        refine ⟨fun _ => ?_, fun h => by rw [hk] at h; simp at h⟩
        obtain ⟨t, e, hh⟩ := comment_lines hg (by
          intro s hs
          simp only [List.mem_map, List.mem_filter] at hs
          obtain ⟨u, ⟨hu, hc⟩, rfl⟩ := hs
          refine hP u (hf.1 u ?_) ?_
          · rw [commentToks_mem hts]; exact hu
          · simpa [isComment] using hc) hfc p.text hl
        refine ⟨t, e, ?_, hh⟩
        have := comment_oneLine hclean hb (by simpa [tidyHere] using ht.1) hts hfc p.text hl
        rw [e] at this
        intro hn
        exact this (List.mem_cons_of_mem _ hn)
    case funname => exact scalar hp h
    case argument => exact scalar hp h
    case keyword => exact scalar hp h
    case flag => exact scalar hp h
    case atword => exact scalar hp h
    all_goals exact group _ _ _ hp.2 _ h
theorem comment_list : ∀ (step : Option Box → Cur → Box → Cur → Prop) (bs : List Box) (prev : Option Box) (c : Cur)
    (ls : List Laid) (o : Cur) (parent : Option Str) (ps : List Piece), tidyL bs = true → EveryTokL P bs →
    PlacedL cfg step prev c bs ls o → piecesL cfg parent ls = .ok ps → ∀ p ∈ ps, CommentPiece P p
  | step, [], prev, c, ls, o, parent, ps, _, _, hp, h => by
    simp only [PlacedL] at hp
    obtain ⟨rfl, _⟩ := hp
    simp only [piecesL, Except.ok.injEq] at h
    subst h; simp
  | step, b :: bs, prev, c, [], o, parent, ps, _, _, hp, h => by simp [PlacedL] at hp
  | step, b :: bs, prev, c, l :: ls, o, parent, ps, ht, hf, hp, h => by
    simp only [PlacedL] at hp
    simp only [tidyL, EveryTokL, Bool.and_eq_true] at ht hf
    obtain ⟨c', o', _, h1, h2⟩ := hp
    simp only [piecesL, bind_ok, Except.ok.injEq] at h
    obtain ⟨p1, hp1, p2, hp2, rfl⟩ := h
    intro p hm
    rcases List.mem_append.1 hm with hm | hm
    · exact comment_node b c' l o' parent p1 ht.1 hf.1 h1 hp1 p hm
    · exact comment_list step bs (some b) o' ls o parent p2 ht.2 hf.2 h2 hp2 p hm
end
end

end

/-! ## Letter case -/

/-- A letter. -/
def isLetter (c : Char) : Bool := isUpper c || isLower c

/-- A change of letter case. -/
structure Recase (f : Char → Char) : Prop where
  fix : ∀ c, isLetter c = false → f c = c
  letter : ∀ c, isLetter c = true → isLetter (f c) = true

theorem recase_table : ∀ n < 128, isLetter (Char.ofNat n) = true →
    isLetter (lowerChar (Char.ofNat n)) = true ∧ isLetter (upperChar (Char.ofNat n)) = true := by decide +kernel

theorem letter_lt {c : Char} (h : isLetter c = true) : c.toNat < 128 := by
  simp only [isLetter, isUpper, isLower, Bool.or_eq_true, Bool.and_eq_true, decide_eq_true_eq] at h
  omega

theorem recase_lower : Recase lowerChar where
  fix c h := by
    simp only [isLetter, Bool.or_eq_false_iff] at h
    simp [lowerChar, h.1]
  letter c h := by
    have := recase_table c.toNat (letter_lt h)
    rw [Char.ofNat_toNat] at this
    exact (this h).1

theorem recase_upper : Recase upperChar where
  fix c h := by
    simp only [isLetter, Bool.or_eq_false_iff] at h
    simp [upperChar, h.2]
  letter c h := by
    have := recase_table c.toNat (letter_lt h)
    rw [Char.ofNat_toNat] at this
    exact (this h).2

theorem Recase.back {f : Char → Char} (hf : Recase f) {c x : Char} (hx : isLetter x = false) (h : f c = x) : c = x := by
  cases hc : isLetter c with
  | false => rw [← hf.fix c hc]; exact h
  | true => have := hf.letter c hc; rw [h, hx] at this; simp at this

theorem Recase.ne {f : Char → Char} (hf : Recase f) {c x : Char} (hx : isLetter x = false) (h : c ≠ x) : f c ≠ x :=
  fun e => h (hf.back hx e)

theorem Recase.wordHead {f : Char → Char} (hf : Recase f) {c : Char} (h : isWordHead c = true) : isWordHead (f c) = true := by
  cases hc : isLetter c with
  | false => rw [hf.fix c hc]; exact h
  | true =>
    have := hf.letter c hc
    simp only [isLetter, isUpper, isLower, Bool.or_eq_true, Bool.and_eq_true, decide_eq_true_eq] at this
    simp only [isWordHead, isLower, Bool.or_eq_true, Bool.and_eq_true, decide_eq_true_eq]
    omega

theorem Recase.wordChar {f : Char → Char} (hf : Recase f) {c : Char} (h : isWordChar c = true) : isWordChar (f c) = true := by
  cases hc : isLetter c with
  | false => rw [hf.fix c hc]; exact h
  | true =>
    have := hf.letter c hc
    simp only [isLetter, Bool.or_eq_true] at this
    simp only [isWordChar, Bool.or_eq_true]
    rcases this with h | h <;> simp [h]

theorem Recase.word {f : Char → Char} (hf : Recase f) {s : Str} (h : WordText s) : WordText (s.map f) := by
  obtain ⟨c, cs, rfl, hc, hcs⟩ := h
  refine ⟨f c, cs.map f, rfl, hf.wordHead hc, ?_⟩
  intro d hd
  obtain ⟨x, hx, rfl⟩ := List.mem_map.1 hd
  exact hf.wordChar (hcs x hx)

theorem Recase.quoted {f : Char → Char} (hf : Recase f) {q : Char} (hq : isLetter q = false) {s : Str}
    (h : Props.Lex.QuotedBody q s) : Props.Lex.QuotedBody q (s.map f) := by
  induction h with
  | nil => exact .nil
  | char c s h1 h2 _ ih => exact .char _ _ (hf.ne hq h1) (hf.ne (by decide) h2) ih
  | esc d s _ ih =>
    rw [List.map_cons, List.map_cons, hf.fix _ (by decide : isLetter '\\' = false)]
    exact .esc _ _ ih

theorem Recase.unquoted {f : Char → Char} (hf : Recase f) {s : Str} (h : Props.Lex.Unquoted s)
    (hesc : '\\' ∉ s ∨ ∀ d ∈ S "()#\" \\$@^trn;", f d = d) : Props.Lex.Unquoted (s.map f) := by
  induction h with
  | nil => exact .nil
  | makeVar body s h1 h2 _ ih =>
    rw [List.map_append, List.map_append, List.map_append, List.map_cons, List.map_cons, List.map_nil, List.map_cons,
      List.map_nil, hf.fix '$' (by decide), hf.fix '(' (by decide), hf.fix ')' (by decide)]
    refine .makeVar _ _ (by simpa using h1) ?_ (ih (hesc.imp (fun h hm => h (by simp [hm])) id))
    intro c hc
    obtain ⟨x, hx, rfl⟩ := List.mem_map.1 hc
    exact ⟨hf.ne (by decide) (h2 x hx).1, hf.ne (by decide) (h2 x hx).2.1, hf.ne (by decide) (h2 x hx).2.2⟩
  | quoted body s h1 _ ih =>
    rw [List.map_append, List.map_append, List.map_append, List.map_cons, List.map_nil, hf.fix '"' (by decide)]
    exact .quoted _ _ (hf.quoted (by decide) h1) (ih (hesc.imp (fun h hm => h (by simp [hm])) id))
  | esc d s h1 _ ih =>
    rcases hesc with h | h
    · exact absurd (by simp) h
    · rw [List.map_cons, List.map_cons, hf.fix '\\' (by decide), h d h1]
      exact .esc _ _ h1 (ih (Or.inr h))
  | char c s h1 _ ih =>
    refine .char _ _ ?_ (ih (hesc.imp (fun h hm => h (by simp [hm])) id))
    rw [unq_list] at h1 ⊢
    simp only [List.mem_cons, List.not_mem_nil, or_false, not_or] at h1 ⊢
    refine ⟨?_, ?_, ?_, ?_, ?_, ?_, ?_, ?_, ?_, ?_, ?_⟩ <;> refine hf.ne (by decide) ?_ <;> grind

theorem lower_esc : ∀ d ∈ S "()#\" \\$@^trn;", lowerChar d = d := by decide

theorem unquoted_lower {s : Str} (h : Props.Lex.Unquoted s) : Props.Lex.Unquoted (lower s) :=
  recase_lower.unquoted h (Or.inr lower_esc)

theorem unquoted_upper {s : Str} (h : Props.Lex.Unquoted s) (hb : '\\' ∉ s) : Props.Lex.Unquoted (upper s) :=
  recase_upper.unquoted h (Or.inl hb)

theorem Recase.head {f : Char → Char} (hf : Recase f) {s : Str} {x : Char} (hx : isLetter x = false)
    (h : s.head? ≠ some x) : (s.map f).head? ≠ some x := by
  cases s with
  | nil => simp
  | cons c cs =>
    simp only [List.head?_cons, List.map_cons, ne_eq, Option.some.injEq] at *
    exact hf.ne hx h

theorem Recase.fine {f : Char → Char} (hf : Recase f) {s : Str} (h : FineStart s) : FineStart (s.map f) := by
  refine ⟨hf.head (by decide) h.1, hf.head (by decide) h.2.1, ?_⟩
  intro d hd
  match s, h, hd with
  | [], _, hd => simp at hd
  | [c], _, hd => simp at hd
  | c :: e :: s, h, hd =>
    simp only [List.map_cons, List.take_succ_cons, List.take_zero, List.cons.injEq, and_true] at hd
    have := h.2.2 e (by simp [hf.back (by decide) hd.1])
    rw [← hd.2]
    exact ⟨hf.ne (by decide) this.1, hf.ne (by decide) this.2.1, hf.ne (by decide) this.2.2⟩

end Verif.Layout
