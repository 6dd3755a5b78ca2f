import Verif.Framed
import Verif.Cover

/-!
# How far to the right the texts of a layout reach
-/

namespace Verif.Layout
open Verif Py Lex Parse

/-- The rightmost column reached while writing a text from a position. -/
def extent : Cur → Str → Nat
  | c, [] => c.col
  | c, x :: xs => max c.col (extent (if x = '\n' then ⟨c.row + 1, 0⟩ else ⟨c.row, c.col + 1⟩) xs)

theorem le_extent (c : Cur) (s : Str) : c.col ≤ extent c s := by
  cases s with
  | nil => exact Nat.le_refl _
  | cons x xs => exact Nat.le_max_left ..

theorem extent_append (c : Cur) (a b : Str) : extent c (a ++ b) = max (extent c a) (extent (advance c a) b) := by
  induction a generalizing c with
  | nil =>
    simp only [List.nil_append, extent, advance]
    exact (Nat.max_eq_right (le_extent _ _)).symm
  | cons x xs ih => simp only [List.cons_append, extent, advance, ih, Nat.max_assoc]

theorem extent_le (c : Cur) (s : Str) : extent c s ≤ c.col + s.length := by
  induction s generalizing c with
  | nil => exact Nat.le_refl _
  | cons x xs ih =>
    simp only [extent, List.length_cons]
    refine Nat.max_le.2 ⟨by omega, Nat.le_trans (ih _) ?_⟩
    split <;> simp <;> omega

theorem extent_flat {s : Str} (h : '\n' ∉ s) (c : Cur) : extent c s = c.col + s.length := by
  induction s generalizing c with
  | nil => rfl
  | cons x xs ih =>
    simp only [List.mem_cons, not_or] at h
    simp only [extent, if_neg (fun e => h.1 e.symm : x ≠ '\n'), ih h.2, List.length_cons]
    omega

theorem walk_snd (ls : List Str) : ∀ (c : Cur) (a e : Nat), (walk c (max a e) ls).2 = max a (walk c e ls).2 := by
  induction ls with
  | nil => intros; rfl
  | cons l ls ih => intro c a e; simp only [walk, Nat.max_assoc]; exact ih _ _ _

theorem walk_col (ls : List Str) : ∀ (c d : Cur) (e : Nat), (walk c e ls).2 = (walk d e ls).2 := by
  induction ls with
  | nil => intros; rfl
  | cons l ls ih => intro c d e; simp only [walk]; exact ih _ _ _

theorem flow_extent (c : Cur) (s : Str) : (flow c s).2 = extent c s := by
  induction s generalizing c with
  | nil => rfl
  | cons x xs ih =>
    simp only [extent]
    rw [← ih]
    by_cases hx : x = '\n'
    · subst hx
      simp only [if_true, flow, splitOn]
      cases h : splitOn '\n' xs with
      | nil => exact absurd h (splitOn_ne _ _)
      | cons l ls =>
        simp only [walk, List.length_nil, Nat.add_zero, Nat.zero_add]
        rw [walk_snd ls, walk_col ls]
    · have hge : c.col ≤ (flow ⟨c.row, c.col + 1⟩ xs).2 := by
        rw [ih]; exact Nat.le_trans (Nat.le_succ _) (le_extent ⟨c.row, c.col + 1⟩ xs)
      simp only [if_neg hx]
      rw [Nat.max_eq_right hge]
      simp only [flow, splitOn, if_neg hx]
      cases h : splitOn '\n' xs with
      | nil => exact absurd h (splitOn_ne _ _)
      | cons l ls =>
        simp only [Cur.right, List.length_cons]
        rw [walk_col ls _ ⟨c.row, c.col + 1 + l.length⟩, Nat.add_right_comm c.col 1, Nat.add_assoc c.col]

theorem scalar_extent {cfg : Cfg} {ty : NT} {pk : List Node} {kids : List Box} {parent : Option Str}
    {t : Token} {text : Str} {c : Cur} (hty : ty ≠ .funname) (ht : tidyHere ty pk kids = true)
    (hh : headTok pk = .ok t) (h : scalarText cfg ty parent t = .ok text) :
    extent c text = extent c (Text.normalizeLineEndings t.spelling) := by
  have key : flatSpelling t.spelling = true →
      (text = lower t.spelling ∨ text = upper t.spelling ∨ text = Text.normalizeLineEndings t.spelling) →
      extent c text = extent c (Text.normalizeLineEndings t.spelling) := by
    intro hf h
    have hn := normalize_flat hf
    simp only [flatSpelling, Bool.and_eq_true, Bool.not_eq_true', List.contains_eq_mem,
      decide_eq_false_iff_not] at hf
    rw [hn]
    rcases h with rfl | rfl | rfl
    · rw [extent_flat (lower_nl hf.1), extent_flat hf.1]; simp [lower]
    · rw [extent_flat (upper_nl hf.1), extent_flat hf.1]; simp [upper]
    · rw [hn]
  have case : (if cfg.keywordCase = S "lower" then Except.ok (lower t.spelling)
      else if cfg.keywordCase = S "upper" then Except.ok (upper t.spelling)
      else Except.ok (Text.normalizeLineEndings t.spelling) : Except Err Str) = .ok text →
      (text = lower t.spelling ∨ text = upper t.spelling ∨ text = Text.normalizeLineEndings t.spelling) := by
    intro h
    split at h
    · simp only [Except.ok.injEq] at h; exact Or.inl h.symm
    · split at h
      · simp only [Except.ok.injEq] at h; exact Or.inr (Or.inl h.symm)
      · simp only [Except.ok.injEq] at h; exact Or.inr (Or.inr h.symm)
  cases ty <;> first
    | exact absurd rfl hty
    | (simp only [scalarText, Except.ok.injEq] at h; subst h; rfl)
    | (simp only [scalarText] at h
       simp only [tidyHere, headTok_spelling hh] at ht
       exact key ht (case h))

/-! ## Names are followed by their parenthesis -/

/-- Every command name is followed by `(` on the same row. -/
def Paired : List Piece → Prop
  | [] => True
  | p :: ps => (p.kind = .name → ∃ q qs, ps = q :: qs ∧ q.kind = .lparen ∧ q.pos.row = p.pos.row) ∧ Paired ps

theorem paired_append {a b : List Piece} (ha : Paired a) (hb : Paired b) : Paired (a ++ b) := by
  induction a with
  | nil => exact hb
  | cons p ps ih =>
    refine ⟨fun hk => ?_, ih ha.2⟩
    obtain ⟨q, qs, rfl, h⟩ := ha.1 hk
    exact ⟨q, qs ++ b, rfl, h⟩

theorem paired_lines (c : Cur) (ls : List Str) : Paired (linePieces c ls) := by
  induction ls generalizing c with
  | nil => trivial
  | cons l ls ih => exact ⟨by simp, ih _⟩

theorem maxLen_mem {ls : List Str} {l : Str} (h : l ∈ ls) : l.length ≤ maxLen ls := by
  induction ls with
  | nil => simp at h
  | cons a as ih =>
    simp only [maxLen]
    rcases List.mem_cons.1 h with rfl | h
    · exact Nat.le_max_left ..
    · exact Nat.le_trans (ih h) (Nat.le_max_right ..)

theorem lines_extent {c : Cur} {ls : List Str} {m : Nat} (h : ∀ l ∈ ls, l.length ≤ m) :
    ∀ p ∈ linePieces c ls, extent p.pos p.text ≤ c.col + m := by
  induction ls generalizing c with
  | nil => simp [linePieces]
  | cons l ls ih =>
    intro p hp
    simp only [linePieces, List.mem_cons] at hp
    rcases hp with rfl | hp
    · exact Nat.le_trans (extent_le _ _) (Nat.add_le_add_left (h l (by simp)) _)
    · exact ih (c := ⟨c.row + 1, c.col⟩) (fun x hx => h x (by simp [hx])) p hp

section
variable {cfg : Cfg} {ctx : Ctx}

mutual
/-- The texts of a box that are not command names stay within the box. -/
theorem within_node : ∀ (b : Box) (c : Cur) (l : Laid) (o : Cur) (parent : Option Str) (ps : List Piece),
    tidy b = true → Placed cfg b c l o → pieces cfg parent l = .ok ps →
    ∀ p ∈ ps, p.kind = .name ∨ extent p.pos p.text ≤ l.colext
  | .mk ty a pk kids, c, .mk ty' a' pk' info lines kids', o, parent, ps, ht, hp, hps => by
    simp only [tidy, Bool.and_eq_true] at ht
    simp only [Placed] at hp
    obtain ⟨rfl, rfl, rfl, hc, _, hp⟩ := hp
    have list : ∀ S prev c' parent' qs o', (∀ k ∈ kids', k.colext ≤ info.colext) → PlacedL cfg S prev c' kids kids' o' →
        piecesL cfg parent' kids' = .ok qs → ∀ p ∈ qs, p.kind = .name ∨ extent p.pos p.text ≤ info.colext :=
      fun S prev c' parent' qs o' hk h hq => within_list S kids prev c' kids' o' parent' qs info.colext ht.2 hk h hq
    cases ty' <;> simp only [pieces] at hps <;> simp only [Laid.colext, Laid.info] <;> simp only at hp
    case onoff => simp at hps
    case lparen =>
      simp only [Except.ok.injEq] at hps
      subst hps
      intro p hp'
      simp only [List.mem_singleton] at hp'
      subst hp'
      right
      refine Nat.le_trans (extent_le _ _) ?_
      rw [hp.2.2, hc]; exact Nat.le_refl _
    case rparen =>
      simp only [Except.ok.injEq] at hps
      subst hps
      intro p hp'
      simp only [List.mem_singleton] at hp'
      subst hp'
      right
      refine Nat.le_trans (extent_le _ _) ?_
      rw [hp.2.2, hc]; exact Nat.le_refl _
    case whitespace =>
      simp only [Except.ok.injEq] at hps
      subst hps; simp
    case comment =>
      cases hb : bracketOf pk' with
      | some t =>
        simp only [hb, Except.ok.injEq] at hps hp
        subst hps
        intro p hp'
        simp only [List.mem_singleton] at hp'
        subst hp'
        right
        rw [hp.2.2, hc, flow_extent]; exact Nat.le_refl _
      | none =>
        simp only [hb, Except.ok.injEq] at hps hp
        subst hps
        obtain ⟨_, ts, last, _, _, _, _, he⟩ := hp
        intro p hp'
        right
        rw [he, ← hc]
        exact lines_extent (fun l hl => maxLen_mem hl) p hp'
    case body => exact list _ _ _ _ ps _ hp.1 hp.2 hps
    case statement => exact list _ _ _ _ ps _ hp.1 hp.2 hps
    case atwordStatement => exact list _ _ _ _ ps _ hp.1 hp.2 hps
    case argGroup => exact list _ _ _ _ ps _ hp.1 hp.2 hps
    case pargGroup => exact list _ _ _ _ ps _ hp.1 hp.2 hps
    case kwargGroup => exact list _ _ _ _ ps _ hp.1 hp.2 hps
    case flagGroup => exact list _ _ _ _ ps _ hp.1 hp.2 hps
    case parenGroup => exact list _ _ _ _ ps _ hp.1 hp.2 hps
    case flowControl => exact list _ _ _ _ ps _ hp.1 hp.2 hps
    case funname =>
      obtain ⟨t, h1, h2, h3, h4, h5, h6⟩ := hp
      simp only [bind_ok, Except.ok.injEq] at hps
      obtain ⟨t', _, text, h7, _, _, qs, h8, rfl⟩ := hps
      intro p hp'
      rcases List.mem_cons.1 hp' with rfl | hp'
      · exact Or.inl rfl
      · exact list _ _ _ _ qs _ h5 h6 h8 p hp'
    all_goals
      obtain ⟨t, h1, h2, h3, h4, h5, h6⟩ := hp
      simp only [bind_ok, Except.ok.injEq] at hps
      obtain ⟨t', h1', text, h7, _, _, qs, h8, rfl⟩ := hps
      rw [h1] at h1'
      simp only [Except.ok.injEq] at h1'
      subst h1'
      intro p hp'
      rcases List.mem_cons.1 hp' with rfl | hp'
      · right
        simp only [hc]
        rw [scalar_extent (by simp) ht.1 h1 h7, ← flow_extent]
        exact h2
      · exact list _ _ _ _ qs _ h5 h6 h8 p hp'
theorem within_list : ∀ (S : Option Box → Cur → Box → Cur → Prop) (bs : List Box) (prev : Option Box) (c : Cur)
    (ls : List Laid) (o : Cur) (parent : Option Str) (ps : List Piece) (w : Nat),
    tidyL bs = true → (∀ l ∈ ls, l.colext ≤ w) → PlacedL cfg S prev c bs ls o → piecesL cfg parent ls = .ok ps →
    ∀ p ∈ ps, p.kind = .name ∨ extent p.pos p.text ≤ w
  | S, [], prev, c, ls, o, parent, ps, w, _, _, hp, hps => by
    simp only [PlacedL] at hp
    obtain ⟨rfl, _⟩ := hp
    simp only [piecesL, Except.ok.injEq] at hps
    subst hps; simp
  | S, b :: bs, prev, c, [], o, parent, ps, w, _, _, hp, hps => by simp [PlacedL] at hp
  | S, b :: bs, prev, c, l :: ls, o, parent, ps, w, ht, hw, hp, hps => by
    simp only [tidyL, Bool.and_eq_true] at ht
    simp only [PlacedL] at hp
    obtain ⟨c', o', _, h1, h2⟩ := hp
    simp only [piecesL, bind_ok, Except.ok.injEq] at hps
    obtain ⟨xs, hx, ys, hy, rfl⟩ := hps
    intro p hp
    rcases List.mem_append.1 hp with hp | hp
    · exact (within_node b c' l o' parent xs ht.1 h1 hx p hp).imp id
        (fun h => Nat.le_trans h (hw l (by simp)))
    · exact within_list S bs (some b) o' ls o parent ys w ht.2 (fun x hx => hw x (by simp [hx])) h2 hy p hp
end

theorem paren_pieces {b : Box} {c : Cur} {l : Laid} {o : Cur} {parent : Option Str} {ps : List Piece} (hb : b.ty = .lparen)
    (hp : Placed cfg b c l o) (hps : pieces cfg parent l = .ok ps) : ∃ s, ps = [⟨.lparen, c, s⟩] := by
  cases b with
  | mk ty a pk kids =>
    cases l with
    | mk ty' a' pk' info lines kids' =>
      simp only [Box.ty] at hb
      subst hb
      simp only [Placed] at hp
      obtain ⟨rfl, rfl, rfl, hc, _, hp⟩ := hp
      simp only [pieces, Except.ok.injEq] at hps
      exact ⟨_, by rw [← hps, ← hc]⟩

theorem name_pieces {b : Box} {c : Cur} {l : Laid} {o : Cur} {parent parent' : Option Str} {ps : List Piece} (hb : b.ty = .funname)
    (ht : tidy b = true) (hs : Sourced ctx parent' b)
    (hp : Placed cfg b c l o) (hps : pieces cfg parent l = .ok ps) : o.row = c.row ∧ ∃ s, ps = [⟨.name, c, s⟩] := by
  cases b with
  | mk ty a pk kids =>
    cases l with
    | mk ty' a' pk' info lines kids' =>
      simp only [Box.ty] at hb
      subst hb
      simp only [Placed] at hp
      obtain ⟨rfl, rfl, rfl, hc, _, hp⟩ := hp
      obtain ⟨t, h1, h2, h3, h4, h5, h6⟩ := hp
      simp only [pieces, bind_ok, Except.ok.injEq] at hps
      obtain ⟨t', h1', text, h7, _, _, qs, h8, rfl⟩ := hps
      simp only [tidy, tidyHere, Bool.and_eq_true, List.isEmpty_iff] at ht
      obtain ⟨rfl, _⟩ := ht
      simp only [PlacedL] at h6
      obtain ⟨rfl, rfl⟩ := h6
      simp only [piecesL, Except.ok.injEq] at h8
      subst h8
      simp only [Sourced, sourcedHere] at hs
      obtain ⟨⟨t2, h9, h10, _⟩, _⟩ := hs
      have : t2 = t := by
        cases pk' with
        | nil => simp [headTok] at h1
        | cons n ns =>
          cases n with
          | tok x =>
            simp only [headTok, Except.ok.injEq] at h1
            simp only [headToks, List.cons.injEq, and_true] at h9
            rw [← h1, h9]
          | node ty a cs => simp [headTok] at h1
      subst this
      refine ⟨?_, _, by rw [← hc]; rfl⟩
      rw [normalize_flat h10, flow_advance]
      simp only [flatSpelling, Bool.and_eq_true, Bool.not_eq_true', List.contains_eq_mem,
        decide_eq_false_iff_not] at h10
      rw [advance_flat h10.1]; rfl

mutual
/-- In the texts of a box names are followed by their parenthesis. -/
theorem paired_node : ∀ (b : Box) (c : Cur) (l : Laid) (o : Cur) (parent parent' : Option Str) (ps : List Piece),
    tidy b = true → framed b = true → Sourced ctx parent' b → b.ty ≠ .funname → Placed cfg b c l o →
    pieces cfg parent l = .ok ps → Paired ps
  | .mk ty a pk kids, c, .mk ty' a' pk' info lines kids', o, parent, parent', ps, ht, hf, hs, hn, hp, hps => by
    simp only [tidy, Bool.and_eq_true] at ht
    simp only [framed, Bool.and_eq_true] at hf
    simp only [Placed] at hp
    simp only [Sourced] at hs
    obtain ⟨rfl, rfl, rfl, hc, _, hp⟩ := hp
    have list : ∀ S prev c' p q qs o', (∀ k ∈ kids, k.ty ≠ .funname) → PlacedL cfg S prev c' kids kids' o' →
        piecesL cfg q kids' = .ok qs → SourcedL ctx p kids → Paired qs :=
      fun S prev c' p q qs o' hk h hq hs' =>
        paired_list S kids prev c' kids' o' p q qs ht.2 hf.2 hs' hk h hq
    have inner : kids.all (fun k => isInner k.ty) = true → ∀ k ∈ kids, k.ty ≠ .funname := by
      intro h k hk e
      have := List.all_eq_true.1 h k hk
      rw [e] at this; simp [isInner] at this
    have hfr := hf.1
    cases ty' <;> simp only [pieces] at hps <;> simp only at hp
    case funname => exact absurd rfl hn
    case onoff => simp at hps
    case lparen =>
      simp only [Except.ok.injEq] at hps
      subst hps
      exact ⟨by simp, trivial⟩
    case rparen =>
      simp only [Except.ok.injEq] at hps
      subst hps
      exact ⟨by simp, trivial⟩
    case whitespace =>
      simp only [Except.ok.injEq] at hps
      subst hps; trivial
    case comment =>
      cases hb : bracketOf pk' with
      | some t =>
        simp only [hb, Except.ok.injEq] at hps
        subst hps
        exact ⟨by simp, trivial⟩
      | none =>
        simp only [hb, Except.ok.injEq] at hps
        subst hps
        exact paired_lines _ _
    case statement =>
      match kids, kids', hp, hps, hs, hfr, hf.2, ht.2 with
      | fn :: lp :: rest, ls, hp, hps, hs, hfr, hf2, ht2 =>
        simp only [framedHere, Bool.and_eq_true, beq_iff_eq] at hfr
        obtain ⟨⟨⟨e1, e2⟩, e3⟩, e4⟩ := hfr
        obtain ⟨_, hp⟩ := hp
        match ls, hp, hps with
        | [], hp, _ => simp [PlacedL] at hp
        | [l1], hp, _ => simp [PlacedL] at hp
        | l1 :: l2 :: ls, hp, hps =>
          simp only [PlacedL] at hp
          obtain ⟨c1, o1, s1, p1, c2, o2, s2, p2, hp⟩ := hp
          simp only [piecesL, bind_ok, Except.ok.injEq] at hps
          obtain ⟨x1, hx1, y1, ⟨x2, hx2, y2, hy2, rfl⟩, rfl⟩ := hps
          simp only [tidyL, Bool.and_eq_true] at ht2
          simp only [framedL, Bool.and_eq_true] at hf2
          simp only [SourcedL] at hs
          obtain ⟨hrow, t1, rfl⟩ := name_pieces e1 ht2.1 hs.2.1 p1 hx1
          obtain ⟨t2, rfl⟩ := paren_pieces e2 p2 hx2
          refine ⟨fun _ => ⟨_, _, rfl, rfl, ?_⟩, by simp, ?_⟩
          · have := s2.2 e1
            simp only [this, hrow]
          · refine paired_list _ rest _ _ ls _ _ _ y2 ht2.2.2 hf2.2.2 hs.2.2.2 ?_ hp hy2
            intro k hk e
            have := List.all_eq_true.1 e3 k hk
            rw [e] at this; simp [isInner] at this
    case atwordStatement =>
      refine list _ _ _ _ _ ps _ ?_ hp.2 hps hs.2
      match kids, hfr with
      | w :: rest, hfr =>
        simp only [framedHere, Bool.and_eq_true, beq_iff_eq] at hfr
        intro k hk e
        rcases List.mem_cons.1 hk with rfl | hk
        · rw [hfr.1] at e; simp at e
        · have := List.all_eq_true.1 hfr.2 k hk
          rw [e] at this; simp at this
    case body =>
      refine list _ _ _ _ _ ps _ ?_ hp.2 hps hs.2
      intro k hk e
      have := List.all_eq_true.1 hfr k hk
      rw [e] at this; simp [isBodyPart] at this
    case flowControl =>
      refine list _ _ _ _ _ ps _ ?_ hp.2 hps hs.2
      intro k hk e
      have := List.all_eq_true.1 hfr k hk
      rw [e] at this; simp at this
    case argGroup => exact list _ _ _ _ _ ps _ (inner hfr) hp.2 hps hs.2
    case pargGroup => exact list _ _ _ _ _ ps _ (inner hfr) hp.2 hps hs.2
    case kwargGroup => exact list _ _ _ _ _ ps _ (inner hfr) hp.2 hps hs.2
    case flagGroup => exact list _ _ _ _ _ ps _ (inner hfr) hp.2 hps hs.2
    case parenGroup => exact list _ _ _ _ _ ps _ (inner hfr) hp.2 hps hs.2
    all_goals
      obtain ⟨t, h1, h2, h3, h4, h5, h6⟩ := hp
      simp only [bind_ok, Except.ok.injEq] at hps
      obtain ⟨t', h1', text, h7, _, _, qs, h8, rfl⟩ := hps
      refine ⟨by simp [kindOf], list _ _ _ _ _ qs _ ?_ h6 h8 hs.2⟩
      first
        | exact inner hfr
        | (simp only [framedHere, List.isEmpty_iff] at hfr; subst hfr; simp)
theorem paired_list : ∀ (S : Option Box → Cur → Box → Cur → Prop) (bs : List Box) (prev : Option Box) (c : Cur)
    (ls : List Laid) (o : Cur) (parent' parent : Option Str) (ps : List Piece),
    tidyL bs = true → framedL bs = true → SourcedL ctx parent' bs → (∀ b ∈ bs, b.ty ≠ .funname) →
    PlacedL cfg S prev c bs ls o → piecesL cfg parent ls = .ok ps → Paired ps
  | S, [], prev, c, ls, o, parent', parent, ps, _, _, _, _, hp, hps => by
    simp only [PlacedL] at hp
    obtain ⟨rfl, _⟩ := hp
    simp only [piecesL, Except.ok.injEq] at hps
    subst hps; trivial
  | S, b :: bs, prev, c, [], o, parent', parent, ps, _, _, _, _, hp, hps => by simp [PlacedL] at hp
  | S, b :: bs, prev, c, l :: ls, o, parent', parent, ps, ht, hf, hs, hn, hp, hps => by
    simp only [tidyL, Bool.and_eq_true] at ht
    simp only [framedL, Bool.and_eq_true] at hf
    simp only [SourcedL] at hs
    simp only [PlacedL] at hp
    obtain ⟨c', o', _, h1, h2⟩ := hp
    simp only [piecesL, bind_ok, Except.ok.injEq] at hps
    obtain ⟨xs, hx, ys, hy, rfl⟩ := hps
    exact paired_append (paired_node b c' l o' parent parent' xs ht.1 hf.1 hs.1 (hn b (by simp)) h1 hx)
      (paired_list S bs (some b) o' ls o parent' parent ys ht.2 hf.2 hs.2 (fun x hx => hn x (by simp [hx])) h2 hy)
end

end

/-! ## Lines of the output -/

theorem extent_blanks (n : Nat) (c : Cur) : extent c (List.replicate n ' ') = c.col + n := by
  rw [extent_flat, List.length_replicate]
  simp

theorem extent_newlines (n : Nat) (c : Cur) : extent c (List.replicate n '\n') = c.col := by
  induction n generalizing c with
  | zero => rfl
  | succ n ih => simp only [List.replicate_succ, extent, if_true, ih]; exact Nat.max_eq_left (Nat.zero_le _)

theorem advance_newlines (n : Nat) (c : Cur) : advance c (List.replicate (n + 1) '\n') = ⟨c.row + n + 1, 0⟩ := by
  induction n generalizing c with
  | zero => rfl
  | succ n ih => rw [List.replicate_succ, advance]; simp only [if_true]; rw [ih]; simp; omega

theorem flatten_nl (n : Nat) : (List.replicate n (S "\n")).flatten = List.replicate n '\n' := by
  induction n with
  | zero => rfl
  | succ n ih => rw [List.replicate_succ, List.flatten_cons, ih, List.replicate_succ]; rfl

theorem extent_space {a b : Cur} (h : a.le b) : extent a (space (S "\n") a b) ≤ max a.col b.col := by
  unfold space
  split
  · rename_i hr
    obtain ⟨k, hk⟩ : ∃ k, b.row - a.row = k + 1 := ⟨b.row - a.row - 1, by omega⟩
    rw [flatten_nl, extent_append, extent_newlines, hk, advance_newlines, extent_blanks]
    simp
  · rw [extent_blanks]
    rcases h with h | h <;> omega

theorem advance_gap {a b : Cur} (h : a.le b) : advance a (space (S "\n") a b) = b := by
  unfold space
  split
  · rename_i hr
    obtain ⟨k, hk⟩ : ∃ k, b.row - a.row = k + 1 := ⟨b.row - a.row - 1, by omega⟩
    rw [flatten_nl, hk, advance_append, advance_newlines, advance_flat (by simp), List.length_replicate]
    cases b; simp [Cur.right] at hk ⊢; omega
  · rename_i hr
    rw [advance_flat (by simp), List.length_replicate]
    rcases h with h | ⟨h1, h2⟩
    · omega
    · cases b; simp [Cur.right] at h1 h2 ⊢; omega

theorem withEndings_nl (s : Str) : withEndings (S "\n") s = s := by
  induction s with
  | nil => rfl
  | cons x xs ih =>
    simp only [withEndings, ih]
    split
    · rename_i h; subst h; rfl
    · rfl

theorem withEndings_append (endl a b : Str) : withEndings endl (a ++ b) = withEndings endl a ++ withEndings endl b := by
  induction a with
  | nil => rfl
  | cons x xs ih => simp only [List.cons_append, withEndings, ih, List.append_assoc]

theorem withEndings_space (endl : Str) (a b : Cur) : withEndings endl (space (S "\n") a b) = space endl a b := by
  have hb : ∀ n, withEndings endl (List.replicate n ' ') = List.replicate n ' ' := by
    intro n
    induction n with
    | zero => rfl
    | succ n ih => simp only [List.replicate_succ, withEndings, ih]; rfl
  have hn : ∀ n, withEndings endl (List.replicate n '\n') = (List.replicate n endl).flatten := by
    intro n
    induction n with
    | zero => rfl
    | succ n ih => simp only [List.replicate_succ, withEndings, ih, if_true, List.flatten_cons]
  unfold space
  split
  · rw [flatten_nl, withEndings_append, hb, hn]
  · exact hb _

/-- The output is the one with line feeds, with its line ends replaced. -/
theorem weave_endings (endl : Str) (c : Cur) (ps : List Piece) :
    weave endl c ps = withEndings endl (weave (S "\n") c ps) := by
  induction ps generalizing c with
  | nil => rfl
  | cons p ps ih =>
    simp only [weave, withEndings_append, withEndings_space, ih, withEndings_nl]

theorem advance_col (s : Str) : ∀ c : Cur, (advance c s).col ≤ extent c s := by
  induction s with
  | nil => intro c; exact Nat.le_refl _
  | cons x xs ih => intro c; exact Nat.le_trans (ih _) (Nat.le_max_right ..)

theorem extent_weave {w : Nat} {ps : List Piece} : ∀ {c : Cur}, c.col ≤ w → InOrder c ps →
    (∀ p ∈ ps, extent p.pos p.text ≤ w) → extent c (weave (S "\n") c ps) ≤ w := by
  induction ps with
  | nil => intro c hc _ _; exact hc
  | cons p ps ih =>
    intro c hc ho hw
    obtain ⟨h1, h2⟩ := ho
    have hp := hw p (by simp)
    simp only [weave, withEndings_nl, extent_append, advance_append, advance_gap h1]
    refine Nat.max_le.2 ⟨Nat.max_le.2 ⟨?_, hp⟩, ?_⟩
    · refine Nat.le_trans (extent_space h1) (Nat.max_le.2 ⟨hc, Nat.le_trans (le_extent _ _) hp⟩)
    · refine ih ?_ h2 (fun q hq => hw q (by simp [hq]))
      have : p.stop.col ≤ extent p.pos p.text := by
        exact advance_col _ _
      exact Nat.le_trans this hp

/-- A line is no longer than the rightmost column. -/
theorem line_extent (s : Str) : ∀ (c : Cur) (w : Nat), extent c s ≤ w →
    ∃ l ls, splitOn '\n' s = l :: ls ∧ c.col + l.length ≤ w ∧ ∀ x ∈ ls, x.length ≤ w := by
  induction s with
  | nil => intro c w h; exact ⟨[], [], rfl, h, by simp⟩
  | cons x xs ih =>
    intro c w h
    simp only [extent] at h
    have h1 := Nat.le_trans (Nat.le_max_left ..) h
    have h2 := Nat.le_trans (Nat.le_max_right ..) h
    obtain ⟨l, ls, e, h3, h4⟩ := ih _ w h2
    by_cases hx : x = '\n'
    · simp only [if_pos hx, Nat.zero_add] at h3
      refine ⟨[], l :: ls, by simp [splitOn, hx, e], h1, ?_⟩
      intro y hy
      rcases List.mem_cons.1 hy with rfl | hy
      · exact h3
      · exact h4 y hy
    · simp only [if_neg hx] at h3
      refine ⟨x :: l, ls, by simp [splitOn, hx, e], ?_, h4⟩
      simp only [List.length_cons]; omega

theorem extent_row {s : Str} : ∀ {c : Cur}, (advance c s).row ≤ c.row → extent c s ≤ (advance c s).col := by
  induction s with
  | nil => intro c _; exact Nat.le_refl _
  | cons x xs ih =>
    intro c h
    simp only [advance] at h
    by_cases hx : x = '\n'
    · have := Cur.le_row (advance_le xs ⟨c.row + 1, 0⟩)
      simp only [if_pos hx] at h
      simp only at this; omega
    · simp only [if_neg hx] at h
      have h1 := ih (c := ⟨c.row, c.col + 1⟩) h
      have h2 := le_extent ⟨c.row, c.col + 1⟩ xs
      simp only [extent, advance, if_neg hx]
      refine Nat.max_le.2 ⟨?_, h1⟩
      simp only at h2; omega

/-- Names end before their parenthesis, which is within the width. -/
theorem names_within {w : Nat} {ps : List Piece} : ∀ {c : Cur}, InOrder c ps → Paired ps →
    (∀ p ∈ ps, p.kind = .name ∨ extent p.pos p.text ≤ w) → ∀ p ∈ ps, extent p.pos p.text ≤ w := by
  induction ps with
  | nil => intro c _ _ _; simp
  | cons p ps ih =>
    intro c ho hp hw q hq
    rcases List.mem_cons.1 hq with rfl | hq
    · by_cases hk : q.kind = .name
      · obtain ⟨r, rs, rfl, hr, hrow⟩ := hp.1 hk
        have h1 : (advance q.pos q.text).le r.pos := ho.2.1
        have h2 : extent r.pos r.text ≤ w := by
          rcases hw r (by simp) with h | h
          · rw [hr] at h; simp at h
          · exact h
        have h3 := le_extent r.pos r.text
        have h4 := Cur.le_row h1
        have h5 := extent_row (s := q.text) (c := q.pos) (by omega)
        have h6 := Cur.le_row (advance_le q.text q.pos)
        rcases h1 with h1 | h1 <;> omega
      · exact (hw q (by simp)).resolve_left hk
    · exact ih ho.2 hp.2 (fun x hx => hw x (by simp [hx])) q hq

end Verif.Layout
