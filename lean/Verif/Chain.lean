import Verif.Pieces
import Verif.MarkupLines

/-!
# Neighbouring texts of a layout

Every layout gives a sequence of texts that do not run into each other.
-/

namespace Verif.Layout
open Verif Py Lex Parse

/-! ## Orders -/

theorem Cur.le_refl (a : Cur) : a.le a := Or.inr ⟨rfl, Nat.le_refl _⟩

theorem Cur.le_trans {a b c : Cur} (h1 : a.le b) (h2 : b.le c) : a.le c := by
  unfold Cur.le at *; omega

theorem Cur.lt_of_lt_le {a b c : Cur} (h1 : a.lt b) (h2 : b.le c) : a.lt c := by
  unfold Cur.le Cur.lt at *; omega

theorem Cur.lt_of_le_lt {a b c : Cur} (h1 : a.le b) (h2 : b.lt c) : a.lt c := by
  unfold Cur.le Cur.lt at *; omega

theorem Cur.le_of_lt {a b : Cur} (h : a.lt b) : a.le b := by
  unfold Cur.le Cur.lt at *; omega

theorem Cur.lt_right (a : Cur) : a.lt (a.right 1) := Or.inr ⟨rfl, Nat.lt_succ_self _⟩

theorem Cur.lt_row {a b : Cur} (h : a.row < b.row) : a.lt b := Or.inl h

theorem Cur.le_row {a b : Cur} (h : a.le b) : a.row ≤ b.row := by
  unfold Cur.le at h; omega

theorem advance_flat {s : Str} (h : '\n' ∉ s) (c : Cur) : advance c s = c.right s.length := by
  induction s generalizing c with
  | nil => rfl
  | cons x xs ih =>
    simp only [List.mem_cons, not_or] at h
    have hx : x ≠ '\n' := fun e => h.1 e.symm
    simp only [advance, if_neg hx, ih h.2, Cur.right, List.length_cons]
    congr 1
    omega

theorem advance_le (s : Str) (c : Cur) : c.le (advance c s) := by
  induction s generalizing c with
  | nil => exact Cur.le_refl _
  | cons x xs ih =>
    simp only [advance]
    refine Cur.le_trans ?_ (ih _)
    split
    · exact Or.inl (Nat.lt_succ_self _)
    · exact Or.inr ⟨rfl, Nat.le_succ _⟩

/-! ## Tidy boxes -/

/-- A statement or a sequence of them. -/
def isBlock : NT → Bool
  | .statement | .atwordStatement | .body | .flowControl => true
  | _ => false

/-- A single bracket comment, or line comments. -/
def pureComment (pk : List Node) : Bool :=
  (bracketOf pk).isSome ||
    (headIsComment pk &&
      pk.all fun n => match n with
        | .tok t => !isComment t || !t.spelling.contains '\n'
        | .node .. => true)

/-- A spelling without line end. -/
def flatSpelling (s : Str) : Bool := !s.contains '\n' && !s.contains '\r'

/-- A parenthesised group has a `)` and only a comment after it. -/
def closesParen (kids : List Box) : Bool :=
  kids.any (fun k => k.ty == .rparen) &&
    match kids.getLast? with
    | some k => k.ty == .rparen || k.ty == .comment
    | none => false

/-- A comment that is not a bracket comment is recognized as a line comment. -/
def lineOk (b : Box) : Bool := b.ty != .comment || (bracketOf b.pkids).isSome || isLineComment b

/-- The children of an argument list: no statements, and line comments are recognized. -/
def listOk (kids : List Box) : Bool := kids.all (fun k => !isBlock k.ty) && kids.dropLast.all lineOk

/-- What the parser guarantees about one box. -/
def tidyHere (ty : NT) (pk : List Node) (kids : List Box) : Bool :=
  match ty with
  | .onoff => false
  | .comment => pureComment pk
  | .keyword | .flag => flatSpelling (headSpelling pk)
  | .funname => kids.isEmpty
  | .parenGroup => closesParen kids && listOk kids
  | .argGroup | .pargGroup | .flagGroup | .kwargGroup | .statement | .atwordStatement => listOk kids
  | _ => true

mutual
/-- What the parser guarantees about all boxes. -/
def tidy : Box → Bool
  | .mk ty _ pk kids => tidyHere ty pk kids && tidyL kids
/-- All of them. -/
def tidyL : List Box → Bool
  | [] => true
  | b :: bs => tidy b && tidyL bs
end

/-! ## Before and after a box -/

/-- A box of this type may start at `c` after the text `p`. -/
def Before (p : Piece) (c : Cur) (ty : NT) : Prop :=
  (p.kind ≠ .name → p.stop.le c) ∧ (p.kind = .line → p.stop.row < c.row) ∧
  (p.stop.lt c ∨ p.kind = .lparen ∨ p.kind = .name ∨ ty = .rparen ∨ (p.kind = .rparen ∧ ty = .comment))

/-- The last text of the box may be a line comment. -/
def mayEnd (b : Box) : Bool :=
  endsLine b || isBlock b.ty || (b.ty == .comment && headIsComment b.pkids)

/-- A box ends at `o`, the last text so far being `r`. -/
def After (r : Piece) (o : Cur) (b : Box) : Prop :=
  (r.kind ≠ .name → r.stop.le o) ∧
  (r.kind = .line → r.stop.row < o.row ∨ mayEnd b = true) ∧
  (b.ty = .lparen → r.kind = .lparen) ∧ (b.ty = .rparen → r.kind = .rparen) ∧
  (b.ty = .funname → r.kind = .name)

theorem before_later {p : Piece} {c c' : Cur} {ty ty' : NT} (h : Before p c ty)
    (hty : ty ≠ .rparen ∧ ty ≠ .comment) (hc : c.le c') : Before p c' ty' := by
  obtain ⟨h1, h2, h3⟩ := h
  refine ⟨fun hn => Cur.le_trans (h1 hn) hc, fun hl => Nat.lt_of_lt_of_le (h2 hl) (Cur.le_row hc), ?_⟩
  rcases h3 with h3 | h3 | h3 | h3 | h3
  · exact Or.inl (Cur.lt_of_lt_le h3 hc)
  · exact Or.inr (Or.inl h3)
  · exact Or.inr (Or.inr (Or.inl h3))
  · exact absurd h3 hty.1
  · exact absurd h3.2 hty.2

theorem after_row {r : Piece} {o c : Cur} {b : Box} {ty : NT} (h : After r o b) (hc : o.row < c.row) :
    Before r c ty := by
  obtain ⟨h1, _, _⟩ := h
  by_cases hn : r.kind = .name
  · exact ⟨fun h => absurd hn h, fun h => by simp [hn] at h, Or.inr (Or.inr (Or.inl hn))⟩
  · have := h1 hn
    have hlt : r.stop.lt c := Cur.lt_row (Nat.lt_of_le_of_lt (Cur.le_row this) hc)
    exact ⟨fun _ => Cur.le_of_lt hlt, fun _ => Nat.lt_of_le_of_lt (Cur.le_row this) hc, Or.inl hlt⟩

theorem after_step {r : Piece} {o c : Cur} {b b' : Box} (h : After r o b) (hb : isBlock b.ty = false) (hl : lineOk b = true)
    (hs : Step (some b) o b' c) : Before r c b'.ty := by
  rcases hs with ⟨hs, _⟩ | ⟨he, hs⟩
  · exact after_row h hs
  · obtain ⟨h1, h2, h3, h4, h5⟩ := h
    have hline : r.kind = .line → r.stop.row < o.row := by
      intro hk
      rcases h2 hk with h | h
      · exact h
      · exfalso
        simp only [mayEnd, he, hb, Bool.false_or, Bool.and_eq_true, beq_iff_eq] at h
        have hnl : isLineComment b = false := by
          simp only [endsLine, Bool.or_eq_false_iff] at he; exact he.1
        simp only [lineOk, h.1, hnl, Bool.or_false] at hl
        have := h.2
        unfold headIsComment at this
        unfold bracketOf at hl
        revert hl this
        split <;> simp_all
    rcases hs with rfl | ⟨rfl, ht⟩
    · refine ⟨fun hn => Cur.le_of_lt (Cur.lt_of_le_lt (h1 hn) (Cur.lt_right _)), hline, ?_⟩
      by_cases hn : r.kind = .name
      · exact Or.inr (Or.inr (Or.inl hn))
      · exact Or.inl (Cur.lt_of_le_lt (h1 hn) (Cur.lt_right _))
    · refine ⟨h1, hline, ?_⟩
      rcases ht with ht | ht | ⟨ht, _⟩ | ⟨ht, ht'⟩
      · exact Or.inr (Or.inl (h3 ht))
      · exact Or.inr (Or.inr (Or.inr (Or.inl ht)))
      · exact Or.inr (Or.inr (Or.inl (h5 ht)))
      · exact Or.inr (Or.inr (Or.inr (Or.inr ⟨h4 ht, ht'⟩)))

theorem step_le {prev : Option Box} {cur : Cur} {b : Box} {c : Cur} (h : Step prev cur b c) : cur.le c := by
  rcases h with ⟨h, _⟩ | h
  · exact Or.inl h
  · cases prev with
    | none => simp only at h; subst h; exact Cur.le_refl _
    | some p =>
      simp only at h
      rcases h.2 with rfl | ⟨rfl, _⟩
      · exact Cur.le_of_lt (Cur.lt_right _)
      · exact Cur.le_refl _

theorem follows_of {p : Piece} {c : Cur} {ty : NT} {k : PK} {text : Str} (h : Before p c ty)
    (hk : (ty = .rparen → k = .rparen) ∧ (ty = .comment → k = .line ∨ k = .bracket)) :
    Follows p ⟨k, c, text⟩ := by
  obtain ⟨h1, h2, h3⟩ := h
  refine ⟨h2, ?_⟩
  intro hm
  rcases h3 with h | h | h | h | ⟨h, h'⟩
  · exact h
  · simp only [h, mustSeparate] at hm; simp at hm
  · simp only [h, mustSeparate] at hm; simp at hm
  · rw [hk.1 h] at hm
    simp only [mustSeparate] at hm
    revert hm
    cases p.kind <;> simp
  · rcases hk.2 h' with e | e <;> (rw [h, e] at hm; simp [mustSeparate] at hm)

/-! ## Sequences -/

theorem linked_append_one {ps : List Piece} {q : Piece} {r : Option Piece} (h : Linked ps) (hr : ps.getLast? = r)
    (hf : ∀ p, r = some p → Follows p q) : Linked (ps ++ [q]) := by
  induction ps with
  | nil => trivial
  | cons a as ih =>
    cases as with
    | nil =>
      subst hr
      exact ⟨hf a rfl, trivial⟩
    | cons b bs =>
      refine ⟨h.1, ih h.2 ?_⟩
      rw [← hr, List.getLast?_cons_cons]

theorem linked_tail {p : Piece} {ps : List Piece} (h : Linked (p :: ps)) : Linked ps := by
  cases ps with
  | nil => trivial
  | cons q qs => exact h.2

theorem linked_append {ps qs : List Piece} {r : Option Piece} (h1 : Linked ps) (hr : ps.getLast? = r)
    (h2 : Linked (r.toList ++ qs)) : Linked (ps ++ qs) := by
  induction ps with
  | nil => subst hr; simpa using h2
  | cons a as ih =>
    cases as with
    | nil => subst hr; exact h2
    | cons b bs =>
      refine ⟨h1.1, ih h1.2 ?_⟩
      rw [← hr, List.getLast?_cons_cons]

theorem last_append (ps qs : List Piece) : (ps ++ qs).getLast? = (ps.getLast?.toList ++ qs).getLast? := by
  simp only [List.getLast?_append]
  cases qs.getLast? with
  | none =>
    cases ps.getLast? <;> rfl
  | some q => rfl

/-! ## Scalars -/

theorem case_nl : ∀ n < 128, (lowerChar (Char.ofNat n) = '\n' → Char.ofNat n = '\n') ∧
    (upperChar (Char.ofNat n) = '\n' → Char.ofNat n = '\n') := by decide +kernel

theorem lowerChar_nl {c : Char} (h : lowerChar c = '\n') : c = '\n' := by
  by_cases hc : c.toNat < 128
  · have := (case_nl _ hc).1
    rw [Char.ofNat_toNat] at this
    exact this h
  · simp only [lowerChar] at h
    split at h
    · rename_i hu
      simp only [isUpper, Bool.and_eq_true, decide_eq_true_eq] at hu
      have h2 : c.toNat ≤ 90 := hu.2
      omega
    · exact h

theorem upperChar_nl {c : Char} (h : upperChar c = '\n') : c = '\n' := by
  by_cases hc : c.toNat < 128
  · have := (case_nl _ hc).2
    rw [Char.ofNat_toNat] at this
    exact this h
  · simp only [upperChar] at h
    split at h
    · rename_i hu
      simp only [isLower, Bool.and_eq_true, decide_eq_true_eq] at hu
      have h2 : c.toNat ≤ 122 := hu.2
      omega
    · exact h

theorem lower_nl {s : Str} (h : '\n' ∉ s) : '\n' ∉ lower s := by
  intro hm
  simp only [lower, List.mem_map] at hm
  obtain ⟨c, hc, e⟩ := hm
  rw [lowerChar_nl e] at hc
  exact h hc

theorem upper_nl {s : Str} (h : '\n' ∉ s) : '\n' ∉ upper s := by
  intro hm
  simp only [upper, List.mem_map] at hm
  obtain ⟨c, hc, e⟩ := hm
  rw [upperChar_nl e] at hc
  exact h hc

theorem subEndings_flat {n : Nat} {s : Str} (h1 : '\n' ∉ s) (h2 : '\r' ∉ s) : Text.subEndings n s = s := by
  induction n generalizing s with
  | zero => rfl
  | succ n ih =>
    cases s with
    | nil => simp [Text.subEndings, Text.matchEnding, ruleNewline]
    | cons c cs =>
      have hm : Text.matchEnding (c :: cs) = none := by
        simp only [Text.matchEnding]
        have hsub : ∀ x ∈ (c :: cs).dropWhile isBlank, x ∈ c :: cs := fun x hx =>
          (List.dropWhile_suffix _).subset hx
        generalize (c :: cs).dropWhile isBlank = d at hsub
        have hr : ruleNewline d = none := by
          unfold ruleNewline
          split
          · exact absurd (hsub _ List.mem_cons_self) h1
          · exact absurd (hsub _ List.mem_cons_self) h2
          · exact absurd (hsub _ List.mem_cons_self) h2
          · rfl
        rw [hr]
      simp only [List.mem_cons, not_or] at h1 h2
      simp only [Text.subEndings, hm]
      rw [ih h1.2 h2.2]

theorem normalize_flat {s : Str} (h : flatSpelling s = true) : Text.normalizeLineEndings s = s := by
  simp only [flatSpelling, Bool.and_eq_true, Bool.not_eq_true', List.contains_eq_mem,
    decide_eq_false_iff_not] at h
  exact subEndings_flat h.1 h.2

theorem headTok_spelling {pk : List Node} {t : Token} (h : headTok pk = .ok t) :
    headSpelling pk = t.spelling := by
  cases pk with
  | nil => simp [headTok] at h
  | cons n ns =>
    cases n with
    | tok t' => simp only [headTok, Except.ok.injEq] at h; subst h; rfl
    | node ty a cs => simp [headTok] at h

theorem scalar_stop {cfg : Cfg} {ty : NT} {pk : List Node} {kids : List Box} {parent : Option Str}
    {t : Token} {text : Str} {c : Cur} (hty : ty ≠ .funname) (ht : tidyHere ty pk kids = true)
    (hh : headTok pk = .ok t) (h : scalarText cfg ty parent t = .ok text) :
    advance c text = advance c (Text.normalizeLineEndings t.spelling) := by
  have key : flatSpelling t.spelling = true →
      (text = lower t.spelling ∨ text = upper t.spelling ∨ text = Text.normalizeLineEndings t.spelling) →
      advance c text = advance c (Text.normalizeLineEndings t.spelling) := by
    intro hf h
    have hn := normalize_flat hf
    simp only [flatSpelling, Bool.and_eq_true, Bool.not_eq_true', List.contains_eq_mem,
      decide_eq_false_iff_not] at hf
    rw [hn]
    rcases h with rfl | rfl | rfl
    · rw [advance_flat (lower_nl hf.1), advance_flat hf.1]; simp [lower]
    · rw [advance_flat (upper_nl hf.1), advance_flat hf.1]; simp [upper]
    · rw [hn]
  have case : (if cfg.keywordCase = S "lower" then Except.ok (lower t.spelling)
      else if cfg.keywordCase = S "upper" then Except.ok (upper t.spelling)
      else Except.ok (Text.normalizeLineEndings t.spelling) : Except Err Str) = .ok text →
      (text = lower t.spelling ∨ text = upper t.spelling ∨ text = Text.normalizeLineEndings t.spelling) := by
    intro h
    split at h
    · simp only [Except.ok.injEq] at h; exact Or.inl h.symm
    · split at h
      · simp only [Except.ok.injEq] at h; exact Or.inr (Or.inl h.symm)
      · simp only [Except.ok.injEq] at h; exact Or.inr (Or.inr h.symm)
  cases ty <;> first
    | exact absurd rfl hty
    | (simp only [scalarText, Except.ok.injEq] at h; subst h; rfl)
    | (simp only [scalarText] at h
       simp only [tidyHere, headTok_spelling hh] at ht
       exact key ht (case h))

/-! ## Comments -/

theorem lines_chain {c : Cur} {l : Str} {ls : List Str} {prev : Option Piece} (hl : ∀ x ∈ l :: ls, '\n' ∉ x)
    (hp : ∀ p, prev = some p → Follows p ⟨.line, c, l⟩) :
    Linked (prev.toList ++ linePieces c (l :: ls)) ∧
      ∃ r last, (linePieces c (l :: ls)).getLast? = some r ∧ (l :: ls).getLast? = some last ∧ r.kind = .line ∧
        r.stop = ⟨c.row + ls.length, c.col + last.length⟩ := by
  induction ls generalizing c l prev with
  | nil =>
    have e := advance_flat (hl l (by simp)) c
    refine ⟨?_, ⟨.line, c, l⟩, l, rfl, rfl, rfl, by simp [Piece.stop, e, Cur.right]⟩
    cases prev with
    | none => trivial
    | some p => exact ⟨hp p rfl, trivial⟩
  | cons m ms ih =>
    have e := advance_flat (hl l (by simp)) c
    have hrow : Piece.stop ⟨.line, c, l⟩ = c.right l.length := e
    obtain ⟨h1, r, last, h2, h3, h4, h5⟩ := ih (c := ⟨c.row + 1, c.col⟩) (l := m)
      (prev := some ⟨.line, c, l⟩) (fun x hx => hl x (by simp only [List.mem_cons] at hx ⊢; exact Or.inr hx)) (by
        intro p hp
        simp only [Option.some.injEq] at hp
        subst hp
        refine ⟨fun _ => ?_, fun _ => Cur.lt_row ?_⟩ <;> rw [hrow] <;> exact Nat.lt_succ_self _)
    refine ⟨?_, r, last, ?_, ?_, h4, ?_⟩
    · have : linePieces c (l :: m :: ms) = ⟨.line, c, l⟩ :: linePieces ⟨c.row + 1, c.col⟩ (m :: ms) := rfl
      rw [this]
      cases prev with
      | none => exact h1
      | some p => exact ⟨hp p rfl, h1⟩
    · exact h2
    · rw [List.getLast?_cons_cons]; exact h3
    · rw [h5]; simp only [List.length_cons]; congr 1; omega

theorem comment_oneLine {cfg : Cfg} (hcfg : Markup.CleanCfg cfg.markup) {pk : List Node} {ts : List Token} {ex first : Bool}
    {head : Str} {width : Int} {lines : List Str} (hb : bracketOf pk = none) (hp : pureComment pk = true)
    (ht : commentToks pk = .ok ts)
    (h : Markup.formatComment cfg.markup ex first head width ((ts.filter isComment).map (·.spelling)) = .ok lines) :
    ∀ l ∈ lines, '\n' ∉ l := by
  refine Markup.formatComment_oneLine hcfg ?_ h
  intro s hs
  simp only [List.mem_map, List.mem_filter] at hs
  obtain ⟨t, ⟨hm, hc⟩, rfl⟩ := hs
  simp only [pureComment, hb, Option.isSome_none, Bool.false_or, Bool.and_eq_true, List.all_eq_true] at hp
  have : Node.tok t ∈ pk := by
    clear h hb hp hc
    induction pk generalizing ts with
    | nil => simp only [commentToks, Except.ok.injEq] at ht; subst ht; simp at hm
    | cons n ns ih =>
      cases n with
      | node => simp [commentToks] at ht
      | tok t' =>
        simp only [commentToks] at ht
        split at ht
        case h_2 => simp at ht
        rename_i a ha
        simp only [Except.ok.injEq] at ht
        subst ht
        rcases List.mem_cons.1 hm with rfl | hm
        · exact List.mem_cons_self
        · exact List.mem_cons_of_mem _ (ih ha hm)
  have := hp.2 _ this
  simp only [hc, Bool.not_true, Bool.false_or, Bool.not_eq_true', List.contains_eq_mem,
    decide_eq_false_iff_not] at this
  exact this

theorem pure_line {pk : List Node} (hb : bracketOf pk = none) (hp : pureComment pk = true) :
    headIsComment pk = true := by
  simp only [pureComment, hb, Option.isSome_none, Bool.false_or, Bool.and_eq_true] at hp
  exact hp.1

/-! ## The theorem -/

/-- A relation between neighbours that keeps texts apart, when the first starts at `start`. -/
structure Keeps (ok : Box → Bool) (start : Cur) (S : Option Box → Cur → Box → Cur → Prop) : Prop where
  first : ∀ {b c}, S none start b c → start.le c
  next : ∀ {p cur a b c}, ok a = true → After p cur a → S (some a) cur b c → Before p c b.ty
  later : ∀ {a cur b c}, S (some a) cur b c → cur.le c

theorem keeps_step (start : Cur) : Keeps (fun b => !isBlock b.ty && lineOk b) start Step where
  first hs := step_le hs
  next ha h hs := by
    simp only [Bool.and_eq_true, Bool.not_eq_true'] at ha
    exact after_step h ha.1 ha.2 hs
  later := step_le

theorem keeps_blocks (start : Cur) (tab : Nat) : Keeps (fun _ => true) start (Blocks start.col tab) where
  first hs := by
    obtain ⟨h1, h2⟩ := hs
    refine Or.inr ⟨h2.symm, ?_⟩
    rw [h1]; split <;> omega
  next _ h hs := after_row h (by have := hs.2; simp only at this; omega)
  later hs := Or.inl (by have := hs.2; simp only at this; omega)

/-- What is known between two boxes: `box` was the last one, `prev` the last text. -/
def Near (box : Option Box) (cur : Cur) (prev : Option Piece) : Prop :=
  match box with
  | none => ∀ p, prev = some p → Before p cur .argGroup
  | some a => ∀ p, prev = some p → After p cur a

theorem last_box (prev : Option Box) (b : Box) (bs : List Box) :
    (prev.toList ++ b :: bs).getLast? = ((some b).toList ++ bs).getLast? := by
  rw [List.getLast?_append, List.getLast?_cons]
  simp only [Option.toList_some, List.singleton_append, List.getLast?_cons]
  rfl

theorem lastTerminal_iff (kids : List Box) (k : Box) (h : kids.getLast? = some k) :
    lastTerminal kids = (k.ty == .comment || hasTerminal k) := by
  induction kids with
  | nil => simp at h
  | cons a as ih =>
    cases as with
    | nil => simp only [List.getLast?_singleton, Option.some.injEq] at h; subst h; simp [lastTerminal]
    | cons b bs =>
      rw [List.getLast?_cons_cons] at h
      simp only [lastTerminal]; exact ih h

theorem afterRparen_last {kids : List Box} {k : Box} (h : kids.getLast? = some k) (hr : k.ty ≠ .rparen)
    (ha : kids.any (fun k => k.ty == .rparen) = true) : (afterRparen kids).getLast? = some k := by
  induction kids with
  | nil => simp at h
  | cons a as ih =>
    cases as with
    | nil =>
      simp only [List.getLast?_singleton, Option.some.injEq] at h
      subst h
      simp only [List.any_cons, List.any_nil, Bool.or_false, beq_iff_eq] at ha
      exact absurd ha hr
    | cons b bs =>
      rw [List.getLast?_cons_cons] at h
      simp only [afterRparen]
      split
      · exact h
      · rename_i hn
        simp only [List.any_cons] at ha
        rw [Bool.or_eq_true] at ha
        rcases ha with ha | ha
        · exact absurd (by simpa using ha) hn
        · exact ih h (by simpa using ha)

theorem tidyL_mem {bs : List Box} (h : tidyL bs = true) {k : Box} (hk : k ∈ bs) : tidy k = true := by
  induction bs with
  | nil => simp at hk
  | cons b bs ih =>
    simp only [tidyL, Bool.and_eq_true] at h
    rcases List.mem_cons.1 hk with rfl | hk
    · exact h.1
    · exact ih h.2 hk

theorem comment_head {k : Box} (hty : k.ty = .comment) (ht : tidy k = true) (he : mayEnd k = true) :
    headIsComment k.pkids = true := by
  cases k with
  | mk kty kattr kpk kkids =>
    simp only [Box.ty] at hty
    subst hty
    simp only [tidy, tidyHere, Bool.and_eq_true] at ht
    simp only [Box.pkids]
    cases hb : bracketOf kpk with
    | none => exact pure_line hb ht.1
    | some t =>
      exfalso
      unfold bracketOf at hb
      split at hb
      · rename_i t'
        split at hb
        · rename_i hbt
          simp [mayEnd, endsLine, isLineComment, hasTerminal, isBlock, headIsComment, Box.ty, Box.pkids, hbt] at he
        · simp at hb
      · simp at hb

theorem mayEnd_of {b : Box} (h : endsLine b = true) : mayEnd b = true := by simp [mayEnd, h]

/-- The last child of a box ends a line only if the box does. -/
theorem lift_ends {ty : NT} {attr : Attr} {pk : List Node} {kids : List Box} {k : Box}
    (hg : ty = .argGroup ∨ ty = .pargGroup ∨ ty = .flagGroup ∨ ty = .kwargGroup ∨ ty = .parenGroup)
    (ht : tidyHere ty pk kids = true) (hk : tidy k = true) (hl : kids.getLast? = some k) (he : mayEnd k = true)
    (hb : isBlock k.ty = false) : endsLine (.mk ty attr pk kids) = true := by
  have hc : (k.ty == .comment || hasTerminal k) = true := by
    simp only [mayEnd, endsLine, isLineComment, hb] at he
    revert he
    cases k.ty == NT.comment <;> simp
  simp only [endsLine, Bool.or_eq_true]
  right
  rcases hg with rfl | rfl | rfl | rfl | rfl
  iterate 4 (simp only [hasTerminal]; rw [lastTerminal_iff _ _ hl]; exact hc)
  simp only [tidyHere, closesParen, hl, Bool.and_eq_true, Bool.or_eq_true, beq_iff_eq] at ht
  obtain ⟨⟨ha, ht⟩, _⟩ := ht
  rcases ht with ht | ht
  · exfalso
    cases k with
    | mk kty kattr kpk kkids =>
      simp only [Box.ty] at ht
      subst ht
      simp [hasTerminal, Box.ty] at hc
  · simp only [hasTerminal]
    rw [afterRparen_last hl (by rw [ht]; simp) ha]
    exact comment_head ht hk he

theorem listOk_dropLast {kids : List Box} (h : listOk kids = true) :
    kids.dropLast.all (fun k => !isBlock k.ty && lineOk k) = true := by
  simp only [listOk, Bool.and_eq_true, List.all_eq_true] at *
  intro k hk
  exact ⟨h.1 k (List.dropLast_subset _ hk), h.2 k hk⟩

mutual
/-- The texts of a box placed after a text follow it and each other. -/
theorem chain_node {cfg : Cfg} (hcfg : Markup.CleanCfg cfg.markup) : ∀ (b : Box) (c : Cur) (l : Laid) (o : Cur)
    (parent : Option Str) (ps : List Piece) (prev : Option Piece),
    tidy b = true → Placed cfg b c l o → pieces cfg parent l = .ok ps →
    (∀ p, prev = some p → Before p c b.ty) →
    Linked (prev.toList ++ ps) ∧ c.le o ∧ ∀ r, (prev.toList ++ ps).getLast? = some r → After r o b
  | .mk ty attr pk kids, c, .mk ty' attr' pk' info lines kids', o, parent, ps, prev, ht, hpl, hps, hb => by
    simp only [tidy, Bool.and_eq_true] at ht
    obtain ⟨hth, htk⟩ := ht
    simp only [Placed] at hpl
    obtain ⟨rfl, rfl, rfl, rfl, _, hpl⟩ := hpl
    simp only [Box.ty] at hb
    have group : ∀ (S : Option Box → Cur → Box → Cur → Prop) (ok : Box → Bool) (sp : Option Str),
        (ty' ≠ .lparen ∧ ty' ≠ .rparen ∧ ty' ≠ .funname ∧ ty' ≠ .comment) → kids.dropLast.all ok = true →
        Keeps ok info.pos S → PlacedL cfg S none info.pos kids kids' o → piecesL cfg sp kids' = .ok ps →
        (∀ k, kids.getLast? = some k → mayEnd k = true → mayEnd (.mk ty' attr' pk' kids) = true) →
        Linked (prev.toList ++ ps) ∧ info.pos.le o ∧
          ∀ r, (prev.toList ++ ps).getLast? = some r → After r o (.mk ty' attr' pk' kids) := by
      intro S ok sp hty hall hk hp hps hlift
      obtain ⟨h1, h2, h3⟩ := chain_list hcfg kids S ok info.pos sp none info.pos kids' o ps prev hk htk hall
        (fun _ => rfl) hp hps
        (fun p hp => before_later (hb p hp) ⟨hty.2.1, hty.2.2.2⟩ (Cur.le_refl _))
      refine ⟨h1, h2, fun r hr => ?_⟩
      simp only [Option.toList_none, List.nil_append] at h3
      cases hlast : kids.getLast? with
      | none =>
        rw [hlast] at h3
        obtain ⟨a, b, _⟩ := h3 r hr
        exact ⟨a, fun h => Or.inl (b h), fun h => absurd h hty.1, fun h => absurd h hty.2.1,
          fun h => absurd h hty.2.2.1⟩
      | some k =>
        rw [hlast] at h3
        obtain ⟨a, b, _⟩ := h3 r hr
        refine ⟨a, fun h => ?_, fun h => absurd h hty.1, fun h => absurd h hty.2.1, fun h => absurd h hty.2.2.1⟩
        rcases b h with h | h
        · exact Or.inl h
        · exact Or.inr (hlift k hlast h)
    have stepGroup : (ty' = .argGroup ∨ ty' = .pargGroup ∨ ty' = .flagGroup ∨ ty' = .kwargGroup ∨ ty' = .parenGroup) →
        ∀ sp : Option Str, listOk kids = true → PlacedL cfg Step none info.pos kids kids' o →
        piecesL cfg sp kids' = .ok ps →
        Linked (prev.toList ++ ps) ∧ info.pos.le o ∧
          ∀ r, (prev.toList ++ ps).getLast? = some r → After r o (.mk ty' attr' pk' kids) := by
      intro hg sp hall hp hps
      refine group Step _ sp ?_ (listOk_dropLast hall) (keeps_step _) hp hps ?_
      · rcases hg with rfl | rfl | rfl | rfl | rfl <;> simp
      · intro k hk hm
        refine mayEnd_of (lift_ends hg hth (tidyL_mem htk (List.mem_of_getLast? hk)) hk hm ?_)
        simp only [listOk, Bool.and_eq_true, List.all_eq_true] at hall
        simpa using hall.1 k (List.mem_of_getLast? hk)
    have scalar : isScalar ty' = true →
        (∃ t, headTok pk' = .ok t ∧ (flow info.pos (Text.normalizeLineEndings t.spelling)).2 ≤ info.colext ∧
          kids.length ≤ 1 ∧ (∀ k ∈ kids, k.ty = .comment) ∧ (∀ k ∈ kids', k.colext ≤ info.colext) ∧
          PlacedL cfg Step (some (.mk ty' attr' pk' []))
            (flow info.pos (Text.normalizeLineEndings t.spelling)).1 kids kids' o) →
        (∃ t, headTok pk' = .ok t ∧ ∃ text, scalarText cfg ty' parent t = .ok text ∧
          ∃ u, check (decide (kids'.length ≤ 1) && kids'.all (fun k => k.ty == .comment)) .assertion = .ok u ∧
          ∃ qs, piecesL cfg none kids' = .ok qs ∧ ⟨kindOf ty', info.pos, text⟩ :: qs = ps) →
        Linked (prev.toList ++ ps) ∧ info.pos.le o ∧
          ∀ r, (prev.toList ++ ps).getLast? = some r → After r o (.mk ty' attr' pk' kids) := by
      rintro hsc ⟨t, hh, _, hlen, hcom, _, hp⟩ ⟨t', hh', text, htext, _, _, qs, hqs, rfl⟩
      rw [hh] at hh'
      simp only [Except.ok.injEq] at hh'
      subst hh'
      have hall : ((some (Box.mk ty' attr' pk' [])).toList ++ kids).dropLast.all
          (fun k => !isBlock k.ty && lineOk k) = true := by
        have hb0 : (!isBlock (Box.mk ty' attr' pk' []).ty && lineOk (Box.mk ty' attr' pk' [])) = true := by
          cases ty' <;> first | rfl | simp [isScalar] at hsc
        match kids, hlen with
        | [], _ => rfl
        | [k], _ => simpa using hb0
      have hkind : kindOf ty' ≠ .line := by cases ty' <;> simp [kindOf]
      have hnot : ty' ≠ .lparen ∧ ty' ≠ .rparen ∧ ty' ≠ .comment := by
        refine ⟨?_, ?_, ?_⟩ <;> (intro e; subst e; simp [isScalar] at hsc)
      have hblock : isBlock ty' = false := by cases ty' <;> simp [isScalar] at hsc <;> rfl
      have hfirst : After ⟨kindOf ty', info.pos, text⟩ (flow info.pos (Text.normalizeLineEndings t.spelling)).1
          (.mk ty' attr' pk' []) := by
        refine ⟨fun hn => ?_, fun h => absurd h hkind, fun h => absurd h hnot.1, fun h => absurd h hnot.2.1, ?_⟩
        · have hf : ty' ≠ .funname := by
            intro e; subst e; exact hn rfl
          rw [flow_advance, ← scalar_stop hf hth hh htext]
          exact Cur.le_refl _
        · intro h; simp only [Box.ty] at h; subst h; rfl
      obtain ⟨h1, h2, h3⟩ := chain_list hcfg kids Step (fun k => !isBlock k.ty && lineOk k) info.pos none
        (some (.mk ty' attr' pk' [])) _ kids' o qs (some ⟨kindOf ty', info.pos, text⟩) (keeps_step _) htk hall
        (fun h => by simp at h) hp hqs
        (fun p hp => by
          simp only [Option.some.injEq] at hp; subst hp; exact hfirst)
      refine ⟨?_, Cur.le_trans ?_ h2, ?_⟩
      · cases prev with
        | none => exact h1
        | some p => exact ⟨follows_of (hb p rfl) ⟨fun h => absurd h hnot.2.1, fun h => absurd h hnot.2.2⟩, h1⟩
      · rw [flow_advance]; exact advance_le _ _
      · intro r hr
        have hr' : ((some (⟨kindOf ty', info.pos, text⟩ : Piece)).toList ++ qs).getLast? = some r := by
          rw [List.getLast?_append, List.getLast?_cons] at hr
          simp only [Option.toList_some, List.singleton_append, List.getLast?_cons]
          exact hr
        cases hlast : kids.getLast? with
        | none =>
          have hnil : kids = [] := by simpa using hlast
          subst hnil
          exact (h3 r hr')
        | some k =>
          have hkm := List.mem_of_getLast? hlast
          have e1 : ((some (Box.mk ty' attr' pk' [])).toList ++ kids).getLast? = some k := by
            rw [List.getLast?_append, hlast]; rfl
          unfold Near at h3
          rw [e1] at h3
          obtain ⟨a, b, _⟩ := h3 r hr'
          refine ⟨a, fun h => ?_, fun h => absurd h hnot.1, fun h => absurd h hnot.2.1, fun h => ?_⟩
          · rcases b h with h | h
            · exact Or.inl h
            · right
              refine mayEnd_of ?_
              have hkt : k.ty = .comment := hcom k hkm
              have hktidy := tidyL_mem htk hkm
              have : headIsComment k.pkids = true := comment_head hkt hktidy h
              simp only [endsLine, Bool.or_eq_true]
              right
              cases ty' <;> simp [isScalar] at hsc <;> (simp only [hasTerminal, hlast]; exact this)
          · exfalso
            simp only [Box.ty] at h
            subst h
            simp only [tidyHere, List.isEmpty_iff] at hth
            subst hth
            simp at hkm
    cases ty' with
    | onoff => simp [tidyHere] at hth
    | whitespace =>
      simp only [pieces, Except.ok.injEq] at hps
      obtain ⟨_, rfl⟩ := hpl
      subst hps
      refine ⟨?_, Cur.le_refl _, ?_⟩
      · cases prev <;> trivial
      · intro r hr
        cases prev with
        | none => simp at hr
        | some p =>
          simp only [Option.toList_some, List.append_nil, List.getLast?_singleton, Option.some.injEq] at hr
          subst hr
          obtain ⟨a, b, _⟩ := hb p rfl
          exact ⟨a, fun h => Or.inl (b h), fun h => by simp [Box.ty] at h, fun h => by simp [Box.ty] at h,
            fun h => by simp [Box.ty] at h⟩
    | lparen =>
      simp only [pieces, Except.ok.injEq] at hps
      obtain ⟨_, rfl, _⟩ := hpl
      subst hps
      refine ⟨?_, Cur.le_of_lt (Cur.lt_right _), ?_⟩
      · cases prev with
        | none => trivial
        | some p => exact ⟨follows_of (hb p rfl) ⟨fun h => by simp at h, fun h => by simp at h⟩, trivial⟩
      · intro r hr
        simp only [List.getLast?_append, List.getLast?_singleton, Option.some_or, Option.some.injEq] at hr
        subst hr
        exact ⟨fun _ => Cur.le_refl _, fun h => by simp at h, fun _ => rfl, fun h => by simp [Box.ty] at h,
          fun h => by simp [Box.ty] at h⟩
    | rparen =>
      simp only [pieces, Except.ok.injEq] at hps
      obtain ⟨_, rfl, _⟩ := hpl
      subst hps
      refine ⟨?_, Cur.le_of_lt (Cur.lt_right _), ?_⟩
      · cases prev with
        | none => trivial
        | some p => exact ⟨follows_of (hb p rfl) ⟨fun _ => rfl, fun h => by simp at h⟩, trivial⟩
      · intro r hr
        simp only [List.getLast?_append, List.getLast?_singleton, Option.some_or, Option.some.injEq] at hr
        subst hr
        exact ⟨fun _ => Cur.le_refl _, fun h => by simp at h, fun h => by simp [Box.ty] at h, fun _ => rfl,
          fun h => by simp [Box.ty] at h⟩
    | comment =>
      obtain ⟨_, hpl⟩ := hpl
      simp only [tidyHere] at hth
      cases hbr : bracketOf pk' with
      | some t =>
        simp only [hbr] at hpl
        simp only [pieces, hbr, Except.ok.injEq] at hps
        obtain ⟨rfl, _⟩ := hpl
        subst hps
        rw [flow_advance]
        refine ⟨?_, advance_le _ _, ?_⟩
        · cases prev with
          | none => trivial
          | some p => exact ⟨follows_of (hb p rfl) ⟨fun h => by simp at h, fun _ => Or.inr rfl⟩, trivial⟩
        · intro r hr
          simp only [List.getLast?_append, List.getLast?_singleton, Option.some_or, Option.some.injEq] at hr
          subst hr
          exact ⟨fun _ => Cur.le_refl _, fun h => by simp at h, fun h => by simp [Box.ty] at h,
            fun h => by simp [Box.ty] at h, fun h => by simp [Box.ty] at h⟩
      | none =>
        simp only [hbr] at hpl
        simp only [pieces, hbr, Except.ok.injEq] at hps
        obtain ⟨ts, last, hts, hfc, hlast, rfl, _⟩ := hpl
        subst hps
        have hone := comment_oneLine hcfg hbr hth hts hfc
        cases lines with
        | nil => simp at hlast
        | cons l ls =>
          obtain ⟨h1, r', last', h2, h3, h4, h5⟩ := lines_chain (c := info.pos) (prev := prev) hone
            (fun p hp => follows_of (hb p hp) ⟨fun h => by simp at h, fun _ => Or.inl rfl⟩)
          rw [h3] at hlast
          simp only [Option.some.injEq] at hlast
          subst hlast
          refine ⟨h1, ?_, ?_⟩
          · unfold Cur.le; simp only [List.length_cons]; omega
          · intro r hr
            rw [List.getLast?_append, h2] at hr
            simp only [Option.some_or, Option.some.injEq] at hr
            subst hr
            refine ⟨fun _ => ?_, fun _ => ?_, fun h => by simp [Box.ty] at h,
              fun h => by simp [Box.ty] at h, fun h => by simp [Box.ty] at h⟩
            · rw [h5]; exact Or.inr ⟨rfl, Nat.le_refl _⟩
            · right
              simp [mayEnd, Box.ty, Box.pkids, pure_line hbr hth]
    | body =>
      exact group (Blocks info.pos.col 0) (fun _ => true) none (by simp) (by simp) (keeps_blocks _ _) hpl.2 hps
        (fun _ _ _ => by simp [mayEnd, isBlock, Box.ty])
    | flowControl =>
      exact group (Blocks info.pos.col cfg.tabSize) (fun _ => true) none (by simp) (by simp) (keeps_blocks _ _) hpl.2 hps
        (fun _ _ _ => by simp [mayEnd, isBlock, Box.ty])
    | statement =>
      exact group Step _ attr'.spelling (by simp) (listOk_dropLast hth) (keeps_step _) (placedL_mono And.left hpl.2) hps
        (fun _ _ _ => by simp [mayEnd, isBlock, Box.ty])
    | atwordStatement =>
      exact group Step _ attr'.spelling (by simp) (listOk_dropLast hth) (keeps_step _) (placedL_mono And.left hpl.2) hps
        (fun _ _ _ => by simp [mayEnd, isBlock, Box.ty])
    | argGroup => exact stepGroup (by simp) attr'.spelling hth hpl.2 hps
    | pargGroup => exact stepGroup (by simp) none hth hpl.2 hps
    | flagGroup => exact stepGroup (by simp) none hth hpl.2 hps
    | kwargGroup => exact stepGroup (by simp) none hth hpl.2 hps
    | parenGroup =>
      have h := hth
      simp only [tidyHere, Bool.and_eq_true] at h
      exact stepGroup (by simp) attr'.spelling h.2 hpl.2 hps
    | funname => exact scalar rfl hpl (by simpa only [pieces, bind_ok, Except.ok.injEq] using hps)
    | argument => exact scalar rfl hpl (by simpa only [pieces, bind_ok, Except.ok.injEq] using hps)
    | keyword => exact scalar rfl hpl (by simpa only [pieces, bind_ok, Except.ok.injEq] using hps)
    | flag => exact scalar rfl hpl (by simpa only [pieces, bind_ok, Except.ok.injEq] using hps)
    | atword => exact scalar rfl hpl (by simpa only [pieces, bind_ok, Except.ok.injEq] using hps)
/-- The same of a sequence of boxes. -/
theorem chain_list {cfg : Cfg} (hcfg : Markup.CleanCfg cfg.markup) : ∀ (bs : List Box)
    (S : Option Box → Cur → Box → Cur → Prop) (ok : Box → Bool) (start : Cur) (parent : Option Str)
    (box : Option Box) (cur : Cur) (ls : List Laid) (out : Cur) (ps : List Piece) (prev : Option Piece),
    Keeps ok start S → tidyL bs = true → (box.toList ++ bs).dropLast.all ok = true → (box = none → cur = start) →
    PlacedL cfg S box cur bs ls out → piecesL cfg parent ls = .ok ps → Near box cur prev →
    Linked (prev.toList ++ ps) ∧ cur.le out ∧ Near (box.toList ++ bs).getLast? out (prev.toList ++ ps).getLast?
  | [], S, ok, start, parent, box, cur, ls, out, ps, prev, _, _, _, _, hp, hps, hn => by
    simp only [PlacedL] at hp
    obtain ⟨rfl, rfl⟩ := hp
    simp only [piecesL, Except.ok.injEq] at hps
    subst hps
    refine ⟨?_, Cur.le_refl _, ?_⟩
    · cases prev <;> trivial
    · have e1 : (prev.toList ++ []).getLast? = prev := by cases prev <;> rfl
      have e2 : (box.toList ++ []).getLast? = box := by cases box <;> rfl
      rw [e1, e2]; exact hn
  | b :: bs, S, ok, start, parent, box, cur, ls, out, ps, prev, hk, ht, hall, hstart, hp, hps, hn => by
    simp only [tidyL, Bool.and_eq_true] at ht
    simp only [PlacedL] at hp
    match ls, hp, hps with
    | l :: ls', hp, hps =>
      simp only at hp
      obtain ⟨c', o, hs, hpl, hrest⟩ := hp
      simp only [piecesL, bind_ok, Except.ok.injEq] at hps
      obtain ⟨qs, hqs, rs, hrs, rfl⟩ := hps
      have hbefore : ∀ p, prev = some p → Before p c' b.ty := by
        intro p hpe
        cases box with
        | none =>
          have := hstart rfl
          subst this
          exact before_later (hn p hpe) ⟨by simp, by simp⟩ (hk.first hs)
        | some a =>
          have hok : ok a = true := by
            simp only [Option.toList_some, List.singleton_append, List.dropLast_cons_cons, List.all_cons,
              Bool.and_eq_true] at hall
            exact hall.1
          exact hk.next hok (hn p hpe) hs
      have hall' : ((some b).toList ++ bs).dropLast.all ok = true := by
        cases box with
        | none => exact hall
        | some a =>
          simp only [Option.toList_some, List.singleton_append, List.dropLast_cons_cons, List.all_cons,
            Bool.and_eq_true] at hall
          exact hall.2
      have hle : cur.le c' := by
        cases box with
        | none =>
          have := hstart rfl
          subst this
          exact hk.first hs
        | some a => exact hk.later hs
      obtain ⟨h1, h2, h3⟩ := chain_node hcfg b c' l o parent qs prev ht.1 hpl hqs hbefore
      obtain ⟨g1, g2, g3⟩ := chain_list hcfg bs S ok start parent (some b) o ls' out rs
        (prev.toList ++ qs).getLast? hk ht.2 hall' (fun h => by simp at h) hrest hrs h3
      refine ⟨?_, Cur.le_trans hle (Cur.le_trans h2 g2), ?_⟩
      · rw [← List.append_assoc]
        exact linked_append h1 rfl g1
      · rw [last_box, ← List.append_assoc, last_append]
        exact g3
end

end Verif.Layout
