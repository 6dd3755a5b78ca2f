import Verif.ParseTokens
import Verif.ParseFuel
import Verif.ParseMono
import Verif.ParseShape
import Verif.Cover

/-!
# Blanks and letter case do not influence the parse tree (lemmas for C59)

Two lists of tokens without comments that differ in blanks, positions and letter case are read
as the same tree, up to blanks, positions and letter case.
-/

namespace Verif.Parse
open Verif Py Lex

/-! ## Tokens and trees up to blanks -/

/-- A token without its place and letter case. -/
def canon (t : Token) : Token := ⟨t.type, lower t.spelling, 0, ⟨0, 0, 0⟩, ⟨0, 0, 0⟩⟩

/-- A blank among the children of a node. -/
def blankNode : Node → Bool
  | .tok t => isWs t
  | .node ty _ _ => ty == .whitespace

mutual
/-- A tree without blanks, places and letter case. -/
def bare : Node → Node
  | .tok t => .tok (canon t)
  | .node ty a cs => .node ty a (bareL cs)
/-- All of them. -/
def bareL : List Node → List Node
  | [] => []
  | n :: ns => if blankNode n then bareL ns else bare n :: bareL ns
end

@[simp] theorem bare_tok (t : Token) : bare (.tok t) = .tok (canon t) := by simp [bare]
@[simp] theorem bare_node (ty : NT) (a : Attr) (cs : List Node) :
    bare (.node ty a cs) = .node ty a (bareL cs) := by simp [bare]
@[simp] theorem bare_mk (ty : NT) (cs : List Node) : bare (mk ty cs) = .node ty {} (bareL cs) := by simp [mk]
@[simp] theorem bare_mkPos (n : Nargs) (cs : List Node) :
    bare (mkPos n cs) = .node .pargGroup { nargs := some n } (bareL cs) := by simp [mkPos]
@[simp] theorem bare_mkArg (r : Role) (cs : List Node) :
    bare (mkArg r cs) = .node .argGroup { role := r } (bareL cs) := by simp [mkArg]
@[simp] theorem bare_mkBare (cs : List Node) :
    bare (mkBare cs) = .node .comment { role := .bare } (bareL cs) := by simp [mkBare]
@[simp] theorem bareL_nil : bareL [] = [] := by simp [bareL]
theorem bareL_cons (n : Node) (ns : List Node) :
    bareL (n :: ns) = if blankNode n then bareL ns else bare n :: bareL ns := by rw [bareL]
@[simp] theorem bareL_append (a b : List Node) : bareL (a ++ b) = bareL a ++ bareL b := by
  induction a with
  | nil => simp
  | cons n a ih => rw [List.cons_append, bareL_cons, bareL_cons, ih]; split <;> simp
@[simp] theorem bareL_ws (t : Token) (ns : List Node) (h : isWs t = true) : bareL (.tok t :: ns) = bareL ns := by
  rw [bareL_cons]; simp [blankNode, h]
theorem bareL_ink (t : Token) (ns : List Node) (h : isWs t = false) :
    bareL (.tok t :: ns) = .tok (canon t) :: bareL ns := by
  rw [bareL_cons]; simp [blankNode, h]
theorem bareL_node (ty : NT) (a : Attr) (cs ns : List Node) (h : ty ≠ .whitespace) :
    bareL (.node ty a cs :: ns) = .node ty a (bareL cs) :: bareL ns := by
  rw [bareL_cons]; simp [blankNode, h]
theorem bareL_leaves {ts : List Token} (h : ∀ t ∈ ts, isWs t = true) : bareL (leaves ts) = [] := by
  induction ts with
  | nil => simp [leaves]
  | cons t ts ih =>
    simp only [leaves, List.map_cons]
    rw [bareL_ws _ _ (h t (by simp))]
    exact ih fun u hu => h u (by simp [hu])
theorem bareL_takeWs (ts : List Token) : bareL (leaves (ts.takeWhile isWs)) = [] :=
  bareL_leaves fun _ ht => mem_takeWs ht

/-- The type of the node, for nodes that are no blanks. -/
theorem bareL_one {n n' : Node} (h : bare n = bare n') : bareL [n] = bareL [n'] := by
  rw [bareL_cons, bareL_cons, h]
  have : blankNode n = blankNode n' := by
    cases n with
    | tok t =>
      cases n' with
      | tok u =>
        simp only [bare_tok, Node.tok.injEq, canon, Token.mk.injEq] at h
        simp [blankNode, isWs, h.1]
      | node ty a cs => simp at h
    | node ty a cs =>
      cases n' with
      | tok u => simp at h
      | node ty' a' cs' => simp only [bare_node, Node.node.injEq] at h; simp [blankNode, h.1]
  rw [this]

/-- The same tokens up to blanks, places and letter case. -/
def Alike (ts us : List Token) : Prop := (semantics ts).map canon = (semantics us).map canon

/-- Some token is left that is no blank. -/
def HasSem (ts : List Token) : Prop := semantics ts ≠ []

/-- The list does not start with a blank. -/
def NoLead (ts : List Token) : Prop := ∀ t ts', ts = t :: ts' → isWs t = false

/-- No spelling of a blank is a keyword. -/
def Visible (w : Str) : Prop := ∃ c ∈ upper w, isSpace c = false

/-- `foreach` with one argument is read in two ways, depending on a blank after the argument. -/
def NoBareForeach (ts : List Token) : Prop :=
  ∀ a t l x b, semantics ts = a ++ t :: l :: x :: b → lower t.spelling = S "foreach" → l.type = .lparen →
    x.type ≠ .lparen ∧ ∀ r b', b = r :: b' → r.type ≠ .rparen

/-- The lists considered. -/
structure ListOk (ts : List Token) : Prop where
  comments : ∀ t ∈ ts, isAnyComment t = false ∧ isOnOff t = false
  blanks : ∀ t ∈ ts, isWs t = true → ∀ c ∈ t.spelling, isSpace c = true
  foreach_ : NoBareForeach ts
  nobom : ∀ t ∈ ts, t.type ≠ .bom

theorem semantics_append (a b : List Token) : semantics (a ++ b) = semantics a ++ semantics b := by
  simp [semantics]

theorem ListOk.suffix {ts us : List Token} (h : ListOk ts) (s : us <:+ ts) : ListOk us where
  comments t ht := h.comments t (s.subset ht)
  blanks t ht := h.blanks t (s.subset ht)
  nobom t ht := h.nobom t (s.subset ht)
  foreach_ := by
    obtain ⟨c, rfl⟩ := s
    intro a t l x b e
    exact h.foreach_ (semantics c ++ a) t l x b (by rw [semantics_append, e]; simp)

theorem HasSem.suffix {ts us : List Token} (h : HasSem us) (s : us <:+ ts) : HasSem ts := by
  obtain ⟨c, rfl⟩ := s
  intro e
  rw [semantics_append] at e
  exact h (List.append_eq_nil_iff.1 e).2

theorem HasSem.alike {ts us : List Token} (h : HasSem ts) (a : Alike ts us) : HasSem us := by
  intro e
  simp only [Alike, e, List.map_nil, List.map_eq_nil_iff] at a
  exact h a

theorem Alike.symm {ts us : List Token} (h : Alike ts us) : Alike us ts := Eq.symm h

theorem semantics_ws {t : Token} {ts : List Token} (h : isWs t = true) : semantics (t :: ts) = semantics ts := by
  simp [semantics, isSemantic, h]

theorem semantics_ink {t : Token} {ts : List Token} (h : isWs t = false) (h1 : isAnyComment t = false)
    (h2 : isOnOff t = false) : semantics (t :: ts) = t :: semantics ts := by
  simp [semantics, isSemantic, h, h1, h2]

theorem semantics_dropWs (ts : List Token) : semantics (ts.dropWhile isWs) = semantics ts := by
  induction ts with
  | nil => rfl
  | cons t ts ih =>
    cases h : isWs t with
    | true => rw [List.dropWhile_cons_of_pos h, ih, semantics_ws h]
    | false => rw [List.dropWhile_cons_of_neg (by simp [h])]

theorem alike_drop {ts us : List Token} (h : Alike ts us) : Alike (ts.dropWhile isWs) (us.dropWhile isWs) := by
  simp only [Alike, semantics_dropWs]; exact h

theorem alike_ws {t : Token} {ts us : List Token} (h : Alike (t :: ts) us) (ht : isWs t = true) : Alike ts us := by
  simp only [Alike, semantics_ws ht] at h; exact h

theorem noLead_drop (ts : List Token) : NoLead (ts.dropWhile isWs) := by
  intro t ts' e
  have := List.head?_dropWhile_not isWs ts
  rw [e] at this
  simpa using this

/-- Lists that start without a blank. -/
theorem alike_cons {t : Token} {ts us : List Token} (ht : isWs t = false) (ok : ListOk (t :: ts)) (ok' : ListOk us)
    (hl : NoLead us) (h : Alike (t :: ts) us) : ∃ u us', us = u :: us' ∧ isWs u = false ∧ canon t = canon u ∧ Alike ts us' := by
  have hc := ok.comments t (by simp)
  simp only [Alike, semantics_ink ht hc.1 hc.2, List.map_cons] at h
  cases us with
  | nil => simp [semantics] at h
  | cons u us =>
    have hu := hl u us rfl
    have hd := ok'.comments u (by simp)
    rw [semantics_ink hu hd.1 hd.2, List.map_cons, List.cons.injEq] at h
    exact ⟨u, us, rfl, hu, h.1, h.2⟩

theorem alike_nil {us : List Token} (h : Alike [] us) (ok : ListOk us) (hl : NoLead us) : us = [] := by
  cases us with
  | nil => rfl
  | cons u us =>
    have hu := hl u us rfl
    have hd := ok.comments u (by simp)
    rw [Alike, semantics_ink hu hd.1 hd.2] at h
    simp [semantics] at h

/-! ## What tokens of the same form have in common -/

theorem case_table : ∀ n < 128, upperChar (lowerChar (Char.ofNat n)) = upperChar (Char.ofNat n) ∧
    (('-' = Char.ofNat n) ↔ ('-' = lowerChar (Char.ofNat n))) ∧
    (('$' = Char.ofNat n) ↔ ('$' = lowerChar (Char.ofNat n))) ∧
    (('{' = Char.ofNat n) ↔ ('{' = lowerChar (Char.ofNat n))) ∧
    isSpace (upperChar (Char.ofNat n)) = isSpace (Char.ofNat n) := by decide +kernel

theorem case_facts (c : Char) : upperChar (lowerChar c) = upperChar c ∧ (('-' = c) ↔ ('-' = lowerChar c)) ∧
    (('$' = c) ↔ ('$' = lowerChar c)) ∧ (('{' = c) ↔ ('{' = lowerChar c)) ∧
    isSpace (upperChar c) = isSpace c := by
  by_cases h : c.toNat < 128
  · have := case_table c.toNat h
    rwa [Char.ofNat_toNat] at this
  · have h1 : lowerChar c = c := by
      unfold lowerChar
      rw [if_neg]
      simp [isUpper] at *
      intro _
      show 90 < c.toNat
      omega
    have h2 : upperChar c = c := by
      unfold upperChar
      rw [if_neg]
      simp [isLower] at *
      intro _
      show 122 < c.toNat
      omega
    rw [h1, h2]
    simp

theorem upper_lower (s : Str) : upper (lower s) = upper s := by
  simp [lower, upper, (case_facts _).1]

theorem upper_of_lower {s s' : Str} (h : lower s = lower s') : upper s = upper s' := by
  rw [← upper_lower s, h, upper_lower]

section
variable {t u : Token} (h : canon t = canon u)
include h

theorem canon_type : t.type = u.type := by simp only [canon, Token.mk.injEq] at h; exact h.1
theorem canon_lower : lower t.spelling = lower u.spelling := by simp only [canon, Token.mk.injEq] at h; exact h.2.1
theorem canon_upper : upper t.spelling = upper u.spelling := upper_of_lower (canon_lower h)
theorem canon_ws : isWs t = isWs u := by simp [isWs, canon_type h]
theorem canon_comment : isAnyComment t = isAnyComment u := by simp [isAnyComment, canon_type h]
theorem canon_onoff : isOnOff t = isOnOff u := by simp [isOnOff, canon_type h]

omit h in
theorem dash_lower (s : Str) : startsWith ['-'] s = startsWith ['-'] (lower s) := by
  cases s with
  | nil => rfl
  | cons c s =>
    have this := (case_facts c).2.1
    simp only [startsWith, lower, List.map_cons, stripPrefix?]
    by_cases hc : '-' = c
    · rw [if_pos hc, if_pos (this.1 hc)]; rfl
    · rw [if_neg hc, if_neg (fun e => hc (this.2 e))]

theorem canon_normKwarg : normKwarg t = normKwarg u := by
  simp only [normKwarg, canon_type h, canon_lower h, canon_upper h]
  rw [dash_lower t.spelling, dash_lower u.spelling, canon_lower h]

theorem canon_kwargIn (ws : List Str) : kwargIn t ws = kwargIn u ws := by
  simp only [kwargIn, canon_normKwarg h]

theorem canon_shouldBreak (brk : List Breaker) : shouldBreak t brk = shouldBreak u brk := by
  simp only [shouldBreak]
  congr 1
  funext b
  cases b with
  | paren => simp [Breaker.fires, canon_type h]
  | kwargs ws => simp [Breaker.fires, canon_upper h]

end

/-- Only comments carry tags. -/
theorem tagIn_comment {t : Token} (h : isAnyComment t = false) (ws : List Str) : tagIn t ws = false := by
  simp only [isAnyComment, Bool.or_eq_false_iff, beq_eq_false_iff_ne] at h
  simp [tagIn, getTag, h.1, h.2]

theorem annotated_plain {ts : List Token} (ok : ListOk ts) (spec : PSpec) : annotated spec ts = spec.sortable := by
  cases ts with
  | nil => rfl
  | cons t ts =>
    have := (ok.comments t (by simp)).1
    simp [annotated, tagIn_comment this]

/-- No comment follows. -/
theorem nextExplicit_plain (ctx : Ctx) {ts : List Token} (ok : ListOk ts) : nextExplicit ctx ts = false := by
  induction ts with
  | nil => rfl
  | cons t ts ih =>
    have h := (ok.comments t (by simp)).1
    simp only [isAnyComment, Bool.or_eq_false_iff, beq_eq_false_iff_ne] at h
    simp only [nextExplicit]
    split
    · exact ih (ok.suffix (List.suffix_cons t ts))
    · simp [h.1]

theorem consumeTrailing_plain (ctx : Ctx) {ts : List Token} (ok : ListOk ts) : consumeTrailing ctx ts = ([], ts) := by
  have : nextTrailing ctx ts = false := by
    cases ts with
    | nil => rfl
    | cons t ts =>
      simp only [nextTrailing, nextExplicit_plain ctx ok, Bool.false_or, validTrailing, (ok.comments t (by simp)).1,
        Bool.false_and]
      cases ts with
      | nil => rfl
      | cons u us => simp [(ok.comments u (by simp)).1]
  simp [consumeTrailing, this]

end Verif.Parse
