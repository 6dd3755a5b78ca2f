import Verif.BoxTree
import Verif.ParseTokens

/-!
# The texts written for a tree are the texts of its program tokens
-/

namespace Verif.Layout
open Verif Py Lex Parse

/-! ## Program tokens of boxes -/

/-- The first token. -/
def headToks : List Node → List Token
  | .tok t :: _ => [t]
  | _ => []

mutual
/-- The program tokens of a box, in the order of its texts. -/
def progB : Box → List Token
  | .mk ty _ pk kids =>
    match ty with
    | .lparen | .rparen | .funname | .argument | .keyword | .flag | .atword => headToks pk
    | .comment | .whitespace | .onoff => []
    | _ => progBL kids
/-- Of a list. -/
def progBL : List Box → List Token
  | [] => []
  | b :: bs => progB b ++ progBL bs
end

theorem progBL_append (a b : List Box) : progBL (a ++ b) = progBL a ++ progBL b := by
  induction a with
  | nil => rfl
  | cons x xs ih => simp [progBL, ih]

theorem progBL_flatMap (bs : List Box) : progBL bs = bs.flatMap progB := by
  induction bs with
  | nil => rfl
  | cons b bs ih => simp [progBL, ih]

mutual
/-- Sorting permutes the program tokens. -/
theorem progB_lock (cfg : Cfg) : ∀ b : Box, (progB (lock cfg b)).Perm (progB b)
  | .mk ty attr pk kids => by
    have ih := progBL_lock cfg kids
    have key : ∀ ks : List Box, ks.Perm (lockL cfg kids) → (progB (.mk ty attr pk ks)).Perm (progB (.mk ty attr pk kids)) := by
      intro ks hp
      have h1 : (progBL ks).Perm (progBL kids) := by
        rw [progBL_flatMap]
        refine (hp.flatMap_right _).trans ?_
        rw [← progBL_flatMap]
        exact ih
      cases ty <;> simp only [progB] <;> first | exact h1 | exact List.Perm.refl _
    simp only [lock]
    split
    · exact key _ (Props.ArgSort.sort_perm _ _ _)
    · exact key _ (List.Perm.refl _)
/-- The children. -/
theorem progBL_lock (cfg : Cfg) : ∀ bs : List Box, (progBL (lockL cfg bs)).Perm (progBL bs)
  | [] => List.Perm.refl _
  | b :: bs => by
    simp only [lockL, progBL]
    exact (progB_lock cfg b).append (progBL_lock cfg bs)
end

mutual
/-- Without sorting a box stays as it is. -/
theorem lock_id {cfg : Cfg} (h : cfg.autosort = false) : ∀ b : Box, lock cfg b = b
  | .mk ty attr pk kids => by
    simp [lock, h, lockL_id h kids]
/-- The children. -/
theorem lockL_id {cfg : Cfg} (h : cfg.autosort = false) : ∀ bs : List Box, lockL cfg bs = bs
  | [] => rfl
  | b :: bs => by simp [lockL, lock_id h b, lockL_id h bs]
end

/-! ## Program tokens of a tree -/

theorem semantics_append (a b : List Token) : semantics (a ++ b) = semantics a ++ semantics b := by
  simp [semantics]

theorem semantics_one {t : Token} (h : isSemantic t = true) : semantics [t] = [t] := by
  simp [semantics, h]

theorem toksL_leaves' (ts : List Token) : toksL (leaves ts) = ts := by
  induction ts with
  | nil => rfl
  | cons t ts ih => simp only [leaves, List.map_cons, toksL_cons, toks_tok, List.singleton_append] at *; rw [ih]

theorem ws_not {t : Token} (h : isWs t = true) : isSemantic t = false := by simp [isSemantic, h]

theorem comment_not {t : Token} (h : isAnyComment t = true) : isSemantic t = false := by simp [isSemantic, h]

theorem semantics_comment {cs : List Node} (h : CommentShape cs) : semantics (toksL cs) = [] := by
  obtain ⟨t, ts, rfl, ht, hts⟩ := h
  rw [toksL_leaves']
  apply semantics_nil
  intro u hu
  rcases List.mem_cons.1 hu with rfl | hu
  · exact comment_not ht
  · rcases hts u hu with h | h
    · exact ws_not h
    · exact comment_not h

theorem semantics_trail {ctx : Ctx} {cs : List Node} (h : Trail cs) (hn : ∀ c ∈ cs, Neat ctx c) :
    semantics (toksL cs) = [] := by
  rcases h with rfl | ⟨ws, a, ds, rfl, hw⟩
  · rfl
  · have : CommentShape ds := (neat_node.1 (hn (.node .comment a ds) (by simp))).1
    rw [toksL_append, semantics_append, toksL_leaves', semantics_nil (fun t ht => ws_not (hw t ht))]
    simp [semantics_comment this]

section
variable {ctx : Ctx}

mutual
/-- The program tokens of a node are those of its boxes. -/
theorem prog_node : ∀ n : Node, Neat ctx n → (∀ t ∈ n.toks, TokOk t) → (∀ t, n = .tok t → isWs t = true) →
    progBL (boxOf n) = semantics n.toks
  | .tok t, _, _, hw => by
    simp only [boxOf, progBL, toks_tok]
    rw [semantics_nil]
    intro u hu
    simp only [List.mem_singleton] at hu
    subst hu
    exact ws_not (hw _ rfl)
  | .node ty a cs, hn, ht, _ => by
    have here := (neat_node.1 hn).1
    have hc := (neat_node.1 hn).2
    simp only [toks_node] at ht ⊢
    have list : (∀ t, Node.tok t ∈ cs → isWs t = true) → ty ≠ .whitespace → progBL (boxesOf cs) = progB (.mk ty a cs (boxesOf cs)) →
        progBL (boxOf (.node ty a cs)) = semantics (toksL cs) := by
      intro hw hne e
      rw [boxOf_mk hne]
      simp only [progBL, List.append_nil]
      rw [← e]
      exact prog_list cs hc ht hw
    have word : ∀ t trail, cs = .tok t :: trail → isSemantic t = true → Trail trail → ty ≠ .whitespace →
        progB (.mk ty a cs (boxesOf cs)) = headToks cs → progBL (boxOf (.node ty a cs)) = semantics (toksL cs) := by
      intro t trail e hs htr hne hp
      rw [boxOf_mk hne]
      simp only [progBL, List.append_nil, hp]
      subst e
      simp only [toksL_cons, toks_tok, semantics_append, headToks]
      rw [semantics_one hs, semantics_trail htr (fun c h => hc c (by simp [h]))]
      rfl
    have block : (∀ c ∈ cs, ∀ t, c ≠ .tok t) → (∀ t, Node.tok t ∈ cs → isWs t = true) :=
      fun h t ht => absurd rfl (h _ ht t)
    cases ty with
    | whitespace =>
      obtain ⟨t, ts, rfl, hw⟩ := here
      have e1 : progBL (boxOf (.node .whitespace a (leaves (t :: ts)))) = [] := by
        simp only [boxOf]
        split <;> simp [progBL, progB]
      rw [e1, toksL_leaves', semantics_nil (fun u hu => ws_not (hw u hu))]
    | comment =>
      rw [boxOf_mk (by simp), semantics_comment here]
      simp [progBL, progB]
    | onoff =>
      obtain ⟨t, rfl, h⟩ := here
      exact absurd h (by simp [(ht t (by simp)).noSwitch])
    | funname =>
      obtain ⟨t, e, h⟩ := here
      exact word t [] e (by simp [isSemantic, isWs, isAnyComment, isOnOff, h]) (Or.inl rfl) (by simp) (by simp [progB])
    | atword =>
      obtain ⟨t, e, h⟩ := here
      exact word t [] e (by simp [isSemantic, isWs, isAnyComment, isOnOff, h]) (Or.inl rfl) (by simp) (by simp [progB])
    | lparen =>
      obtain ⟨t, e, h⟩ := here
      exact word t [] e (by simp [isSemantic, isWs, isAnyComment, isOnOff, h]) (Or.inl rfl) (by simp) (by simp [progB])
    | rparen =>
      obtain ⟨t, e, h⟩ := here
      exact word t [] e (by simp [isSemantic, isWs, isAnyComment, isOnOff, h]) (Or.inl rfl) (by simp) (by simp [progB])
    | keyword =>
      obtain ⟨t, e, h⟩ := here
      refine word t [] e ?_ (Or.inl rfl) (by simp) (by simp [progB])
      have : t.type = .unquoted ∨ t.type = .word := by
        unfold normKwarg at h
        split at h
        · rename_i h'; exact Or.inl h'.1
        · split at h
          · simp at h
          · rename_i h'; exact Or.inr (by simpa using h')
      rcases this with h | h <;> simp [isSemantic, isWs, isAnyComment, isOnOff, h]
    | argument =>
      obtain ⟨t, trail, e, h, htr⟩ := here
      exact word t trail e (headTok_semantic h (ht t (by simp [e]))) htr (by simp) (by simp [progB])
    | flag =>
      obtain ⟨t, trail, e, h, htr⟩ := here
      exact word t trail e (flagTok_semantic h (ht t (by simp [e]))) htr (by simp) (by simp [progB])
    | statement =>
      obtain ⟨f, l, r, ws, ws1, sub, mid, trail, e, hw, hw1, hg, hm, htr, _⟩ := here
      refine list ?_ (by simp) (by simp [progB])
      intro t htm
      rw [e] at htm
      simp only [List.mem_append, List.mem_singleton, mk, reduceCtorEq, false_or, or_false, leaves, List.mem_map,
        Node.tok.injEq, exists_eq_right] at htm
      rcases htm with (((h | h) | h) | h) | h
      · exact hw t h
      · exact hw1 t h
      · subst h; exact hg.elim
      · exact hm _ h
      · rcases htr with rfl | ⟨tws, ta, tds, rfl, htw⟩
        · simp at h
        · simp only [leaves, List.mem_append, List.mem_map, Node.tok.injEq, exists_eq_right, List.mem_singleton,
            reduceCtorEq, or_false] at h
          exact htw t h
    | atwordStatement =>
      obtain ⟨x, trail, e, htr⟩ := here
      refine list ?_ (by simp) (by simp [progB])
      intro t htm
      rw [e] at htm
      simp only [List.mem_cons, mk, reduceCtorEq, false_or] at htm
      rcases htr with rfl | ⟨tws, ta, tds, rfl, htw⟩
      · simp at htm
      · simp only [leaves, List.mem_append, List.mem_map, Node.tok.injEq, exists_eq_right, List.mem_singleton,
          reduceCtorEq, or_false] at htm
        exact htw t htm
    | kwargGroup =>
      obtain ⟨x, ws, body, e, hw, hb⟩ := here
      refine list ?_ (by simp) (by simp [progB])
      intro t htm
      rw [e] at htm
      simp only [List.cons_append, List.mem_cons, mk, reduceCtorEq, false_or, leaves, List.mem_append, List.mem_map,
        Node.tok.injEq, exists_eq_right] at htm
      rcases htm with h | h
      · exact hw t h
      · rcases hb with rfl | ⟨sub, rfl, hg⟩
        · simp at h
        · simp only [List.mem_singleton] at h
          subst h; exact hg.elim
    | parenGroup =>
      obtain ⟨l, r, sub, trail, e, hg, htr⟩ := here
      refine list ?_ (by simp) (by simp [progB])
      intro t htm
      rw [e] at htm
      simp only [List.cons_append, List.nil_append, List.mem_cons, mk, reduceCtorEq, false_or] at htm
      rcases htm with h | h
      · subst h; exact hg.elim
      · rcases htr with rfl | ⟨tws, ta, tds, rfl, htw⟩
        · simp at h
        · simp only [leaves, List.mem_append, List.mem_map, Node.tok.injEq, exists_eq_right, List.mem_singleton,
            reduceCtorEq, or_false] at h
          exact htw t h
    | argGroup => exact list (fun t h => here _ h) (by simp) (by simp [progB])
    | pargGroup => exact list (fun t h => here _ h) (by simp) (by simp [progB])
    | flagGroup => exact here.elim
    | body => exact list (fun t h => (here _ h).elim) (by simp) (by simp [progB])
    | flowControl => exact list (fun t h => (here _ h).elim) (by simp) (by simp [progB])
/-- The children. -/
theorem prog_list : ∀ cs : List Node, (∀ c ∈ cs, Neat ctx c) → (∀ t ∈ toksL cs, TokOk t) →
    (∀ t, Node.tok t ∈ cs → isWs t = true) → progBL (boxesOf cs) = semantics (toksL cs)
  | [], _, _, _ => rfl
  | c :: cs, hn, ht, hw => by
    simp only [boxesOf, progBL_append, toksL_cons, semantics_append]
    rw [prog_node c (hn c (by simp)) (fun t h => ht t (by simp [h])) (fun t e => hw t (by simp [e])),
      prog_list cs (fun x h => hn x (by simp [h])) (fun t h => ht t (by simp [h])) (fun t h => hw t (by simp [h]))]
end

/-! ## Names and parentheses of boxes -/

/-- The spelling a node hands to its children. -/
def handed (ty : NT) (a : Attr) : Option Str :=
  match ty with
  | .statement | .atwordStatement | .argGroup | .parenGroup => a.spelling
  | _ => none

/-- A spelling comes from the database entry of the name it is used for, and parentheses are
parentheses. -/
def sourcedHere (ctx : Ctx) (parent : Option Str) (ty : NT) (pk : List Node) : Prop :=
  match ty with
  | .funname => ∃ t, headToks pk = [t] ∧ flatSpelling t.spelling = true ∧ t.type = .word ∧ ∀ s, parent = some s → cmdSpelling (lookupParser ctx t.spelling) = some s
  | .lparen => ∃ t, headToks pk = [t] ∧ t.spelling = S "("
  | .rparen => ∃ t, headToks pk = [t] ∧ t.spelling = S ")"
  | .keyword | .flag => ∃ t, headToks pk = [t] ∧ (t.type = .word ∨ t.type = .unquoted)
  | _ => True

mutual
/-- This holds for all boxes of a box. -/
def Sourced (ctx : Ctx) : Option Str → Box → Prop
  | parent, .mk ty a pk kids => sourcedHere ctx parent ty pk ∧ SourcedL ctx (handed ty a) kids
/-- For a list. -/
def SourcedL (ctx : Ctx) : Option Str → List Box → Prop
  | _, [] => True
  | parent, b :: bs => Sourced ctx parent b ∧ SourcedL ctx parent bs
end

theorem sourcedL_iff {parent : Option Str} {bs : List Box} :
    SourcedL ctx parent bs ↔ ∀ b ∈ bs, Sourced ctx parent b := by
  induction bs with
  | nil => simp [SourcedL]
  | cons b bs ih => simp [SourcedL, ih]

theorem sourced_change {p q : Option Str} {b : Box} (h : Sourced ctx p b) (hb : b.ty ≠ .funname) : Sourced ctx q b := by
  cases b with
  | mk ty a pk kids =>
    simp only [Sourced] at *
    refine ⟨?_, h.2⟩
    have := h.1
    cases ty <;> first | exact this | exact absurd rfl hb

theorem sourced_none {q : Option Str} {b : Box} (h : Sourced ctx q b) : Sourced ctx none b := by
  cases b with
  | mk ty a pk kids =>
    simp only [Sourced] at *
    refine ⟨?_, h.2⟩
    have := h.1
    cases ty with
    | funname =>
      obtain ⟨t, h1, h2, h3, _⟩ := this
      exact ⟨t, h1, h2, h3, by simp⟩
    | _ => exact this

/-- What parentheses are spelled like, what the flags of targets are, and that words have no
line ends. -/
def ParenOk (t : Token) : Prop :=
  (t.type = .lparen → t.spelling = S "(") ∧ (t.type = .rparen → t.spelling = S ")") ∧
    (upper t.spelling ∈ targetFlags → t.type = .word ∨ t.type = .unquoted) ∧
    (t.type = .word → flatSpelling t.spelling = true)

theorem kw_type {t : Token} (h : normKwarg t ≠ none) : t.type = .word ∨ t.type = .unquoted := by
  unfold normKwarg at h
  split at h
  · rename_i h'; exact Or.inr h'.1
  · split at h
    · simp at h
    · rename_i h'; exact Or.inl (by simpa using h')

variable {cfg : Cfg}

theorem sourced_mk {parent : Option Str} {ty : NT} {a : Attr} {cs : List Node}
    (h1 : sourcedHere ctx parent ty cs) (h2 : ∀ b ∈ lockL cfg (boxesOf cs), Sourced ctx (handed ty a) b) :
    Sourced ctx parent (lock cfg (.mk ty a cs (boxesOf cs))) := by
  simp only [lock]
  split
  · simp only [Sourced]
    refine ⟨h1, sourcedL_iff.2 ?_⟩
    intro b hb
    exact h2 b ((Props.ArgSort.sort_perm _ _ _).mem_iff.1 hb)
  · simp only [Sourced]
    exact ⟨h1, sourcedL_iff.2 h2⟩

mutual
/-- The boxes of a neat node, without a spelling handed to them. -/
theorem sourced_node : ∀ n : Node, Neat ctx n → (∀ t ∈ n.toks, ParenOk t) →
    ∀ b ∈ lockL cfg (boxOf n), Sourced ctx none b
  | .tok t, _, _, b, hb => by simp [boxOf, lockL] at hb
  | .node ty a cs, hn, ht, b, hb => by
    have here := (neat_node.1 hn).1
    have hc := (neat_node.1 hn).2
    simp only [toks_node] at ht
    have ih := sourced_list cs hc ht
    simp only [boxOf] at hb
    split at hb
    · simp [lockL] at hb
    · simp only [lockL, List.mem_singleton] at hb
      subst hb
      have plain : handed ty a = none → sourcedHere ctx none ty cs →
          Sourced ctx none (lock cfg (.mk ty a cs (boxesOf cs))) := by
        intro e h
        exact sourced_mk h (by rw [e]; exact ih)
      have noname : (∀ a' ds, Node.node .funname a' ds ∉ cs) → sourcedHere ctx none ty cs →
          Sourced ctx none (lock cfg (.mk ty a cs (boxesOf cs))) := by
        intro e h
        refine sourced_mk h ?_
        intro b hb
        refine sourced_change (ih b hb) ?_
        intro hty
        have := mem_lockL hb
        rw [hty] at this
        exact e _ _ this
      have notrail : ∀ {trail : List Node}, Trail trail → ∀ a' ds, Node.node .funname a' ds ∉ trail := by
        intro trail h a' ds hm
        rcases h with rfl | ⟨ws, ta, tds, rfl, _⟩
        · simp at hm
        · simp [leaves] at hm
      cases ty with
      | funname =>
        obtain ⟨t, rfl, h⟩ := here
        exact plain rfl ⟨t, rfl, (ht t (by simp)).2.2.2 h, h, by simp⟩
      | lparen =>
        obtain ⟨t, rfl, h⟩ := here
        exact plain rfl ⟨t, rfl, (ht t (by simp)).1 h⟩
      | rparen =>
        obtain ⟨t, rfl, h⟩ := here
        exact plain rfl ⟨t, rfl, (ht t (by simp)).2.1 h⟩
      | statement =>
        obtain ⟨f, l, r, ws, ws1, sub, mid, trail, e, hw, hw1, hg, hm, htr, hs⟩ := here
        refine sourced_mk trivial ?_
        intro b hb
        by_cases hty : b.ty = .funname
        · have hmem := mem_lockL hb
          have hbs := ih b hb
          cases b with
          | mk bty ba bpk bks =>
            simp only [Box.ty] at hty
            subst hty
            simp only [Box.ty, Box.attr, Box.pkids] at hmem
            have : bpk = [.tok f] := by
              rw [e] at hmem
              simp only [List.mem_append, List.mem_singleton, mk, Node.node.injEq, reduceCtorEq, false_and, or_false,
                true_and] at hmem
              rcases hmem with ((((h | h) | h) | h) | h) | h
              · exact h.2
              · simp [leaves] at h
              · simp [leaves] at h
              · rw [← h] at hg
                rcases hg with h' | h' <;> simp at h'
              · have := hm _ h
                simp [Filler] at this
              · exact absurd h (notrail htr _ _)
            subst this
            simp only [Sourced] at hbs ⊢
            obtain ⟨⟨f', hf', hfl, hwd, _⟩, hb2⟩ := hbs
            simp only [headToks, List.cons.injEq, and_true] at hf'
            subst hf'
            refine ⟨⟨f, rfl, hfl, hwd, ?_⟩, hb2⟩
            intro s hs'
            simp only [handed] at hs'
            rw [← hs, hs']
        · exact sourced_change (ih b hb) hty
      | atwordStatement =>
        obtain ⟨x, trail, e, htr⟩ := here
        refine noname ?_ trivial
        intro a' ds h
        rw [e] at h
        simp only [List.mem_cons, mk, Node.node.injEq, reduceCtorEq, false_and, false_or] at h
        exact notrail htr _ _ h
      | argGroup =>
        refine noname ?_ trivial
        intro a' ds h
        have := here _ h
        simp [Inner] at this
      | parenGroup =>
        obtain ⟨l, r, sub, trail, e, hg, htr⟩ := here
        refine noname ?_ trivial
        intro a' ds h
        rw [e] at h
        simp only [List.cons_append, List.nil_append, List.mem_cons, mk, Node.node.injEq, reduceCtorEq, false_and,
          false_or] at h
        rcases h with h | h
        · rw [← h] at hg
          rcases hg with h' | h' <;> simp at h'
        · exact notrail htr _ _ h
      | flagGroup => exact here.elim
      | pargGroup => exact plain rfl trivial
      | kwargGroup => exact plain rfl trivial
      | body => exact plain rfl trivial
      | flowControl => exact plain rfl trivial
      | comment => exact plain rfl trivial
      | onoff => exact plain rfl trivial
      | argument => exact plain rfl trivial
      | flag =>
        obtain ⟨t, trail, rfl, h, _⟩ := here
        refine plain rfl ⟨t, rfl, ?_⟩
        rcases h.2 with h | h
        · exact kw_type h
        · exact (ht t (by simp)).2.2.1 h
      | keyword =>
        obtain ⟨t, rfl, h⟩ := here
        exact plain rfl ⟨t, rfl, kw_type h⟩
      | atword => exact plain rfl trivial
      | whitespace => exact plain rfl trivial
/-- The children. -/
theorem sourced_list : ∀ cs : List Node, (∀ c ∈ cs, Neat ctx c) → (∀ t ∈ toksL cs, ParenOk t) →
    ∀ b ∈ lockL cfg (boxesOf cs), Sourced ctx none b
  | [], _, _, b, hb => by simp [boxesOf, lockL] at hb
  | c :: cs, hn, ht, b, hb => by
    simp only [boxesOf, lockL_append, List.mem_append] at hb
    rcases hb with hb | hb
    · exact sourced_node c (hn c (by simp)) (fun t h => ht t (by simp [h])) b hb
    · exact sourced_list cs (fun x h => hn x (by simp [h])) (fun t h => ht t (by simp [h])) b hb
end

/-! ## Texts of boxes -/

/-- The spellings a command may be written with. -/
def knownSpelling (cfg : Cfg) (ctx : Ctx) (name text : Str) : Prop :=
  text = cfg.spelling name ∨ cmdSpelling (lookupParser ctx name) = some text

theorem allWritten_append {W : Token → Piece → Prop} {a b : List Token} {p q : List Piece}
    (h1 : AllWritten W a p) (h2 : AllWritten W b q) : AllWritten W (a ++ b) (p ++ q) := by
  induction a generalizing p with
  | nil =>
    cases p with
    | nil => exact h2
    | cons x xs => simp [AllWritten] at h1
  | cons t ts ih =>
    cases p with
    | nil => simp [AllWritten] at h1
    | cons x xs =>
      simp only [AllWritten, List.cons_append] at *
      exact ⟨h1.1, ih h1.2⟩

theorem linePieces_comment (c : Cur) (ls : List Str) : (linePieces c ls).filter (fun p => p.kind.isProgram) = [] := by
  induction ls generalizing c with
  | nil => rfl
  | cons l ls ih =>
    simp only [linePieces, List.filter_cons, PK.isProgram, Bool.false_eq_true, if_false]
    exact ih _

theorem case_twice : ∀ n < 128, lowerChar (lowerChar (Char.ofNat n)) = lowerChar (Char.ofNat n) ∧
    lowerChar (upperChar (Char.ofNat n)) = lowerChar (Char.ofNat n) := by decide +kernel

theorem lowerChar_twice (c : Char) : lowerChar (lowerChar c) = lowerChar c ∧ lowerChar (upperChar c) = lowerChar c := by
  by_cases h : c.toNat < 128
  · have := case_twice c.toNat h
    rwa [Char.ofNat_toNat] at this
  · have h1 : lowerChar c = c := by
      unfold lowerChar
      rw [if_neg]
      simp [isUpper] at *
      intro _
      show 90 < c.toNat
      omega
    have h2 : upperChar c = c := by
      unfold upperChar
      rw [if_neg]
      simp [isLower] at *
      intro _
      show 122 < c.toNat
      omega
    rw [h2, h1]
    exact ⟨h1, rfl⟩

theorem lower_lower (s : Str) : lower (lower s) = lower s := by
  simp [lower, (lowerChar_twice _).1]

theorem lower_upper (s : Str) : lower (upper s) = lower s := by
  simp [lower, upper, (lowerChar_twice _).2]

theorem scalar_written {parent : Option Str} {ty : NT} {t : Token} {text : Str} {pos : Cur} {pk : List Node}
    (hty : ty = .funname ∨ ty = .argument ∨ ty = .keyword ∨ ty = .flag ∨ ty = .atword)
    (hpk : headToks pk = [t]) (hs : sourcedHere ctx parent ty pk) (h : scalarText cfg ty parent t = .ok text) :
    Written (knownSpelling cfg ctx) t ⟨kindOf ty, pos, text⟩ := by
  rcases hty with rfl | rfl | rfl | rfl | rfl <;> simp only [scalarText] at h
  · obtain ⟨t', ht', -, -, hsp⟩ := hs
    rw [hpk] at ht'
    simp only [List.cons.injEq, and_true] at ht'
    subst ht'
    split at h
    · simp only [Except.ok.injEq] at h; subst h
      exact Or.inr (Or.inr ⟨rfl, Or.inl (lower_lower _)⟩)
    · split at h
      · simp only [Except.ok.injEq] at h; subst h
        exact Or.inr (Or.inr ⟨rfl, Or.inl (lower_upper _)⟩)
      · split at h
        · split at h
          · simp only [Except.ok.injEq] at h; subst h
            exact Or.inr (Or.inr ⟨rfl, Or.inr (Or.inr (hsp _ rfl))⟩)
          · simp only [Except.ok.injEq] at h; subst h
            exact Or.inr (Or.inr ⟨rfl, Or.inr (Or.inl rfl)⟩)
        · split at h
          · simp only [Except.ok.injEq] at h; subst h; exact Or.inl rfl
          · simp at h
  · simp only [Except.ok.injEq] at h; subst h; exact Or.inl rfl
  · obtain ⟨t', ht', hty⟩ := hs
    rw [hpk] at ht'
    simp only [List.cons.injEq, and_true] at ht'
    subst ht'
    split at h
    · simp only [Except.ok.injEq] at h; subst h; exact Or.inr (Or.inl ⟨rfl, hty, lower_lower _⟩)
    · split at h
      · simp only [Except.ok.injEq] at h; subst h; exact Or.inr (Or.inl ⟨rfl, hty, lower_upper _⟩)
      · simp only [Except.ok.injEq] at h; subst h; exact Or.inl rfl
  · obtain ⟨t', ht', hty⟩ := hs
    rw [hpk] at ht'
    simp only [List.cons.injEq, and_true] at ht'
    subst ht'
    split at h
    · simp only [Except.ok.injEq] at h; subst h; exact Or.inr (Or.inl ⟨rfl, hty, lower_lower _⟩)
    · split at h
      · simp only [Except.ok.injEq] at h; subst h; exact Or.inr (Or.inl ⟨rfl, hty, lower_upper _⟩)
      · simp only [Except.ok.injEq] at h; subst h; exact Or.inl rfl
  · simp only [Except.ok.injEq] at h; subst h; exact Or.inl rfl

theorem scalar_case {parent : Option Str} {ty : NT} {t : Token} {text : Str} {pos : Cur} {pk : List Node}
    (hty : ty = .funname ∨ ty = .argument ∨ ty = .keyword ∨ ty = .flag ∨ ty = .atword)
    (hpk : headToks pk = [t]) (hs : sourcedHere ctx parent ty pk) (h : scalarText cfg ty parent t = .ok text) :
    CaseRule cfg (knownSpelling cfg ctx) t ⟨kindOf ty, pos, text⟩ := by
  have kw : (if cfg.keywordCase = S "lower" then Except.ok (lower t.spelling)
      else if cfg.keywordCase = S "upper" then .ok (upper t.spelling)
      else .ok (Text.normalizeLineEndings t.spelling)) = (Except.ok text : Except Err Str) →
      CaseRule cfg (knownSpelling cfg ctx) t ⟨.word, pos, text⟩ := by
    intro h
    split at h
    · rename_i hc
      simp only [Except.ok.injEq] at h; subst h; exact Or.inr (Or.inl ⟨hc, rfl⟩)
    · split at h
      · rename_i hc
        simp only [Except.ok.injEq] at h; subst h; exact Or.inr (Or.inr ⟨hc, rfl⟩)
      · simp only [Except.ok.injEq] at h; subst h; exact Or.inl rfl
  rcases hty with rfl | rfl | rfl | rfl | rfl <;> simp only [scalarText] at h
  · obtain ⟨t', ht', hfl, -, hsp⟩ := hs
    rw [hpk] at ht'
    simp only [List.cons.injEq, and_true] at ht'
    subst ht'
    split at h
    · rename_i hc
      simp only [Except.ok.injEq] at h; subst h
      exact Or.inl ⟨hc, rfl⟩
    · split at h
      · rename_i hc
        simp only [Except.ok.injEq] at h; subst h
        exact Or.inr (Or.inl ⟨hc, rfl⟩)
      · split at h
        · rename_i hc
          split at h
          · simp only [Except.ok.injEq] at h; subst h
            exact Or.inr (Or.inr (Or.inr ⟨hc, Or.inr (hsp _ rfl)⟩))
          · simp only [Except.ok.injEq] at h; subst h
            exact Or.inr (Or.inr (Or.inr ⟨hc, Or.inl rfl⟩))
        · split at h
          · rename_i hc
            simp only [Except.ok.injEq] at h; subst h
            exact Or.inr (Or.inr (Or.inl ⟨hc, normalize_flat hfl⟩))
          · simp at h
  · simp only [Except.ok.injEq] at h; subst h; exact Or.inl rfl
  · exact kw h
  · exact kw h
  · simp only [Except.ok.injEq] at h; subst h; exact Or.inl rfl

/-- The texts of comments are not program text. -/
theorem comments_only {step : Option Box → Cur → Box → Cur → Prop} : ∀ {bs : List Box} {ls : List Laid} {prev : Option Box} {c o : Cur} {ps : List Piece},
    (∀ k ∈ bs, k.ty = .comment) → PlacedL cfg step prev c bs ls o → piecesL cfg none ls = .ok ps →
    ps.filter (fun p => p.kind.isProgram) = []
  | [], ls, _, _, _, ps, _, hp, h => by
    simp only [PlacedL] at hp
    obtain ⟨rfl, _⟩ := hp
    simp only [piecesL, Except.ok.injEq] at h
    subst h; rfl
  | b :: bs, ls, _, _, _, ps, hb, hp, h => by
    cases ls with
    | nil => simp [PlacedL] at hp
    | cons l ls =>
      simp only [PlacedL] at hp
      obtain ⟨c', o, _, h1, h2⟩ := hp
      simp only [piecesL, bind_ok, Except.ok.injEq] at h
      obtain ⟨p1, hp1, p2, hp2, rfl⟩ := h
      rw [List.filter_append, comments_only (fun k hk => hb k (by simp [hk])) h2 hp2]
      have hty := (placed_ty h1).trans (hb b (by simp))
      cases l with
      | mk ty a pk info lines kids =>
        simp only [Laid.ty] at hty
        subst hty
        simp only [pieces] at hp1
        split at hp1
        · simp only [Except.ok.injEq] at hp1; subst hp1; rfl
        · simp only [Except.ok.injEq] at hp1; subst hp1; rw [linePieces_comment]; rfl

theorem headToks_of {pk : List Node} {t : Token} (h : headTok pk = .ok t) : headToks pk = [t] := by
  unfold headTok at h
  split at h
  · simp only [Except.ok.injEq] at h; subst h; rfl
  · simp at h

/-- A relation between tokens and texts that holds for whatever is written. -/
structure Rule (cfg : Cfg) (ctx : Ctx) (W : Token → Piece → Prop) : Prop where
  scalar : ∀ {parent : Option Str} {ty : NT} {t : Token} {text : Str} {pos : Cur} {pk : List Node},
    (ty = .funname ∨ ty = .argument ∨ ty = .keyword ∨ ty = .flag ∨ ty = .atword) →
    headToks pk = [t] → sourcedHere ctx parent ty pk → scalarText cfg ty parent t = .ok text →
    W t ⟨kindOf ty, pos, text⟩
  lparen : ∀ {t : Token} {pos : Cur}, t.spelling = S "(" → W t ⟨.lparen, pos, S "("⟩
  rparen : ∀ {t : Token} {pos : Cur}, t.spelling = S ")" → W t ⟨.rparen, pos, S ")"⟩

theorem written_rule : Rule cfg ctx (Written (knownSpelling cfg ctx)) where
  scalar := scalar_written
  lparen := by
    intro t pos h
    exact Or.inl (by rw [h]; exact (by decide +kernel : S "(" = Text.normalizeLineEndings (S "(")))
  rparen := by
    intro t pos h
    exact Or.inl (by rw [h]; exact (by decide +kernel : S ")" = Text.normalizeLineEndings (S ")")))

theorem case_rule : Rule cfg ctx (CaseRule cfg (knownSpelling cfg ctx)) where
  scalar := scalar_case
  lparen := fun h => h.symm
  rparen := fun h => h.symm

section
set_option linter.unusedSectionVars false
variable {W : Token → Piece → Prop} (R : Rule cfg ctx W)
include R

mutual
/-- The program texts of a laid out box are its program tokens. -/
theorem covers_node : ∀ (b : Box) (c : Cur) (l : Laid) (o : Cur) (parent : Option Str) (ps : List Piece),
    Sourced ctx parent b → Placed cfg b c l o → pieces cfg parent l = .ok ps →
    AllWritten W (progB b) (ps.filter (fun p => p.kind.isProgram))
  | .mk ty a pk kids, c, .mk ty' a' pk' info lines kids', o, parent, ps, hs, hp, h => by
    simp only [Sourced] at hs
    simp only [Placed] at hp
    obtain ⟨e1, e2, e3, e4, -, hp⟩ := hp
    subst e1; subst e2; subst e3
    have group : (∀ step prev, PlacedL cfg step prev c kids kids' o → ∀ q, q = handed ty' a' → piecesL cfg q kids' = .ok ps →
        AllWritten W (progBL kids) (ps.filter (fun p => p.kind.isProgram))) := by
      intro step prev hp q hq h
      subst hq
      exact covers_list step kids prev c kids' o _ ps hs.2 hp h
    have scalar : (ty' = .funname ∨ ty' = .argument ∨ ty' = .keyword ∨ ty' = .flag ∨ ty' = .atword) →
        (∃ t, headTok pk' = .ok t ∧ (flow c (Text.normalizeLineEndings t.spelling)).2 ≤ info.colext ∧
          kids.length ≤ 1 ∧ (∀ k ∈ kids, k.ty = .comment) ∧ (∀ k ∈ kids', k.colext ≤ info.colext) ∧
          PlacedL cfg Step (some (.mk ty' a' pk' [])) (flow c (Text.normalizeLineEndings t.spelling)).1 kids kids' o) →
        (headTok pk' >>= fun t => scalarText cfg ty' parent t >>= fun text =>
          check (decide (kids'.length ≤ 1) && kids'.all (fun k => k.ty == .comment)) >>= fun _ =>
          piecesL cfg none kids' >>= fun ps => Except.ok (⟨kindOf ty', info.pos, text⟩ :: ps)) = Except.ok ps →
        AllWritten W (headToks pk') (ps.filter (fun p => p.kind.isProgram)) := by
      intro hty hp h
      simp only [bind_ok, check_ok, Except.ok.injEq] at h
      obtain ⟨t, ht, text, hx, -, -, p2, hp2, rfl⟩ := h
      obtain ⟨t', _, _, _, hc, _, hpl⟩ := hp
      have e := headToks_of ht
      have hk : (kindOf ty').isProgram = true := by rcases hty with rfl | rfl | rfl | rfl | rfl <;> rfl
      simp only [List.filter_cons, hk, if_true]
      rw [comments_only hc hpl hp2, e]
      exact ⟨R.scalar hty e hs.1 hx, trivial⟩
    cases ty' <;> simp only [pieces, progB] at h hp ⊢
    case lparen =>
      obtain ⟨t, ht, hsp⟩ := hs.1
      simp only [Except.ok.injEq] at h; subst h
      rw [ht]
      exact ⟨R.lparen hsp, trivial⟩
    case rparen =>
      obtain ⟨t, ht, hsp⟩ := hs.1
      simp only [Except.ok.injEq] at h; subst h
      rw [ht]
      exact ⟨R.rparen hsp, trivial⟩
    case whitespace => simp only [Except.ok.injEq] at h; subst h; exact trivial
    case onoff => simp at h
    case comment =>
      split at h
      · simp only [Except.ok.injEq] at h; subst h; exact trivial
      · simp only [Except.ok.injEq] at h; subst h; rw [linePieces_comment]; exact trivial
    case funname => exact scalar (by simp) hp h
    case argument => exact scalar (by simp) hp h
    case keyword => exact scalar (by simp) hp h
    case flag => exact scalar (by simp) hp h
    case atword => exact scalar (by simp) hp h
    case statement => exact group _ _ hp.2 _ rfl h
    case atwordStatement => exact group _ _ hp.2 _ rfl h
    case argGroup => exact group _ _ hp.2 _ rfl h
    case parenGroup => exact group _ _ hp.2 _ rfl h
    case body => exact group _ _ hp.2 _ rfl h
    case flowControl => exact group _ _ hp.2 _ rfl h
    case pargGroup => exact group _ _ hp.2 _ rfl h
    case flagGroup => exact group _ _ hp.2 _ rfl h
    case kwargGroup => exact group _ _ hp.2 _ rfl h
/-- The children. -/
theorem covers_list : ∀ (step : Option Box → Cur → Box → Cur → Prop) (bs : List Box) (prev : Option Box) (c : Cur) (ls : List Laid) (o : Cur) (parent : Option Str)
    (ps : List Piece), SourcedL ctx parent bs → PlacedL cfg step prev c bs ls o → piecesL cfg parent ls = .ok ps →
    AllWritten W (progBL bs) (ps.filter (fun p => p.kind.isProgram))
  | step, [], prev, c, ls, o, parent, ps, _, hp, h => by
    simp only [PlacedL] at hp
    obtain ⟨rfl, _⟩ := hp
    simp only [piecesL, Except.ok.injEq] at h
    subst h; exact trivial
  | step, b :: bs, prev, c, [], o, parent, ps, hs, hp, h => by simp [PlacedL] at hp
  | step, b :: bs, prev, c, l :: ls, o, parent, ps, hs, hp, h => by
    simp only [PlacedL] at hp
    simp only [SourcedL] at hs
    obtain ⟨c', o', _, h1, h2⟩ := hp
    simp only [piecesL, bind_ok, Except.ok.injEq] at h
    obtain ⟨p1, hp1, p2, hp2, rfl⟩ := h
    rw [List.filter_append]
    exact allWritten_append (covers_node b c' l o' parent p1 hs.1 h1 hp1)
      (covers_list step bs (some b) o' ls o parent p2 hs.2 h2 hp2)
end

end

end
end Verif.Layout
