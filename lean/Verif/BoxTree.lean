import Verif.ParseNeat
import Verif.Chain
import Verif.Props.ArgSort

/-!
# The boxes of a parse tree are tidy, and their texts are the program of the tree
-/

namespace Verif.Layout
open Verif Py Lex Parse

/-- What is needed about a single token: no switch, line comments without line feed,
comments start with `#`, and words are on one line. -/
structure TokOk (t : Token) : Prop where
  noSwitch : isOnOff t = false
  comment : t.type = .comment → '\n' ∉ t.spelling
  hash : isAnyComment t = true → ∃ s, t.spelling = '#' :: s
  flat : t.type = .word → flatSpelling t.spelling = true

/-- What is needed about a node. -/
structure Fine (ctx : Ctx) (n : Node) : Prop where
  neat : Neat ctx n
  toks : ∀ t ∈ n.toks, TokOk t
  settled : settled n = true

/-! ## Lists of boxes -/

theorem settledL_iff {cs : List Node} : settledL cs = true ↔ ∀ c ∈ cs, settled c = true := by
  induction cs with
  | nil => simp [settledL]
  | cons c cs ih => simp [settledL, ih]

theorem mem_toksL {t : Token} {cs : List Node} : t ∈ toksL cs ↔ ∃ c ∈ cs, t ∈ c.toks := by
  induction cs with
  | nil => simp
  | cons c cs ih => simp [ih]

theorem fine_child {ctx : Ctx} {ty : NT} {a : Attr} {cs : List Node} (h : Fine ctx (.node ty a cs)) :
    ∀ c ∈ cs, Fine ctx c := by
  intro c hc
  refine ⟨(neat_node.1 h.neat).2 c hc, ?_, ?_⟩
  · intro t ht
    exact h.toks t (by simp only [toks_node]; exact mem_toksL.2 ⟨c, hc, ht⟩)
  · have := h.settled
    simp only [Layout.settled, Bool.and_eq_true] at this
    exact settledL_iff.1 this.2 c hc

theorem boxesOf_append (a b : List Node) : boxesOf (a ++ b) = boxesOf a ++ boxesOf b := by
  induction a with
  | nil => rfl
  | cons n a ih => simp [boxesOf, ih]

theorem boxesOf_leaves (ts : List Token) : boxesOf (leaves ts) = [] := by
  induction ts with
  | nil => rfl
  | cons t ts ih =>
    simp only [leaves, List.map_cons, boxesOf, boxOf, List.nil_append] at *
    exact ih

theorem mem_boxesOf {k : Box} {cs : List Node} (h : k ∈ boxesOf cs) :
    Node.node k.ty k.attr k.pkids ∈ cs := by
  induction cs with
  | nil => simp [boxesOf] at h
  | cons c cs ih =>
    simp only [boxesOf, List.mem_append] at h
    rcases h with h | h
    · cases c with
      | tok t => simp [boxOf] at h
      | node ty a ds =>
        simp only [boxOf] at h
        split at h
        · simp at h
        · simp only [List.mem_singleton] at h
          subst h
          simp [Box.ty, Box.attr, Box.pkids]
    · exact List.mem_cons_of_mem _ (ih h)

theorem lock_same (cfg : Cfg) (b : Box) :
    (lock cfg b).ty = b.ty ∧ (lock cfg b).attr = b.attr ∧ (lock cfg b).pkids = b.pkids := by
  cases b with
  | mk ty a pk ks =>
    simp only [lock]
    split <;> exact ⟨rfl, rfl, rfl⟩

theorem lockL_map (cfg : Cfg) (bs : List Box) : lockL cfg bs = bs.map (lock cfg) := by
  induction bs with
  | nil => rfl
  | cons b bs ih => simp [lockL, ih]

theorem lockL_append (cfg : Cfg) (a b : List Box) : lockL cfg (a ++ b) = lockL cfg a ++ lockL cfg b := by
  simp [lockL_map]

theorem mem_lockL {cfg : Cfg} {k : Box} {cs : List Node} (h : k ∈ lockL cfg (boxesOf cs)) :
    Node.node k.ty k.attr k.pkids ∈ cs := by
  rw [lockL_map, List.mem_map] at h
  obtain ⟨b, hb, rfl⟩ := h
  obtain ⟨h1, h2, h3⟩ := lock_same cfg b
  rw [h1, h2, h3]
  exact mem_boxesOf hb

theorem tidyL_iff {bs : List Box} : tidyL bs = true ↔ ∀ b ∈ bs, tidy b = true := by
  induction bs with
  | nil => simp [tidyL]
  | cons b bs ih => simp [tidyL, ih]

theorem bareL_iff {bs : List Box} : bareL bs = true ↔ ∀ b ∈ bs, bare b = true := by
  induction bs with
  | nil => simp [bareL]
  | cons b bs ih => simp [bareL, ih]

/-! ## Single facts -/

theorem head_settled {cs : List Node} (h : bracketOnly cs = true) : (bracketOf cs).isSome = true := by
  unfold bracketOnly at h
  split at h
  · rename_i t
    simp only [bracketOf]
    simp only [beq_iff_eq] at h
    simp [h]
  · simp at h

theorem lineOk_of {cfg : Cfg} {k : Box} {cs : List Node} (hk : k ∈ lockL cfg (boxesOf cs))
    (h : ∀ c ∈ cs, settledComment c = true) : lineOk k = true := by
  have := h _ (mem_lockL hk)
  cases k with
  | mk ty a pk ks =>
    simp only [Box.ty, Box.attr, Box.pkids] at this
    unfold lineOk
    by_cases hc : ty = .comment
    · subst hc
      simp only [settledComment, Bool.or_eq_true] at this
      rcases this with h | h
      · simp [Box.pkids, head_settled h]
      · unfold endsWithLine at h
        simp [isLineComment, Box.ty, Box.pkids]
        right
        split at h <;> simp_all
    · simp [Box.ty, hc]

theorem lineOk_ty {k : Box} (h : k.ty ≠ .comment) : lineOk k = true := by
  simp [lineOk, h]

theorem inner_notBlock {k : Box} (h : Inner (.node k.ty k.attr k.pkids)) : isBlock k.ty = false := by
  simp only [Inner] at h
  rcases h with h | h | h | h | h | h | h | h <;> rw [h] <;> rfl

theorem grp_ty {n : Node} (h : Grp n) : ∃ ty a cs, n = .node ty a cs ∧ (ty = .argGroup ∨ ty = .pargGroup) := by
  cases n with
  | tok t => exact h.elim
  | node ty a cs => exact ⟨ty, a, cs, rfl, h⟩

theorem grp_boxOf {n : Node} (h : Grp n) : ∃ b, boxOf n = [b] ∧ (b.ty = .argGroup ∨ b.ty = .pargGroup) := by
  obtain ⟨ty, a, cs, rfl, h⟩ := grp_ty h
  refine ⟨.mk ty a cs (boxesOf cs), by simp only [boxOf]; rw [if_neg (by rcases h with rfl | rfl <;> simp)], h⟩

theorem boxOf_mk {ty : NT} {a : Attr} {cs : List Node} (h : ty ≠ .whitespace) :
    boxOf (.node ty a cs) = [.mk ty a cs (boxesOf cs)] := by
  simp [boxOf, h]

theorem trail_boxes {trail : List Node} (h : Trail trail) :
    boxesOf trail = [] ∨ ∃ b, boxesOf trail = [b] ∧ b.ty = .comment := by
  rcases h with rfl | ⟨ws, a, ds, rfl, _⟩
  · exact Or.inl rfl
  · right
    refine ⟨.mk .comment a ds (boxesOf ds), ?_, rfl⟩
    rw [boxesOf_append, boxesOf_leaves]
    simp [boxesOf, boxOf]

theorem flagTok_semantic {t : Token} (h : FlagTok t) (ht : TokOk t) : isSemantic t = true := by
  have hc : isAnyComment t = false := by
    cases hc : isAnyComment t with
    | false => rfl
    | true =>
      exfalso
      rcases h.2 with h | h
      · simp only [isAnyComment, Bool.or_eq_true, beq_iff_eq] at hc
        apply h
        rcases hc with hc | hc <;> simp [normKwarg, hc]
      · obtain ⟨s, hs⟩ := ht.hash hc
        rw [hs] at h
        have e : upper ('#' :: s) = '#' :: upper s := by simp [upper]; decide
        rw [e] at h
        simp only [targetFlags, List.mem_cons, List.not_mem_nil, or_false] at h
        rcases h with h | h | h <;> simp [S] at h
  simp [isSemantic, h.1, hc, ht.noSwitch]

theorem headTok_semantic {t : Token} (h : HeadTok t) (ht : TokOk t) : isSemantic t = true := by
  simp [isSemantic, h.1, h.2, ht.noSwitch]

/-! ## Tidiness -/

/-- Both invariants of a box. -/
def Both (b : Box) : Prop := tidy b = true ∧ bare b = true

theorem listOk_of {kids : List Box} (h1 : ∀ k ∈ kids, isBlock k.ty = false) (h2 : ∀ k ∈ kids.dropLast, lineOk k = true) :
    listOk kids = true := by
  simp only [listOk, Bool.and_eq_true, List.all_eq_true, Bool.not_eq_true']
  exact ⟨h1, h2⟩

section
variable {cfg : Cfg} {ctx : Ctx}

theorem kids_listOk {cs : List Node} {kids : List Box} (hp : kids.Perm (lockL cfg (boxesOf cs)))
    (h1 : ∀ c ∈ cs, Inner c) (h2 : ∀ c ∈ cs, settledComment c = true) : listOk kids = true := by
  refine listOk_of ?_ ?_
  · intro k hk
    exact inner_notBlock (h1 _ (mem_lockL (hp.mem_iff.1 hk)))
  · intro k hk
    exact lineOk_of (hp.mem_iff.1 (List.dropLast_subset _ hk)) h2

/-- A box other than a group is locked by locking its children. -/
theorem lock_plain {ty : NT} {a : Attr} {cs : List Node} (h : ty ≠ .pargGroup ∧ ty ≠ .flagGroup) :
    lock cfg (.mk ty a cs (boxesOf cs)) = .mk ty a cs (lockL cfg (boxesOf cs)) := by
  simp [lock, h.1, h.2]

/-- The condition `bare` puts on a box itself. -/
def bareHere (ty : NT) (kids : List Box) : Bool :=
  match ty, kids with
  | .statement, k :: _ => flatWord k
  | .kwargGroup, k :: _ | .atwordStatement, k :: _ => plainWord k
  | _, _ => true

theorem both_mk {ty : NT} {a : Attr} {cs : List Node} {kids : List Box} (hk : ∀ k ∈ kids, Both k)
    (h1 : tidyHere ty cs kids = true)
    (h2 : bareHere ty kids = true) : Both (.mk ty a cs kids) := by
  refine ⟨?_, ?_⟩
  · simp only [tidy, Bool.and_eq_true]
    exact ⟨h1, tidyL_iff.2 fun k hk' => (hk k hk').1⟩
  · simp only [bare, Bool.and_eq_true]
    exact ⟨h2, bareL_iff.2 fun k hk' => (hk k hk').2⟩

theorem comment_pure {cs : List Node} (hs : CommentShape cs) (ht : ∀ t ∈ toksL cs, TokOk t)
    (h : (bracketOnly cs || startsWithLine cs) = true) : pureComment cs = true := by
  obtain ⟨t, ts, rfl, hc, hn⟩ := hs
  simp only [Bool.or_eq_true] at h
  unfold pureComment
  rcases h with h | h
  · simp [head_settled h]
  · have : headIsComment (leaves (t :: ts)) = true := h
    simp only [this, Bool.true_and, Bool.or_eq_true, List.all_eq_true]
    right
    intro n hn'
    simp only [leaves, List.mem_map] at hn'
    obtain ⟨u, hu, rfl⟩ := hn'
    have := ht u (by simpa using hu)
    by_cases hcu : isComment u = true
    · have := this.comment (by simpa [isComment] using hcu)
      simp [hcu, this]
    · simp [hcu]

theorem stmt_both {a : Attr} {cs : List Node} (hf : Fine ctx (.node .statement a cs))
    (hk : ∀ k ∈ lockL cfg (boxesOf cs), Both k) : Both (.mk .statement a cs (lockL cfg (boxesOf cs))) := by
  obtain ⟨f, l, r, ws, ws1, sub, mid, trail, e, hw, hw1, hg, hm, htr, _⟩ := (neat_node.1 hf.neat).1
  have hfn : Neat ctx (mk .funname [.tok f]) := (neat_node.1 hf.neat).2 _ (by rw [e]; simp)
  obtain ⟨f', e', hword⟩ := (neat_node.1 hfn).1
  simp only [List.cons.injEq, Node.tok.injEq, and_true] at e'
  subst e'
  have hflat := (hf.toks f (by rw [e]; simp)).flat hword
  have hset := hf.settled
  simp only [Layout.settled, settledHere, Bool.and_eq_true, List.all_eq_true] at hset
  have hbox : boxesOf cs = .mk .funname {} [.tok f] [] :: .mk .lparen {} [.tok l] [] :: (boxOf sub ++ boxesOf mid ++
      (.mk .rparen {} [.tok r] [] :: boxesOf trail)) := by
    rw [e]
    simp only [boxesOf_append, boxesOf_leaves, boxesOf, boxOf, mk]
    simp
  refine both_mk hk ?_ ?_
  · refine listOk_of ?_ ?_
    · intro k hk'
      have := mem_lockL hk'
      rw [e] at this
      simp only [List.mem_append, List.mem_singleton] at this
      have notok : ∀ ts : List Token, Node.node k.ty k.attr k.pkids ∉ leaves ts := by
        intro ts h
        simp [leaves] at h
      rcases this with ((((((h | h) | h) | h) | h) | h) | h) | h
      · simp only [mk, Node.node.injEq] at h; rw [h.1]; rfl
      · exact absurd h (notok _)
      · simp only [mk, Node.node.injEq] at h; rw [h.1]; rfl
      · exact absurd h (notok _)
      · rw [← h] at hg
        rcases hg with hg | hg <;> rw [hg] <;> rfl
      · have := hm _ h
        simp only [Filler] at this
        rw [this]; rfl
      · simp only [mk, Node.node.injEq] at h; rw [h.1]; rfl
      · rcases htr with rfl | ⟨tws, ta, tds, rfl, _⟩
        · simp at h
        · simp only [List.mem_append, List.mem_singleton, Node.node.injEq] at h
          rcases h with h | h
          · exact absurd h (notok _)
          · rw [h.1]; rfl
    · have key : ∃ init x, cs = init ++ [x] ∧ ∃ b, boxOf x = [b] := by
        rcases htr with rfl | ⟨tws, ta, tds, rfl, _⟩
        · exact ⟨_, mk .rparen [.tok r], by rw [e, List.append_nil], _, boxOf_mk (by simp)⟩
        · exact ⟨_, .node .comment ta tds, by rw [e, ← List.append_assoc], _, boxOf_mk (by simp)⟩
      obtain ⟨init, x, ei, b, hb⟩ := key
      intro k hk'
      have e2 : (lockL cfg (boxesOf cs)).dropLast = lockL cfg (boxesOf init) := by
        rw [ei, boxesOf_append, lockL_append]
        simp [boxesOf, hb, lockL]
      rw [e2] at hk'
      have e3 : cs.dropLast = init := by rw [ei]; simp
      refine lineOk_of hk' ?_
      intro c hc
      exact hset.1 c (by rw [e3]; exact hc)
  · rw [hbox]
    simp only [lockL, lock]
    show flatWord _ = true
    rw [if_neg (by simp)]
    simp only [flatWord, plainWord, Box.kids, Box.pkids, headSpelling, List.isEmpty_nil, Bool.true_and]
    rw [normalize_flat hflat]
    simp only [flatSpelling, Bool.and_eq_true] at hflat
    exact hflat.1

theorem atword_both {a : Attr} {cs : List Node} (hf : Fine ctx (.node .atwordStatement a cs))
    (hk : ∀ k ∈ lockL cfg (boxesOf cs), Both k) :
    Both (.mk .atwordStatement a cs (lockL cfg (boxesOf cs))) := by
  obtain ⟨t, trail, e, htr⟩ := (neat_node.1 hf.neat).1
  have hbox : boxesOf cs = .mk .atword {} [.tok t] [] :: boxesOf trail := by
    rw [e]; simp [boxesOf, boxOf, mk]
  refine both_mk hk ?_ ?_
  · refine listOk_of ?_ ?_
    · intro k hk'
      rw [hbox, lockL_map] at hk'
      simp only [List.map_cons, List.mem_cons] at hk'
      rcases hk' with rfl | hk'
      · rw [(lock_same cfg _).1]; rfl
      · rcases trail_boxes htr with h | ⟨b, h, hb⟩
        · simp [h] at hk'
        · rw [h] at hk'
          simp only [List.map_cons, List.map_nil, List.mem_singleton] at hk'
          subst hk'
          rw [(lock_same cfg _).1, hb]; rfl
    · intro k hk'
      rw [hbox, lockL_map] at hk'
      rcases trail_boxes htr with h | ⟨b, h, hb⟩
      · simp [h] at hk'
      · rw [h] at hk'
        simp only [List.map_cons, List.map_nil, List.dropLast_cons_cons, List.mem_cons] at hk'
        rcases hk' with rfl | hk'
        · exact lineOk_ty (by rw [(lock_same cfg _).1]; simp [Box.ty])
        · simp at hk'
  · rw [hbox]
    simp only [lockL, lock]
    simp [bareHere, plainWord, Box.kids]

theorem kwarg_both {a : Attr} {cs : List Node} (hf : Fine ctx (.node .kwargGroup a cs))
    (hk : ∀ k ∈ lockL cfg (boxesOf cs), Both k) :
    Both (.mk .kwargGroup a cs (lockL cfg (boxesOf cs))) := by
  obtain ⟨t, ws, body, e, hw, hb⟩ := (neat_node.1 hf.neat).1
  have hbox : boxesOf cs = .mk .keyword {} [.tok t] [] :: boxesOf body := by
    rw [e]
    simp only [List.cons_append, boxesOf, boxesOf_append, boxesOf_leaves, boxOf, mk]
    simp
  have hall : ∀ k ∈ lockL cfg (boxesOf cs), k.ty = .keyword ∨ k.ty = .argGroup ∨ k.ty = .pargGroup := by
    intro k hk'
    rw [hbox, lockL_map] at hk'
    simp only [List.map_cons, List.mem_cons] at hk'
    rcases hk' with rfl | hk'
    · rw [(lock_same cfg _).1]; exact Or.inl rfl
    · rcases hb with rfl | ⟨sub, rfl, hg⟩
      · simp [boxesOf] at hk'
      · obtain ⟨b, eb, hty⟩ := grp_boxOf hg
        simp only [boxesOf, eb, List.append_nil, List.map_cons, List.map_nil, List.mem_singleton] at hk'
        subst hk'
        rw [(lock_same cfg _).1]; exact Or.inr hty
  refine both_mk hk ?_ ?_
  · refine listOk_of ?_ ?_
    · intro k hk'
      rcases hall k hk' with h | h | h <;> rw [h] <;> rfl
    · intro k hk'
      refine lineOk_ty ?_
      rcases hall k (List.dropLast_subset _ hk') with h | h | h <;> rw [h] <;> simp
  · rw [hbox]
    simp only [lockL, lock]
    simp [bareHere, plainWord, Box.kids]

theorem paren_both {a : Attr} {cs : List Node} (hf : Fine ctx (.node .parenGroup a cs))
    (hk : ∀ k ∈ lockL cfg (boxesOf cs), Both k) :
    Both (.mk .parenGroup a cs (lockL cfg (boxesOf cs))) := by
  obtain ⟨l, r, sub, trail, e, hg, htr⟩ := (neat_node.1 hf.neat).1
  obtain ⟨b, eb, hty⟩ := grp_boxOf hg
  have hbox : boxesOf cs = [.mk .lparen {} [.tok l] [], b, .mk .rparen {} [.tok r] []] ++ boxesOf trail := by
    rw [e]
    simp [boxesOf, boxOf, mk, eb]
  have hbt : (lock cfg b).ty = .argGroup ∨ (lock cfg b).ty = .pargGroup := by rw [(lock_same cfg b).1]; exact hty
  have hl : lockL cfg (boxesOf cs) = [.mk .lparen {} [.tok l] [], lock cfg b, .mk .rparen {} [.tok r] []]
      ++ (boxesOf trail).map (lock cfg) := by
    rw [hbox, lockL_append, ← lockL_map]
    simp [lockL, lock]
  have htrail : (boxesOf trail).map (lock cfg) = [] ∨ ∃ k, (boxesOf trail).map (lock cfg) = [k] ∧ k.ty = .comment := by
    rcases trail_boxes htr with h | ⟨x, h, hx⟩
    · exact Or.inl (by rw [h]; rfl)
    · exact Or.inr ⟨lock cfg x, by rw [h]; rfl, by rw [(lock_same cfg x).1, hx]⟩
  refine both_mk hk ?_ rfl
  rw [hl]
  have three : ∀ k ∈ [.mk .lparen {} [.tok l] [], lock cfg b, Box.mk .rparen {} [.tok r] []],
      k.ty ≠ .comment ∧ isBlock k.ty = false := by
    intro k hk'
    simp only [List.mem_cons, List.not_mem_nil, or_false] at hk'
    rcases hk' with rfl | rfl | rfl
    · exact ⟨by simp [Box.ty], rfl⟩
    · rcases hbt with h | h <;> rw [h] <;> exact ⟨by simp, rfl⟩
    · exact ⟨by simp [Box.ty], rfl⟩
  simp only [tidyHere, Bool.and_eq_true]
  rcases htrail with h | ⟨k, h, hk2⟩
  · rw [h, List.append_nil]
    refine ⟨by simp [closesParen, Box.ty], listOk_of (fun k hk' => (three k hk').2) ?_⟩
    intro k hk'
    exact lineOk_ty (three k (List.dropLast_subset _ hk')).1
  · rw [h]
    refine ⟨by simp [closesParen, hk2]; right; right; rfl, listOk_of ?_ ?_⟩
    · intro x hx
      rcases List.mem_append.1 hx with hx | hx
      · exact (three x hx).2
      · simp only [List.mem_singleton] at hx; subst hx; rw [hk2]; rfl
    · intro x hx
      rw [List.dropLast_concat] at hx
      exact lineOk_ty (three x hx).1

mutual
/-- The boxes of a fine tree are tidy, sorted or not. -/
theorem both_node : ∀ (n : Node), Fine ctx n → ∀ k ∈ lockL cfg (boxOf n), Both k
  | .tok t, _, k, hk => by simp [boxOf, lockL] at hk
  | .node ty a cs, hf, k, hk => by
    have hkids := both_list cs (fine_child hf)
    have hneat := (neat_node.1 hf.neat).1
    have hset := hf.settled
    simp only [Layout.settled, Bool.and_eq_true] at hset
    simp only [boxOf] at hk
    split at hk
    · simp [lockL] at hk
    · simp only [lockL, List.mem_singleton] at hk
      subst hk
      have grp : ty = .argGroup ∨ ty = .pargGroup → Both (lock cfg (.mk ty a cs (boxesOf cs))) := by
        intro hty
        have h1 : ∀ c ∈ cs, Inner c := by rcases hty with rfl | rfl <;> exact hneat
        have h2 : ∀ c ∈ cs, settledComment c = true := by
          have := hset.1
          rcases hty with rfl | rfl <;> exact List.all_eq_true.1 this
        have fin : ∀ kids : List Box, kids.Perm (lockL cfg (boxesOf cs)) → Both (.mk ty a cs kids) := by
          intro kids hp
          refine both_mk (fun k hk => hkids k (hp.mem_iff.1 hk)) ?_ ?_
          · rcases hty with rfl | rfl <;> exact kids_listOk hp h1 h2
          · rcases hty with rfl | rfl <;> rfl
        simp only [lock]
        split
        · exact fin _ (Props.ArgSort.sort_perm _ _ _)
        · exact fin _ (List.Perm.refl _)
      cases ty with
      | argGroup => exact grp (Or.inl rfl)
      | pargGroup => exact grp (Or.inr rfl)
      | flagGroup => exact hneat.elim
      | statement => rw [lock_plain (by simp)]; exact stmt_both hf hkids
      | atwordStatement => rw [lock_plain (by simp)]; exact atword_both hf hkids
      | kwargGroup => rw [lock_plain (by simp)]; exact kwarg_both hf hkids
      | parenGroup => rw [lock_plain (by simp)]; exact paren_both hf hkids
      | comment =>
        rw [lock_plain (by simp)]
        refine both_mk hkids ?_ rfl
        exact comment_pure hneat (fun t ht => hf.toks t (by simpa using ht)) hset.1
      | keyword =>
        rw [lock_plain (by simp)]
        obtain ⟨t, rfl, ht⟩ := hneat
        exact both_mk hkids hset.1 rfl
      | flag =>
        rw [lock_plain (by simp)]
        obtain ⟨t, trail, rfl, ht, _⟩ := hneat
        exact both_mk hkids hset.1 rfl
      | funname =>
        rw [lock_plain (by simp)]
        obtain ⟨t, rfl, ht⟩ := hneat
        exact both_mk hkids rfl rfl
      | onoff =>
        obtain ⟨t, rfl, ht⟩ := hneat
        exact absurd ht (by simp [(hf.toks t (by simp)).noSwitch])
      | body => rw [lock_plain (by simp)]; exact both_mk hkids rfl rfl
      | whitespace => rw [lock_plain (by simp)]; exact both_mk hkids rfl rfl
      | flowControl => rw [lock_plain (by simp)]; exact both_mk hkids rfl rfl
      | argument => rw [lock_plain (by simp)]; exact both_mk hkids rfl rfl
      | atword => rw [lock_plain (by simp)]; exact both_mk hkids rfl rfl
      | lparen => rw [lock_plain (by simp)]; exact both_mk hkids rfl rfl
      | rparen => rw [lock_plain (by simp)]; exact both_mk hkids rfl rfl
/-- The boxes of a list of children. -/
theorem both_list : ∀ (cs : List Node), (∀ c ∈ cs, Fine ctx c) → ∀ k ∈ lockL cfg (boxesOf cs), Both k
  | [], _, k, hk => by simp [boxesOf, lockL] at hk
  | c :: cs, hf, k, hk => by
    simp only [boxesOf, lockL_append, List.mem_append] at hk
    rcases hk with hk | hk
    · exact both_node c (hf c (by simp)) k hk
    · exact both_list cs (fun x hx => hf x (by simp [hx])) k hk
end

end
end Verif.Layout
