import Verif.BoxTree

/-!
# Which boxes a box consists of
-/

namespace Verif.Layout
open Verif Py Lex Parse

/-- What may stand inside an argument list. -/
def isInner : NT → Bool
  | .comment | .onoff | .argument | .flag | .keyword | .argGroup | .pargGroup | .flagGroup | .kwargGroup | .parenGroup
  | .lparen | .rparen => true
  | _ => false

/-- What may stand in a body. -/
def isBodyPart : NT → Bool
  | .whitespace | .comment | .onoff | .statement | .flowControl | .atwordStatement => true
  | _ => false

/-- A statement is a name, a parenthesis, arguments and a closing parenthesis, perhaps with a
comment; bodies consist of blocks, flow control of statements and bodies; arguments contain
neither. -/
def framedHere (ty : NT) (kids : List Box) : Bool :=
  match ty with
  | .statement =>
    match kids with
    | fn :: lp :: rest =>
      fn.ty == .funname && lp.ty == .lparen && rest.all (fun k => isInner k.ty) &&
        (match rest.getLast? with
          | some k => k.ty == .rparen || k.ty == .comment
          | none => false)
    | _ => false
  | .atwordStatement =>
    match kids with
    | w :: rest => w.ty == .atword && rest.all (fun k => k.ty == .comment)
    | [] => false
  | .atword => kids.isEmpty
  | .body => kids.all fun k => isBodyPart k.ty
  | .flowControl => kids.all fun k => k.ty == .statement || k.ty == .body
  | _ => kids.all fun k => isInner k.ty

mutual
/-- All the way down. -/
def framed : Box → Bool
  | .mk ty _ _ kids => framedHere ty kids && framedL kids
/-- All of them. -/
def framedL : List Box → Bool
  | [] => true
  | b :: bs => framed b && framedL bs
end

theorem framedL_iff {bs : List Box} : framedL bs = true ↔ ∀ b ∈ bs, framed b = true := by
  induction bs with
  | nil => simp [framedL]
  | cons b bs ih => simp [framedL, ih]

section
variable {cfg : Cfg} {ctx : Ctx}

theorem inner_ty {n : Node} (h : Inner n) : ∀ k ∈ lockL cfg (boxOf n), isInner k.ty = true := by
  intro k hk
  cases n with
  | tok t => simp [boxOf, lockL] at hk
  | node ty a cs =>
    have hty : ty ≠ .whitespace := by rcases h with h | h | h | h | h | h | h | h <;> rw [h] <;> simp
    rw [boxOf_mk hty] at hk
    simp only [lockL, List.mem_singleton] at hk
    subst hk
    rw [(lock_same cfg _).1]
    simp only [Box.ty]
    rcases h with h | h | h | h | h | h | h | h <;> rw [h] <;> rfl

theorem inner_list {cs : List Node} (h : ∀ c ∈ cs, Inner c) : ∀ k ∈ lockL cfg (boxesOf cs), isInner k.ty = true := by
  induction cs with
  | nil => simp [boxesOf, lockL]
  | cons c cs ih =>
    intro k hk
    simp only [boxesOf, lockL_append, List.mem_append] at hk
    rcases hk with hk | hk
    · exact inner_ty (h c (by simp)) k hk
    · exact ih (fun x hx => h x (by simp [hx])) k hk

theorem trail_locked {trail : List Node} (h : Trail trail) : ∀ k ∈ lockL cfg (boxesOf trail), k.ty = .comment := by
  intro k hk
  rw [lockL_map] at hk
  rcases trail_boxes h with e | ⟨b, e, hb⟩
  · simp [e] at hk
  · rw [e] at hk
    simp only [List.map_cons, List.map_nil, List.mem_singleton] at hk
    subst hk
    rw [(lock_same cfg _).1, hb]

theorem filler_list {cs : List Node} (h : ∀ c ∈ cs, Filler c) : ∀ k ∈ lockL cfg (boxesOf cs), isInner k.ty = true := by
  intro k hk
  have := h _ (mem_lockL hk)
  simp only [Filler] at this
  rw [this]; rfl

theorem grp_list {n : Node} (h : Grp n) : ∀ k ∈ lockL cfg (boxOf n), isInner k.ty = true := by
  obtain ⟨b, e, hb⟩ := grp_boxOf h
  intro k hk
  rw [e] at hk
  simp only [lockL, List.mem_singleton] at hk
  subst hk
  rw [(lock_same cfg _).1]
  rcases hb with hb | hb <;> rw [hb] <;> rfl

theorem stmt_framed {a : Attr} {cs : List Node} (hn : NeatHere ctx (.node .statement a cs)) :
    framedHere .statement (lockL cfg (boxesOf cs)) = true := by
  obtain ⟨f, l, r, ws, ws1, sub, mid, trail, e, hw, hw1, hg, hm, htr, _⟩ := hn
  have hbox : lockL cfg (boxesOf cs) = .mk .funname {} [.tok f] [] :: .mk .lparen {} [.tok l] [] ::
      (lockL cfg (boxOf sub) ++ lockL cfg (boxesOf mid) ++ (.mk .rparen {} [.tok r] [] :: lockL cfg (boxesOf trail))) := by
    rw [e]
    simp only [boxesOf_append, boxesOf_leaves, boxesOf, boxOf, mk]
    simp [lockL, lock, lockL_append]
  rw [hbox]
  simp only [framedHere, Bool.and_eq_true, List.all_eq_true]
  refine ⟨⟨⟨rfl, rfl⟩, ?_⟩, ?_⟩
  · intro k hk
    simp only [List.mem_append, List.mem_cons] at hk
    rcases hk with (hk | hk) | rfl | hk
    · exact grp_list hg k hk
    · exact filler_list hm k hk
    · rfl
    · rw [trail_locked htr k hk]; rfl
  · rw [List.getLast?_append, List.getLast?_cons]
    cases hl : (lockL cfg (boxesOf trail)).getLast? with
    | none => simp [Box.ty]
    | some k =>
      have := trail_locked htr k (List.mem_of_getLast? hl)
      simp [this]

mutual
/-- The boxes of a tree are framed, sorted or not. -/
theorem framed_node : ∀ (n : Node), Neat ctx n → ∀ k ∈ lockL cfg (boxOf n), framed k = true
  | .tok t, _, k, hk => by simp [boxOf, lockL] at hk
  | .node ty a cs, hf, k, hk => by
    have hkids := framed_list cs (neat_node.1 hf).2
    have hneat := (neat_node.1 hf).1
    simp only [boxOf] at hk
    split at hk
    · simp [lockL] at hk
    · simp only [lockL, List.mem_singleton] at hk
      subst hk
      have fin : ∀ kids : List Box, kids.Perm (lockL cfg (boxesOf cs)) → framedHere ty kids = true →
          framed (.mk ty a cs kids) = true := by
        intro kids hp h
        simp only [framed, Bool.and_eq_true]
        exact ⟨h, framedL_iff.2 fun k hk => hkids k (hp.mem_iff.1 hk)⟩
      have grp : ty = .argGroup ∨ ty = .pargGroup → framed (lock cfg (.mk ty a cs (boxesOf cs))) = true := by
        intro hty
        have h1 : ∀ c ∈ cs, Inner c := by rcases hty with rfl | rfl <;> exact hneat
        have h2 : ∀ kids : List Box, kids.Perm (lockL cfg (boxesOf cs)) → framed (.mk ty a cs kids) = true := by
          intro kids hp
          refine fin kids hp ?_
          have : kids.all (fun k => isInner k.ty) = true :=
            List.all_eq_true.2 fun k hk => inner_list h1 k (hp.mem_iff.1 hk)
          rcases hty with rfl | rfl <;> exact this
        simp only [lock]
        split
        · exact h2 _ (Props.ArgSort.sort_perm _ _ _)
        · exact h2 _ (List.Perm.refl _)
      have leafOnly : ∀ ts, cs = leaves ts → ty ≠ .statement ∧ ty ≠ .atwordStatement ∧ ty ≠ .pargGroup ∧ ty ≠ .flagGroup →
          framed (lock cfg (.mk ty a cs (boxesOf cs))) = true := by
        intro ts e hty
        rw [lock_plain ⟨hty.2.2.1, hty.2.2.2⟩]
        refine fin _ (List.Perm.refl _) ?_
        have : lockL cfg (boxesOf cs) = [] := by rw [e, boxesOf_leaves]; rfl
        rw [this]
        cases ty <;> first | rfl | (exfalso; simp at hty)
      cases ty with
      | argGroup => exact grp (Or.inl rfl)
      | pargGroup => exact grp (Or.inr rfl)
      | flagGroup => exact hneat.elim
      | statement =>
        rw [lock_plain (by simp)]
        exact fin _ (List.Perm.refl _) (stmt_framed hneat)
      | atwordStatement =>
        rw [lock_plain (by simp)]
        refine fin _ (List.Perm.refl _) ?_
        obtain ⟨t, trail, rfl, htr⟩ := hneat
        have : lockL cfg (boxesOf (mk .atword [.tok t] :: trail)) = .mk .atword {} [.tok t] [] :: lockL cfg (boxesOf trail) := by
          simp [boxesOf, boxOf, mk, lockL, lock]
        rw [this]
        simp only [framedHere, Bool.and_eq_true, List.all_eq_true]
        exact ⟨rfl, fun k hk => by rw [trail_locked htr k hk]; rfl⟩
      | kwargGroup =>
        rw [lock_plain (by simp)]
        refine fin _ (List.Perm.refl _) ?_
        obtain ⟨t, ws, body, rfl, _, hb⟩ := hneat
        have : lockL cfg (boxesOf (mk .keyword [.tok t] :: leaves ws ++ body)) =
            .mk .keyword {} [.tok t] [] :: lockL cfg (boxesOf body) := by
          simp [boxesOf, boxOf, mk, lockL, lock, boxesOf_append, boxesOf_leaves]
        rw [this]
        simp only [framedHere, List.all_eq_true]
        intro k hk
        rcases List.mem_cons.1 hk with rfl | hk
        · rfl
        · rcases hb with rfl | ⟨sub, rfl, hg⟩
          · simp [boxesOf, lockL] at hk
          · simp only [boxesOf, List.append_nil] at hk
            exact grp_list hg k hk
      | parenGroup =>
        rw [lock_plain (by simp)]
        refine fin _ (List.Perm.refl _) ?_
        obtain ⟨l, r, sub, trail, rfl, hg, htr⟩ := hneat
        have : lockL cfg (boxesOf ([mk .lparen [.tok l], sub, mk .rparen [.tok r]] ++ trail)) =
            .mk .lparen {} [.tok l] [] :: (lockL cfg (boxOf sub) ++ .mk .rparen {} [.tok r] [] :: lockL cfg (boxesOf trail)) := by
          simp [boxesOf, boxOf, mk, lockL, lock, lockL_append]
        rw [this]
        simp only [framedHere, List.all_eq_true]
        intro k hk
        simp only [List.mem_cons, List.mem_append] at hk
        rcases hk with rfl | hk | rfl | hk
        · rfl
        · exact grp_list hg k hk
        · rfl
        · rw [trail_locked htr k hk]; rfl
      | comment =>
        obtain ⟨t, ts, e, _⟩ := hneat
        exact leafOnly _ e (by simp)
      | whitespace =>
        obtain ⟨t, ts, e, _⟩ := hneat
        exact leafOnly _ e (by simp)
      | keyword => obtain ⟨t, e, _⟩ := hneat; exact leafOnly [t] e (by simp)
      | funname => obtain ⟨t, e, _⟩ := hneat; exact leafOnly [t] e (by simp)
      | onoff => obtain ⟨t, e, _⟩ := hneat; exact leafOnly [t] e (by simp)
      | atword => obtain ⟨t, e, _⟩ := hneat; exact leafOnly [t] e (by simp)
      | lparen => obtain ⟨t, e, _⟩ := hneat; exact leafOnly [t] e (by simp)
      | rparen => obtain ⟨t, e, _⟩ := hneat; exact leafOnly [t] e (by simp)
      | flag =>
        rw [lock_plain (by simp)]
        obtain ⟨t, trail, rfl, _, htr⟩ := hneat
        refine fin _ (List.Perm.refl _) ?_
        simp only [framedHere, List.all_eq_true, boxesOf, boxOf, List.nil_append]
        exact fun k hk => by rw [trail_locked htr k hk]; rfl
      | argument =>
        rw [lock_plain (by simp)]
        obtain ⟨t, trail, rfl, _, htr⟩ := hneat
        refine fin _ (List.Perm.refl _) ?_
        simp only [framedHere, List.all_eq_true, boxesOf, boxOf, List.nil_append]
        exact fun k hk => by rw [trail_locked htr k hk]; rfl
      | body =>
        rw [lock_plain (by simp)]
        refine fin _ (List.Perm.refl _) ?_
        simp only [framedHere, List.all_eq_true]
        intro k hk
        have := hneat _ (mem_lockL hk)
        simp only [Block] at this
        rcases this with h | h | h | h | h | h <;> rw [h] <;> rfl
      | flowControl =>
        rw [lock_plain (by simp)]
        refine fin _ (List.Perm.refl _) ?_
        simp only [framedHere, List.all_eq_true]
        intro k hk
        have := hneat _ (mem_lockL hk)
        simp only [FlowPart] at this
        rcases this with h | h <;> rw [h] <;> rfl
/-- The boxes of a list of children. -/
theorem framed_list : ∀ (cs : List Node), (∀ c ∈ cs, Neat ctx c) → ∀ k ∈ lockL cfg (boxesOf cs), framed k = true
  | [], _, k, hk => by simp [boxesOf, lockL] at hk
  | c :: cs, hf, k, hk => by
    simp only [boxesOf, lockL_append, List.mem_append] at hk
    rcases hk with hk | hk
    · exact framed_node c (hf c (by simp)) k hk
    · exact framed_list cs (fun x hx => hf x (by simp [hx])) k hk
end

end
end Verif.Layout
