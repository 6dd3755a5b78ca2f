import Verif.LintFull
import Verif.LintDead

/-!
# Files whose blocks are all closed (lemmas for the lint checks)
-/

namespace Verif.Lint
open Verif Py Lex Parse

/-- The open blocks after some commands. -/
def runBlocks (st : List Str) (cmds : List Node) : List Str := cmds.foldl (fun st s => after st (nameOf s)) st

theorem runBlocks_append (st : List Str) (a b : List Node) : runBlocks st (a ++ b) = runBlocks (runBlocks st a) b := by
  simp [runBlocks]

theorem runBlocks_cons (st : List Str) (a : Node) (b : List Node) : runBlocks st (a :: b) = runBlocks (after st (nameOf a)) b := rfl

/-- A block has its end. -/
def ClosedHere : Node → Prop
  | .node .flowControl _ cs => cs.length % 2 = 1 ∧ 3 ≤ cs.length
  | _ => True

/-- All blocks have their ends. -/
def Closed (n : Node) : Prop := ∀ m, Sub m n → ClosedHere m

theorem closed_leafy {n : Node} (h : Leafy n) : Closed n := by
  intro m hm
  have := h m hm
  cases m with
  | tok t => trivial
  | node ty a cs => cases ty <;> first | trivial | simp [quiet, quietT] at this

theorem closed_stmt {x : Str} {n : Node} (h : Stmt x n) : Closed n := by
  obtain ⟨a, t, cs, rfl, _, _, hl⟩ := h
  intro m hm
  cases hm with
  | refl => trivial
  | child hc hm =>
    rcases List.mem_cons.1 hc with rfl | hc
    · cases hm with
      | refl => trivial
      | child hc hm =>
        simp only [List.mem_singleton] at hc
        subst hc
        cases hm
        trivial
    · exact closed_leafy (hl _ hc) _ hm

theorem closed_body {a : Attr} {cs : List Node} (h : ∀ c ∈ cs, Closed c) : Closed (.node .body a cs) := by
  intro m hm
  cases hm with
  | refl => trivial
  | child hc hm => exact h _ hc _ hm

theorem closed_flow {a : Attr} {cs : List Node} (h : ∀ c ∈ cs, Closed c) (ho : cs.length % 2 = 1) (h3 : 3 ≤ cs.length) :
    Closed (.node .flowControl a cs) := by
  intro m hm
  cases hm with
  | refl => exact ⟨ho, h3⟩
  | child hc hm => exact h _ hc _ hm

/-- The parts of a closed sequence are closed. -/
theorem seq_closed {m : Option (List Str)} {c : Bool} {ns : List Node} (h : Seq m c ns) :
    c = true → (∀ n ∈ ns, Closed n) ∧ (m = none → ns.length % 2 = 0 ∧ 2 ≤ ns.length) := by
  induction h with
  | nil => intro _; exact ⟨by simp, by simp⟩
  | other h1 _ ih =>
    intro hc
    refine ⟨?_, by simp⟩
    intro n hn
    rcases List.mem_cons.1 hn with rfl | hn
    · exact closed_leafy h1
    · exact (ih hc).1 _ hn
  | stmt h1 h2 h3 hs ih =>
    intro hc
    refine ⟨?_, by simp⟩
    intro n hn
    rcases List.mem_cons.1 hn with rfl | hn
    · exact closed_stmt h1
    · exact (ih hc).1 _ hn
  | loop h1 h2 h3 h4 _ ih1 ih2 =>
    intro hc
    refine ⟨?_, by simp⟩
    intro n hn
    rcases List.mem_cons.1 hn with rfl | hn
    · refine closed_flow ?_ (by simp) (by simp)
      intro k hk
      simp only [List.mem_cons, List.not_mem_nil, or_false] at hk
      rcases hk with rfl | rfl | rfl
      · exact closed_stmt h2
      · exact closed_body (ih1 rfl).1
      · exact closed_stmt h4
    · exact (ih2 hc).1 _ hn
  | ifs h1 _ _ ih1 ih2 =>
    intro hc
    refine ⟨?_, by simp⟩
    intro n hn
    rcases List.mem_cons.1 hn with rfl | hn
    · obtain ⟨k1, k2⟩ := ih1 rfl
      obtain ⟨k2, k3⟩ := k2 rfl
      refine closed_flow ?_ (by rw [List.length_cons]; omega) (by rw [List.length_cons]; omega)
      intro k hk
      rcases List.mem_cons.1 hk with rfl | hk
      · exact closed_stmt h1
      · exact k1 _ hk
    · exact (ih2 hc).1 _ hn
  | openIf => intro hc; cases hc
  | branch _ hx hs _ ih1 ih2 =>
    intro hc
    obtain ⟨k1, k2⟩ := ih2 hc
    obtain ⟨k2, k3⟩ := k2 rfl
    refine ⟨?_, fun _ => ⟨by simp only [List.length_cons]; omega, by simp⟩⟩
    intro k hk
    simp only [List.mem_cons] at hk
    rcases hk with rfl | rfl | hk
    · exact closed_body (ih1 rfl).1
    · exact closed_stmt hs
    · exact k1 _ hk
  | fi _ he ih1 =>
    intro hc
    refine ⟨?_, fun _ => ⟨by simp, by simp⟩⟩
    intro k hk
    simp only [List.mem_cons, List.not_mem_nil, or_false] at hk
    rcases hk with rfl | rfl
    · exact closed_body (ih1 rfl).1
    · exact closed_stmt he
  | unclosed => intro hc; cases hc

/-- What a sequence leaves open. -/
def OpenAt : Option (List Str) → Bool → List Node → Prop
  | some stop, c, ns => ∀ st, Fit stop st → if c then runBlocks st (stmtsL ns) = st else ∃ l, l ≠ [] ∧ runBlocks st (stmtsL ns) = l ++ st
  | none, c, ns => ∀ st, if c then runBlocks (S "if" :: st) (stmtsL ns) = st else ∃ l, l ≠ [] ∧ runBlocks (S "if" :: st) (stmtsL ns) = l ++ st

theorem seq_open {m : Option (List Str)} {c : Bool} {ns : List Node} (h : Seq m c ns) : OpenAt m c ns := by
  induction h with
  | nil => intro st _; rfl
  | @other stop c n ns h1 _ ih =>
    intro st hf
    simpa [stmtsL, leafy_stmts n h1] using ih st hf
  | @stmt stop c n ns x h1 h2 h3 hs ih =>
    intro st hf
    have := ih st hf
    simpa [stmtsL, stmt_stmtsOf h1, runBlocks_cons, after_plain h1 h2 h3 hf] using this
  | @loop stop c o e ns bs a' b x h1 h2 h3 h4 _ ih1 ih2 =>
    intro st hf
    obtain ⟨n1, n2, n3, n4⟩ := loop_names h1
    have he : nameOf e = S "end" ++ lower x := by rw [stmt_nameOf h4, lower_end]
    have k1 := ih1 (lower x :: st) (fit_loop _ h1)
    have k2 := ih2 st hf
    have hs : stmtsL (.node .flowControl a' [o, .node .body b bs, e] :: ns) = o :: (stmtsL bs ++ (e :: stmtsL ns)) := by
      simp [stmtsL, stmtsOf, stmt_stmtsOf h2, stmt_stmtsOf h4]
    simp only [if_true] at k1
    rw [hs, runBlocks_cons, after_open h2 n1, runBlocks_append, k1, runBlocks_cons, after_end he n2]
    exact k2
  | @ifs stop c o ns rest a' h1 _ _ ih1 ih2 =>
    intro st hf
    have k1 := ih1 st
    have k2 := ih2 st hf
    have hs : stmtsL (.node .flowControl a' (o :: rest) :: ns) = o :: (stmtsL rest ++ stmtsL ns) := by
      simp [stmtsL, stmtsOf, stmt_stmtsOf h1]
    simp only [if_true] at k1
    rw [hs, runBlocks_cons, after_open h1 rfl, show lower (S "IF") = S "if" from rfl, runBlocks_append, k1]
    exact k2
  | @openIf stop o rest a' h1 _ ih1 =>
    intro st hf
    have k1 := ih1 st
    have hs : stmtsL [.node .flowControl a' (o :: rest)] = o :: stmtsL rest := by
      simp [stmtsL, stmtsOf, stmt_stmtsOf h1]
    rw [hs, runBlocks_cons, after_open h1 rfl, show lower (S "IF") = S "if" from rfl]
    exact k1
  | @branch c s bs rest b x _ hx hs _ ih1 ih2 =>
    intro st
    have k1 := ih1 (S "if" :: st) (fit_if _)
    have k2 := ih2 st
    have e : stmtsL (.node .body b bs :: s :: rest) = stmtsL bs ++ (s :: stmtsL rest) := by
      simp [stmtsL, stmtsOf, stmt_stmtsOf hs]
    simp only [if_true] at k1
    rw [e, runBlocks_append, k1, runBlocks_cons, after_branch hs hx]
    exact k2
  | @fi e bs b _ he ih1 =>
    intro st
    have hne : nameOf e = S "end" ++ S "if" := by rw [stmt_nameOf he]; rfl
    have k1 := ih1 (S "if" :: st) (fit_if _)
    have e' : stmtsL [.node .body b bs, e] = stmtsL bs ++ [e] := by
      simp [stmtsL, stmtsOf, stmt_stmtsOf he]
    simp only [if_true] at k1
    rw [e', runBlocks_append, k1, runBlocks_cons, after_end hne rfl]
    rfl
  | @unclosed c bs b _ ih1 =>
    intro st
    have k1 := ih1 (S "if" :: st) (fit_if _)
    have e' : stmtsL [.node .body b bs] = stmtsL bs := by simp [stmtsL, stmtsOf]
    rw [e']
    simp only [Bool.false_eq_true, if_false]
    cases c
    · obtain ⟨l, _, e⟩ := k1
      exact ⟨l ++ [S "if"], by simp, by rw [e]; simp⟩
    · exact ⟨[S "if"], by simp, k1⟩

/-- **A file that closes its blocks gives a tree of closed blocks.** -/
theorem parse_closed {ctx : Parse.Ctx} {ts : List Token} {tree : Node} (h : parse ctx ts = .ok tree)
    (ho : openAfter (stmtsOf tree) = []) : Closed tree := by
  obtain ⟨a, cs, c, rfl, hs⟩ := parse_seq h
  have e' : stmtsOf (.node .body a cs) = stmtsL cs := by simp [stmtsOf]
  have k := seq_open hs [] trivial
  rw [e'] at ho
  cases c
  · obtain ⟨l, hl, e⟩ := k
    rw [List.append_nil] at e
    exact absurd (e.symm.trans ho) hl
  · exact closed_body (seq_closed hs rfl).1

/-! ## The ancestors of a node -/

mutual
/-- The ancestors that a visit adds are nodes of the tree, and the index is that of a child. -/
theorem visits_frames : ∀ (n : Node) (anc : List Frame) (v : List Frame × Node), v ∈ visits anc n → ∀ f ∈ v.1,
    f ∈ anc ∨ (Sub (.node f.ty f.attr f.kids) n ∧ f.idx < f.kids.length)
  | .tok t, anc, v, h, f, hf => by
    simp only [visits, List.not_mem_nil] at h
  | .node ty a cs, anc, v, h, f, hf => by
    simp only [visits, List.mem_cons] at h
    rcases h with rfl | h
    · exact Or.inl hf
    · exact visitsL_frames cs anc ty a cs 0 [] rfl rfl v h f hf
theorem visitsL_frames : ∀ (ns : List Node) (anc : List Frame) (ty : NT) (a : Attr) (all : List Node) (idx : Nat) (pre : List Node),
    all = pre ++ ns → pre.length = idx → ∀ (v : List Frame × Node), v ∈ visitsL anc ty a all idx ns → ∀ f ∈ v.1,
    f ∈ anc ∨ (Sub (.node f.ty f.attr f.kids) (.node ty a all) ∧ f.idx < f.kids.length)
  | [], anc, ty, a, all, idx, pre, he, hl, v, h, f, hf => by simp [visitsL] at h
  | n :: ns, anc, ty, a, all, idx, pre, he, hl, v, h, f, hf => by
    simp only [visitsL, List.mem_append] at h
    rcases h with h | h
    · rcases visits_frames n _ v h f hf with k | ⟨k, k'⟩
      · rcases List.mem_cons.1 k with rfl | k
        · exact Or.inr ⟨.refl _, by simp only [he, List.length_append, List.length_cons]; omega⟩
        · exact Or.inl k
      · exact Or.inr ⟨.child (by rw [he]; simp) k, k'⟩
    · exact visitsL_frames ns anc ty a all (idx + 1) (pre ++ [n]) (by rw [he]; simp) (by simp [hl]) v h f hf
end

/-- The block of a child of a closed block. -/
theorem blockOf_closed {kids : List Node} {idx : Nat} (ho : kids.length % 2 = 1) (h3 : 3 ≤ kids.length) (hi : idx < kids.length) :
    ∃ o b, blockOf kids idx = some (o, b) := by
  unfold blockOf
  have hk : 2 * (if idx = 0 then 0 else (idx - 1) / 2) + 2 < kids.length := by
    split <;> omega
  generalize (if idx = 0 then 0 else (idx - 1) / 2) = i at hk
  simp only
  rw [List.getElem?_eq_getElem (show 2 * i < kids.length by omega), List.getElem?_eq_getElem (show 2 * i + 1 < kids.length by omega),
    List.getElem?_eq_getElem (show 2 * i + 2 < kids.length by omega)]
  exact ⟨_, _, rfl⟩

/-- Above a node of a file whose blocks are closed, the walk up finds a scope. -/
theorem scopeAbove_ok : ∀ (anc : List Frame), (∀ f ∈ anc, f.ty = .flowControl → f.kids.length % 2 = 1 ∧ 3 ≤ f.kids.length ∧ f.idx < f.kids.length) →
    ∃ sc, scopeAbove anc = .ok sc
  | [], _ => ⟨_, rfl⟩
  | f :: fs, h => by
    have ih := scopeAbove_ok fs fun g hg => h g (List.mem_cons_of_mem _ hg)
    unfold scopeAbove
    split
    · rename_i hf
      obtain ⟨h1, h2, h3⟩ := h f (by simp) hf
      obtain ⟨o, b, e⟩ := blockOf_closed h1 h2 h3
      rw [e]
      dsimp only
      split
      · exact ⟨_, rfl⟩
      · split
        · exact ⟨_, rfl⟩
        · exact ih
    · exact ih

theorem visit_scope {tree : Node} (hc : Closed tree) {v : List Frame × Node} (hv : v ∈ visits [] tree) :
    ∃ sc, scopeAbove v.1 = .ok sc := by
  apply scopeAbove_ok
  intro f hf hty
  rcases visits_frames _ _ _ hv f hf with k | ⟨k, k'⟩
  · simp at k
  · have := hc _ k
    rw [hty] at this
    exact ⟨this.1, this.2, k'⟩

/-! ## The traversal -/

mutual
/-- If every check of a node comes to an end, so does the traversal. -/
theorem checkTree_ok (o : Opts) : ∀ (n : Node) (anc : List Frame) (p : Option Token),
    (∀ v ∈ visits anc n, ∃ c, checkNode o v.1 v.2 = .ok c) → ∃ r, checkTree o anc p n = .ok r
  | .tok t, anc, p, h => ⟨_, rfl⟩
  | .node ty a cs, anc, p, h => by
    obtain ⟨c, e⟩ := h (anc, .node ty a cs) (by simp [visits])
    obtain ⟨r, e'⟩ := checkKids_ok o cs anc ty a cs 0 p fun v hv => h v (by simp [visits, hv])
    exact ⟨(c ++ r.1, r.2), by rw [checkTree]; dsimp only at e; rw [e, e']; rfl⟩
theorem checkKids_ok (o : Opts) : ∀ (ns : List Node) (anc : List Frame) (ty : NT) (a : Attr) (all : List Node) (idx : Nat) (p : Option Token),
    (∀ v ∈ visitsL anc ty a all idx ns, ∃ c, checkNode o v.1 v.2 = .ok c) → ∃ r, checkKids o anc ty a all idx p ns = .ok r
  | [], anc, ty, a, all, idx, p, h => ⟨_, rfl⟩
  | n :: ns, anc, ty, a, all, idx, p, h => by
    obtain ⟨r1, e1⟩ := checkTree_ok o n (⟨ty, a, all, idx⟩ :: anc) p fun v hv => h v (by simp [visitsL, hv])
    obtain ⟨r2, e2⟩ := checkKids_ok o ns anc ty a all (idx + 1) r1.2 fun v hv => h v (by simp [visitsL, hv])
    exact ⟨(r1.1 ++ r2.1, r2.2), by rw [checkKids, e1]; simp only [bind, Except.bind]; rw [e2]; rfl⟩
end

end Verif.Lint
