import Verif.Notes
import Verif.Props.Parse

/-!
# Comments between the commands: the two trees (lemmas for C59)
-/

namespace Verif.Parse
open Verif Py Lex

/-! ## Lists without their comments -/

/-- The list without comments and switches. -/
def plainly (ts : List Token) : List Token := ts.filter fun t => !(isAnyComment t || isOnOff t)

/-- The lists considered. -/
structure Fair (ts : List Token) : Prop where
  blanks : ∀ t ∈ ts, isWs t = true → ∀ c ∈ t.spelling, isSpace c = true
  foreach_ : NoBareForeach ts
  nobom : ∀ t ∈ ts, t.type ≠ .bom
  noswitch : ∀ t ∈ ts, isOnOff t = false

theorem Fair.suffix {ts us : List Token} (h : Fair ts) (s : us <:+ ts) : Fair us where
  blanks t ht := h.blanks t (s.subset ht)
  nobom t ht := h.nobom t (s.subset ht)
  noswitch t ht := h.noswitch t (s.subset ht)
  foreach_ := by
    obtain ⟨c, rfl⟩ := s
    intro a t l x b e
    exact h.foreach_ (semantics c ++ a) t l x b (by rw [semantics_append, e]; simp)

theorem plainly_append (a b : List Token) : plainly (a ++ b) = plainly a ++ plainly b := by simp [plainly]

theorem plainly_sem (ts : List Token) : semantics (plainly ts) = semantics ts := by
  simp only [semantics, plainly, List.filter_filter]
  refine List.filter_congr fun t _ => ?_
  simp only [isSemantic]
  cases isWs t <;> cases isAnyComment t <;> cases isOnOff t <;> rfl

theorem plainly_free (ts : List Token) : ∀ t ∈ plainly ts, isAnyComment t = false ∧ isOnOff t = false := by
  intro t ht
  simp only [plainly, List.mem_filter, Bool.not_eq_true', Bool.or_eq_false_iff] at ht
  exact ht.2

theorem plainly_id {x : List Token} (h : ∀ t ∈ x, isAnyComment t = false ∧ isOnOff t = false) : plainly x = x := by
  rw [plainly, List.filter_eq_self]
  intro t ht
  simp [(h t ht).1, (h t ht).2]

theorem Fair.plain {ts : List Token} (h : Fair ts) : ListOk (plainly ts) where
  comments := plainly_free ts
  blanks t ht := h.blanks t (List.mem_filter.1 ht).1
  nobom t ht := h.nobom t (List.mem_filter.1 ht).1
  foreach_ := by
    intro a t l x b e
    rw [plainly_sem] at e
    exact h.foreach_ a t l x b e

/-- The parsers look at the tokens with a meaning only. -/
def Sees (ctx : Ctx) : Prop := ∀ m m' x : List Token, semantics m = semantics m' → Looks ctx m m' x

theorem commandCtx_sees (user : Spec) (explicit : Str → Bool) (vt : List ((Str → Bool) × List Str)) :
    Sees (commandCtx user explicit vt) := by
  intro m m' x hs c t w l y e hw hl hy
  have hE := (registered_entry user explicit vt t.spelling).1
  rcases command_near user explicit vt t.spelling with h1 | ⟨f, h1, h2⟩
  · exact Or.inl h1
  · refine Or.inr ⟨f, h1, ?_, ?_⟩
    · have ne : y.dropWhile isWs ≠ [] := by
        intro e0
        have hd : semantics (y.dropWhile isWs) = semantics y := semantics_dropWs y
        rw [e0] at hd
        exact hy hd.symm
      refine h2 _ _ (by simp [ne]) ?_
      rw [semantics_append, semantics_append, hs]
    · intro q hq
      have hE : Entry true (lookupParser (commandCtx user explicit vt) t.spelling) := lookup_registered _ _ ▸ hE
      rw [h1] at hE
      cases hE with
      | simple _ h => simp [ArgP.simple] at h
      | choose _ hf => exact hf.ok _ _ hq

/-! ## Lists that differ in blanks, letter case and comments -/

/-- The comments at the start of the list. -/
def Cut (c ts : List Token) : Prop :=
  ∃ t c0, c = t :: c0 ∧ isAnyComment t = true ∧ consumeComment t (c0 ++ ts) = (mk .comment (leaves c), ts)

/-- The same words; comments in the same places. -/
inductive CSim (R : List Token → List Token → Prop) : List Token → List Token → Prop
  | nil : CSim R [] []
  | wsL {t : Token} {ts us : List Token} : isWs t = true → CSim R ts us → CSim R (t :: ts) us
  | wsR {u : Token} {ts us : List Token} : isWs u = true → CSim R ts us → CSim R ts (u :: us)
  | sem {t u : Token} {ts us : List Token} : isSemantic t = true → isSemantic u = true → canon t = canon u → CSim R ts us →
      CSim R (t :: ts) (u :: us)
  | com {c d ts us : List Token} : Cut c ts → Cut d us → R c d → CSim R ts us → CSim R (c ++ ts) (d ++ us)

theorem not_ws_sem {t : Token} (h : isAnyComment t = true) : isWs t = false ∧ isSemantic t = false := by
  refine ⟨?_, by simp [isSemantic, h]⟩
  simp only [isAnyComment, Bool.or_eq_true, beq_iff_eq] at h
  rcases h with h | h <;> simp [isWs, h]

section
variable {R : List Token → List Token → Prop}

theorem CSim.dropR {ts us : List Token} (h : CSim R ts us) : CSim R ts (us.dropWhile isWs) := by
  induction h with
  | nil => exact .nil
  | wsL ht _ ih => exact .wsL ht ih
  | wsR hu _ ih => rw [List.dropWhile_cons_of_pos hu]; exact ih
  | sem h1 h2 h3 h4 ih => rw [List.dropWhile_cons_of_neg (by simp [sem_ws h2])]; exact .sem h1 h2 h3 h4
  | com h1 h2 h3 h4 ih =>
    obtain ⟨t, c0, rfl, ht, e⟩ := h2
    rw [List.cons_append, List.dropWhile_cons_of_neg (by simp [(not_ws_sem ht).1]), ← List.cons_append]
    exact .com h1 ⟨t, c0, rfl, ht, e⟩ h3 h4

theorem CSim.dropL {ts us : List Token} (h : CSim R ts us) : CSim R (ts.dropWhile isWs) us := by
  induction h with
  | nil => exact .nil
  | wsR ht _ ih => exact .wsR ht ih
  | wsL hu _ ih => rw [List.dropWhile_cons_of_pos hu]; exact ih
  | sem h1 h2 h3 h4 ih => rw [List.dropWhile_cons_of_neg (by simp [sem_ws h1])]; exact .sem h1 h2 h3 h4
  | com h1 h2 h3 h4 ih =>
    obtain ⟨t, c0, rfl, ht, e⟩ := h1
    rw [List.cons_append, List.dropWhile_cons_of_neg (by simp [(not_ws_sem ht).1]), ← List.cons_append]
    exact .com ⟨t, c0, rfl, ht, e⟩ h2 h3 h4

theorem CSim.sem_eq {ts us : List Token} (h : CSim R ts us) : Alike ts us := by
  have cut : ∀ c ts, Cut c ts → semantics (c ++ ts) = semantics ts := by
    rintro c ts ⟨t, c0, rfl, ht, e⟩
    have := consumeComment_sem t (c0 ++ ts) ht
    rw [e] at this
    rw [List.cons_append, this]
    simp [semantics, (not_ws_sem ht).2]
  induction h with
  | nil => rfl
  | wsL ht _ ih => rw [Alike, semantics_ws ht]; exact ih
  | wsR ht _ ih => rw [Alike, semantics_ws ht]; exact ih
  | sem h1 h2 h3 _ ih =>
    rw [Alike] at ih ⊢
    simp only [semantics, List.filter_cons, h1, h2, if_true, List.map_cons, h3, List.cons.injEq, true_and] at ih ⊢
    exact ih
  | com h1 h2 _ _ ih => rw [Alike, cut _ _ h1, cut _ _ h2]; exact ih

theorem CSim.nil_inv {us : List Token} (h : CSim R [] us) (hl : NoLead us) : us = [] := by
  generalize e : ([] : List Token) = ts at h
  cases h with
  | nil => rfl
  | wsL _ _ => simp at e
  | wsR hu _ => have := hl _ _ rfl; rw [hu] at this; simp at this
  | sem => simp at e
  | com h1 => obtain ⟨t, c0, rfl, _⟩ := h1; simp at e

theorem CSim.sem_inv {t : Token} {ts us : List Token} (h : CSim R (t :: ts) us) (ht : isSemantic t = true) (hl : NoLead us) :
    ∃ u us', us = u :: us' ∧ isSemantic u = true ∧ canon t = canon u ∧ CSim R ts us' := by
  generalize e : t :: ts = ts0 at h
  cases h with
  | nil => simp at e
  | wsL hw _ =>
    simp only [List.cons.injEq] at e
    rw [← e.1, sem_ws ht] at hw; simp at hw
  | wsR hu _ => have := hl _ _ rfl; rw [hu] at this; simp at this
  | sem h1 h2 h3 h4 =>
    simp only [List.cons.injEq] at e
    obtain ⟨rfl, rfl⟩ := e
    exact ⟨_, _, rfl, h2, h3, h4⟩
  | com h1 =>
    obtain ⟨t', c0, rfl, ht', _⟩ := h1
    simp only [List.cons_append, List.cons.injEq] at e
    rw [← e.1, sem_comment ht] at ht'; simp at ht'

theorem CSim.com_inv {t : Token} {ts us : List Token} (h : CSim R (t :: ts) us) (ht : isAnyComment t = true) (hl : NoLead us) :
    ∃ c d ts2 us2, t :: ts = c ++ ts2 ∧ us = d ++ us2 ∧ Cut c ts2 ∧ Cut d us2 ∧ R c d ∧ CSim R ts2 us2 := by
  generalize e : t :: ts = ts0 at h
  cases h with
  | nil => simp at e
  | wsL hw _ =>
    simp only [List.cons.injEq] at e
    rw [← e.1, (not_ws_sem ht).1] at hw; simp at hw
  | wsR hu _ => have := hl _ _ rfl; rw [hu] at this; simp at this
  | sem h1 h2 h3 h4 =>
    simp only [List.cons.injEq] at e
    rw [← e.1, (not_ws_sem ht).2] at h1; simp at h1
  | com h1 h2 h3 h4 => exact ⟨_, _, _, _, rfl, rfl, h1, h2, h3, h4⟩

/-- A command at the start of both lists. -/
theorem CSim.peel {ts us : List Token} (h : CSim R ts us) : ∀ {x m : List Token}, ts = x ++ m →
    (∀ t ∈ x, isAnyComment t = false) →
    ∃ x' m', us = x' ++ m' ∧ Alike x x' ∧ CSim R m m' ∧ (∀ t ∈ x', isAnyComment t = false ∧ isOnOff t = false) ∧
      (x' = [] ∨ ∃ y r, x' = y ++ [r] ∧ isSemantic r = true) := by
  have stop : ∀ {ts us m : List Token}, CSim R ts us → ts = [] ++ m →
      ∃ x' m', us = x' ++ m' ∧ Alike [] x' ∧ CSim R m m' ∧ (∀ t ∈ x', isAnyComment t = false ∧ isOnOff t = false) ∧
      (x' = [] ∨ ∃ y r, x' = y ++ [r] ∧ isSemantic r = true) := by
    intro ts us m h e
    simp only [List.nil_append] at e
    subst e
    exact ⟨[], us, rfl, rfl, h, by simp, Or.inl rfl⟩
  induction h with
  | nil =>
    intro x m e hx
    cases x with
    | nil => exact stop .nil e
    | cons t x => simp at e
  | @wsL t ts us ht h0 ih =>
    intro x m e hx
    cases x with
    | nil => exact stop (.wsL ht h0) e
    | cons t' x =>
      simp only [List.cons_append, List.cons.injEq] at e
      obtain ⟨rfl, rfl⟩ := e
      obtain ⟨x', m', h1, h2, h3, h4, h5⟩ := ih rfl fun a ha => hx a (by simp [ha])
      exact ⟨x', m', h1, by rw [Alike, semantics_ws ht]; exact h2, h3, h4, h5⟩
  | @wsR u ts us hu h0 ih =>
    intro x m e hx
    obtain ⟨x', m', h1, h2, h3, h4, h5⟩ := ih e hx
    rcases h5 with rfl | ⟨y, r, rfl, hr⟩
    · refine ⟨[], u :: m', by simp [h1], h2, .wsR hu h3, by simp, Or.inl rfl⟩
    · refine ⟨u :: (y ++ [r]), m', by simp [h1], by rw [Alike, semantics_ws hu]; exact h2, h3, ?_, Or.inr ⟨u :: y, r, rfl, hr⟩⟩
      intro a ha
      rcases List.mem_cons.1 ha with rfl | ha
      · simp only [isWs, Bool.or_eq_true, beq_iff_eq] at hu
        rcases hu with hu | hu <;> simp [isAnyComment, isOnOff, hu]
      · exact h4 a ha
  | @sem t u ts us h1 h2 h3 h4 ih =>
    intro x m e hx
    cases x with
    | nil => exact stop (.sem h1 h2 h3 h4) e
    | cons t' x =>
      simp only [List.cons_append, List.cons.injEq] at e
      obtain ⟨rfl, rfl⟩ := e
      obtain ⟨x', m', e1, e2, e3, e4, e5⟩ := ih rfl fun a ha => hx a (by simp [ha])
      refine ⟨u :: x', m', by simp [e1], ?_, e3, ?_, Or.inr ?_⟩
      · rw [Alike] at e2 ⊢
        simp only [semantics, List.filter_cons, h1, h2, if_true, List.map_cons, h3, List.cons.injEq, true_and] at e2 ⊢
        exact e2
      · intro a ha
        rcases List.mem_cons.1 ha with rfl | ha
        · exact ⟨sem_comment h2, sem_onoff h2⟩
        · exact e4 a ha
      · rcases e5 with rfl | ⟨y, r, rfl, hr⟩
        · exact ⟨[], u, rfl, h2⟩
        · exact ⟨u :: y, r, rfl, hr⟩
  | @com c d ts us h1 h2 h3 h4 ih =>
    intro x m e hx
    cases x with
    | nil => exact stop (.com h1 h2 h3 h4) e
    | cons t' x =>
      obtain ⟨t, c0, rfl, ht, _⟩ := h1
      simp only [List.cons_append, List.cons.injEq] at e
      have := hx t (by simp [e.1])
      rw [ht] at this; simp at this
end

/-! ## The two trees -/

/-- The type of a node. -/
def Node.isType (ty : NT) : Node → Bool
  | .tok _ => false
  | .node ty' _ _ => ty' == ty

theorem stmt_isType {ctx : Ctx} {n : Nat} {up : Bool} {ts : List Token} {r : Node × List Token}
    (h : exec ctx n .statement up ts = .ok r) : r.1.isType .statement = true := by
  cases n with
  | zero => simp [exec] at h
  | succ n =>
    simp only [exec, step] at h
    cases ts with
    | nil => simp [stmtIter] at h
    | cons t ts =>
      simp only [stmtIter] at h
      split at h
      · simp at h
      · split at h
        · simp at h
        · obtain ⟨⟨sub, rest⟩, _, h⟩ := bind_ok.1 h
          obtain ⟨⟨tail, rest1⟩, _, h⟩ := bind_ok.1 h
          simp only at h
          split at h
          · simp at h
          · simp only [pure, Except.pure, Except.ok.injEq] at h
            subst h
            rfl

/-- No comment is taken after a token with a meaning. -/
def NoTrail (ctx : Ctx) (us : List Token) : Prop :=
  ∀ a t b, us = a ++ t :: b → isSemantic t = true → consumeTrailing ctx b = ([], b)

theorem NoTrail.suffix {ctx : Ctx} {us vs : List Token} (h : NoTrail ctx us) (s : vs <:+ us) : NoTrail ctx vs := by
  obtain ⟨c, rfl⟩ := s
  intro a t b e ht
  exact h (c ++ a) t b (by rw [e]; simp) ht

/-- The children that are no blanks. -/
def inkNodes (cs : List Node) : List Node := cs.filter fun n => !blankNode n

mutual
/-- The same tree up to blanks and letter case; comments of bodies are related by `R`. -/
def Kin (R : List Token → List Token → Prop) : Node → Node → Prop
  | .tok t, n' => bare (.tok t) = bare n'
  | .node ty a cs, n' =>
    match ty with
    | .comment => ∃ c d, .node .comment a cs = mk .comment (leaves c) ∧ n' = mk .comment (leaves d) ∧ R c d
    | .body => ∃ cs', n' = .node .body a cs' ∧ KinL R cs (inkNodes cs')
    | .flowControl => ∃ cs', n' = .node .flowControl a cs' ∧ KinL R cs (inkNodes cs')
    | ty => bare (.node ty a cs) = bare n'
/-- One by one. -/
def KinL (R : List Token → List Token → Prop) : List Node → List Node → Prop
  | [], cs' => cs' = []
  | n :: ns, cs' => if blankNode n then KinL R ns cs' else ∃ n' ns', cs' = n' :: ns' ∧ Kin R n n' ∧ KinL R ns ns'
end

mutual
/-- No command contains a comment. -/
def Between : Node → Prop
  | .tok _ => True
  | .node ty a cs =>
    match ty with
    | .statement => ∀ t ∈ (Node.node .statement a cs).toks, isAnyComment t = false
    | .atwordStatement => ∀ t ∈ (Node.node .atwordStatement a cs).toks, isAnyComment t = false
    | .body => BetweenL cs
    | .flowControl => BetweenL cs
    | _ => True
/-- All of them. -/
def BetweenL : List Node → Prop
  | [] => True
  | n :: ns => Between n ∧ BetweenL ns
end

theorem betweenL_mem {ns : List Node} : BetweenL ns ↔ ∀ n ∈ ns, Between n := by
  induction ns with
  | nil => simp [BetweenL]
  | cons n ns ih => simp [BetweenL, ih]

section
variable {R : List Token → List Token → Prop}

theorem bare_blank {n n' : Node} (h : bare n = bare n') : blankNode n = blankNode n' := by
  cases n with
  | tok t =>
    cases n' with
    | tok u =>
      simp only [bare_tok, Node.tok.injEq, canon, Token.mk.injEq] at h
      simp [blankNode, isWs, h.1]
    | node ty a cs => simp at h
  | node ty a cs =>
    cases n' with
    | tok u => simp at h
    | node ty' a' cs' => simp only [bare_node, Node.node.injEq] at h; simp [blankNode, h.1]

theorem kin_bare {n n' : Node} (hc : n.isType .comment = false) (hb : n.isType .body = false)
    (hf : n.isType .flowControl = false) (h : bare n = bare n') : Kin R n n' := by
  cases n with
  | tok t => simpa only [Kin] using h
  | node ty a cs => cases ty <;> simp [Node.isType] at hc hb hf <;> simpa only [Kin] using h

theorem kin_blank {n n' : Node} (h : Kin R n n') : blankNode n' = blankNode n := by
  cases n with
  | tok t => simp only [Kin] at h; exact (bare_blank h).symm
  | node ty a cs =>
    cases ty
    case comment => simp only [Kin] at h; obtain ⟨c, d, _, rfl, _⟩ := h; rfl
    case body => simp only [Kin] at h; obtain ⟨cs', rfl, _⟩ := h; rfl
    case flowControl => simp only [Kin] at h; obtain ⟨cs', rfl, _⟩ := h; rfl
    all_goals (simp only [Kin] at h; exact (bare_blank h).symm)

theorem kinL_append {a b a' b' : List Node} (h : KinL R a a') (h' : KinL R b b') : KinL R (a ++ b) (a' ++ b') := by
  induction a generalizing a' with
  | nil => simp only [KinL] at h; subst h; exact h'
  | cons n a ih =>
    simp only [List.cons_append, KinL] at h ⊢
    split at h
    · rename_i hb; rw [if_pos hb]; exact ih h
    · rename_i hb
      rw [if_neg hb]
      obtain ⟨n', ns', rfl, h1, h2⟩ := h
      exact ⟨n', ns' ++ b', rfl, h1, ih h2⟩

theorem kinL_one {n n' : Node} (h : Kin R n n') : KinL R [n] (inkNodes [n']) := by
  have hb := kin_blank h
  cases hn : blankNode n with
  | true =>
    rw [hn] at hb
    simp [KinL, inkNodes, hn, hb]
  | false =>
    rw [hn] at hb
    simp [KinL, inkNodes, hn, hb, h]

theorem inkNodes_append (a b : List Node) : inkNodes (a ++ b) = inkNodes a ++ inkNodes b := by simp [inkNodes]

theorem kinL_snoc {acc acc' : List Node} {n n' : Node} (h : KinL R acc (inkNodes acc')) (hn : Kin R n n') :
    KinL R (acc ++ [n]) (inkNodes (acc' ++ [n'])) := by
  rw [inkNodes_append]
  exact kinL_append h (kinL_one hn)

theorem kinL_blank {acc acc' : List Node} {ts : List Node} (h : KinL R acc acc') : KinL R (acc ++ [mk .whitespace ts]) acc' := by
  have := kinL_append h (b := [mk .whitespace ts]) (b' := []) (by simp [KinL, blankNode, mk])
  simpa using this

theorem inkNodes_blank {acc : List Node} {ts : List Node} : inkNodes (acc ++ [mk .whitespace ts]) = inkNodes acc := by
  simp [inkNodes, blankNode, mk]

/-- The node and the rest, up to blanks, letter case and comments. -/
def NConcl (ctx : Ctx) (R : List Token → List Token → Prop) (F : Rec → Parse.R) (r : Node × List Token) : Prop :=
  ∃ r', Ev ctx F r' ∧ Kin R r.1 r'.1 ∧ CSim R r.2 r'.2

theorem NConcl.step {ctx : Ctx} {job : Job} {up : Bool} {us : List Token} {r : Node × List Token}
    (h : NConcl ctx R (fun rec => Parse.step ctx rec job up us) r) : NConcl ctx R (fun rec => rec job up us) r := by
  obtain ⟨r', ⟨m, hm⟩, h2⟩ := h
  refine ⟨r', ⟨m + 1, ?_⟩, h2⟩
  intro k hk
  cases k with
  | zero => omega
  | succ k => exact hm k (by omega)

theorem NConcl.bind {ctx : Ctx} (C : CtxSame ctx) {job : Job} {up : Bool} {us : List Token} {x r : Node × List Token}
    {g : Rec → Node × List Token → Parse.R}
    (h : NConcl ctx R (fun rec => rec job up us) x)
    (k : ∀ y, Kin R x.1 y.1 → CSim R x.2 y.2 → y.2 <:+ us → (∃ m, exec ctx m job up us = .ok y) →
      NConcl ctx R (fun rec => g rec y) r) :
    NConcl ctx R (fun rec => rec job up us >>= g rec) r := by
  obtain ⟨y, ⟨m, hm⟩, h1, h2⟩ := h
  obtain ⟨r', ⟨m', hm'⟩, h3⟩ := k y h1 h2 (exec_suffix C (hm m (Nat.le_refl _))) ⟨m, hm m (Nat.le_refl _)⟩
  refine ⟨r', ⟨max m m', ?_⟩, h3⟩
  intro k hk
  simp only at hm ⊢
  rw [hm k (by omega)]
  exact hm' k (by omega)

theorem NConcl.stop {ctx : Ctx} {n n' : Node} {ts us : List Token} (h : Kin R n n') (a : CSim R ts us) :
    NConcl ctx R (fun _ => .ok (n', us)) (n, ts) := ⟨_, ⟨0, fun _ _ => rfl⟩, h, a⟩

/-- Two ends of the same list that start after a token with a meaning. -/
theorem same_rest {a b x y : List Token} (h : a ++ x = b ++ y) (ha : ∃ p r, a = p ++ [r] ∧ isSemantic r = true)
    (hb : ∃ p r, b = p ++ [r] ∧ isSemantic r = true) (hn : (semantics x).length = (semantics y).length) : x = y := by
  have key : ∀ {a b x y : List Token}, a ++ x = b ++ y → (∃ p r, a = p ++ [r] ∧ isSemantic r = true) →
      (semantics x).length = (semantics y).length → b.length ≤ a.length → x = y := by
    intro a b x y h ⟨p, r, ha, hr⟩ hn hle
    obtain ⟨c, rfl, rfl⟩ | ⟨c, rfl, rfl⟩ := List.append_eq_append_iff.1 h
    · have : c = [] := by
        simp only [List.length_append] at hle
        exact List.eq_nil_of_length_eq_zero (by omega)
      subst this; rfl
    · cases hc : c.reverse with
      | nil =>
        have : c = [] := by simpa using hc
        subst this; rfl
      | cons z zs =>
        have hc : c = zs.reverse ++ [z] := by rw [← List.reverse_reverse c, hc]; simp
        subst hc
        have hz : z = r := by
          have := congrArg List.reverse ha
          simp at this
          exact this.1
        subst hz
        exfalso
        have : (semantics [z]).length = 1 := by simp [semantics, hr]
        simp only [semantics_append, List.length_append] at hn
        omega
  rcases Nat.le_total b.length a.length with hle | hle
  · exact key h ha hn hle
  · exact (key h.symm hb hn.symm hle).symm

section
variable {ctx : Ctx} (C : CtxSame ctx) (S : Sees ctx)
include C S

/-- A command. -/
theorem stmt_kin {n : Nat} {up up' : Bool} {ts us : List Token} {r : Node × List Token}
    (h : exec ctx n .statement up ts = .ok r) (hb : ∀ t ∈ r.1.toks, isAnyComment t = false)
    (ok : Fair ts) (ok' : Fair us) (hl : NoLead ts) (hl' : NoLead us) (hs : CSim R ts us) (tr : NoTrail ctx us) :
    NConcl ctx R (fun rec => rec .statement up' us) r := by
  obtain ⟨nd, m⟩ := r
  simp only at hb
  obtain ⟨x, e, hrel⟩ := exec_holds (s := false) (Q := fun _ => True) (fun _ _ => Props.Parse.argOk_all _ true) _ _ _ _ _ h
    trivial ⟨by simp, ok.nobom, fun _ a b hab hbb => by
      have := ok.noswitch b (hab.subset (by simp))
      rw [this] at hbb; simp at hbb⟩
  simp only at e
  have hperm : nd.toks.Perm x := by
    simp only [Rel, Bool.false_eq_true, if_false] at hrel
    simpa [Job.toks] using hrel.1
  have hx : ∀ t ∈ x, isAnyComment t = false := fun t ht => hb t (hperm.mem_iff.2 ht)
  have hx2 : ∀ t ∈ x, isAnyComment t = false ∧ isOnOff t = false := fun t ht =>
    ⟨hx t ht, ok.noswitch t (by rw [e]; simp [ht])⟩
  subst e
  obtain ⟨x', m', rfl, hal, hsim, hx', hend⟩ := CSim.peel hs rfl hx
  obtain ⟨y, q, rfl, hq⟩ := stmt_last C.flat hx h
  have hqs : isSemantic q = true := by simp [isSemantic, isWs, isAnyComment, isOnOff, hq]
  have hend : ∃ y r, x' = y ++ [r] ∧ isSemantic r = true := by
    rcases hend with rfl | h
    · exfalso
      have := Alike.length hal
      simp [semantics, List.filter_append, hqs] at this
    · exact h
  have tr' : consumeTrailing ctx m' = ([], m') := by
    obtain ⟨y', r', rfl, hr'⟩ := hend
    exact tr y' r' m' (by simp) hr'
  have okp := ok.plain
  have okp' := ok'.plain
  rw [plainly_append, plainly_id hx2] at okp
  rw [plainly_append, plainly_id hx'] at okp'
  have h1 := stmt_to C.flat (S m (plainly m) _ (plainly_sem m).symm) hx
    (consumeTrailing_plain ctx (okp.suffix (List.suffix_append _ _))) h
  have alm : Alike (plainly m) (plainly m') := by
    have := hsim.sem_eq
    simp only [Alike, plainly_sem] at this ⊢
    exact this
  have al : Alike ((y ++ [q]) ++ plainly m) (x' ++ plainly m') := by
    simp only [Alike, semantics_append, List.map_append] at hal alm ⊢
    rw [hal, alm]
  have lead : ∀ {x m m2 : List Token}, NoLead (x ++ m) → x ≠ [] → NoLead (x ++ m2) := by
    intro x m m2 h hx
    cases x with
    | nil => exact absurd rfl hx
    | cons a x =>
      intro t ts e
      simp only [List.cons_append, List.cons.injEq] at e
      rw [← e.1]
      exact h a _ rfl
  have nx' : x' ≠ [] := by obtain ⟨y', r', rfl, _⟩ := hend; simp
  obtain ⟨⟨nd', rest'⟩, ⟨k, hk⟩, hbare, halr⟩ := sim_all C n _ _ _ up' _ _ _ h1 (.statement (lead hl (by simp)) (lead hl' nx'))
    okp okp' al (Or.inl rfl)
  simp only at hbare halr hk
  have hrest : rest' = plainly m' := by
    have hk' := hk k (Nat.le_refl _)
    obtain ⟨d, ed⟩ := exec_suffix C hk'
    simp only at ed
    rw [← ed] at hk'
    obtain ⟨y2, r2, e2, hr2⟩ := stmt_last C.flat (x := d) (m := rest') (fun t ht => by
      have : t ∈ x' ++ plainly m' := by rw [← ed]; simp [ht]
      exact (okp'.comments t this).1) hk'
    refine same_rest ed ⟨y2, r2, e2, by simp [isSemantic, isWs, isAnyComment, isOnOff, hr2]⟩ hend ?_
    rw [← Alike.length halr, Alike.length alm]
  subst hrest
  refine ⟨(nd', m'), ⟨k, fun k' hk' => ?_⟩, ?_, hsim⟩
  · exact stmt_to C.flat (S (plainly m') m' _ (plainly_sem m')) (fun t ht => (hx' t ht).1) tr' (hk k' hk')
  · have ht : nd.isType .statement = true := stmt_isType h
    refine kin_bare ?_ ?_ ?_ hbare
    all_goals
      cases nd with
      | tok t => simp [Node.isType] at ht
      | node ty a cs =>
        cases ty <;> simp [Node.isType] at ht ⊢

omit C S in
/-- The body ends in front of a word, or at the end. -/
theorem body_stop {n : Nat} {bs : List Str} {acc : List Node} {up : Bool} {ts : List Token} {r : Node × List Token}
    (h : exec ctx n (.body bs acc) up ts = .ok r) : Seam r.2 := by
  obtain ⟨nd, rest⟩ := r
  intro t ts' e
  simp only at e
  rcases (body_out n h).2 with e2 | ⟨t', r', e2, ht, _⟩
  · rw [e2] at e; simp at e
  · rw [e2] at e
    simp only [List.cons.injEq] at e
    rw [← e.1]
    simp [isSemantic, isWs, isAnyComment, isOnOff, ht]

omit C S in
theorem Seam.lead {ts : List Token} (h : Seam ts) : NoLead ts := fun t ts' e => sem_ws (h t ts' e)

omit C S in
theorem if_cs {n : Nat} {acc : List Node} {up : Bool} {ts : List Token} {r : Node × List Token}
    (h : exec ctx n (.ifLoop acc) up ts = .ok r) : ∃ cs, r.1 = mk .flowControl (acc ++ cs) := by
  induction n generalizing acc up ts r with
  | zero => simp [exec] at h
  | succ n ih =>
    change ifIter (exec ctx n) acc ts = _ at h
    cases ts with
    | nil =>
      simp only [ifIter, Except.ok.injEq] at h
      exact ⟨[], by rw [← h]; simp⟩
    | cons t ts =>
      simp only [ifIter] at h
      split at h
      · obtain ⟨o, h1, h⟩ := bind_ok.1 h
        simp only [pure_ok] at h
        exact ⟨[o.1], by rw [← h]⟩
      · obtain ⟨o, h1, h⟩ := bind_ok.1 h
        obtain ⟨b, h2, h⟩ := bind_ok.1 h
        obtain ⟨cs, e⟩ := ih h
        exact ⟨[o.1, b.1] ++ cs, by rw [e]; simp⟩

/-- Blocks. -/
theorem blocks_kin (n : Nat) :
    (∀ bs acc acc' up up' ts us r, exec ctx n (.body bs acc) up ts = .ok r → Between r.1 → Fair ts → Fair us →
      NoTrail ctx us → CSim R ts us → KinL R acc (inkNodes acc') → NConcl ctx R (fun rec => rec (.body bs acc') up' us) r) ∧
    (∀ up up' ts us r, exec ctx n .flow up ts = .ok r → Between r.1 → Fair ts → Fair us → Seam ts → NoLead us →
      NoTrail ctx us → CSim R ts us → NConcl ctx R (fun rec => rec .flow up' us) r) ∧
    (∀ acc acc' up up' ts us r, exec ctx n (.ifLoop acc) up ts = .ok r → Between r.1 → Fair ts → Fair us → Seam ts →
      NoLead us → NoTrail ctx us → CSim R ts us → KinL R acc (inkNodes acc') →
      NConcl ctx R (fun rec => rec (.ifLoop acc') up' us) r) := by
  induction n with
  | zero => refine ⟨?_, ?_, ?_⟩ <;> intros <;> rename_i h _ _ _ _ <;> simp_all [exec]
  | succ n ih =>
    obtain ⟨ihb, ihf, ihi⟩ := ih
    have stmt : ∀ {up up' : Bool} {ts us : List Token} {r : Node × List Token}, exec ctx n .statement up ts = .ok r →
        Between r.1 → Fair ts → Fair us → NoLead ts → NoLead us → NoTrail ctx us → CSim R ts us →
        NConcl ctx R (fun rec => rec .statement up' us) r := by
      intro up up' ts us r h hb ok ok' hl hl' tr hs
      refine stmt_kin C S h ?_ ok ok' hl hl' hs tr
      have ht := stmt_isType h
      obtain ⟨nd, m⟩ := r
      cases nd with
      | tok t => simp [Node.isType] at ht
      | node ty a cs =>
        cases ty <;> simp [Node.isType] at ht
        simpa only [Between] using hb
    refine ⟨?_, ?_, ?_⟩
    · intro bs acc acc' up up' ts us r h hbt ok ok' tr hs hacc
      change bodyIter ctx (exec ctx n) bs acc ts = _ at h
      by_cases hsp : ∃ t ts', ts = t :: ts' ∧ isWs t = true
      · obtain ⟨t, ts', rfl, hw⟩ := hsp
        simp only [bodyIter, hw, if_true] at h
        exact ihb _ _ _ _ _ _ _ _ h hbt (ok.suffix (List.dropWhile_suffix isWs)) ok' tr hs.dropL (kinL_blank hacc)
      · have skip : (∀ acc2, inkNodes acc2 = inkNodes acc' → ∀ up, NConcl ctx R (fun rec => rec (.body bs acc2) up (us.dropWhile isWs)) r) →
            NConcl ctx R (fun rec => rec (.body bs acc') up' us) r := by
          intro h
          cases us with
          | nil => exact h acc' rfl up'
          | cons u us =>
            cases hw : isWs u with
            | false =>
              have := h acc' rfl up'
              rwa [List.dropWhile_cons_of_neg (by simp [hw])] at this
            | true =>
              refine NConcl.step ?_
              simp only [step, bodyIter, hw, if_true]
              exact h _ inkNodes_blank false
        refine skip fun acc2 hacc2 up2 => NConcl.step ?_
        have ok' := ok'.suffix (List.dropWhile_suffix (l := us) isWs)
        have tr := tr.suffix (List.dropWhile_suffix (l := us) isWs)
        have hs := hs.dropR
        have hl' := noLead_drop us
        rw [← hacc2] at hacc
        generalize us.dropWhile isWs = us at ok' tr hs hl' ⊢
        clear hacc2 skip
        cases ts with
        | nil =>
          rw [hs.nil_inv hl']
          simp only [step, bodyIter, Except.ok.injEq] at h ⊢
          subst h
          exact NConcl.stop (by simp only [mk, Kin]; exact ⟨_, rfl, hacc⟩) .nil
        | cons t ts =>
          have hw : isWs t = false := by
            cases e : isWs t with
            | false => rfl
            | true => exact absurd ⟨t, ts, rfl, e⟩ hsp
          have hl : NoLead (t :: ts) := by
            intro a b e
            simp only [List.cons.injEq] at e
            rw [← e.1]; exact hw
          have sub : ∀ {nd : Node} {up : Bool} {ts : List Token}, exec ctx n (.body bs (acc ++ [nd])) up ts = .ok r → Between nd := by
            intro nd up ts h
            obtain ⟨⟨cs, e⟩, _⟩ := body_out n (nd := r.1) (rest := r.2) h
            rw [e] at hbt
            simp only [mk, Between] at hbt
            exact betweenL_mem.1 hbt nd (by simp)
          cases hct : isAnyComment t with
          | true =>
            obtain ⟨c, d, ts2, us2, e, rfl, ⟨t', c0, rfl, ht', ec⟩, ⟨u, d0, rfl, hu, ed⟩, hR, hs2⟩ := hs.com_inv hct hl'
            simp only [List.cons_append, List.cons.injEq] at e
            obtain ⟨rfl, rfl⟩ := e
            simp only [bodyIter, hw, hct, Bool.false_eq_true, if_false, if_true, ec] at h
            simp only [List.cons_append, step, bodyIter, (not_ws_sem hu).1, hu, Bool.false_eq_true, if_false, if_true, ed]
            refine ihb _ _ _ _ _ _ _ _ h hbt (ok.suffix ⟨t :: c0, by simp⟩) (ok'.suffix ⟨u :: d0, by simp⟩)
              (tr.suffix ⟨u :: d0, by simp⟩) hs2 (kinL_snoc hacc ?_)
            simp only [mk, Kin]
            exact ⟨_, _, rfl, rfl, hR⟩
          | false =>
            have hso : isOnOff t = false := ok.noswitch t (by simp)
            have hsem : isSemantic t = true := by simp [isSemantic, hw, hct, hso]
            obtain ⟨u, us2, rfl, hu, hc, hs2⟩ := hs.sem_inv hsem hl'
            simp only [bodyIter, hw, hct, hso, Bool.false_eq_true, if_false] at h
            simp only [step, bodyIter, sem_ws hu, sem_comment hu, sem_onoff hu, Bool.false_eq_true, if_false, ← canon_type hc, ← canon_upper hc]
            split at h
            · rename_i h1
              simp only [h1, if_true]
              split at h
              · rename_i h2
                simp only [h2, if_true]
                simp only [Except.ok.injEq] at h
                subst h
                exact NConcl.stop (by simp only [mk, Kin]; exact ⟨_, rfl, hacc⟩) hs
              · rename_i h2
                simp only [h2, if_false, Bool.false_eq_true]
                split at h
                · rename_i h3
                  simp only [h3, if_true]
                  obtain ⟨x, h4, h5⟩ := bind_ok.1 h
                  refine NConcl.bind C (ihf _ _ _ _ _ h4 (sub h5) ok ok' (seam_cons hsem) hl' tr hs) ?_
                  intro y hy hsy hsuf _
                  exact ihb _ _ _ _ _ _ _ _ h5 hbt (ok.suffix (exec_suffix C h4)) (ok'.suffix hsuf) (tr.suffix hsuf) hsy
                    (kinL_snoc hacc hy)
                · rename_i h3
                  simp only [h3, if_false, Bool.false_eq_true]
                  obtain ⟨x, h4, h5⟩ := bind_ok.1 h
                  refine NConcl.bind C (stmt h4 (sub h5) ok ok' hl hl' tr hs) ?_
                  intro y hy hsy hsuf _
                  exact ihb _ _ _ _ _ _ _ _ h5 hbt (ok.suffix (exec_suffix C h4)) (ok'.suffix hsuf) (tr.suffix hsuf) hsy
                    (kinL_snoc hacc hy)
            · rename_i h1
              simp only [h1, if_false, Bool.false_eq_true]
              split at h
              · rename_i h2
                simp only [h2, if_true]
                have none : consumeTrailing ctx ts = ([], ts) := by
                  rcases trailing_or ctx ts with e | ⟨a, ha, hca⟩
                  · exact e
                  · have := sub h
                    simp only [mk, Between] at this
                    have := this a (by simp [ha])
                    rw [hca] at this; simp at this
                rw [none] at h
                rw [tr [] u us2 rfl hu]
                refine ihb _ _ _ _ _ _ _ _ h hbt (ok.suffix (List.suffix_cons _ _)) (ok'.suffix (List.suffix_cons _ _))
                  (tr.suffix (List.suffix_cons _ _)) hs2 (kinL_snoc hacc ?_)
                refine kin_bare rfl rfl rfl ?_
                rw [bare_mk, bare_mk, bareL_cons, bareL_cons]
                simp only [mk, blankNode, bareL_nil, bare_node]
                rw [bareL_ink _ _ hw, bareL_ink _ _ (sem_ws hu), hc]
              · have := ok.nobom t (by simp)
                have hbom : (t.type == .bom) = false := by simpa using this
                simp [hbom] at h
    · intro up up' ts us r h hbt ok ok' hl hl' tr hs
      refine NConcl.step ?_
      change flowIter (exec ctx n) ts = _ at h
      cases ts with
      | nil => simp [flowIter] at h
      | cons t ts =>
        have hsem := hl t ts rfl
        obtain ⟨u, us2, rfl, hu, hc, hs2⟩ := hs.sem_inv hsem hl'
        simp only [flowIter] at h
        simp only [step, flowIter, ← canon_upper hc]
        split at h
        · rename_i h1
          simp only [h1, if_true]
          exact ihi _ _ _ _ _ _ _ h hbt ok ok' hl hl' tr hs (by simp [KinL, inkNodes])
        · rename_i h1
          simp only [h1, if_false]
          obtain ⟨o, h1, h⟩ := bind_ok.1 h
          obtain ⟨b, h2, h⟩ := bind_ok.1 h
          obtain ⟨c, h3, h⟩ := bind_ok.1 h
          simp only [pure_ok] at h
          subst h
          simp only [mk, Between, BetweenL] at hbt
          have oko := ok.suffix (exec_suffix C h1)
          have okb := oko.suffix (exec_suffix C h2)
          refine NConcl.bind C (stmt h1 hbt.1 ok ok' hl.lead hl' tr hs) ?_
          intro o' ho hso suo _
          refine NConcl.bind C (ihb _ _ [] _ _ _ _ _ h2 hbt.2.1 oko (ok'.suffix suo) (tr.suffix suo) hso (by simp [KinL, inkNodes])) ?_
          intro b' hb hsb sub ⟨k, hk⟩
          refine NConcl.bind C (stmt h3 hbt.2.2.1 okb ((ok'.suffix suo).suffix sub) (body_stop h2).lead (body_stop hk).lead
            ((tr.suffix suo).suffix sub) hsb) ?_
          intro c' hc' hsc suc _
          refine NConcl.stop ?_ hsc
          simp only [mk, Kin]
          refine ⟨_, rfl, ?_⟩
          have := kinL_snoc (kinL_snoc (kinL_snoc (R := R) (acc := []) (acc' := []) (by simp [KinL, inkNodes]) ho) hb) hc'
          simpa using this
    · intro acc acc' up up' ts us r h hbt ok ok' hl hl' tr hs hacc
      refine NConcl.step ?_
      change ifIter (exec ctx n) acc ts = _ at h
      cases ts with
      | nil =>
        rw [hs.nil_inv hl']
        simp only [step, ifIter, Except.ok.injEq] at h ⊢
        subst h
        exact NConcl.stop (by simp only [mk, Kin]; exact ⟨_, rfl, hacc⟩) .nil
      | cons t ts =>
        have hsem := hl t ts rfl
        obtain ⟨u, us2, rfl, hu, hc, hs2⟩ := hs.sem_inv hsem hl'
        simp only [ifIter] at h
        simp only [step, ifIter, ← canon_upper hc]
        split at h
        · rename_i h1
          simp only [h1, if_true]
          obtain ⟨o, h1, h⟩ := bind_ok.1 h
          simp only [pure_ok] at h
          subst h
          simp only [mk, Between] at hbt
          refine NConcl.bind C (stmt h1 (betweenL_mem.1 hbt o.1 (by simp)) ok ok' hl.lead hl' tr hs) ?_
          intro o' ho hso suo _
          refine NConcl.stop ?_ hso
          simp only [mk, Kin]
          exact ⟨_, rfl, kinL_snoc hacc ho⟩
        · rename_i h1
          simp only [h1, if_false]
          obtain ⟨o, h1, h⟩ := bind_ok.1 h
          obtain ⟨b, h2, h⟩ := bind_ok.1 h
          have hb2 : BetweenL (acc ++ [o.1, b.1]) := by
            obtain ⟨cs, e⟩ := if_cs h
            rw [e] at hbt
            simp only [mk, Between] at hbt
            rw [betweenL_mem] at hbt ⊢
            intro n hn
            exact hbt n (by simp only [List.mem_append] at hn ⊢; exact Or.inl hn)
          rw [betweenL_mem] at hb2
          have oko := ok.suffix (exec_suffix C h1)
          have okb := oko.suffix (exec_suffix C h2)
          refine NConcl.bind C (stmt h1 (hb2 o.1 (by simp)) ok ok' hl.lead hl' tr hs) ?_
          intro o' ho hso suo _
          refine NConcl.bind C (ihb _ _ [] _ _ _ _ _ h2 (hb2 b.1 (by simp)) oko (ok'.suffix suo) (tr.suffix suo) hso (by simp [KinL, inkNodes])) ?_
          intro b' hb hsb sub ⟨k, hk⟩
          refine ihi _ _ _ _ _ _ _ h hbt okb ((ok'.suffix suo).suffix sub) (body_stop h2) (body_stop hk).lead
            ((tr.suffix suo).suffix sub) hsb ?_
          have := kinL_snoc (kinL_snoc hacc ho) hb
          simpa using this

/-- The trees of two lists of tokens that differ in blanks, letter case and the wording of comments. -/
theorem parse_kin {k : Nat} {ts us : List Token} {tree : Node} (h : parseN ctx k ts = .ok tree) (hb : Between tree)
    (ok : Fair ts) (ok' : Fair us) (tr : NoTrail ctx us) (hs : CSim R ts us) :
    ∃ k' tree', (∀ j, k' ≤ j → parseN ctx j us = .ok tree') ∧ Kin R tree tree' := by
  have h := Props.Parse.parse_all h
  obtain ⟨r', ⟨m, hm⟩, h1, h2⟩ := (blocks_kin C S k).1 _ _ [] _ false _ _ _ h hb ok ok' tr hs (by simp [KinL, inkNodes])
  refine ⟨m, r'.1, fun j hj => ?_, h1⟩
  have := hm j hj
  simp only at this
  simp only [parseN, this]
end
end

end Verif.Parse
