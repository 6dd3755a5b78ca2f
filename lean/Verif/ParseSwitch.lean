import Verif.SwitchSpec
import Verif.ParseSpread

/-!
# The parser keeps the order of the format switches between statements
-/

namespace Verif.Parse
open Verif Py Lex Layout

/-- The switches among some tokens. -/
def sw (ts : List Token) : List Token := ts.filter isOnOff

theorem sw_append (a b : List Token) : sw (a ++ b) = sw a ++ sw b := List.filter_append ..

theorem outsideL_append {a b : List Node} : outsideL (a ++ b) = (outsideL a && outsideL b) := by
  induction a with
  | nil => rfl
  | cons n ns ih => simp [outsideL, ih, Bool.and_assoc]

/-- A node with the tokens it was made from. -/
def Kept (n : Node) (c : List Token) : Prop := outside n = true → sw n.toks = sw c

theorem kept_eq {n : Node} {c : List Token} (h : n.toks = c) : Kept n c := fun _ => by rw [h]

/-- The same for several nodes. -/
def KeptL (ns : List Node) (c : List Token) : Prop := outsideL ns = true → sw (toksL ns) = sw c

theorem keptL_cons {n : Node} {ns : List Node} {c d : List Token} (h1 : Kept n c) (h2 : KeptL ns d) :
    KeptL (n :: ns) (c ++ d) := by
  intro h
  simp only [outsideL, Bool.and_eq_true] at h
  rw [toksL_cons, sw_append, sw_append, h1 h.1, h2 h.2]

theorem keptL_nil : KeptL [] [] := fun _ => rfl

theorem stmt_node {ctx : Ctx} {n : Nat} {up : Bool} {ts : List Token} {r : Node × List Token}
    (h : exec ctx n .statement up ts = .ok r) : ∃ a cs, r.1 = .node .statement a cs := by
  cases n with
  | zero => simp [exec] at h
  | succ n =>
    simp only [exec, step] at h
    cases ts with
    | nil => simp [stmtIter] at h
    | cons t ts =>
      simp only [stmtIter] at h
      split at h
      · simp at h
      · split at h
        · simp at h
        · obtain ⟨⟨sub, rest⟩, _, h⟩ := bind_ok.1 h
          obtain ⟨⟨tail, rest1⟩, _, h⟩ := bind_ok.1 h
          simp only at h
          split at h
          · simp at h
          · simp only [pure, Except.pure, Except.ok.injEq] at h
            subst h
            exact ⟨_, _, rfl⟩

theorem stmt_kept {ctx : Ctx} {n : Nat} {up : Bool} {ts : List Token} {r : Node × List Token}
    (ht : TsOk false (fun _ => True) ts) (h : exec ctx n .statement up ts = .ok r) :
    ∃ c, ts = c ++ r.2 ∧ Kept r.1 c := by
  obtain ⟨c, h1, h2⟩ := exec_holds (s := false) (Q := fun _ => True) (fun _ _ => Props.Parse.argOk_all _ true) n .statement up
    ts r h trivial ht
  refine ⟨c, h1, ?_⟩
  obtain ⟨a, cs, e⟩ := stmt_node h
  intro ho
  rw [e] at ho
  simp only [outside, List.all_eq_true, Bool.not_eq_true'] at ho
  simp only [Rel, Bool.false_eq_true, if_false, Job.toks, List.nil_append] at h2
  have e1 : sw r.1.toks = [] := by
    rw [e]
    simpa [sw, List.filter_eq_nil_iff] using ho
  have e2 : sw c = [] := by
    have := h2.1.filter isOnOff
    change (sw r.1.toks).Perm (sw c) at this
    rw [e1] at this
    exact this.symm.eq_nil
  rw [e1, e2]

/-- What the block-level jobs do. -/
structure OrderUpTo (ctx : Ctx) (n : Nat) : Prop where
  body : ∀ bs acc up ts r, TsOk false (fun _ => True) ts → exec ctx n (.body bs acc) up ts = .ok r →
    ∃ more c, r.1 = mk .body (acc ++ more) ∧ ts = c ++ r.2 ∧ KeptL more c
  flow : ∀ up ts r, TsOk false (fun _ => True) ts → exec ctx n .flow up ts = .ok r →
    ∃ c, ts = c ++ r.2 ∧ Kept r.1 c
  ifs : ∀ acc up ts r, TsOk false (fun _ => True) ts → exec ctx n (.ifLoop acc) up ts = .ok r →
    ∃ more c, r.1 = mk .flowControl (acc ++ more) ∧ ts = c ++ r.2 ∧ KeptL more c

theorem exec_order (ctx : Ctx) (n : Nat) : OrderUpTo ctx n := by
  induction n with
  | zero => constructor <;> intros <;> rename_i h <;> simp [exec] at h
  | succ n ih =>
    refine ⟨?_, ?_, ?_⟩
    · intro bs acc up ts r ht h
      have fin : ∃ more c, mk .body acc = mk .body (acc ++ more) ∧ ts = c ++ ts ∧ KeptL more c :=
        ⟨[], [], by simp, rfl, keptL_nil⟩
      have next : ∀ (n' : Node) (c rest : List Token), ts = c ++ rest → Kept n' c → TsOk false (fun _ => True) rest →
          exec ctx n (.body bs (acc ++ [n'])) false rest = .ok r →
          ∃ more c, r.1 = mk .body (acc ++ more) ∧ ts = c ++ r.2 ∧ KeptL more c := by
        intro n' c rest e hk hr h
        obtain ⟨more, d, e1, e2, e3⟩ := ih.body _ _ _ _ _ hr h
        exact ⟨n' :: more, c ++ d, by rw [e1]; simp, by rw [e, e2]; simp, keptL_cons hk e3⟩
      simp only [exec, step] at h
      cases ts with
      | nil =>
        simp only [bodyIter, Except.ok.injEq] at h
        subst h; exact fin
      | cons t ts =>
        simp only [bodyIter] at h
        split at h
        · exact next _ _ _ (ws_split _) (kept_eq (by simp [mk])) ht.dropWs h
        · split at h
          · exact next _ _ _ (consumeComment_splits t ts).symm (kept_eq rfl) ht.comment h
          · split at h
            · exact next _ [t] _ rfl (kept_eq (by simp [mk])) ht.tail h
            · split at h
              · split at h
                · simp only [Except.ok.injEq] at h
                  subst h; exact fin
                · split at h
                  · obtain ⟨⟨sub, rest⟩, h1, h2⟩ := bind_ok.1 h
                    obtain ⟨c, e, k⟩ := ih.flow _ _ _ ht h1
                    exact next _ _ _ e k (rest_ok ht h1 trivial) h2
                  · obtain ⟨⟨sub, rest⟩, h1, h2⟩ := bind_ok.1 h
                    obtain ⟨c, e, k⟩ := stmt_kept ht h1
                    exact next _ _ _ e k (rest_ok ht h1 trivial) h2
              · split at h
                · refine next _ (t :: toksL (consumeTrailing ctx ts).1) _ ?_ (kept_eq (by simp [mk])) (ht.trailing (ctx := ctx)) h
                  rw [List.cons_append, consumeTrailing_splits]
                · split at h
                  · rename_i hb
                    exact absurd (by simpa using hb) (ht.nobom t (by simp))
                  · simp at h
    · intro up ts r ht h
      simp only [exec, step] at h
      cases ts with
      | nil => simp [flowIter] at h
      | cons t ts =>
        simp only [flowIter] at h
        split at h
        · obtain ⟨more, c, e1, e2, e3⟩ := ih.ifs _ _ _ _ ht h
          refine ⟨c, e2, ?_⟩
          intro ho
          rw [e1] at ho ⊢
          simp only [mk, outside, List.nil_append] at ho
          simpa [mk] using e3 ho
        · obtain ⟨⟨o, r1⟩, h1, h⟩ := bind_ok.1 h
          obtain ⟨⟨b, r2⟩, h2, h⟩ := bind_ok.1 h
          obtain ⟨⟨c, r3⟩, h3, h⟩ := bind_ok.1 h
          simp only [pure, Except.pure, Except.ok.injEq] at h
          subst h
          have t1 := rest_ok ht h1 trivial
          have t2 := rest_ok t1 h2 trivial
          obtain ⟨c1, e1, k1⟩ := stmt_kept ht h1
          obtain ⟨more, c2, e2, e2', k2⟩ := ih.body _ _ _ _ _ t1 h2
          obtain ⟨c3, e3, k3⟩ := stmt_kept t2 h3
          simp only at e1 e2 e2' e3 k1 k3
          refine ⟨c1 ++ (c2 ++ (c3 ++ [])), by rw [e1, e2', e3]; simp, ?_⟩
          have kb : Kept b c2 := by
            intro ho
            rw [e2] at ho ⊢
            simp only [mk, outside, List.nil_append] at ho
            simpa [mk] using k2 ho
          have := keptL_cons k1 (keptL_cons kb (keptL_cons k3 keptL_nil))
          intro ho
          simp only [mk, outside] at ho
          simpa [mk] using this ho
    · intro acc up ts r ht h
      simp only [exec, step] at h
      cases ts with
      | nil =>
        simp only [ifIter, Except.ok.injEq] at h
        subst h
        exact ⟨[], [], by simp, rfl, keptL_nil⟩
      | cons t ts =>
        simp only [ifIter] at h
        split at h
        · obtain ⟨⟨c, r1⟩, h1, h⟩ := bind_ok.1 h
          simp only [pure, Except.pure, Except.ok.injEq] at h
          subst h
          obtain ⟨c1, e1, k1⟩ := stmt_kept ht h1
          exact ⟨[c], c1 ++ [], rfl, by rw [e1]; simp, keptL_cons k1 keptL_nil⟩
        · obtain ⟨⟨o, r1⟩, h1, h⟩ := bind_ok.1 h
          obtain ⟨⟨b, r2⟩, h2, h⟩ := bind_ok.1 h
          have t1 := rest_ok ht h1 trivial
          have t2 := rest_ok t1 h2 trivial
          obtain ⟨c1, e1, k1⟩ := stmt_kept ht h1
          obtain ⟨m2, c2, e2, e2', k2⟩ := ih.body _ _ _ _ _ t1 h2
          obtain ⟨m3, c3, e3, e3', k3⟩ := ih.ifs _ _ _ _ t2 h
          simp only at e1 e2 e2' e3' k1
          have kb : Kept b c2 := by
            intro ho
            rw [e2] at ho ⊢
            simp only [mk, outside, List.nil_append] at ho
            simpa [mk] using k2 ho
          refine ⟨o :: b :: m3, c1 ++ (c2 ++ c3), by rw [e3]; simp, by rw [e1, e2', e3']; simp,
            keptL_cons k1 (keptL_cons kb k3)⟩

/-- If no statement contains a switch, the switches of the tree are those of the text, in
order. -/
theorem parse_switches {ctx : Ctx} {m : Nat} {ts : List Token} {tree : Node} (h : parseN ctx m ts = .ok tree)
    (hb : ∀ t ∈ ts, t.type ≠ .bom) (hu : Unglued ts) (ho : outside tree = true) : sw tree.toks = sw ts := by
  obtain ⟨more, c, e1, e2, e3⟩ := (exec_order ctx m).body _ _ _ _ _ ⟨by simp, hb, fun _ => hu⟩ (Props.Parse.parse_all h)
  simp only [List.nil_append, List.append_nil] at e1 e2
  subst e2
  rw [e1] at ho ⊢
  simp only [mk, outside] at ho
  simpa [mk] using e3 ho

end Verif.Parse
