import Verif.LintDoneSpec
import Verif.LintSeq
import Verif.ParseFuel
import Verif.Cover

/-!
# No body of a block is empty (lemmas for C81)
-/

namespace Verif.Parse
open Verif Py Lex

/-- The tokens do not start with the end of a block. -/
def NoEnd (ts : List Token) : Prop := ∀ u us, ts = u :: us → Lint.isEnder u = false

theorem spaced_tail {t : Token} {ts : List Token} (h : Lint.spacedEnds (t :: ts) = true) : Lint.spacedEnds ts = true := by
  cases ts with
  | nil => rfl
  | cons u us =>
    simp only [Lint.spacedEnds, Bool.and_eq_true] at h
    exact h.2

theorem spaced_suffix {a b : List Token} (h : Lint.spacedEnds b = true) (s : a <:+ b) : Lint.spacedEnds a = true := by
  obtain ⟨p, rfl⟩ := s
  induction p with
  | nil => exact h
  | cons t p ih => exact ih (spaced_tail h)

theorem spacedEnds_next {t : Token} {ts : List Token} (h : Lint.spacedEnds (t :: ts) = true) (ht : Lint.isClosing t = true) : NoEnd ts := by
  rintro u us rfl
  simp only [Lint.spacedEnds, Bool.and_eq_true, ht, Bool.true_and, Bool.not_eq_true'] at h
  exact h.1

theorem noEnd_cons {t : Token} {ts : List Token} (h : Lint.isEnder t = false) : NoEnd (t :: ts) := by
  rintro u us e
  simp only [List.cons.injEq] at e
  rw [← e.1]
  exact h

theorem noEnd_nil : NoEnd [] := by rintro u us e; simp at e

theorem closing_noEnd {t : Token} (h : Lint.isClosing t = true) : Lint.isEnder t = false := by
  unfold Lint.isClosing at h
  unfold Lint.isEnder
  revert h
  cases t.type <;> simp

theorem comment_closing {t : Token} (h : isAnyComment t = true) : Lint.isClosing t = true := by
  unfold isAnyComment at h
  unfold Lint.isClosing
  revert h
  cases t.type <;> decide

theorem ws_noEnd {t : Token} (h : isWs t = true) : Lint.isEnder t = false := by
  unfold isWs at h
  unfold Lint.isEnder
  revert h
  cases t.type <;> simp

theorem run_noEnd {ok : Token → Bool} (hok : ∀ t, ok t = true → Lint.isClosing t = true) (last : Option Nat) (ts : List Token) :
    Lint.spacedEnds ts = true → NoEnd ts → NoEnd (commentRun ok last ts).2 := by
  have first : ∀ {t : Token} {l : Option Nat}, (ok t && aligned l t) = true → Lint.isClosing t = true := by
    intro t l h
    simp only [Bool.and_eq_true] at h
    exact hok t h.1
  induction last, ts using commentRun.induct ok with
  | case1 => intro _ h; rw [commentRun]; exact h
  | case2 l t h => intro _ _; rw [commentRun.eq_def]; simp [h]; exact noEnd_nil
  | case3 l t h a ih =>
    intro hs _
    rw [commentRun.eq_def]
    simp only [if_pos h]
    exact ih (spaced_tail hs) (spacedEnds_next hs (first h))
  | case4 l t h a b ts hab ih =>
    intro hs _
    rw [commentRun.eq_def]
    simp only [if_pos h, if_pos hab]
    simp only [Bool.and_eq_true] at hab
    exact ih (spaced_tail (spaced_tail hs)) (noEnd_cons (closing_noEnd (hok _ hab.2)))
  | case5 l t h a b hab ih =>
    intro hs _
    rw [commentRun.eq_def]
    simp only [if_pos h, if_neg hab]
    exact ih (spaced_tail hs) (spacedEnds_next hs (first h))
  | case6 l t h a b hab c ts hc ih =>
    intro hs _
    rw [commentRun.eq_def]
    simp only [if_pos h, if_neg hab, if_pos hc]
    simp only [Bool.and_eq_true] at hc
    exact ih (spaced_tail (spaced_tail (spaced_tail hs))) (noEnd_cons (closing_noEnd (hok _ hc.2)))
  | case7 l t h a b hab c ts hc ih =>
    intro hs _
    rw [commentRun.eq_def]
    simp only [if_pos h, if_neg hab, if_neg hc]
    exact ih (spaced_tail hs) (spacedEnds_next hs (first h))
  | case8 l t ts h =>
    intro _ hn
    rw [commentRun.eq_def]
    simp only [if_neg h]
    exact hn

theorem explicit_head {ctx : Ctx} {ts : List Token} (h : nextExplicit ctx ts = true) : NoEnd ts := by
  cases ts with
  | nil => exact noEnd_nil
  | cons t ts =>
    unfold nextExplicit at h
    split at h
    · rename_i hw
      exact noEnd_cons (ws_noEnd hw)
    · simp only [Bool.and_eq_true, beq_iff_eq] at h
      exact noEnd_cons (by simp [Lint.isEnder, h.1])

theorem explicitRun_noEnd (ctx : Ctx) (ts : List Token) : Lint.spacedEnds ts = true → NoEnd ts → NoEnd (explicitRun ctx ts).2 := by
  induction ts with
  | nil => exact fun _ h => h
  | cons t ts ih =>
    intro hs hn
    rw [explicitRun]
    split
    · rename_i h
      refine ih (spaced_tail hs) ?_
      unfold nextExplicit at h
      split at h
      · exact explicit_head h
      · simp only [Bool.and_eq_true, beq_iff_eq] at h
        exact spacedEnds_next hs (by simp [Lint.isClosing, h.1])
    · exact hn

theorem dropWs_noEnd {ctx : Ctx} {ts : List Token} (h : nextExplicit ctx ts = true) : NoEnd (ts.dropWhile isWs) := by
  induction ts with
  | nil => exact noEnd_nil
  | cons t ts ih =>
    rw [List.dropWhile_cons]
    split
    · rename_i hw
      unfold nextExplicit at h
      rw [if_pos hw] at h
      exact ih h
    · exact explicit_head h

theorem trailing_noEnd (ctx : Ctx) (ts : List Token) (hs : Lint.spacedEnds ts = true) (hn : NoEnd ts) : NoEnd (consumeTrailing ctx ts).2 := by
  have vt : ∀ t, validTrailing t = true → Lint.isClosing t = true := by
    intro t h
    simp only [validTrailing, Bool.and_eq_true] at h
    exact comment_closing h.1
  unfold consumeTrailing
  split
  · exact hn
  · rename_i h0
    split
    · rename_i h
      exact explicitRun_noEnd ctx _ (spaced_suffix hs (List.dropWhile_suffix _)) (dropWs_noEnd h)
    · rename_i h1
      split
      · exact noEnd_nil
      · rename_i t ts'
        refine run_noEnd vt none _ ?_ ?_
        · split
          · exact spaced_tail hs
          · exact hs
        · split
          · rename_i hw
            simp only [Bool.not_eq_true', Bool.not_eq_false] at h0
            unfold nextTrailing at h0
            have hv : validTrailing t = false := by simp [validTrailing, isAnyComment, hw]
            simp only [h1, hv, Bool.false_or, Bool.or_false, Bool.or_eq_true] at h0
            cases ts' with
            | nil => exact noEnd_nil
            | cons u us =>
              simp only [Bool.and_eq_true, Bool.false_eq_true, false_or] at h0
              exact noEnd_cons (closing_noEnd (vt _ h0.2))
          · exact hn

theorem stmtTail_head {n : Nat} : ∀ {ts : List Token} {ns : List Node} {rest : List Token}, ts.length ≤ n →
    stmtTail n ts = .ok (ns, rest) → ∀ r rs, rest = r :: rs → r.type = .rparen := by
  induction n with
  | zero =>
    intro ts ns rest hl h r rs e
    have : ts = [] := by simpa using hl
    subst this
    simp only [stmtTail, Except.ok.injEq, Prod.mk.injEq] at h
    rw [← h.2] at e
    simp at e
  | succ n ih =>
    intro ts ns rest hl h r rs e
    cases ts with
    | nil =>
      simp only [stmtTail, Except.ok.injEq, Prod.mk.injEq] at h
      rw [← h.2] at e
      simp at e
    | cons t ts =>
      simp only [List.length_cons] at hl
      simp only [stmtTail] at h
      split at h
      · rename_i hr
        simp only [Except.ok.injEq, Prod.mk.injEq] at h
        rw [← h.2] at e
        simp only [List.cons.injEq] at e
        rw [← e.1]
        simpa using hr
      · split at h
        · obtain ⟨⟨ns', r'⟩, h1, h⟩ := Parse.bind_ok.1 h
          simp only [pure_ok, Prod.mk.injEq] at h
          rw [← h.2] at e
          exact ih (by omega) h1 r rs e
        · split at h
          · rename_i hc
            obtain ⟨⟨ns', r'⟩, h1, h⟩ := Parse.bind_ok.1 h
            simp only [pure_ok, Prod.mk.injEq] at h
            rw [← h.2] at e
            have := (comment_short t ts (by unfold isComment at hc; simp [isAnyComment, hc])).2
            exact ih (by omega) h1 r rs e
          · simp at h

section
variable {ctx : Ctx} (hf : ∀ name, Flat (lookupParser ctx name))
include hf

theorem job_suffix {n : Nat} {job : Job} {up : Bool} {ts : List Token} {r : Node × List Token}
    (h : exec ctx n job up ts = .ok r) : r.2 <:+ ts := by
  have := exec_sat hf n job up ts
  rw [h] at this
  exact this.1

/-- What comes after a command does not start with the end of a block. -/
theorem stmt_noEnd {n : Nat} {up : Bool} {ts : List Token} {r : Node × List Token} (hs : Lint.spacedEnds ts = true)
    (h : exec ctx n .statement up ts = .ok r) : NoEnd r.2 := by
  cases n with
  | zero => simp [exec] at h
  | succ n =>
    simp only [exec, step] at h
    cases ts with
    | nil => simp [stmtIter] at h
    | cons t ts =>
      simp only [stmtIter] at h
      split at h
      · simp at h
      · rename_i l ts1 e1
        split at h
        · simp at h
        · obtain ⟨⟨sub, rest⟩, h1, h⟩ := Parse.bind_ok.1 h
          obtain ⟨⟨tail, rest1⟩, h2, h⟩ := Parse.bind_ok.1 h
          dsimp only at h2 h
          cases rest1 with
          | nil => simp at h
          | cons q rest2 =>
            simp only [pure_ok] at h
            have hq := stmtTail_head (Nat.le_refl _) h2 q rest2 rfl
            have hsuf : q :: rest2 <:+ t :: ts := by
              have s1 : q :: rest2 <:+ rest := ⟨_, stmtTail_splits _ _ _ _ h2⟩
              have s2 := job_suffix hf h1
              have s3 : ts1 <:+ ts := (List.suffix_cons l ts1).trans (e1 ▸ List.dropWhile_suffix _)
              exact ((s1.trans s2).trans (List.dropWhile_suffix _)).trans (s3.trans (List.suffix_cons _ _))
            have hs' := spaced_suffix hs hsuf
            rw [← h]
            exact trailing_noEnd ctx rest2 (spaced_tail hs') (spacedEnds_next hs' (by simp [Lint.isClosing, hq]))

end

/-! ## The blocks -/

/-- A body without children. -/
def EmptyBody (n : Node) : Prop := ∃ a, n = .node .body a []

/-- A closed block has no empty body. -/
def FullHere : Node → Prop
  | .node .flowControl _ cs => cs.length % 2 = 1 → ∀ b ∈ cs, ¬ EmptyBody b
  | _ => True

/-- No closed block in the tree has an empty body. -/
def Filled (n : Node) : Prop := ∀ m, Sub m n → FullHere m

theorem full_node {ty : NT} {a : Attr} {cs : List Node} (hh : FullHere (.node ty a cs)) (h : ∀ c ∈ cs, Filled c) :
    Filled (.node ty a cs) := by
  intro m hm
  cases hm with
  | refl => exact hh
  | child hc hs => exact h _ hc m hs

theorem full_leafy {n : Node} (h : Leafy n) : Filled n := by
  intro m hm
  have := h m hm
  cases m with
  | tok t => trivial
  | node ty a cs => cases ty <;> first | trivial | simp [quiet, quietT] at this

theorem full_stmt {x : Str} {n : Node} (h : Stmt x n) : Filled n := by
  obtain ⟨a, t, cs, rfl, _, _, hl⟩ := h
  refine full_node trivial ?_
  intro c hc
  rcases List.mem_cons.1 hc with rfl | hc
  · refine full_node trivial ?_
    intro c hc
    simp only [List.mem_singleton] at hc
    subst hc
    intro m hm
    cases hm
    trivial
  · exact full_leafy (hl c hc)

theorem stmt_notBody {x : Str} {n : Node} (h : Stmt x n) : ¬ EmptyBody n := by
  obtain ⟨a, t, cs, rfl, _⟩ := h
  rintro ⟨b, e⟩
  simp at e

variable {ctx : Ctx}

theorem full_quiet {n : Node} (h : Neat ctx n) (hq : quiet n = true) : Filled n := full_leafy (leafy_of_neat h hq)

/-- What ends a body. -/
def Enders (bs : List Str) : Prop := ∀ t : Token, t.type = .word → upper t.spelling ∈ bs → Lint.isEnder t = true

theorem enders_if : Enders ifStops := by
  intro t ht h
  have : ∀ w ∈ ifStops, Lint.enders.contains (lower w) = true := by decide
  have := this _ h
  rw [Layout.lower_upper] at this
  unfold Lint.isEnder
  rw [this, ht]
  rfl

theorem enders_loop {x : Str} (hx : x ∈ flowNames) : Enders [S "END" ++ x] := by
  intro t ht h
  have : ∀ x ∈ flowNames, Lint.enders.contains (lower (S "END" ++ x)) = true := by decide
  have := this _ hx
  rw [← List.mem_singleton.1 h, Layout.lower_upper] at this
  unfold Lint.isEnder
  rw [this, ht]
  rfl

/-- What a body job does about empty bodies. -/
def BodyDone (bs : List Str) (acc : List Node) (ts : List Token) (r : Node × List Token) : Prop :=
  ∃ a cs, r.1 = .node .body a cs ∧ (∀ c ∈ cs, Filled c) ∧
    (cs = [] → acc = [] ∧ r.2 = ts ∧ ∀ t us, ts = t :: us → t.type = .word ∧ upper t.spelling ∈ bs)

/-- What the block-level jobs do about empty bodies. -/
structure FilledUpTo (ctx : Ctx) (n : Nat) : Prop where
  body : ∀ bs acc up ts r, Lint.spacedEnds ts = true → (∀ t ∈ ts, t.type ≠ .bom) → (∀ c ∈ acc, Filled c) →
    exec ctx n (.body bs acc) up ts = .ok r → BodyDone bs acc ts r
  flow : ∀ up t ts r, Lint.spacedEnds (t :: ts) = true → (∀ u ∈ t :: ts, u.type ≠ .bom) → t.type = .word →
    upper t.spelling ∈ flowNames → exec ctx n .flow up (t :: ts) = .ok r → Filled r.1
  ifs : ∀ acc up ts r, Lint.spacedEnds ts = true → (∀ u ∈ ts, u.type ≠ .bom) → HeadWord ts → (∀ c ∈ acc, Filled c) →
    acc.length % 2 = 0 → ((∀ b ∈ acc, ¬ EmptyBody b) ∨ ts = []) → exec ctx n (.ifLoop acc) up ts = .ok r → Filled r.1

theorem exec_filled (hfl : ∀ name, Flat (lookupParser ctx name)) (n : Nat) : FilledUpTo ctx n := by
  induction n with
  | zero => constructor <;> intros <;> rename_i h <;> simp [exec] at h
  | succ n ih =>
    refine ⟨?_, ?_, ?_⟩
    · intro bs acc up ts r hs hb hA h
      simp only [exec, step] at h
      cases ts with
      | nil =>
        simp only [bodyIter, Except.ok.injEq] at h
        subst h
        exact ⟨_, _, rfl, hA, fun e => ⟨e, rfl, by intro t us e; simp at e⟩⟩
      | cons t ts =>
        have next : ∀ (m : Node) (rest : List Token), Filled m → rest <:+ t :: ts →
            exec ctx n (.body bs (acc ++ [m])) false rest = .ok r → BodyDone bs acc (t :: ts) r := by
          intro m rest hm hsuf h
          obtain ⟨a, cs, e, h1, h2⟩ := ih.body _ _ _ _ _ (spaced_suffix hs hsuf) (fun u hu => hb u (hsuf.mem hu)) (by
            intro c hc
            rcases List.mem_append.1 hc with hc | hc
            · exact hA c hc
            · rw [List.mem_singleton.1 hc]; exact hm) h
          exact ⟨a, cs, e, h1, fun e => absurd (h2 e).1 (by simp)⟩
        simp only [bodyIter] at h
        split at h
        · refine next _ _ ?_ (List.dropWhile_suffix _) h
          refine full_node trivial ?_
          intro m hm
          simp only [leaves, List.mem_map] at hm
          obtain ⟨u, _, rfl⟩ := hm
          intro m hm
          cases hm
          trivial
        · split at h
          · rename_i hc
            have := comment_neat (ctx := ctx) ts hc
            exact next _ _ (full_quiet this.1 (quiet_filler this.2)) (comment_short t ts hc).1 h
          · split at h
            · rename_i hc
              exact next _ _ (full_quiet (ctx := ctx) (neat_onoff hc) rfl) (List.suffix_cons _ _) h
            · split at h
              · rename_i hw
                have hw : t.type = .word := by simpa using hw
                split at h
                · rename_i hbr
                  simp only [Except.ok.injEq] at h
                  subst h
                  refine ⟨_, _, rfl, hA, fun e => ⟨e, rfl, ?_⟩⟩
                  intro u us e
                  simp only [List.cons.injEq] at e
                  obtain ⟨rfl, rfl⟩ := e
                  exact ⟨hw, by simpa using hbr⟩
                · split at h
                  · rename_i hf
                    obtain ⟨⟨sub, rest⟩, h1, h2⟩ := Parse.bind_ok.1 h
                    exact next _ _ (ih.flow _ _ _ _ hs hb hw (by simpa using hf) h1) (job_suffix hfl h1) h2
                  · obtain ⟨⟨sub, rest⟩, h1, h2⟩ := Parse.bind_ok.1 h
                    exact next _ _ (full_stmt (stmt_job hw h1)) (job_suffix hfl h1) h2
              · split at h
                · rename_i hat
                  refine next _ _ ?_ ((trailing_suffix ctx ts).trans (List.suffix_cons _ _)) h
                  have ht := trailing_neat ctx ts
                  refine full_node trivial ?_
                  intro m hm
                  rcases List.mem_cons.1 hm with rfl | hm
                  · refine full_node trivial ?_
                    intro m hm
                    simp only [List.mem_singleton] at hm
                    subst hm
                    intro m hm
                    cases hm
                    trivial
                  · exact full_quiet (ht.2 _ hm) (quiet_trail ht.1 _ hm)
                · split at h
                  · rename_i hbom
                    exact absurd (by simpa using hbom) (hb t (by simp))
                  · simp at h
    · intro up t ts r hs hb hw hf h
      simp only [exec, step, flowIter] at h
      split at h
      · exact ih.ifs _ _ (t :: ts) _ hs hb hw (by simp) rfl (Or.inl (by simp)) h
      · rename_i hif
        obtain ⟨⟨o, r1⟩, h1, h⟩ := Parse.bind_ok.1 h
        obtain ⟨⟨b, r2⟩, h2, h⟩ := Parse.bind_ok.1 h
        obtain ⟨⟨c, r3⟩, h3, h⟩ := Parse.bind_ok.1 h
        simp only [pure, Except.pure, Except.ok.injEq] at h
        subst h
        have ho := stmt_job hw h1
        have hsuf := job_suffix hfl h1
        have hend := stmt_noEnd hfl hs h1
        obtain ⟨a, cs, e, k1, k2⟩ := ih.body _ _ _ _ _ (spaced_suffix hs hsuf) (fun u hu => hb u (hsuf.mem hu)) (by simp) h2
        obtain ⟨a', cs', cl, e', hseq, hcl, hstop⟩ := (exec_seq n).body _ _ _ _ _ .nil h2
        simp only at e k2 e' hcl hstop h3 hend
        rw [e] at e'
        subst e
        have hne : cs ≠ [] := by
          intro e
          obtain ⟨_, e2, e3⟩ := k2 e
          subst e2
          cases r2 with
          | nil => cases n <;> simp [exec, step, stmtIter] at h3
          | cons u us =>
            obtain ⟨u1, u2⟩ := e3 u us rfl
            exact absurd (enders_loop hf u u1 u2) (by simp [hend u us rfl])
        have hc : Filled c ∧ ¬ EmptyBody c := by
          cases r2 with
          | nil => cases n <;> simp [exec, step, stmtIter] at h3
          | cons u us =>
            have := stmt_job (hstop u us rfl).1 h3
            exact ⟨full_stmt this, stmt_notBody this⟩
        refine full_node ?_ ?_
        · intro _ x hx
          simp only [List.mem_cons, List.not_mem_nil, or_false] at hx
          rcases hx with rfl | rfl | rfl
          · exact stmt_notBody ho
          · rintro ⟨b, e⟩
            simp only [Node.node.injEq, true_and] at e
            exact hne e.2
          · exact hc.2
        · intro x hx
          simp only [List.mem_cons, List.not_mem_nil, or_false] at hx
          rcases hx with rfl | rfl | rfl
          · exact full_stmt ho
          · exact full_node trivial k1
          · exact hc.1
    · intro acc up ts r hs hb hw hA hev hne h
      simp only [exec, step] at h
      cases ts with
      | nil =>
        simp only [ifIter, Except.ok.injEq] at h
        subst h
        refine full_node ?_ hA
        intro ho
        omega
      | cons t ts =>
        have hw : t.type = .word := hw
        have hne : ∀ b ∈ acc, ¬ EmptyBody b := by
          rcases hne with h | h
          · exact h
          · simp at h
        simp only [ifIter] at h
        split at h
        · obtain ⟨⟨e, r1⟩, h1, h⟩ := Parse.bind_ok.1 h
          simp only [pure, Except.pure, Except.ok.injEq] at h
          subst h
          have he := stmt_job hw h1
          refine full_node ?_ ?_
          · intro _ x hx
            rcases List.mem_append.1 hx with hx | hx
            · exact hne x hx
            · rw [List.mem_singleton.1 hx]; exact stmt_notBody he
          · intro x hx
            rcases List.mem_append.1 hx with hx | hx
            · exact hA x hx
            · rw [List.mem_singleton.1 hx]; exact full_stmt he
        · obtain ⟨⟨o, r1⟩, h1, h⟩ := Parse.bind_ok.1 h
          obtain ⟨⟨b, r2⟩, h2, h⟩ := Parse.bind_ok.1 h
          have ho := stmt_job hw h1
          have hsuf := job_suffix hfl h1
          have hend := stmt_noEnd hfl hs h1
          have hsuf2 := (job_suffix hfl h2).trans hsuf
          obtain ⟨a, cs, e, k1, k2⟩ := ih.body _ _ _ _ _ (spaced_suffix hs hsuf) (fun u hu => hb u (hsuf.mem hu)) (by simp) h2
          obtain ⟨a', cs', cl, e', hseq, hcl, hstop⟩ := (exec_seq n).body _ _ _ _ _ .nil h2
          simp only at e k2 e' hcl hstop hend h hsuf2
          subst e
          refine ih.ifs _ _ _ _ (spaced_suffix hs hsuf2) (fun u hu => hb u (hsuf2.mem hu)) ?_ ?_ ?_ ?_ h
          · cases r2 with
            | nil => trivial
            | cons u us => exact (hstop u us rfl).1
          · intro x hx
            simp only [List.mem_append, List.mem_cons, List.not_mem_nil, or_false] at hx
            rcases hx with hx | rfl | rfl
            · exact hA x hx
            · exact full_stmt ho
            · exact full_node trivial k1
          · simp only [List.length_append, List.length_cons, List.length_nil]
            omega
          · by_cases hcs : cs = []
            · right
              obtain ⟨_, e2, e3⟩ := k2 hcs
              subst e2
              cases r2 with
              | nil => rfl
              | cons u us =>
                obtain ⟨u1, u2⟩ := e3 u us rfl
                exact absurd (enders_if u u1 u2) (by simp [hend u us rfl])
            · left
              intro x hx
              simp only [List.mem_append, List.mem_cons, List.not_mem_nil, or_false] at hx
              rcases hx with hx | rfl | rfl
              · exact hne x hx
              · exact stmt_notBody ho
              · rintro ⟨b, e⟩
                simp only [Node.node.injEq, true_and] at e
                exact hcs e.2

/-- The bodies of a parsed file. -/
theorem parse_filled (hfl : ∀ name, Flat (lookupParser ctx name)) {ts : List Token} {tree : Node} (h : parse ctx ts = .ok tree)
    (hs : Lint.spacedEnds ts = true) (hb : ∀ t ∈ ts, t.type ≠ .bom) (hne : ts ≠ []) : Filled tree ∧ ¬ EmptyBody tree := by
  simp only [parse, parseN] at h
  split at h
  · simp at h
  · rename_i tree' rest he
    simp only [Except.ok.injEq] at h
    subst h
    obtain ⟨a, cs, e, h1, h2⟩ := (exec_filled hfl _).body _ _ _ _ _ hs hb (by simp) he
    simp only at e
    subst e
    refine ⟨full_node trivial h1, ?_⟩
    rintro ⟨b, e⟩
    simp only [Node.node.injEq, true_and] at e
    obtain ⟨_, _, h3⟩ := h2 e.2
    cases ts with
    | nil => exact hne rfl
    | cons t us => simpa using (h3 t us rfl).2

end Verif.Parse
