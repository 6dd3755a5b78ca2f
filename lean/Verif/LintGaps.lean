import Verif.LintFull
import Verif.LintTree

/-!
# What stands before the commands of a body (lemmas for C82)
-/

namespace Verif.Parse
open Verif Py Lex

/-- The last tokens of commands, comments, switches and at-words. -/
def isHard (t : Token) : Bool :=
  t.type == .rparen || t.type == .comment || t.type == .bracketComment || t.type == .formatOn || t.type == .formatOff ||
    t.type == .atword

/-- No word stands right behind one of these. -/
def NoWordBehind (ts : List Token) : Prop :=
  ∀ p h t rest, ts = p ++ h :: t :: rest → isHard h = true → t.type ≠ .word

/-- The last of some tokens ends something. -/
def EndsHard (ts : List Token) : Prop := ∃ p h, ts = p ++ [h] ∧ isHard h = true

/-- The first of some tokens is no word and no blank, if there is one. -/
def StartsHard (ts : List Token) : Prop := ∀ t us, ts = t :: us → isHard t = true

/-- What is between two points of a token list ends something, unless the rest starts so. -/
def Settled (ts rest : List Token) : Prop := ∃ p, ts = p ++ rest ∧ (EndsHard p ∨ StartsHard rest)

theorem Settled.mono {ts ts' rest : List Token} (h : Settled ts rest) (hs : ts <:+ ts') : Settled ts' rest := by
  obtain ⟨p, rfl, h⟩ := h
  obtain ⟨q, rfl⟩ := hs
  refine ⟨q ++ p, by simp, ?_⟩
  rcases h with ⟨r, x, rfl, hx⟩ | h
  · exact Or.inl ⟨q ++ r, x, by simp, hx⟩
  · exact Or.inr h

theorem settled_one {t : Token} {ts : List Token} (h : isHard t = true) : Settled (t :: ts) ts :=
  ⟨[t], rfl, Or.inl ⟨[], t, rfl, h⟩⟩

theorem hard_comment {t : Token} (h : isAnyComment t = true) : isHard t = true := by
  unfold isAnyComment at h
  unfold isHard
  revert h
  cases t.type <;> decide

theorem hard_noWs {t : Token} (h : isHard t = true) : isWs t = false := by
  unfold isHard at h
  unfold isWs
  revert h
  cases t.type <;> decide

theorem hard_noWord {t : Token} (h : isHard t = true) : t.type ≠ .word := by
  unfold isHard at h
  revert h
  cases t.type <;> decide

theorem run_settled {ok : Token → Bool} (hok : ∀ t, ok t = true → isHard t = true) (last : Option Nat) (ts : List Token) :
    ((commentRun ok last ts).2 = ts ∧ ∀ t us, ts = t :: us → (ok t && aligned last t) = false) ∨ Settled ts (commentRun ok last ts).2 := by
  have first : ∀ {t : Token} {l : Option Nat}, (ok t && aligned l t) = true → isHard t = true := by
    intro t l h
    simp only [Bool.and_eq_true] at h
    exact hok t h.1
  have one : ∀ {t : Token} {ts r : List Token} {l : Option Nat} {P : Prop}, (ok t && aligned l t) = true →
      (r = ts ∧ P) ∨ Settled ts r → Settled (t :: ts) r := by
    intro t ts r l P h hh
    rcases hh with ⟨rfl, _⟩ | hh
    · exact settled_one (first h)
    · exact hh.mono (List.suffix_cons _ _)
  induction last, ts using commentRun.induct ok with
  | case1 => left; rw [commentRun]; exact ⟨rfl, by intro t us e; simp at e⟩
  | case2 l t h => right; rw [commentRun.eq_def]; simp only [if_pos h]; exact settled_one (first h)
  | case3 l t h a ih =>
    right
    rw [commentRun.eq_def]
    simp only [if_pos h]
    exact one h ih
  | case4 l t h a b ts hab ih =>
    right
    rw [commentRun.eq_def]
    simp only [if_pos h, if_pos hab]
    simp only [Bool.and_eq_true] at hab
    rcases ih with ⟨e, _⟩ | ih
    · rw [e]
      refine ⟨[t, a], rfl, Or.inr ?_⟩
      intro u us e
      simp only [List.cons.injEq] at e
      rw [← e.1]
      exact hok _ hab.2
    · exact ih.mono ((List.suffix_cons _ _).trans (List.suffix_cons _ _))
  | case5 l t h a b hab ih =>
    right
    rw [commentRun.eq_def]
    simp only [if_pos h, if_neg hab]
    exact one h ih
  | case6 l t h a b hab c ts hc ih =>
    right
    rw [commentRun.eq_def]
    simp only [if_pos h, if_neg hab, if_pos hc]
    simp only [Bool.and_eq_true] at hc
    rcases ih with ⟨e, _⟩ | ih
    · rw [e]
      refine ⟨[t, a, b], rfl, Or.inr ?_⟩
      intro u us e
      simp only [List.cons.injEq] at e
      rw [← e.1]
      exact hok _ hc.2
    · exact ih.mono (((List.suffix_cons _ _).trans (List.suffix_cons _ _)).trans (List.suffix_cons _ _))
  | case7 l t h a b hab c ts hc ih =>
    right
    rw [commentRun.eq_def]
    simp only [if_pos h, if_neg hab, if_neg hc]
    exact one h ih
  | case8 l t ts h =>
    left
    rw [commentRun.eq_def]
    simp only [if_neg h]
    refine ⟨trivial, ?_⟩
    intro u us e
    simp only [List.cons.injEq] at e
    rw [← e.1]
    simpa using h

theorem run_head {ok : Token → Bool} (hok : ∀ t, ok t = true → isHard t = true) {t : Token} {ts : List Token}
    (h : ok t = true) : Settled (t :: ts) (commentRun ok none (t :: ts)).2 := by
  rcases run_settled hok none (t :: ts) with ⟨_, h'⟩ | h'
  · have := h' t ts rfl
    simp [h, aligned] at this
  · exact h'

theorem explicit_settled (ctx : Ctx) (ts : List Token) (h : nextExplicit ctx ts = true) : Settled ts (explicitRun ctx ts).2 := by
  induction ts with
  | nil => simp [nextExplicit] at h
  | cons t ts ih =>
    rw [explicitRun, if_pos h]
    unfold nextExplicit at h
    split at h
    · exact (ih h).mono (List.suffix_cons _ _)
    · simp only [Bool.and_eq_true, beq_iff_eq] at h
      have ht : isHard t = true := by simp [isHard, h.1]
      by_cases hn : nextExplicit ctx ts = true
      · exact (ih hn).mono (List.suffix_cons _ _)
      · have e : (explicitRun ctx ts).2 = ts := by
          cases ts with
          | nil => rfl
          | cons u us => rw [explicitRun, if_neg hn]
        simp only [e]
        exact settled_one ht

theorem explicit_drop {ctx : Ctx} {ts : List Token} (h : nextExplicit ctx ts = true) :
    nextExplicit ctx (ts.dropWhile isWs) = true := by
  induction ts with
  | nil => exact h
  | cons t ts ih =>
    rw [List.dropWhile_cons]
    split
    · rename_i hw
      unfold nextExplicit at h
      rw [if_pos hw] at h
      exact ih h
    · exact h

theorem trailing_settled (ctx : Ctx) (ts : List Token) : (consumeTrailing ctx ts).2 = ts ∨ Settled ts (consumeTrailing ctx ts).2 := by
  have vt : ∀ t, validTrailing t = true → isHard t = true := by
    intro t h
    simp only [validTrailing, Bool.and_eq_true] at h
    exact hard_comment h.1
  unfold consumeTrailing
  split
  · exact Or.inl rfl
  · rename_i h0
    split
    · rename_i h
      exact Or.inr ((explicit_settled ctx _ (explicit_drop h)).mono (List.dropWhile_suffix _))
    · rename_i h1
      split
      · exact Or.inl rfl
      · rename_i t ts'
        simp only [Bool.not_eq_true', Bool.not_eq_false] at h0
        unfold nextTrailing at h0
        by_cases hw : t.type = .whitespace
        · have hv : validTrailing t = false := by simp [validTrailing, isAnyComment, hw]
          simp only [h1, hv, Bool.false_or, Bool.or_false, Bool.or_eq_true] at h0
          simp only [if_pos hw]
          right
          cases ts' with
          | nil => simp at h0
          | cons u us =>
            simp only [Bool.and_eq_true, Bool.false_eq_true, false_or] at h0
            exact (run_head vt h0.2).mono (List.suffix_cons _ _)
        · simp only [if_neg hw]
          rcases run_settled vt none (t :: ts') with ⟨e, _⟩ | h
          · exact Or.inl e
          · exact Or.inr h

theorem comment_settled {t : Token} (ts : List Token) (h : isAnyComment t = true) : Settled (t :: ts) (consumeComment t ts).2 := by
  unfold consumeComment
  split
  · exact settled_one (hard_comment h)
  · rename_i h1
    have hc : isComment t = true := by
      unfold isAnyComment at h
      unfold isComment
      revert h h1
      cases t.type <;> simp
    refine run_head ?_ hc
    intro u hu
    exact hard_comment (by unfold isComment at hu; simp [isAnyComment, hu])

variable {ctx : Ctx}

section
variable (hf : ∀ name, Flat (lookupParser ctx name))
include hf

/-- What a command leaves behind, and its first token. -/
theorem stmt_settled {n : Nat} {up : Bool} {t : Token} {ts : List Token} {r : Node × List Token}
    (h : exec ctx n .statement up (t :: ts) = .ok r) :
    Settled (t :: ts) r.2 ∧ r.1.toks.head? = some t ∧ Lint.nodeLoc r.1 = Lint.tokLoc t := by
  cases n with
  | zero => simp [exec] at h
  | succ n =>
    simp only [exec, step] at h
    simp only [stmtIter] at h
    split at h
    · simp at h
    · rename_i l ts1 e1
      split at h
      · simp at h
      · obtain ⟨⟨sub, rest⟩, h1, h⟩ := Parse.bind_ok.1 h
        obtain ⟨⟨tail, rest1⟩, h2, h⟩ := Parse.bind_ok.1 h
        dsimp only at h2 h
        cases rest1 with
        | nil => simp at h
        | cons q rest2 =>
          simp only [pure_ok] at h
          have hq := stmtTail_head (Nat.le_refl _) h2 q rest2 rfl
          have hsuf : q :: rest2 <:+ t :: ts := by
            have s1 : q :: rest2 <:+ rest := ⟨_, stmtTail_splits _ _ _ _ h2⟩
            have s2 := job_suffix hf h1
            have s3 : ts1 <:+ ts := (List.suffix_cons l ts1).trans (e1 ▸ List.dropWhile_suffix _)
            exact ((s1.trans s2).trans (List.dropWhile_suffix _)).trans (s3.trans (List.suffix_cons _ _))
          rw [← h]
          refine ⟨?_, by simp [Node.toks, toksL, mk], by simp [Lint.nodeLoc, mk]⟩
          have hh : isHard q = true := by simp [isHard, hq]
          rcases trailing_settled ctx rest2 with e | k
          · dsimp only
            rw [e]
            exact (settled_one hh).mono hsuf
          · exact k.mono ((List.suffix_cons _ _).trans hsuf)

/-- The same of blocks. -/
theorem ifs_settled {n : Nat} : ∀ {acc : List Node} {up : Bool} {ts : List Token} {r : Node × List Token},
    exec ctx n (.ifLoop acc) up ts = .ok r → Settled ts r.2 ∧ ∃ a cs, r.1 = .node .flowControl a cs ∧
      (∀ o os, acc = o :: os → ∃ os', cs = o :: os') ∧
      (acc = [] → ∀ t us, ts = t :: us → ∃ o os', cs = o :: os' ∧ o.toks.head? = some t ∧ Lint.nodeLoc o = Lint.tokLoc t) := by
  induction n with
  | zero => intro acc up ts r h; simp [exec] at h
  | succ n ih =>
    intro acc up ts r h
    simp only [exec, step] at h
    cases ts with
    | nil =>
      simp only [ifIter, Except.ok.injEq] at h
      subst h
      exact ⟨⟨[], rfl, Or.inr (by intro t us e; simp at e)⟩, _, _, rfl, fun o os h => ⟨os, h⟩, by intro _ t us e; simp at e⟩
    | cons t ts =>
      simp only [ifIter] at h
      split at h
      · obtain ⟨⟨e, r1⟩, h1, h⟩ := Parse.bind_ok.1 h
        simp only [pure, Except.pure, Except.ok.injEq] at h
        subst h
        obtain ⟨k1, k2⟩ := stmt_settled hf h1
        refine ⟨k1, _, _, rfl, ?_, ?_⟩
        · rintro o os rfl
          exact ⟨_, rfl⟩
        · rintro rfl u us eu
          simp only [List.cons.injEq] at eu
          exact ⟨e, [], rfl, eu.1 ▸ k2⟩
      · obtain ⟨⟨o, r1⟩, h1, h⟩ := Parse.bind_ok.1 h
        obtain ⟨⟨b, r2⟩, h2, h⟩ := Parse.bind_ok.1 h
        obtain ⟨k1, k2⟩ := stmt_settled hf h1
        obtain ⟨m1, a, cs, e, m2, _⟩ := ih h
        refine ⟨m1.mono ((job_suffix hf h2).trans (job_suffix hf h1)), a, cs, e, ?_, ?_⟩
        · rintro o' os rfl
          exact m2 _ _ rfl
        · rintro rfl u us eu
          simp only [List.cons.injEq] at eu
          obtain ⟨os', e'⟩ := m2 _ _ rfl
          exact ⟨o, os', e', eu.1 ▸ k2⟩

theorem flow_settled {n : Nat} {up : Bool} {t : Token} {ts : List Token} {r : Node × List Token}
    (h : exec ctx n .flow up (t :: ts) = .ok r) :
    Settled (t :: ts) r.2 ∧ r.1.toks.head? = some t ∧ Lint.nodeLoc r.1 = Lint.tokLoc t := by
  have top : ∀ (a : Attr) (o : Node) (os : List Node), o.toks.head? = some t ∧ Lint.nodeLoc o = Lint.tokLoc t →
      (Node.node .flowControl a (o :: os)).toks.head? = some t ∧ Lint.nodeLoc (.node .flowControl a (o :: os)) = Lint.tokLoc t := by
    rintro a o os ⟨h1, h2⟩
    exact ⟨by simp [Node.toks, toksL, List.head?_append, h1], by simp [Lint.nodeLoc, h2]⟩
  cases n with
  | zero => simp [exec] at h
  | succ n =>
    simp only [exec, step, flowIter] at h
    split at h
    · obtain ⟨h1, a, cs, e, _, h2⟩ := ifs_settled hf h
      refine ⟨h1, ?_⟩
      obtain ⟨o, os, rfl, h3⟩ := h2 rfl t ts rfl
      rw [e]
      exact top _ _ _ h3
    · obtain ⟨⟨o, r1⟩, h1, h⟩ := Parse.bind_ok.1 h
      obtain ⟨⟨b, r2⟩, h2, h⟩ := Parse.bind_ok.1 h
      obtain ⟨⟨c, r3⟩, h3, h⟩ := Parse.bind_ok.1 h
      simp only [pure, Except.pure, Except.ok.injEq] at h
      subst h
      obtain ⟨k1, k2⟩ := stmt_settled hf h1
      refine ⟨?_, top _ _ _ k2⟩
      cases r2 with
      | nil => cases n <;> simp [exec, step, stmtIter] at h3
      | cons u us =>
        exact (stmt_settled hf h3).1.mono ((job_suffix hf h2).trans (job_suffix hf h1))

end

/-! ## The bodies -/

/-- What is before a command or a block among the children of a body, and in the file. -/
def Gap (orig : List Token) (prev : Option Node) (c : Node) : Prop :=
  ∃ pre t rest, orig = pre ++ t :: rest ∧ (c.toks.head? = some t ∧ Lint.nodeLoc c = Lint.tokLoc t) ∧
    ((prev = none ∧ pre = []) ∨
      ∃ w p, prev = some (mk .whitespace (leaves w)) ∧ pre = p ++ w ∧ (∀ u ∈ w, isWs u = true) ∧ w ≠ [] ∧ (p = [] ∨ EndsHard p))

/-- A command or a block. -/
def isItem : Node → Bool
  | .node .statement _ _ => true
  | .node .flowControl _ _ => true
  | _ => false

/-- The commands and blocks of a list of children. -/
def Gaps (orig : List Token) (cs : List Node) : Prop :=
  ∀ l c r, cs = l ++ c :: r → isItem c = true → Gap orig l.getLast? c

theorem gaps_nil (orig : List Token) : Gaps orig [] := by
  intro l c r e
  simp at e

theorem gaps_snoc {orig : List Token} {cs : List Node} {c : Node} (h : Gaps orig cs)
    (hc : isItem c = true → Gap orig cs.getLast? c) : Gaps orig (cs ++ [c]) := by
  intro l d r e hd
  rcases List.append_eq_append_iff.1 e with ⟨k, e1, e2⟩ | ⟨k, e1, e2⟩
  · cases k with
    | nil =>
      simp only [List.nil_append, List.cons.injEq] at e2
      simp only [List.append_nil] at e1
      rw [e1, ← e2.1]
      exact hc (e2.1 ▸ hd)
    | cons x k => simp at e2
  · cases k with
    | nil =>
      simp only [List.nil_append, List.cons.injEq] at e2
      simp only [List.append_nil] at e1
      rw [← e1, e2.1]
      exact hc (e2.1 ▸ hd)
    | cons x k =>
      simp only [List.cons_append, List.cons.injEq] at e2
      refine h l d k ?_ hd
      rw [e1, ← e2.1]

/-- The gaps of a body. -/
def GapsHere (orig : List Token) : Node → Prop
  | .node .body _ cs => Gaps orig cs
  | _ => True

/-- The gaps of all bodies of a tree. -/
def Gapped (orig : List Token) (n : Node) : Prop := ∀ m, Sub m n → GapsHere orig m

theorem gapped_node {orig : List Token} {ty : NT} {a : Attr} {cs : List Node} (hh : GapsHere orig (.node ty a cs))
    (h : ∀ c ∈ cs, Gapped orig c) : Gapped orig (.node ty a cs) := by
  intro m hm
  cases hm with
  | refl => exact hh
  | child hc hs => exact h _ hc m hs

theorem gapped_leafy {orig : List Token} {n : Node} (h : Leafy n) : Gapped orig n := by
  intro m hm
  have := h m hm
  cases m with
  | tok t => trivial
  | node ty a cs => cases ty <;> first | trivial | simp [quiet, quietT] at this

theorem gapped_stmt {orig : List Token} {x : Str} {n : Node} (h : Stmt x n) : Gapped orig n := by
  obtain ⟨a, t, cs, rfl, _, _, hl⟩ := h
  refine gapped_node trivial ?_
  intro c hc
  rcases List.mem_cons.1 hc with rfl | hc
  · refine gapped_node trivial ?_
    intro c hc
    simp only [List.mem_singleton] at hc
    subst hc
    intro m hm
    cases hm
    trivial
  · exact gapped_leafy (hl c hc)

theorem gapped_quiet {orig : List Token} {n : Node} (h : Neat ctx n) (hq : quiet n = true) : Gapped orig n :=
  gapped_leafy (leafy_of_neat h hq)

/-- Where a body stands: behind something that ends, or behind blanks it has taken. -/
def Stand (acc : List Node) (pre ts : List Token) : Prop :=
  (acc = [] ∧ pre = []) ∨ EndsHard pre ∨ StartsHard ts ∨
    ∃ w p, acc.getLast? = some (mk .whitespace (leaves w)) ∧ pre = p ++ w ∧ (∀ u ∈ w, isWs u = true) ∧ w ≠ [] ∧
      (p = [] ∨ EndsHard p) ∧ ∀ t us, ts = t :: us → isWs t = false

/-- What the block-level jobs do about gaps. -/
structure GappedUpTo (ctx : Ctx) (orig : List Token) (n : Nat) : Prop where
  body : ∀ bs acc up pre ts r, orig = pre ++ ts → Stand acc pre ts → Gaps orig acc → (∀ c ∈ acc, Gapped orig c) →
    exec ctx n (.body bs acc) up ts = .ok r → Gapped orig r.1
  flow : ∀ up pre t ts r, orig = pre ++ t :: ts → t.type = .word → upper t.spelling ∈ flowNames →
    exec ctx n .flow up (t :: ts) = .ok r → Gapped orig r.1
  ifs : ∀ acc up pre ts r, orig = pre ++ ts → HeadWord ts → (∀ c ∈ acc, Gapped orig c) →
    exec ctx n (.ifLoop acc) up ts = .ok r → Gapped orig r.1

theorem settled_stand {acc : List Node} {orig pre ts rest : List Token} (ho : orig = pre ++ ts) (h : Settled ts rest) :
    ∃ pre', orig = pre' ++ rest ∧ Stand acc pre' rest := by
  obtain ⟨p, rfl, h⟩ := h
  refine ⟨pre ++ p, by simp [ho], ?_⟩
  rcases h with ⟨r, x, rfl, hx⟩ | h
  · exact Or.inr (Or.inl ⟨pre ++ r, x, by simp, hx⟩)
  · exact Or.inr (Or.inr (Or.inl h))

theorem endsHard_word {orig pre ts : List Token} {t : Token} (ho : orig = pre ++ t :: ts) (hw : NoWordBehind orig)
    (h : EndsHard pre) : t.type ≠ .word := by
  obtain ⟨p, x, rfl, hx⟩ := h
  exact hw p x t ts (by simp [ho]) hx

theorem stand_gap {orig pre ts : List Token} {t : Token} {acc : List Node} {c : Node} (ho : orig = pre ++ t :: ts)
    (hw : NoWordBehind orig) (ht : t.type = .word) (hs : Stand acc pre (t :: ts)) (hc : c.toks.head? = some t ∧ Lint.nodeLoc c = Lint.tokLoc t) :
    Gap orig acc.getLast? c := by
  refine ⟨pre, t, ts, ho, hc, ?_⟩
  rcases hs with ⟨rfl, rfl⟩ | h | h | ⟨w, p, h1, h2, h3, h4, h5, _⟩
  · exact Or.inl ⟨rfl, rfl⟩
  · exact absurd ht (endsHard_word ho hw h)
  · exact absurd ht (hard_noWord (h t ts rfl))
  · exact Or.inr ⟨w, p, h1, h2, h3, h4, h5⟩

theorem gapped_ws (orig w : List Token) : Gapped orig (mk .whitespace (leaves w)) := by
  refine gapped_node trivial ?_
  intro m hm
  simp only [leaves, List.mem_map] at hm
  obtain ⟨u, _, rfl⟩ := hm
  intro m hm
  cases hm
  trivial

theorem exec_gapped (hfl : ∀ name, Flat (lookupParser ctx name)) {orig : List Token} (hw : NoWordBehind orig)
    (hb : ∀ t ∈ orig, t.type ≠ .bom) (n : Nat) : GappedUpTo ctx orig n := by
  induction n with
  | zero => constructor <;> intros <;> rename_i h <;> simp [exec] at h
  | succ n ih =>
    refine ⟨?_, ?_, ?_⟩
    · intro bs acc up pre ts r ho hs hg hA h
      simp only [exec, step] at h
      cases ts with
      | nil =>
        simp only [bodyIter, Except.ok.injEq] at h
        subst h
        exact gapped_node hg hA
      | cons t ts =>
        have next : ∀ (m : Node) (rest : List Token), Gapped orig m → (isItem m = true → Gap orig acc.getLast? m) →
            Settled (t :: ts) rest → exec ctx n (.body bs (acc ++ [m])) false rest = .ok r → Gapped orig r.1 := by
          intro m rest hm hi hse h
          obtain ⟨pre', e1, e2⟩ := settled_stand (acc := acc ++ [m]) ho hse
          refine ih.body _ _ _ _ _ _ e1 e2 (gaps_snoc hg hi) ?_ h
          intro c hc
          rcases List.mem_append.1 hc with hc | hc
          · exact hA c hc
          · rw [List.mem_singleton.1 hc]; exact hm
        simp only [bodyIter] at h
        split at h
        · rename_i hws
          refine ih.body _ _ _ (pre ++ (t :: ts).takeWhile isWs) _ _ (by rw [List.append_assoc, List.takeWhile_append_dropWhile, ho])
            ?_ (gaps_snoc hg (by simp [isItem, mk])) ?_ h
          · right; right; right
            refine ⟨_, pre, by simp, rfl, ?_, ?_, ?_, ?_⟩
            · intro u hu
              exact List.all_eq_true.1 List.all_takeWhile u hu
            · simp [hws]
            · rcases hs with ⟨_, e⟩ | h | h | ⟨w, p, _, _, _, _, _, h6⟩
              · exact Or.inl e
              · exact Or.inr h
              · exact absurd hws (by simp [hard_noWs (h t ts rfl)])
              · exact absurd hws (by simp [h6 t ts rfl])
            · intro u us e
              have := List.head?_dropWhile_not isWs (t :: ts)
              rw [e] at this
              simpa using this
          · intro c hc
            rcases List.mem_append.1 hc with hc | hc
            · exact hA c hc
            · rw [List.mem_singleton.1 hc]; exact gapped_ws _ _
        · split at h
          · rename_i hc
            have k := comment_neat (ctx := ctx) ts hc
            refine next _ _ (gapped_quiet k.1 (quiet_filler k.2)) ?_ (comment_settled ts hc) h
            intro hi
            exfalso
            revert hi
            unfold consumeComment
            split <;> simp [isItem, mk]
          · split at h
            · rename_i hc
              refine next _ _ (gapped_quiet (ctx := ctx) (neat_onoff hc) rfl) (by simp [isItem, mk]) (settled_one ?_) h
              unfold isOnOff at hc
              unfold isHard
              revert hc
              cases t.type <;> decide
            · split at h
              · rename_i hwd
                have hwd : t.type = .word := by simpa using hwd
                split at h
                · simp only [Except.ok.injEq] at h
                  subst h
                  exact gapped_node hg hA
                · split at h
                  · rename_i hf
                    obtain ⟨⟨sub, rest⟩, h1, h2⟩ := Parse.bind_ok.1 h
                    obtain ⟨k1, k2⟩ := flow_settled hfl h1
                    exact next _ _ (ih.flow _ _ _ _ _ ho hwd (by simpa using hf) h1)
                      (fun _ => stand_gap ho hw hwd hs k2) k1 h2
                  · obtain ⟨⟨sub, rest⟩, h1, h2⟩ := Parse.bind_ok.1 h
                    obtain ⟨k1, k2⟩ := stmt_settled hfl h1
                    exact next _ _ (gapped_stmt (stmt_job hwd h1)) (fun _ => stand_gap ho hw hwd hs k2) k1 h2
              · split at h
                · rename_i hat
                  refine next _ _ ?_ (by simp [isItem, mk]) ?_ h
                  · have ht := trailing_neat ctx ts
                    refine gapped_node trivial ?_
                    intro m hm
                    rcases List.mem_cons.1 hm with rfl | hm
                    · refine gapped_node trivial ?_
                      intro m hm
                      simp only [List.mem_singleton] at hm
                      subst hm
                      intro m hm
                      cases hm
                      trivial
                    · exact gapped_quiet (ht.2 _ hm) (quiet_trail ht.1 _ hm)
                  · rcases trailing_settled ctx ts with e | k
                    · rw [e]
                      exact settled_one (by simp [isHard, (by simpa using hat : t.type = .atword)])
                    · exact k.mono (List.suffix_cons _ _)
                · split at h
                  · rename_i hbom
                    exact absurd (by simpa using hbom) (hb t (by simp [ho]))
                  · simp at h
    · intro up pre t ts r ho hwd hf h
      simp only [exec, step, flowIter] at h
      split at h
      · exact ih.ifs _ _ pre (t :: ts) _ ho hwd (by simp) h
      · obtain ⟨⟨o, r1⟩, h1, h⟩ := Parse.bind_ok.1 h
        obtain ⟨⟨b, r2⟩, h2, h⟩ := Parse.bind_ok.1 h
        obtain ⟨⟨c, r3⟩, h3, h⟩ := Parse.bind_ok.1 h
        simp only [pure, Except.pure, Except.ok.injEq] at h
        subst h
        obtain ⟨pre', e1, e2⟩ := settled_stand (acc := []) ho (stmt_settled hfl h1).1
        have hb' := ih.body _ _ _ _ _ _ e1 e2 (gaps_nil _) (by simp) h2
        obtain ⟨a', cs', cl, e', hseq, hcl, hstop⟩ := (exec_seq n).body _ _ _ _ _ .nil h2
        have hc : Gapped orig c := by
          cases r2 with
          | nil => cases n <;> simp [exec, step, stmtIter] at h3
          | cons u us => exact gapped_stmt (stmt_job (hstop u us rfl).1 h3)
        refine gapped_node trivial ?_
        intro x hx
        simp only [List.mem_cons, List.not_mem_nil, or_false] at hx
        rcases hx with rfl | rfl | rfl
        · exact gapped_stmt (stmt_job hwd h1)
        · exact hb'
        · exact hc
    · intro acc up pre ts r ho hwd hA h
      simp only [exec, step] at h
      cases ts with
      | nil =>
        simp only [ifIter, Except.ok.injEq] at h
        subst h
        exact gapped_node trivial hA
      | cons t ts =>
        have hwd : t.type = .word := hwd
        simp only [ifIter] at h
        split at h
        · obtain ⟨⟨e, r1⟩, h1, h⟩ := Parse.bind_ok.1 h
          simp only [pure, Except.pure, Except.ok.injEq] at h
          subst h
          refine gapped_node trivial ?_
          intro x hx
          rcases List.mem_append.1 hx with hx | hx
          · exact hA x hx
          · rw [List.mem_singleton.1 hx]; exact gapped_stmt (stmt_job hwd h1)
        · obtain ⟨⟨o, r1⟩, h1, h⟩ := Parse.bind_ok.1 h
          obtain ⟨⟨b, r2⟩, h2, h⟩ := Parse.bind_ok.1 h
          obtain ⟨pre', e1, e2⟩ := settled_stand (acc := []) ho (stmt_settled hfl h1).1
          have hb' := ih.body _ _ _ _ _ _ e1 e2 (gaps_nil _) (by simp) h2
          obtain ⟨a', cs', cl, e', hseq, hcl, hstop⟩ := (exec_seq n).body _ _ _ _ _ .nil h2
          obtain ⟨q, hq⟩ := job_suffix hfl h2
          dsimp only at h hq
          refine ih.ifs _ _ (pre' ++ q) r2 _ (by rw [List.append_assoc, hq, e1]) ?_ ?_ h
          · cases r2 with
            | nil => trivial
            | cons u us => exact (hstop u us rfl).1
          · intro x hx
            simp only [List.mem_append, List.mem_cons, List.not_mem_nil, or_false] at hx
            rcases hx with hx | rfl | rfl
            · exact hA x hx
            · exact gapped_stmt (stmt_job hwd h1)
            · exact hb'

/-- The gaps of a parsed file. -/
theorem parse_gapped (hfl : ∀ name, Flat (lookupParser ctx name)) {ts : List Token} {tree : Node} (h : parse ctx ts = .ok tree)
    (hw : NoWordBehind ts) (hb : ∀ t ∈ ts, t.type ≠ .bom) : Gapped ts tree := by
  simp only [parse, parseN] at h
  split at h
  · simp at h
  · rename_i tree' rest he
    simp only [Except.ok.injEq] at h
    subst h
    exact (exec_gapped hfl hw hb _).body _ _ _ [] _ _ rfl (Or.inl ⟨rfl, rfl⟩) (gaps_nil _) (by simp) he

end Verif.Parse
