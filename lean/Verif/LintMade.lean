import Verif.LintParser
import Verif.LintParams
import Verif.Groups

/-!
# Every command of a tree comes from the function for statements (lemmas for the parser's records)
-/

namespace Verif.Parse
open Verif Py Lex

/-- The node is a result of the parser for statements. -/
def Made (ctx : Ctx) (s : Node) : Prop := ∃ n up ts rest, exec ctx n .statement up ts = .ok (s, rest)

theorem made_one {ctx : Ctx} {n : Nat} {up : Bool} {ts : List Token} {r : Node × List Token}
    (h : exec ctx n .statement up ts = .ok r) : ∀ s ∈ stmtsOf r.1, Made ctx s := by
  intro s hs
  rw [stmts_one h] at hs
  simp only [List.mem_singleton] at hs
  subst hs
  exact ⟨n, up, ts, r.2, h⟩

/-- What the block-level jobs do. -/
structure MadeUpTo (ctx : Ctx) (n : Nat) : Prop where
  body : ∀ bs acc up ts r, (∀ s ∈ stmtsL acc, Made ctx s) →
    exec ctx n (.body bs acc) up ts = .ok r → ∀ s ∈ stmtsOf r.1, Made ctx s
  flow : ∀ up ts r, exec ctx n .flow up ts = .ok r → ∀ s ∈ stmtsOf r.1, Made ctx s
  ifs : ∀ acc up ts r, (∀ s ∈ stmtsL acc, Made ctx s) →
    exec ctx n (.ifLoop acc) up ts = .ok r → ∀ s ∈ stmtsOf r.1, Made ctx s

theorem exec_made (ctx : Ctx) (n : Nat) : MadeUpTo ctx n := by
  induction n with
  | zero => constructor <;> intros <;> rename_i h _ _ <;> simp [exec] at h
  | succ n ih =>
    have snoc : ∀ {acc : List Node} {m : Node}, (∀ s ∈ stmtsL acc, Made ctx s) → (∀ s ∈ stmtsOf m, Made ctx s) →
        ∀ s ∈ stmtsL (acc ++ [m]), Made ctx s := by
      intro acc m h1 h2 s hs
      rw [stmtsL_append] at hs
      simp only [stmtsL, List.append_nil, List.mem_append] at hs
      exact hs.elim (h1 s) (h2 s)
    have wrap : ∀ {ty : NT} {acc : List Node}, ty ≠ .statement → (∀ s ∈ stmtsL acc, Made ctx s) →
        ∀ s ∈ stmtsOf (mk ty acc), Made ctx s := by
      intro ty acc hty h s hs
      simp only [mk, stmtsOf, if_neg hty] at hs
      exact h s hs
    refine ⟨?_, ?_, ?_⟩
    · intro bs acc up ts r hacc h
      simp only [exec, step] at h
      cases ts with
      | nil =>
        simp only [bodyIter, Except.ok.injEq] at h
        subst h
        exact wrap (by simp) hacc
      | cons t ts =>
        have next : ∀ (m : Node) (rest : List Token), (∀ s ∈ stmtsOf m, Made ctx s) →
            exec ctx n (.body bs (acc ++ [m])) false rest = .ok r → ∀ s ∈ stmtsOf r.1, Made ctx s :=
          fun m rest hm h => ih.body _ _ _ _ _ (snoc hacc hm) h
        simp only [bodyIter] at h
        repeat' split at h
        all_goals first
          | (simp at h; done)
          | (simp only [Except.ok.injEq] at h; subst h; exact wrap (by simp) hacc)
          | (obtain ⟨⟨sub, rest⟩, h1, h2⟩ := Parse.bind_ok.1 h
             exact next _ _ (ih.flow _ _ _ h1) h2)
          | (obtain ⟨⟨sub, rest⟩, h1, h2⟩ := Parse.bind_ok.1 h
             exact next _ _ (made_one h1) h2)
          | (refine next _ _ ?_ h; simp [mk, stmtsOf, stmtsL_leaves, stmtsL]; done)
          | (refine next _ _ ?_ h; rw [comment_stmts]; simp; done)
          | (refine next _ _ ?_ h; simp only [mk, stmtsOf, stmtsL, trailing_stmts]; simp; done)
          | exact ih.body _ _ _ _ _ hacc h
    · intro up ts r h
      simp only [exec, step] at h
      cases ts with
      | nil => simp [flowIter] at h
      | cons t ts =>
        simp only [flowIter] at h
        split at h
        · exact ih.ifs _ _ _ _ (by simp [stmtsL]) h
        · obtain ⟨⟨o, r1⟩, h1, h⟩ := Parse.bind_ok.1 h
          obtain ⟨⟨b, r2⟩, h2, h⟩ := Parse.bind_ok.1 h
          obtain ⟨⟨c, r3⟩, h3, h⟩ := Parse.bind_ok.1 h
          simp only [pure, Except.pure, Except.ok.injEq] at h
          subst h
          exact wrap (by simp) (by
            intro s hs
            simp only [stmtsL, List.append_nil, List.mem_append] at hs
            rcases hs with hs | hs | hs
            · exact made_one h1 s hs
            · exact ih.body _ _ _ _ _ (by simp [stmtsL]) h2 s hs
            · exact made_one h3 s hs)
    · intro acc up ts r hacc h
      simp only [exec, step] at h
      cases ts with
      | nil =>
        simp only [ifIter, Except.ok.injEq] at h
        subst h
        exact wrap (by simp) hacc
      | cons t ts =>
        simp only [ifIter] at h
        split at h
        · obtain ⟨⟨c, r1⟩, h1, h⟩ := Parse.bind_ok.1 h
          simp only [pure, Except.pure, Except.ok.injEq] at h
          subst h
          exact wrap (by simp) (snoc hacc (made_one h1))
        · obtain ⟨⟨o, r1⟩, h1, h⟩ := Parse.bind_ok.1 h
          obtain ⟨⟨b, r2⟩, h2, h⟩ := Parse.bind_ok.1 h
          refine ih.ifs _ _ _ _ ?_ h
          intro s hs
          simp only [stmtsL_append, stmtsL, List.append_nil, List.mem_append] at hs
          rcases hs with hs | hs | hs
          · exact hacc s hs
          · exact made_one h1 s hs
          · exact ih.body _ _ _ _ _ (by simp [stmtsL]) h2 s hs

/-- Every command of a parse tree comes from the function for statements. -/
theorem parse_made {ctx : Ctx} {ts : List Token} {tree : Node} (h : parse ctx ts = .ok tree) :
    ∀ s ∈ stmtsOf tree, Made ctx s :=
  (exec_made ctx _).body _ _ _ _ _ (by simp [stmtsL]) (Props.Parse.parse_all h)

end Verif.Parse
