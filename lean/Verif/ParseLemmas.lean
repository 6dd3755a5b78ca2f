import Verif.Parse

/-!
# Helper lemmas for the parser: no token is lost or invented by any job
-/

namespace Verif.Parse
open Verif Py Lex

theorem bind_ok {α β : Type} {x : Except Err α} {f : α → Except Err β} {b : β} :
    (x >>= f) = .ok b ↔ ∃ a, x = .ok a ∧ f a = .ok b := by
  cases x <;> simp [bind, Except.bind]

theorem pure_ok {α : Type} {a b : α} : (pure a : Except Err α) = .ok b ↔ a = b := by
  simp [pure, Except.pure]

@[simp] theorem toksL_nil : toksL [] = [] := by simp [toksL]
@[simp] theorem toksL_cons (n : Node) (ns : List Node) : toksL (n :: ns) = n.toks ++ toksL ns := by
  simp [toksL]
@[simp] theorem toksL_append (a b : List Node) : toksL (a ++ b) = toksL a ++ toksL b := by
  induction a with
  | nil => simp
  | cons n a ih => simp [ih]
@[simp] theorem toks_tok (t : Token) : (Node.tok t).toks = [t] := by simp [Node.toks]
@[simp] theorem toks_node (ty : NT) (a : Attr) (cs : List Node) : (Node.node ty a cs).toks = toksL cs := by
  simp [Node.toks]
@[simp] theorem toks_mk (ty : NT) (cs : List Node) : (mk ty cs).toks = toksL cs := by simp [mk]
@[simp] theorem toks_mkPos (n : Nargs) (cs : List Node) : (mkPos n cs).toks = toksL cs := by simp [mkPos]
@[simp] theorem toks_mkArg (r : Role) (cs : List Node) : (mkArg r cs).toks = toksL cs := by simp [mkArg]
@[simp] theorem toks_mkBare (cs : List Node) : (mkBare cs).toks = toksL cs := by simp [mkBare]
@[simp] theorem toksL_leaves (ts : List Token) : toksL (leaves ts) = ts := by
  induction ts with
  | nil => simp [leaves]
  | cons t ts ih => simpa [leaves] using ih
@[simp] theorem toksL_map_tok (ts : List Token) : toksL (ts.map .tok) = ts := toksL_leaves ts

theorem toks_tagGroups (n : Node) : (tagGroups n).toks = n.toks := by
  cases n with
  | tok t => rfl
  | node ty a cs =>
    simp only [tagGroups, toks_node]
    induction cs with
    | nil => rfl
    | cons c cs ih =>
      simp only [List.map_cons, toksL_cons, ih]
      congr 1
      cases c with
      | tok t => rfl
      | node ty b ds => cases ty <;> simp

theorem toks_addTags (tags : List Str) (n : Node) : (addTags tags n).toks = n.toks := by
  cases n <;> simp [addTags]

/-! ## The token-consuming helpers -/

theorem commentRun_splits (ok : Token → Bool) (last : Option Nat) (ts : List Token) :
    (commentRun ok last ts).1 ++ (commentRun ok last ts).2 = ts := by
  induction last, ts using commentRun.induct ok <;> rw [commentRun.eq_def] <;> simp [*]

theorem consumeComment_splits (t : Token) (ts : List Token) :
    (consumeComment t ts).1.toks ++ (consumeComment t ts).2 = t :: ts := by
  simp only [consumeComment]
  split
  · simp
  · simpa using commentRun_splits isComment none (t :: ts)

theorem explicitRun_splits (ctx : Ctx) (ts : List Token) :
    (explicitRun ctx ts).1 ++ (explicitRun ctx ts).2 = ts := by
  induction ts with
  | nil => simp [explicitRun]
  | cons t ts ih => simp only [explicitRun]; split <;> simp [ih]

theorem consumeTrailing_splits (ctx : Ctx) (ts : List Token) :
    toksL (consumeTrailing ctx ts).1 ++ (consumeTrailing ctx ts).2 = ts := by
  simp only [consumeTrailing]
  split
  · simp
  · split
    · simp only [toksL_append, toksL_map_tok, toksL_cons, toks_node, toksL_nil, List.append_nil,
        List.append_assoc]
      rw [explicitRun_splits, List.takeWhile_append_dropWhile]
    · split
      · simp
      · rename_i t ts'
        simp only [toksL_append, toksL_map_tok, toksL_cons, toks_node, toksL_nil, List.append_nil,
          List.append_assoc]
        rw [commentRun_splits]
        split <;> simp

theorem wsComments_splits (n : Nat) (ts : List Token) :
    toksL (wsComments n ts).1 ++ (wsComments n ts).2 = ts := by
  induction n generalizing ts with
  | zero => simp [wsComments]
  | succ n ih =>
    cases ts with
    | nil => simp [wsComments]
    | cons t ts =>
      simp only [wsComments]
      split
      · simp [ih]
      · split
        · simp only [toksL_cons, List.append_assoc, ih]
          exact consumeComment_splits t ts
        · split
          · simp [ih]
          · simp

theorem stmtTail_splits (n : Nat) (ts : List Token) (ns : List Node) (rest : List Token)
    (h : stmtTail n ts = .ok (ns, rest)) : toksL ns ++ rest = ts := by
  induction n generalizing ts ns rest with
  | zero => simp only [stmtTail, Except.ok.injEq, Prod.mk.injEq] at h; simp [← h.1, ← h.2]
  | succ n ih =>
    cases ts with
    | nil => simp only [stmtTail, Except.ok.injEq, Prod.mk.injEq] at h; simp [← h.1, ← h.2]
    | cons t ts =>
      simp only [stmtTail] at h
      split at h
      · simp only [Except.ok.injEq, Prod.mk.injEq] at h; simp [← h.1, ← h.2]
      · split at h
        · obtain ⟨⟨ns', r'⟩, h1, h2⟩ := bind_ok.1 h
          simp only [pure_ok, Prod.mk.injEq] at h2
          obtain ⟨rfl, rfl⟩ := h2
          simp [ih _ _ _ h1]
        · split at h
          · obtain ⟨⟨ns', r'⟩, h1, h2⟩ := bind_ok.1 h
            simp only [pure_ok, Prod.mk.injEq] at h2
            obtain ⟨rfl, rfl⟩ := h2
            simp only [toksL_cons, List.append_assoc, ih _ _ _ h1]
            exact consumeComment_splits t ts
          · simp at h

end Verif.Parse
