import Verif.LintShortSpec
import Verif.LintKeywords

/-!
# Groups with too few words (lemmas for C98)
-/

namespace Verif.Lint
open Verif Py Lex Parse

/-- The record of a short group. -/
def shortRec (l : List Nat) : Rec := ⟨S "E1120", l, []⟩

theorem lit_last {s : Str} (h : isIntLit s = true) : s.getLast? ≠ some '+' := by
  have key : ∀ r : Str, r.all isDigit = true → r.getLast? ≠ some '+' := by
    intro r hr e
    have := List.all_eq_true.1 hr '+' (List.mem_of_getLast? e)
    simp [isDigit] at this
  have cons : ∀ (c : Char) (r : Str), (!r.isEmpty && r.all isDigit) = true → (c :: r).getLast? ≠ some '+' := by
    intro c r hr
    rw [Bool.and_eq_true] at hr
    cases r with
    | nil => simp at hr
    | cons d r =>
      rw [List.getLast?_cons_cons]
      exact key _ hr.2
  unfold isIntLit at h
  split at h
  · exact cons _ _ h
  · exact cons _ _ h
  · rw [Bool.and_eq_true] at h
    exact key _ h.2

theorem minArgs_fewest {k : Nargs} {n : Int} (h : minArgs k = .ok n) : n = fewest k := by
  cases k with
  | int m => simp only [minArgs, Except.ok.injEq] at h; exact h.symm
  | str s =>
    simp only [minArgs] at h
    simp only [fewest]
    split at h
    · rename_i hs
      simp only [Except.ok.injEq] at h
      rcases hs with hs | hs
      · rw [if_pos (show s = c! "*" from hs)]; exact h.symm
      · rw [if_pos (show s = c! "?" from hs)]; split <;> exact h.symm
    · rename_i hs
      rw [if_neg (show ¬ s = c! "*" from fun e => hs (Or.inl e)), if_neg (show ¬ s = c! "?" from fun e => hs (Or.inr e))]
      split at h
      · rename_i hs
        rw [if_pos (show s = c! "+" from hs)]
        simp only [Except.ok.injEq] at h
        exact h.symm
      · rename_i hs
        rw [if_neg (show ¬ s = c! "+" from fun e => hs e)]
        split at h
        · rename_i hl
          simp only [Except.ok.injEq] at h
          rw [hl.1]
          exact h.symm
        · rename_i hl
          split at h
          · rename_i hi
            simp only [Except.ok.injEq] at h
            split
            · rename_i e
              exact absurd e (lit_last hi)
            · exact h.symm
          · simp at h

/-- The place of the group that a node is, if it has too few words. -/
def shortOf : Node → List (List Nat)
  | .node .pargGroup a cs => if tooFew a cs = true then [groupPlace cs] else []
  | _ => []

theorem positional_short {a : Attr} {cs : List Node} {c : List Call}
    (h : checkPositional a (.node .pargGroup a cs) = .ok c) :
    c = (shortOf (.node .pargGroup a cs)).map fun l => .record (shortRec l) := by
  unfold checkPositional at h
  split at h
  · simp at h
  · rename_i k hk
    simp only [res_bind, res_pure] at h
    obtain ⟨n, hn, rfl⟩ := h
    have e : semToks (.node .pargGroup a cs) = program (toksL cs) := by
      rw [semToks, program_semantics]
      simp [Node.toks]
    rw [e, minArgs_fewest hn]
    simp only [shortOf, tooFew, hk, Option.any_some, decide_eq_true_eq]
    by_cases hlt : ((program (toksL cs)).length : Int) < fewest k
    · rw [if_pos hlt, if_pos hlt]
      simp only [List.map_cons, List.map_nil, shortRec, groupPlace]
      cases program (toksL cs) <;> rfl
    · rw [if_neg hlt, if_neg hlt]
      rfl

theorem node_short {o : Opts} {v : List Frame × Node} {c : List Call} (h : checkNode o v.1 v.2 = .ok c) :
    only (S "E1120") c = (shortOf v.2).map fun l => .record (shortRec l) := by
  obtain ⟨anc, n⟩ := v
  dsimp only at h
  cases n with
  | tok t => simp only [checkNode, Except.ok.injEq] at h; subst h; simp [only, shortOf]
  | node ty a cs =>
    cases ty <;> simp only [checkNode] at h
    case body => exact (body_codes h).only (by decide)
    case flowControl => exact (flow_codes h).only (by decide)
    case statement => exact (statement_codes h).only (by decide)
    case argGroup => exact (keywords_codes _ _ h).only (by decide)
    case comment =>
      split at h
      · simp only [Except.ok.injEq] at h; subst h; rfl
      · exact (comment_codes h).only (by decide)
    case pargGroup =>
      rw [positional_short h]
      simp only [only]
      rw [List.filter_eq_self]
      intro x hx
      obtain ⟨t, _, rfl⟩ := List.mem_map.1 hx
      rfl
    all_goals (simp only [Except.ok.injEq] at h; subst h; rfl)

mutual
theorem shortGroups_visits : ∀ (n : Node) (anc : List Frame), (visits anc n).flatMap (fun v => shortOf v.2) = shortGroups n
  | .tok t, anc => by simp [visits, shortGroups]
  | .node ty a cs, anc => by
    simp only [visits, List.flatMap_cons, shortGroups, shortGroups_visitsL cs]
    congr 1
    cases ty <;> simp [shortOf]
theorem shortGroups_visitsL : ∀ (ns : List Node) (anc : List Frame) (ty : NT) (a : Attr) (all : List Node) (i : Nat),
    (visitsL anc ty a all i ns).flatMap (fun v => shortOf v.2) = shortGroupsL ns
  | [], _, _, _, _, _ => by simp [visitsL, shortGroupsL]
  | n :: ns, anc, ty, a, all, i => by
    simp only [visitsL, List.flatMap_append, shortGroupsL, shortGroups_visits n, shortGroups_visitsL ns]
end

theorem shortGroupsL_leaves (ts : List Token) : shortGroupsL (leaves ts) = [] := by
  induction ts with
  | nil => simp [leaves, shortGroupsL]
  | cons t ts ih => simpa [leaves, shortGroupsL, shortGroups] using ih

theorem shortGroupsL_append (a b : List Node) : shortGroupsL (a ++ b) = shortGroupsL a ++ shortGroupsL b := by
  induction a with
  | nil => simp [shortGroupsL]
  | cons n ns ih => simp [shortGroupsL, ih]

variable {ctx : Parse.Ctx}

theorem shortGroups_comment {a : Attr} {ds : List Node} (h : Neat ctx (.node .comment a ds)) :
    shortGroups (.node .comment a ds) = [] := by
  obtain ⟨t, ts, rfl, _⟩ := (neat_node.1 h).1
  simp [shortGroups, shortGroupsL_leaves]

theorem shortGroups_trail {cs : List Node} (h : Trail cs) (hn : ∀ c ∈ cs, Neat ctx c) : shortGroupsL cs = [] := by
  rcases h with rfl | ⟨ws, a, ds, rfl, _⟩
  · simp [shortGroupsL]
  · simp [shortGroupsL_append, shortGroupsL_leaves, shortGroupsL, shortGroups_comment (hn (.node .comment a ds) (by simp))]

mutual
theorem shortGroups_stmts : ∀ n : Node, Neat ctx n → (Block n ∨ FlowPart n) →
    shortGroups n = (stmtsOf n).flatMap shortGroups
  | .tok t, _, h => by simp [Block, FlowPart] at h
  | .node ty a cs, hn, h => by
    obtain ⟨here, kids⟩ := neat_node.1 hn
    have hty : ty = .statement ∨ ty = .body ∨ ty = .flowControl ∨ ty = .whitespace ∨ ty = .comment ∨ ty = .onoff ∨
        ty = .atwordStatement := by
      simp only [Block, FlowPart] at h
      rcases h with (h | h | h | h | h | h) | (h | h) <;> simp [h]
    rcases hty with rfl | rfl | rfl | rfl | rfl | rfl | rfl
    · simp [stmtsOf]
    · simp only [shortGroups, stmtsOf]
      simpa using shortGroups_stmtsL cs kids fun c hc => Or.inl (here c hc)
    · simp only [shortGroups, stmtsOf]
      simpa using shortGroups_stmtsL cs kids fun c hc => Or.inr (here c hc)
    · rw [leafy_stmts _ (leafy_of_neat hn rfl)]
      obtain ⟨t, ts, rfl, _⟩ := here
      simp [shortGroups, shortGroupsL_leaves]
    · rw [leafy_stmts _ (leafy_of_neat hn rfl)]
      obtain ⟨t, ts, rfl, _⟩ := here
      simp [shortGroups, shortGroupsL_leaves]
    · rw [leafy_stmts _ (leafy_of_neat hn rfl)]
      obtain ⟨t, rfl, _⟩ := here
      simp [shortGroups, shortGroupsL]
    · rw [leafy_stmts _ (leafy_of_neat hn rfl)]
      obtain ⟨t, trail, rfl, ht⟩ := here
      have k := shortGroups_trail ht fun c hc => kids c (by simp [hc])
      simp [shortGroups, shortGroupsL, k, mk]
theorem shortGroups_stmtsL : ∀ ns : List Node, (∀ c ∈ ns, Neat ctx c) → (∀ c ∈ ns, Block c ∨ FlowPart c) →
    shortGroupsL ns = (stmtsL ns).flatMap shortGroups
  | [], _, _ => by simp [shortGroupsL, stmtsL]
  | n :: ns, h, h' => by
    simp only [shortGroupsL, stmtsL, List.flatMap_append]
    rw [shortGroups_stmts n (h n (by simp)) (h' n (by simp)),
      shortGroups_stmtsL ns (fun c hc => h c (by simp [hc])) fun c hc => h' c (by simp [hc])]
end

theorem short_calls {o : Opts} {ts : List Token} {tree : Node} {calls : List Call} (hp : parse ctx ts = .ok tree)
    (h : checkParseTree o tree = .ok calls) :
    only (S "E1120") calls = ((stmtsOf tree).flatMap shortGroups).map fun l => .record (shortRec l) := by
  obtain ⟨h1, h2⟩ := parseTree_calls (code := S "E1120") (by decide) (by decide) h
  have e : ∀ vs : List (List Frame × Node), (∀ v ∈ vs, ∃ c, checkNode o v.1 v.2 = .ok c) →
      vs.flatMap (fun v => only (S "E1120") (callsOf (checkNode o v.1 v.2))) =
        (vs.flatMap fun v => shortOf v.2).map fun l => .record (shortRec l) := by
    intro vs
    induction vs with
    | nil => simp
    | cons v vs ih =>
      intro hv
      obtain ⟨c, hc⟩ := hv v (by simp)
      rw [List.flatMap_cons, List.flatMap_cons, ih fun u hu => hv u (by simp [hu]), hc, callsOf_ok, node_short hc,
        List.map_append]
  have hn : Neat ctx tree := (parse_neat (ctx := ctx) hp).1
  rw [h1, e _ h2, shortGroups_visits]
  obtain ⟨a0, cs0, c0, rfl, _⟩ := parse_seq hp
  rw [shortGroups_stmts _ hn (Or.inr (Or.inr rfl))]

end Verif.Lint
