import Verif.LintKeywordsSpec
import Verif.LintHand

/-!
# Keywords that come twice (lemmas for C97)
-/

namespace Verif.Lint
open Verif Py Lex Parse

/-- The record of a repeated keyword. -/
def againRec (t : Token) : Rec := ⟨S "E1122", tokLoc t, [upper t.spelling]⟩

theorem keywordOf_eq {n : Node} (h : hasType .kwargGroup n = true) : keywordOf n = (semToks n).head? := by
  cases n with
  | tok t => simp [hasType] at h
  | node ty a cs =>
    simp only [hasType, beq_iff_eq] at h
    subst h
    rw [semToks, program_semantics]
    simp [keywordOf]

theorem keywordOf_none {n : Node} (h : hasType .kwargGroup n = false) : keywordOf n = none := by
  cases n with
  | tok t => rfl
  | node ty a cs =>
    simp only [hasType, beq_eq_false_iff_ne, ne_eq] at h
    cases ty <;> simp [keywordOf] at h ⊢

theorem keywords_again : ∀ (ns : List Node) (seen : List Str) (before : List Token),
    (∀ t, mayRepeat t = false → seen.contains (upper t.spelling) = before.any fun u => upper u.spelling == upper t.spelling) →
    ∀ {c : List Call}, checkKeywords seen ns = .ok c →
    c = (saidAgain before (ns.filterMap keywordOf)).map fun t => .record (againRec t)
  | [], seen, before, hs, c, h => by
    simp only [checkKeywords, Except.ok.injEq] at h
    subst h
    simp [saidAgain]
  | n :: ns, seen, before, hs, c, h => by
    simp only [checkKeywords] at h
    split at h
    · rename_i hk
      split at h
      · simp at h
      · rename_i t ts et
        have e : keywordOf n = some t := by rw [keywordOf_eq hk, et]; rfl
        rw [List.filterMap_cons_some e]
        have hm : repeatable.contains (upper t.spelling) = mayRepeat t := rfl
        simp only [saidAgain]
        rw [hm] at h
        split at h
        · rename_i hr
          rw [keywords_again ns seen (before ++ [t]) ?_ h, hr]
          · simp
          · intro t' ht'
            have : (upper t.spelling == upper t'.spelling) = false := by
              rw [beq_eq_false_iff_ne]
              intro e
              simp only [mayRepeat, ← e] at ht'
              rw [mayRepeat, ht'] at hr
              simp at hr
            rw [hs t' ht', List.any_append]
            simp only [List.any_cons, List.any_nil, Bool.or_false, this]
        · rename_i hr
          have hr : mayRepeat t = false := by simpa using hr
          simp only [res_bind, res_pure] at h
          obtain ⟨more, h1, rfl⟩ := h
          rw [keywords_again ns _ (before ++ [t]) ?_ h1, hs t hr, hr]
          · simp only [Bool.not_false, Bool.true_and, List.map_append]
            split <;> simp [againRec]
          · intro t' ht'
            have hst := hs t' ht'
            rw [List.contains_cons, hst, List.any_append]
            simp only [List.any_cons, List.any_nil, Bool.or_false]
            rw [Bool.or_comm]
            congr 1
            rw [Bool.eq_iff_iff, beq_iff_eq, beq_iff_eq]
            exact eq_comm
    · rename_i hk
      rw [List.filterMap_cons_none (keywordOf_none (by simpa using hk))]
      exact keywords_again ns seen before hs h

/-- The keywords of the list of arguments that a node is. -/
def kwListOf : Node → List (List Token)
  | .node .argGroup _ cs => [cs.filterMap keywordOf]
  | _ => []

theorem node_keywords {o : Opts} {v : List Frame × Node} {c : List Call} (h : checkNode o v.1 v.2 = .ok c) :
    only (S "E1122") c = (kwListOf v.2).flatMap fun ks => (saidAgain [] ks).map fun t => .record (againRec t) := by
  obtain ⟨anc, n⟩ := v
  dsimp only at h
  cases n with
  | tok t => simp only [checkNode, Except.ok.injEq] at h; subst h; simp [only, kwListOf]
  | node ty a cs =>
    cases ty <;> simp only [checkNode] at h <;> simp only [kwListOf, List.flatMap_nil, List.flatMap_cons, List.append_nil]
    case body => exact (body_codes h).only (by decide)
    case flowControl => exact (flow_codes h).only (by decide)
    case statement => exact (statement_codes h).only (by decide)
    case pargGroup => exact (positional_codes h).only (by decide)
    case comment =>
      split at h
      · simp only [Except.ok.injEq] at h; subst h; rfl
      · exact (comment_codes h).only (by decide)
    case argGroup =>
      rw [keywords_again cs [] [] (by simp) h]
      simp only [only]
      rw [List.filter_eq_self]
      intro x hx
      obtain ⟨t, _, rfl⟩ := List.mem_map.1 hx
      rfl
    all_goals (simp only [Except.ok.injEq] at h; subst h; rfl)

mutual
theorem keywordLists_visits : ∀ (n : Node) (anc : List Frame), (visits anc n).flatMap (fun v => kwListOf v.2) = keywordLists n
  | .tok t, anc => by simp [visits, keywordLists]
  | .node ty a cs, anc => by
    simp only [visits, List.flatMap_cons, keywordLists, keywordLists_visitsL cs]
    congr 1
    cases ty <;> simp [kwListOf]
theorem keywordLists_visitsL : ∀ (ns : List Node) (anc : List Frame) (ty : NT) (a : Attr) (all : List Node) (i : Nat),
    (visitsL anc ty a all i ns).flatMap (fun v => kwListOf v.2) = keywordListsL ns
  | [], _, _, _, _, _ => by simp [visitsL, keywordListsL]
  | n :: ns, anc, ty, a, all, i => by
    simp only [visitsL, List.flatMap_append, keywordListsL, keywordLists_visits n, keywordLists_visitsL ns]
end

theorem keywordListsL_leaves (ts : List Token) : keywordListsL (leaves ts) = [] := by
  induction ts with
  | nil => simp [leaves, keywordListsL]
  | cons t ts ih => simpa [leaves, keywordListsL, keywordLists] using ih

theorem keywordListsL_append (a b : List Node) : keywordListsL (a ++ b) = keywordListsL a ++ keywordListsL b := by
  induction a with
  | nil => simp [keywordListsL]
  | cons n ns ih => simp [keywordListsL, ih]

variable {ctx : Parse.Ctx}

theorem keywordLists_comment {a : Attr} {ds : List Node} (h : Neat ctx (.node .comment a ds)) :
    keywordLists (.node .comment a ds) = [] := by
  obtain ⟨t, ts, rfl, _⟩ := (neat_node.1 h).1
  simp [keywordLists, keywordListsL_leaves]

theorem keywordLists_trail {cs : List Node} (h : Trail cs) (hn : ∀ c ∈ cs, Neat ctx c) : keywordListsL cs = [] := by
  rcases h with rfl | ⟨ws, a, ds, rfl, _⟩
  · simp [keywordListsL]
  · simp [keywordListsL_append, keywordListsL_leaves, keywordListsL, keywordLists_comment (hn (.node .comment a ds) (by simp))]

mutual
theorem keywordLists_stmts : ∀ n : Node, Neat ctx n → (Block n ∨ FlowPart n) →
    keywordLists n = (stmtsOf n).flatMap keywordLists
  | .tok t, _, h => by simp [Block, FlowPart] at h
  | .node ty a cs, hn, h => by
    obtain ⟨here, kids⟩ := neat_node.1 hn
    have hty : ty = .statement ∨ ty = .body ∨ ty = .flowControl ∨ ty = .whitespace ∨ ty = .comment ∨ ty = .onoff ∨
        ty = .atwordStatement := by
      simp only [Block, FlowPart] at h
      rcases h with (h | h | h | h | h | h) | (h | h) <;> simp [h]
    rcases hty with rfl | rfl | rfl | rfl | rfl | rfl | rfl
    · simp [stmtsOf]
    · simp only [keywordLists, stmtsOf]
      simpa using keywordLists_stmtsL cs kids fun c hc => Or.inl (here c hc)
    · simp only [keywordLists, stmtsOf]
      simpa using keywordLists_stmtsL cs kids fun c hc => Or.inr (here c hc)
    · rw [leafy_stmts _ (leafy_of_neat hn rfl)]
      obtain ⟨t, ts, rfl, _⟩ := here
      simp [keywordLists, keywordListsL_leaves]
    · rw [leafy_stmts _ (leafy_of_neat hn rfl)]
      obtain ⟨t, ts, rfl, _⟩ := here
      simp [keywordLists, keywordListsL_leaves]
    · rw [leafy_stmts _ (leafy_of_neat hn rfl)]
      obtain ⟨t, rfl, _⟩ := here
      simp [keywordLists, keywordListsL]
    · rw [leafy_stmts _ (leafy_of_neat hn rfl)]
      obtain ⟨t, trail, rfl, ht⟩ := here
      have k := keywordLists_trail ht fun c hc => kids c (by simp [hc])
      simp [keywordLists, keywordListsL, k, mk]
theorem keywordLists_stmtsL : ∀ ns : List Node, (∀ c ∈ ns, Neat ctx c) → (∀ c ∈ ns, Block c ∨ FlowPart c) →
    keywordListsL ns = (stmtsL ns).flatMap keywordLists
  | [], _, _ => by simp [keywordListsL, stmtsL]
  | n :: ns, h, h' => by
    simp only [keywordListsL, stmtsL, List.flatMap_append]
    rw [keywordLists_stmts n (h n (by simp)) (h' n (by simp)),
      keywordLists_stmtsL ns (fun c hc => h c (by simp [hc])) fun c hc => h' c (by simp [hc])]
end

theorem keywords_calls {o : Opts} {ts : List Token} {tree : Node} {calls : List Call} (hp : parse ctx ts = .ok tree)
    (h : checkParseTree o tree = .ok calls) :
    only (S "E1122") calls = (repeatedKeywords (stmtsOf tree)).map fun t => .record (againRec t) := by
  obtain ⟨h1, h2⟩ := parseTree_calls (code := S "E1122") (by decide) (by decide) h
  have e : ∀ vs : List (List Frame × Node), (∀ v ∈ vs, ∃ c, checkNode o v.1 v.2 = .ok c) →
      vs.flatMap (fun v => only (S "E1122") (callsOf (checkNode o v.1 v.2))) =
        ((vs.flatMap fun v => kwListOf v.2).flatMap (saidAgain [])).map fun t => .record (againRec t) := by
    intro vs
    induction vs with
    | nil => simp
    | cons v vs ih =>
      intro hv
      obtain ⟨c, hc⟩ := hv v (by simp)
      rw [List.flatMap_cons, List.flatMap_cons, ih fun u hu => hv u (by simp [hu]), hc, callsOf_ok, node_keywords hc,
        List.flatMap_append, List.map_append]
      congr 1
      rw [List.map_flatMap]
  rw [h1, e _ h2, keywordLists_visits, repeatedKeywords]
  have hn : Neat ctx tree := (parse_neat (ctx := ctx) hp).1
  obtain ⟨a0, cs0, c0, rfl, _⟩ := parse_seq hp
  rw [keywordLists_stmts _ hn (Or.inr (Or.inr rfl))]

end Verif.Lint
