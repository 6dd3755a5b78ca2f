import Verif.LintLinks
import Verif.Props.Groups

/-!
# Parameters of definitions (lemmas for the lint checks)
-/

namespace Verif.Lint
open Verif Py Lex Parse

/-! ## Checks of the opening command of a block -/

/-- A check of the opening commands with some names. -/
def openFlow {β : Type} (names : List Str) (f : Node → List β) : List Node → List β
  | s :: _ :: _ :: _ => if names.contains (funName s) then f s else []
  | _ => []

/-- The same check, on commands. -/
def openRec {β : Type} (names : List Str) (f : Node → List β) (p : Place) : List β :=
  if names.contains (nameOf p.cmd) then f p.cmd else []

theorem open_link {β : Type} {names : List Str} (f : Node → List β)
    (hn : ∀ x ∈ names, x ∈ [S "function", S "macro", S "foreach"]) :
    Link (fun _ _ => []) (openFlow names f) (openRec names f) where
  quiet n ns h := rfl
  plain stop c x n ns K st h h1 h2 hs hf hk := by
    refine if_neg ?_
    simp only [List.contains_eq_mem, decide_eq_true_eq]
    intro e
    have := hn _ e
    rw [stmt_nameOf h] at this
    apply h2
    rw [← stmt_upper h]
    simp only [List.mem_cons, List.not_mem_nil, or_false] at this
    rcases this with e | e | e <;> rw [e] <;> decide
  loop x o' e b bs K st h1 h2 h3 h4 := by
    simp only [openRec, openFlow, stmt_nameOf h2, stmt_funName h2]
  ifs o' rest K st h := by
    have hi : names.contains (S "if") = false := by
      simp only [List.contains_eq_mem, decide_eq_false_iff_not]
      intro e
      have := hn _ e
      revert this
      decide
    have hnm : nameOf o' = S "if" := by rw [stmt_nameOf h]; rfl
    have hf : funName o' = S "if" := by rw [stmt_funName h]; rfl
    have z : openFlow names f (o' :: rest) = [] := by
      unfold openFlow
      split
      · rename_i e
        simp only [List.cons.injEq] at e
        obtain ⟨rfl, rfl⟩ := e
        rw [hf, hi]
        rfl
      · rfl
    rw [z]
    exact if_neg (by rw [show (Place.mk o' st K).cmd = o' from rfl, hnm, hi]; simp)
  mark x n st K h h1 _ := by
    refine if_neg ?_
    simp only [List.contains_eq_mem, decide_eq_true_eq]
    intro e
    have := hn _ e
    rw [stmt_nameOf h] at this
    revert this
    simp only [List.mem_cons, List.not_mem_nil, or_false] at h1
    rcases h1 with rfl | rfl | rfl | rfl | rfl | rfl | rfl <;> decide

/-! ## The words of a command -/

theorem program_semantics (ts : List Token) : semantics ts = program ts := Props.Parse.program_eq ts

theorem commentShape_noText {a : Attr} {cs : List Node} (h : CommentShape cs) : NoText (.node .comment a cs) := by
  obtain ⟨t, ts, rfl, ht, hu⟩ := h
  intro u hm
  simp only [Node.toks, toksL_leaves', List.mem_cons] at hm
  rcases hm with rfl | hm
  · exact Or.inr ht
  · exact hu u hm

theorem filler_noText {ctx : Parse.Ctx} {n : Node} (hn : Neat ctx n) (h : Filler n) : NoText n := by
  cases n with
  | tok t =>
    intro u hu
    simp only [Node.toks, List.mem_singleton] at hu
    subst hu
    exact Or.inl h
  | node ty a cs =>
    have e : ty = .comment := h
    subst e
    exact commentShape_noText (hn _ (.refl _))

theorem trail_noText {ctx : Parse.Ctx} {cs : List Node} (hn : ∀ c ∈ cs, Neat ctx c) (h : Trail cs) : ∀ n ∈ cs, NoText n := by
  rcases h with rfl | ⟨ws, a, ds, rfl, hw⟩
  · simp
  · intro n hm
    have hk := hn n hm
    rcases List.mem_append.1 hm with hm | hm
    · simp only [leaves, List.mem_map] at hm
      obtain ⟨t, ht, rfl⟩ := hm
      exact filler_noText hk (hw t ht)
    · simp only [List.mem_singleton] at hm
      subst hm
      exact filler_noText hk rfl

theorem leaves_noText {ws : List Token} (h : ∀ t ∈ ws, isWs t = true) : ∀ n ∈ leaves ws, NoText n := by
  intro n hn
  simp only [leaves, List.mem_map] at hn
  obtain ⟨t, ht, rfl⟩ := hn
  intro u hu
  simp only [Node.toks, List.mem_singleton] at hu
  subst hu
  exact Or.inl (h _ ht)

theorem filter_leaves (ws : List Token) : (leaves ws).filter isNode = [] := by
  simp [leaves, List.filter_eq_nil_iff, isNode]

/-- The tree of the arguments of a command, and its words. -/
theorem stmt_args' {ctx : Parse.Ctx} {ts : List Token} {tree s : Node} (h : parse ctx ts = .ok tree) (hs : s ∈ stmtsOf tree) :
    ∃ f l r, program s.toks = f :: l :: (semToks (argTree s) ++ [r]) ∧ f.type = .word ∧ l.type = .lparen ∧ r.type = .rparen ∧
      Grp (argTree s) := by
  obtain ⟨h1, a, cs, rfl⟩ := Props.Groups.stmtsOf_sub tree hs
  obtain ⟨hneat, _⟩ := parse_neat (ctx := ctx) h
  have hall : Neat ctx (.node .statement a cs) := by
    intro m hm
    have tr : ∀ {x y z : Node}, Sub x y → Sub y z → Sub x z := by
      intro x y z hxy hyz
      induction hyz with
      | refl => exact hxy
      | child hc _ ih => exact .child hc ih
    exact hneat m (tr hm h1)
  have hkids := (neat_node.1 hall).2
  obtain ⟨f, l, r, ws, ws1, sub, mid, trail, rfl, w1, w2, hg, hm, ht, _⟩ := (neat_node.1 hall).1
  have ke : ∀ x, x ∈ mid ∨ x ∈ trail ∨ x = mk .funname [.tok f] ∨ x = mk .lparen [.tok l] ∨ x = mk .rparen [.tok r] → Neat ctx x := by
    intro x hx
    apply hkids
    simp only [List.mem_append, List.mem_singleton]
    rcases hx with hx | hx | hx | hx | hx <;> simp [hx]
  have hf : f.type = .word := by
    obtain ⟨t, e, ht⟩ := (neat_node.1 (ke (mk .funname [.tok f]) (by simp))).1
    simp only [List.cons.injEq, Node.tok.injEq, and_true] at e
    rw [e]; exact ht
  have hl : l.type = .lparen := by
    obtain ⟨t, e, ht⟩ := (neat_node.1 (ke (mk .lparen [.tok l]) (by simp))).1
    simp only [List.cons.injEq, Node.tok.injEq, and_true] at e
    rw [e]; exact ht
  have hr : r.type = .rparen := by
    obtain ⟨t, e, ht⟩ := (neat_node.1 (ke (mk .rparen [.tok r]) (by simp))).1
    simp only [List.cons.injEq, Node.tok.injEq, and_true] at e
    rw [e]; exact ht
  have hsub : isNode sub = true := by
    cases sub with
    | tok t => exact absurd hg (by simp [Grp])
    | node => rfl
  have harg : argTree (.node .statement a ([mk .funname [.tok f]] ++ leaves ws ++ [mk .lparen [.tok l]] ++ leaves ws1 ++ [sub] ++
      mid ++ [mk .rparen [.tok r]] ++ trail)) = sub := by
    have i1 : ∀ ty at_ ds, isNode (.node ty at_ ds) = true := fun _ _ _ => rfl
    simp only [argTree, kidsOf, List.filter_append, filter_leaves, List.filter_cons, hsub, i1, mk, if_true, List.filter_nil]
    simp
  rw [harg]
  refine ⟨f, l, r, ?_, hf, hl, hr, hg⟩
  have one : ∀ (t : Token), t.type = .word ∨ t.type = .lparen ∨ t.type = .rparen → program [t] = [t] := by
    intro t ht
    rcases ht with e | e | e <;> simp [program, e]
  simp only [Node.toks, toksL_append, toksL, mk, List.append_nil, Props.Groups.program_append,
    Props.Groups.program_noText (leaves_noText w1), Props.Groups.program_noText (leaves_noText w2),
    Props.Groups.program_noText fun n hn => filler_noText (ke n (by simp [hn])) (hm n hn),
    Props.Groups.program_noText (trail_noText (fun c hc => ke c (by simp [hc])) ht),
    one f (Or.inl hf), one l (Or.inr (Or.inl hl)), one r (Or.inr (Or.inr hr)), semToks, program_semantics]
  simp

/-- The words of the argument tree are those between the parentheses. -/
theorem stmt_args {ctx : Parse.Ctx} {ts : List Token} {tree s : Node} (h : parse ctx ts = .ok tree) (hs : s ∈ stmtsOf tree) :
    semToks (argTree s) = argsOf s := by
  obtain ⟨f, l, r, e, _⟩ := stmt_args' h hs
  simp [argsOf, e]

/-! ## Parameters -/

/-- The record for a parameter, given those before it. -/
def paramRec (o : Opts) (q : List Token × Token) : List Call :=
  if q.2.type ≠ .word then [.record ⟨S "E0109", tokStart q.2, [q.2.spelling]⟩]
  else if repeats q then [.record ⟨S "E0108", tokStart q.2, [q.2.spelling]⟩]
  else if repeatsAnyCase q then [.record ⟨S "C0202", tokStart q.2, [q.2.spelling]⟩]
  else if !o.reMatch o.argumentVar q.2.spelling then
    [.record ⟨S "C0103", tokStart q.2, [S "argument", q.2.spelling, o.argumentVar]⟩]
  else []

theorem checkParams_eq (o : Opts) : ∀ (ts e : List Token) (seen uncased : List Str),
    (∀ x, seen.contains x = e.any fun u => u.type == .word && u.spelling == x) →
    (∀ x, uncased.contains x = e.any fun u => u.type == .word && lower u.spelling == x) →
    checkParams o seen uncased ts = (withEarlier e (ts.takeWhile fun t => t.type != .rparen)).flatMap (paramRec o)
  | [], e, seen, uncased, _, _ => by simp [checkParams, withEarlier]
  | t :: ts, e, seen, uncased, h1, h2 => by
    unfold checkParams
    by_cases hr : t.type = .rparen
    · simp [hr, withEarlier]
    · rw [if_neg hr, List.takeWhile_cons_of_pos (by simpa using hr), withEarlier, List.flatMap_cons]
      by_cases hw : t.type = .word
      · rw [if_neg (by simp [hw])]
        have ih := checkParams_eq o ts (e ++ [t]) (t.spelling :: seen) (lower t.spelling :: uncased)
          (by intro x
              have := h1 x
              simp only [List.contains_cons, this, List.any_append, List.any_cons, List.any_nil, hw, Bool.or_false,
                beq_self_eq_true, Bool.true_and]
              rw [Bool.or_comm, show (x == t.spelling) = (t.spelling == x) from Bool.beq_comm])
          (by intro x
              have := h2 x
              simp only [List.contains_cons, this, List.any_append, List.any_cons, List.any_nil, hw, Bool.or_false,
                beq_self_eq_true, Bool.true_and]
              rw [Bool.or_comm, show (x == lower t.spelling) = (lower t.spelling == x) from Bool.beq_comm])
        dsimp only
        rw [ih]
        congr 1
        simp only [paramRec, hw, ne_eq, not_true_eq_false, if_false, repeats, repeatsAnyCase, beq_self_eq_true, Bool.true_and,
          h1, h2]
        rfl
      · rw [if_pos hw]
        have ih := checkParams_eq o ts (e ++ [t]) seen uncased (by intro x; rw [h1]; simp [hw]) (by intro x; rw [h2]; simp [hw])
        rw [ih, paramRec, if_pos hw]
        rfl

/-- The records for the parameters of a definition. -/
def paramsRec (o : Opts) (s : Node) : List Call :=
  (withEarlier [] (properParams s)).flatMap (paramRec o) ++
  (if ((paramsOf s).length : Int) > o.maxArguments then
    [.record ⟨S "R0913", startOf s, [natStr (paramsOf s).length, intStr o.maxArguments]⟩] else [])

theorem argNames_eq {o : Opts} {ctx : Parse.Ctx} {ts : List Token} {tree s : Node} (h : parse ctx ts = .ok tree)
    (hs : s ∈ stmtsOf tree) : checkArgNames o s = paramsRec o s := by
  have hx : ∃ x, Stmt x s := by
    obtain ⟨a0, cs0, c0, e0, hseq⟩ := parse_seq h
    rw [e0, show stmtsOf (.node .body a0 cs0) = stmtsL cs0 by simp [stmtsOf]] at hs
    exact seq_stmts hseq _ hs
  obtain ⟨x, hx⟩ := hx
  simp only [checkArgNames, paramsRec, stmt_args h hs, stmt_startOf hx, properParams, paramsOf]
  rw [checkParams_eq o _ [] [] [] (by simp) (by simp)]

/-- The commands of places are commands. -/
theorem places_mem : ∀ (l : List Node) (st : List Str), ∀ p ∈ places st l, p.cmd ∈ l
  | [], st, p, hp => by simp [places] at hp
  | s :: l, st, p, hp => by
    simp only [places, List.mem_cons] at hp
    rcases hp with rfl | hp
    · simp
    · exact List.mem_cons_of_mem _ (places_mem l _ p hp)

/-- The codes for parameters, but for naming conventions. -/
def paramCodes : List Str := [S "E0109", S "E0108", S "C0202", S "R0913"]

theorem notIn {cs l : List Str} {code : Str} (hc : code ∈ cs) (h : ∀ x ∈ cs, x ∉ l) : code ∉ l := h code hc

theorem flatMap_congr {α β : Type} {l : List α} {f g : α → List β} (h : ∀ a ∈ l, f a = g a) : l.flatMap f = l.flatMap g := by
  induction l with
  | nil => rfl
  | cons a l ih => simp [h a (by simp), ih fun b hb => h b (by simp [hb])]

theorem defn_params {o : Opts} {p : Str} {s b : Node} {c : List Call} {code : Str} (hc : code ∈ paramCodes)
    (h : checkDefn o p s b = .ok c) : only code c = only code (checkArgNames o s) := by
  simp only [checkDefn, res_bind, res_pure] at h
  obtain ⟨c1, h1, c2, h2, line, hl, rfl⟩ := h
  have n1 : code ∉ [S "C0201"] := notIn hc (by decide)
  have n2 : code ∉ [S "C0103"] := notIn hc (by decide)
  have n3 : code ∉ [S "R0911"] := notIn hc (by decide)
  have n4 : code ∉ [S "R0912"] := notIn hc (by decide)
  have n5 : code ∉ [S "R0915"] := notIn hc (by decide)
  rw [only_append, only_append, only_append, only_append, only_append, (custom_codes h1).only n1, (defName_codes h2).only n2,
    (count_codes _ _ _ _).only n3, (count_codes _ _ _ _).only n4, (count_codes _ _ _ _).only n5]
  simp

/-- The names of definitions. -/
def defNames : List Str := [S "function", S "macro"]

theorem blockOf_zero {stmt : Node} {l : List Node} {ob : Node × Node} (hb : blockOf (stmt :: l) 0 = some ob) :
    ∃ e r, l = ob.2 :: e :: r := by
  match l, hb with
  | [], hb => simp [blockOf] at hb
  | [_], hb => simp [blockOf] at hb
  | b :: e :: r, hb =>
    simp only [blockOf, if_true, Nat.mul_zero, Nat.zero_add, List.getElem?_cons_zero, List.getElem?_cons_succ,
      Option.some.injEq] at hb
    rw [← hb]
    exact ⟨e, r, rfl⟩

theorem flow_params {o : Opts} {kids : List Node} {c : List Call} {code : Str} (hc : code ∈ paramCodes)
    (h : checkFlow o kids = .ok c) : only code c = openFlow defNames (fun s => only code (checkArgNames o s)) kids := by
  unfold checkFlow at h
  split at h
  · simp at h
  · rename_i stmt l
    split at h
    · rename_i hn
      split at h
      · simp at h
      · rename_i o' b hb
        obtain ⟨e, r, rfl⟩ := blockOf_zero hb
        rw [defn_params hc h]
        simp [openFlow, hn, defNames]
    · split at h
      · rename_i hn
        split at h
        · simp at h
        · rename_i o' b hb
          obtain ⟨e, r, rfl⟩ := blockOf_zero hb
          rw [defn_params hc h]
          simp [openFlow, hn, defNames]
      · rename_i n1 n2
        have z : openFlow defNames (fun s => only code (checkArgNames o s)) (stmt :: l) = [] := by
          unfold openFlow
          split
          · rename_i e
            simp only [List.cons.injEq] at e
            obtain ⟨rfl, rfl⟩ := e
            simp [n1, n2, defNames]
          · rfl
        rw [z]
        split at h
        · exact (foreach_codes h).only (notIn hc (by decide))
        · simp only [Except.ok.injEq] at h
          subst h
          rfl

/-- The records of the codes for parameters. -/
theorem params_calls {o : Opts} {ctx : Parse.Ctx} {ts : List Token} {tree : Node} {calls : List Call} {code : Str}
    (hc : code ∈ paramCodes) (hp : parse ctx ts = .ok tree) (h : checkParseTree o tree = .ok calls) :
    (only code calls).Perm ((places [] (stmtsOf tree)).flatMap (openRec defNames fun s => only code (paramsRec o s))) := by
  have e : ((places [] (stmtsOf tree)).flatMap (openRec defNames fun s => only code (paramsRec o s))) =
      (places [] (stmtsOf tree)).flatMap (openRec defNames fun s => only code (checkArgNames o s)) := by
    refine flatMap_congr fun p hm => ?_
    simp only [openRec, argNames_eq hp (places_mem _ _ p hm)]
  rw [e]
  refine List.Perm.trans (.of_eq ?_) (tree_link (open_link (names := defNames) _ (by decide)) hp).symm
  refine loud_calls ⟨fun e => notIn (l := [S "C0307"]) hc (by decide) (by simp [e]), fun e => notIn (l := [S "W0105"]) hc (by decide) (by simp [e]), notIn hc (by decide)⟩ h ?_
  intro v hv c e
  rcases loud_types hv with ⟨a, cs, ev⟩ | ⟨a, cs, ev⟩ | ⟨a, cs, ev⟩ <;> rw [ev] at e ⊢ <;> simp only [checkNode] at e ⊢
  · rw [itemsOf_nil]
    exact (body_codes e).only (notIn hc (by decide))
  · exact flow_params hc e
  · exact (statement_codes e).only (notIn hc (by decide))

end Verif.Lint
