import Verif.LintList
import Verif.LintLinks
import Verif.LintMade
import Verif.Props.Lex

/-!
# The naming checks (lemmas for C79)
-/

namespace Verif.Lint
open Verif Py Lex Parse

/-! ## Arguments without comments and parentheses -/

theorem dropWhile_pre {α : Type} {p : α → Bool} {a b : List α} {x : α} (h : ∀ y ∈ a, p y = true) (hx : p x = false) :
    (a ++ x :: b).dropWhile p = x :: b := by
  induction a with
  | nil => simp [hx]
  | cons y a ih => simp [h y (by simp), ih fun z hz => h z (by simp [hz])]

theorem toksL_kid {y : Token} : ∀ {cs : List Node}, y ∈ toksL cs → ∃ c ∈ cs, y ∈ c.toks
  | [], h => by simp [toksL] at h
  | c :: cs, h => by
    rw [toksL_cons, List.mem_append] at h
    rcases h with h | h
    · exact ⟨c, by simp, h⟩
    · obtain ⟨d, hd, h⟩ := toksL_kid h
      exact ⟨d, by simp [hd], h⟩

/-- The argument tree is between the parentheses. -/
theorem stmt_between {ctx : Parse.Ctx} {ts : List Token} {tree s : Node} (h : parse ctx ts = .ok tree) (hs : s ∈ stmtsOf tree) :
    ∀ u ∈ (argTree s).toks, u ∈ between s := by
  obtain ⟨h1, a, cs, rfl⟩ := Props.Groups.stmtsOf_sub tree hs
  obtain ⟨hneat, _⟩ := parse_neat (ctx := ctx) h
  have hall : Neat ctx (.node .statement a cs) := by
    intro m hm
    have tr : ∀ {x y z : Node}, Sub x y → Sub y z → Sub x z := by
      intro x y z hxy hyz
      induction hyz with
      | refl => exact hxy
      | child hc _ ih => exact .child hc ih
    exact hneat m (tr hm h1)
  have hkids := (neat_node.1 hall).2
  obtain ⟨f, l, r, ws, ws1, sub, mid, trail, rfl, w1, w2, hg, hm, ht, _⟩ := (neat_node.1 hall).1
  have ke : ∀ x, x ∈ trail ∨ x = mk .funname [.tok f] ∨ x = mk .lparen [.tok l] ∨ x = mk .rparen [.tok r] → Neat ctx x := by
    intro x hx
    apply hkids
    simp only [List.mem_append, List.mem_singleton]
    rcases hx with hx | hx | hx | hx <;> simp [hx]
  have hf : f.type = .word := by
    obtain ⟨t, e, ht⟩ := (neat_node.1 (ke (mk .funname [.tok f]) (by simp))).1
    simp only [List.cons.injEq, Node.tok.injEq, and_true] at e
    rw [e]; exact ht
  have hl : l.type = .lparen := by
    obtain ⟨t, e, ht⟩ := (neat_node.1 (ke (mk .lparen [.tok l]) (by simp))).1
    simp only [List.cons.injEq, Node.tok.injEq, and_true] at e
    rw [e]; exact ht
  have hr : r.type = .rparen := by
    obtain ⟨t, e, ht⟩ := (neat_node.1 (ke (mk .rparen [.tok r]) (by simp))).1
    simp only [List.cons.injEq, Node.tok.injEq, and_true] at e
    rw [e]; exact ht
  have hsub : isNode sub = true := by
    cases sub with
    | tok t => exact absurd hg (by simp [Grp])
    | node => rfl
  have harg : argTree (.node .statement a ([mk .funname [.tok f]] ++ leaves ws ++ [mk .lparen [.tok l]] ++ leaves ws1 ++ [sub] ++
      mid ++ [mk .rparen [.tok r]] ++ trail)) = sub := by
    have i1 : ∀ ty at_ ds, isNode (.node ty at_ ds) = true := fun _ _ _ => rfl
    simp only [argTree, kidsOf, List.filter_append, filter_leaves, List.filter_cons, hsub, i1, mk, if_true, List.filter_nil]
    simp
  rw [harg]
  have noText : ∀ {t : Token}, isWs t = true ∨ isAnyComment t = true → (t.type != .lparen) = true ∧ (t.type != .rparen) = true := by
    intro t ht
    revert ht
    unfold isWs isAnyComment
    cases t.type <;> decide
  have e : (Node.node .statement a ([mk .funname [.tok f]] ++ leaves ws ++ [mk .lparen [.tok l]] ++ leaves ws1 ++ [sub] ++
      mid ++ [mk .rparen [.tok r]] ++ trail)).toks =
      (f :: ws) ++ l :: ((ws1 ++ sub.toks ++ toksL mid) ++ r :: toksL trail) := by
    simp [Node.toks, toksL_append, toksL, mk]
  intro u hu
  unfold between
  rw [e, dropWhile_pre (by
    intro y hy
    rcases List.mem_cons.1 hy with rfl | hy
    · simp [hf]
    · exact (noText (Or.inl (w1 y hy))).1) (by simp [hl])]
  simp only [List.drop_succ_cons, List.drop_zero, List.reverse_append, List.reverse_cons, List.append_assoc, List.cons_append,
    List.nil_append]
  rw [dropWhile_pre (by
    intro y hy
    rw [List.mem_reverse] at hy
    obtain ⟨c, hc, hy⟩ := toksL_kid hy
    exact (noText (trail_noText (fun c hc => ke c (by simp [hc])) ht c hc y hy)).2) (by simp [hr])]
  simp
  exact Or.inr (Or.inl hu)

/-- Arguments without parentheses. -/
theorem simple_tame {ctx : Parse.Ctx} {ts : List Token} {tree s : Node} (h : parse ctx ts = .ok tree) (hs : s ∈ stmtsOf tree)
    (hsh : ∀ u ∈ s.toks, Props.Lex.Shape u.type u.spelling) (hsi : simpleArgs s = true) : ∀ u ∈ (argTree s).toks, TameTok u := by
  intro u hu
  have hb := stmt_between h hs u hu
  have hin : u ∈ s.toks := by
    unfold between at hb
    have := List.mem_reverse.1 hb
    have := (List.dropWhile_suffix _).mem (List.mem_of_mem_drop this)
    exact (List.dropWhile_suffix _).mem (List.mem_of_mem_drop (List.mem_reverse.1 this))
  have := hsh u hin
  unfold simpleArgs at hsi
  have hk := List.all_eq_true.1 hsi u hb
  simp only [List.contains_eq_mem, List.mem_cons, List.not_mem_nil, or_false, Bool.not_eq_true', decide_eq_false_iff_not, not_or] at hk
  refine ⟨hk.1, hk.2, ?_, ?_⟩
  · intro hd
    rw [hd] at this
    obtain ⟨c, cs, e, _⟩ := this
    rw [e]
    rfl
  · intro hw
    have quiet : ∀ w : Str, (∃ c, w.head? = some c ∧ isUpper c = true) → upper u.spelling ≠ w := by
      rintro w ⟨c, hc, hcu⟩ e
      have he : (upper u.spelling).head? = some c := by rw [e]; exact hc
      have hty : u.type = .whitespace ∨ u.type = .newline ∨ u.type = .comment ∨ u.type = .bracketComment ∨ u.type = .formatOff ∨
          u.type = .formatOn := by
        revert hw
        unfold isSemantic isWs isAnyComment isOnOff
        cases u.type <;> decide
      have hash : u.spelling.head? = some '#' → False := by
        intro hs
        cases hsp : u.spelling with
        | nil => rw [hsp] at hs; cases hs
        | cons d ds =>
          rw [hsp] at hs he
          simp only [List.head?_cons, Option.some.injEq] at hs
          subst hs
          simp only [upper, List.map_cons, List.head?_cons, Option.some.injEq] at he
          rw [← he] at hcu
          revert hcu
          decide
      rcases hty with hty | hty | hty | hty | hty | hty <;> rw [hty] at this
      · obtain ⟨h1, h2⟩ := this
        cases hsp : u.spelling with
        | nil => exact h1 hsp
        | cons d ds =>
          have := h2 d (by rw [hsp]; simp)
          rw [hsp] at he
          have hd : d = ' ' ∨ d = '\t' ∨ d = '\x0b' ∨ d = '\x0c' := by simpa [S] using this
          simp only [upper, List.map_cons, List.head?_cons, Option.some.injEq] at he
          rw [← he] at hcu
          rcases hd with rfl | rfl | rfl | rfl <;> revert hcu <;> decide
      · have nl : ∀ s ∈ [S "\n", S "\r\n", S "\r"], (upper s).head?.map isUpper = some false := by decide
        have := nl u.spelling (by
          simp only [List.mem_cons, List.not_mem_nil, or_false]
          exact this)
        rw [he] at this
        simp [hcu] at this
      · obtain ⟨_, e1, _⟩ := this
        exact hash (by rw [e1]; rfl)
      · obtain ⟨_, _, e1, _⟩ := this
        exact hash (by rw [e1]; rfl)
      · obtain ⟨_, _, _, e1, _⟩ := this
        exact hash (by rw [e1]; rfl)
      · obtain ⟨_, _, _, e1, _⟩ := this
        exact hash (by rw [e1]; rfl)
    exact ⟨quiet _ ⟨'C', rfl, rfl⟩, quiet _ ⟨'P', rfl, rfl⟩⟩

/-! ## Where assignments go -/

/-- **The walk up from an assignment finds the innermost definition.** -/
theorem scope_blocks {anc : List Frame} (h : ∀ f ∈ anc, GoodFrame f) : ∀ sc, scopeAbove anc = .ok sc → sc = (homeIn (stackOf anc)).scope := by
  induction anc with
  | nil =>
    intro sc hs
    simp only [scopeAbove, Except.ok.injEq] at hs
    rw [← hs]
    rfl
  | cons f fs ih =>
    intro sc hs
    have ih := ih fun g hg => h g (List.mem_cons_of_mem _ hg)
    have hf := h f (by simp)
    unfold scopeAbove at hs
    unfold stackOf
    have skip : ∀ x ∈ ifNames, [c! "function", c! "macro"].contains x = false := by decide
    by_cases hty : f.ty = .flowControl
    · have hi := (hf hty).1
      rw [if_pos hty] at hs
      rw [if_pos ⟨hty, hi⟩]
      have hb := good_blockName hf hty
      unfold blockName at hb
      split at hs
      · simp at hs
      · rename_i o b e
        rw [e] at hb
        simp only [Option.map_some, Option.some.injEq] at hb
        rcases hb with hb | ⟨h1, h2⟩
        · rw [hb] at hs
          unfold homeIn
          rw [List.find?_cons]
          split at hs
          · rename_i e1
            simp only [Except.ok.injEq] at hs
            rw [e1, ← hs]
            rfl
          · rename_i e1
            split at hs
            · rename_i e2
              simp only [Except.ok.injEq] at hs
              rw [e2, ← hs]
              rfl
            · rename_i e2
              have : [c! "function", c! "macro"].contains (openName f) = false := by
                simp only [List.contains_eq_mem, List.mem_cons, List.not_mem_nil, or_false, decide_eq_false_iff_not, not_or]
                exact ⟨e1, e2⟩
              rw [this]
              exact ih sc hs
        · have h2 := h2 _ rfl
          have z : homeIn (openName f :: stackOf fs) = homeIn (stackOf fs) := by
            unfold homeIn
            rw [List.find?_cons, skip _ h1]
          rw [z]
          apply ih
          rw [if_neg, if_neg] at hs
          · exact hs
          · intro e
            rw [e] at h2
            revert h2
            decide
          · intro e
            rw [e] at h2
            revert h2
            decide
    · rw [if_neg hty] at hs
      rw [if_neg (by simp [hty])]
      exact ih sc hs

/-! ## The commands -/

/-- The commands that assign. -/
def assigners : List Str := [c! "set", c! "list"]

theorem assigner_names : ∀ p ∈ assigners,
    ((Tables.builtins ++ Tables.modules).reverse.find? fun nd => nd.1 = p) = none ∧ flowTable.lookup p = none := by
  decide +kernel

theorem assigner_lookup {user : Spec} {explicit : Str → Bool} {vt : List ((Str → Bool) × List Str)} {name : Str}
    {p : ArgP} (h : lower name ∈ assigners) (hu : (userNames user).contains (lower name) = false)
    (hp : funTable.lookup (lower name) = some p) : lookupParser (commandCtx user explicit vt) name = p := by
  have e : (commandCtx user explicit vt).db (lower name) = some p := by
    show commandDb user (lower name) = some p
    have : user.kwargs.lookup (lower name) = none := lookup_absent (by simpa [userNames] using hu)
    obtain ⟨h1, h2⟩ := assigner_names _ h
    rw [commandDb_eq, this, builtinDb, builtinOf_eq, stdSpec_lookup, std_declared, h1]
    simp only [Option.map_none]
    rw [h2]
    exact hp
  unfold lookupParser
  rw [e]

theorem command_flat (user : Spec) (explicit : Str → Bool) (vt : List ((Str → Bool) × List Str)) :
    ∀ name, Flat (lookupParser (commandCtx user explicit vt) name) := by
  intro name
  have e : lookupParser (commandCtx user explicit vt) name = registered (commandCtx user explicit vt) name := by
    simp only [lookupParser, registered]
    cases (commandCtx user explicit vt).db (lower name) with
    | some p => rfl
    | none => cases (commandCtx user explicit vt).db (S "_default") <;> rfl
  rw [e]
  exact (registered_entry user explicit vt name).1.flat

/-- The check of an assignment, by what the command says. -/
def assignCalls (o : Opts) (p : Place) : List Call :=
  match assignment p with
  | none => []
  | some (t, home) => checkAssigned o home.scope t

/-- **The check of an assignment.** -/
theorem assignment_eq {user : Spec} {explicit : Str → Bool} {vt : List ((Str → Bool) × List Str)} {ts : List Token} {tree s : Node}
    (hp : parse (commandCtx user explicit vt) ts = .ok tree) (hs : s ∈ stmtsOf tree)
    (hu : ∀ n ∈ assigners, (userNames user).contains n = false) (hn : nameOf s ∈ assigners) (hf : funName s = nameOf s)
    (ht : ∀ u ∈ (argTree s).toks, TameTok u) {anc : List Frame} (hg : ∀ f ∈ anc, GoodFrame f) {o : Opts} {c : List Call}
    (h : checkAssignment o anc s = .ok c) (later : List Node) : c = assignCalls o ⟨s, stackOf anc, later⟩ := by
  obtain ⟨n, name, us, rest, e1, e2⟩ := args_exec (parse_made hp s hs)
  rw [hf] at e1
  rw [e1] at hn
  simp only [checkAssignment, res_bind] at h
  obtain ⟨sc, hsc, h⟩ := h
  have hb := scope_blocks hg
  simp only [assigners, List.mem_cons, List.not_mem_nil, or_false] at hn
  rcases hn with hn | hn
  · rw [assigner_lookup (p := .setFn) (by rw [hn]; decide) (hu _ (by rw [hn]; decide)) (by rw [hn]; rfl)] at e2
    obtain ⟨pre, g, ks, k1, k2, k3, k4, k5⟩ := set_tree (command_flat user explicit vt) e2 ht
    dsimp only at k5
    rw [hf, e1, hn, if_pos (by decide), show roleOf (argTree s) = .set by rw [k5]; rfl, if_pos rfl] at h
    obtain ⟨t, k3⟩ : ∃ t, semToks g = [t] := by
      rcases k3 with k3 | ⟨k3, _⟩
      · exact k3
      · rw [k5, set_var k1 k2, k3] at h
        cases h
    obtain ⟨r1, r2, r3⟩ := set_scope k1 k2 k3 k4 k5 hb hsc
    rw [r2] at h
    simp only [res_pure] at h
    rw [← h, assignCalls, assignment, if_pos (by rw [e1, hn]), ← stmt_args hp hs, r3, r1]
    rfl
  · rw [assigner_lookup (p := listFn) (by rw [hn]; decide) (hu _ (by rw [hn]; decide)) (by rw [hn]; rfl)] at e2
    rw [hf, e1, hn, if_neg (by decide)] at h
    simp only [res_bind] at h
    obtain ⟨v, hv, h⟩ := h
    have hr := list_outvar e2 ht hv
    have hro : roleOf (argTree s) ≠ .set := by
      intro e
      simp only [listOutvar, res_bind, firstGroup, e] at hv
      obtain ⟨_, hv, _⟩ := hv
      rw [if_neg (by decide)] at hv
      cases hv
    have hsc' : scopeAbove anc = .ok sc := by
      simpa only [scopeOf, if_neg hro] using hsc
    rw [assignCalls, assignment, if_neg (by rw [e1, hn]; decide), if_pos (by rw [e1, hn]), ← stmt_args hp hs, ← hr]
    cases v with
    | none =>
      simp only [res_pure] at h
      rw [← h]
      rfl
    | some t =>
      simp only [res_pure] at h
      rw [← h, hb _ hsc']
      rfl

/-! ## The openings of blocks -/

/-- The commands whose opening is checked for names. -/
def openNames : List Str := [S "function", S "macro", S "foreach"]

/-- What the check of an opening records about names. -/
def openCalls (o : Opts) (s : Node) : List Call :=
  if funName s = S "function" then callsOf (checkDefName o o.functionPattern s) ++ only (S "C0103") (checkArgNames o s)
  else if funName s = S "macro" then callsOf (checkDefName o o.macroPattern s) ++ only (S "C0103") (checkArgNames o s)
  else callsOf (checkForeach o s)

theorem defn_names {o : Opts} {p : Str} {s b : Node} {c : List Call} (h : checkDefn o p s b = .ok c) :
    only (S "C0103") c = callsOf (checkDefName o p s) ++ only (S "C0103") (checkArgNames o s) := by
  simp only [checkDefn, res_bind, res_pure] at h
  obtain ⟨c1, h1, c2, h2, line, hl, rfl⟩ := h
  rw [only_append, only_append, only_append, only_append, only_append, (custom_codes h1).only (by decide),
    (count_codes _ _ _ _).only (by decide), (count_codes _ _ _ _).only (by decide), (count_codes _ _ _ _).only (by decide), h2]
  have : only (S "C0103") c2 = c2 := by
    unfold checkDefName at h2
    split at h2
    · simp only [Except.ok.injEq] at h2
      rw [← h2]
      split
      · rfl
      · rfl
    · simp at h2
  simp [this]

theorem foreach_names {o : Opts} {s : Node} {c : List Call} (h : checkForeach o s = .ok c) :
    only (S "C0103") c = callsOf (checkForeach o s) := by
  rw [h]
  unfold checkForeach at h
  split at h
  · simp only [Except.ok.injEq] at h
    rw [← h]
    split
    · rfl
    · rfl
  · simp at h

theorem flow_names {o : Opts} {kids : List Node} {c : List Call} (hk : FlowShape kids)
    (h : checkFlow o kids = .ok c) : only (S "C0103") c = openFlow openNames (openCalls o) kids := by
  unfold checkFlow at h
  split at h
  · simp at h
  · rename_i stmt l
    split at h
    · rename_i hn
      split at h
      · simp at h
      · rename_i o' b hb
        obtain ⟨e, r, rfl⟩ := blockOf_zero hb
        rw [defn_names h]
        simp [openFlow, hn, openNames, openCalls]
    · rename_i n1
      split at h
      · rename_i hn
        split at h
        · simp at h
        · rename_i o' b hb
          obtain ⟨e, r, rfl⟩ := blockOf_zero hb
          rw [defn_names h]
          simp only [openFlow, hn, openNames, openCalls]
          rfl
      · rename_i n2
        split at h
        · rename_i hn
          rw [foreach_names h]
          cases hk with
          | ifBlock h1 _ _ =>
            exfalso
            revert h1 hn
            unfold stmtName
            split
            · rename_i a t cs
              intro hn h1
              simp only [Option.some.injEq] at h1
              simp only [funName] at hn
              rw [← Layout.lower_upper, h1] at hn
              revert hn
              decide
            · simp
          | loop =>
            simp only [openFlow, hn, openNames, openCalls]
            rfl
        · rename_i n3
          simp only [Except.ok.injEq] at h
          subst h
          unfold openFlow
          split
          · rename_i e
            simp only [List.cons.injEq] at e
            obtain ⟨rfl, rfl⟩ := e
            simp [n1, n2, n3, openNames]
          · rfl

theorem flatMap_split {α β : Type} (f g : α → List β) (l : List α) : (l.flatMap fun a => f a ++ g a).Perm (l.flatMap f ++ l.flatMap g) := by
  induction l with
  | nil => simp
  | cons a l ih =>
    simp only [List.flatMap_cons]
    refine ((List.Perm.append_left _ ih).trans ?_)
    simp only [List.append_assoc]
    refine List.Perm.append_left _ ?_
    rw [← List.append_assoc, ← List.append_assoc]
    exact List.Perm.append_right _ List.perm_append_comm

/-- The visited statements are the commands. -/
theorem stmt_visits {ctx : Parse.Ctx} {ts : List Token} {tree : Node} (hp : parse ctx ts = .ok tree) {β : Type} (f : Node → List Str → List β) :
    ((loud (visits [] tree)).flatMap fun v => if hasType .statement v.2 then f v.2 (stackOf v.1) else []) =
      (places [] (stmtsOf tree)).flatMap fun p => f p.cmd p.blocks := by
  have h1 : ∀ (vs : List (List Frame × Node)), (vs.flatMap fun v => if hasType .statement v.2 then f v.2 (stackOf v.1) else []) =
      ((vs.filter fun v => hasType .statement v.2).map fun v => (v.2, stackOf v.1)).flatMap fun q => f q.1 q.2 := by
    intro vs
    induction vs with
    | nil => rfl
    | cons v vs ih =>
      rw [List.flatMap_cons, ih]
      cases hs : hasType .statement v.2 <;> simp [hs]
  have h2 : ((loud (visits [] tree)).filter fun v => hasType .statement v.2).map (fun v => (v.2, stackOf v.1)) =
      cmdBlocks [] (stmtsOf tree) := (tree_flat hp).symm
  rw [h1, h2]
  simp [cmdBlocks, List.flatMap_map]

/-- A visited statement is a command. -/
theorem visit_stmt {ctx : Parse.Ctx} {ts : List Token} {tree : Node} (hp : parse ctx ts = .ok tree) {v : List Frame × Node}
    (hv : v ∈ loud (visits [] tree)) (hst : hasType .statement v.2 = true) : v.2 ∈ stmtsOf tree := by
  have h1 : (v.2, stackOf v.1) ∈ stmtsAt (visits [] tree) := by
    simp only [stmtsAt, List.mem_map, List.mem_filter]
    exact ⟨v, ⟨hv, hst⟩, rfl⟩
  rw [← tree_flat hp] at h1
  simp only [cmdBlocks, List.mem_map] at h1
  obtain ⟨p, hm, e⟩ := h1
  have e1 : p.cmd = v.2 := congrArg Prod.fst e
  rw [← e1]
  exact places_mem _ _ p hm

theorem stmt_of {ctx : Parse.Ctx} {ts : List Token} {tree s : Node} (hp : parse ctx ts = .ok tree) (hs : s ∈ stmtsOf tree) : ∃ x, Stmt x s := by
  obtain ⟨a0, cs0, c0, e0, hseq⟩ := parse_seq hp
  rw [e0, show stmtsOf (.node .body a0 cs0) = stmtsL cs0 by simp [stmtsOf]] at hs
  exact seq_stmts hseq _ hs

/-- The records about names. -/
theorem names_calls {user : Spec} {explicit : Str → Bool} {vt : List ((Str → Bool) × List Str)} {ts : List Token} {tree : Node}
    {o : Opts} {calls : List Call} (hp : parse (commandCtx user explicit vt) ts = .ok tree)
    (hu : ∀ n ∈ assigners, (userNames user).contains n = false)
    (ht : ∀ s ∈ stmtsOf tree, nameOf s ∈ assigners → ∀ u ∈ (argTree s).toks, TameTok u)
    (h : checkParseTree o tree = .ok calls) :
    (only (S "C0103") calls).Perm ((places [] (stmtsOf tree)).flatMap fun p => openRec openNames (openCalls o) p ++ assignCalls o p) := by
  have step : only (S "C0103") calls = (loud (visits [] tree)).flatMap fun v =>
      (match v.2 with
        | .node .body _ cs => itemsOf (fun _ _ => []) cs
        | .node .flowControl _ cs => openFlow openNames (openCalls o) cs
        | _ => []) ++ (if hasType .statement v.2 then assignCalls o ⟨v.2, stackOf v.1, []⟩ else []) := by
    refine loud_calls ⟨by decide, by decide, by decide⟩ h ?_
    intro v hv c e
    have hfit := tree_fit hp v hv
    rcases loud_types hv with ⟨a, cs, ev⟩ | ⟨a, cs, ev⟩ | ⟨a, cs, ev⟩ <;> rw [ev] at e <;> simp only [checkNode] at e
    · rw [ev]
      simp only [itemsOf_nil]
      exact (body_codes e).only (by decide)
    · have hsh : FlowShape cs := by
        have := Props.Parse.tree_well_formed _ _ _ hp v.2 (visits_sub _ _ _ (List.mem_filter.1 hv).1)
        rw [ev] at this
        exact this
      rw [ev]
      simp only [hasType]
      rw [flow_names hsh e]
      simp
    · have hst : hasType .statement v.2 = true := by rw [ev]; rfl
      have hmem := visit_stmt hp hv hst
      obtain ⟨x, hx⟩ := stmt_of hp hmem
      have hnf : funName v.2 = nameOf v.2 := by rw [stmt_funName hx, stmt_nameOf hx]
      rw [if_pos hst]
      rw [← ev] at e
      have z : (match v.2 with
        | .node .body _ cs => itemsOf (fun _ _ => []) cs
        | .node .flowControl _ cs => openFlow openNames (openCalls o) cs
        | _ => ([] : List Call)) = [] := by rw [ev]
      rw [z, List.nil_append]
      unfold checkStatement at e
      have other : nameOf v.2 ∉ assigners → assignCalls o ⟨v.2, stackOf v.1, []⟩ = [] := by
        intro hn
        simp only [assigners, List.mem_cons, List.not_mem_nil, or_false, not_or] at hn
        rw [assignCalls, assignment, if_neg hn.1, if_neg hn.2]
      split at e
      · rename_i hb
        simp only [Except.ok.injEq] at e
        subst e
        rw [other]
        · unfold checkInLoop
          split
          · rfl
          · rfl
        · rw [hnf] at hb
          intro hn
          simp only [List.contains_eq_mem, List.mem_cons, List.not_mem_nil, or_false, decide_eq_true_eq] at hb
          rcases hb with e | e <;> rw [e] at hn <;> revert hn <;> decide
      · split at e
        · rename_i hb
          have hn : nameOf v.2 ∈ assigners := by
            rw [hnf] at hb
            have : nameOf v.2 = S "set" ∨ nameOf v.2 = S "list" := by simpa using hb
            simp only [assigners, List.mem_cons, List.not_mem_nil, or_false]
            exact this
          have hgood : ∀ f ∈ v.1, GoodFrame f := by
            rcases hfit hst with hn' | hg
            · exfalso
              revert hn'
              simp only [assigners, List.mem_cons, List.not_mem_nil, or_false] at hn
              rcases hn with e | e <;> rw [e] <;> decide
            · exact hg
          rw [assignment_eq hp hmem hu hn hnf (ht _ hmem hn) hgood e []]
          unfold assignCalls
          split
          · rfl
          · unfold checkAssigned
            dsimp only
            split
            · rfl
            · split <;> rfl
        · rename_i hb
          simp only [Except.ok.injEq] at e
          subst e
          rw [other]
          · rfl
          · rw [hnf] at hb
            have : ¬ nameOf v.2 = S "set" ∧ ¬ nameOf v.2 = S "list" := by simpa using hb
            simp only [assigners, List.mem_cons, List.not_mem_nil, or_false, not_or]
            exact this
  rw [step]
  refine (flatMap_split _ _ _).trans (List.Perm.trans ?_ (flatMap_split _ _ _).symm)
  refine List.Perm.append ?_ ?_
  · exact (tree_link (open_link (names := openNames) (openCalls o) (by decide)) hp).symm
  · rw [stmt_visits hp fun s st => assignCalls o ⟨s, st, []⟩]
    exact .of_eq rfl

end Verif.Lint
