import Verif.LintDead

/-!
# The records of each code, command by command (lemmas for the lint checks)
-/

namespace Verif.Lint
open Verif Py Lex Parse

theorem flatMap_loud {β : Type} {vs : List (List Frame × Node)} {f h : List Frame × Node → List β}
    (h1 : ∀ v ∈ vs, quiet v.2 = true → f v = []) (h2 : ∀ v ∈ loud vs, f v = h v) : vs.flatMap f = (loud vs).flatMap h := by
  induction vs with
  | nil => simp [loud]
  | cons v vs ih =>
    have ih := ih (fun u hu => h1 u (by simp [hu])) (fun u hu => h2 u (by
      simp only [loud, List.mem_filter] at hu ⊢
      exact ⟨List.mem_cons_of_mem _ hu.1, hu.2⟩))
    cases hq : quiet v.2 with
    | true => simp [loud, hq, h1 v (by simp) hq] at ih ⊢; exact ih
    | false =>
      have := h2 v (by simp [loud, hq])
      simp only [loud, List.filter_cons, hq, Bool.not_false, if_true, List.flatMap_cons, this] at ih ⊢
      rw [ih]

/-- Codes of the checks of quiet nodes. -/
def quietCodes : List Str := [S "E0011", S "E0012", [], S "E1120", S "E1122"]

theorem quiet_codes {o : Opts} {v : List Frame × Node} (hq : quiet v.2 = true) : Codes quietCodes (callsOf (checkNode o v.1 v.2)) := by
  have key : ∀ {cs : List Str} {r : Res (List Call)}, (∀ c, r = .ok c → Codes cs c) → (∀ x ∈ cs, x ∈ quietCodes) →
      Codes quietCodes (callsOf r) := by
    intro cs r h hs
    cases r with
    | error e => exact codes_nil _
    | ok c => exact (h c rfl).mono hs
  unfold checkNode
  split
  · exact codes_nil _
  · rename_i e; rw [e] at hq; simp [quiet, quietT] at hq
  · rename_i e; rw [e] at hq; simp [quiet, quietT] at hq
  · exact key (fun c h => keywords_codes _ _ h) (by simp [quietCodes])
  · rename_i e; rw [e] at hq; simp [quiet, quietT] at hq
  · exact key (fun c h => positional_codes h) (by simp [quietCodes])
  · split
    · exact codes_nil _
    · exact key (fun c h => comment_codes h) (by simp [quietCodes, pragmaCodes])
  · exact codes_nil _

/-- What a code of the checks of statements, bodies and blocks is. -/
structure LoudCode (code : Str) : Prop where
  indent : code ≠ S "C0307"
  vars : code ≠ S "W0105"
  quiet : code ∉ quietCodes

theorem loud_calls {o : Opts} {tree : Node} {calls : List Call} {code : Str} (hc : LoudCode code)
    (h : checkParseTree o tree = .ok calls) {f : List Frame × Node → List Call}
    (hf : ∀ v ∈ loud (visits [] tree), ∀ c, checkNode o v.1 v.2 = .ok c → only code c = f v) :
    only code calls = (loud (visits [] tree)).flatMap f := by
  obtain ⟨h1, h2⟩ := parseTree_calls hc.indent hc.vars h
  rw [h1]
  refine flatMap_loud (fun v _ hq => (quiet_codes hq).only hc.quiet) fun v hv => ?_
  obtain ⟨c, e⟩ := h2 v (List.mem_filter.1 hv).1
  rw [e]
  exact hf v hv c e

theorem loud_types {v : List Frame × Node} {vs : List (List Frame × Node)} (h : v ∈ loud vs) :
    (∃ a cs, v.2 = .node .body a cs) ∨ (∃ a cs, v.2 = .node .flowControl a cs) ∨ (∃ a cs, v.2 = .node .statement a cs) := by
  simp only [loud, List.mem_filter, Bool.not_eq_true'] at h
  obtain ⟨_, h⟩ := h
  cases e : v.2 with
  | tok t => rw [e] at h; simp [quiet] at h
  | node ty a cs =>
    rw [e] at h
    cases ty <;> simp [quiet, quietT] at h ⊢

/-! ## Dead ends -/

theorem items_reach (o : Opts) : ∀ (ns : List Node) (p0 p1 : Option Node) (supp supp' : List Str) (c : List Call),
    checkItems o p0 p1 supp ns = .ok (c, supp') → only (S "W0101") c = itemsOf checkReach ns
  | [], p0, p1, supp, supp', c, h => by
    simp only [checkItems, Except.ok.injEq, Prod.mk.injEq] at h
    rw [← h.1]
    rfl
  | .tok t :: ns, p0, p1, supp, supp', c, h => by
    simp only [checkItems] at h
    simp only [itemsOf, items_reach o ns _ _ _ _ _ h]
    simp [checkReach, isCall, hasType]
  | .node ty a cs :: ns, p0, p1, supp, supp', c, h => by
    simp only [checkItems, res_bind, res_pure] at h
    obtain ⟨⟨c1, new⟩, h1, c2, h2, ⟨more, s⟩, h3, h4⟩ := h
    simp only [Prod.mk.injEq] at h4
    obtain ⟨rfl, rfl⟩ := h4
    have k1 := (bodyComment_codes h1).only (code := S "W0101") (by decide)
    have k2 := (doc_codes h2).only (code := S "W0101") (by decide)
    have k3 := (spacing_codes o p0 (.node ty a cs)).only (code := S "W0101") (by decide)
    have k4 : only (S "W0101") (checkReach (.node ty a cs) ns) = checkReach (.node ty a cs) ns := by
      simp only [only, List.filter_eq_self, beq_iff_eq]
      intro c hc
      simpa using reach_codes _ _ c hc
    simp only [only_append, k1, k2, k3, k4, List.nil_append, itemsOf, items_reach o ns _ _ _ _ _ h3]

theorem body_reach {o : Opts} {a : Attr} {cs : List Node} {c : List Call} (h : checkBody o (.node .body a cs) = .ok c) :
    only (S "W0101") c = itemsOf checkReach cs := by
  simp only [checkBody, res_bind, res_pure] at h
  obtain ⟨⟨calls, supp⟩, h1, line, _, rfl⟩ := h
  rw [only_append, items_reach o _ _ _ _ _ _ h1]
  split
  · simp [kidsOf]
  · simp [only, codeOf, kidsOf]
    decide

/-- The record of a dead end. -/
def deadRec (p : Place) : List Call := if p.deadEnd then [.record ⟨S "W0101", startOf p.cmd, []⟩] else []

theorem dead_link : Link checkReach (fun _ => []) deadRec where
  quiet n ns h := by simp [checkReach, isCall, h]
  plain stop c x n ns K st h h1 h2 hs hf hk := by
    have hlow : (Place.mk n st (stmtsL ns ++ K)).deadEnd = ([S "break", S "continue", S "return"].contains (nameOf n) &&
        match stmtsL ns ++ K with
        | [] => false
        | next :: _ => !endsPart st (nameOf next)) := rfl
    simp only [deadRec, hlow, checkReach, isCall, stmt_type h, Bool.true_and, stmt_nameOf h, stmt_funName h, stmt_startOf h,
      later_any (seq_tidy hs)]
    cases e : stmtsL ns with
    | nil =>
      rcases hk with rfl | ⟨k, K', rfl, hk⟩
      · simp
      · simp [hk]
    | cons s l =>
      simp only [List.cons_append, head_stays hs hf e, Bool.not_false, Bool.and_true, List.isEmpty_cons, if_true]
  loop x o e b bs K st h1 h2 h3 h4 := by
    have : (Place.mk o st (stmtsL bs ++ e :: K)).deadEnd = false := by
      simp only [Place.deadEnd, stmt_nameOf h2, Bool.and_eq_false_iff]
      left
      simp only [List.mem_cons, List.not_mem_nil, or_false] at h1
      rcases h1 with rfl | rfl | rfl | rfl <;> decide
    simp [deadRec, this]
  ifs o rest K st h := by
    have : (Place.mk o st K).deadEnd = false := by
      simp only [Place.deadEnd, stmt_nameOf h, Bool.and_eq_false_iff]
      left
      decide
    simp [deadRec, this]
  mark x n st K h h1 _ := by
    have : (Place.mk n st K).deadEnd = false := by
      simp only [Place.deadEnd, stmt_nameOf h, Bool.and_eq_false_iff]
      left
      simp only [List.mem_cons, List.not_mem_nil, or_false] at h1
      rcases h1 with rfl | rfl | rfl | rfl | rfl | rfl | rfl <;> decide
    simp [deadRec, this]

theorem dead_calls {o : Opts} {ctx : Parse.Ctx} {ts : List Token} {tree : Node} {calls : List Call}
    (hp : parse ctx ts = .ok tree) (h : checkParseTree o tree = .ok calls) :
    (only (S "W0101") calls).Perm ((places [] (stmtsOf tree)).flatMap deadRec) := by
  refine List.Perm.trans (.of_eq ?_) (tree_link dead_link hp).symm
  refine loud_calls ⟨by decide, by decide, by decide⟩ h ?_
  intro v hv c e
  rcases loud_types hv with ⟨a, cs, ev⟩ | ⟨a, cs, ev⟩ | ⟨a, cs, ev⟩ <;> rw [ev] at e ⊢ <;> simp only [checkNode] at e ⊢
  · exact body_reach e
  · exact (flow_codes e).only (by decide)
  · exact (statement_codes e).only (by decide)

/-! ## Counts -/

theorem callsIn_count {names : List Str} {a : Attr} {bs : List Node} {m : Option (List Str)} {c : Bool}
    (hs : Seq m c bs) : (callsIn names (.node .body a bs)).length =
      ((stmtsL bs).filter fun s => names.contains (nameOf s)).length := by
  have ht : Tidy (.node .body a bs) := tidy_node (by simp) (seq_tidy hs)
  have := under_count ht fun s => names.contains (funName s)
  rw [show stmtsOf (.node .body a bs) = stmtsL bs by simp [stmtsOf]] at this
  unfold callsIn isCall
  rw [this]
  congr 1
  apply List.filter_congr
  intro s hm
  obtain ⟨x, hx⟩ := seq_stmts hs s hm
  rw [stmt_funName hx, stmt_nameOf hx]

theorem under_stmts {a : Attr} {bs : List Node} {m : Option (List Str)} {c : Bool} (hs : Seq m c bs) :
    ((under (.node .body a bs)).filter fun s => hasType .statement s.node).length = (stmtsL bs).length := by
  have ht : Tidy (.node .body a bs) := tidy_node (by simp) (seq_tidy hs)
  have := under_count ht fun _ => true
  rw [show stmtsOf (.node .body a bs) = stmtsL bs by simp [stmtsOf]] at this
  rwa [List.filter_eq_self (l := stmtsL bs) |>.2 (by simp), show (fun s : Spot => hasType .statement s.node && true) =
    fun s : Spot => hasType .statement s.node from funext fun s => Bool.and_true _] at this

/-- The limits on a definition: code, limit, and the commands that count. -/
def limitRec (code : Str) (limit : Int) (counts : Str → Bool) (p : Place) : List Call :=
  if [c! "function", c! "macro"].contains (nameOf p.cmd) then
    checkCount code (lineAfter p.cmd) limit ((inside (nameOf p.cmd) p.later).filter fun s => counts (nameOf s)).length
  else []

theorem stmt_lastLine {x : Str} {n : Node} (h : Stmt x n) : ∃ l, lastLine n = .ok l ∧ lineAfter n = l + 1 := by
  obtain ⟨t, ts, e, _⟩ := stmt_toks h
  have hne : n.toks ≠ [] := by rw [e]; simp
  refine ⟨(n.toks.getLast hne).begin_.line, ?_, ?_⟩
  · simp [lastLine, List.getLast?_eq_some_getLast hne]
  · simp [lineAfter, List.getLast?_eq_some_getLast hne]

/-- The count that the code makes for a definition. -/
def countOf (o : Opts) (code : Str) (body : Node) : Int × Nat :=
  if code = S "R0911" then (o.maxReturns, (callsIn [S "return"] body).length)
  else if code = S "R0912" then (o.maxBranches, (callsIn [S "if", S "elseif", S "else"] body).length)
  else (o.maxStatements, ((under body).filter fun s => hasType .statement s.node).length)

/-- The contribution of a definition. -/
def countFlow (o : Opts) (code : Str) : List Node → List Call
  | stmt :: body :: _ :: _ =>
    if [S "function", S "macro"].contains (funName stmt) then
      checkCount code (lineAfter stmt) (countOf o code body).1 (countOf o code body).2
    else []
  | _ => []

theorem defn_count {o : Opts} {p : Str} {s b : Node} {c : List Call} {code : Str}
    (hc : code = S "R0911" ∨ code = S "R0912" ∨ code = S "R0915") (h : checkDefn o p s b = .ok c) :
    only code c = checkCount code (lineAfter s) (countOf o code b).1 (countOf o code b).2 := by
  simp only [checkDefn, res_bind, res_pure] at h
  obtain ⟨c1, h1, c2, h2, line, hl, rfl⟩ := h
  have hline : lineAfter s = line + 1 := by
    unfold lastLine at hl
    unfold lineAfter
    split at hl
    · simp at hl
    · rename_i t e
      simp only [Except.ok.injEq] at hl
      simp [e, hl]
  have self : ∀ (code : Str) (l : Nat) (lim : Int) (n : Nat), only code (checkCount code l lim n) = checkCount code l lim n := by
    intro code l lim n
    simp only [only, List.filter_eq_self, beq_iff_eq]
    intro c hc
    simpa using count_codes _ _ _ _ c hc
  have no : ∀ (code code' : Str) (l : Nat) (lim : Int) (n : Nat), code ≠ code' → only code (checkCount code' l lim n) = [] := by
    intro code code' l lim n hne
    exact (count_codes _ _ _ _).only (by simpa using hne)
  rcases hc with rfl | rfl | rfl <;>
  · rw [only_append, only_append, only_append, only_append, only_append, (custom_codes h1).only (by decide),
      (defName_codes h2).only (by decide), (argNames_codes o s).only (by decide), hline]
    simp only [self, List.nil_append, countOf]
    simp only [no _ _ _ _ _ (show S "R0911" ≠ S "R0912" by decide), no _ _ _ _ _ (show S "R0911" ≠ S "R0915" by decide),
      no _ _ _ _ _ (show S "R0912" ≠ S "R0911" by decide), no _ _ _ _ _ (show S "R0912" ≠ S "R0915" by decide),
      no _ _ _ _ _ (show S "R0915" ≠ S "R0911" by decide), no _ _ _ _ _ (show S "R0915" ≠ S "R0912" by decide),
      List.append_nil, List.nil_append]
    rfl

theorem flow_count {o : Opts} {kids : List Node} {c : List Call} {code : Str}
    (hc : code = S "R0911" ∨ code = S "R0912" ∨ code = S "R0915") (h : checkFlow o kids = .ok c) :
    only code c = countFlow o code kids := by
  unfold checkFlow at h
  split at h
  · simp at h
  · rename_i stmt l
    have blk : ∀ {ob : Node × Node}, blockOf (stmt :: l) 0 = some ob → ∃ e r, l = ob.2 :: e :: r := by
      intro ob hb
      match l, hb with
      | [], hb => simp [blockOf] at hb
      | [_], hb => simp [blockOf] at hb
      | b :: e :: r, hb =>
        simp only [blockOf, if_true, Nat.mul_zero, Nat.zero_add, List.getElem?_cons_zero, List.getElem?_cons_succ,
          Option.some.injEq] at hb
        rw [← hb]
        exact ⟨e, r, rfl⟩
    split at h
    · rename_i hn
      split at h
      · simp at h
      · rename_i o' b hb
        obtain ⟨e, r, rfl⟩ := blk hb
        rw [defn_count hc h]
        simp [countFlow, hn]
    · split at h
      · rename_i hn
        split at h
        · simp at h
        · rename_i o' b hb
          obtain ⟨e, r, rfl⟩ := blk hb
          rw [defn_count hc h]
          simp [countFlow, hn]
      · rename_i n1 n2
        have z : countFlow o code (stmt :: l) = [] := by
          unfold countFlow
          split
          · rename_i e
            simp only [List.cons.injEq] at e
            obtain ⟨rfl, rfl⟩ := e
            simp [n1, n2]
          · rfl
        rw [z]
        split at h
        · exact (foreach_codes h).only (by rcases hc with rfl | rfl | rfl <;> decide)
        · simp only [Except.ok.injEq] at h
          subst h
          rfl

theorem not_defn {x : Str} (h2 : x ∉ flowNames) (hu : upper (lower x) = x) :
    [S "function", S "macro"].contains (lower x) = false := by
  cases e : [S "function", S "macro"].contains (lower x) with
  | false => rfl
  | true =>
    exfalso
    apply h2
    rw [← hu]
    simp only [List.contains_eq_mem, List.mem_cons, List.not_mem_nil, or_false, decide_eq_true_eq] at e
    rcases e with e | e <;> rw [e] <;> decide

/-- The codes of the counts, their limits and the commands that count. -/
def limitsOf (o : Opts) : List (Str × Int × (Str → Bool)) :=
  [(S "R0911", o.maxReturns, fun n => [c! "return"].contains n),
   (S "R0912", o.maxBranches, fun n => [c! "if", c! "elseif", c! "else"].contains n),
   (S "R0915", o.maxStatements, fun _ => true)]

theorem limitsOf_codes {o : Opts} {l : Str × Int × (Str → Bool)} (h : l ∈ limitsOf o) :
    l.1 = S "R0911" ∨ l.1 = S "R0912" ∨ l.1 = S "R0915" := by
  simp only [limitsOf, List.mem_cons, List.not_mem_nil, or_false] at h
  rcases h with rfl | rfl | rfl <;> simp

theorem limits_count {o : Opts} {l : Str × Int × (Str → Bool)} (h : l ∈ limitsOf o) {a : Attr} {bs : List Node}
    {m : Option (List Str)} {c : Bool} (hs : Seq m c bs) : countOf o l.1 (.node .body a bs) =
      (l.2.1, ((stmtsL bs).filter fun s => l.2.2 (nameOf s)).length) := by
  simp only [limitsOf, List.mem_cons, List.not_mem_nil, or_false] at h
  rcases h with rfl | rfl | rfl
  · simp only [countOf, if_true]
    rw [callsIn_count hs]
    rfl
  · simp only [countOf, if_neg (show ¬ S "R0912" = S "R0911" by decide), if_true]
    rw [callsIn_count hs]
    rfl
  · simp only [countOf, if_neg (show ¬ S "R0915" = S "R0911" by decide), if_neg (show ¬ S "R0915" = S "R0912" by decide)]
    rw [under_stmts hs, List.filter_eq_self.2 (by simp)]

theorem count_link {o : Opts} {l : Str × Int × (Str → Bool)} (hl : l ∈ limitsOf o) :
    Link (fun _ _ => []) (countFlow o l.1) (limitRec l.1 l.2.1 l.2.2) where
  quiet n ns h := rfl
  plain stop c x n ns K st h h1 h2 hs hf hk := by
    have := not_defn h2 (stmt_upper h)
    rw [← stmt_nameOf h] at this
    exact if_neg (by rw [show [c! "function", c! "macro"] = [S "function", S "macro"] from rfl]; simp only [this]; simp)
  loop x o' e b bs K st h1 h2 h3 h4 := by
    simp only [limitRec, countFlow, stmt_nameOf h2, stmt_funName h2, inside_body h1 h3 h4, limits_count hl h3]
    rfl
  ifs o' rest K st h := by
    have hn : nameOf o' = S "if" := by rw [stmt_nameOf h]; rfl
    have hf : funName o' = S "if" := by rw [stmt_funName h]; rfl
    have z : countFlow o l.1 (o' :: rest) = [] := by
      unfold countFlow
      split
      · rename_i e
        simp only [List.cons.injEq] at e
        obtain ⟨rfl, rfl⟩ := e
        rw [hf]
        rfl
      · rfl
    rw [z]
    exact if_neg (by rw [show (Place.mk o' st K).cmd = o' from rfl, hn]; decide)
  mark x n st K h h1 _ := by
    refine if_neg ?_
    rw [show (Place.mk n st K).cmd = n from rfl, stmt_nameOf h]
    simp only [List.mem_cons, List.not_mem_nil, or_false] at h1
    rcases h1 with rfl | rfl | rfl | rfl | rfl | rfl | rfl <;> decide

theorem nodesOf_loud {β : Type} {fi : Node → List Node → List β} {ff : List Node → List β} (vs : List (List Frame × Node)) :
    nodesOf fi ff vs = (loud vs).flatMap fun v => match v.2 with
      | .node .body _ cs => itemsOf fi cs
      | .node .flowControl _ cs => ff cs
      | _ => [] := rfl

theorem itemsOf_nil {β : Type} (ns : List Node) : itemsOf (fun _ _ => ([] : List β)) ns = [] := by
  induction ns with
  | nil => rfl
  | cons n ns ih => simp [itemsOf, ih]

theorem count_calls {o : Opts} {ctx : Parse.Ctx} {ts : List Token} {tree : Node} {calls : List Call}
    {l : Str × Int × (Str → Bool)} (hl : l ∈ limitsOf o)
    (hp : parse ctx ts = .ok tree) (h : checkParseTree o tree = .ok calls) :
    (only l.1 calls).Perm ((places [] (stmtsOf tree)).flatMap (limitRec l.1 l.2.1 l.2.2)) := by
  have hc := limitsOf_codes hl
  refine List.Perm.trans (.of_eq ?_) (tree_link (count_link hl) hp).symm
  refine loud_calls (by rcases hc with e | e | e <;> rw [e] <;> exact ⟨by decide, by decide, by decide⟩) h ?_
  intro v hv c e
  rcases loud_types hv with ⟨a, cs, ev⟩ | ⟨a, cs, ev⟩ | ⟨a, cs, ev⟩ <;> rw [ev] at e ⊢ <;> simp only [checkNode] at e ⊢
  · rw [itemsOf_nil]
    exact (body_codes e).only (by rcases hc with e | e | e <;> rw [e] <;> decide)
  · exact flow_count hc e
  · exact (statement_codes e).only (by rcases hc with e | e | e <;> rw [e] <;> decide)

/-! ## Breaks -/

theorem break_calls {o : Opts} {ctx : Parse.Ctx} {ts : List Token} {tree : Node} {calls : List Call}
    (hp : parse ctx ts = .ok tree) (h : checkParseTree o tree = .ok calls) :
    only (S "E0103") calls = ((places [] (stmtsOf tree)).filter (·.strayBreak)).map fun p =>
      .record ⟨S "E0103", startOf p.cmd, [nameOf p.cmd]⟩ := by
  have step : only (S "E0103") calls = (loud (visits [] tree)).flatMap fun v =>
      if hasType .statement v.2 then
        if [S "break", S "continue"].contains (nameOf v.2) &&
            !(stackOf v.1).any fun b => [S "foreach", S "while"].contains b then
          [Call.record ⟨S "E0103", startOf v.2, [nameOf v.2]⟩]
        else []
      else [] := by
    refine loud_calls ⟨by decide, by decide, by decide⟩ h ?_
    intro v hv c e
    have hfit := tree_fit hp v hv
    rcases loud_types hv with ⟨a, cs, ev⟩ | ⟨a, cs, ev⟩ | ⟨a, cs, ev⟩ <;> rw [ev] at e <;> simp only [checkNode] at e
    · rw [ev]
      exact (body_codes e).only (by decide)
    · rw [ev]
      exact (flow_codes e).only (by decide)
    · have hst : hasType .statement v.2 = true := by rw [ev]; rfl
      have hmem : v.2 ∈ stmtsOf tree := by
        have h1 : (v.2, stackOf v.1) ∈ stmtsAt (visits [] tree) := by
          simp only [stmtsAt, List.mem_map, List.mem_filter]
          exact ⟨v, ⟨hv, hst⟩, rfl⟩
        rw [← tree_flat hp] at h1
        simp only [cmdBlocks, List.mem_map] at h1
        obtain ⟨p, hm, e⟩ := h1
        have e1 : p.cmd = v.2 := congrArg Prod.fst e
        rw [← e1]
        have : ∀ (l : List Node) (st : List Str), ∀ p ∈ places st l, p.cmd ∈ l := by
          intro l
          induction l with
          | nil => simp [places]
          | cons s l ih =>
            intro st p hp
            simp only [places, List.mem_cons] at hp
            rcases hp with rfl | hp
            · simp
            · exact List.mem_cons_of_mem _ (ih _ p hp)
        exact this _ _ p hm
      obtain ⟨a0, cs0, c0, e0, hs⟩ := parse_seq hp
      rw [e0, show stmtsOf (.node .body a0 cs0) = stmtsL cs0 by simp [stmtsOf]] at hmem
      obtain ⟨x, hx⟩ := seq_stmts hs _ hmem
      rw [if_pos hst]
      rw [← ev] at e
      unfold checkStatement at e
      have hnf : funName v.2 = nameOf v.2 := by rw [stmt_funName hx, stmt_nameOf hx]
      split at e
      · rename_i hb
        simp only [Except.ok.injEq] at e
        subst e
        have hgood : ∀ f ∈ v.1, GoodFrame f := by
          rcases hfit hst with hn | hg
          · exfalso
            rw [hnf] at hb
            simp only [List.contains_eq_mem, List.mem_cons, List.not_mem_nil, or_false, decide_eq_true_eq] at hb
            rcases hb with e | e <;> rw [e] at hn <;> revert hn <;> decide
          · exact hg
        rw [hnf] at hb
        rw [hb, Bool.true_and]
        simp only [checkInLoop, inLoop_blocks hgood, hnf]
        cases (stackOf v.1).any fun b => [S "foreach", S "while"].contains b with
        | true => simp
        | false => simp [only, codeOf, stmt_startOf hx]
      · rename_i hb
        rw [hnf] at hb
        rw [if_neg (by simp only [Bool.and_eq_true, not_and]; intro h; exact absurd h hb)]
        split at e
        · exact (assignment_codes e).only (by decide)
        · simp only [Except.ok.injEq] at e
          subst e
          rfl
  rw [step]
  have flat := tree_flat hp
  have : ∀ (vs : List (List Frame × Node)), (vs.flatMap fun v =>
      if hasType .statement v.2 then
        if [S "break", S "continue"].contains (nameOf v.2) &&
            !(stackOf v.1).any fun b => [S "foreach", S "while"].contains b then
          [Call.record ⟨S "E0103", startOf v.2, [nameOf v.2]⟩]
        else []
      else []) = (((vs.filter fun v => hasType .statement v.2).map fun v => (v.2, stackOf v.1)).filter fun q =>
        [S "break", S "continue"].contains (nameOf q.1) && !q.2.any fun b => [S "foreach", S "while"].contains b).map
        fun q => Call.record ⟨S "E0103", startOf q.1, [nameOf q.1]⟩ := by
    intro vs
    induction vs with
    | nil => rfl
    | cons v vs ih =>
      rw [List.flatMap_cons, ih]
      cases hs : hasType .statement v.2 with
      | false => simp [hs]
      | true =>
        simp only [if_true, List.filter_cons, hs, List.map_cons]
        split
        · simp
        · simp
  rw [this]
  have : ((loud (visits [] tree)).filter fun v => hasType .statement v.2).map (fun v => (v.2, stackOf v.1)) =
      cmdBlocks [] (stmtsOf tree) := flat.symm
  rw [this]
  simp only [cmdBlocks, List.filter_map, List.map_map]
  rfl

end Verif.Lint
