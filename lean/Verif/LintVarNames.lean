import Verif.LintNames
import Verif.LintVarSpec

/-!
# The check of the names of variables (lemmas)
-/

namespace Verif.Lint
open Verif Py Lex Parse

variable {ctx : Parse.Ctx}

/-! ## Names -/

theorem startsWith_iff (p s : Str) : startsWith p s = true ↔ ∃ rest, s = p ++ rest := by
  induction p generalizing s with
  | nil => simp [startsWith, stripPrefix?]
  | cons c p ih =>
    cases s with
    | nil => simp [startsWith, stripPrefix?]
    | cons d s =>
      have ih' := ih s
      simp only [startsWith, stripPrefix?] at ih' ⊢
      by_cases e : c = d
      · subst e
        simpa using ih'
      · simp only [beq_iff_eq, e, if_false, Option.isSome_none, Bool.false_eq_true, List.cons_append, List.cons.injEq, false_iff]
        rintro ⟨_, e', _⟩
        exact e e'.symm

theorem strip_iff (p s r : Str) : stripPrefix? p s = some r ↔ s = p ++ r := by
  induction p generalizing s with
  | nil => simp [stripPrefix?]
  | cons c p ih =>
    cases s with
    | nil => simp [stripPrefix?]
    | cons d s =>
      simp only [stripPrefix?]
      by_cases e : c = d
      · subst e
        simpa using ih s
      · simp only [beq_iff_eq, e, if_false, List.cons_append, List.cons.injEq]
        constructor
        · intro h; cases h
        · rintro ⟨e', _⟩
          exact absurd e'.symm e

theorem occurs_iff (p s : Str) : occursInLine p s = true ↔ ∃ mid rest, s = mid ++ p ++ rest ∧ '\n' ∉ mid := by
  induction s with
  | nil =>
    simp only [occursInLine, startsWith_iff]
    constructor
    · rintro ⟨r, e⟩
      exact ⟨[], r, by simpa using e, by simp⟩
    · rintro ⟨m, r, e, _⟩
      simp only [List.append_assoc, List.nil_eq, List.append_eq_nil_iff] at e
      exact ⟨[], by simp [e.2.1]⟩
  | cons c s ih =>
    simp only [occursInLine, Bool.or_eq_true, Bool.and_eq_true, bne_iff_ne, ne_eq, startsWith_iff, ih]
    constructor
    · rintro (⟨r, e⟩ | ⟨hc, m, r, e, hm⟩)
      · exact ⟨[], r, by simpa using e, by simp⟩
      · exact ⟨c :: m, r, by simp [e], by simp [hm, Ne.symm hc]⟩
    · rintro ⟨m, r, e, hm⟩
      cases m with
      | nil => exact .inl ⟨r, by simpa using e⟩
      | cons d m =>
        simp only [List.cons_append, List.cons.injEq] at e
        simp only [List.mem_cons, not_or] at hm
        exact .inr ⟨by rw [e.1]; exact Ne.symm hm.1, m, r, e.2, hm.2⟩

theorem pattern_iff (name : Str) (p : Str × Option Str) : patternMatches name p = true ↔ BuiltinAt name p := by
  obtain ⟨pre, post⟩ := p
  unfold patternMatches BuiltinAt
  cases post with
  | none => exact startsWith_iff pre name
  | some post =>
    simp only
    cases h : stripPrefix? pre name with
    | none =>
      simp only [Bool.false_eq_true, false_iff]
      rintro ⟨m, r, e, _⟩
      rw [List.append_assoc, List.append_assoc, ← strip_iff, h] at e
      cases e
    | some rest =>
      rw [strip_iff] at h
      subst h
      simp only [occurs_iff, List.append_assoc, List.append_cancel_left_eq]

/-- The record of a name. -/
theorem varname_eq (name : Str) (t : Token) (context : Str) :
    (Misspelt name → checkVarname name t context = [.record ⟨S "W0105", tokLoc t, [context, name]⟩]) ∧
      (¬ Misspelt name → checkVarname name t context = []) := by
  have hb : isBuiltin name = true ↔ ∃ q ∈ builtinPatterns, BuiltinAt name q := by
    simp only [isBuiltin, List.any_eq_true, pattern_iff]
  constructor
  · rintro ⟨⟨before, p, after, e, hp, hf, hbef⟩, hno⟩
    have hfind : builtinAnyCase name = some p := by
      rw [builtinAnyCase, List.find?_eq_some_iff_append]
      exact ⟨(pattern_iff _ _).2 hf, before, after, e, fun q hq => by
        rw [Bool.not_eq_true', ← Bool.not_eq_true, pattern_iff]
        exact hbef q hq⟩
    obtain ⟨p1, p2⟩ := p
    dsimp only at hp
    subst hp
    unfold checkVarname
    rw [hfind]
    dsimp only
    rw [if_neg]
    rw [hb]
    rintro ⟨q, hq, h⟩
    exact hno q hq h
  · intro h
    unfold checkVarname
    cases hfind : builtinAnyCase name with
    | none => rfl
    | some p =>
      obtain ⟨p1, p2⟩ := p
      cases p2 with
      | some _ => rfl
      | none =>
        dsimp only
        rw [if_pos]
        by_cases hi : isBuiltin name = true
        · exact hi
        · exfalso
          apply h
          rw [builtinAnyCase, List.find?_eq_some_iff_append] at hfind
          obtain ⟨h1, before, after, e, h2⟩ := hfind
          refine ⟨⟨before, (p1, none), after, e, rfl, (pattern_iff _ _).1 h1, fun q hq => by
            rw [← pattern_iff, Bool.not_eq_true, ← Bool.not_eq_true']
            exact h2 q hq⟩, ?_⟩
          intro q hq hfit
          exact hi (hb.2 ⟨q, hq, hfit⟩)

/-! ## References -/

theorem letter_eq (c : Char) : isWordChar c = nameLetter c := rfl

theorem references_skip : ∀ (w s : Str), (∀ c ∈ w, c ≠ '$') → references (w ++ s) = references s
  | [], _, _ => rfl
  | c :: w, s, h => by
    have hc := h c (List.mem_cons_self ..)
    have : referenceAt (c :: (w ++ s)) = none := by
      unfold referenceAt
      split
      · rename_i e
        injection e with e
        exact absurd e hc
      · rfl
    rw [List.cons_append, references, this]
    exact references_skip w s fun d hd => h d (List.mem_cons_of_mem _ hd)

theorem letter_dollar {c : Char} (h : nameLetter c = true) : c ≠ '$' := by
  rintro rfl
  exact absurd h (by decide)

theorem refs_eq : ∀ (n : Nat) (s : Str), s.length ≤ n → refsIn n s = references s
  | 0, s, h => by
    have : s = [] := List.length_eq_zero_iff.1 (Nat.le_zero.1 h)
    subst this
    rfl
  | n + 1, [], _ => rfl
  | n + 1, c :: s, h => by
    have hs : s.length ≤ n := by simpa using h
    by_cases hd : ∃ cs, c = '$' ∧ s = '{' :: cs
    · obtain ⟨cs, rfl, rfl⟩ := hd
      have hw : isWordChar = nameLetter := funext letter_eq
      simp only [refsIn, references, referenceAt, hw]
      have hcs : cs.length ≤ n := by simp only [List.length_cons] at hs; omega
      by_cases e : cs.takeWhile nameLetter = []
      · rw [if_pos e, if_neg (by simp [e]), refs_eq n _ hs]
        rfl
      · rw [if_neg e]
        have hcat : cs = cs.takeWhile nameLetter ++ cs.dropWhile nameLetter := (List.takeWhile_append_dropWhile).symm
        cases hdw : cs.dropWhile nameLetter with
        | nil =>
          rw [if_neg (by simp), refs_eq n _ hs]
          rfl
        | cons d rest =>
          by_cases hd : d = '}'
          · subst hd
            rw [if_pos (by simp [e])]
            have hl : rest.length ≤ n := by
              have := congrArg List.length hcat
              rw [hdw] at this
              simp only [List.length_append, List.length_cons] at this
              omega
            show cs.takeWhile nameLetter :: refsIn n rest = _
            rw [refs_eq n rest hl]
            have hskip : references cs = references rest := by
              rw [hcat, hdw, references_skip _ _ fun c hc => letter_dollar (List.all_eq_true.1 (List.all_takeWhile (p := nameLetter)) c hc)]
              exact references_skip ['}'] rest (by simp)
            have hb : referenceAt ('{' :: cs) = none := rfl
            simp [hb, hskip, references]
          · rw [if_neg (by simp [hd])]
            split
            · rename_i e'
              injection e' with e' _
              exact absurd e' hd
            · rw [refs_eq n _ hs]
              rfl
    · have h1 : refsIn (n + 1) (c :: s) = refsIn n s := by
        rw [refsIn]
        · intro cs e1 e2
          exact hd ⟨cs, e1, e2⟩
      have h2 : referenceAt (c :: s) = none := by
        unfold referenceAt
        split
        · rename_i e
          injection e with e1 e2
          exact absurd ⟨_, e1, e2⟩ hd
        · rfl
      rw [h1, references, h2, refs_eq n s hs]
      rfl

/-! ## Assignments -/

theorem under_stmts_perm {n : Node} (h : Tidy n) (names : List Str) :
    ((callsIn names n).map (·.node)).Perm ((stmtsOf n).filter fun s => names.contains (funName s)) := by
  have h1 := ((under_perm n).filter (hasType .statement)).filter fun s => names.contains (funName s)
  rw [pre_stmts n h] at h1
  refine List.Perm.trans (.of_eq ?_) h1
  rw [callsIn, List.filter_filter, List.filter_map]
  congr 1
  apply List.filter_congr
  intro x _
  simp [isCall, Bool.and_comm]

/-- The first group of a `list` has its first arguments. -/
theorem list_group {s : Node} {n : Nat} {up : Bool} {ts : List Token} {rest : List Token}
    (h : exec ctx n (.arg listFn [.paren]) up ts = .ok (argTree s, rest)) (hc : ∀ u ∈ (argTree s).toks, TameTok u)
    {ws : List Token} (hg : firstGroup s = .ok ws) : ∃ ks, semToks (argTree s) = ws ++ ks := by
  have hp : ((kidsOf (argTree s)).find? (hasType .pargGroup)).isSome = true := by
    unfold firstGroup at hg
    split at hg
    · split at hg
      · simp at hg
      · rename_i g e
        rw [e]
        rfl
    · simp at hg
  have key : ∀ {nargs : Nargs} {kwargs : List (Str × ArgP)} {flags : List Str} {m : Nat} {t : Token},
      exec ctx m (.arg (std nargs kwargs flags) [.paren]) up ts = .ok (argTree s, rest) → nthSem 0 ts = some t →
      (∀ w, normKwarg t = some w → kwargs.lookup w = none) → ∃ ks, semToks (argTree s) = ws ++ ks := by
    intro nargs kwargs flags m t h hn hk
    obtain ⟨t', h1, _, h2⟩ := std_first h hc (Or.inl hp)
    rw [hn] at h1
    simp only [Option.some.injEq] at h1
    subst h1
    obtain ⟨pre, g, ks, vs, e, hi, hgr, hs, hl⟩ := h2 hk
    dsimp only at e
    have hw : ws = semToks g := by
      unfold firstGroup at hg
      split at hg
      · rw [show kidsOf (argTree s) = pre ++ g :: ks by rw [e]; rfl, Gen.find_group hi hgr] at hg
        simpa using hg.symm
      · simp at hg
    refine ⟨semantics (toksL ks), ?_⟩
    rw [hw, e, semToks, stdNode, Node.toks, toksL_append, toksL_cons, Parse.semantics_append, Parse.semantics_append,
      Gen.semToks_idle hi, List.nil_append]
    rfl
  cases n with
  | zero => simp [exec] at h
  | succ n =>
    change argStart (exec ctx n) listFn [.paren] up ts = _ at h
    simp only [argStart, listFn, byFirst] at h
    cases hn : nthSem 0 ts with
    | none =>
      rw [hn] at h
      obtain ⟨t, h1, _⟩ := std_first h hc (Or.inl hp)
      rw [hn] at h1
      cases h1
    | some t =>
      rw [hn] at h
      dsimp only at h
      by_cases hty : t.type = .rparen ∨ t.type = .deref
      · rw [if_pos hty] at h
        exact key (nargs := .str (S "*")) (kwargs := []) (flags := []) h hn (by simp)
      · rw [if_neg hty] at h
        cases hlk : listTable.lookup (upper t.spelling) with
        | none =>
          rw [hlk] at h
          exact key (nargs := .str (S "*")) (kwargs := []) (flags := []) h hn (by simp)
        | some p =>
          rw [hlk] at h
          simp only [Option.getD_some] at h
          obtain ⟨hhd, nargs, kwargs, flags, rfl, hk⟩ := list_forms (lookup_pair_mem hlk)
          refine key h hn ?_
          intro w hw
          rcases norm_upper hw with rfl | e
          · exact hk
          · exact absurd e hhd

/-- The token that the check of an assignment looks at. -/
def assignTok (s : Node) : Res Token :=
  if funName s = S "set" then
    if roleOf (argTree s) = .set then
      match varName (argTree s) with
      | none => .error .attribute
      | some v => .ok v
    else .error .attribute
  else do
    match (← firstGroup s)[1]? with
    | none => .error .index
    | some v => .ok v

theorem assigns_eq : ∀ (ss : List Spot) {c : List Call}, checkAssigns ss = .ok c →
    (∀ s ∈ ss, ∃ t, assignTok s.node = .ok t) ∧
    c = ss.flatMap fun s => match assignTok s.node with
      | .ok t => checkVarname t.spelling t (S "Assignment to")
      | .error _ => []
  | [], c, h => by
    simp only [checkAssigns, Except.ok.injEq] at h
    subst h
    simp
  | s :: ss, c, h => by
    simp only [checkAssigns] at h
    have e : ∀ {t : Token} {more : List Call}, assignTok s.node = .ok t → checkAssigns ss = .ok more →
        c = checkVarname t.spelling t (S "Assignment to") ++ more → (∀ s' ∈ s :: ss, ∃ t, assignTok s'.node = .ok t) ∧
        c = (s :: ss).flatMap fun s => match assignTok s.node with
          | .ok t => checkVarname t.spelling t (S "Assignment to")
          | .error _ => [] := by
      intro t more h1 h2 h3
      obtain ⟨k1, k2⟩ := assigns_eq ss h2
      refine ⟨?_, ?_⟩
      · intro s' hs'
        rcases List.mem_cons.1 hs' with rfl | hs'
        · exact ⟨t, h1⟩
        · exact k1 s' hs'
      · rw [h3, List.flatMap_cons, h1, ← k2]
    obtain ⟨t, h1, h⟩ := (res_bind ..).1 h
    obtain ⟨more, h2, h⟩ := (res_bind ..).1 h
    rw [res_pure] at h
    exact e h1 h2 h.symm

/-- That token is an argument of the command. -/
theorem assignTok_eq {user : Spec} {explicit : Str → Bool} {vt : List ((Str → Bool) × List Str)} {ts : List Token} {tree s : Node}
    (hp : parse (commandCtx user explicit vt) ts = .ok tree) (hs : s ∈ stmtsOf tree)
    (hu : ∀ n ∈ assigners, (userNames user).contains n = false) (hn : nameOf s ∈ assigners) (hf : funName s = nameOf s)
    (ht : ∀ u ∈ (argTree s).toks, TameTok u) {t : Token} (h : assignTok s = .ok t) : target s = some t := by
  obtain ⟨n, name, us, rest, e1, e2⟩ := args_exec (parse_made hp s hs)
  rw [hf] at e1
  rw [e1] at hn
  simp only [assigners, List.mem_cons, List.not_mem_nil, or_false] at hn
  rcases hn with hn | hn
  · rw [assigner_lookup (p := .setFn) (by rw [hn]; decide) (hu _ (by rw [hn]; decide)) (by rw [hn]; rfl)] at e2
    obtain ⟨pre, g, ks, k1, k2, k3, k4, k5⟩ := set_tree (command_flat user explicit vt) e2 ht
    dsimp only at k5
    obtain ⟨t', k3⟩ : ∃ t, semToks g = [t] := by
      rcases k3 with k3 | ⟨k3, _⟩
      · exact k3
      rw [assignTok, hf, e1, hn, if_pos (by decide), show roleOf (argTree s) = .set by rw [k5]; rfl, if_pos rfl, k5, set_var k1 k2, k3] at h
      cases h
    have hsc : ∃ sc, scopeOf [] s = .ok sc := by
      unfold scopeOf
      dsimp only
      split
      · split
        · exact ⟨_, rfl⟩
        · split
          · exact ⟨_, rfl⟩
          · exact ⟨_, rfl⟩
      · exact ⟨_, rfl⟩
    obtain ⟨sc, hsc⟩ := hsc
    obtain ⟨_, r2, r3⟩ := set_scope (blocks := []) k1 k2 k3 k4 k5 (by
      intro sc h
      simp only [scopeAbove, Except.ok.injEq] at h
      rw [← h]
      rfl) hsc
    rw [assignTok, hf, e1, hn, if_pos (by decide), show roleOf (argTree s) = .set by rw [k5]; rfl, if_pos rfl, r2] at h
    simp only [Except.ok.injEq] at h
    rw [target, if_pos (by rw [e1, hn]), ← stmt_args hp hs, r3, h]
  · rw [assigner_lookup (p := listFn) (by rw [hn]; decide) (hu _ (by rw [hn]; decide)) (by rw [hn]; rfl)] at e2
    rw [assignTok, hf, e1, hn, if_neg (by decide)] at h
    simp only [res_bind] at h
    obtain ⟨ws, hw, h⟩ := h
    obtain ⟨ks, hk⟩ := list_group e2 ht hw
    rw [target, if_neg (by rw [e1, hn]; decide), if_pos (by rw [e1, hn]), ← stmt_args hp hs, hk]
    cases hw1 : ws[1]? with
    | none =>
      rw [hw1] at h
      cases h
    | some v =>
      rw [hw1] at h
      simp only [Except.ok.injEq] at h
      subst h
      rw [List.getElem?_append_left (List.getElem?_eq_some_iff.1 hw1).1, hw1]

theorem node_no_vars {o : Opts} {v : List Frame × Node} {c : List Call} (h : checkNode o v.1 v.2 = .ok c) : only (S "W0105") c = [] := by
  by_cases hq : quiet v.2 = true
  · have := quiet_codes (o := o) hq
    rw [h] at this
    exact this.only (by decide)
  · obtain ⟨anc, n⟩ := v
    cases n with
    | tok t => exact absurd rfl hq
    | node ty a cs =>
      cases ty
      all_goals first
        | exact absurd rfl hq
        | exact (body_codes h).only (by decide)
        | exact (flow_codes h).only (by decide)
        | exact (statement_codes h).only (by decide)

/-- The records about the names of variables. -/
theorem vars_calls {user : Spec} {explicit : Str → Bool} {vt : List ((Str → Bool) × List Str)} {ts : List Token} {tree : Node}
    {o : Opts} {calls : List Call} (hp : parse (commandCtx user explicit vt) ts = .ok tree)
    (hu : ∀ n ∈ assigners, (userNames user).contains n = false)
    (ht : ∀ s ∈ stmtsOf tree, nameOf s ∈ assigners → ∀ u ∈ (argTree s).toks, TameTok u)
    (h : checkParseTree o tree = .ok calls) :
    (only (S "W0105") calls).Perm (((stmtsOf tree).flatMap fun s =>
        (target s).toList.flatMap fun t => checkVarname t.spelling t (S "Assignment to")) ++
      (program tree.toks).flatMap fun t => if t.type = .quoted ∨ t.type = .deref then
        (references t.spelling).flatMap fun name => checkVarname name t (S "Reference to") else []) := by
  simp only [checkParseTree, res_bind, res_pure] at h
  obtain ⟨c1, h1, ⟨c3, p⟩, h3, rfl⟩ := h
  have z : only (S "W0105") c3 = [] := by
    obtain ⟨k1, k2⟩ := tree_calls o (code := S "W0105") (by decide) tree _ _ _ _ h3
    rw [k1, List.flatMap_eq_nil_iff]
    intro v hv
    obtain ⟨c, hc⟩ := k2 v hv
    rw [hc]
    exact node_no_vars hc
  have hall : ∀ {cs : List Call}, Codes [S "W0105"] cs → only (S "W0105") cs = cs := by
    intro cs hcs
    rw [only, List.filter_eq_self]
    intro c hc
    simpa using hcs c hc
  rw [only_append, only_append, z, List.append_nil, hall (assigns_codes _ h1), hall (refs_codes _)]
  refine List.Perm.append ?_ (.of_eq ?_)
  · obtain ⟨k1, k2⟩ := assigns_eq _ h1
    obtain ⟨a0, cs0, c0, e0, hseq⟩ := parse_seq hp
    have htidy : Tidy tree := by
      rw [e0]
      exact tidy_node (by simp) (seq_tidy hseq)
    have hperm := under_stmts_perm htidy [S "set", S "list"]
    let f : Node → List Call := fun s => match assignTok s with
      | .ok t => checkVarname t.spelling t (S "Assignment to")
      | .error _ => []
    have e1 : c1 = ((callsIn [S "set", S "list"] tree).map (·.node)).flatMap f := by
      rw [k2, List.flatMap_map]
    rw [e1]
    refine (hperm.flatMap_right f).trans (.of_eq ?_)
    have hok : ∀ s ∈ (stmtsOf tree).filter (fun s => [S "set", S "list"].contains (funName s)), ∃ t, assignTok s = .ok t := by
      intro s hs
      obtain ⟨q, hq, rfl⟩ := List.mem_map.1 (hperm.mem_iff.2 hs)
      exact k1 q hq
    have hsub : ∀ s ∈ stmtsOf tree, s ∈ stmtsOf tree := fun _ h => h
    revert hok hsub
    generalize hl : stmtsOf tree = l
    rw [hl] at ht
    intro hok hsub
    have main : ∀ (l' : List Node), (∀ s ∈ l', s ∈ l) →
        (l'.filter fun s => [S "set", S "list"].contains (funName s)).flatMap f =
          l'.flatMap fun s => (target s).toList.flatMap fun t => checkVarname t.spelling t (S "Assignment to") := by
      intro l' hl'
      induction l' with
      | nil => rfl
      | cons s l' ih =>
        have hmem : s ∈ stmtsOf tree := hl ▸ hl' s (List.mem_cons_self ..)
        obtain ⟨x, hx⟩ := stmt_of hp hmem
        have hnf : funName s = nameOf s := by rw [stmt_funName hx, stmt_nameOf hx]
        rw [List.flatMap_cons, List.filter_cons, ← ih fun s hs => hl' s (List.mem_cons_of_mem _ hs)]
        by_cases hc : [S "set", S "list"].contains (funName s) = true
        · rw [if_pos hc, List.flatMap_cons]
          congr 1
          obtain ⟨t, ht'⟩ := hok s (List.mem_filter.2 ⟨hl' s (List.mem_cons_self ..), hc⟩)
          have hn : nameOf s ∈ assigners := by
            rw [hnf] at hc
            have : nameOf s = S "set" ∨ nameOf s = S "list" := by simpa using hc
            simp only [assigners, List.mem_cons, List.not_mem_nil, or_false]
            exact this
          rw [assignTok_eq hp hmem hu hn hnf (ht s (hl' s (List.mem_cons_self ..)) hn) ht']
          simp only [f, ht', Option.toList_some, List.flatMap_cons, List.flatMap_nil, List.append_nil]
        · rw [if_neg hc]
          have : target s = none := by
            rw [hnf] at hc
            have : ¬ (nameOf s = S "set" ∨ nameOf s = S "list") := by simpa using hc
            rw [not_or] at this
            rw [target, if_neg (show ¬ nameOf s = c! "set" from this.1), if_neg (show ¬ nameOf s = c! "list" from this.2)]
          rw [this]
          rfl
    exact main l fun _ h => h
  · rw [checkRefs, show program tree.toks = semantics tree.toks from (program_semantics _).symm]
    congr 1
    funext t
    split
    · rw [refs_eq _ _ (Nat.le_refl _)]
    · rfl

end Verif.Lint
