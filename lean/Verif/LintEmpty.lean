import Verif.LintParserReport

/-!
# The commands without arguments, and the words after `CACHE` (lemmas for the parser's records)
-/

namespace Verif.Lint
open Verif Py Lex Parse

/-- The function that is looked up for a command that records something. -/
theorem special_names : ∀ p ∈ recorders,
    ((Tables.builtins ++ Tables.modules).reverse.find? fun nd => nd.1 = p.1) = none ∧ flowTable.lookup p.1 = none := by
  decide +kernel

theorem special_lookup {user : Spec} {explicit : Str → Bool} {vt : List ((Str → Bool) × List Str)} {name : Str} {rc : Recorder}
    {p : ArgP} (h : (lower name, rc) ∈ recorders) (hu : (userNames user).contains (lower name) = false)
    (hp : funTable.lookup (lower name) = some p) : lookupParser (commandCtx user explicit vt) name = p := by
  have e : (commandCtx user explicit vt).db (lower name) = some p := by
    show commandDb user (lower name) = some p
    have : user.kwargs.lookup (lower name) = none := lookup_absent (by simpa [userNames] using hu)
    obtain ⟨h1, h2⟩ := special_names _ h
    rw [commandDb_eq, this, builtinDb, builtinOf_eq, stdSpec_lookup, std_declared, h1]
    simp only [Option.map_none]
    rw [h2]
    exact hp
  unfold lookupParser
  rw [e]

/-! ## The first token of a group -/

theorem posLoop_prefix {ctx : Parse.Ctx} {spec : PSpec} {brk : List Breaker} {sortable : Bool} : ∀ (n : Nat) (acc : List Node)
    (k : Nat) (up : Bool) (ts : List Token) (r : Node × List Token),
    exec ctx n (.posLoop spec brk sortable acc k) up ts = .ok r → ∃ a more, r.1 = .node .pargGroup a (acc ++ more) := by
  intro n
  induction n with
  | zero => intro acc k up ts r h; simp [exec] at h
  | succ n ih =>
    intro acc k up ts r h
    simp only [exec, step] at h
    have grow : ∀ {acc' : List Node} {c : Node} {k' : Nat} {ts' : List Token}, acc' = acc ++ [c] →
        exec ctx n (.posLoop spec brk sortable acc' k') up ts' = .ok r → ∃ a more, r.1 = .node .pargGroup a (acc ++ more) := by
      intro acc' c k' ts' e h
      obtain ⟨a, more, e'⟩ := ih _ _ _ _ _ h
      exact ⟨a, c :: more, by rw [e', e]; simp⟩
    cases ts with
    | nil =>
      simp only [posIter, Except.ok.injEq] at h
      subst h
      exact ⟨posAttr spec sortable, [], by simp⟩
    | cons t ts =>
      simp only [posIter] at h
      obtain ⟨b, _, h⟩ := Parse.bind_ok.1 h
      have fin : ∀ {rest : List Token}, (.ok (Node.node .pargGroup (posAttr spec sortable) acc, rest) : R) = .ok r →
          ∃ a more, r.1 = .node .pargGroup a (acc ++ more) := by
        intro rest h
        simp only [Except.ok.injEq] at h
        subst h
        exact ⟨posAttr spec sortable, [], by simp⟩
      repeat' split at h
      all_goals first
        | exact fin h
        | exact grow rfl h
        | (obtain ⟨⟨sub, rest⟩, h1, h2⟩ := Parse.bind_ok.1 h; exact grow rfl h2)


theorem head_node {ty : NT} {a : Attr} {k : Node} {ks : List Node} {t : Token} (h : k.toks.head? = some t) :
    (Node.node ty a (k :: ks)).toks.head? = some t := by
  rw [toks_node, toksL_cons, List.head?_append, h]
  rfl

theorem paren_head {ctx : Parse.Ctx} {n : Nat} {up : Bool} {t : Token} {ts : List Token} {r : Node × List Token}
    (h : exec ctx n .paren up (t :: ts) = .ok r) : r.1.toks.head? = some t := by
  cases n with
  | zero => simp [exec] at h
  | succ n =>
    simp only [exec, step, parenIter] at h
    split at h
    · simp at h
    · obtain ⟨⟨sub, rest⟩, _, h⟩ := Parse.bind_ok.1 h
      simp only at h
      split at h
      · simp at h
      · split at h
        · simp at h
        · simp only [pure_ok] at h
          subst h
          exact head_node rfl

/-- A group of one or more arguments starts with the token that it is read from. -/
theorem pos_head {ctx : Parse.Ctx} {n : Nat} {flags : List Str} {brk : List Breaker} {up : Bool} {t : Token}
    {ts : List Token} {r : Node × List Token} (hb : shouldBreak t brk = false) (hw : isWs t = false)
    (hc : isAnyComment t = false)
    (h : exec ctx n (.pos { nargs := .str (S "+"), flags := flags } brk) up (t :: ts) = .ok r) :
    ∃ a cs, r.1 = .node .pargGroup a cs ∧ r.1.toks.head? = some t := by
  cases n with
  | zero => simp [exec] at h
  | succ n =>
    simp only [exec, step, posStart] at h
    rw [List.takeWhile_cons_of_neg (by simp [hw]), List.dropWhile_cons_of_neg (by simp [hw])] at h
    cases n with
    | zero => simp [exec] at h
    | succ n =>
      simp only [exec, step, posIter, leaves, List.map_nil] at h
      obtain ⟨b, hfull, h⟩ := Parse.bind_ok.1 h
      have hb0 : b = false := by
        have : pargsFull (.str (S "+")) 0 = .ok false := by decide
        rw [this] at hfull
        simpa using hfull.symm
      subst hb0
      have fin : ∀ {c : Node} {k' : Nat} {sortable : Bool} {ts' : List Token} {spec : PSpec}, c.toks.head? = some t →
          exec ctx n (.posLoop spec brk sortable ([] ++ [c]) k') up ts' = .ok r →
          ∃ a cs, r.1 = .node .pargGroup a cs ∧ r.1.toks.head? = some t := by
        intro c k' sortable ts' spec hc h
        obtain ⟨a, more, e⟩ := posLoop_prefix _ _ _ _ _ _ h
        exact ⟨a, _, e, by rw [e]; exact head_node hc⟩
      simp only [Bool.false_eq_true, if_false, hb, Bool.false_and, hw, hc] at h
      split at h
      · obtain ⟨⟨sub, rest⟩, h1, h2⟩ := Parse.bind_ok.1 h
        exact fin (paren_head h1) h2
      · split at h
        · exact fin rfl h
        · exact fin rfl h

/-! ## `parse_empty` -/

/-- What the children can be. -/
inductive EmptyKid : Node → Prop
  | blank (t : Token) : isWs t = true → EmptyKid (.tok t)
  | comment (t : Token) (n : Node) : isAnyComment t = true → hasType .pargGroup n = false → n.toks = [t] → EmptyKid n
  | group (t : Token) (a : Attr) (cs : List Node) : isWs t = false → isAnyComment t = false →
      (Node.node .pargGroup a cs).toks.head? = some t → EmptyKid (.node .pargGroup a cs)

theorem empty_kids {ctx : Parse.Ctx} {brk : List Breaker} : ∀ (n : Nat) (acc : List Node) (up : Bool) (ts : List Token)
    (r : Node × List Token), (∀ k ∈ acc, EmptyKid k) → exec ctx n (.emptyLoop brk acc) up ts = .ok r →
    ∃ ks, r.1 = mk .argGroup ks ∧ ∀ k ∈ ks, EmptyKid k := by
  intro n
  induction n with
  | zero => intro acc up ts r _ h; simp [exec] at h
  | succ n ih =>
    intro acc up ts r hacc h
    simp only [exec, step] at h
    have grow : ∀ {c : Node} {ts' : List Token}, EmptyKid c →
        exec ctx n (.emptyLoop brk (acc ++ [c])) up ts' = .ok r → ∃ ks, r.1 = mk .argGroup ks ∧ ∀ k ∈ ks, EmptyKid k := by
      intro c ts' hc h
      refine ih _ _ _ _ ?_ h
      intro k hk
      simp only [List.mem_append, List.mem_singleton] at hk
      rcases hk with hk | rfl
      · exact hacc k hk
      · exact hc
    cases ts with
    | nil =>
      simp only [emptyIter, Except.ok.injEq] at h
      subst h
      exact ⟨acc, rfl, hacc⟩
    | cons t ts =>
      simp only [emptyIter] at h
      split at h
      · simp only [Except.ok.injEq] at h
        subst h
        exact ⟨acc, rfl, hacc⟩
      · rename_i hb
        split at h
        · exact grow (.blank t ‹_›) h
        · rename_i hw
          split at h
          · exact grow (.comment t _ ‹_› rfl rfl) h
          · rename_i hc
            simp only [Bool.not_eq_true] at hb hw hc
            obtain ⟨⟨sub, rest⟩, h1, h2⟩ := Parse.bind_ok.1 h
            obtain ⟨a, cs, e, he⟩ := pos_head hb hw hc (must_ok h1).1
            simp only at e he
            subst e
            exact grow (.group t a cs hw hc he) h2

/-- If no argument is a format switch, then the first argument of a command without arguments is
recorded, and all records are at arguments. -/
theorem empty_recs {ks : List Node} (hk : ∀ k ∈ ks, EmptyKid k) (hsw : ∀ t ∈ toksL ks, isOnOff t = false) :
    (∀ r ∈ emptyRecs (mk .argGroup ks), r.args = [] ∧ ∃ t ∈ semantics (toksL ks), r.loc = tokLoc t) ∧
      ∀ t, (semantics (toksL ks)).head? = some t → (⟨c! "E1121", tokLoc t, []⟩ : Rec) ∈ emptyRecs (mk .argGroup ks) := by
  have loc : ∀ {t : Token} {l : List Token}, l.head? = some t → headLoc l = tokLoc t := by
    intro t l h
    cases l with
    | nil => simp at h
    | cons u l => simp only [List.head?_cons, Option.some.injEq] at h; subst h; rfl
  have kids : kidsOf (mk .argGroup ks) = ks := rfl
  simp only [emptyRecs, kids]
  clear kids
  induction ks with
  | nil => simp [toksL, semantics]
  | cons k ks ih =>
    obtain ⟨ih1, ih2⟩ := ih (fun k' h' => hk k' (List.mem_cons_of_mem _ h')) fun t ht => hsw t (by rw [toksL_cons]; exact List.mem_append_right _ ht)
    have pass : hasType .pargGroup k = false → semantics k.toks = [] →
        (∀ r ∈ (k :: ks).flatMap (fun k => if hasType .pargGroup k = true then [(⟨c! "E1121", headLoc k.toks, []⟩ : Rec)] else []),
          r.args = [] ∧ ∃ t ∈ semantics (toksL (k :: ks)), r.loc = tokLoc t) ∧
        ∀ t, (semantics (toksL (k :: ks))).head? = some t → (⟨c! "E1121", tokLoc t, []⟩ : Rec) ∈
          (k :: ks).flatMap (fun k => if hasType .pargGroup k = true then [(⟨c! "E1121", headLoc k.toks, []⟩ : Rec)] else []) := by
      intro h1 h2
      rw [List.flatMap_cons, h1, toksL_cons, Parse.semantics_append, h2]
      exact ⟨ih1, ih2⟩
    cases hk k (by simp) with
    | blank t hw => exact pass rfl (by simp [Node.toks, semantics, isSemantic, hw])
    | comment t _ hc hty hto => exact pass hty (by rw [hto]; simp [semantics, isSemantic, hc])
    | group t a cs hw hc he =>
      have hin : t ∈ (Node.node .pargGroup a cs).toks := List.mem_of_head? he
      have hsem : isSemantic t = true := by
        simp [isSemantic, hw, hc, hsw t (by rw [toksL_cons]; exact List.mem_append_left _ hin)]
      have hd : (semantics (Node.node .pargGroup a cs).toks).head? = some t := by
        cases hl : (Node.node .pargGroup a cs).toks with
        | nil => rw [hl] at he; simp at he
        | cons u l =>
          rw [hl] at he
          simp only [List.head?_cons, Option.some.injEq] at he
          subst he
          rw [semantics_word hsem]
          rfl
      rw [List.flatMap_cons, toksL_cons, Parse.semantics_append]
      refine ⟨?_, ?_⟩
      · intro r hr
        rw [List.mem_append] at hr
        rcases hr with hr | hr
        · simp only [hasType, beq_self_eq_true, if_true, List.mem_singleton] at hr
          subst hr
          exact ⟨rfl, t, List.mem_append_left _ (List.mem_of_head? hd), loc he⟩
        · obtain ⟨e, t', ht', e'⟩ := ih1 r hr
          exact ⟨e, t', List.mem_append_right _ ht', e'⟩
      · intro t' ht'
        rw [List.head?_append, hd] at ht'
        simp only [Option.some_or, Option.some.injEq] at ht'
        subst ht'
        refine List.mem_append_left _ ?_
        simp only [hasType, beq_self_eq_true, if_true, List.mem_singleton, loc he]

/-! ## The commands of a tree -/

/-- The arguments of a command come from the function that is looked up for its name. -/
theorem args_exec {ctx : Parse.Ctx} {s : Node} (h : Made ctx s) :
    ∃ n name ts rest, funName s = lower name ∧
      exec ctx n (.arg (lookupParser ctx name) [.paren]) false ts = .ok (argTree s, rest) := by
  obtain ⟨n, up, ts, rest, h⟩ := h
  cases n with
  | zero => simp [exec] at h
  | succ n =>
    simp only [exec, step] at h
    cases ts with
    | nil => simp [stmtIter] at h
    | cons t ts =>
      simp only [stmtIter] at h
      split at h
      · simp at h
      · split at h
        · simp at h
        · obtain ⟨⟨sub, rest⟩, h0, h⟩ := Parse.bind_ok.1 h
          obtain ⟨⟨tail, rest1⟩, _, h⟩ := Parse.bind_ok.1 h
          simp only at h
          split at h
          · simp at h
          · simp only [pure_ok, Prod.mk.injEq] at h
            obtain ⟨rfl, rfl⟩ := h
            have hn : ∀ {ts'}, exec ctx n (.arg (lookupParser ctx t.spelling) [.paren]) false ts' = .ok (sub, rest) →
                NPost ctx (.arg (lookupParser ctx t.spelling) [.paren]) (sub, rest) := by
              intro ts' h0
              have h1 := exec_neat (ctx := ctx) n (.arg (lookupParser ctx t.spelling) [.paren]) false ts' ⟨kids_nil, trivial⟩
              rwa [h0] at h1
            have hsub : isNode sub = true := by
              have h1 := hn h0
              have h2 : Grp sub := h1.2
              cases sub with
              | tok t => exact absurd h2 (by simp [Grp])
              | node ty a cs => rfl
            have e : ∀ (at' : Attr) (w1 w2 : List Token) (l r : Token) (trail : List Node), argTree (.node .statement at'
                ([mk .funname [.tok t]] ++ leaves w1 ++ [mk .lparen [.tok l]] ++ leaves w2 ++ [sub] ++ tail ++
                  [mk .rparen [.tok r]] ++ trail)) = sub := by
              intro at' w1 w2 l r trail
              clear h0 hn
              cases sub with
              | tok t => simp [isNode] at hsub
              | node ty a cs => ?_
              simp only [argTree, kidsOf, List.filter_append, filter_leaves, List.filter_cons, List.filter_nil, mk, isNode,
                hsub, if_true, List.append_nil, List.nil_append, List.singleton_append, List.cons_append,
                List.drop_succ_cons, List.drop_zero, List.headD_cons]
            exact ⟨n, t.spelling, _, rest, rfl, h0.trans (by rw [e])⟩

/-! ## The codes of the functions -/

/-- The codes that a function can record. -/
def Recorder.codes : Recorder → List Str
  | .file | .list => [c! "E1120", c! "C0114", c! "E1126"]
  | .customCommand => [c! "E1120", c! "C0114", c! "E1126", c! "C0113", c! "E1125"]
  | .customTarget => [c! "E1122", c! "C0113"]
  | .empty => [c! "E1121"]
  | .buildCommand => [c! "W0106"]
  | .policy => [c! "C0114", c! "E1126"]
  | .set => [c! "E1120", c! "E1121"]

theorem recs_codes (rc : Recorder) (s : Node) (more : List Token) : ∀ r ∈ rc.recs s more, r.id ∈ rc.codes := by
  have first : ∀ ws given, ∀ r ∈ firstWordRecs ws given, r.id ∈ Recorder.codes .file := by
    intro ws given r hr
    simp only [firstWordRecs] at hr
    repeat' split at hr
    all_goals first
      | (simp only [List.mem_singleton] at hr; subst hr; dsimp only; decide)
      | simp at hr
  have req : ∀ loc n, ∀ r ∈ requiredRecs loc commandRequired n, r.id ∈ Recorder.codes .customCommand := by
    intro loc n r hr
    simp only [requiredRecs, commandRequired, List.flatMap_cons, List.flatMap_nil, List.append_nil, List.mem_append] at hr
    rcases hr with hr | hr <;> split at hr
    all_goals first
      | (simp only [List.mem_singleton] at hr; subst hr; dsimp only; decide)
      | simp at hr
  have req' : ∀ loc n, ∀ r ∈ requiredRecs loc [(c! "C0113", c! "COMMENT")] n, r.id ∈ Recorder.codes .customTarget := by
    intro loc n r hr
    simp only [requiredRecs, List.flatMap_cons, List.flatMap_nil, List.append_nil] at hr
    split at hr
    all_goals first
      | (simp only [List.mem_singleton] at hr; subst hr; dsimp only; decide)
      | simp at hr
  have stray : ∀ ns st, ∀ r ∈ strayRecs st ns, r.id ∈ Recorder.codes .customTarget := by
    intro ns
    induction ns with
    | nil => intro st r hr; simp [strayRecs] at hr
    | cons k ks ih =>
      intro st r hr
      simp only [strayRecs] at hr
      repeat' split at hr
      all_goals first
        | exact ih _ r hr
        | (rcases List.mem_cons.1 hr with rfl | hr
           · (dsimp only; decide)
           · exact ih _ r hr)
  have sets : ∀ ns after, ∀ r ∈ setRecs after ns, r.id ∈ Recorder.codes .set := by
    intro ns
    induction ns with
    | nil => intro st r hr; simp [setRecs] at hr
    | cons k ks ih =>
      intro st r hr
      simp only [setRecs, List.mem_append] at hr
      rcases hr with hr | hr
      · split at hr
        · simp only [cacheRecs] at hr
          repeat' split at hr
          all_goals first
            | (simp only [List.mem_singleton] at hr; subst hr; dsimp only; decide)
            | simp at hr
        · simp at hr
      · exact ih _ r hr
  intro r hr
  cases rc <;> simp only [Recorder.recs] at hr
  · exact first _ _ r hr
  · exact first _ _ r hr
  · simp only [customCommandRecs] at hr
    repeat' split at hr
    all_goals first
      | (simp only [List.mem_singleton] at hr; subst hr; dsimp only; decide)
      | exact req _ _ r hr
      | (rcases List.mem_cons.1 hr with rfl | hr
         · (dsimp only; decide)
         · exact req _ _ r hr)
  · simp only [customTargetRecs, List.mem_append] at hr
    exact hr.elim (stray _ _ r) (req' _ _ r)
  · simp only [emptyRecs, List.mem_flatMap] at hr
    obtain ⟨k, _, hr⟩ := hr
    split at hr
    · simp only [List.mem_singleton] at hr; subst hr; dsimp only; decide
    · simp at hr
  · simp only [buildCommandRecs] at hr
    split at hr
    · simp at hr
    · simp only [List.mem_singleton] at hr; subst hr; dsimp only; decide
  · simp only [policyRecs] at hr
    repeat' split at hr
    all_goals first
      | (simp only [List.mem_singleton] at hr; subst hr; dsimp only; decide)
      | simp at hr
  · exact sets _ _ r hr

/-- The commands that take no arguments. -/
theorem empty_entry {name : Str} (h : recorders.lookup name = some .empty) :
    (name, Recorder.empty) ∈ recorders ∧ funTable.lookup name = some .emptyFn := by
  have k := lookup_pair_mem h
  refine ⟨k, ?_⟩
  simp only [recorders, List.mem_cons, Prod.mk.injEq, List.not_mem_nil, or_false, reduceCtorEq, and_false, and_true,
    false_or] at k
  rcases k with rfl | rfl | rfl | rfl <;> rfl

theorem empty_args {user : Spec} {explicit : Str → Bool} {vt : List ((Str → Bool) × List Str)} {s : Node}
    (h : Made (commandCtx user explicit vt) s) (hn : recorderOf user (funName s) = some .empty) :
    ∃ ks, argTree s = mk .argGroup ks ∧ ∀ k ∈ ks, EmptyKid k := by
  obtain ⟨n, name, ts, rest, hname, h0⟩ := args_exec h
  rw [hname, recorderOf, overridden_eq] at hn
  split at hn
  · simp at hn
  · rename_i hu
    simp only [Bool.not_eq_true] at hu
    obtain ⟨h1, h2⟩ := empty_entry hn
    rw [special_lookup h1 hu h2] at h0
    cases n with
    | zero => simp [exec] at h0
    | succ n =>
      simp only [exec, step, argStart] at h0
      exact empty_kids _ _ _ _ _ (by simp) h0

/-- E1121 for a command: too many arguments. -/
theorem many_recs {user : Spec} {explicit : Str → Bool} {vt : List ((Str → Bool) × List Str)} {ts : List Token}
    {tree s : Node} (h : parse (commandCtx user explicit vt) ts = .ok tree) (hs : s ∈ stmtsOf tree)
    (hsw : ∀ t ∈ (argTree s).toks, isOnOff t = false) (hn : recorderOf user (funName s) = some .empty) :
    (∀ r ∈ stmtRecs user s [], r.args = [] ∧ ∃ t ∈ argsOf s, r.loc = tokLoc t) ∧
      ∀ t, (argsOf s).head? = some t → (⟨c! "E1121", tokLoc t, []⟩ : Rec) ∈ stmtRecs user s [] := by
  obtain ⟨ks, e, hk⟩ := empty_args (parse_made h s hs) hn
  rw [← stmt_args h hs, semToks, stmtRecs, hn]
  simp only [Recorder.recs]
  rw [e] at hsw ⊢
  rw [show (mk .argGroup ks).toks = toksL ks by simp [mk, Node.toks]] at hsw ⊢
  exact empty_recs hk hsw

/-! ## Required keywords -/

theorem keyword_arg {n : Node} {t : Token} {w : Str} (h : t ∈ keywordsOf n) (hw : normKwarg t = some w) :
    t ∈ semantics n.toks := by
  obtain ⟨k, hk, h⟩ := List.mem_filterMap.1 h
  split at h
  · rename_i hty
    have hin : t ∈ k.toks := List.mem_of_head? h
    cases n with
    | tok u => simp [kidsOf] at hk
    | node ty a cs =>
      have hsem : isSemantic t = true := by
        unfold normKwarg at hw
        split at hw
        · rename_i ht
          simp [isSemantic, isWs, isAnyComment, isOnOff, ht]
        · split at hw
          · simp at hw
          · rename_i ht
            simp only [ne_eq, Decidable.not_not] at ht
            simp [isSemantic, isWs, isAnyComment, isOnOff, ht]
      rw [semantics, List.mem_filter]
      refine ⟨?_, hsem⟩
      rw [toks_node]
      simp only [kidsOf] at hk
      clear hty h
      induction cs with
      | nil => simp at hk
      | cons c cs ih =>
        rw [toksL_cons, List.mem_append]
        rcases List.mem_cons.1 hk with rfl | hk
        · exact .inl hin
        · exact .inr (ih hk)
  · simp at h

/-- A required keyword that is not among the words is recorded. -/
theorem required_complete {loc : List Nat} {required : List (Str × Str)} {n : Node} {p : Str × Str} (hp : p ∈ required)
    (h : ∀ t ∈ semantics n.toks, normKwarg t ≠ some p.2) :
    (⟨p.1, placeOf loc (semantics n.toks), [p.2]⟩ : Rec) ∈ requiredRecs loc required n := by
  unfold requiredRecs
  rw [List.mem_flatMap]
  refine ⟨p, hp, ?_⟩
  rw [if_neg]
  · exact List.mem_singleton.2 rfl
  · intro h'
    obtain ⟨t, ht, e⟩ := List.any_eq_true.1 h'
    simp only [beq_iff_eq] at e
    exact h t (keyword_arg ht e) e

/-- What is recorded is required, and it is recorded once, at the first word. -/
theorem required_sound {loc : List Nat} {required : List (Str × Str)} {n : Node} {r : Rec}
    (h : r ∈ requiredRecs loc required n) : ∃ p ∈ required, r = ⟨p.1, placeOf loc (semantics n.toks), [p.2]⟩ ∧
      ∀ t ∈ keywordsOf n, normKwarg t ≠ some p.2 := by
  unfold requiredRecs at h
  rw [List.mem_flatMap] at h
  obtain ⟨p, hp, h⟩ := h
  split at h
  · simp at h
  · rename_i hn
    refine ⟨p, hp, List.mem_singleton.1 h, ?_⟩
    intro t ht e
    exact hn (List.any_eq_true.2 ⟨t, ht, by simp [e]⟩)

end Verif.Lint
