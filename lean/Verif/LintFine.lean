import Verif.LintParserReport

/-!
# Records fit their messages (lemmas for the lint checks)

Every record of the checks has a known code and as many arguments as the message of the code needs.
-/

namespace Verif.Lint
open Verif Py Lex Parse

/-- A record has a known code, and the arguments that the message needs. -/
def fineRec (r : Rec) : Bool := decide (r.id ∈ lintIds) && decide (fieldsOf r.id ≤ r.args.length)

/-- A call that records nothing, or such a record. -/
def fineCall : Call → Bool
  | .record r => fineRec r
  | _ => true

/-- Only such calls. -/
def Fine (calls : List Call) : Prop := ∀ c ∈ calls, fineCall c = true

theorem Fine.append {a b : List Call} (ha : Fine a) (hb : Fine b) : Fine (a ++ b) := by
  intro c h
  rcases List.mem_append.1 h with h | h
  · exact ha c h
  · exact hb c h

theorem fine_nil : Fine [] := by intro c h; simp at h

theorem fine_one {r : Rec} (h : fineRec r = true) : Fine [.record r] := by
  intro c hc
  simp only [List.mem_singleton] at hc
  subst hc
  exact h

theorem Fine.cons {r : Rec} {l : List Call} (h : fineRec r = true) (hl : Fine l) : Fine (.record r :: l) := by
  intro c hc
  rcases List.mem_cons.1 hc with rfl | hc
  · exact h
  · exact hl c hc

theorem fine_if {p : Prop} [Decidable p] {a b : List Call} (ha : Fine a) (hb : Fine b) : Fine (if p then a else b) := by
  split
  · exact ha
  · exact hb

theorem fine_map {l : List Rec} (h : ∀ r ∈ l, fineRec r = true) : Fine (l.map .record) := by
  intro c hc
  simp only [List.mem_map] at hc
  obtain ⟨r, hr, rfl⟩ := hc
  exact h r hr

theorem token_fine (o : Opts) (anc : List Frame) (p : Option Token) (t : Token) :
    Fine (checkToken o anc p t).1 := by
  unfold checkToken
  split
  · exact fine_nil
  · split
    · exact fine_nil
    · simp only [checkIndentation]
      exact fine_if (fine_one (by rfl)) (fine_nil)

theorem pragmaIds_fine (row col : Nat) (ids : List Str) :
    ∀ r ∈ (pragmaIds row col ids).2, fineRec r = true := by
  induction ids with
  | nil => simp [pragmaIds]
  | cons i is ih =>
    simp only [pragmaIds]
    split <;> intro r hr
    · exact ih r hr
    · rcases List.mem_cons.1 hr with rfl | hr
      · rfl
      · exact ih r hr

theorem pragmaItems_fine (row : Nat) (items : List Str) : ∀ col,
    ∀ r ∈ (pragmaItems row col items).2, fineRec r = true := by
  induction items with
  | nil => simp [pragmaItems]
  | cons i is ih =>
    intro col r hr
    simp only [pragmaItems] at hr
    split at hr
    · rcases List.mem_cons.1 hr with rfl | hr
      · rfl
      · exact ih _ r hr
    · split at hr
      · rcases List.mem_append.1 hr with hr | hr
        · exact pragmaIds_fine _ _ _ r hr
        · exact ih _ r hr
      · rcases List.mem_cons.1 hr with rfl | hr
        · rfl
        · exact ih _ r hr

theorem pragmas_fine (ns : List Node) : ∀ r ∈ (pragmas ns).2, fineRec r = true := by
  induction ns with
  | nil => simp [pragmas]
  | cons n ns ih =>
    cases n with
    | node => exact ih
    | tok t =>
      intro r hr
      simp only [pragmas] at hr
      split at hr
      · rcases List.mem_append.1 hr with hr | hr
        · unfold pragmaComment at hr
          split at hr
          · simp at hr
          · exact pragmaItems_fine _ _ _ r hr
        · exact ih r hr
      · exact ih r hr

theorem bodyComment_fine {supp new : List Str} {n : Node} {c : List Call} (h : checkBodyComment supp n = .ok (c, new)) :
    Fine c := by
  unfold checkBodyComment at h
  dsimp only at h
  split at h
  · split at h
    · simp only [Except.ok.injEq, Prod.mk.injEq] at h
      rw [← h.1]
      exact fine_map (pragmas_fine _)
    · simp only [res_bind, res_pure, Prod.mk.injEq] at h
      obtain ⟨line, _, rfl, _⟩ := h
      refine (fine_map (pragmas_fine _)).append ?_
      intro c hc
      simp only [List.mem_singleton] at hc
      subst hc
      rfl
  · simp only [Except.ok.injEq, Prod.mk.injEq] at h
    rw [← h.1]
    exact fine_nil

theorem doc_fine {o : Opts} {p0 p1 : Option Node} {n : Node} {c : List Call} (h : checkDoc o p0 p1 n = .ok c) :
    Fine c := by
  unfold checkDoc at h
  split at h
  · simp at h
  · split at h
    · split at h
      · simp only [res_bind, res_pure] at h
        obtain ⟨_, _, rfl⟩ := h
        exact fine_one (by rfl)
      · split at h
        · simp only [res_bind, res_pure] at h
          obtain ⟨_, _, rfl⟩ := h
          exact fine_one (by rfl)
        · simp only [Except.ok.injEq] at h
          subst h
          exact fine_nil
    · simp only [Except.ok.injEq] at h
      subst h
      exact fine_nil
  · simp only [Except.ok.injEq] at h
    subst h
    exact fine_nil

theorem spacing_fine (o : Opts) (p : Option Node) (n : Node) : Fine (checkSpacing o p n) := by
  unfold checkSpacing
  repeat' split
  all_goals first | exact fine_nil | exact fine_one (by rfl)

theorem reach_fine (n : Node) (ns : List Node) : Fine (checkReach n ns) := by
  unfold checkReach
  repeat' split
  all_goals first | exact fine_nil | exact fine_one (by rfl)

theorem loops_fine {o : Opts} : ∀ {ss : List Spot} {c : List Call}, checkLoops o ss = .ok c → Fine c
  | [], c, h => by
    simp only [checkLoops, Except.ok.injEq] at h
    subst h
    exact fine_nil
  | s :: ss, c, h => by
    simp only [checkLoops] at h
    split at h
    · split at h
      · simp at h
      · simp at h
      · simp only [res_bind] at h
        obtain ⟨n, _, h⟩ := h
        split at h
        · simp only [res_pure] at h
          subst h
          exact fine_one (by rfl)
        · exact loops_fine h
    · exact loops_fine h

theorem custom_fine {o : Opts} {b : Node} {c : List Call} (h : checkCustomParser o b = .ok c) : Fine c := by
  unfold checkCustomParser at h
  split at h
  · exact loops_fine h
  · simp only [Except.ok.injEq] at h
    subst h
    exact fine_nil

theorem params_fine (o : Opts) (ts : List Token) : ∀ seen uncased,
    Fine (checkParams o seen uncased ts) := by
  induction ts with
  | nil => intro _ _; exact fine_nil
  | cons t ts ih =>
    intro seen uncased
    simp only [checkParams]
    split
    · exact fine_nil
    · split
      · exact Fine.cons (by rfl) (ih _ _)
      · refine Fine.append ?_ (ih _ _)
        repeat' split
        all_goals first | exact fine_nil | exact fine_one (by rfl)

theorem argNames_fine (o : Opts) (n : Node) :
    Fine (checkArgNames o n) := by
  simp only [checkArgNames]
  refine Fine.append ((params_fine o _ _ _)) ?_
  split
  · exact fine_one (by rfl)
  · exact fine_nil

theorem defName_fine {o : Opts} {p : Str} {n : Node} {c : List Call} (h : checkDefName o p n = .ok c) :
    Fine c := by
  unfold checkDefName at h
  split at h
  · simp only [Except.ok.injEq] at h
    subst h
    exact fine_if (fine_nil) (fine_one (by rfl))
  · simp at h

theorem count_fine {code : Str} (h : (decide (code ∈ lintIds) && decide (fieldsOf code ≤ 2)) = true) (line : Nat) (limit : Int) (n : Nat) :
    Fine (checkCount code line limit n) := by
  unfold checkCount
  exact fine_if (fine_one h) fine_nil

theorem foreach_fine {o : Opts} {n : Node} {c : List Call} (h : checkForeach o n = .ok c) : Fine c := by
  unfold checkForeach at h
  split at h
  · simp only [Except.ok.injEq] at h
    subst h
    exact fine_if (fine_nil) (fine_one (by rfl))
  · simp at h

theorem keywords_fine : ∀ (ns : List Node) (seen : List Str) {c : List Call}, checkKeywords seen ns = .ok c →
    Fine c
  | [], seen, c, h => by
    simp only [checkKeywords, Except.ok.injEq] at h
    subst h
    exact fine_nil
  | n :: ns, seen, c, h => by
    simp only [checkKeywords] at h
    split at h
    · split at h
      · simp at h
      · split at h
        · exact keywords_fine ns _ h
        · simp only [res_bind, res_pure] at h
          obtain ⟨more, h1, rfl⟩ := h
          refine Fine.append ?_ (keywords_fine ns _ h1)
          exact fine_if (fine_one (by rfl)) (fine_nil)
    · exact keywords_fine ns _ h

theorem positional_fine {a : Attr} {n : Node} {c : List Call} (h : checkPositional a n = .ok c) : Fine c := by
  unfold checkPositional at h
  split at h
  · simp at h
  · simp only [res_bind, res_pure] at h
    obtain ⟨least, _, rfl⟩ := h
    exact fine_if (fine_one (by rfl)) (fine_nil)

theorem inLoop_fine (anc : List Frame) (n : Node) : Fine (checkInLoop anc n) := by
  unfold checkInLoop
  exact fine_if (fine_nil) (fine_one (by rfl))

theorem assigned_fine (o : Opts) (s : Scope) (t : Token) : Fine (checkAssigned o s t) := by
  simp only [checkAssigned]
  exact fine_if (fine_nil) (fine_if (fine_nil) (fine_one (by rfl)))

theorem assignment_fine {o : Opts} {anc : List Frame} {n : Node} {c : List Call} (h : checkAssignment o anc n = .ok c) :
    Fine c := by
  simp only [checkAssignment, res_bind] at h
  obtain ⟨scope, _, h⟩ := h
  split at h
  · split at h
    · split at h
      · simp at h
      · simp only [res_pure] at h
        subst h
        exact assigned_fine _ _ _
    · simp at h
  · simp only [res_bind] at h
    obtain ⟨v, _, h⟩ := h
    split at h
    · simp only [res_pure] at h
      subst h
      exact fine_nil
    · simp only [res_pure] at h
      subst h
      exact assigned_fine _ _ _

theorem comment_fine {anc : List Frame} {n : Node} {c : List Call} (h : checkComment anc n = .ok c) :
    Fine c := by
  unfold checkComment at h
  dsimp only at h
  split at h
  · split at h
    · simp only [Except.ok.injEq] at h
      subst h
      exact fine_map (pragmas_fine _)
    · simp only [res_bind, res_pure] at h
      obtain ⟨line, _, rfl⟩ := h
      refine (fine_map (pragmas_fine _)).append ?_
      intro c hc
      simp only [List.mem_cons, List.not_mem_nil, or_false] at hc
      rcases hc with rfl | rfl <;> rfl
  · simp only [Except.ok.injEq] at h
    subst h
    exact fine_nil

theorem items_fine (o : Opts) : ∀ (ns : List Node) (p0 p1 : Option Node) (supp supp' : List Str) (c : List Call),
    checkItems o p0 p1 supp ns = .ok (c, supp') → Fine c
  | [], p0, p1, supp, supp', c, h => by
    simp only [checkItems, Except.ok.injEq, Prod.mk.injEq] at h
    rw [← h.1]
    exact fine_nil
  | .tok t :: ns, p0, p1, supp, supp', c, h => by
    simp only [checkItems] at h
    exact items_fine o ns _ _ _ _ _ h
  | .node ty a cs :: ns, p0, p1, supp, supp', c, h => by
    simp only [checkItems, res_bind, res_pure] at h
    obtain ⟨⟨c1, new⟩, h1, c2, h2, ⟨more, s⟩, h3, h4⟩ := h
    simp only [Prod.mk.injEq] at h4
    obtain ⟨rfl, rfl⟩ := h4
    have k1 := (bodyComment_fine h1)
    have k2 := (doc_fine h2)
    have k3 := (spacing_fine o p0 (.node ty a cs))
    have k4 := (reach_fine (.node ty a cs) ns)
    exact (((k1.append k2).append k3).append k4).append (items_fine o ns _ _ _ _ _ h3)

theorem body_fine {o : Opts} {n : Node} {c : List Call} (h : checkBody o n = .ok c) : Fine c := by
  simp only [checkBody, res_bind, res_pure] at h
  obtain ⟨⟨calls, supp⟩, h1, line, _, rfl⟩ := h
  refine (items_fine o _ _ _ _ _ _ h1).append ?_
  split
  · exact fine_nil
  · intro c hc
    simp only [List.mem_singleton] at hc
    subst hc
    rfl

theorem defn_fine {o : Opts} {p : Str} {s b : Node} {c : List Call} (h : checkDefn o p s b = .ok c) : Fine c := by
  simp only [checkDefn, res_bind, res_pure] at h
  obtain ⟨c1, h1, c2, h2, line, _, rfl⟩ := h
  have k1 := (custom_fine h1)
  have k2 := (defName_fine h2)
  have k3 := (argNames_fine o s)
  refine Fine.append (Fine.append (Fine.append (Fine.append (Fine.append k1 k2) k3) ?_) ?_) ?_ <;>
    exact count_fine (by decide) _ _ _

theorem flow_fine {o : Opts} {ns : List Node} {c : List Call} (h : checkFlow o ns = .ok c) : Fine c := by
  unfold checkFlow at h
  split at h
  · simp at h
  · split at h
    · split at h
      · simp at h
      · exact defn_fine h
    · split at h
      · split at h
        · simp at h
        · exact defn_fine h
      · split at h
        · exact (foreach_fine h)
        · simp only [Except.ok.injEq] at h
          subst h
          exact fine_nil

theorem statement_fine {o : Opts} {anc : List Frame} {n : Node} {c : List Call} (h : checkStatement o anc n = .ok c) :
    Fine c := by
  unfold checkStatement at h
  split at h
  · simp only [Except.ok.injEq] at h
    subst h
    exact (inLoop_fine _ _)
  · split at h
    · exact (assignment_fine h)
    · simp only [Except.ok.injEq] at h
      subst h
      exact fine_nil

theorem varname_fine (name : Str) (t : Token) (c : Str) : Fine (checkVarname name t c) := by
  unfold checkVarname
  split
  · exact fine_nil
  · exact fine_nil
  · exact fine_if (fine_nil) (fine_one (by rfl))

theorem assigns_fine : ∀ (ss : List Spot) {c : List Call}, checkAssigns ss = .ok c → Fine c
  | [], c, h => by
    simp only [checkAssigns, Except.ok.injEq] at h
    subst h
    exact fine_nil
  | s :: ss, c, h => by
    simp only [checkAssigns, res_bind, res_pure] at h
    obtain ⟨t, _, more, h1, rfl⟩ := h
    exact (varname_fine _ _ _).append (assigns_fine ss h1)

theorem refs_fine (ts : List Token) : Fine (checkRefs ts) := by
  intro c hc
  simp only [checkRefs, List.mem_flatMap] at hc
  obtain ⟨t, _, hc⟩ := hc
  split at hc
  · simp only [List.mem_flatMap] at hc
    obtain ⟨n, _, hc⟩ := hc
    exact varname_fine _ _ _ c hc
  · simp at hc

theorem node_fine {o : Opts} {anc : List Frame} {n : Node} {c : List Call} (h : checkNode o anc n = .ok c) : Fine c := by
  have nothing : ∀ {c : List Call}, (Except.ok [] : Res (List Call)) = .ok c → Fine c := by
    intro c h
    simp only [Except.ok.injEq] at h
    subst h
    exact fine_nil
  unfold checkNode at h
  split at h
  · exact nothing h
  · exact body_fine h
  · exact flow_fine h
  · exact keywords_fine _ _ h
  · exact statement_fine h
  · exact positional_fine h
  · split at h
    · exact nothing h
    · exact comment_fine h
  · exact nothing h

mutual
theorem tree_fine (o : Opts) : ∀ (n : Node) (anc : List Frame) (p p' : Option Token) (calls : List Call),
    checkTree o anc p n = .ok (calls, p') → Fine calls
  | .tok t, anc, p, p', calls, h => by
    simp only [checkTree, Except.ok.injEq] at h
    have h1 : (checkToken o anc p t).1 = calls := by rw [h]
    subst h1
    exact token_fine o anc p t
  | .node ty a cs, anc, p, p', calls, h => by
    simp only [checkTree, res_bind, res_pure] at h
    obtain ⟨c, h1, ⟨more, q⟩, h2, h3⟩ := h
    simp only [Prod.mk.injEq] at h3
    obtain ⟨rfl, rfl⟩ := h3
    exact (node_fine h1).append (kids_fine o cs anc ty a cs 0 p q more h2)
theorem kids_fine (o : Opts) : ∀ (ns : List Node) (anc : List Frame) (ty : NT) (a : Attr) (all : List Node) (idx : Nat)
    (p p' : Option Token) (calls : List Call), checkKids o anc ty a all idx p ns = .ok (calls, p') → Fine calls
  | [], anc, ty, a, all, idx, p, p', calls, h => by
    simp only [checkKids, Except.ok.injEq, Prod.mk.injEq] at h
    obtain ⟨rfl, rfl⟩ := h
    exact fine_nil
  | n :: ns, anc, ty, a, all, idx, p, p', calls, h => by
    simp only [checkKids, res_bind, res_pure] at h
    obtain ⟨⟨c, q⟩, h1, ⟨more, q'⟩, h2, h3⟩ := h
    simp only [Prod.mk.injEq] at h3
    obtain ⟨rfl, rfl⟩ := h3
    exact (tree_fine o n _ _ _ _ h1).append (kids_fine o ns _ _ _ _ _ _ _ _ h2)
end

theorem parseTree_fine {o : Opts} {tree : Node} {calls : List Call} (h : checkParseTree o tree = .ok calls) : Fine calls := by
  simp only [checkParseTree, res_bind, res_pure] at h
  obtain ⟨c1, h1, ⟨c3, p⟩, h3, rfl⟩ := h
  exact ((assigns_fine _ h1).append (refs_fine _)).append (tree_fine o tree _ _ _ _ h3)

theorem basics_fine (cfg : Cfg) (text : Str) : ∀ r ∈ checkBasics cfg text, fineRec r = true := by
  have lines : ∀ (ls : List Str) (n : Nat), ∀ r ∈ checkLines cfg n ls, fineRec r = true := by
    intro ls
    induction ls with
    | nil => intro n r hr; simp [checkLines] at hr
    | cons l ls ih =>
      intro n r hr
      simp only [checkLines, List.mem_append] at hr
      rcases hr with hr | hr
      · simp only [checkLine, List.mem_append] at hr
        rcases hr with ((hr | hr) | hr) | hr
        · unfold checkLength at hr
          split at hr
          · simp only [List.mem_singleton] at hr; subst hr; rfl
          · simp at hr
        · unfold checkEnding at hr
          repeat' split at hr
          all_goals first | (simp only [List.mem_singleton] at hr; subst hr; rfl) | simp at hr
        · unfold checkTrailing at hr
          split at hr
          · simp only [List.mem_singleton] at hr; subst hr; rfl
          · simp at hr
        · unfold checkIndent at hr
          dsimp only at hr
          repeat' split at hr
          all_goals first | (simp only [List.mem_singleton] at hr; subst hr; rfl) | simp at hr
      · exact ih _ r hr
  intro r hr
  simp only [checkBasics, List.mem_append] at hr
  rcases hr with hr | hr
  · exact lines _ _ r hr
  · split at hr
    · simp at hr
    · simp only [List.mem_singleton] at hr; subst hr; rfl

theorem tokens_fine : ∀ (ts : List Token) (cat : Option Str) {c : List Call}, checkTokens cat ts = .ok c → Fine c
  | [], cat, c, h => by
    simp only [checkTokens, Except.ok.injEq] at h
    subst h
    exact fine_nil
  | t :: ts, cat, c, h => by
    have ih := fun (cat : Option Str) {c : List Call} (h : checkTokens cat ts = .ok c) => tokens_fine ts cat h
    have one : ∀ (x : Rec) (cat : Option Str) (c : List Call), fineRec x = true →
        (do let more ← checkTokens cat ts; return .record x :: more : Res (List Call)) = .ok c → Fine c := by
      intro x cat c hx h
      simp only [res_bind, res_pure] at h
      obtain ⟨more, h1, rfl⟩ := h
      exact Fine.cons hx (ih cat h1)
    simp only [checkTokens] at h
    repeat' split at h
    all_goals first
      | exact ih _ h
      | exact one _ _ _ rfl h
      | (simp at h; done)

/-! ## What the parser records -/

/-- The two commands whose records may have too few arguments. -/
def unsafeNames : List Str := [c! "build_command", c! "add_custom_target"]

theorem firstWord_fine (words : List Str) (given : List Token) : ∀ r ∈ firstWordRecs words given, fineRec r = true := by
  intro r hr
  unfold firstWordRecs at hr
  repeat' split at hr
  all_goals first | (simp only [List.mem_singleton] at hr; subst hr; rfl) | simp at hr

theorem required_fine (loc : List Nat) (required : List (Str × Str))
    (h : ∀ p ∈ required, (decide (p.1 ∈ lintIds) && decide (fieldsOf p.1 ≤ 1)) = true) (n : Node) :
    ∀ r ∈ requiredRecs loc required n, fineRec r = true := by
  intro r hr
  simp only [requiredRecs, List.mem_flatMap] at hr
  obtain ⟨p, hp, hr⟩ := hr
  split at hr
  · simp at hr
  · simp only [List.mem_singleton] at hr
    subst hr
    exact h p hp

theorem recs_fine {s : Node} {more : List Token} {rc : Recorder} (h1 : rc ≠ .buildCommand) (h2 : rc ≠ .customTarget) :
    ∀ r ∈ rc.recs s more, fineRec r = true := by
  cases rc with
  | file => exact firstWord_fine _ _
  | list => exact firstWord_fine _ _
  | customCommand =>
    intro r hr
    have hq : ∀ r ∈ requiredRecs (nodeLoc (argTree s)) commandRequired (argTree s), fineRec r = true :=
      required_fine _ _ (by decide) _
    simp only [Recorder.recs, customCommandRecs] at hr
    repeat' split at hr
    all_goals first
      | (simp only [List.mem_singleton] at hr; subst hr; rfl)
      | exact hq r hr
      | (rcases List.mem_cons.1 hr with rfl | hr
         · rfl
         · exact hq r hr)
  | customTarget => exact absurd rfl h2
  | empty =>
    intro r hr
    simp only [Recorder.recs, emptyRecs, List.mem_flatMap] at hr
    obtain ⟨k, _, hr⟩ := hr
    split at hr
    · simp only [List.mem_singleton] at hr; subst hr; rfl
    · simp at hr
  | buildCommand => exact absurd rfl h1
  | policy =>
    intro r hr
    simp only [Recorder.recs, policyRecs] at hr
    repeat' split at hr
    all_goals first | (simp only [List.mem_singleton] at hr; subst hr; rfl) | simp at hr
  | set =>
    intro r hr
    simp only [Recorder.recs] at hr
    revert hr
    generalize kidsOf (argTree s) = ks
    generalize (givenTo s).drop _ = af
    intro hr
    induction ks with
    | nil => simp [setRecs] at hr
    | cons k ks ih =>
      simp only [setRecs, List.mem_append] at hr
      rcases hr with hr | hr
      · split at hr
        · unfold cacheRecs at hr
          repeat' split at hr
          all_goals first | (simp only [List.mem_singleton] at hr; subst hr; rfl) | simp at hr
        · simp at hr
      · exact ih hr

/-- A code that may be left out, or a record that fits. -/
def okRec (disabled : List Str) (r : Rec) : Prop := r.id ∈ disabled ∨ fineRec r = true

/-- The groups of arguments of a command: words in a row, or a keyword with what belongs to it. -/
def groupsOf (s : Node) : List (List Token) :=
  ((kidsOf (argTree s)).filter fun k => hasType .pargGroup k || hasType .kwargGroup k).map Node.toks

/-- All groups of an `add_custom_target` after the second begin with one of its keywords or flags. -/
def noStray (s : Node) : Bool :=
  ((groupsOf s).drop 2).all fun ts => ts.head?.any fun t => kwargIn t (keys targetKwargs ++ targetFlags)

theorem stray_none : ∀ (ks : List Node) (st : Nat),
    ((((ks.filter fun k => hasType .pargGroup k || hasType .kwargGroup k).map Node.toks).drop (2 - st)).all fun ts =>
      ts.head?.any fun t => kwargIn t (keys targetKwargs ++ targetFlags)) = true → strayRecs st ks = []
  | [], st, _ => by simp [strayRecs]
  | k :: ks, st, h => by
    simp only [strayRecs]
    split
    · rename_i hg
      rw [List.filter_cons, if_pos hg, List.map_cons] at h
      split
      · rename_i h0
        subst h0
        exact stray_none ks 1 (by simpa using h)
      · rename_i h0
        split
        · rename_i hk
          refine stray_none ks 2 ?_
          by_cases h1 : st = 1
          · subst h1; simpa using h
          · rw [show 2 - st = 0 by omega, List.drop_zero, List.all_cons, Bool.and_eq_true] at h
            simpa using h.2
        · rename_i hk
          simp only [Bool.or_eq_true, decide_eq_true_eq, not_or] at hk
          rw [show 2 - st = 0 by omega, List.drop_zero, List.all_cons, Bool.and_eq_true] at h
          exact absurd h.1 hk.1
    · rename_i hg
      rw [List.filter_cons, if_neg hg] at h
      exact stray_none ks st h

theorem stmtRecs_fine {user : Spec} {d : List Str} {s : Node} {more : List Token}
    (h1 : funName s = c! "build_command" → c! "build_command" ∈ userNames user ∨ c! "W0106" ∈ d)
    (h2 : funName s = c! "add_custom_target" → c! "add_custom_target" ∈ userNames user ∨ c! "E1122" ∈ d ∨ noStray s = true) :
    ∀ r ∈ stmtRecs user s more, okRec d r := by
  intro r hr
  unfold stmtRecs at hr
  split at hr
  · simp at hr
  · rename_i rc hrc
    unfold recorderOf at hrc
    split at hrc
    · simp at hrc
    · rename_i hov
      rw [overridden_eq] at hov
      by_cases hb : rc = .buildCommand
      · subst hb
        have hn : funName s = c! "build_command" := by
          have := lookup_pair_mem hrc
          simpa [recorders] using this
        rcases h1 hn with h | h
        · rw [hn] at hov
          exact absurd (by simpa using h) hov
        · left
          simp only [Recorder.recs, buildCommandRecs] at hr
          split at hr
          · simp at hr
          · simp only [List.mem_singleton] at hr; subst hr; exact h
      · by_cases ht : rc = .customTarget
        · subst ht
          have hn : funName s = c! "add_custom_target" := by
            have := lookup_pair_mem hrc
            simpa [recorders] using this
          rcases h2 hn with h | h
          · rw [hn] at hov
            exact absurd (by simpa using h) hov
          · simp only [Recorder.recs, customTargetRecs, List.mem_append] at hr
            rcases hr with hr | hr
            · rcases h with h | h
              case inr => rw [stray_none _ 0 h] at hr; simp at hr
              left
              have : ∀ (ks : List Node) (st : Nat), ∀ r ∈ strayRecs st ks, r.id = c! "E1122" := by
                intro ks
                induction ks with
                | nil => intro st r hr; simp [strayRecs] at hr
                | cons k ks ih =>
                  intro st r hr
                  simp only [strayRecs] at hr
                  repeat' split at hr
                  all_goals first
                    | exact ih _ r hr
                    | (rcases List.mem_cons.1 hr with rfl | hr
                       · rfl
                       · exact ih _ r hr)
              rw [this _ _ r hr]
              exact h
            · exact Or.inr (required_fine _ _ (by decide) _ r hr)
        · exact Or.inr (recs_fine hb ht r hr)

theorem parserRecs_fine {user : Spec} {d : List Str} : ∀ (ss : List Node),
    (∀ s ∈ ss, (funName s = c! "build_command" → c! "build_command" ∈ userNames user ∨ c! "W0106" ∈ d) ∧
      (funName s = c! "add_custom_target" → c! "add_custom_target" ∈ userNames user ∨ c! "E1122" ∈ d ∨ noStray s = true)) →
    ∀ r ∈ parserRecs user ss, okRec d r
  | [], _, r, hr => by simp [parserRecs] at hr
  | s :: ss, h, r, hr => by
    simp only [parserRecs, List.mem_append] at hr
    rcases hr with hr | hr
    · exact stmtRecs_fine (h s (by simp)).1 (h s (by simp)).2 r hr
    · exact parserRecs_fine ss (fun x hx => h x (List.mem_cons_of_mem _ hx)) r hr

/-! ## The context -/

/-- Calls that do not fail. -/
def Runs (d : List Str) (calls : List Call) : Prop := ∀ r, Call.record r ∈ calls → okRec d r

theorem Fine.runs {d : List Str} {calls : List Call} (h : Fine calls) : Runs d calls := fun _ hr => Or.inr (h _ hr)

theorem run_ok {d : List Str} : ∀ (calls : List Call) (c : Ctx), Runs d calls → ∃ c', c.run d calls = some c'
  | [], c, _ => ⟨c, rfl⟩
  | x :: calls, c, h => by
    have ih := fun c => run_ok calls c fun r hr => h r (List.mem_cons_of_mem _ hr)
    have : ∃ c1, c.call d x = some c1 := by
      cases x with
      | suppress => exact ⟨_, rfl⟩
      | unsuppress => exact ⟨_, rfl⟩
      | record r =>
        unfold Ctx.call
        dsimp only
        split
        · exact ⟨_, rfl⟩
        · rename_i hd
          have hf := (h r (by simp)).resolve_left hd
          simp only [fineRec, Bool.and_eq_true, decide_eq_true_eq] at hf
          split
          · exact ⟨_, rfl⟩
          · exact ⟨_, rfl⟩
    obtain ⟨c1, e⟩ := this
    rw [Ctx.run, e]
    exact ih c1

end Verif.Lint
