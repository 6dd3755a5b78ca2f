import Verif.LintTree
import Verif.LintSeq
import Verif.LintSpec

/-!
# What the traversal visits, and which check records what (lemmas for the lint checks)
-/

namespace Verif.Lint
open Verif Py Lex Parse

theorem res_bind {α β : Type} {x : Res α} {f : α → Res β} {b : β} :
    (x >>= f) = .ok b ↔ ∃ a, x = .ok a ∧ f a = .ok b := by
  cases x <;> simp [bind, Except.bind]

theorem res_pure {α : Type} {a b : α} : (pure a : Res α) = .ok b ↔ a = b := by simp [pure, Except.pure]

mutual
/-- The nodes that `check_tree` visits, in order, with their ancestors. -/
def visits (anc : List Frame) : Node → List (List Frame × Node)
  | .tok _ => []
  | .node ty a cs => (anc, .node ty a cs) :: visitsL anc ty a cs 0 cs
/-- Those below the children of a node. -/
def visitsL (anc : List Frame) (ty : NT) (a : Attr) (all : List Node) (idx : Nat) : List Node → List (List Frame × Node)
  | [] => []
  | n :: ns => visits (⟨ty, a, all, idx⟩ :: anc) n ++ visitsL anc ty a all (idx + 1) ns
end

/-- The calls of a check that does not crash. -/
def callsOf (r : Res (List Call)) : List Call :=
  match r with
  | .ok c => c
  | .error _ => []

@[simp] theorem callsOf_ok (c : List Call) : callsOf (.ok c) = c := rfl

/-- The code that a call records. -/
def codeOf : Call → Str
  | .record r => r.id
  | _ => []

/-- The records of one code. -/
def only (code : Str) (calls : List Call) : List Call := calls.filter fun c => codeOf c == code

theorem only_append (code : Str) (a b : List Call) : only code (a ++ b) = only code a ++ only code b := by
  simp [only]

@[simp] theorem only_nil (code : Str) : only code [] = [] := rfl

/-- All records have one of these codes. -/
def Codes (cs : List Str) (calls : List Call) : Prop := ∀ c ∈ calls, codeOf c ∈ cs

theorem Codes.only {cs : List Str} {calls : List Call} {code : Str} (h : Codes cs calls) (hc : code ∉ cs) :
    Lint.only code calls = [] := by
  simp only [Lint.only, List.filter_eq_nil_iff, beq_iff_eq]
  intro c hm e
  exact hc (e ▸ h c hm)

theorem Codes.append {cs : List Str} {a b : List Call} (ha : Codes cs a) (hb : Codes cs b) : Codes cs (a ++ b) := by
  intro c h
  rcases List.mem_append.1 h with h | h
  · exact ha c h
  · exact hb c h

theorem codes_nil (cs : List Str) : Codes cs [] := by intro c h; simp at h

theorem codes_one {cs : List Str} {r : Rec} (h : r.id ∈ cs) : Codes cs [.record r] := by
  intro c hc
  simp only [List.mem_singleton] at hc
  subst hc
  exact h

theorem Codes.cons {cs : List Str} {r : Rec} {l : List Call} (h : r.id ∈ cs) (hl : Codes cs l) : Codes cs (.record r :: l) := by
  intro c hc
  rcases List.mem_cons.1 hc with rfl | hc
  · exact h
  · exact hl c hc

theorem codes_if {cs : List Str} {p : Prop} [Decidable p] {a b : List Call} (ha : Codes cs a) (hb : Codes cs b) :
    Codes cs (if p then a else b) := by
  split
  · exact ha
  · exact hb

theorem Codes.mono {cs ds : List Str} {l : List Call} (h : Codes cs l) (hs : ∀ x ∈ cs, x ∈ ds) : Codes ds l :=
  fun c hc => hs _ (h c hc)

theorem token_codes (o : Opts) (anc : List Frame) (p : Option Token) (t : Token) :
    Codes [S "C0307"] (checkToken o anc p t).1 := by
  unfold checkToken
  split
  · exact codes_nil _
  · split
    · exact codes_nil _
    · simp only [checkIndentation]
      exact codes_if (codes_one (by simp)) (codes_nil _)

mutual
/-- The calls of the traversal, but for the indentation: those of the visited nodes, in order. -/
theorem tree_calls (o : Opts) {code : Str} (hc : code ≠ S "C0307") : ∀ (n : Node) (anc : List Frame)
    (p p' : Option Token) (calls : List Call), checkTree o anc p n = .ok (calls, p') →
    only code calls = (visits anc n).flatMap (fun v => only code (callsOf (checkNode o v.1 v.2))) ∧
      ∀ v ∈ visits anc n, ∃ c, checkNode o v.1 v.2 = .ok c
  | .tok t, anc, p, p', calls, h => by
    simp only [checkTree, Except.ok.injEq] at h
    have h1 : (checkToken o anc p t).1 = calls := by rw [h]
    subst h1
    refine ⟨?_, by simp [visits]⟩
    rw [(token_codes o anc p t).only (by simpa using hc)]
    simp [visits]
  | .node ty a cs, anc, p, p', calls, h => by
    simp only [checkTree, res_bind, res_pure] at h
    obtain ⟨c, h1, ⟨more, q⟩, h2, h3⟩ := h
    simp only [Prod.mk.injEq] at h3
    obtain ⟨rfl, rfl⟩ := h3
    obtain ⟨k1, k2⟩ := kids_calls o hc cs anc ty a cs 0 p q more h2
    simp only [visits, List.flatMap_cons, only_append, h1, callsOf_ok]
    refine ⟨by rw [k1], ?_⟩
    intro v hv
    rcases List.mem_cons.1 hv with rfl | hv
    · exact ⟨c, h1⟩
    · exact k2 v hv
theorem kids_calls (o : Opts) {code : Str} (hc : code ≠ S "C0307") : ∀ (ns : List Node) (anc : List Frame) (ty : NT)
    (a : Attr) (all : List Node) (idx : Nat) (p p' : Option Token) (calls : List Call),
    checkKids o anc ty a all idx p ns = .ok (calls, p') →
    only code calls = (visitsL anc ty a all idx ns).flatMap (fun v => only code (callsOf (checkNode o v.1 v.2))) ∧
      ∀ v ∈ visitsL anc ty a all idx ns, ∃ c, checkNode o v.1 v.2 = .ok c
  | [], anc, ty, a, all, idx, p, p', calls, h => by
    simp only [checkKids, Except.ok.injEq, Prod.mk.injEq] at h
    obtain ⟨rfl, rfl⟩ := h
    simp [visitsL]
  | n :: ns, anc, ty, a, all, idx, p, p', calls, h => by
    simp only [checkKids, res_bind, res_pure] at h
    obtain ⟨⟨c, q⟩, h1, ⟨more, q'⟩, h2, h3⟩ := h
    simp only [Prod.mk.injEq] at h3
    obtain ⟨rfl, rfl⟩ := h3
    obtain ⟨k1, k2⟩ := tree_calls o hc n _ _ _ _ h1
    obtain ⟨l1, l2⟩ := kids_calls o hc ns _ _ _ _ _ _ _ _ h2
    simp only [visitsL, List.flatMap_append, only_append, k1, l1, true_and]
    intro v hv
    rcases List.mem_append.1 hv with hv | hv
    · exact k2 v hv
    · exact l2 v hv
end

/-! ## The codes of each check -/

theorem pragmaIds_codes (row col : Nat) (ids : List Str) :
    ∀ r ∈ (pragmaIds row col ids).2, r.id ∈ [S "E0011", S "E0012"] := by
  induction ids with
  | nil => simp [pragmaIds]
  | cons i is ih =>
    simp only [pragmaIds]
    split <;> intro r hr
    · exact ih r hr
    · rcases List.mem_cons.1 hr with rfl | hr
      · simp
      · exact ih r hr

theorem pragmaItems_codes (row : Nat) (items : List Str) : ∀ col,
    ∀ r ∈ (pragmaItems row col items).2, r.id ∈ [S "E0011", S "E0012"] := by
  induction items with
  | nil => simp [pragmaItems]
  | cons i is ih =>
    intro col r hr
    simp only [pragmaItems] at hr
    split at hr
    · rcases List.mem_cons.1 hr with rfl | hr
      · simp
      · exact ih _ r hr
    · split at hr
      · rcases List.mem_append.1 hr with hr | hr
        · exact pragmaIds_codes _ _ _ r hr
        · exact ih _ r hr
      · rcases List.mem_cons.1 hr with rfl | hr
        · simp
        · exact ih _ r hr

theorem pragmas_codes (ns : List Node) : ∀ r ∈ (pragmas ns).2, r.id ∈ [S "E0011", S "E0012"] := by
  induction ns with
  | nil => simp [pragmas]
  | cons n ns ih =>
    cases n with
    | node => exact ih
    | tok t =>
      intro r hr
      simp only [pragmas] at hr
      split at hr
      · rcases List.mem_append.1 hr with hr | hr
        · unfold pragmaComment at hr
          split at hr
          · simp at hr
          · exact pragmaItems_codes _ _ _ r hr
        · exact ih r hr
      · exact ih r hr

/-- Codes of pragmas; the empty one stands for calls that record nothing. -/
def pragmaCodes : List Str := [S "E0011", S "E0012", []]

theorem codes_map {l : List Rec} (h : ∀ r ∈ l, r.id ∈ [S "E0011", S "E0012"]) : Codes pragmaCodes (l.map .record) := by
  intro c hc
  simp only [List.mem_map] at hc
  obtain ⟨r, hr, rfl⟩ := hc
  have := h r hr
  simp only [List.mem_cons, List.not_mem_nil, or_false] at this
  rcases this with e | e <;> simp [codeOf, e, pragmaCodes]

theorem bodyComment_codes {supp new : List Str} {n : Node} {c : List Call} (h : checkBodyComment supp n = .ok (c, new)) :
    Codes pragmaCodes c := by
  unfold checkBodyComment at h
  dsimp only at h
  split at h
  · split at h
    · simp only [Except.ok.injEq, Prod.mk.injEq] at h
      rw [← h.1]
      exact codes_map (pragmas_codes _)
    · simp only [res_bind, res_pure, Prod.mk.injEq] at h
      obtain ⟨line, _, rfl, _⟩ := h
      refine (codes_map (pragmas_codes _)).append ?_
      intro c hc
      simp only [List.mem_singleton] at hc
      subst hc
      simp [codeOf, pragmaCodes]
  · simp only [Except.ok.injEq, Prod.mk.injEq] at h
    rw [← h.1]
    exact codes_nil _

theorem doc_codes {o : Opts} {p0 p1 : Option Node} {n : Node} {c : List Call} (h : checkDoc o p0 p1 n = .ok c) :
    Codes [S "C0111", S "C0112"] c := by
  unfold checkDoc at h
  split at h
  · simp at h
  · split at h
    · split at h
      · simp only [res_bind, res_pure] at h
        obtain ⟨_, _, rfl⟩ := h
        exact codes_one (by simp)
      · split at h
        · simp only [res_bind, res_pure] at h
          obtain ⟨_, _, rfl⟩ := h
          exact codes_one (by simp)
        · simp only [Except.ok.injEq] at h
          subst h
          exact codes_nil _
    · simp only [Except.ok.injEq] at h
      subst h
      exact codes_nil _
  · simp only [Except.ok.injEq] at h
    subst h
    exact codes_nil _

theorem spacing_codes (o : Opts) (p : Option Node) (n : Node) : Codes [S "C0321", S "C0305"] (checkSpacing o p n) := by
  unfold checkSpacing
  repeat' split
  all_goals first | exact codes_nil _ | exact codes_one (by simp)

theorem reach_codes (n : Node) (ns : List Node) : Codes [S "W0101"] (checkReach n ns) := by
  unfold checkReach
  repeat' split
  all_goals first | exact codes_nil _ | exact codes_one (by simp)

theorem loops_codes {o : Opts} : ∀ {ss : List Spot} {c : List Call}, checkLoops o ss = .ok c → Codes [S "C0201"] c
  | [], c, h => by
    simp only [checkLoops, Except.ok.injEq] at h
    subst h
    exact codes_nil _
  | s :: ss, c, h => by
    simp only [checkLoops] at h
    split at h
    · split at h
      · simp at h
      · simp at h
      · simp only [res_bind] at h
        obtain ⟨n, _, h⟩ := h
        split at h
        · simp only [res_pure] at h
          subst h
          exact codes_one (by simp)
        · exact loops_codes h
    · exact loops_codes h

theorem custom_codes {o : Opts} {b : Node} {c : List Call} (h : checkCustomParser o b = .ok c) : Codes [S "C0201"] c := by
  unfold checkCustomParser at h
  split at h
  · exact loops_codes h
  · simp only [Except.ok.injEq] at h
    subst h
    exact codes_nil _

theorem params_codes (o : Opts) (ts : List Token) : ∀ seen uncased,
    Codes [S "E0109", S "E0108", S "C0202", S "C0103"] (checkParams o seen uncased ts) := by
  induction ts with
  | nil => intro _ _; exact codes_nil _
  | cons t ts ih =>
    intro seen uncased
    simp only [checkParams]
    split
    · exact codes_nil _
    · split
      · exact Codes.cons (by simp) (ih _ _)
      · refine Codes.append ?_ (ih _ _)
        repeat' split
        all_goals first | exact codes_nil _ | exact codes_one (by simp)

theorem argNames_codes (o : Opts) (n : Node) :
    Codes [S "E0109", S "E0108", S "C0202", S "C0103", S "R0913"] (checkArgNames o n) := by
  simp only [checkArgNames]
  refine Codes.append ((params_codes o _ _ _).mono (by simp)) ?_
  split
  · exact codes_one (by simp)
  · exact codes_nil _

theorem defName_codes {o : Opts} {p : Str} {n : Node} {c : List Call} (h : checkDefName o p n = .ok c) :
    Codes [S "C0103"] c := by
  unfold checkDefName at h
  split at h
  · simp only [Except.ok.injEq] at h
    subst h
    exact codes_if (codes_nil _) (codes_one (by simp))
  · simp at h

theorem count_codes (code : Str) (line : Nat) (limit : Int) (n : Nat) : Codes [code] (checkCount code line limit n) := by
  unfold checkCount
  exact codes_if (codes_one (by simp)) (codes_nil _)

theorem foreach_codes {o : Opts} {n : Node} {c : List Call} (h : checkForeach o n = .ok c) : Codes [S "C0103"] c := by
  unfold checkForeach at h
  split at h
  · simp only [Except.ok.injEq] at h
    subst h
    exact codes_if (codes_nil _) (codes_one (by simp))
  · simp at h

theorem keywords_codes : ∀ (ns : List Node) (seen : List Str) {c : List Call}, checkKeywords seen ns = .ok c →
    Codes [S "E1122"] c
  | [], seen, c, h => by
    simp only [checkKeywords, Except.ok.injEq] at h
    subst h
    exact codes_nil _
  | n :: ns, seen, c, h => by
    simp only [checkKeywords] at h
    split at h
    · split at h
      · simp at h
      · split at h
        · exact keywords_codes ns _ h
        · simp only [res_bind, res_pure] at h
          obtain ⟨more, h1, rfl⟩ := h
          refine Codes.append ?_ (keywords_codes ns _ h1)
          exact codes_if (codes_one (by simp)) (codes_nil _)
    · exact keywords_codes ns _ h

theorem positional_codes {a : Attr} {n : Node} {c : List Call} (h : checkPositional a n = .ok c) : Codes [S "E1120"] c := by
  unfold checkPositional at h
  split at h
  · simp at h
  · simp only [res_bind, res_pure] at h
    obtain ⟨least, _, rfl⟩ := h
    exact codes_if (codes_one (by simp)) (codes_nil _)

theorem inLoop_codes (anc : List Frame) (n : Node) : Codes [S "E0103"] (checkInLoop anc n) := by
  unfold checkInLoop
  exact codes_if (codes_nil _) (codes_one (by simp))

theorem assigned_codes (o : Opts) (s : Scope) (t : Token) : Codes [S "C0103"] (checkAssigned o s t) := by
  simp only [checkAssigned]
  exact codes_if (codes_nil _) (codes_if (codes_nil _) (codes_one (by simp)))

theorem assignment_codes {o : Opts} {anc : List Frame} {n : Node} {c : List Call} (h : checkAssignment o anc n = .ok c) :
    Codes [S "C0103"] c := by
  simp only [checkAssignment, res_bind] at h
  obtain ⟨scope, _, h⟩ := h
  split at h
  · split at h
    · split at h
      · simp at h
      · simp only [res_pure] at h
        subst h
        exact assigned_codes _ _ _
    · simp at h
  · simp only [res_bind] at h
    obtain ⟨v, _, h⟩ := h
    split at h
    · simp only [res_pure] at h
      subst h
      exact codes_nil _
    · simp only [res_pure] at h
      subst h
      exact assigned_codes _ _ _

theorem comment_codes {anc : List Frame} {n : Node} {c : List Call} (h : checkComment anc n = .ok c) :
    Codes pragmaCodes c := by
  unfold checkComment at h
  dsimp only at h
  split at h
  · split at h
    · simp only [Except.ok.injEq] at h
      subst h
      exact codes_map (pragmas_codes _)
    · simp only [res_bind, res_pure] at h
      obtain ⟨line, _, rfl⟩ := h
      refine (codes_map (pragmas_codes _)).append ?_
      intro c hc
      simp only [List.mem_cons, List.not_mem_nil, or_false] at hc
      rcases hc with rfl | rfl <;> simp [codeOf, pragmaCodes]
  · simp only [Except.ok.injEq] at h
    subst h
    exact codes_nil _

/-- The codes of the checks of bodies. -/
def bodyCodes : List Str :=
  [S "E0011", S "E0012", [], S "C0111", S "C0112", S "C0321", S "C0305", S "W0101"]

theorem items_codes (o : Opts) : ∀ (ns : List Node) (p0 p1 : Option Node) (supp supp' : List Str) (c : List Call),
    checkItems o p0 p1 supp ns = .ok (c, supp') → Codes bodyCodes c
  | [], p0, p1, supp, supp', c, h => by
    simp only [checkItems, Except.ok.injEq, Prod.mk.injEq] at h
    rw [← h.1]
    exact codes_nil _
  | .tok t :: ns, p0, p1, supp, supp', c, h => by
    simp only [checkItems] at h
    exact items_codes o ns _ _ _ _ _ h
  | .node ty a cs :: ns, p0, p1, supp, supp', c, h => by
    simp only [checkItems, res_bind, res_pure] at h
    obtain ⟨⟨c1, new⟩, h1, c2, h2, ⟨more, s⟩, h3, h4⟩ := h
    simp only [Prod.mk.injEq] at h4
    obtain ⟨rfl, rfl⟩ := h4
    have k1 := (bodyComment_codes h1).mono (ds := bodyCodes) (by simp [pragmaCodes, bodyCodes])
    have k2 := (doc_codes h2).mono (ds := bodyCodes) (by simp [bodyCodes])
    have k3 := (spacing_codes o p0 (.node ty a cs)).mono (ds := bodyCodes) (by simp [bodyCodes])
    have k4 := (reach_codes (.node ty a cs) ns).mono (ds := bodyCodes) (by simp [bodyCodes])
    exact (((k1.append k2).append k3).append k4).append (items_codes o ns _ _ _ _ _ h3)

theorem body_codes {o : Opts} {n : Node} {c : List Call} (h : checkBody o n = .ok c) : Codes bodyCodes c := by
  simp only [checkBody, res_bind, res_pure] at h
  obtain ⟨⟨calls, supp⟩, h1, line, _, rfl⟩ := h
  refine (items_codes o _ _ _ _ _ _ h1).append ?_
  split
  · exact codes_nil _
  · intro c hc
    simp only [List.mem_singleton] at hc
    subst hc
    simp [codeOf, bodyCodes]

/-- The codes of the checks of blocks. -/
def flowCodes : List Str :=
  [S "C0201", S "C0103", S "E0109", S "E0108", S "C0202", S "R0913", S "R0911", S "R0912", S "R0915"]

theorem defn_codes {o : Opts} {p : Str} {s b : Node} {c : List Call} (h : checkDefn o p s b = .ok c) : Codes flowCodes c := by
  simp only [checkDefn, res_bind, res_pure] at h
  obtain ⟨c1, h1, c2, h2, line, _, rfl⟩ := h
  have k1 := (custom_codes h1).mono (ds := flowCodes) (by simp [flowCodes])
  have k2 := (defName_codes h2).mono (ds := flowCodes) (by simp [flowCodes])
  have k3 := (argNames_codes o s).mono (ds := flowCodes) (by simp [flowCodes])
  refine Codes.append (Codes.append (Codes.append (Codes.append (Codes.append k1 k2) k3) ?_) ?_) ?_ <;>
    exact (count_codes _ _ _ _).mono (by simp [flowCodes])

theorem flow_codes {o : Opts} {ns : List Node} {c : List Call} (h : checkFlow o ns = .ok c) : Codes flowCodes c := by
  unfold checkFlow at h
  split at h
  · simp at h
  · split at h
    · split at h
      · simp at h
      · exact defn_codes h
    · split at h
      · split at h
        · simp at h
        · exact defn_codes h
      · split at h
        · exact (foreach_codes h).mono (by simp [flowCodes])
        · simp only [Except.ok.injEq] at h
          subst h
          exact codes_nil _

theorem statement_codes {o : Opts} {anc : List Frame} {n : Node} {c : List Call} (h : checkStatement o anc n = .ok c) :
    Codes [S "E0103", S "C0103"] c := by
  unfold checkStatement at h
  split at h
  · simp only [Except.ok.injEq] at h
    subst h
    exact (inLoop_codes _ _).mono (by simp)
  · split at h
    · exact (assignment_codes h).mono (by simp)
    · simp only [Except.ok.injEq] at h
      subst h
      exact codes_nil _

theorem varname_codes (name : Str) (t : Token) (c : Str) : Codes [S "W0105"] (checkVarname name t c) := by
  unfold checkVarname
  split
  · exact codes_nil _
  · exact codes_nil _
  · exact codes_if (codes_nil _) (codes_one (by simp))

theorem assigns_codes : ∀ (ss : List Spot) {c : List Call}, checkAssigns ss = .ok c → Codes [S "W0105"] c
  | [], c, h => by
    simp only [checkAssigns, Except.ok.injEq] at h
    subst h
    exact codes_nil _
  | s :: ss, c, h => by
    simp only [checkAssigns, res_bind, res_pure] at h
    obtain ⟨t, _, more, h1, rfl⟩ := h
    exact (varname_codes _ _ _).append (assigns_codes ss h1)

theorem refs_codes (ts : List Token) : Codes [S "W0105"] (checkRefs ts) := by
  intro c hc
  simp only [checkRefs, List.mem_flatMap] at hc
  obtain ⟨t, _, hc⟩ := hc
  split at hc
  · simp only [List.mem_flatMap] at hc
    obtain ⟨n, _, hc⟩ := hc
    exact varname_codes _ _ _ c hc
  · simp at hc

/-- The records of a code that only the checks of nodes make. -/
theorem parseTree_calls {o : Opts} {tree : Node} {calls : List Call} {code : Str} (hc : code ≠ S "C0307")
    (hv : code ≠ S "W0105") (h : checkParseTree o tree = .ok calls) :
    only code calls = (visits [] tree).flatMap (fun v => only code (callsOf (checkNode o v.1 v.2))) ∧
      ∀ v ∈ visits [] tree, ∃ c, checkNode o v.1 v.2 = .ok c := by
  simp only [checkParseTree, res_bind, res_pure] at h
  obtain ⟨c1, h1, ⟨c3, p⟩, h3, rfl⟩ := h
  have := tree_calls o hc tree _ _ _ _ h3
  rw [only_append, only_append, (assigns_codes _ h1).only (by simpa using hv), (refs_codes _).only (by simpa using hv)]
  simpa using this

end Verif.Lint
