import Verif.LintLinks
import Verif.LintLemmas
import Verif.Props.Groups

/-!
# From the checks to the report (lemmas for the lint checks)
-/

namespace Verif.Lint
open Verif Py Lex Parse

/-! ## Files without pragmas -/

/-- No comment of the list starts with `# cmake-lint: `. -/
def NoPragma (ts : List Token) : Prop :=
  ∀ t ∈ ts, t.type = .comment → ∀ rest, t.spelling ≠ c! "# cmake-lint: " ++ rest

theorem stripPrefix_none {p s : Str} (h : ∀ rest, s ≠ p ++ rest) : stripPrefix? p s = none := by
  cases e : stripPrefix? p s with
  | none => rfl
  | some r =>
    exfalso
    have : ∀ (p s r : Str), stripPrefix? p s = some r → s = p ++ r := by
      intro p
      induction p with
      | nil => intro s r h; simp only [stripPrefix?, Option.some.injEq] at h; simpa using h
      | cons c p ih =>
        intro s r h
        cases s with
        | nil => simp [stripPrefix?] at h
        | cons d s =>
          simp only [stripPrefix?] at h
          split at h
          · rename_i hcd
            rw [hcd, ih s r h]
            rfl
          · simp at h
    exact h r (this p s r e)

theorem pragmas_none {ns : List Node} (h : NoPragma (toksL ns)) : pragmas ns = ([], []) := by
  induction ns with
  | nil => rfl
  | cons n ns ih =>
    have ih := ih fun t ht => h t (by simp [ht])
    cases n with
    | node ty a cs => simpa [pragmas] using ih
    | tok t =>
      simp only [pragmas, ih, List.append_nil]
      split
      · rename_i hc
        have : stripPrefix? (S "# cmake-lint: ") t.spelling = none := stripPrefix_none (h t (by simp) hc)
        rw [pragmaComment, this]
      · rfl

theorem sub_toks {m n : Node} (h : Sub m n) : ∀ t ∈ m.toks, t ∈ n.toks := by
  induction h with
  | refl => exact fun _ h => h
  | child hc _ ih =>
    intro t ht
    rw [toks_node]
    rename_i cs _
    have ih := ih t ht
    clear ht
    induction cs with
    | nil => simp at hc
    | cons c cs IH =>
      rw [toksL_cons, List.mem_append]
      rcases List.mem_cons.1 hc with rfl | hc
      · exact Or.inl ih
      · exact Or.inr (IH hc)

theorem bodyComment_quiet {supp new : List Str} {n : Node} {c : List Call} (hp : NoPragma n.toks)
    (h : checkBodyComment supp n = .ok (c, new)) : c = [] ∧ new = [] := by
  have : pragmas (kidsOf n) = ([], []) := by
    cases n with
    | tok t => rfl
    | node ty a cs => exact pragmas_none (by simpa [kidsOf] using hp)
  unfold checkBodyComment at h
  rw [this] at h
  dsimp only at h
  split at h
  · simp only [if_true, List.map_nil, Except.ok.injEq, Prod.mk.injEq] at h
    exact ⟨h.1.symm, h.2.symm⟩
  · simp only [Except.ok.injEq, Prod.mk.injEq] at h
    exact ⟨h.1.symm, h.2.symm⟩

theorem items_quiet (o : Opts) : ∀ (ns : List Node) (p0 p1 : Option Node) (supp' : List Str) (c : List Call),
    NoPragma (toksL ns) → checkItems o p0 p1 [] ns = .ok (c, supp') → only [] c = [] ∧ supp' = []
  | [], p0, p1, supp', c, _, h => by
    simp only [checkItems, Except.ok.injEq, Prod.mk.injEq] at h
    rw [← h.1, ← h.2]
    exact ⟨rfl, rfl⟩
  | .tok t :: ns, p0, p1, supp', c, hp, h => by
    simp only [checkItems] at h
    exact items_quiet o ns _ _ _ _ (fun t ht => hp t (by simp [ht])) h
  | .node ty a cs :: ns, p0, p1, supp', c, hp, h => by
    simp only [checkItems, res_bind, res_pure] at h
    obtain ⟨⟨c1, new⟩, h1, c2, h2, ⟨more, s⟩, h3, h4⟩ := h
    simp only [Prod.mk.injEq] at h4
    obtain ⟨rfl, rfl⟩ := h4
    obtain ⟨rfl, rfl⟩ := bodyComment_quiet (fun t ht => hp t (by rw [toksL_cons]; exact List.mem_append_left _ ht)) h1
    have k2 := (doc_codes h2).only (code := []) (by decide)
    have k3 := (spacing_codes o p0 (.node ty a cs)).only (code := []) (by decide)
    have k4 := (reach_codes (.node ty a cs) ns).only (code := []) (by decide)
    obtain ⟨k5, k6⟩ := items_quiet o ns _ _ _ _ (fun t ht => hp t (by simp [ht])) h3
    refine ⟨?_, k6⟩
    simp [only_append, k2, k3, k4, k5]

theorem node_quiet {o : Opts} {anc : List Frame} {n : Node} {c : List Call} (hp : NoPragma n.toks)
    (h : checkNode o anc n = .ok c) : only [] c = [] := by
  unfold checkNode at h
  split at h
  · simp only [Except.ok.injEq] at h; subst h; rfl
  · rename_i a cs
    simp only [checkBody, res_bind, res_pure] at h
    obtain ⟨⟨calls, supp⟩, h1, line, _, rfl⟩ := h
    obtain ⟨k1, k2⟩ := items_quiet o _ _ _ _ _ (by simpa [kidsOf] using hp) h1
    simp [only_append, k1, k2]
  · exact (flow_codes h).only (by decide)
  · exact (keywords_codes _ _ h).only (by decide)
  · exact (statement_codes h).only (by decide)
  · exact (positional_codes h).only (by decide)
  · split at h
    · simp only [Except.ok.injEq] at h; subst h; rfl
    · rename_i a cs _
      unfold checkComment at h
      rw [show pragmas (kidsOf (.node .comment a cs)) = ([], []) from pragmas_none (by simpa [kidsOf] using hp)] at h
      dsimp only at h
      split at h
      · simp only [if_true, List.map_nil, Except.ok.injEq] at h
        subst h; rfl
      · simp only [Except.ok.injEq] at h; subst h; rfl
  · simp only [Except.ok.injEq] at h; subst h; rfl

/-- Without pragmas nothing is suppressed. -/
theorem tree_quiet {o : Opts} {tree : Node} {calls : List Call} (hp : NoPragma tree.toks)
    (h : checkParseTree o tree = .ok calls) : only [] calls = [] := by
  obtain ⟨h1, h2⟩ := parseTree_calls (code := []) (by decide) (by decide) h
  rw [h1, List.flatMap_eq_nil_iff]
  intro v hv
  obtain ⟨c, e⟩ := h2 v hv
  rw [e]
  exact node_quiet (fun t ht => hp t (sub_toks (visits_sub _ _ _ hv) t ht)) e

/-- The records among some calls. -/
def recsOf (calls : List Call) : List Rec := calls.filterMap fun c => match c with | .record r => some r | _ => none

theorem records_of_quiet {calls : List Call} (h : only [] calls = []) : ∃ rs : List Rec, calls = rs.map .record := by
  induction calls with
  | nil => exact ⟨[], rfl⟩
  | cons c cs ih =>
    simp only [only, List.filter_cons] at h
    split at h
    · simp at h
    · rename_i hc
      obtain ⟨rs, rfl⟩ := ih h
      cases c with
      | suppress l ids => simp [codeOf] at hc
      | unsuppress l ids => simp [codeOf] at hc
      | record r => exact ⟨r :: rs, rfl⟩

theorem run_records (d : List Str) (rs : List Rec) : ∀ (c c' : Ctx), c.supp = [] → c.run d (rs.map .record) = some c' →
    c'.lint = c.lint ++ rs.filter (fun r => decide (r.id ∉ d)) ∧ c'.events = c.events ∧ c'.supp = [] := by
  induction rs with
  | nil =>
    intro c c' hs h
    simp only [List.map_nil, Ctx.run, Option.some.injEq] at h
    subst h
    simp [hs]
  | cons r rs ih =>
    intro c c' hs h
    simp only [List.map_cons, Ctx.run, Ctx.call, hs, List.not_mem_nil, if_false] at h
    split at h
    · rename_i hd
      obtain ⟨h1, h2, h3⟩ := ih _ _ hs (by simpa using h)
      exact ⟨by simp [h1, hd], h2, h3⟩
    · rename_i hd
      split at h
      · obtain ⟨h1, h2, h3⟩ := ih _ _ rfl (by simpa [hs] using h)
        exact ⟨by simp [h1, hd], by simpa using h2, h3⟩
      · simp at h

theorem sweep_free (rs : List Rec) : sweep [] [] rs = rs := by
  induction rs with
  | nil => rfl
  | cons r rs ih =>
    rw [sweep]
    cases r.loc <;> simp [popEvents, ih]

/-! ## The codes of the other checks -/

/-- Codes of the line checks. -/
def lineCodes : List Str := [S "C0301", S "C0327", S "C0303", S "C0306", S "C0304"]

/-- Codes that the parser records. -/
def parserCodes : List Str :=
  [S "E1120", S "E1121", S "E1122", S "E1125", S "E1126", S "C0113", S "C0114", S "W0106"]

theorem basics_codes (cfg : Cfg) (text : Str) : ∀ r ∈ checkBasics cfg text, r.id ∈ lineCodes := by
  have lines : ∀ (ls : List Str) (n : Nat), ∀ r ∈ checkLines cfg n ls, r.id ∈ lineCodes := by
    intro ls
    induction ls with
    | nil => intro n r hr; simp [checkLines] at hr
    | cons l ls ih =>
      intro n r hr
      simp only [checkLines, List.mem_append] at hr
      rcases hr with hr | hr
      · simp only [checkLine, List.mem_append] at hr
        rcases hr with ((hr | hr) | hr) | hr
        · unfold checkLength at hr
          split at hr
          · simp only [List.mem_singleton] at hr; subst hr; simp [lineCodes]
          · simp at hr
        · unfold checkEnding at hr
          repeat' split at hr
          all_goals first | (simp only [List.mem_singleton] at hr; subst hr; simp [lineCodes]) | simp at hr
        · unfold checkTrailing at hr
          split at hr
          · simp only [List.mem_singleton] at hr; subst hr; simp [lineCodes]
          · simp at hr
        · unfold checkIndent at hr
          dsimp only at hr
          repeat' split at hr
          all_goals first | (simp only [List.mem_singleton] at hr; subst hr; simp [lineCodes]) | simp at hr
      · exact ih _ r hr
  intro r hr
  simp only [checkBasics, List.mem_append] at hr
  rcases hr with hr | hr
  · exact lines _ _ r hr
  · split at hr
    · simp at hr
    · simp only [List.mem_singleton] at hr; subst hr; simp [lineCodes]

theorem tokens_codes : ∀ (ts : List Token) (cat : Option Str) {c : List Call}, checkTokens cat ts = .ok c →
    ∃ rs : List Rec, c = rs.map .record ∧ ∀ r ∈ rs, r.id = S "W0106"
  | [], cat, c, h => by
    simp only [checkTokens, Except.ok.injEq] at h
    exact ⟨[], by simp [← h], by simp⟩
  | t :: ts, cat, c, h => by
    have ih := fun (cat : Option Str) {c : List Call} (h : checkTokens cat ts = .ok c) => tokens_codes ts cat h
    have one : ∀ (x : Rec) (cat : Option Str) (c : List Call), x.id = S "W0106" →
        (do let more ← checkTokens cat ts; return .record x :: more : Res (List Call)) = .ok c →
        ∃ rs : List Rec, c = rs.map .record ∧ ∀ r ∈ rs, r.id = S "W0106" := by
      intro x cat c hx h
      simp only [res_bind, res_pure] at h
      obtain ⟨more, h1, rfl⟩ := h
      obtain ⟨rs, rfl, hr⟩ := ih cat h1
      exact ⟨x :: rs, rfl, by simpa [hx] using hr⟩
    simp only [checkTokens] at h
    repeat' split at h
    all_goals first
      | exact ih _ h
      | exact one _ _ _ rfl h
      | (simp at h; done)

/-! ## The report -/

/-- Linting a text: the line checks, the token checks, what the parser records (`parseLint`), and the
checks of the tree, lint/__main__.py:27-47; then the report. -/
def lintText (o : Opts) (cfg : Cfg) (parseLint : List Token → List Rec) (ctx : Parse.Ctx) (text : Str) : Option (List Rec) :=
  match checkFile o parseLint ctx text with
  | .error _ => none
  | .ok calls => (Ctx.run cfg.disabled {} ((checkBasics cfg text).map .record ++ calls)).map Ctx.getLint

theorem lintText_ok {o : Opts} {cfg : Cfg} {parseLint : List Token → List Rec} {ctx : Parse.Ctx} {text : Str}
    {rs : List Rec} (h : lintText o cfg parseLint ctx text = some rs) :
    ∃ calls c, checkFile o parseLint ctx text = .ok calls ∧
      Ctx.run cfg.disabled {} ((checkBasics cfg text).map .record ++ calls) = some c ∧ c.getLint = rs := by
  unfold lintText at h
  split at h
  · simp at h
  · rename_i calls hc
    obtain ⟨c, h1, h2⟩ := Option.map_eq_some_iff.1 h
    exact ⟨calls, c, hc, h1, h2⟩

theorem checkFile_ok {o : Opts} {parseLint : List Token → List Rec} {ctx : Parse.Ctx} {text : Str} {calls : List Call}
    (h : checkFile o parseLint ctx text = .ok calls) :
    ∃ ts c1 tree c2, tokenize text = .ok ts ∧ checkTokens none ts = .ok c1 ∧ parse ctx ts = .ok tree ∧
      checkParseTree o tree = .ok c2 ∧ calls = c1 ++ (parseLint ts).map .record ++ c2 := by
  unfold checkFile at h
  split at h
  · simp at h
  · rename_i ts hts
    split at h
    · simp at h
    · rename_i c1 hc1
      split at h
      · simp at h
      · rename_i tree htree
        split at h
        · simp at h
        · rename_i c2 hc2
          simp only [Except.ok.injEq] at h
          exact ⟨ts, c1, tree, c2, hts, hc1, htree, hc2, h.symm⟩

/-- The parser records only its own codes. -/
def ParserLint (parseLint : List Token → List Rec) : Prop := ∀ ts, ∀ r ∈ parseLint ts, r.id ∈ parserCodes

/-- A code that only the checks of the tree use. -/
structure TreeCode (code : Str) : Prop where
  line : code ∉ lineCodes
  parser : code ∉ parserCodes
  token : code ≠ S "W0106"
  some : code ≠ []

theorem record_only {code : Str} (r2 : List Rec) :
    only code (r2.map Call.record) = (r2.filter fun r => r.id == code).map Call.record := by
  simp only [only, List.filter_map]
  rfl

/-- Without pragmas the report has, for a code of the tree checks, what they record. -/
theorem report_code {o : Opts} {cfg : Cfg} {parseLint : List Token → List Rec} {ctx : Parse.Ctx} {text : Str}
    {rs : List Rec} (h : lintText o cfg parseLint ctx text = some rs) (hpl : ParserLint parseLint) :
    ∃ ts tree calls, tokenize text = .ok ts ∧ parse ctx ts = .ok tree ∧ checkParseTree o tree = .ok calls ∧
      ∀ code, TreeCode code → NoPragma tree.toks → code ∉ cfg.disabled →
        ((rs.filter fun r => r.id == code).map Call.record).Perm (only code calls) := by
  obtain ⟨calls, c, h1, h2, h3⟩ := lintText_ok h
  obtain ⟨ts, c1, tree, c2, hts, hc1, htree, hc2, rfl⟩ := checkFile_ok h1
  refine ⟨ts, tree, c2, hts, htree, hc2, ?_⟩
  intro code ⟨hl, hp, hw, hne⟩ hnp hd
  obtain ⟨r1, rfl, hr1⟩ := tokens_codes _ _ hc1
  obtain ⟨r2, rfl⟩ := records_of_quiet (tree_quiet hnp hc2)
  have e : (checkBasics cfg text).map Call.record ++ (r1.map Call.record ++ (parseLint ts).map Call.record ++
      r2.map Call.record) = (checkBasics cfg text ++ (r1 ++ parseLint ts ++ r2)).map .record := by
    simp
  rw [e] at h2
  obtain ⟨k1, k2, _⟩ := run_records _ _ _ _ rfl h2
  have : rs = sortBy recLe c.lint := by
    rw [← h3, Ctx.getLint, k2]
    exact sweep_free _
  have hperm : rs.Perm c.lint := by rw [this]; exact sortBy_perm _ _
  have hfin : (c.lint.filter fun r => r.id == code) = r2.filter fun r => r.id == code := by
    rw [k1]
    simp only [List.nil_append, List.filter_filter, List.filter_append]
    have zero : ∀ (l : List Rec), (∀ r ∈ l, r.id ≠ code) →
        l.filter (fun r => r.id == code && decide (r.id ∉ cfg.disabled)) = [] := by
      intro l hl
      rw [List.filter_eq_nil_iff]
      intro r hr
      simp [hl r hr]
    rw [zero _ fun r hr e => hl (e ▸ basics_codes _ _ r hr), zero _ fun r hr e => hw (e ▸ hr1 r hr),
      zero _ fun r hr e => hp (e ▸ hpl _ r hr)]
    simp only [List.nil_append]
    apply List.filter_congr
    intro r _
    by_cases e : r.id = code
    · subst e; simp [hd]
    · simp [e]
  rw [record_only, ← hfin]
  exact (hperm.filter _).map _

theorem sweep_sublist : ∀ (rs : List Rec) (a : List Str) (es : List Event), (sweep a es rs).Sublist rs
  | [], a, es => by simp [sweep]
  | r :: rs, a, es => by
    have : ∀ s : List Str × List Event,
        (if r.id ∈ s.1 then sweep s.1 s.2 rs else r :: sweep s.1 s.2 rs).Sublist (r :: rs) := by
      intro s
      split
      · exact (sweep_sublist rs _ _).cons _
      · exact (sweep_sublist rs _ _).cons_cons _
    exact this _

theorem run_count (d : List Str) (r : Rec) : ∀ (calls : List Call) (c c' : Ctx), c.run d calls = some c' →
    c'.lint.count r ≤ c.lint.count r + calls.count (.record r)
  | [], c, c', h => by
    simp only [Ctx.run, Option.some.injEq] at h
    simp [h]
  | x :: calls, c, c', h => by
    simp only [Ctx.run] at h
    obtain ⟨d1, h1, h2⟩ := Option.bind_eq_some_iff.1 h
    have ih := run_count d r calls _ _ h2
    have : d1.lint.count r ≤ c.lint.count r + [x].count (.record r) := by
      cases x with
      | suppress l ids =>
        simp only [Ctx.call, Option.some.injEq] at h1
        rw [← h1]
        simp
      | unsuppress l ids =>
        simp only [Ctx.call, Option.some.injEq] at h1
        rw [← h1]
        simp
      | record r' =>
        simp only [Ctx.call] at h1
        repeat' split at h1
        all_goals first
          | (simp at h1; done)
          | (simp only [Option.some.injEq] at h1; rw [← h1]; simp only [List.count_append]
             by_cases e : r' = r
             · subst e; simp
             · simp [e])
          | (simp only [Option.some.injEq] at h1; rw [← h1]; omega)
    have e : (x :: calls).count (Call.record r) = [x].count (.record r) + calls.count (.record r) := by
      rw [← List.count_append]; rfl
    omega

/-- With or without pragmas, nothing is reported that the checks do not record. -/
theorem report_le {o : Opts} {cfg : Cfg} {parseLint : List Token → List Rec} {ctx : Parse.Ctx} {text : Str}
    {rs : List Rec} (h : lintText o cfg parseLint ctx text = some rs) (hpl : ParserLint parseLint) :
    ∃ ts tree calls, tokenize text = .ok ts ∧ parse ctx ts = .ok tree ∧ checkParseTree o tree = .ok calls ∧
      ∀ r, TreeCode r.id → rs.count r ≤ (only r.id calls).count (.record r) := by
  obtain ⟨calls, c, h1, h2, h3⟩ := lintText_ok h
  obtain ⟨ts, c1, tree, c2, hts, hc1, htree, hc2, rfl⟩ := checkFile_ok h1
  refine ⟨ts, tree, c2, hts, htree, hc2, ?_⟩
  intro r ⟨hl, hp, hw, hne⟩
  obtain ⟨r1, rfl, hr1⟩ := tokens_codes _ _ hc1
  have k := run_count cfg.disabled r _ _ _ h2
  have zero : ∀ (l : List Rec), (∀ x ∈ l, x.id ≠ r.id) → (l.map Call.record).count (.record r) = 0 := by
    intro l hl
    rw [List.count_eq_zero]
    intro hm
    obtain ⟨x, hx, e⟩ := List.mem_map.1 hm
    simp only [Call.record.injEq] at e
    subst e
    exact hl x hx rfl
  simp only [List.count_append, zero _ fun x hx e => hl (e ▸ basics_codes _ _ x hx), zero _ fun x hx e => hw (e ▸ hr1 x hx),
    zero _ fun x hx e => hp (e ▸ hpl _ x hx), List.count_nil, Nat.zero_add, Nat.add_zero] at k
  have e1 : (only r.id c2).count (.record r) = c2.count (.record r) := by
    simp only [only]
    exact List.count_filter (by simp [codeOf])
  have e2 : rs.count r ≤ c.lint.count r := by
    rw [← h3, Ctx.getLint, ← (sortBy_perm recLe c.lint).count_eq]
    exact (sweep_sublist _ _ _).count_le _
  omega

/-! ## Nothing stays suppressed between bodies -/

theorem addNew_congr {a b : List Str} (h : ∀ i, i ∈ a ↔ i ∈ b) (ids : List Str) : (addNew a ids).2 = (addNew b ids).2 := by
  induction ids generalizing a b with
  | nil => rfl
  | cons j ids ih =>
    simp only [addNew]
    by_cases hj : j ∈ a
    · rw [if_pos hj, if_pos ((h j).1 hj), ih h]
    · rw [if_neg hj, if_neg (fun e => hj ((h j).2 e))]
      simp only [List.cons.injEq, true_and]
      exact ih fun i => by simp [h i]

theorem run_records_supp (d : List Str) (rs : List Rec) : ∀ (c c' : Ctx), c.run d (rs.map .record) = some c' →
    c'.supp = c.supp := by
  induction rs with
  | nil => intro c c' h; simp only [List.map_nil, Ctx.run, Option.some.injEq] at h; rw [← h]
  | cons r rs ih =>
    intro c c' h
    simp only [List.map_cons, Ctx.run, Ctx.call] at h
    repeat' split at h
    all_goals first | (simp at h; done) | (have := ih _ _ (by simpa using h); simpa using this)

theorem records_supp {d : List Str} {calls : List Call} (hq : only [] calls = []) {c c' : Ctx}
    (h : c.run d calls = some c') : c'.supp = c.supp := by
  obtain ⟨rs, rfl⟩ := records_of_quiet hq
  exact run_records_supp d rs c c' h

theorem pragma_records (l : List Rec) (h : ∀ r ∈ l, r.id ∈ [S "E0011", S "E0012"]) : only [] (l.map .record) = [] := by
  simp only [only, List.filter_eq_nil_iff, List.mem_map, beq_iff_eq]
  rintro c ⟨r, hr, rfl⟩ e
  simp only [codeOf] at e
  have := h r hr
  rw [e] at this
  revert this
  decide

theorem items_supp (o : Opts) (d : List Str) : ∀ (ns : List Node) (p0 p1 : Option Node) (supp supp' : List Str)
    (calls : List Call) (c c' : Ctx), checkItems o p0 p1 supp ns = .ok (calls, supp') → (∀ i, i ∈ c.supp ↔ i ∈ supp) →
    c.run d calls = some c' → ∀ i, i ∈ c'.supp ↔ i ∈ supp'
  | [], p0, p1, supp, supp', calls, c, c', h, hs, hr => by
    simp only [checkItems, Except.ok.injEq, Prod.mk.injEq] at h
    rw [← h.1] at hr
    simp only [Ctx.run, Option.some.injEq] at hr
    rw [← hr, ← h.2]
    exact hs
  | .tok t :: ns, p0, p1, supp, supp', calls, c, c', h, hs, hr => by
    simp only [checkItems] at h
    exact items_supp o d ns _ _ _ _ _ _ _ h hs hr
  | .node ty a cs :: ns, p0, p1, supp, supp', calls, c, c', h, hs, hr => by
    simp only [checkItems, res_bind, res_pure] at h
    obtain ⟨⟨c1, new⟩, h1, c2, h2, ⟨more, s⟩, h3, h4⟩ := h
    simp only [Prod.mk.injEq] at h4
    obtain ⟨rfl, rfl⟩ := h4
    have k2 := (doc_codes h2).only (code := []) (by decide)
    have k3 := (spacing_codes o p0 (.node ty a cs)).only (code := []) (by decide)
    have k4 := (reach_codes (.node ty a cs) ns).only (code := []) (by decide)
    have kq : only [] (c2 ++ checkSpacing o p0 (.node ty a cs) ++ checkReach (.node ty a cs) ns) = [] := by
      simp [only_append, k2, k3, k4]
    rw [show c1 ++ c2 ++ checkSpacing o p0 (.node ty a cs) ++ checkReach (.node ty a cs) ns ++ more =
      c1 ++ ((c2 ++ checkSpacing o p0 (.node ty a cs) ++ checkReach (.node ty a cs) ns) ++ more) by simp] at hr
    rw [run_append] at hr
    obtain ⟨d1, r1, hr⟩ := Option.bind_eq_some_iff.1 hr
    rw [run_append] at hr
    obtain ⟨d2, r2, hr⟩ := Option.bind_eq_some_iff.1 hr
    refine items_supp o d ns _ _ _ _ _ _ _ h3 ?_ hr
    intro i
    rw [records_supp kq r2]
    unfold checkBodyComment at h1
    dsimp only at h1
    split at h1
    · split at h1
      · simp only [Except.ok.injEq, Prod.mk.injEq] at h1
        obtain ⟨rfl, rfl⟩ := h1
        rw [records_supp (pragma_records _ (pragmas_codes _)) r1, hs]
        simp
      · simp only [res_bind, res_pure, Prod.mk.injEq] at h1
        obtain ⟨line, _, rfl, rfl⟩ := h1
        rw [run_append] at r1
        obtain ⟨d0, r0, r1⟩ := Option.bind_eq_some_iff.1 r1
        have e0 := records_supp (pragma_records _ (pragmas_codes _)) r0
        simp only [Ctx.run, Ctx.call, Option.bind_some, Option.some.injEq] at r1
        rw [← r1]
        simp only [addNew_fst, List.mem_append, addNew_snd, e0, hs]
        by_cases hi : i ∈ supp <;> simp [hi]
    · simp only [Except.ok.injEq, Prod.mk.injEq] at h1
      obtain ⟨rfl, rfl⟩ := h1
      simp only [Ctx.run, Option.some.injEq] at r1
      rw [← r1, hs]
      simp

theorem node_supp {o : Opts} {d : List Str} {anc : List Frame} {n : Node} {calls : List Call} {c c' : Ctx}
    (h : checkNode o anc n = .ok calls) (hs : c.supp = []) (hr : c.run d calls = some c') : c'.supp = [] := by
  have quietly : only [] calls = [] → c'.supp = [] := fun hq => by rw [records_supp hq hr, hs]
  have nil_of : (∀ i, ¬ i ∈ c'.supp) → c'.supp = [] := fun h => List.eq_nil_iff_forall_not_mem.2 h
  unfold checkNode at h
  split at h
  · simp only [Except.ok.injEq] at h; subst h; exact quietly rfl
  · rename_i a cs
    simp only [checkBody, res_bind, res_pure] at h
    obtain ⟨⟨cc, supp⟩, h1, line, _, rfl⟩ := h
    rw [run_append] at hr
    obtain ⟨d1, r1, hh⟩ := Option.bind_eq_some_iff.1 hr
    have k := items_supp o d _ _ _ _ _ _ _ _ h1 (by simp [hs]) r1
    split at hh
    · rename_i e
      simp only at e
      subst e
      simp only [Ctx.run, Option.some.injEq] at hh
      rw [← hh]
      exact List.eq_nil_iff_forall_not_mem.2 fun i hi => by simpa using (k i).1 hi
    · simp only [Ctx.run, Ctx.call, Option.bind_some, Option.some.injEq] at hh
      subst hh
      refine nil_of fun i hi => ?_
      simp only [List.mem_filter, decide_eq_true_eq] at hi
      exact hi.2 ((k i).1 hi.1)
  · exact quietly ((flow_codes h).only (by decide))
  · exact quietly ((keywords_codes _ _ h).only (by decide))
  · exact quietly ((statement_codes h).only (by decide))
  · exact quietly ((positional_codes h).only (by decide))
  · split at h
    · simp only [Except.ok.injEq] at h; subst h; exact quietly rfl
    · rename_i a cs _
      unfold checkComment at h
      dsimp only at h
      split at h
      · split at h
        · simp only [Except.ok.injEq] at h
          subst h
          exact quietly (pragma_records _ (pragmas_codes _))
        · simp only [res_bind, res_pure] at h
          obtain ⟨line, _, rfl⟩ := h
          rw [run_append] at hr
          obtain ⟨d1, r1, hr⟩ := Option.bind_eq_some_iff.1 hr
          have e0 := records_supp (pragma_records _ (pragmas_codes _)) r1
          simp only [Ctx.run, Ctx.call, Option.bind_some, Option.some.injEq] at hr
          subst hr
          refine nil_of fun i hi => ?_
          simp only [List.mem_filter, decide_eq_true_eq, addNew_fst, e0, hs, addNew_snd, List.not_mem_nil, false_or,
            not_false_eq_true, true_and] at hi
          exact hi.2 hi.1
      · simp only [Except.ok.injEq] at h; subst h; exact quietly rfl
  · simp only [Except.ok.injEq] at h; subst h; exact quietly rfl

mutual
theorem tree_supp (o : Opts) (d : List Str) : ∀ (n : Node) (anc : List Frame) (p p' : Option Token) (calls : List Call)
    (c c' : Ctx), checkTree o anc p n = .ok (calls, p') → c.supp = [] → c.run d calls = some c' → c'.supp = []
  | .tok t, anc, p, p', calls, c, c', h, hs, hr => by
    simp only [checkTree, Except.ok.injEq] at h
    have h1 : (checkToken o anc p t).1 = calls := by rw [h]
    subst h1
    rw [records_supp ((token_codes o anc p t).only (by decide)) hr, hs]
  | .node ty a cs, anc, p, p', calls, c, c', h, hs, hr => by
    simp only [checkTree, res_bind, res_pure] at h
    obtain ⟨c1, h1, ⟨more, q⟩, h2, h3⟩ := h
    simp only [Prod.mk.injEq] at h3
    obtain ⟨rfl, rfl⟩ := h3
    rw [run_append] at hr
    obtain ⟨d1, r1, hr⟩ := Option.bind_eq_some_iff.1 hr
    exact kids_supp o d cs _ _ _ _ _ _ _ _ _ _ h2 (node_supp h1 hs r1) hr
theorem kids_supp (o : Opts) (d : List Str) : ∀ (ns : List Node) (anc : List Frame) (ty : NT)
    (a : Attr) (all : List Node) (idx : Nat) (p p' : Option Token) (calls : List Call) (c c' : Ctx),
    checkKids o anc ty a all idx p ns = .ok (calls, p') → c.supp = [] → c.run d calls = some c' → c'.supp = []
  | [], anc, ty, a, all, idx, p, p', calls, c, c', h, hs, hr => by
    simp only [checkKids, Except.ok.injEq, Prod.mk.injEq] at h
    obtain ⟨rfl, rfl⟩ := h
    simp only [Ctx.run, Option.some.injEq] at hr
    rw [← hr, hs]
  | n :: ns, anc, ty, a, all, idx, p, p', calls, c, c', h, hs, hr => by
    simp only [checkKids, res_bind, res_pure] at h
    obtain ⟨⟨c1, q⟩, h1, ⟨more, q'⟩, h2, h3⟩ := h
    simp only [Prod.mk.injEq] at h3
    obtain ⟨rfl, rfl⟩ := h3
    rw [run_append] at hr
    obtain ⟨d1, r1, hr⟩ := Option.bind_eq_some_iff.1 hr
    exact kids_supp o d ns _ _ _ _ _ _ _ _ _ _ h2 (tree_supp o d n _ _ _ _ _ _ h1 hs r1) hr
end

/-! ## The commands are the program text -/

mutual
theorem cover_node {ctx : Parse.Ctx} : ∀ (n : Node), Neat ctx n → (Block n ∨ IsBody n) → (∀ t ∈ n.toks, t.type ≠ .atword) →
    program n.toks = (stmtsOf n).flatMap fun s => program s.toks
  | .tok t, _, h, _ => by rcases h with h | h <;> cases h
  | .node ty a cs, hn, h, hat => by
    have here := (neat_node.1 hn).1
    have hk := (neat_node.1 hn).2
    by_cases hs : ty = .statement
    · simp [stmtsOf, hs]
    · rw [stmtsOf, if_neg hs, toks_node]
      rw [toks_node] at hat
      by_cases hf : ty = .flowControl ∨ ty = .body
      · refine cover_list cs hk ?_ hat
        intro c hc
        rcases hf with rfl | rfl
        · have := here c hc
          cases c with
          | tok t => cases this
          | node ty' a' cs' =>
            rcases this with rfl | rfl
            · exact Or.inl (by simp [Block])
            · exact Or.inr trivial
        · exact Or.inl (here c hc)
      · have nil : ∀ {l : List Token}, (∀ t ∈ l, isSemantic t = false) → program l = [] := by
          intro l hl
          rw [← Props.Parse.program_eq]
          exact semantics_nil hl
        have hl : stmtsL cs = [] := by
          have : Leafy (.node ty a cs) := leafy_of_neat hn (by
            rcases h with h | h
            · rcases h with rfl | rfl | rfl | rfl | rfl | rfl <;> first | rfl | exact absurd rfl hs | exact absurd (Or.inl rfl) hf
            · cases ty <;> simp [IsBody] at h hf)
          have := leafy_stmts _ this
          rwa [stmtsOf, if_neg hs] at this
        rw [hl, List.flatMap_nil]
        rcases h with h | h
        · rcases h with rfl | rfl | rfl | rfl | rfl | rfl
          · obtain ⟨t, ts, rfl, hw⟩ := here
            rw [Layout.toksL_leaves']
            exact nil fun u hu => Layout.ws_not (hw u hu)
          · rw [← Props.Parse.program_eq]
            exact Layout.semantics_comment here
          · obtain ⟨t, rfl, ht⟩ := here
            refine nil fun u hu => ?_
            simp only [toksL_cons, toks_tok, toksL_nil, List.append_nil, List.mem_singleton] at hu
            subst hu
            simp [isSemantic, ht]
          · simp at hs
          · simp at hf
          · obtain ⟨t, tr, rfl, ht⟩ := here
            exfalso
            have ha := (neat_node.1 (hk (mk .atword [.tok t]) (by simp))).1
            obtain ⟨u, e, hu⟩ := ha
            simp only [List.cons.injEq, Node.tok.injEq, and_true] at e
            subst e
            exact hat t (by simp [mk]) hu
        · cases ty <;> simp [IsBody] at h hf
theorem cover_list {ctx : Parse.Ctx} : ∀ (ns : List Node), (∀ n ∈ ns, Neat ctx n) → (∀ n ∈ ns, Block n ∨ IsBody n) →
    (∀ t ∈ toksL ns, t.type ≠ .atword) → program (toksL ns) = (stmtsL ns).flatMap fun s => program s.toks
  | [], _, _, _ => by simp [stmtsL, program]
  | n :: ns, h1, h2, h3 => by
    rw [toksL_cons, Props.Groups.program_append, stmtsL, List.flatMap_append,
      cover_node n (h1 n (by simp)) (h2 n (by simp)) fun t ht => h3 t (by simp [toksL_cons, ht]),
      cover_list ns (fun m hm => h1 m (by simp [hm])) (fun m hm => h2 m (by simp [hm])) fun t ht => h3 t (by simp [ht])]
end

end Verif.Lint
