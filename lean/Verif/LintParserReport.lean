import Verif.LintMade
import Verif.LintReport
import Verif.LintFormSpec

/-!
# From the parser's records to the report (lemmas)
-/

namespace Verif.Lint
open Verif Py Lex Parse

/-- Codes that only the parser records. -/
def parserOnly : List Str := [c! "C0113", c! "C0114", c! "E1121", c! "E1125", c! "E1126"]

theorem node_silent {o : Opts} {anc : List Frame} {n : Node} {c : List Call} {code : Str} (hc : code ∈ parserOnly)
    (h : checkNode o anc n = .ok c) : only code c = [] := by
  have no : ∀ {cs : List Str} {c : List Call}, (∀ x ∈ parserOnly, x ∉ cs) → Codes cs c → only code c = [] :=
    fun h1 h2 => h2.only (h1 code hc)
  unfold checkNode at h
  split at h
  · simp only [Except.ok.injEq] at h; subst h; rfl
  · exact no (by decide) (body_codes h)
  · exact no (by decide) (flow_codes h)
  · exact no (by decide) (keywords_codes _ _ h)
  · exact no (by decide) (statement_codes h)
  · exact no (by decide) (positional_codes h)
  · split at h
    · simp only [Except.ok.injEq] at h; subst h; rfl
    · exact no (by decide) (comment_codes h)
  · simp only [Except.ok.injEq] at h; subst h; rfl

theorem tree_silent {o : Opts} {tree : Node} {calls : List Call} {code : Str} (hc : code ∈ parserOnly)
    (h : checkParseTree o tree = .ok calls) : only code calls = [] := by
  have ne : ∀ x ∈ parserOnly, x ≠ c! "C0307" ∧ x ≠ c! "W0105" := by decide
  obtain ⟨h1, h2⟩ := parseTree_calls (ne _ hc).1 (ne _ hc).2 h
  rw [h1, List.flatMap_eq_nil_iff]
  intro v hv
  obtain ⟨c, e⟩ := h2 v hv
  rw [e]
  exact node_silent hc e

theorem parserOnly_ne {code : Str} (hc : code ∈ parserOnly) : code ∉ lineCodes ∧ code ≠ c! "W0106" := by
  have : ∀ x ∈ parserOnly, x ∉ lineCodes ∧ x ≠ c! "W0106" := by decide
  exact this _ hc

/-- Without pragmas the report has, for a code of the parser, what it records. -/
theorem report_parser {o : Opts} {cfg : Cfg} {parseLint : List Token → List Rec} {ctx : Parse.Ctx} {text : Str}
    {rs : List Rec} (h : lintText o cfg parseLint ctx text = some rs) :
    ∃ ts tree, tokenize text = .ok ts ∧ parse ctx ts = .ok tree ∧
      ∀ code ∈ parserOnly, NoPragma tree.toks → code ∉ cfg.disabled →
        (rs.filter fun r => r.id == code).Perm ((parseLint ts).filter fun r => r.id == code) := by
  obtain ⟨calls, c, h1, h2, h3⟩ := lintText_ok h
  obtain ⟨ts, c1, tree, c2, hts, hc1, htree, hc2, rfl⟩ := checkFile_ok h1
  refine ⟨ts, tree, hts, htree, ?_⟩
  intro code hc hnp hd
  obtain ⟨hl, hw⟩ := parserOnly_ne hc
  have hsil := tree_silent hc hc2
  obtain ⟨r1, rfl, hr1⟩ := tokens_codes _ _ hc1
  obtain ⟨r2, rfl⟩ := records_of_quiet (tree_quiet hnp hc2)
  have e : (checkBasics cfg text).map Call.record ++ (r1.map Call.record ++ (parseLint ts).map Call.record ++
      r2.map Call.record) = (checkBasics cfg text ++ (r1 ++ parseLint ts ++ r2)).map .record := by
    simp
  rw [e] at h2
  obtain ⟨k1, k2, _⟩ := run_records _ _ _ _ rfl h2
  have : rs = sortBy recLe c.lint := by
    rw [← h3, Ctx.getLint, k2]
    exact sweep_free _
  have hperm : rs.Perm c.lint := by rw [this]; exact sortBy_perm _ _
  have hr2 : ∀ r ∈ r2, r.id ≠ code := by
    intro r hr e
    rw [record_only, List.map_eq_nil_iff, List.filter_eq_nil_iff] at hsil
    exact hsil r hr (by simpa using e)
  have hfin : (c.lint.filter fun r => r.id == code) = (parseLint ts).filter fun r => r.id == code := by
    rw [k1]
    simp only [List.nil_append, List.filter_filter, List.filter_append]
    have zero : ∀ (l : List Rec), (∀ r ∈ l, r.id ≠ code) →
        l.filter (fun r => r.id == code && decide (r.id ∉ cfg.disabled)) = [] := by
      intro l hl
      rw [List.filter_eq_nil_iff]
      intro r hr
      simp [hl r hr]
    rw [zero _ fun r hr e => hl (e ▸ basics_codes _ _ r hr), zero _ fun r hr e => hw (e ▸ hr1 r hr), zero _ hr2]
    simp only [List.nil_append, List.append_nil]
    apply List.filter_congr
    intro r _
    by_cases e : r.id = code
    · subst e; simp [hd]
    · simp [e]
  rw [← hfin]
  exact hperm.filter _

/-- With or without pragmas, nothing is reported for these codes that the parser does not record. -/
theorem report_parser_le {o : Opts} {cfg : Cfg} {parseLint : List Token → List Rec} {ctx : Parse.Ctx} {text : Str}
    {rs : List Rec} (h : lintText o cfg parseLint ctx text = some rs) :
    ∃ ts tree, tokenize text = .ok ts ∧ parse ctx ts = .ok tree ∧
      ∀ r, r.id ∈ parserOnly → rs.count r ≤ (parseLint ts).count r := by
  obtain ⟨calls, c, h1, h2, h3⟩ := lintText_ok h
  obtain ⟨ts, c1, tree, c2, hts, hc1, htree, hc2, rfl⟩ := checkFile_ok h1
  refine ⟨ts, tree, hts, htree, ?_⟩
  intro r hc
  obtain ⟨hl, hw⟩ := parserOnly_ne hc
  have hsil := tree_silent hc hc2
  obtain ⟨r1, rfl, hr1⟩ := tokens_codes _ _ hc1
  have k := run_count cfg.disabled r _ _ _ h2
  have zero : ∀ (l : List Rec), (∀ x ∈ l, x.id ≠ r.id) → (l.map Call.record).count (.record r) = 0 := by
    intro l hl
    rw [List.count_eq_zero]
    intro hm
    obtain ⟨x, hx, e⟩ := List.mem_map.1 hm
    simp only [Call.record.injEq] at e
    subst e
    exact hl x hx rfl
  have z2 : c2.count (.record r) = 0 := by
    rw [List.count_eq_zero]
    intro hm
    have : Call.record r ∈ only r.id c2 := by
      simp only [only, List.mem_filter]
      exact ⟨hm, by simp [codeOf]⟩
    rw [hsil] at this
    simp at this
  have cm : ∀ l : List Rec, (l.map Call.record).count (.record r) = l.count r := by
    intro l
    induction l with
    | nil => rfl
    | cons x l ih =>
      simp only [List.map_cons, List.count_cons, ih]
      by_cases e : x = r <;> simp [e]
  simp only [List.count_append, zero _ fun x hx e => hl (e ▸ basics_codes _ _ x hx), zero _ fun x hx e => hw (e ▸ hr1 x hx),
    z2, cm, List.count_nil, Nat.zero_add, Nat.add_zero] at k
  have e2 : rs.count r ≤ c.lint.count r := by
    rw [← h3, Ctx.getLint, ← (sortBy_perm recLe c.lint).count_eq]
    exact (sweep_sublist _ _ _).count_le _
  omega

/-! ## The records of a command -/

theorem stmtRecs_codes (user : Spec) (s : Node) (more : List Token) : ∀ r ∈ stmtRecs user s more, r.id ∈ parserCodes := by
  have first : ∀ ws given, ∀ r ∈ firstWordRecs ws given, r.id ∈ parserCodes := by
    intro ws given r hr
    simp only [firstWordRecs] at hr
    repeat' split at hr
    all_goals first
      | (simp only [List.mem_singleton] at hr; subst hr; dsimp only; decide)
      | simp at hr
  have req : ∀ loc n, ∀ r ∈ requiredRecs loc commandRequired n, r.id ∈ parserCodes := by
    intro loc n r hr
    simp only [requiredRecs, commandRequired, List.flatMap_cons, List.flatMap_nil, List.append_nil, List.mem_append] at hr
    rcases hr with hr | hr <;> split at hr
    all_goals first
      | (simp only [List.mem_singleton] at hr; subst hr; dsimp only; decide)
      | simp at hr
  have req' : ∀ loc n, ∀ r ∈ requiredRecs loc [(c! "C0113", c! "COMMENT")] n, r.id ∈ parserCodes := by
    intro loc n r hr
    simp only [requiredRecs, List.flatMap_cons, List.flatMap_nil, List.append_nil] at hr
    split at hr
    all_goals first
      | (simp only [List.mem_singleton] at hr; subst hr; dsimp only; decide)
      | simp at hr
  have stray : ∀ ns st, ∀ r ∈ strayRecs st ns, r.id ∈ parserCodes := by
    intro ns
    induction ns with
    | nil => intro st r hr; simp [strayRecs] at hr
    | cons k ks ih =>
      intro st r hr
      simp only [strayRecs] at hr
      repeat' split at hr
      all_goals first
        | exact ih _ r hr
        | (rcases List.mem_cons.1 hr with rfl | hr
           · (dsimp only; decide)
           · exact ih _ r hr)
  have sets : ∀ ns after, ∀ r ∈ setRecs after ns, r.id ∈ parserCodes := by
    intro ns
    induction ns with
    | nil => intro st r hr; simp [setRecs] at hr
    | cons k ks ih =>
      intro st r hr
      simp only [setRecs, List.mem_append] at hr
      rcases hr with hr | hr
      · split at hr
        · simp only [cacheRecs] at hr
          repeat' split at hr
          all_goals first
            | (simp only [List.mem_singleton] at hr; subst hr; dsimp only; decide)
            | simp at hr
        · simp at hr
      · exact ih _ r hr
  intro r hr
  simp only [stmtRecs] at hr
  split at hr
  · simp at hr
  rename_i rc _
  cases rc <;> simp only [Recorder.recs] at hr
  · exact first _ _ r hr
  · exact first _ _ r hr
  · simp only [customCommandRecs] at hr
    repeat' split at hr
    all_goals first
      | (simp only [List.mem_singleton] at hr; subst hr; dsimp only; decide)
      | exact req _ _ r hr
      | (rcases List.mem_cons.1 hr with rfl | hr
         · (dsimp only; decide)
         · exact req _ _ r hr)
  · simp only [customTargetRecs, List.mem_append] at hr
    exact hr.elim (stray _ _ r) (req' _ _ r)
  · simp only [emptyRecs, List.mem_flatMap] at hr
    obtain ⟨k, _, hr⟩ := hr
    split at hr
    · simp only [List.mem_singleton] at hr; subst hr; dsimp only; decide
    · simp at hr
  · simp only [buildCommandRecs] at hr
    split at hr
    · simp at hr
    · simp only [List.mem_singleton] at hr; subst hr; dsimp only; decide
  · simp only [policyRecs] at hr
    repeat' split at hr
    all_goals first
      | (simp only [List.mem_singleton] at hr; subst hr; dsimp only; decide)
      | simp at hr
  · exact sets _ _ r hr

theorem parserRecs_codes (user : Spec) (ss : List Node) : ∀ r ∈ parserRecs user ss, r.id ∈ parserCodes := by
  induction ss with
  | nil => simp [parserRecs]
  | cons s ss ih =>
    intro r hr
    simp only [parserRecs, List.mem_append] at hr
    exact hr.elim (stmtRecs_codes _ _ _ r) (ih r)

/-- The parser records only its own codes. -/
theorem parserLint_codes (user : Spec) (ctx : Parse.Ctx) : ParserLint (parserLint user ctx) := by
  intro ts r hr
  unfold parserLint at hr
  split at hr
  · simp at hr
  · exact parserRecs_codes _ _ r hr

/-- The records of a command with a code, if the code is not that of `build_command`, do not depend
on what follows. -/
theorem stmtRecs_more (user : Spec) (s : Node) (more : List Token) {code : Str} (hc : code ≠ c! "W0106") :
    (stmtRecs user s more).filter (fun r => r.id == code) = (stmtRecs user s []).filter fun r => r.id == code := by
  have key : ∀ given more, (buildCommandRecs given more).filter (fun r => r.id == code) = [] := by
    intro given more
    simp only [buildCommandRecs]
    split
    · rfl
    · simp only [List.filter_cons, List.filter_nil, beq_iff_eq]
      exact if_neg fun e => hc e.symm
  simp only [stmtRecs]
  split
  · rfl
  · rename_i rc _
    cases rc <;> simp only [Recorder.recs]
    rw [key, key]

theorem parserRecs_filter (user : Spec) {code : Str} (hc : code ≠ c! "W0106") (ss : List Node) :
    (parserRecs user ss).filter (fun r => r.id == code) =
      ss.flatMap fun s => (stmtRecs user s []).filter fun r => r.id == code := by
  induction ss with
  | nil => rfl
  | cons s ss ih => rw [parserRecs, List.filter_append, ih, List.flatMap_cons, stmtRecs_more _ _ _ hc]

/-! ## What the functions see -/

theorem filter_dropWhile {α : Type} {p q : α → Bool} (hpq : ∀ a, p a = true → q a = true) : ∀ l : List α,
    (l.dropWhile fun a => !p a).filter q = (l.filter q).dropWhile fun a => !p a
  | [] => rfl
  | a :: l => by
    cases hp : p a with
    | true => simp [hp, hpq a hp]
    | false =>
      rw [List.dropWhile_cons_of_pos (by simp [hp]), filter_dropWhile hpq l]
      cases hq : q a with
      | true => rw [List.filter_cons_of_pos hq, List.dropWhile_cons_of_pos (by simp [hp])]
      | false => rw [List.filter_cons_of_neg (by simp [hq])]

/-- The words that a parse function gets are those after the opening parenthesis. -/
theorem given_words {ctx : Parse.Ctx} {ts : List Token} {tree s : Node} (h : parse ctx ts = .ok tree)
    (hs : s ∈ stmtsOf tree) : semantics (givenTo s) = (program s.toks).drop 2 := by
  obtain ⟨f, l, r, e, hf, hl, hr, _⟩ := stmt_args' h hs
  have e' : s.toks.dropWhile (fun t => t.type != .lparen) = s.toks.dropWhile fun t => !(t.type == .lparen) := rfl
  have k := filter_dropWhile (p := fun t : Token => t.type == .lparen) (q := isSemantic)
    (by intro a ha; simp only [beq_iff_eq] at ha; simp [isSemantic, isWs, isAnyComment, isOnOff, ha]) s.toks
  have e2 : (s.toks.filter isSemantic) = program s.toks := program_semantics _
  rw [e2, e] at k
  rw [List.dropWhile_cons_of_pos (by simp [hf]), List.dropWhile_cons_of_neg (by simp [hl])] at k
  unfold givenTo
  rw [semantics_drop, e, e']
  cases hd : s.toks.dropWhile fun t => !(t.type == .lparen) with
  | nil => rw [hd] at k; simp at k
  | cons a rest =>
    rw [hd] at k
    have ha : (a.type == .lparen) = true := by
      have := List.head?_dropWhile_not (fun t : Token => !(t.type == .lparen)) s.toks
      rw [hd] at this
      simpa using this
    have ha' : isSemantic a = true := by
      simp only [beq_iff_eq] at ha; simp [isSemantic, isWs, isAnyComment, isOnOff, ha]
    rw [List.filter_cons_of_pos ha'] at k
    simp only [List.cons.injEq] at k
    simpa [semantics] using k.2

theorem given_first {ctx : Parse.Ctx} {ts : List Token} {tree s : Node} (h : parse ctx ts = .ok tree)
    (hs : s ∈ stmtsOf tree) : nthSem 0 (givenTo s) = ((program s.toks).drop 2).head? := by
  rw [nthSem, given_words h hs, List.head?_eq_getElem?]

theorem cmd_name {ctx : Parse.Ctx} {ts : List Token} {tree s : Node} (h : parse ctx ts = .ok tree)
    (hs : s ∈ stmtsOf tree) : funName s = nameOf s := by
  obtain ⟨h1, a, cs, rfl⟩ := Props.Groups.stmtsOf_sub tree hs
  obtain ⟨f, l, r, ws1, ws2, mid, trail, args, rfl, hf, _⟩ := Props.Parse.tree_well_formed ctx ts tree h _ h1
  have : program (Node.toks (.node .statement a ([mk .funname [.tok f]] ++ ws1 ++ [mk .lparen [.tok l]] ++ ws2 ++
      [args] ++ mid ++ [mk .rparen [.tok r]] ++ trail))) = f :: program (toksL (ws1 ++ [mk .lparen [.tok l]] ++ ws2 ++
      [args] ++ mid ++ [mk .rparen [.tok r]] ++ trail)) := by
    simp [Node.toks, toksL_append, mk, toksL, program, hf]
  rw [nameOf, this]
  rfl

/-! ## The choice by the first word -/

/-- The names of the user's commands. -/
def userNames (user : Spec) : List Str := user.kwargs.map (·.1)

theorem overridden_eq (user : Spec) (name : Str) : overridden user name = (userNames user).contains name := by
  rw [overridden, funtree_lookup]
  simp only [userNames, Option.isSome_map]
  induction user.kwargs with
  | nil => rfl
  | cons p l ih =>
    obtain ⟨k, v⟩ := p
    simp only [List.lookup_cons, List.map_cons, List.contains_cons]
    cases name == k <;> simp_all

theorem first_table : firstWords.lookup (c! "file") = some (keys fileTable) ∧
    firstWords.lookup (c! "list") = some (keys listTable) := by decide +kernel

/-- A code and the place where a command has it. -/
def mark (code : Str) : Option Token → List Rec
  | none => []
  | some t => [⟨code, tokStart t, []⟩]

theorem normKwarg_first {t : Token} {w : Str} (hl : lower w ≠ w) :
    normKwarg t = some w ↔ t.type = .word ∧ upper t.spelling = w := by
  unfold normKwarg
  split
  · rename_i h
    constructor
    · intro e
      simp only [Option.some.injEq] at e
      rw [← e, Layout.lower_lower] at hl
      exact absurd rfl hl
    · intro e
      rw [h.1] at e
      simp at e
  · split
    · rename_i h; simp [h]
    · rename_i h; simp only [ne_eq, Decidable.not_not] at h; simp [h]

theorem lookup_absent {β : Type} {k : Str} : ∀ {l : List (Str × β)}, k ∉ l.map (·.1) → l.lookup k = none
  | [], _ => rfl
  | (a, b) :: l, h => by
    simp only [List.map_cons, List.mem_cons, not_or] at h
    rw [List.lookup_cons, show (k == a) = false by simpa using h.1]
    exact lookup_absent h.2

theorem required_id {loc : List Nat} {req : List (Str × Str)} {n : Node} {code : Str} (h : ∀ p ∈ req, p.1 ≠ code) :
    (requiredRecs loc req n).filter (fun r => r.id == code) = [] := by
  rw [List.filter_eq_nil_iff]
  intro r hr
  simp only [requiredRecs, List.mem_flatMap] at hr
  obtain ⟨p, hp, hr⟩ := hr
  split at hr
  · simp at hr
  · simp only [List.mem_singleton] at hr
    subst hr
    simpa using h p hp

theorem stray_id {code : Str} (hc : code ≠ c! "E1122") : ∀ (ns : List Node) (st : Nat),
    (strayRecs st ns).filter (fun r => r.id == code) = []
  | [], _ => rfl
  | k :: ks, st => by
    have ih := stray_id hc ks
    simp only [strayRecs]
    repeat' split
    all_goals first
      | exact ih _
      | (rw [List.filter_cons_of_neg (by simpa using Ne.symm hc)]; exact ih _)

theorem cache_id {code : Str} (h0 : code ≠ c! "E1120") (h1 : code ≠ c! "E1121") (k : Node) (after : List Token) :
    (cacheRecs k after).filter (fun r => r.id == code) = [] := by
  rw [List.filter_eq_nil_iff]
  intro r hr
  simp only [cacheRecs] at hr
  repeat' split at hr
  all_goals first
    | (simp only [List.mem_singleton] at hr; subst hr; simpa using Ne.symm h0)
    | (simp only [List.mem_singleton] at hr; subst hr; simpa using Ne.symm h1)
    | simp at hr

theorem set_id {code : Str} (h0 : code ≠ c! "E1120") (h1 : code ≠ c! "E1121") (after : List Token) : ∀ (ns : List Node),
    (setRecs after ns).filter (fun r => r.id == code) = []
  | [] => rfl
  | k :: ks => by
    rw [setRecs, List.filter_append, set_id h0 h1 after ks, List.append_nil]
    split
    · exact cache_id h0 h1 k _
    · rfl

theorem empty_id {code : Str} (h1 : code ≠ c! "E1121") (n : Node) : (emptyRecs n).filter (fun r => r.id == code) = [] := by
  rw [List.filter_eq_nil_iff]
  intro r hr
  simp only [emptyRecs, List.mem_flatMap] at hr
  obtain ⟨k, _, hr⟩ := hr
  split at hr
  · simp only [List.mem_singleton] at hr; subst hr; simpa using Ne.symm h1
  · simp at hr

theorem build_id {code : Str} (h1 : code ≠ c! "W0106") (given more : List Token) :
    (buildCommandRecs given more).filter (fun r => r.id == code) = [] := by
  rw [List.filter_eq_nil_iff]
  intro r hr
  simp only [buildCommandRecs] at hr
  split at hr
  · simp at hr
  · simp only [List.mem_singleton] at hr; subst hr; simpa using Ne.symm h1

/-- The commands that need one of a few words. -/
theorem wordly {name : Str} {rc : Recorder} (h : recorders.lookup name = some rc) :
    (name, rc) ∈ recorders := lookup_pair_mem h

theorem unknown_recs {ctx : Parse.Ctx} {ts : List Token} {tree s : Node} {user : Spec} (h : parse ctx ts = .ok tree)
    (hs : s ∈ stmtsOf tree) :
    (stmtRecs user s []).filter (fun r => r.id == c! "E1126") = mark (c! "E1126") (unknown (userNames user) s) ∧
      (stmtRecs user s []).filter (fun r => r.id == c! "C0114") = mark (c! "C0114") (computed (userNames user) s) := by
  have hf := given_first h hs
  have hn := cmd_name h hs
  obtain ⟨f, l, r, hprog, _⟩ := stmt_args' h hs
  have hop : ∃ t, opening s = some t := by
    rw [opening, hprog]
    simp only [List.drop_succ_cons, List.drop_zero]
    cases semToks (argTree s) with
    | nil => exact ⟨r, rfl⟩
    | cons t ts => exact ⟨t, rfl⟩
  obtain ⟨t, ht⟩ := hop
  have hf : nthSem 0 (givenTo s) = some t := by rw [hf]; exact ht
  have go : ∀ (P : List Rec → Option (List Str) → Prop),
      P [] none →
      ((userNames user).contains (nameOf s) = false → P (match recorders.lookup (nameOf s) with | none => [] | some rc => rc.recs s [])
        (firstWords.lookup (nameOf s))) →
      P (stmtRecs user s []) (wordsFor (userNames user) s) := by
    intro P h1 h2
    simp only [stmtRecs, recorderOf, hn, wordsFor, overridden_eq]
    cases hu : (userNames user).contains (nameOf s) with
    | true => exact h1
    | false => exact h2 hu
  have hE : ∀ x : Str, mark x none = [] := fun _ => rfl
  simp only [unknown, computed, ht]
  refine go (fun a b => (a.filter (fun r => r.id == c! "E1126") = mark (c! "E1126") (match b, some t with
    | some words, some t =>
      if t.type = .deref then none
      else if t.type = .rparen ∧ nameOf s ≠ c! "cmake_policy" then none
      else if oneOf words t && (nameOf s != c! "add_custom_command" || t.type == .word) then none
      else some t
    | _, _ => none)) ∧
    a.filter (fun r => r.id == c! "C0114") = mark (c! "C0114") (match b, some t with
    | some _, some t => if t.type = .deref then some t else none
    | _, _ => none)) ⟨rfl, rfl⟩ ?_
  intro _
  by_cases h1 : nameOf s = c! "file"
  · have e1 : recorders.lookup (nameOf s) = some .file := by rw [h1]; decide
    have e2 : firstWords.lookup (nameOf s) = some (keys fileTable) := by rw [h1]; exact first_table.1
    have h2 : nameOf s ≠ c! "cmake_policy" := by rw [h1]; decide
    have h3 : (nameOf s != c! "add_custom_command") = true := by rw [h1]; decide
    simp only [e1, e2, Recorder.recs, firstWordRecs, hf, h2, h3, ne_eq, not_false_eq_true, and_true, Bool.true_or, Bool.and_true, oneOf]
    by_cases a1 : t.type = .rparen
    · simp [a1, mark]
    · by_cases a2 : t.type = .deref
      · simp [a2, mark, tokLoc, locOf, tokStart]
      · by_cases a3 : (keys fileTable).contains (upper t.spelling) = true
        · simp only [a1, a2, a3, if_true, if_false]; exact ⟨rfl, rfl⟩
        · simp only [a1, a2, a3, if_false]; exact ⟨rfl, rfl⟩
  by_cases h1 : nameOf s = c! "list"
  · have e1 : recorders.lookup (nameOf s) = some .list := by rw [h1]; decide
    have e2 : firstWords.lookup (nameOf s) = some (keys listTable) := by rw [h1]; exact first_table.2
    have h2 : nameOf s ≠ c! "cmake_policy" := by rw [h1]; decide
    have h3 : (nameOf s != c! "add_custom_command") = true := by rw [h1]; decide
    simp only [e1, e2, Recorder.recs, firstWordRecs, hf, h2, h3, ne_eq, not_false_eq_true, and_true, Bool.true_or, Bool.and_true, oneOf]
    by_cases a1 : t.type = .rparen
    · simp [a1, mark]
    · by_cases a2 : t.type = .deref
      · simp [a2, mark, tokLoc, locOf, tokStart]
      · by_cases a3 : (keys listTable).contains (upper t.spelling) = true
        · simp only [a1, a2, a3, if_true, if_false]; exact ⟨rfl, rfl⟩
        · simp only [a1, a2, a3, if_false]; exact ⟨rfl, rfl⟩
  by_cases h1 : nameOf s = c! "cmake_policy"
  · have e1 : recorders.lookup (nameOf s) = some .policy := by rw [h1]; decide
    have e2 : firstWords.lookup (nameOf s) = some [c! "VERSION", c! "SET", c! "GET", c! "PUSH", c! "POP"] := by rw [h1]; decide
    have h3 : (nameOf s != c! "add_custom_command") = true := by rw [h1]; decide
    have h2 : (¬ nameOf s = c! "cmake_policy") = False := by simp [h1]
    simp only [e1, e2, Recorder.recs, policyRecs, hf, h2, h3, ne_eq, not_true_eq_false, and_false, Bool.true_or, Bool.and_true, oneOf, if_false]
    by_cases a2 : t.type = .deref
    · simp [a2, mark, tokLoc, locOf, tokStart]
    · by_cases a3 : [c! "VERSION", c! "SET", c! "GET", c! "PUSH", c! "POP"].contains (upper t.spelling) = true
      · simp only [a2, a3, if_true, if_false]; exact ⟨rfl, rfl⟩
      · simp only [a2, a3, if_false]; exact ⟨rfl, rfl⟩
  by_cases h1 : nameOf s = c! "add_custom_command"
  · have e1 : recorders.lookup (nameOf s) = some .customCommand := by rw [h1]; decide
    have e2 : firstWords.lookup (nameOf s) = some [c! "OUTPUT", c! "TARGET"] := by rw [h1]; decide
    have h2 : nameOf s ≠ c! "cmake_policy" := by rw [h1]; decide
    have h3 : (nameOf s != c! "add_custom_command") = false := by rw [h1]; decide
    have q1 := required_id (loc := nodeLoc (argTree s)) (req := commandRequired) (n := argTree s) (code := c! "E1126") (by decide)
    have q2 := required_id (loc := nodeLoc (argTree s)) (req := commandRequired) (n := argTree s) (code := c! "C0114") (by decide)
    simp only [e1, e2, Recorder.recs, customCommandRecs, hf, h2, h3, ne_eq, not_false_eq_true, and_true, Bool.false_or, oneOf,
      normKwarg_first (w := c! "TARGET") (by decide), normKwarg_first (w := c! "OUTPUT") (by decide)]
    by_cases a1 : t.type = .rparen
    · simp [a1, mark]
    · by_cases a2 : t.type = .deref
      · simp [a2, mark, tokLoc, locOf, tokStart, q1, q2]
      · by_cases a3 : (t.type = .word ∧ upper t.spelling = c! "TARGET" ∨ t.type = .word ∧ upper t.spelling = c! "OUTPUT")
        · have a4 : ([c! "OUTPUT", c! "TARGET"].contains (upper t.spelling) && t.type == .word) = true := by
            rcases a3 with ⟨b, c⟩ | ⟨b, c⟩ <;> simp [b, c]
          simp only [a1, a2, a3, a4, if_true, if_false]; exact ⟨q1, q2⟩
        · have a4 : ([c! "OUTPUT", c! "TARGET"].contains (upper t.spelling) && t.type == .word) = false := by
            rw [Bool.eq_false_iff]
            intro e
            simp only [List.contains_cons, List.contains_nil, Bool.or_false, Bool.and_eq_true, Bool.or_eq_true, beq_iff_eq] at e
            rcases e with ⟨e | e, e'⟩
            · exact a3 (.inr ⟨e', e⟩)
            · exact a3 (.inl ⟨e', e⟩)
          simp only [a1, a2, a3, a4, if_false, Bool.false_eq_true, List.filter_cons, q1, q2]
          exact ⟨rfl, rfl⟩
  have e2 : firstWords.lookup (nameOf s) = none := lookup_absent (by simpa [firstWords] using ⟨‹_›, ‹_›, ‹_›, ‹_›⟩)
  rw [e2]
  cases hr : recorders.lookup (nameOf s) with
  | none => exact ⟨rfl, rfl⟩
  | some rc =>
    have := lookup_pair_mem hr
    cases rc with
    | customTarget =>
      simp only [Recorder.recs, customTargetRecs, List.filter_append]
      rw [stray_id (by decide), stray_id (by decide), required_id (by decide), required_id (by decide)]
      exact ⟨rfl, rfl⟩
    | empty => exact ⟨empty_id (by decide) _, empty_id (by decide) _⟩
    | buildCommand => exact ⟨build_id (by decide) _ _, build_id (by decide) _ _⟩
    | set => exact ⟨set_id (by decide) (by decide) _ _, set_id (by decide) (by decide) _ _⟩
    | _ => simp_all [recorders]

end Verif.Lint
