import Verif.Props.LintPragma

/-!
# What cmake-lint reports about its own pragmas (C99)
-/

namespace Verif.Props.LintMistakes
open Verif Py Lex Parse Verif.Lint Verif.Props.LintTree Verif.Props.LintPragma

/-! ## Specification -/

/-- What is wrong with a word of a pragma: it is no assignment, or one to something else than `disable`, or one of the codes
given to `disable` does not exist. -/
inductive Wrong (w : Str) : Str → Str → Prop
  | word : '=' ∉ w → Wrong w (S "E0011") w
  | option {key v : Str} : w = key ++ '=' :: v → '=' ∉ key → key ≠ S "disable" → Wrong w (S "E0011") key
  | code {v code : Str} : w = S "disable=" ++ v → IsPiece v code → code ∉ lintIds → Wrong w (S "E0012") code

/-- The comment is a pragma with such a word. -/
def Mistake (t : Token) (code arg : Str) : Prop :=
  t.type = .comment ∧ ∃ content w, t.spelling = S "# cmake-lint: " ++ content ∧ IsWord content w ∧ Wrong w code arg

/-! ## The words -/

theorem mem_ids {row col : Nat} {r : Lint.Rec} : ∀ ids, r ∈ (pragmaIds row col ids).2 ↔
    ∃ i ∈ ids, i ∉ lintIds ∧ r = ⟨S "E0012", [row, col], [i]⟩
  | [] => by simp [pragmaIds]
  | i :: ids => by
    have ih := mem_ids (row := row) (col := col) (r := r) ids
    simp only [pragmaIds]
    split
    · rename_i hi
      rw [ih]
      constructor
      · rintro ⟨j, h1, h2⟩; exact ⟨j, by simp [h1], h2⟩
      · rintro ⟨j, h1, h2, h3⟩
        rcases List.mem_cons.1 h1 with rfl | h1
        · exact absurd hi h2
        · exact ⟨j, h1, h2, h3⟩
    · rename_i hi
      rw [List.mem_cons, ih]
      constructor
      · rintro (rfl | ⟨j, h1, h2⟩)
        · exact ⟨i, by simp, hi, rfl⟩
        · exact ⟨j, by simp [h1], h2⟩
      · rintro ⟨j, h1, h2, h3⟩
        rcases List.mem_cons.1 h1 with rfl | h1
        · exact Or.inl h3
        · exact Or.inr ⟨j, h1, h2, h3⟩

theorem disable_split (v : Str) : S "disable=" ++ v = S "disable" ++ '=' :: v := by
  rw [show S "disable=" = S "disable" ++ ['='] by decide]
  simp

theorem items_sound {row : Nat} {r : Lint.Rec} : ∀ (items : List Str) (col : Nat), r ∈ (pragmaItems row col items).2 →
    ∃ w ∈ items, ∃ col' code arg, Wrong w code arg ∧ r = ⟨code, [row, col'], [arg]⟩
  | [], col => by simp [pragmaItems]
  | item :: items, col => by
    have up : ∀ col, r ∈ (pragmaItems row col items).2 →
        ∃ w ∈ item :: items, ∃ col' code arg, Wrong w code arg ∧ r = ⟨code, [row, col'], [arg]⟩ := by
      intro col h
      obtain ⟨w, h1, h2⟩ := items_sound items col h
      exact ⟨w, by simp [h1], h2⟩
    simp only [pragmaItems]
    split
    · rename_i he
      intro h
      rcases List.mem_cons.1 h with rfl | h
      · exact ⟨item, by simp, _, _, _, .word he, rfl⟩
      · exact up _ h
    · rename_i he
      have he : '=' ∈ item := by simpa using he
      split
      · rename_i hk
        intro h
        rcases List.mem_append.1 h with h | h
        · obtain ⟨i, h1, h2, rfl⟩ := (mem_ids _).1 h
          exact ⟨item, by simp, _, _, _, .code (by rw [disable_split, ← hk]; exact key_value he) ((mem_splitOn _ _).1 h1) h2, rfl⟩
        · exact up _ h
      · rename_i hk
        intro h
        rcases List.mem_cons.1 h with rfl | h
        · refine ⟨item, by simp, _, _, _, .option (key_value he) ?_ hk, rfl⟩
          intro hm
          have := List.all_eq_true.1 (List.all_takeWhile (l := item) (p := fun c => decide (c ≠ '='))) _ hm
          simp at this
        · exact up _ h

theorem items_complete {row : Nat} {w code arg : Str} (hw : Wrong w code arg) : ∀ (items : List Str) (col : Nat), w ∈ items →
    ∃ col', (⟨code, [row, col'], [arg]⟩ : Lint.Rec) ∈ (pragmaItems row col items).2
  | [], col, h => by simp at h
  | item :: items, col, h => by
    have hn : '=' ∉ S "disable" := by decide
    simp only [pragmaItems]
    rcases List.mem_cons.1 h with rfl | h
    · cases hw with
      | word he => rw [if_pos he]; exact ⟨col, by simp⟩
      | option e hk hd =>
        rw [if_neg (by rw [e]; simp), if_neg (by rw [(key_unique hk e).1]; exact hd), (key_unique hk e).1]
        exact ⟨col, by simp⟩
      | code e hp hi =>
        rw [disable_split] at e
        rw [if_neg (by rw [e]; simp), if_pos (key_unique hn e).1, (key_unique hn e).2]
        exact ⟨col, List.mem_append_left _ ((mem_ids _).2 ⟨_, (mem_splitOn _ _).2 hp, hi, rfl⟩)⟩
    · split
      · obtain ⟨c, hc⟩ := items_complete (row := row) hw items (col + item.length + 1) h
        exact ⟨c, List.mem_cons_of_mem _ hc⟩
      · obtain ⟨c, hc⟩ := items_complete (row := row) hw items col h
        split
        · exact ⟨c, List.mem_append_right _ hc⟩
        · exact ⟨c, List.mem_cons_of_mem _ hc⟩

theorem comment_sound {t : Token} (ht : t.type = .comment) {row col : Nat} {r : Lint.Rec}
    (h : r ∈ (pragmaComment row col t.spelling).2) :
    ∃ col' code arg, Mistake t code arg ∧ r = ⟨code, [row, col'], [arg]⟩ := by
  unfold pragmaComment at h
  split at h
  · simp at h
  · rename_i content e
    obtain ⟨w, h1, c, code, arg, h2, h3⟩ := items_sound _ _ h
    exact ⟨c, code, arg, ⟨ht, content, w, stripPrefix_some.1 e, (mem_splitBlank _ _ _ (Nat.le_refl _)).1 h1, h2⟩, h3⟩

theorem comment_complete {t : Token} {code arg : Str} (h : Mistake t code arg) (row col : Nat) :
    ∃ col', (⟨code, [row, col'], [arg]⟩ : Lint.Rec) ∈ (pragmaComment row col t.spelling).2 := by
  obtain ⟨_, content, w, e, h1, h2⟩ := h
  unfold pragmaComment
  rw [stripPrefix_some.2 e]
  exact items_complete h2 _ _ ((mem_splitBlank _ _ _ (Nat.le_refl _)).2 h1)

theorem pragmas_sound {r : Lint.Rec} : ∀ (ns : List Node), r ∈ (pragmas ns).2 →
    ∃ t ∈ toksL ns, ∃ col code arg, Mistake t code arg ∧ r = ⟨code, [t.begin_.line, col], [arg]⟩
  | [] => by simp [pragmas]
  | .tok t :: ns => by
    intro h
    simp only [pragmas] at h
    have up : r ∈ (pragmas ns).2 → ∃ u ∈ toksL (.tok t :: ns), ∃ col code arg, Mistake u code arg ∧ r = ⟨code, [u.begin_.line, col], [arg]⟩ := by
      intro h
      obtain ⟨u, h1, h2⟩ := pragmas_sound ns h
      exact ⟨u, by rw [toksL_cons]; exact List.mem_append_right _ h1, h2⟩
    split at h
    · rename_i ht
      rcases List.mem_append.1 h with h | h
      · obtain ⟨c, code, arg, h1, h2⟩ := comment_sound ht h
        exact ⟨t, by simp [toksL_cons, Node.toks], c, code, arg, h1, h2⟩
      · exact up h
    · exact up h
  | .node ty a cs :: ns => by
    intro h
    simp only [pragmas] at h
    obtain ⟨u, h1, h2⟩ := pragmas_sound ns h
    exact ⟨u, by rw [toksL_cons]; exact List.mem_append_right _ h1, h2⟩

theorem pragmas_complete {t : Token} {code arg : Str} (h : Mistake t code arg) : ∀ (seg : List Token), t ∈ seg →
    ∃ col, (⟨code, [t.begin_.line, col], [arg]⟩ : Lint.Rec) ∈ (pragmas (leaves seg)).2
  | [], ht => by simp at ht
  | u :: seg, ht => by
    simp only [leaves, List.map_cons, pragmas]
    rcases List.mem_cons.1 ht with rfl | ht
    · rw [if_pos h.1]
      obtain ⟨c, hc⟩ := comment_complete h t.begin_.line t.begin_.col
      exact ⟨c, List.mem_append_left _ hc⟩
    · obtain ⟨c, hc⟩ := pragmas_complete h seg ht
      split
      · exact ⟨c, List.mem_append_right _ hc⟩
      · exact ⟨c, hc⟩

/-! ## The checks -/

theorem bodyComment_recs {supp new : List Str} {n : Node} {c : List Call} (h : checkBodyComment supp n = .ok (c, new)) (r : Lint.Rec) :
    .record r ∈ c ↔ hasType .comment n = true ∧ r ∈ (pragmas (kidsOf n)).2 := by
  unfold checkBodyComment at h
  dsimp only at h
  split at h
  · rename_i hc
    split at h
    · simp only [Except.ok.injEq, Prod.mk.injEq] at h
      rw [← h.1]
      simp [hc]
    · simp only [res_bind, res_pure, Prod.mk.injEq] at h
      obtain ⟨line, _, rfl, _⟩ := h
      simp [hc]
  · rename_i hc
    simp only [Except.ok.injEq, Prod.mk.injEq] at h
    rw [← h.1]
    simp [hc]

theorem items_recs {o : Opts} {r : Lint.Rec} (hr : r.id = S "E0011" ∨ r.id = S "E0012") :
    ∀ (ns : List Node) (p0 p1 : Option Node) (supp supp' : List Str) (c : List Call),
    checkItems o p0 p1 supp ns = .ok (c, supp') →
    (.record r ∈ c ↔ ∃ n ∈ ns, hasType .comment n = true ∧ r ∈ (pragmas (kidsOf n)).2)
  | [], p0, p1, supp, supp', c, h => by
    simp only [checkItems, Except.ok.injEq, Prod.mk.injEq] at h
    rw [← h.1]
    simp
  | .tok t :: ns, p0, p1, supp, supp', c, h => by
    simp only [checkItems] at h
    rw [items_recs hr ns _ _ _ _ _ h]
    simp [hasType]
  | .node ty a cs :: ns, p0, p1, supp, supp', c, h => by
    simp only [checkItems, res_bind, res_pure] at h
    obtain ⟨⟨c1, new⟩, h1, c2, h2, ⟨more, s⟩, h3, h4⟩ := h
    simp only [Prod.mk.injEq] at h4
    obtain ⟨rfl, rfl⟩ := h4
    have off : ∀ {cs : List Str} {c : List Call}, Codes cs c → (S "E0011" ∉ cs ∧ S "E0012" ∉ cs) → .record r ∉ c := by
      intro cs c hc hn hm
      have := hc _ hm
      simp only [codeOf] at this
      rcases hr with e | e <;> rw [e] at this
      · exact hn.1 this
      · exact hn.2 this
    have k2 := off (doc_codes h2) (by decide)
    have k3 := off (spacing_codes o p0 (.node ty a cs)) (by decide)
    have k4 := off (reach_codes (.node ty a cs) ns) (by decide)
    simp only [List.mem_append, k2, k3, k4, or_false, bodyComment_recs h1, items_recs hr ns _ _ _ _ _ h3, List.mem_cons,
      exists_eq_or_imp]

theorem node_recs {o : Opts} {v : List Frame × Node} {c : List Call} (h : checkNode o v.1 v.2 = .ok c) {r : Lint.Rec}
    (hr : r.id = S "E0011" ∨ r.id = S "E0012") (hm : .record r ∈ c) : ∃ n, Sub n v.2 ∧ r ∈ (pragmas (kidsOf n)).2 := by
  obtain ⟨anc, n⟩ := v
  dsimp only at h ⊢
  have off : ∀ {cs : List Str} {c : List Call}, Codes cs c → (S "E0011" ∉ cs ∧ S "E0012" ∉ cs) → .record r ∉ c := by
    intro cs c hc hn hm
    have := hc _ hm
    simp only [codeOf] at this
    rcases hr with e | e <;> rw [e] at this
    · exact hn.1 this
    · exact hn.2 this
  cases n with
  | tok t => simp only [checkNode, Except.ok.injEq] at h; subst h; simp at hm
  | node ty a cs =>
    cases ty <;> simp only [checkNode] at h
    case body =>
      simp only [checkBody, res_bind, res_pure] at h
      obtain ⟨⟨calls, supp⟩, h1, line, _, rfl⟩ := h
      have hm : .record r ∈ calls := by
        rcases List.mem_append.1 hm with hm | hm
        · exact hm
        · split at hm <;> simp at hm
      obtain ⟨n, hn, _, h3⟩ := (items_recs hr _ _ _ _ _ _ h1).1 hm
      exact ⟨n, .child hn (.refl _), h3⟩
    case flowControl => exact absurd hm (off (flow_codes h) (by decide))
    case statement => exact absurd hm (off (statement_codes h) (by decide))
    case argGroup => exact absurd hm (off (keywords_codes _ _ h) (by decide))
    case pargGroup => exact absurd hm (off (positional_codes h) (by decide))
    case comment =>
      split at h
      · simp only [Except.ok.injEq] at h; subst h; simp at hm
      · unfold checkComment at h
        dsimp only at h
        split at h
        · split at h
          · simp only [Except.ok.injEq] at h
            subst h
            exact ⟨_, .refl _, by simpa using hm⟩
          · simp only [res_bind, res_pure] at h
            obtain ⟨line, _, rfl⟩ := h
            exact ⟨_, .refl _, by simpa using hm⟩
        · simp only [Except.ok.injEq] at h; subst h; simp at hm
    all_goals (simp only [Except.ok.injEq] at h; subst h; simp at hm)

/-! ## C99 -/

/-- **C99.** A report about a pragma is about a word of a pragma in the file that is wrong in this way, and has its line. -/
theorem mistakes_sound {o : Opts} {cfg : Cfg} {parseLint : List Token → List Lint.Rec} {ctx : Parse.Ctx} {text : Str}
    {rs : List Lint.Rec} (h : lintText o cfg parseLint ctx text = some rs) (hpl : ParserLint parseLint)
    (hbom : text.head? ≠ some BOM) (hap : SwitchesApart (Props.Lex.toks text)) {r : Lint.Rec} (hr : r ∈ rs)
    (hid : r.id = S "E0011" ∨ r.id = S "E0012") :
    ∃ t ∈ Props.Lex.toks text, ∃ col code arg, Mistake t code arg ∧ r = ⟨code, [t.begin_.line, col], [arg]⟩ := by
  obtain ⟨ts, tree, calls, hts, htree, hc, k⟩ := report_le h hpl
  rw [Props.Parse.tokenize_toks] at hts
  injection hts with hts
  subst hts
  have hcode : TreeCode r.id := by
    rcases hid with e | e <;> rw [e] <;> exact ⟨by decide, by decide, by decide, by decide⟩
  have hm : .record r ∈ only r.id calls :=
    List.count_pos_iff.1 (Nat.lt_of_lt_of_le (List.count_pos_iff.2 hr) (k r hcode))
  obtain ⟨h1, h2⟩ := parseTree_calls (code := r.id) (by rcases hid with e | e <;> rw [e] <;> decide)
    (by rcases hid with e | e <;> rw [e] <;> decide) hc
  rw [h1] at hm
  obtain ⟨v, hv, hm⟩ := List.mem_flatMap.1 hm
  obtain ⟨c, hcn⟩ := h2 v hv
  rw [hcn, callsOf_ok] at hm
  obtain ⟨n, hn, hp⟩ := node_recs hcn hid (List.mem_filter.1 hm).1
  obtain ⟨t, ht, h3⟩ := pragmas_sound _ hp
  refine ⟨t, ?_, h3⟩
  have hsub : t ∈ v.2.toks := sub_toks hn t (by
    cases n with
    | tok u => simp [kidsOf] at ht
    | node ty a cs => simpa [kidsOf, Node.toks] using ht)
  have := sub_toks (visits_sub _ _ _ hv) t hsub
  exact (Props.Parse.tokens_conserved_partial _ _ tree htree
      (Props.Parse.no_bom text _ (Props.Parse.tokenize_toks text) hbom) hap).1.mem_iff.1 this

/-- **C99.** If pragmas are only in comments directly in the file, every wrong word of them is reported with its line, unless
a pragma hides the code or the comment is on the line of the last token of the file. -/
theorem mistakes_reported {o : Opts} {cfg : Cfg} {parseLint : List Token → List Lint.Rec} {ctx : Parse.Ctx} {text : Str}
    {rs : List Lint.Rec} (h : lintText o cfg parseLint ctx text = some rs) (ht : OnTop ctx text) {tree : Node}
    (htree : parse ctx (Props.Lex.toks text) = .ok tree) {n : Node} (hn : n ∈ kidsOf tree) (hc : hasType .comment n = true)
    {t : Token} (hm : t ∈ n.toks) {code arg : Str} (hmis : Mistake t code arg) (hd : code ∉ cfg.disabled)
    (hline : 0 < t.begin_.line ∧ t.begin_.line < lastLineOf ctx text)
    (hh : ¬ HiddenIn ctx text ⟨code, [t.begin_.line], [arg]⟩) :
    ∃ col, (⟨code, [t.begin_.line, col], [arg]⟩ : Lint.Rec) ∈ rs := by
  have hid : code = S "E0011" ∨ code = S "E0012" := by
    obtain ⟨_, _, _, _, _, hw⟩ := hmis
    cases hw <;> simp
  obtain ⟨tree', calls, k1, k2, k3⟩ := pragma_exact_partial h ht.bom ht.apart
  rw [htree] at k1
  injection k1 with k1
  subst k1
  obtain ⟨ts, c1, tree', c2, hts, hc1, htree', hc2, rfl⟩ := checkFile_ok k2
  rw [Props.Parse.tokenize_toks] at hts
  injection hts with hts
  subst hts
  rw [htree] at htree'
  injection htree' with htree'
  subst htree'
  obtain ⟨cs, rfl, hparts⟩ := parse_parts htree (Props.Parse.no_bom text _ (Props.Parse.tokenize_toks text) ht.bom) ht.apart
  obtain ⟨seg, rfl, _⟩ := hparts.comment n hn hc
  rw [toks_mk, toks_leafs] at hm
  obtain ⟨col, hcol⟩ := pragmas_complete hmis seg hm
  refine ⟨col, ?_⟩
  have k4 := (k3 (ht.top _ htree) ⟨code, [t.begin_.line, col], [arg]⟩ hd (.inr (by
    have h2 := hline.2
    simp only [lastLineOf, htree] at h2
    cases hl : (mk .body cs).toks.getLast? with
    | none => rw [hl] at h2; simp at h2
    | some u => rw [hl] at h2; exact ⟨u, _, _, rfl, rfl, hline.1, h2⟩))).2
    fun ⟨m, j1, j2, j3, first, last, line, rest, j4, j5, j6, j7⟩ => hh ⟨_, htree, m, j1, j2, j3, first, last, line, [], j4, j5, by
      simp only [List.cons.injEq] at j6 ⊢
      exact ⟨j6.1, trivial⟩, j7⟩
  rw [← List.count_pos_iff, k4]
  refine Nat.lt_of_lt_of_le (List.count_pos_iff.2 ?_) (Nat.le_add_left _ _)
  refine List.mem_append_right _ ?_
  obtain ⟨h1, h2⟩ := parseTree_calls (code := code) (by rcases hid with e | e <;> rw [e] <;> decide)
    (by rcases hid with e | e <;> rw [e] <;> decide) hc2
  have : Call.record ⟨code, [t.begin_.line, col], [arg]⟩ ∈ only code c2 := by
    rw [h1]
    have hv : (([] : List Frame), mk .body cs) ∈ visits [] (mk .body cs) := by simp [mk, visits]
    refine List.mem_flatMap.2 ⟨_, hv, ?_⟩
    obtain ⟨c, hcn⟩ := h2 _ hv
    rw [hcn, callsOf_ok]
    refine List.mem_filter.2 ⟨?_, by simp [codeOf]⟩
    simp only [mk, checkNode, checkBody, res_bind, res_pure] at hcn
    obtain ⟨⟨ci, supp⟩, hci, E, hE, rfl⟩ := hcn
    exact List.mem_append_left _ ((items_recs hid _ _ _ _ _ _ hci).2 ⟨_, hn, hc, hcol⟩)
  exact (List.mem_filter.1 this).1

/-! ## A file that meets the hypotheses -/

/-- A word without `=`, an option that does not exist, and a code that does not exist. -/
def demo : Str := S "# cmake-lint: disable=E0103,X1 enable=C0301 quiet\n\nset(a b)\n\n"

theorem demo_top : OnTop Props.Parse.exampleCtx demo where
  bom := by decide +kernel
  apart := Props.Parse.switchesApart_of (by decide +kernel)
  top := by
    intro tree h n hn hc
    have k : (match parse Props.Parse.exampleCtx (Props.Lex.toks demo) with
      | .ok tree => onTopB tree
      | .error _ => true) = true := by decide +kernel
    rw [h] at k
    simp only [onTopB, List.all_eq_true] at k
    have := k n hn
    rw [hc, Bool.false_or] at this
    exact noPragma_of this

/-- **Finding.** All three have the column of the first word: the column moves only past words without `=`. -/
theorem demo_lint : lintText demoOpts {} (fun _ => []) Props.Parse.exampleCtx demo = some
    [⟨S "E0011", [1, 14], [S "enable"]⟩, ⟨S "E0011", [1, 14], [S "quiet"]⟩, ⟨S "E0012", [1, 14], [S "X1"]⟩] := by
  decide +kernel

example : ∃ t ∈ Props.Lex.toks demo, ∃ col code arg, Mistake t code arg ∧
    (⟨S "E0012", [1, 14], [S "X1"]⟩ : Lint.Rec) = ⟨code, [t.begin_.line, col], [arg]⟩ :=
  mistakes_sound demo_lint demo_parser demo_top.bom demo_top.apart (by simp) (Or.inr rfl)

/-- The comment of the file. -/
def demoComment : Str := S "# cmake-lint: disable=E0103,X1 enable=C0301 quiet"

theorem demo_tree : ∃ tree n t, parse Props.Parse.exampleCtx (Props.Lex.toks demo) = .ok tree ∧ n ∈ kidsOf tree ∧
    hasType .comment n = true ∧ t ∈ n.toks ∧ t.type = .comment ∧ t.spelling = demoComment ∧ t.begin_.line = 1 := by
  have k : (match parse Props.Parse.exampleCtx (Props.Lex.toks demo) with
    | .ok tree => (kidsOf tree).any fun n => hasType .comment n && n.toks.any fun t =>
        t.type == .comment && t.spelling == demoComment && t.begin_.line == 1
    | .error _ => false) = true := by decide +kernel
  cases h : parse Props.Parse.exampleCtx (Props.Lex.toks demo) with
  | error e => rw [h] at k; simp at k
  | ok tree =>
    rw [h] at k
    simp only [List.any_eq_true, Bool.and_eq_true, beq_iff_eq] at k
    obtain ⟨n, k1, k2, t, k3, ⟨k4, k5⟩, k6⟩ := k
    exact ⟨tree, n, t, rfl, k1, k2, k3, k4, k5, k6⟩

theorem demo_last : lastLineOf Props.Parse.exampleCtx demo = 4 := by decide +kernel

/-- What is reported on a later line is not hidden on it. -/
theorem not_hidden {o : Opts} {cfg : Cfg} {parseLint : List Token → List Lint.Rec} {ctx : Parse.Ctx} {text : Str}
    {rs : List Lint.Rec} (h : lintText o cfg parseLint ctx text = some rs) (ht : OnTop ctx text) {r : Lint.Rec} (hr : r ∈ rs)
    (hd : r.id ∉ cfg.disabled) {line : Nat} {rest : List Nat} (hl : r.loc = line :: rest) (h0 : 0 < line) :
    ¬ HiddenIn ctx text ⟨r.id, [line], r.args⟩ := by
  rintro ⟨tree', e, hh⟩
  obtain ⟨tr, calls, k1, _, k3⟩ := pragma_exact_partial h ht.bom ht.apart
  rw [e] at k1
  injection k1 with k1
  subst k1
  obtain ⟨m, j1, j2, j3, first, last, line', rest', j4, j5, j6, j7⟩ := hh
  simp only [List.cons.injEq] at j6
  obtain ⟨rfl, _⟩ := j6
  exact (k3 (ht.top _ e) r hd (.inr ⟨last, line, rest, j5, hl, h0, j7.2⟩)).1
    ⟨m, j1, j2, j3, first, last, line, rest, j4, j5, hl, j7⟩ hr

theorem demo_mistake {t : Token} (h5 : t.type = .comment) (h6 : t.spelling = demoComment) : Mistake t (S "E0011") (S "quiet") := by
  have e : demoComment = S "# cmake-lint: " ++ S "disable=E0103,X1 enable=C0301 quiet" := by decide +kernel
  have e2 : S "disable=E0103,X1 enable=C0301 quiet" = S "disable=E0103,X1 enable=C0301 " ++ S "quiet" ++ [] := by decide +kernel
  refine ⟨h5, S "disable=E0103,X1 enable=C0301 quiet", S "quiet", h6.trans e, ⟨_, _, e2, by decide, by decide, ?_, by simp⟩, .word (by decide)⟩
  intro c hc
  have : (S "disable=E0103,X1 enable=C0301 ").getLast? = some ' ' := by decide +kernel
  rw [this] at hc
  injection hc with hc
  subst hc
  decide

/-- The word `quiet` of the comment meets what `mistakes_reported` asks for. -/
example : ∃ tree n t, parse Props.Parse.exampleCtx (Props.Lex.toks demo) = .ok tree ∧ n ∈ kidsOf tree ∧
    hasType .comment n = true ∧ t ∈ n.toks ∧ Mistake t (S "E0011") (S "quiet") ∧
    (0 < t.begin_.line ∧ t.begin_.line < lastLineOf Props.Parse.exampleCtx demo) ∧
    ¬ HiddenIn Props.Parse.exampleCtx demo ⟨S "E0011", [t.begin_.line], [S "quiet"]⟩ := by
  obtain ⟨tree, n, t, h1, h2, h3, h4, h5, h6, h7⟩ := demo_tree
  refine ⟨tree, n, t, h1, h2, h3, h4, demo_mistake h5 h6, ?_, ?_⟩
  · rw [h7, demo_last]
    decide
  · have := not_hidden demo_lint demo_top (r := ⟨S "E0011", [1, 14], [S "quiet"]⟩) (by simp) (by simp) rfl Nat.one_pos
    rw [h7]
    exact this

end Verif.Props.LintMistakes
