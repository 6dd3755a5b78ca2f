import Verif.LintRefs
import Verif.Props.LintTree
import Verif.Props.LintForms

/-!
# Which half-written references cmake-lint reports (C93)

All complete references in a word are first replaced, the inner ones first.  In what is left, the first
`$` or `{` before a name counts; if the name starts like a variable of cmake, the word is reported.
-/

namespace Verif.Props.LintRefs
open Verif Py Verif.Lex Verif.Lint Verif.Lint.Refs
open Verif.Parse hiding Rec Ctx
open Verif.Props.LintTree (Plain lint_parses plain_tree)

/-- Arguments other than names. -/
def isText (t : Token) : Bool := t.type == .quoted || t.type == .unquoted || t.type == .bracketArg

/-- The text of a word in which all complete references are replaced. -/
def rest (t : Token) : Str := mockVarrefs (S "foo") t.spelling.length t.spelling

/-- Nothing but complete references is replaced, and all of them are. -/
theorem rest_reduced (t : Token) : Reduced t.spelling (rest t) := mock_reduced _ _ (Nat.le_refl _)

/-- A word in which a sign stands before the name of a variable of cmake. -/
structure Half (t : Token) (sig name : Str) : Prop where
  text : isText t = true
  first : First [c! "$", c! "{"] (rest t) sig name
  known : isBuiltin name = true

/-- A word in which no sign, or one before some other name, comes first, and the first `${` stands before the
name of a variable of cmake. -/
structure Late (t : Token) (name : Str) : Prop where
  text : isText t = true
  other : ∀ sig n, First [c! "$", c! "{"] (rest t) sig n → isBuiltin n = false
  first : First [c! "${"] (rest t) (c! "${") name
  known : isBuiltin name = true

/-- The record for a word whose sign is not an opening brace after a dollar; `$ENV` is let through. -/
def openRec (t : Token) : Option Rec :=
  if isText t then
    match searchUnescaped missingPrefix? false (rest t) with
    | some (sig, name) =>
      if isBuiltin name ∧ sig ++ name ≠ c! "$ENV" then some ⟨c! "W0106", tokLoc t, [c! "open", sig ++ name]⟩ else none
    | none => none
  else none

theorem openRec_iff (t : Token) (r : Rec) : openRec t = some r ↔ ∃ sig name, Half t sig name ∧ sig ++ name ≠ c! "$ENV" ∧
    r = ⟨c! "W0106", [t.begin_.line, t.begin_.col, t.begin_.offset], [c! "open", sig ++ name]⟩ := by
  unfold openRec
  constructor
  · intro h
    split at h
    · rename_i ht
      split at h
      · rename_i sig name hs
        split at h
        · rename_i hk
          simp only [Option.some.injEq] at h
          exact ⟨sig, name, ⟨ht, (prefix_finds.first (by decide)).1 hs, hk.1⟩, hk.2, h.symm⟩
        · simp at h
      · simp at h
    · simp at h
  · rintro ⟨sig, name, ⟨h1, h2, h3⟩, h4, rfl⟩
    rw [if_pos h1, (prefix_finds.first (by decide)).2 h2]
    dsimp only
    rw [if_pos ⟨h3, h4⟩]
    rfl

/-- The place of a word with a later `${`. -/
def lateLoc (t : Token) : Option (List Nat) :=
  if isText t then
    match searchUnescaped missingPrefix? false (rest t), searchUnescaped missingSuffix? false (rest t) with
    | some (_, n), some (_, name) => if isBuiltin n = false ∧ isBuiltin name then some (tokLoc t) else none
    | none, some (_, name) => if isBuiltin name then some (tokLoc t) else none
    | _, none => none
  else none

theorem lateLoc_iff (t : Token) (l : List Nat) : lateLoc t = some l ↔ (∃ name, Late t name) ∧
    l = [t.begin_.line, t.begin_.col, t.begin_.offset] := by
  unfold lateLoc
  constructor
  · intro h
    split at h
    · rename_i ht
      split at h
      · rename_i sg n sg' name hs hs'
        split at h
        · rename_i hk
          simp only [Option.some.injEq] at h
          have hf := (suffix_finds.first (by decide)).1 hs'
          obtain rfl : sg' = c! "${" := by simpa using hf.1
          refine ⟨⟨name, ht, ?_, hf, hk.2⟩, h.symm⟩
          intro sig m hm
          rw [(prefix_finds.first (by decide)).2 hm] at hs
          simp only [Option.some.injEq, Prod.mk.injEq] at hs
          rw [hs.2]
          exact hk.1
        · simp at h
      · rename_i sg' name hs hs'
        split at h
        · rename_i hk
          simp only [Option.some.injEq] at h
          have hf := (suffix_finds.first (by decide)).1 hs'
          obtain rfl : sg' = c! "${" := by simpa using hf.1
          refine ⟨⟨name, ht, ?_, hf, hk⟩, h.symm⟩
          intro sig m hm
          rw [(prefix_finds.first (by decide)).2 hm] at hs
          simp at hs
        · simp at h
      · simp at h
    · simp at h
  · rintro ⟨⟨name, h1, h2, h3, h4⟩, rfl⟩
    rw [if_pos h1, (suffix_finds.first (by decide)).2 h3]
    cases e : searchUnescaped missingPrefix? false (rest t) with
    | none => simp only [h4, if_true]; rfl
    | some x =>
      have := h2 x.1 x.2 ((prefix_finds.first (by decide)).1 e)
      dsimp only
      rw [if_pos ⟨this, h4⟩]
      rfl

/-! ## The records of the token check -/

/-- The message says that the sign is not complete. -/
def isOpen (r : Rec) : Bool := r.id == c! "W0106" && r.args.head? == some (c! "open")

/-- The message says that the reference is not closed. -/
def isClosing (r : Rec) : Bool := r.id == c! "W0106" && r.args.head? == some (c! "closing")

theorem tokens_recs : ∀ (ts : List Token) (cat : Option Str) {rs : List Rec}, checkTokens cat ts = .ok (rs.map .record) →
    rs.filter isOpen = ts.filterMap openRec ∧ (rs.filter isClosing).map (·.loc) = ts.filterMap lateLoc
  | [], cat, rs, h => by
    simp only [checkTokens, Except.ok.injEq] at h
    have : rs = [] := by simpa using h.symm
    subst this
    simp
  | t :: ts, cat, rs, h => by
    have ih := fun (cat : Option Str) {rs : List Rec} (h : checkTokens cat ts = .ok (rs.map .record)) => tokens_recs ts cat h
    have one : ∀ (x : Rec) (cat : Option Str),
        (do let more ← checkTokens cat ts; return .record x :: more : Res (List Call)) = .ok (rs.map .record) →
        ∃ rs', rs = x :: rs' ∧ rs'.filter isOpen = ts.filterMap openRec ∧
          (rs'.filter isClosing).map (·.loc) = ts.filterMap lateLoc := by
      intro x cat h
      simp only [res_bind, res_pure] at h
      obtain ⟨more, h1, h2⟩ := h
      cases rs with
      | nil => simp at h2
      | cons y rs =>
        simp only [List.map_cons, List.cons.injEq, Call.record.injEq] at h2
        obtain ⟨rfl, rfl⟩ := h2
        exact ⟨rs, rfl, ih cat h1⟩
    simp only [List.filterMap_cons]
    simp only [checkTokens] at h
    by_cases hk : t.type = .quoted ∨ t.type = .unquoted ∨ t.type = .bracketArg
    · have ht : isText t = true := by
        simp only [isText, Bool.or_eq_true, beq_iff_eq]
        rcases hk with h | h | h <;> simp [h]
      rw [if_pos hk] at h
      have er : mockVarrefs (S "foo") t.spelling.length t.spelling = rest t := rfl
      rw [er] at h
      simp only [openRec, lateLoc, ht, if_true]
      cases hp : searchUnescaped missingPrefix? false (rest t) with
      | some x =>
        obtain ⟨sig, name⟩ := x
        rw [hp] at h
        dsimp only at h ⊢
        cases hb : isBuiltin name with
        | true =>
          rw [hb] at h
          simp only [if_true] at h
          by_cases he : sig ++ name = c! "$ENV"
          · rw [if_pos (show sig ++ name = S "$ENV" from he)] at h
            rw [if_neg (by simp [he])]
            cases hs : searchUnescaped missingSuffix? false (rest t) with
            | none => simpa using ih _ h
            | some y => simpa [hb] using ih _ h
          · rw [if_neg (show ¬ sig ++ name = S "$ENV" from he)] at h
            obtain ⟨rs', rfl, k1, k2⟩ := one _ _ h
            rw [if_pos ⟨rfl, he⟩]
            have o1 : isOpen ⟨S "W0106", tokLoc t, [S "open", sig ++ name]⟩ = true := by simp [isOpen, S]
            have o2 : isClosing ⟨S "W0106", tokLoc t, [S "open", sig ++ name]⟩ = false := by simp [isClosing, S]
            simp only [List.filter_cons, o1, o2, if_true, k1, Bool.false_eq_true, if_false, k2]
            cases hs : searchUnescaped missingSuffix? false (rest t) with
            | none => exact ⟨rfl, rfl⟩
            | some y => exact ⟨rfl, by simp [hb]⟩
        | false =>
          rw [hb] at h
          simp only [Bool.false_eq_true, if_false, false_and] at h ⊢
          cases hs : searchUnescaped missingSuffix? false (rest t) with
          | none => rw [hs] at h; exact ih _ h
          | some y =>
            obtain ⟨sg, nm⟩ := y
            rw [hs] at h
            dsimp only at h ⊢
            cases hb2 : isBuiltin nm with
            | false => rw [hb2] at h; simpa using ih _ (by simpa using h)
            | true =>
              rw [hb2] at h
              simp only [if_true] at h
              cases cat with
              | none => simp at h
              | some c =>
                obtain ⟨rs', rfl, k1, k2⟩ := one _ _ h
                have o1 : isOpen ⟨S "W0106", tokLoc t, [S "closing", c]⟩ = false := by simp [isOpen, S]
                have o2 : isClosing ⟨S "W0106", tokLoc t, [S "closing", c]⟩ = true := by simp [isClosing, S]
                simp only [List.filter_cons, o1, o2, if_true, k1, Bool.false_eq_true, if_false, k2, List.map_cons, hb, and_self]
      | none =>
        rw [hp] at h
        dsimp only at h ⊢
        cases hs : searchUnescaped missingSuffix? false (rest t) with
        | none => rw [hs] at h; exact ih _ h
        | some y =>
          obtain ⟨sg, nm⟩ := y
          rw [hs] at h
          dsimp only at h ⊢
          cases hb2 : isBuiltin nm with
          | false => rw [hb2] at h; simpa using ih _ (by simpa using h)
          | true =>
            rw [hb2] at h
            simp only [if_true] at h
            cases cat with
            | none => simp at h
            | some c =>
              obtain ⟨rs', rfl, k1, k2⟩ := one _ _ h
              have o1 : isOpen ⟨S "W0106", tokLoc t, [S "closing", c]⟩ = false := by simp [isOpen, S]
              have o2 : isClosing ⟨S "W0106", tokLoc t, [S "closing", c]⟩ = true := by simp [isClosing, S]
              simp only [List.filter_cons, o1, o2, if_true, k1, Bool.false_eq_true, if_false, k2, List.map_cons, and_self]
    · have ht : isText t = false := by
        simp only [not_or] at hk
        simp [isText, hk.1, hk.2.1, hk.2.2]
      rw [if_neg hk] at h
      simpa [openRec, lateLoc, ht] using ih _ h

/-! ## The report -/

theorem node_refs {o : Opts} {v : List Frame × Node} {c : List Call} (h : checkNode o v.1 v.2 = .ok c) :
    only (S "W0106") c = [] := by
  obtain ⟨anc, n⟩ := v
  dsimp only at h
  cases hq : quiet n with
  | true =>
    have := quiet_codes (o := o) (v := (anc, n)) hq
    simp only [h, callsOf_ok] at this
    exact this.only (by decide)
  | false =>
    cases n with
    | tok t => simp [quiet] at hq
    | node ty a cs =>
      cases ty <;> simp only [quiet, quietT, Bool.true_eq_false] at hq <;> simp only [checkNode] at h
      · exact (body_codes h).only (by decide)
      · exact (statement_codes h).only (by decide)
      · exact (flow_codes h).only (by decide)

theorem tree_refs {o : Opts} {tree : Node} {calls : List Call} (h : checkParseTree o tree = .ok calls) :
    only (S "W0106") calls = [] := by
  obtain ⟨h1, h2⟩ := parseTree_calls (code := S "W0106") (by decide) (by decide) h
  rw [h1, List.flatMap_eq_nil_iff]
  intro v hv
  obtain ⟨c, hc⟩ := h2 v hv
  rw [hc]
  exact node_refs hc

/-- The records with this code that the parser makes have another message. -/
theorem parser_refs (user : Spec) (ctx : Parse.Ctx) (ts : List Token) :
    ∀ r ∈ parserLint user ctx ts, isOpen r = false ∧ isClosing r = false := by
  intro r hr
  unfold parserLint at hr
  split at hr
  · simp at hr
  · rename_i tree _
    have key : ∀ ss, r ∈ parserRecs user ss → isOpen r = false ∧ isClosing r = false := by
      intro ss
      induction ss with
      | nil => simp [parserRecs]
      | cons s ss ih =>
        intro h
        simp only [parserRecs, List.mem_append] at h
        rcases h with h | h
        · simp only [stmtRecs] at h
          split at h
          · simp at h
          · rename_i rc _
            cases hrc : rc with
            | buildCommand =>
              subst hrc
              simp only [Recorder.recs, buildCommandRecs] at h
              split at h
              · simp at h
              · simp only [List.mem_singleton] at h
                subst h
                constructor
                · simp [isOpen]
                · simp [isClosing]
            | _ =>
              have k := recs_codes _ _ _ r h
              subst hrc
              have : r.id ≠ c! "W0106" := by
                intro e
                rw [e] at k
                revert k
                decide
              simp [isOpen, isClosing, this]
        · exact ih h
    exact key _ hr

theorem report_filter {o : Opts} {cfg : Cfg} {user : Spec} {ctx : Parse.Ctx} {text : Str} {rs : List Rec}
    (h : lintText o cfg (parserLint user ctx) ctx text = some rs) (hp : Plain text) (hd : c! "W0106" ∉ cfg.disabled)
    {p : Rec → Bool} (hp1 : ∀ r, p r = true → r.id = c! "W0106")
    (hp2 : ∀ r ∈ parserLint user ctx (Props.Lex.toks text), p r = false) :
    ∃ r1 : List Rec, checkTokens none (Props.Lex.toks text) = .ok (r1.map .record) ∧ (rs.filter p).Perm (r1.filter p) := by
  obtain ⟨calls, c, h1, h2, h3⟩ := lintText_ok h
  obtain ⟨ts, c1, tree, c2, hts, hc1, htree, hc2, rfl⟩ := checkFile_ok h1
  rw [Props.Parse.tokenize_toks] at hts
  injection hts with hts
  subst hts
  obtain ⟨r1, rfl, hr1⟩ := tokens_codes _ _ hc1
  refine ⟨r1, hc1, ?_⟩
  obtain ⟨r2, rfl⟩ := records_of_quiet (tree_quiet (plain_tree hp htree).1 hc2)
  have e : (checkBasics cfg text).map Call.record ++ (r1.map Call.record ++
      (parserLint user ctx (Props.Lex.toks text)).map Call.record ++ r2.map Call.record) =
      (checkBasics cfg text ++ (r1 ++ parserLint user ctx (Props.Lex.toks text) ++ r2)).map .record := by
    simp
  rw [e] at h2
  obtain ⟨k1, k2, _⟩ := run_records _ _ _ _ rfl h2
  have e3 : rs = sortBy recLe c.lint := by
    rw [← h3, Ctx.getLint, k2]
    exact sweep_free _
  have hperm : rs.Perm c.lint := by rw [e3]; exact sortBy_perm _ _
  refine (hperm.filter _).trans (List.Perm.of_eq ?_)
  rw [k1]
  simp only [List.nil_append, List.filter_filter, List.filter_append]
  have zero : ∀ (l : List Rec), (∀ r ∈ l, p r = false) → l.filter (fun r => p r && decide (r.id ∉ cfg.disabled)) = [] := by
    intro l hl
    rw [List.filter_eq_nil_iff]
    intro r hr
    simp [hl r hr]
  have off : ∀ {r : Rec}, r.id ≠ c! "W0106" → p r = false := by
    intro r hr
    cases hpr : p r with
    | false => rfl
    | true => exact absurd (hp1 r hpr) hr
  rw [zero (checkBasics cfg text) fun r hr => off fun e => absurd (basics_codes _ _ r hr) (by rw [e]; decide),
    zero (parserLint user ctx (Props.Lex.toks text)) hp2, zero r2 ?_]
  · simp only [List.append_nil, List.nil_append]
    apply List.filter_congr
    intro r hr
    have := hr1 r hr
    rw [this]
    simp [show S "W0106" ∉ cfg.disabled from hd]
  · intro r hr
    refine off fun e => ?_
    have := tree_refs hc2
    rw [record_only] at this
    have k : r ∈ r2.filter fun r => r.id == S "W0106" := List.mem_filter.2 ⟨hr, by rw [e]; rfl⟩
    rw [List.map_eq_nil_iff.1 this] at k
    simp at k

/-- **C93.** cmake-lint reports an incomplete sign exactly once for every word in which, after all
complete references are replaced, the first `$` or `{` before a name stands before the name of a variable of
cmake; with the place of the word, the sign and the name.  `$ENV` is let through. -/
theorem half_references {o : Opts} {cfg : Cfg} {user : Spec} {ctx : Parse.Ctx} {text : Str} {rs : List Rec}
    (h : lintText o cfg (parserLint user ctx) ctx text = some rs) (hp : Plain text) (hd : c! "W0106" ∉ cfg.disabled) :
    (rs.filter isOpen).Perm ((Props.Lex.toks text).filterMap openRec) := by
  obtain ⟨r1, h1, h2⟩ := report_filter h hp hd (p := isOpen)
    (fun r hr => by simp only [isOpen, Bool.and_eq_true, beq_iff_eq] at hr; exact hr.1)
    fun r hr => (parser_refs _ _ _ r hr).1
  rw [(tokens_recs _ _ h1).1] at h2
  exact h2

/-- **C93.** It reports an unclosed reference exactly for the words in which a sign before some other name
comes first, and the first `${` stands before the name of a variable of cmake. -/
theorem late_references {o : Opts} {cfg : Cfg} {user : Spec} {ctx : Parse.Ctx} {text : Str} {rs : List Rec}
    (h : lintText o cfg (parserLint user ctx) ctx text = some rs) (hp : Plain text) (hd : c! "W0106" ∉ cfg.disabled) :
    ((rs.filter isClosing).map (·.loc)).Perm ((Props.Lex.toks text).filterMap lateLoc) := by
  obtain ⟨r1, h1, h2⟩ := report_filter h hp hd (p := isClosing)
    (fun r hr => by simp only [isClosing, Bool.and_eq_true, beq_iff_eq] at hr; exact hr.1)
    fun r hr => (parser_refs _ _ _ r hr).2
  rw [← (tokens_recs _ _ h1).2]
  exact h2.map _

/-! ## A file -/

def demo : Str :=
  S "x(\"${CMAKE_AR\" $CMAKE_AR \"$ENV{HOME}\" \"\\$CMAKE_AR ${a}\"\n\"$foo ${CMAKE_AR\")\n"

theorem demo_plain : Plain demo where
  bom := by decide +kernel
  apart := Props.Parse.switchesApart_of (by decide +kernel)
  pragma := Props.LintTree.noPragma_of (by decide +kernel)

/-- What is reported about the file.  Two findings: the first word lacks its closing brace, and is
reported for its opening one; the last is reported with the text of an earlier word. -/
def demoRecs : List Rec :=
  [⟨S "W0106", [1, 2, 2], [S "open", S "{CMAKE_AR"]⟩, ⟨S "W0106", [1, 15, 15], [S "open", S "$CMAKE_AR"]⟩,
   ⟨S "W0106", [2, 0, 56], [S "closing", S "$ENV"]⟩]

theorem demo_lint : lintText Props.LintTree.demoOpts {} (parserLint .root Props.Parse.exampleCtx) Props.Parse.exampleCtx demo =
    some demoRecs := by
  decide +kernel

/-- The hypotheses are met, and the records are not empty. -/
example : (demoRecs.filter isOpen).Perm ((Props.Lex.toks demo).filterMap openRec) :=
  half_references demo_lint demo_plain (by simp)

example : ((demoRecs.filter isClosing).map (·.loc)).Perm ((Props.Lex.toks demo).filterMap lateLoc) :=
  late_references demo_lint demo_plain (by simp)

end Verif.Props.LintRefs
