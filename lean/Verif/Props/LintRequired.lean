import Verif.Props.LintForms
import Verif.Props.WordGroups

/-!
# Exactly the missing keywords are reported (C77)

`Props/LintForms.lean` proves that a command without a required keyword anywhere is reported, and that
nothing but these commands is.  Here the words of the command are grouped by `FormSpec.lean` and
`WordSpec.lean`, and the report is exactly what is missing: a keyword counts if it opens a group.
-/

namespace Verif.Props.LintRequired
open Verif Py Verif.Lex Verif.Lint Verif.Props.LintTree Verif.Props.LintForms
open Verif.Parse hiding Rec Ctx Mark

/-! ## What is expected -/

/-- The form of `add_custom_command(TARGET ...)`. -/
def eventForm : Command :=
  anyWords [S "APPEND", S "VERBATIM", S "USES_TERMINAL", S "COMMAND_EXPAND_LISTS", S "PRE_BUILD", S "PRE_LINK", S "POST_BUILD"]
    [(S "BYPRODUCTS", any []), (S "COMMAND", any []), (S "COMMENT", any []), (S "TARGET", exactly 1 []),
     (S "WORKING_DIRECTORY", exactly 1 [])]

/-- The form of all others. -/
def outputForm : Command :=
  anyWords [S "APPEND", S "VERBATIM", S "USES_TERMINAL", S "COMMAND_EXPAND_LISTS"]
    [(S "BYPRODUCTS", any []), (S "COMMAND", any []), (S "COMMENT", any []), (S "DEPENDS", any []), (S "DEPFILE", exactly 1 []),
     (S "JOB_POOL", exactly 1 []), (S "IMPLICIT_DEPENDS", any []), (S "MAIN_DEPENDENCY", exactly 1 []), (S "OUTPUT", any []),
     (S "WORKING_DIRECTORY", exactly 1 [])]

/-- The form of an `add_custom_command`. -/
def customForm (ws : List Token) : Command := if wordAt 0 ws = some (S "TARGET") then eventForm else outputForm

/-- The groups of an `add_custom_target` or `add_custom_command`. -/
def groupsOf (s : Node) : List Parse.Mark :=
  if nameOf s = c! "add_custom_target" then targetMarks (argsOf s) else (customForm (argsOf s)).place (argsOf s)

/-- The words that open or end groups in it. -/
def groupWords (s : Node) : List Str :=
  if nameOf s = c! "add_custom_target" then targetWords else (customForm (argsOf s)).keywords.map (·.1)

/-- The word opens a keyword group, in any letter case. -/
def opens (word : Str) (marks : List Parse.Mark) : Bool :=
  marks.any fun m => m.opens == some true && (m.word.type == .word && upper m.word.spelling == word)

/-- The expected records of a command: one for each required keyword that opens no group. -/
def missing (user : List Str) (code : Str) (s : Node) : List Rec :=
  match (argsOf s).head? with
  | none => []
  | some t => requiredWords.filterMap fun q =>
      if q.1 = nameOf s ∧ q.2.2 = code ∧ nameOf s ∉ user ∧ opens q.2.1 (groupsOf s) = false then
        some ⟨code, tokStart t, [q.2.1]⟩
      else none

/-- The command has arguments but no comments and no inner parentheses, and what is spelled like a keyword is a word. -/
structure Clear (s : Node) : Prop where
  first : ∃ t, (argsOf s).head? = some t ∧ (nameOf s = c! "add_custom_command" → t.type = .word)
  flat : ∀ t ∈ argsOf s, t.type ≠ .lparen ∧ t.type ≠ .rparen
  words : ∀ t ∈ argsOf s, spelledIn t (groupWords s) = true → t.type = .word
  bare : Commentless s

/-! ## The keywords of a tree and its groups -/

theorem kid_keyword {ctx : Parse.Ctx} {k : Node} (hk : Neat ctx k) (p : Token → Bool) :
    ((if hasType .kwargGroup k = true then k.toks.head? else none).any p) =
      ((groupMarks k).any fun m => m.opens == some true && p m.word) := by
  have later : ∀ l : List (NT × Token), ((l.map fun q => (⟨none, q.1, q.2⟩ : Parse.Mark)).any
      fun m => m.opens == some true && p m.word) = false := by
    intro l
    rw [List.any_map, List.any_eq_false]
    intro x _
    simp
  cases k with
  | tok t => simp [hasType, groupMarks]
  | node ty a cs =>
    have hn := (neat_node.1 hk).1
    by_cases hty : ty = .kwargGroup
    · subst hty
      obtain ⟨t, ws, body, rfl, _⟩ := hn
      have : leafsL (mk .keyword [.tok t] :: leaves ws ++ body) = (.keyword, t) :: leafsL (leaves ws ++ body) := by
        simp [leafsL, leafs, mk]
      simp only [groupMarks, this, marked, List.any_cons, later]
      simp [hasType, Node.toks, toksL, mk]
    · by_cases hp : ty = .pargGroup
      · subst hp
        simp only [groupMarks]
        have : ∀ l, ((marked false l).any fun m => m.opens == some true && p m.word) = false := by
          intro l
          cases l with
          | nil => rfl
          | cons x l =>
            obtain ⟨x1, x2⟩ := x
            simp only [marked, List.any_cons, later]
            simp
        rw [this]
        simp [hasType]
      · have : groupMarks (.node ty a cs) = [] := by
          cases ty <;> first | rfl | exact absurd rfl hty | exact absurd rfl hp
        rw [this]
        simp [hasType, hty]

theorem keywords_marks {ctx : Parse.Ctx} {n : Node} (hk : Neat ctx n) (p : Token → Bool) (hg : treeMarks n ≠ []) :
    (keywordsOf n).any p = (treeMarks n).any fun m => m.opens == some true && p m.word := by
  cases n with
  | tok t => exact absurd rfl hg
  | node ty a cs =>
    have : ty = .argGroup := by
      cases ty <;> first | rfl | exact absurd rfl hg
    subst this
    have hkids := (neat_node.1 hk).2
    simp only [keywordsOf, kidsOf, treeMarks]
    clear hg hk
    induction cs with
    | nil => rfl
    | cons k ks ih =>
      have h1 := kid_keyword (hkids k (by simp)) p
      rw [List.flatMap_cons, List.any_append, ← h1, ← ih fun c hc => hkids c (List.mem_cons_of_mem _ hc), List.filterMap_cons]
      cases e : (if hasType .kwargGroup k = true then k.toks.head? else none) <;> simp [e]

/-- The groups of a command are those of its argument tree. -/
theorem marks_tree {ctx : Parse.Ctx} {ts : List Token} {tree s : Node} (h : parse ctx ts = .ok tree) (hs : s ∈ stmtsOf tree) :
    argMarks s = treeMarks (argTree s) ∧ Neat ctx (argTree s) := by
  obtain ⟨h1, a, cs, rfl⟩ := Props.Groups.stmtsOf_sub tree hs
  obtain ⟨hneat, _⟩ := parse_neat (ctx := ctx) h
  have hall : Neat ctx (.node .statement a cs) := by
    intro m hm
    have tr : ∀ {x y z : Node}, Sub x y → Sub y z → Sub x z := by
      intro x y z hxy hyz
      induction hyz with
      | refl => exact hxy
      | child hc _ ih => exact .child hc ih
    exact hneat m (tr hm h1)
  have hkids := (neat_node.1 hall).2
  obtain ⟨f, l, r, ws, ws1, sub, mid, trail, rfl, w1, w2, hg, hm, ht, _⟩ := (neat_node.1 hall).1
  have hsub : isNode sub = true := by
    cases sub with
    | tok t => exact absurd hg (by simp [Grp])
    | node => rfl
  rw [Gen.argTree_stmt hsub]
  refine ⟨?_, hkids sub (by simp)⟩
  have other : ∀ l : List Node, (∀ n ∈ l, ∀ b ds, n ≠ .node .argGroup b ds) → l.flatMap treeMarks = [] := by
    intro l hl
    rw [List.flatMap_eq_nil_iff]
    intro n hn
    have := hl n hn
    cases n with
    | tok t => rfl
    | node ty b ds => cases ty <;> first | rfl | exact absurd rfl (this _ _)
  have hmid : ∀ n ∈ mid, ∀ b ds, n ≠ .node .argGroup b ds := by
    intro n hn b ds e
    have := hm n hn
    rw [e] at this
    simp [Filler] at this
  have hleaf : ∀ w : List Token, ∀ n ∈ leaves w, ∀ b ds, n ≠ .node .argGroup b ds := by
    intro w n hn b ds e
    obtain ⟨t, _, e'⟩ := List.mem_map.1 hn
    rw [e] at e'
    simp at e'
  have htr : ∀ n ∈ trail, ∀ b ds, n ≠ .node .argGroup b ds := by
    rcases ht with rfl | ⟨w, a, ds, rfl, _⟩
    · simp
    · intro n hn b es e
      rcases List.mem_append.1 hn with hn | hn
      · exact hleaf w n hn b es e
      · rw [e] at hn
        simp at hn
  have all : ∀ a cs, argMarks (.node .statement a cs) = cs.flatMap treeMarks := by
    intro a cs
    simp only [argMarks]
    congr 1
  rw [all]
  simp only [List.flatMap_append, List.flatMap_cons, List.flatMap_nil, List.append_nil]
  rw [other _ (hleaf ws), other _ (hleaf ws1), other _ hmid, other _ htr]
  simp [mk, treeMarks]

theorem place_ne (c : Command) (st : Stage) (t : Token) (ts : List Token) : Parse.place c st (t :: ts) ≠ [] := by
  simp only [Parse.place]
  repeat' split
  all_goals simp

theorem groups_ne {s : Node} (h : argsOf s ≠ []) : groupsOf s ≠ [] := by
  unfold groupsOf
  cases e : argsOf s with
  | nil => exact absurd e h
  | cons t ts =>
    split
    · simp [targetMarks, Parse.firstWords]
    · exact place_ne _ _ _ _

/-! ## The records of a command -/

/-- `add_custom_command`, with its forms. -/
def customForms : Forms := ⟨S "add_custom_command", 0, [], [(S "TARGET", some eventForm)], some outputForm⟩

theorem custom_forms : customForms ∈ forms := List.mem_of_getElem? (i := 3) rfl

theorem custom_shape (w : Str) : customForms.shape w = some (if w = S "TARGET" then eventForm else outputForm) := by
  simp only [customForms, Forms.shape, List.lookup]
  by_cases h : w = S "TARGET"
  · simp [h]
  · have : (w == S "TARGET") = false := by simpa using h
    simp [h, this]

theorem lookup_none {user : Spec} {k : Str} (h : k ∉ userNames user) : user.kwargs.lookup k = none := by
  unfold userNames at h
  rw [List.lookup_eq_none_iff]
  intro p hp
  simp only [bne_iff_ne, ne_eq]
  intro e
  exact h (List.mem_map.2 ⟨p, hp, e.symm⟩)

theorem custom_marks {user : Spec} {explicit : Str → Bool} {vt : List ((Str → Bool) × List Str)} {text : Str} {tree s : Node}
    (hb : text.head? ≠ some BOM) (ha : SwitchesApart (Props.Lex.toks text))
    (h : parse (commandCtx user explicit vt) (Props.Lex.toks text) = .ok tree) (hs : s ∈ stmtsOf tree)
    (hn : nameOf s = c! "add_custom_command" ∨ nameOf s = c! "add_custom_target") (hu : nameOf s ∉ userNames user)
    (hcl : Clear s) : argMarks s = groupsOf s := by
  obtain ⟨f, l, r, hw, _⟩ := stmt_args' h hs
  rw [stmt_args h hs] at hw
  have hname : lower f.spelling = nameOf s := by simp [nameOf, hw]
  rcases hn with hn | hn
  · have hne : nameOf s ≠ c! "add_custom_target" := by rw [hn]; decide
    have hg : groupsOf s = (customForm (argsOf s)).place (argsOf s) := if_neg hne
    obtain ⟨t, ht, hty⟩ := hcl.first
    have h0 : (argsOf s)[0]? = some t := by rw [← List.head?_eq_getElem?]; exact ht
    have hwords := hcl.words
    rw [show groupWords s = (customForm (argsOf s)).keywords.map (·.1) from if_neg hne] at hwords
    have hcf : customForm (argsOf s) = if upper t.spelling = S "TARGET" then eventForm else outputForm := by
      simp only [customForm, wordAt, h0, Option.map_some, Option.some.injEq]
    rw [hg]
    have e0 : S "add_custom_command" = c! "add_custom_command" := by decide +kernel
    refine Props.Groups.forms_grouped_partial hb ha h hs hw hcl.flat hcl.bare custom_forms (by rw [hname, hn]; exact e0.symm)
      (lookup_none (by show S "add_custom_command" ∉ _; rw [e0, ← hn]; exact hu)) ⟨⟨t, h0, hty hn, ?_⟩, ?_⟩ hwords
    · rw [custom_shape, hcf]
    · intro u hu'
      simp [customForms] at hu'
  · have hg : groupsOf s = targetMarks (argsOf s) := if_pos hn
    have hwords := hcl.words
    rw [show groupWords s = targetWords from if_pos hn] at hwords
    have e0 : S "add_custom_target" = c! "add_custom_target" := by decide +kernel
    have e1 : c! "add_custom_target" ≠ S "set" := by decide +kernel
    rw [hg]
    refine Props.WordGroups.words_grouped_partial hb ha h hs hw hcl.flat hcl.bare (lookup_none (by rw [hname]; exact hu)) ?_ ?_
    · rw [hname, hn, wordMarks, if_neg e1, if_pos e0.symm]
    · intro u hu' hsp
      rw [hname, hn, wordStops, if_neg e1, if_pos e0.symm] at hsp
      exact hwords u hu' hsp

theorem has_keyword {user : Spec} {explicit : Str → Bool} {vt : List ((Str → Bool) × List Str)} {text : Str} {tree s : Node}
    (hb : text.head? ≠ some BOM) (ha : SwitchesApart (Props.Lex.toks text))
    (h : parse (commandCtx user explicit vt) (Props.Lex.toks text) = .ok tree) (hs : s ∈ stmtsOf tree)
    (hn : nameOf s = c! "add_custom_command" ∨ nameOf s = c! "add_custom_target") (hu : nameOf s ∉ userNames user)
    (hcl : Clear s) {w : Str} (hw : lower w ≠ w) :
    ((keywordsOf (argTree s)).any fun t => normKwarg t == some w) = opens w (groupsOf s) := by
  have hm := custom_marks hb ha h hs hn hu hcl
  obtain ⟨k1, k2⟩ := marks_tree h hs
  have hne : argsOf s ≠ [] := by
    obtain ⟨t, ht, _⟩ := hcl.first
    intro e
    rw [e] at ht
    simp at ht
  have hg := groups_ne hne
  rw [← hm, k1] at hg
  rw [keywords_marks k2 _ hg, ← k1, hm, opens]
  congr 1
  funext m
  congr 1
  rw [Bool.eq_iff_iff]
  simp only [beq_iff_eq, Bool.and_eq_true]
  exact normKwarg_first hw

theorem custom_records {user : Spec} {explicit : Str → Bool} {vt : List ((Str → Bool) × List Str)} {text : Str} {tree s : Node}
    (hb : text.head? ≠ some BOM) (ha : SwitchesApart (Props.Lex.toks text))
    (h : parse (commandCtx user explicit vt) (Props.Lex.toks text) = .ok tree) (hs : s ∈ stmtsOf tree)
    (hn : nameOf s = c! "add_custom_command" ∨ nameOf s = c! "add_custom_target") (hu : nameOf s ∉ userNames user)
    (hcl : Clear s) {code : Str} (hcode : code = c! "C0113" ∨ code = c! "E1125") :
    ((stmtRecs user s []).filter fun r => r.id == code) = missing (userNames user) code s := by
  obtain ⟨t, ht, hty⟩ := hcl.first
  have k1 := has_keyword hb ha h hs hn hu hcl (w := c! "COMMENT") (by decide)
  have k2 := has_keyword hb ha h hs hn hu hcl (w := c! "COMMAND") (by decide)
  have ea : semantics (argTree s).toks = argsOf s := stmt_args h hs
  obtain ⟨as, eas⟩ : ∃ as, argsOf s = t :: as := by
    cases el : argsOf s with
    | nil => rw [el] at ht; simp at ht
    | cons a l => rw [el] at ht; simp only [List.head?_cons, Option.some.injEq] at ht; exact ⟨l, by rw [ht]⟩
  have hover : overridden user (nameOf s) = false := by rw [overridden_eq]; simpa using hu
  have place : ∀ loc : List Nat, placeOf loc (semantics (argTree s).toks) = tokStart t := by
    intro loc
    rw [ea, eas]
    rfl
  have hpar : t.type ≠ .rparen := (hcl.flat t (by rw [eas]; simp)).2
  have hfirst : nthSem 0 (givenTo s) = some t := by
    rw [given_first h hs]
    obtain ⟨f, l, r, k, _⟩ := stmt_args' h hs
    have ea' : semToks (argTree s) = argsOf s := ea
    rw [k, ea', eas]
    rfl
  rcases hn with hn | hn <;> have hu' := hu <;> rw [hn] at hu'
  · have er : recorderOf user (funName s) = some .customCommand := by
      rw [cmd_name h hs, recorderOf, hover, hn]
      decide
    have hreq : ((stmtRecs user s []).filter fun r => r.id == code) =
        (requiredRecs (nodeLoc (argTree s)) commandRequired (argTree s)).filter fun r => r.id == code := by
      have n1 : (c! "C0114" == code) = false := by rcases hcode with rfl | rfl <;> decide
      have n2 : (c! "E1126" == code) = false := by rcases hcode with rfl | rfl <;> decide
      simp only [stmtRecs, er, Recorder.recs, customCommandRecs, hfirst, hpar, if_false]
      repeat' split
      · rw [List.filter_cons_of_neg (by rw [n1]; simp)]
      · rfl
      · rw [List.filter_cons_of_neg (by rw [n2]; simp)]
    rw [hreq]
    simp only [requiredRecs, commandRequired, List.flatMap_cons, List.flatMap_nil, k1, k2, place, missing, ht, requiredWords]
    have d1 : c! "add_custom_command" ≠ c! "add_custom_target" := by decide
    have d2 : c! "C0113" ≠ c! "E1125" := by decide
    rcases hcode with rfl | rfl <;> cases o1 : opens (c! "COMMENT") (groupsOf s) <;>
      cases o2 : opens (c! "COMMAND") (groupsOf s) <;> simp [hn, hu', List.filterMap_cons, o1, o2]
  · have er : recorderOf user (funName s) = some .customTarget := by
      rw [cmd_name h hs, recorderOf, hover, hn]
      decide
    simp only [stmtRecs, er, Recorder.recs, customTargetRecs, List.filter_append]
    rw [stray_id (by rcases hcode with rfl | rfl <;> decide)]
    simp only [requiredRecs, List.flatMap_cons, List.flatMap_nil, k1, place, missing, ht, requiredWords, List.nil_append]
    rcases hcode with rfl | rfl <;> cases o1 : opens (c! "COMMENT") (groupsOf s) <;>
      simp [hn, hu', List.filterMap_cons, o1]

/-- Other commands have no such records. -/
theorem other_records {user : Spec} {ctx : Parse.Ctx} {ts : List Token} {tree s : Node}
    (h : parse ctx ts = .ok tree) (hs : s ∈ stmtsOf tree) {code : Str} (hcode : code = c! "C0113" ∨ code = c! "E1125")
    (hn : ¬ ((nameOf s = c! "add_custom_command" ∨ nameOf s = c! "add_custom_target") ∧ nameOf s ∉ userNames user)) :
    ((stmtRecs user s []).filter fun r => r.id == code) = [] ∧ missing (userNames user) code s = [] := by
  constructor
  · rw [List.filter_eq_nil_iff]
    intro r hr hid
    simp only [beq_iff_eq] at hid
    simp only [stmtRecs] at hr
    split at hr
    · simp at hr
    · rename_i rc hrc
      have hc := recs_codes rc s [] r hr
      have : rc = .customCommand ∨ rc = .customTarget := by
        rw [hid] at hc
        rcases hcode with rfl | rfl <;> revert hc <;> cases rc <;> decide
      rw [cmd_name h hs, recorderOf, overridden_eq] at hrc
      split at hrc
      · simp at hrc
      · rename_i hu
        have k := lookup_pair_mem hrc
        refine hn ⟨?_, by simpa using hu⟩
        rcases this with rfl | rfl <;>
          simp only [recorders, List.mem_cons, Prod.mk.injEq, List.not_mem_nil, or_false, reduceCtorEq, and_false, and_true,
            false_or] at k
        · exact .inl k
        · exact .inr k
  · unfold missing
    split
    · rfl
    · rw [List.filterMap_eq_nil_iff]
      intro q hq
      rw [if_neg]
      rintro ⟨e1, _, e2, _⟩
      refine hn ⟨?_, e2⟩
      rw [← e1]
      simp only [requiredWords, List.mem_cons, List.not_mem_nil, or_false] at hq
      rcases hq with rfl | rfl | rfl
      · exact .inl rfl
      · exact .inl rfl
      · exact .inr rfl

/-- **C77.** In a file without pragmas, and where the custom commands and targets have arguments but no
comments and no inner parentheses, C0113 and E1125 are reported exactly once for every required keyword that opens no
group of its command, at the first argument and with the keyword, and for nothing else. -/
theorem missing_keyword_exact_partial {o : Opts} {cfg : Cfg} {user : Spec} {explicit : Str → Bool}
    {vt : List ((Str → Bool) × List Str)} {text : Str} {rs : List Rec}
    (h : lintText o cfg (parserLint user (commandCtx user explicit vt)) (commandCtx user explicit vt) text = some rs)
    (hp : LintTree.Plain text) {code : Str}
    (hcode : code = c! "C0113" ∨ code = c! "E1125") (hd : code ∉ cfg.disabled)
    (hcl : ∀ s ∈ commands (commandCtx user explicit vt) text,
      nameOf s = c! "add_custom_command" ∨ nameOf s = c! "add_custom_target" → Clear s) :
    (rs.filter fun r => r.id == code).Perm
      ((commands (commandCtx user explicit vt) text).flatMap (missing (userNames user) code)) := by
  obtain ⟨tree, h1, h2, h3, _⟩ := of_report h (code := code) (by rcases hcode with rfl | rfl <;> decide)
  rw [h2] at hcl ⊢
  have : ((stmtsOf tree).flatMap fun s => (stmtRecs user s []).filter fun r => r.id == code) =
      (stmtsOf tree).flatMap (missing (userNames user) code) := by
    refine flatMap_eq fun s hs => ?_
    by_cases hn : (nameOf s = c! "add_custom_command" ∨ nameOf s = c! "add_custom_target") ∧ nameOf s ∉ userNames user
    · exact custom_records hp.bom hp.apart h1 hs hn.1 hn.2 (hcl s hs hn.1) hcode
    · obtain ⟨q1, q2⟩ := other_records (user := user) h1 hs hcode hn
      rw [q1, q2]
  rw [← this]
  exact h3 hp hd

/-! ## Example -/

/-- The first command has both keywords, the second has them as arguments of others, and so on. -/
def requiredText : Str :=
  S "add_custom_command(OUTPUT a Command b comment c) #c\nadd_custom_command(OUTPUT a WORKING_DIRECTORY COMMENT DEPFILE COMMAND)\nadd_custom_target(t ALL DEPENDS d)\nadd_custom_target(t COMMENT d)\nadd_custom_command(TARGET t COMMENT c)\n"

theorem required_lint : lintText demoOpts {} (parserLint .root demoCtx) demoCtx requiredText = some
    [⟨c! "C0113", [2, 19, 71], [c! "COMMENT"]⟩, ⟨c! "E1125", [2, 19, 71], [c! "COMMAND"]⟩,
     ⟨c! "C0113", [3, 18, 141], [c! "COMMENT"]⟩, ⟨c! "E1125", [5, 19, 208], [c! "COMMAND"]⟩] := by
  unfold demoCtx commandCtx
  rw [Props.Gen.root_fast]
  decide +kernel

/-- The conditions on a command, as a test. -/
def clearB (s : Node) : Bool :=
  (argsOf s).head?.any (fun t => t.type == .word) &&
  ((argsOf s).all fun t => t.type != .lparen && t.type != .rparen && (!spelledIn t (groupWords s) || t.type == .word)) &&
  (upToClose s).all fun t => !([TokType.comment, .bracketComment, .formatOn, .formatOff].contains t.type)

theorem clear_of {s : Node} (h : clearB s = true) : Clear s := by
  simp only [clearB, Bool.and_eq_true, List.all_eq_true, Option.any_eq_true] at h
  obtain ⟨⟨⟨t, ht, hw⟩, h⟩, hc⟩ := h
  refine ⟨⟨t, ht, fun _ => by simpa using hw⟩, fun t ht => ?_, fun t ht hs => ?_, fun t ht => by simpa using hc t ht⟩
  · have := h t ht
    simp only [bne_iff_ne, ne_eq] at this
    exact this.1
  · have := (h t ht).2
    simpa [hs] using this

theorem required_clear : ∀ s ∈ commands demoCtx requiredText, Clear s := by
  have : (commands demoCtx requiredText).all clearB = true := by
    unfold demoCtx commandCtx
    rw [Props.Gen.root_fast]
    decide +kernel
  exact fun s hs => clear_of (List.all_eq_true.1 this s hs)

/-- The hypotheses are met: a keyword that is an argument of another one does not count. -/
example : ([⟨c! "C0113", [2, 19, 71], [c! "COMMENT"]⟩, ⟨c! "C0113", [3, 18, 141], [c! "COMMENT"]⟩] : List Rec).Perm
    ((commands demoCtx requiredText).flatMap (missing (userNames .root) (c! "C0113"))) :=
  missing_keyword_exact_partial required_lint ⟨by decide +kernel, Props.Groups.apart_of (by decide +kernel), noPragma_of (by decide +kernel)⟩ (.inl rfl) (by simp)
    fun s hs _ => required_clear s hs

end Verif.Props.LintRequired
