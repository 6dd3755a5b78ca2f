import Verif.LintDoneSpec
import Verif.LintNames
import Verif.Props.LintForms
import Verif.Props.LintParams

/-!
# What cmake-lint reports about names (C79)
-/

namespace Verif.Props.LintNames
open Verif Py Verif.Lex Verif.Lint Verif.Props.LintTree Verif.Props.LintParams
open Verif.Parse hiding Rec Ctx

/-! ## The expected records -/

/-- The record for a name that does not match a pattern. -/
def badName (o : Opts) (what pattern : Str) (t : Token) : List Rec :=
  if o.reMatch pattern t.spelling then [] else [⟨S "C0103", tokStart t, [what, t.spelling, pattern]⟩]

/-- What comes after the opening parenthesis of a command. -/
def firstInside (s : Node) : List Token := (program s.toks)[2]?.toList

/-- The parameters that are words and not there before in any letter case. -/
def freshParams (s : Node) : List Token :=
  ((withEarlier [] (properParams s)).filter fun q => q.2.type == .word && !repeatsAnyCase q).map (·.2)

/-- The names of functions and macros, of their parameters, and of loop variables. -/
def declared (o : Opts) (s : Node) : List Rec :=
  if nameOf s = c! "function" then
    (firstInside s).flatMap (badName o (c! "function") o.functionPattern) ++
      (freshParams s).flatMap (badName o (c! "argument") o.argumentVar)
  else if nameOf s = c! "macro" then
    (firstInside s).flatMap (badName o (c! "macro") o.macroPattern) ++
      (freshParams s).flatMap (badName o (c! "argument") o.argumentVar)
  else if nameOf s = c! "foreach" then (firstInside s).flatMap (badName o (c! "argument") o.argumentVar)
  else []

/-- How the message calls a variable, and the pattern for its name. -/
def rule (o : Opts) : Home → Str × Str
  | .cache => (c! "CACHE variable", o.globalVar)
  | .internal => (c! "INTERNAL variable", o.internalVar)
  | .parent => (c! "PARENT_SCOPE variable", o.publicVar ++ ['|'] ++ o.privateVar ++ ['|'] ++ o.localVar)
  | .inFunction => (c! "local variable", o.localVar)
  | .directory => (c! "directory variable", o.publicVar ++ ['|'] ++ o.privateVar)

/-- The name without the references to variables in it; see `bare_plain` and `bare_pieces`. -/
def bareName (t : Token) : Str := mockVarrefs [] t.spelling.length t.spelling

/-- The variable that a `set` or `list` assigns. -/
def assigned (o : Opts) (p : Place) : List Rec :=
  match assignment p with
  | none => []
  | some (t, home) =>
    if bareName t = [] then []
    else if o.reMatch (rule o home).2 (bareName t) then []
    else [⟨S "C0103", tokStart t, [(rule o home).1, t.spelling, (rule o home).2]⟩]

/-- All records about names. -/
def badNames (o : Opts) (cmds : List Node) : List Rec := (places [] cmds).flatMap fun p => declared o p.cmd ++ assigned o p

/-! ## From calls to these records -/

theorem assigned_calls (o : Opts) (p : Place) : assignCalls o p = (assigned o p).map .record := by
  unfold assignCalls assigned
  cases assignment p with
  | none => rfl
  | some q =>
    obtain ⟨t, home⟩ := q
    have hr : scopeRule o home.scope = rule o home := by
      have bar : S "|" = ['|'] := rfl
      cases home <;> simp only [scopeRule, rule, Home.scope, join, bar, List.append_assoc] <;> rfl
    unfold checkAssigned
    dsimp only
    rw [hr]
    by_cases h1 : bareName t = []
    · rw [if_pos (show mockVarrefs [] t.spelling.length t.spelling = [] from h1), if_pos h1]
      rfl
    · rw [if_neg (show ¬ mockVarrefs [] t.spelling.length t.spelling = [] from h1), if_neg h1]
      unfold bareName
      split <;> rfl

theorem badName_calls (o : Opts) (what pattern : Str) (t : Token) : (badName o what pattern t).map Call.record =
    if o.reMatch pattern t.spelling then [] else [.record ⟨S "C0103", tokLoc t, [what, t.spelling, pattern]⟩] := by
  unfold badName
  split <;> rfl

theorem args_calls (o : Opts) (s : Node) : only (S "C0103") (paramsRec o s) =
    ((freshParams s).flatMap (badName o (c! "argument") o.argumentVar)).map .record := by
  have z : only (S "C0103") (if ((paramsOf s).length : Int) > o.maxArguments then
      [Call.record ⟨S "R0913", startOf s, [natStr (paramsOf s).length, intStr o.maxArguments]⟩] else []) = [] := by
    split
    · rfl
    · rfl
  rw [paramsRec, only_append, z, List.append_nil, only_flatMap, map_flatMap, freshParams]
  generalize withEarlier [] (properParams s) = qs
  induction qs with
  | nil => rfl
  | cons q qs ih =>
    rw [List.flatMap_cons, ih, List.filter_cons]
    have one : only (S "C0103") (paramRec o q) =
        if (q.2.type == .word && !repeatsAnyCase q) = true then (badName o (c! "argument") o.argumentVar q.2).map Call.record else [] := by
      rw [badName_calls]
      unfold paramRec
      by_cases hw : q.2.type = .word
      · rw [if_neg (by simp [hw])]
        by_cases hr : repeats q = true
        · have : repeatsAnyCase q = true := by
            unfold repeats at hr
            unfold repeatsAnyCase
            simp only [Bool.and_eq_true, List.any_eq_true, beq_iff_eq] at hr ⊢
            obtain ⟨h1, u, hu, h2, h3⟩ := hr
            exact ⟨h1, u, hu, h2, by rw [h3]⟩
          rw [if_pos hr, this]
          simp only [Bool.not_true, Bool.and_false, Bool.false_eq_true, if_false]
          rfl
        · rw [if_neg hr]
          by_cases hc : repeatsAnyCase q = true
          · rw [if_pos hc, hc]
            simp only [Bool.not_true, Bool.and_false, Bool.false_eq_true, if_false]
            rfl
          · rw [if_neg hc, if_pos (c := (q.2.type == TokType.word && !repeatsAnyCase q) = true) (by simp [hw, hc])]
            cases o.reMatch o.argumentVar q.2.spelling <;> rfl
      · rw [if_pos hw, if_neg (by simp [hw])]
        rfl
    rw [one]
    split <;> simp

theorem declared_calls {o : Opts} {ctx : Parse.Ctx} {ts : List Token} {tree s : Node} (h : parse ctx ts = .ok tree)
    (hs : s ∈ stmtsOf tree) (p : Place) (hp : p.cmd = s) : openRec openNames (openCalls o) p = (declared o s).map .record := by
  obtain ⟨x, hx⟩ := stmt_of h hs
  have hnf : funName s = nameOf s := by rw [stmt_funName hx, stmt_nameOf hx]
  obtain ⟨f, l, r, e, _⟩ := stmt_args' h hs
  have hsem : ∃ t rest, semToks s = f :: l :: t :: rest ∧ firstInside s = [t] := by
    rw [show semToks s = program s.toks from program_semantics _, firstInside, e]
    cases semToks (argTree s) with
    | nil => exact ⟨r, [], rfl, rfl⟩
    | cons t us => exact ⟨t, us ++ [r], rfl, rfl⟩
  obtain ⟨t, rest, e1, e2⟩ := hsem
  have hlow : lower f.spelling = nameOf s := by simp [nameOf, e]
  have name : ∀ pattern, callsOf (checkDefName o pattern s) = ((firstInside s).flatMap (badName o (nameOf s) pattern)).map .record := by
    intro pattern
    rw [e2]
    simp only [checkDefName, e1, callsOf, hlow, List.flatMap_cons, List.flatMap_nil, List.append_nil, badName_calls]
  have loop : callsOf (checkForeach o s) = ((firstInside s).flatMap (badName o (c! "argument") o.argumentVar)).map .record := by
    rw [e2]
    simp only [checkForeach, e1, callsOf, List.flatMap_cons, List.flatMap_nil, List.append_nil, badName_calls]
    rfl
  unfold openRec openCalls declared
  rw [hp, hnf]
  by_cases n1 : nameOf s = S "function"
  · rw [if_pos (by rw [n1]; decide), if_pos n1, if_pos (show nameOf s = c! "function" from n1), name, argNames_eq h hs, args_calls, n1, List.map_append]
    rfl
  · rw [if_neg (show ¬ nameOf s = c! "function" from n1)]
    by_cases n2 : nameOf s = S "macro"
    · rw [if_pos (by rw [n2]; decide), if_neg n1, if_pos n2, if_pos (show nameOf s = c! "macro" from n2), name, argNames_eq h hs, args_calls, n2,
        List.map_append]
      rfl
    · rw [if_neg (show ¬ nameOf s = c! "macro" from n2)]
      by_cases n3 : nameOf s = S "foreach"
      · rw [if_pos (by rw [n3]; decide), if_neg n1, if_neg n2, loop, if_pos (show nameOf s = c! "foreach" from n3)]
      · rw [if_neg (show ¬ nameOf s = c! "foreach" from n3), if_neg]
        · rfl
        · simp [openNames, n1, n2, n3]

/-- The arguments of every `set` and `list` are simple. -/
def SimpleAssignments (cmds : List Node) : Prop := ∀ s ∈ cmds, nameOf s ∈ [c! "set", c! "list"] → simpleArgs s = true

theorem report_names {o : Opts} {cfg : Cfg} {parseLint : List Token → List Rec} {user : Spec} {explicit : Str → Bool}
    {vt : List ((Str → Bool) × List Str)} {text : Str} {rs : List Rec}
    (h : lintText o cfg parseLint (commandCtx user explicit vt) text = some rs) (hpl : ParserLint parseLint)
    (hu : ∀ n ∈ [c! "set", c! "list"], n ∉ userNames user) (hb : text.head? ≠ some BOM) (ha : SwitchesApart (Props.Lex.toks text))
    (hsi : SimpleAssignments (commands (commandCtx user explicit vt) text)) :
    (LintTree.Plain text → S "C0103" ∉ cfg.disabled →
      (rs.filter fun r => r.id == S "C0103").Perm (badNames o (commands (commandCtx user explicit vt) text))) ∧
      (∀ r, r.id = S "C0103" → rs.count r ≤ (badNames o (commands (commandCtx user explicit vt) text)).count r) := by
  refine report_tree h hpl ⟨by decide, by decide, by decide, by decide⟩ ?_
  intro tree calls h1 h2
  have hcmds : commands (commandCtx user explicit vt) text = stmtsOf tree := by simp [commands, h1]
  have shape : ∀ s ∈ stmtsOf tree, ∀ u ∈ s.toks, Props.Lex.Shape u.type u.spelling := by
    intro s hs u hu
    obtain ⟨k1, _, _, _⟩ := Props.Groups.stmtsOf_sub tree hs
    have k := Props.Parse.tokens_conserved_partial _ _ tree h1
      (Props.Parse.no_bom text _ (Props.Parse.tokenize_toks text) hb) ha
    exact Props.Lex.token_shape text _ (Props.Parse.tokenize_toks text) u (k.1.mem_iff.1 (sub_toks k1 u hu))
  refine (names_calls h1 (fun n hn => by simpa using hu n hn) ?_ h2).trans (.of_eq ?_)
  · intro s hs hn
    exact simple_tame h1 hs (shape s hs) (hsi s (hcmds ▸ hs) hn)
  · unfold badNames
    rw [map_flatMap]
    refine flatMap_congr fun p hp => ?_
    rw [declared_calls h1 (places_mem _ _ p hp) p rfl, assigned_calls, List.map_append]

/-! ## C79 -/

/-- **C79.** cmake-lint reports C0103 for exactly those names of functions, macros, parameters, loop variables
and assigned variables that do not match the pattern for their kind, with that pattern in the message. -/
theorem bad_names_partial {o : Opts} {cfg : Cfg} {parseLint : List Token → List Rec} {user : Spec} {explicit : Str → Bool}
    {vt : List ((Str → Bool) × List Str)} {text : Str} {rs : List Rec}
    (h : lintText o cfg parseLint (commandCtx user explicit vt) text = some rs) (hpl : ParserLint parseLint)
    (hu : ∀ n ∈ [c! "set", c! "list"], n ∉ userNames user) (hp : LintTree.Plain text)
    (hsi : SimpleAssignments (commands (commandCtx user explicit vt) text)) (hd : S "C0103" ∉ cfg.disabled) :
    (rs.filter fun r => r.id == S "C0103").Perm (badNames o (commands (commandCtx user explicit vt) text)) :=
  (report_names h hpl hu hp.bom hp.apart hsi).1 hp hd

/-- With pragmas, only these are reported. -/
theorem bad_names_sound {o : Opts} {cfg : Cfg} {parseLint : List Token → List Rec} {user : Spec} {explicit : Str → Bool}
    {vt : List ((Str → Bool) × List Str)} {text : Str} {rs : List Rec}
    (h : lintText o cfg parseLint (commandCtx user explicit vt) text = some rs) (hpl : ParserLint parseLint)
    (hu : ∀ n ∈ [c! "set", c! "list"], n ∉ userNames user) (hb : text.head? ≠ some BOM) (ha : SwitchesApart (Props.Lex.toks text))
    (hsi : SimpleAssignments (commands (commandCtx user explicit vt) text)) (r : Rec) (hr : r.id = S "C0103") :
    rs.count r ≤ (badNames o (commands (commandCtx user explicit vt) text)).count r :=
  (report_names h hpl hu hb ha hsi).2 r hr

/-! ## The name without references -/

/-- A piece of a name: text, or a reference to a variable. -/
inductive Piece where
  | text (s : Str)
  | ref (name : Str)

/-- How a piece is written. -/
def Piece.written : Piece → Str
  | .text s => s
  | .ref name => '$' :: '{' :: (name ++ ['}'])

/-- Text without `$` and backslashes; the name of a variable is not empty and made of letters, digits and `_./+-`. -/
def Piece.Fine : Piece → Prop
  | .text s => '$' ∉ s ∧ '\\' ∉ s
  | .ref name => name ≠ [] ∧ ∀ c ∈ name, isVarChar c = true

/-- What stays of a piece. -/
def Piece.kept : Piece → Str
  | .text s => s
  | .ref _ => []

theorem varRef_other {c : Char} (hc : c ≠ '$') (cs : Str) : varRef? (c :: cs) = none := by
  unfold varRef?
  split
  · rename_i e
    injection e with e
    exact absurd e hc
  · rfl

theorem nameRun_name : ∀ (name rest : Str), (∀ c ∈ name, isNameChar c = true) → nameRun (name ++ '}' :: rest) = (name, '}' :: rest)
  | [], rest, _ => by
    rw [List.nil_append]
    rw [nameRun.eq_2 _ _ (by
      intro d s e
      exact absurd e (by decide)), if_neg (by decide)]
  | c :: name, rest, h => by
    have hc := h c (List.mem_cons_self ..)
    have ih := nameRun_name name rest fun d hd => h d (List.mem_cons_of_mem _ hd)
    rw [List.cons_append, nameRun.eq_2 c _ (by
      rintro d s rfl _
      exact absurd hc (by decide)), if_pos hc, ih]

theorem varRef_ref {name : Str} (hn : name ≠ []) (h : ∀ c ∈ name, isNameChar c = true) (rest : Str) :
    varRef? ('$' :: '{' :: (name ++ ['}']) ++ rest) = some rest := by
  have e : '$' :: '{' :: (name ++ ['}']) ++ rest = '$' :: '{' :: (name ++ '}' :: rest) := by simp
  rw [e]
  unfold varRef?
  simp only [nameRun_name name rest h, if_neg hn]

theorem mock_text (repl : Str) : ∀ (s : Str) (n : Nat) (rest : Str), '$' ∉ s → '\\' ∉ s →
    mockOnce repl (s.length + n) false (s ++ rest) =
      (s ++ (mockOnce repl n false rest).1, (mockOnce repl n false rest).2)
  | [], n, rest, _, _ => by simp
  | c :: s, n, rest, h, h' => by
    simp only [List.mem_cons, not_or] at h h'
    have ih := mock_text repl s n rest h.2 h'.2
    rw [show (c :: s).length + n = (s.length + n) + 1 by simp only [List.length_cons]; omega, List.cons_append, mockOnce]
    simp only [Bool.false_eq_true, if_false, varRef_other (Ne.symm h.1)]
    have : (c == '\\') = false := by simpa using Ne.symm h'.1
    rw [this, Bool.false_and, ih]
    rfl

theorem mock_nil (repl : Str) (n : Nat) : mockOnce repl n false [] = ([], false) := by
  cases n <;> rfl

/-- The pass over pieces, with enough fuel. -/
theorem mock_pieces : ∀ (ps : List Piece) (n : Nat), (∀ p ∈ ps, p.Fine) → (ps.flatMap Piece.written).length ≤ n →
    (mockOnce [] n false (ps.flatMap Piece.written)).1 = ps.flatMap Piece.kept
  | [], n, _, _ => by
    rw [List.flatMap_nil, mock_nil]
    rfl
  | .text s :: ps, n, h, hn => by
    have hf := h _ (List.mem_cons_self ..)
    rw [List.flatMap_cons, List.length_append] at hn
    have hn' : s.length + (ps.flatMap Piece.written).length ≤ n := hn
    rw [List.flatMap_cons, show n = s.length + (n - s.length) by omega]
    rw [show (Piece.text s).written = s from rfl, mock_text [] s _ _ hf.1 hf.2, List.flatMap_cons]
    rw [mock_pieces ps _ (fun p hp => h p (List.mem_cons_of_mem _ hp)) (by omega)]
    rfl
  | .ref name :: ps, n, h, hn => by
    have hf := h _ (List.mem_cons_self ..)
    rw [List.flatMap_cons, List.length_append] at hn
    cases n with
    | zero => simp [Piece.written] at hn
    | succ n =>
      have hlen : (ps.flatMap Piece.written).length ≤ n := by simp only [Piece.written, List.length_cons] at hn; omega
      rw [List.flatMap_cons, List.flatMap_cons]
      have e := varRef_ref hf.1 hf.2 (ps.flatMap Piece.written)
      rw [show (Piece.ref name).written = '$' :: '{' :: (name ++ ['}']) from rfl]
      rw [List.cons_append] at e ⊢
      rw [mockOnce]
      simp only [Bool.false_eq_true, if_false, e, List.nil_append]
      rw [mock_pieces ps _ (fun p hp => h p (List.mem_cons_of_mem _ hp)) hlen]
      rfl

theorem nameRun_shorter (s : Str) : (nameRun s).2.length ≤ s.length := by
  fun_induction nameRun s with
  | case1 => simp
  | case2 d s h r ih => show (nameRun s).2.length ≤ _; simp only [List.length_cons]; omega
  | case3 c s _ h r ih => show (nameRun s).2.length ≤ _; simp only [List.length_cons]; omega
  | case4 => simp
  | case5 => simp

theorem varRef_shorter {s rest : Str} (h : varRef? s = some rest) : rest.length < s.length := by
  unfold varRef? at h
  split at h
  · rename_i s'
    dsimp only at h
    split at h
    · cases h
    · split at h
      · rename_i e
        injection h with h
        subst h
        have := nameRun_shorter s'
        rw [e] at this
        simp only [List.length_cons] at this ⊢
        omega
      · cases h
  · cases h

/-- A pass that finds no reference changes nothing; one that finds a reference makes the text shorter. -/
theorem mock_shorter : ∀ (n : Nat) (odd : Bool) (s : Str),
    ((mockOnce [] n odd s).2 = false → (mockOnce [] n odd s).1 = s) ∧
      (mockOnce [] n odd s).1.length ≤ s.length ∧ ((mockOnce [] n odd s).2 = true → (mockOnce [] n odd s).1.length < s.length)
  | 0, odd, s => by simp [mockOnce]
  | n + 1, odd, [] => by simp [mockOnce]
  | n + 1, odd, c :: cs => by
    rw [mockOnce]
    cases hv : (if odd then none else varRef? (c :: cs)) with
    | none =>
      obtain ⟨h1, h2, h3⟩ := mock_shorter n (c == '\\' && !odd) cs
      refine ⟨fun e => ?_, ?_, fun e => ?_⟩
      · exact congrArg (c :: ·) (h1 e)
      · exact Nat.succ_le_succ h2
      · exact Nat.succ_lt_succ (h3 e)
    | some rest =>
      obtain ⟨_, h2, _⟩ := mock_shorter n false rest
      have hr : rest.length < (c :: cs).length := by
        cases odd with
        | true => cases hv
        | false =>
          simp only [Bool.false_eq_true, if_false] at hv
          exact varRef_shorter hv
      refine ⟨fun e => (by cases e), ?_, fun _ => ?_⟩
      · exact Nat.le_of_lt (Nat.lt_of_le_of_lt h2 hr)
      · exact Nat.lt_of_le_of_lt h2 hr

/-- **C79.** All references are taken out: in what is left there is none. -/
theorem mock_done : ∀ (n : Nat) (s : Str), s.length ≤ n →
    (mockOnce [] (mockVarrefs [] n s).length false (mockVarrefs [] n s)).2 = false
  | 0, s, h => by
    have : s = [] := List.length_eq_zero_iff.1 (Nat.le_zero.1 h)
    subst this
    rfl
  | n + 1, s, h => by
    rw [mockVarrefs]
    split
    · rename_i e
      have := (mock_shorter s.length false s).2.2 e
      exact mock_done n _ (by omega)
    · rename_i e
      simpa using e

theorem mock_same (n : Nat) (s : Str) (h : (mockOnce [] s.length false s).2 = false) : mockVarrefs [] n s = s := by
  cases n with
  | zero => rfl
  | succ n => rw [mockVarrefs]; simp [h]

theorem no_dollar : ∀ (n : Nat) (odd : Bool) (s : Str), '$' ∉ s → (mockOnce [] n odd s).2 = false
  | 0, _, _, _ => rfl
  | n + 1, _, [], _ => rfl
  | n + 1, odd, c :: cs, h => by
    simp only [List.mem_cons, not_or] at h
    rw [mockOnce]
    have : (if odd then none else varRef? (c :: cs)) = none := by
      split
      · rfl
      · exact varRef_other (Ne.symm h.1) cs
    rw [this]
    exact no_dollar n _ cs h.2

/-- **C79.** A name without `$` is checked as it is. -/
theorem bare_plain (t : Token) (h : '$' ∉ t.spelling) : bareName t = t.spelling := mock_same _ _ (no_dollar _ _ _ h)

/-- **C79.** Of a name made of text and references, the text is checked. -/
theorem bare_pieces (t : Token) (ps : List Piece) (h : ∀ p ∈ ps, p.Fine) (e : t.spelling = ps.flatMap Piece.written) :
    bareName t = ps.flatMap Piece.kept := by
  have k := mock_pieces ps t.spelling.length h (by rw [e]; exact Nat.le_refl _)
  rw [← e] at k
  unfold bareName
  have hd : '$' ∉ ps.flatMap Piece.kept := by
    intro hm
    rw [List.mem_flatMap] at hm
    obtain ⟨p, hp, hm⟩ := hm
    cases p with
    | text s => exact (h _ hp).1 hm
    | ref _ => cases hm
  by_cases hf : (mockOnce [] t.spelling.length false t.spelling).2 = false
  · rw [mock_same _ _ hf, ← k, (mock_shorter _ _ _).1 hf]
  · cases hn : t.spelling.length with
    | zero =>
      rw [hn] at hf
      exact absurd rfl hf
    | succ n =>
      rw [mockVarrefs]
      simp only [show (mockOnce [] t.spelling.length false t.spelling).2 = true by simpa using hf, if_true, k]
      exact mock_same _ _ (no_dollar _ _ _ hd)

/-- **C79.** No reference is left in the name that is checked. -/
theorem bare_done (t : Token) : (mockOnce [] (bareName t).length false (bareName t)).2 = false := mock_done _ _ (Nat.le_refl _)

/-! ## Examples -/

/-- Options where patterns that start with `[A` match capital letters, and the others everything else. -/
def demoOpts : Opts := { LintTree.demoOpts with reMatch := fun p s => (p.take 2 == c! "[A") == s.all isUpper }

/-- A file. -/
def demo : Str := S "# A file\nfunction(Foo a B)\n  set(XY 1)\n  set(${a}_x 1 PARENT_SCOPE)\nendfunction()\nforeach(It a)\nendforeach()\nset(ab 1 CACHE INTERNAL doc)\nset(x 1 CACHE STRING doc)\nlist(LENGTH x # c\n y)\nset(${x} # d\n  1)\n"

/-- What is reported about its names. -/
def demoBad : List Rec :=
  [⟨c! "C0103", [2, 15, 24], [c! "argument", c! "B", demoOpts.argumentVar]⟩,
   ⟨c! "C0103", [3, 6, 33], [c! "local variable", c! "XY", demoOpts.localVar]⟩,
   ⟨c! "C0103", [4, 6, 45], [c! "PARENT_SCOPE variable", c! "${a}_x", c! "[A-Z][0-9A-Z_]+|_[0-9a-z_]+|[a-z][a-z0-9_]+"]⟩,
   ⟨c! "C0103", [9, 4, 142], [c! "CACHE variable", c! "x", demoOpts.globalVar]⟩,
   ⟨c! "C0103", [11, 1, 183], [c! "directory variable", c! "y", c! "[A-Z][0-9A-Z_]+|_[0-9a-z_]+"]⟩]

theorem demo_lint : lintText demoOpts {} (parserLint .root LintForms.demoCtx) LintForms.demoCtx demo = some demoBad := by
  unfold LintForms.demoCtx commandCtx
  rw [Props.Gen.root_fast]
  decide +kernel

theorem demo_plain : LintTree.Plain demo where
  bom := by decide +kernel
  apart := Props.Parse.switchesApart_of (by decide +kernel)
  pragma := noPragma_of (by decide +kernel)

theorem demo_simple : SimpleAssignments (commands LintForms.demoCtx demo) := by
  have : (commands LintForms.demoCtx demo).all (fun s => simpleArgs s) = true := by
    unfold LintForms.demoCtx commandCtx
    rw [Props.Gen.root_fast]
    decide +kernel
  intro s hs _
  exact List.all_eq_true.1 this s hs

/-- The hypotheses are met, and the records are not empty. -/
example : (demoBad.filter fun r => r.id == S "C0103").Perm (badNames demoOpts (commands LintForms.demoCtx demo)) :=
  bad_names_partial demo_lint (LintForms.parser_lint _ _) (by decide) demo_plain demo_simple (by simp)

/-- `${a}_x` is text and a reference. -/
example : bareName { type := .word, spelling := c! "${a}_x", index := 0, begin_ := ⟨1, 0, 0⟩, end_ := ⟨1, 0, 0⟩ } = c! "_x" :=
  bare_pieces _ [.ref ['a'], .text (c! "_x")] (by simp [Piece.Fine]; decide) rfl

/-! Without the condition on the arguments the claim is false: inside parentheses `CACHE` is not read. -/

/-- A file. -/
def nested : Str := S "# A file\nset(x (1 CACHE INTERNAL doc))\n"

theorem nested_lint : lintText demoOpts {} (parserLint .root LintForms.demoCtx) LintForms.demoCtx nested =
    some [⟨c! "C0103", [2, 4, 13], [c! "directory variable", c! "x", c! "[A-Z][0-9A-Z_]+|_[0-9a-z_]+"]⟩] := by
  unfold LintForms.demoCtx commandCtx
  rw [Props.Gen.root_fast]
  decide +kernel

theorem nested_spec : badNames demoOpts (commands LintForms.demoCtx nested) = [] := by
  unfold LintForms.demoCtx commandCtx
  rw [Props.Gen.root_fast]
  decide +kernel

end Verif.Props.LintNames
