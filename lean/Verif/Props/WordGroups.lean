import Verif.WordGroups
import Verif.Props.Groups

/-!
# How the commands that are read word by word are grouped (C94)

Some commands are not read with a table of keywords but by a parser of their own.  `WordSpec.lean` says, command by
command, which words make a group; this file proves that the parsers build these groups.
-/

namespace Verif.Props.WordGroups
open Verif Py Verif.Lex Verif.Parse Verif.Parse.Funs
open Verif.Props.Groups (blank_not_spelled lookup_cons nth_word demoStmts Mark.show)

/-- The commands. -/
def wordCommands : List Str :=
  [S "set", S "add_custom_target", S "break", S "continue", S "enable_testing", S "return", S "foreach", S "file",
   S "add_executable", S "add_library"]

theorem commands_plain : ∀ k ∈ wordCommands,
    ((Tables.builtins ++ Tables.modules).all fun nd => nd.1 ≠ k) = true ∧ (flowTable.lookup k).isNone = true := by
  decide +kernel

theorem command_db {k : Str} (hk : k ∈ wordCommands) {user : Spec} (hu : user.kwargs.lookup k = none) :
    commandDb user k = funTable.lookup k := by
  obtain ⟨h1, h2⟩ := commands_plain k hk
  have h3 : (Tables.builtins ++ Tables.modules).reverse.find? (fun nd => nd.1 = k) = none := by
    rw [List.find?_eq_none]
    intro nd hnd
    have := List.all_eq_true.1 h1 nd (List.mem_reverse.1 hnd)
    simpa using this
  rw [commandDb_eq, hu, builtinDb, builtinOf_eq, stdSpec_lookup, std_declared, h3]
  simp only [Option.map_none]
  cases e : flowTable.lookup k with
  | none => rfl
  | some p => rw [e] at h2; simp at h2

theorem stops_fine (k : Str) : ∀ w ∈ wordStops k, upper w = w ∧ inked w = true := by
  have h1 : ∀ w ∈ [S "CACHE", S "PARENT_SCOPE"], upper w = w ∧ inked w = true := by decide +kernel
  have h2 : ∀ w ∈ targetWords, upper w = w ∧ inked w = true := by decide +kernel
  have h3 : ∀ w ∈ [S "LISTS", S "ITEMS"], upper w = w ∧ inked w = true := by decide +kernel
  unfold wordStops
  split
  · exact h1
  · split
    · exact h2
    · split
      · exact h3
      · simp

/-- The word after those of the command is its closing parenthesis. -/
theorem nth_close {ws ts more : List Token} {r : Token} (h : semantics ts = ws ++ r :: more) : nthSem ws.length ts = some r := by
  unfold nthSem
  rw [h]
  simp

/-- The parser, run on the words of the command. -/
theorem parser_marks {ctx : Ctx} {k : Str} {p : ArgP} (hl : funTable.lookup k = some p) {args more : List Token} {r : Token}
    (ha : Args args r more) (hr : r.spelling = S ")") (hde : ∀ t ∈ args, t.type = .deref → ∃ cs, t.spelling = '$' :: cs)
    (hap : Apart (wordStops k) args) {marks : List Mark} (hm : wordMarks k (semantics args) = some marks) {m : Nat} {nd : Node} {rest : List Token}
    (h : exec ctx m (.arg p [.paren]) false (args ++ r :: more) = .ok (nd, rest)) : treeMarks nd = marks := by
  have hrsem : isSemantic r = true := by
    obtain ⟨q1, q2, q3⟩ := rparen_sem ha.close
    simp only [isSemantic, q1, q2, q3, Bool.or_self, Bool.not_false]
  have hsem : semantics (args ++ r :: more) = semantics args ++ r :: semantics more := by simp [semantics, hrsem]
  have hup : upper r.spelling = S ")" := by rw [hr]; decide +kernel
  -- the second word, or the closing parenthesis
  have second : semantics args ≠ [] → ∃ t, nthSem 1 (args ++ r :: more) = some t ∧
      (wordAt 1 (semantics args) = some (upper t.spelling) ∨ wordAt 1 (semantics args) = none ∧ t = r) := by
    intro hne
    cases hws : (semantics args)[1]? with
    | some t => exact ⟨t, nth_word hsem hws, .inl (by simp [wordAt, hws])⟩
    | none =>
      have hlen : (semantics args).length = 1 := by
        have := List.getElem?_eq_none_iff.1 hws
        have := List.length_pos_iff.2 hne
        omega
      refine ⟨r, ?_, .inr ⟨by simp [wordAt, hws], rfl⟩⟩
      have := nth_close hsem
      rwa [hlen] at this
  have third : 2 ≤ (semantics args).length → ∃ t, nthSem 2 (args ++ r :: more) = some t ∧
      (wordAt 2 (semantics args) = some (upper t.spelling) ∨ wordAt 2 (semantics args) = none ∧ t = r) := by
    intro hne
    cases hws : (semantics args)[2]? with
    | some t => exact ⟨t, nth_word hsem hws, .inl (by simp [wordAt, hws])⟩
    | none =>
      have hlen : (semantics args).length = 2 := by
        have := List.getElem?_eq_none_iff.1 hws
        omega
      refine ⟨r, ?_, .inr ⟨by simp [wordAt, hws], rfl⟩⟩
      have := nth_close hsem
      rwa [hlen] at this
  have eq : ∀ {k : Str} {q : ArgP}, funTable.lookup k = some q → funTable.lookup k = some p → q = p := by
    intro k q h1 h2
    rw [h1] at h2
    exact Option.some.inj h2
  unfold wordMarks at hm
  split at hm
  · rename_i hk
    subst hk
    simp only [Option.some.injEq] at hm
    obtain rfl := eq (q := .setFn) (by rfl) hl
    rw [← hm]
    exact set_start ha hap h
  split at hm
  · rename_i hk
    subst hk
    simp only [Option.some.injEq] at hm
    obtain rfl := eq (q := .customTarget) (by rfl) hl
    rw [← hm]
    exact target_start ha hap h
  split at hm
  · rename_i hk
    simp only [Option.some.injEq] at hm
    have : p = .emptyFn := by
      simp only [List.mem_cons, List.not_mem_nil, or_false] at hk
      rcases hk with rfl | rfl | rfl | rfl <;> exact (eq (q := .emptyFn) (by rfl) hl).symm
    subst this
    rw [← hm]
    exact empty_start ha h
  split at hm
  · rename_i hk
    subst hk
    split at hm
    · simp at hm
    · rename_i hno
      simp only [Option.some.injEq] at hm
      obtain rfl := eq (q := foreachFn) (by rfl) hl
      have hne : semantics args ≠ [] := fun e => hno (.inl e)
      have hra : wordAt 1 (semantics args) ≠ some (S "RANGE") := fun e => hno (.inr e)
      rw [← hm]
      obtain ⟨t, ht, hcase⟩ := second hne
      rw [foreachMarks]
      rcases hcase with hcase | ⟨hcase, rfl⟩
      · have hnr : upper t.spelling ≠ S "RANGE" := fun e => hra (by rw [hcase, e])
        have hwa : ((semantics args)[1]?.map fun t => upper t.spelling) = some (upper t.spelling) := hcase
        rw [hwa]
        by_cases hin : upper t.spelling = S "IN"
        · obtain ⟨m, h⟩ := exec_resolve (q := .foreachIn) (by
            have h1 : S "IN" ≠ S "RANGE" := by decide +kernel
            simp only [foreachFn, resolve, nthWord, ht, Option.map_some, hin, h1, if_false, if_true]) h
          rw [if_pos (by rw [hin])]
          exact in_start ha hap h
        · obtain ⟨m, h⟩ := exec_resolve (q := .foreachStandard) (by
            simp only [foreachFn, resolve, nthWord, ht, Option.map_some, hnr, if_false, hin]) h
          rw [if_neg (by simpa using hin)]
          exact foreach_start ha h
      · have hwa : ((semantics args)[1]?.map fun t => upper t.spelling) = none := hcase
        rw [hwa, if_neg (by simp)]
        obtain ⟨m, h⟩ := exec_resolve (q := .foreachStandard) (by
          have h1 : S ")" ≠ S "RANGE" := by decide +kernel
          have h2 : S ")" ≠ S "IN" := by decide +kernel
          simp only [foreachFn, resolve, nthWord, ht, Option.map_some, hup, h1, h2, if_false]) h
        exact foreach_start ha h
  split at hm
  · rename_i hk
    subst hk
    split at hm
    · rename_i hwr
      simp only [Option.some.injEq] at hm
      obtain rfl := eq (q := fileFn) (by rfl) hl
      rw [← hm]
      cases hws : (semantics args)[0]? with
      | none => simp [wordAt, hws] at hwr
      | some t =>
        have hsp : upper t.spelling = S "WRITE" ∨ upper t.spelling = S "APPEND" := by simpa [wordAt, hws] using hwr
        have htm : t ∈ args := sem_mem t (List.mem_of_getElem? hws)
        obtain ⟨m, h⟩ := exec_resolve (q := if t.type = .deref then anyArgs else .fileWrite) (by
          have h1 : fileTable.lookup (S "WRITE") = some .fileWrite := by rfl
          have h2 : fileTable.lookup (S "APPEND") = some .fileWrite := by rfl
          simp only [fileFn, byFirst, resolve, nth_word hsem hws, (ha.noParen t htm).2, false_or]
          by_cases hd : t.type = .deref
          · simp [hd]
          · simp only [hd, if_false]
            rcases hsp with e | e <;> rw [e] <;> simp [h1, h2]) h
        have hd : t.type ≠ .deref := by
          intro e
          obtain ⟨cs, ecs⟩ := hde t htm e
          rw [ecs] at hsp
          have h1 : (S "WRITE").head? = some 'W' := by decide +kernel
          have h2 : (S "APPEND").head? = some 'A' := by decide +kernel
          have h3 : (upper ('$' :: cs)).head? = some '$' := by
            show some (upperChar '$') = some '$'
            decide +kernel
          rcases hsp with e | e <;> rw [e] at h3
          · rw [h1] at h3; simp at h3
          · rw [h2] at h3; simp at h3
        rw [if_neg hd] at h
        exact write_start ha h
    · simp at hm
  split at hm
  · rename_i hk
    subst hk
    split at hm
    · simp at hm
    · rename_i hno
      simp only [not_or] at hno
      simp only [Option.some.injEq] at hm
      obtain rfl := eq (q := addExecutable) (by rfl) hl
      rw [← hm]
      obtain ⟨t, ht, hcase⟩ := second hno.1
      have hal : upper t.spelling ≠ S "ALIAS" ∧ upper t.spelling ≠ S "IMPORTED" := by
        rcases hcase with hcase | ⟨hcase, rfl⟩
        · rw [hcase] at hno
          exact ⟨fun e => hno.2.1 (by rw [e]), fun e => hno.2.2 (by rw [e])⟩
        · rw [hup]
          decide +kernel
      obtain ⟨m, h⟩ := exec_resolve (q := .addSources false (!hasDeref t.spelling)) (by
        simp only [addExecutable, resolve, ht, hal.1, hal.2, if_false]) h
      exact src_start ha hno.1 h
  split at hm
  · rename_i hk
    subst hk
    obtain rfl := eq (q := addLibrary) (by rfl) hl
    split at hm
    · simp at hm
    · rename_i hlen
      have hlen : 2 ≤ (semantics args).length := by omega
      have hne : semantics args ≠ [] := by
        intro e
        rw [e] at hlen
        simp at hlen
      obtain ⟨t, ht, hcase⟩ := second hne
      have hcase : wordAt 1 (semantics args) = some (upper t.spelling) := by
        rcases hcase with hcase | ⟨hcase, -⟩
        · exact hcase
        · exfalso
          simp only [wordAt, Option.map_eq_none_iff, List.getElem?_eq_none_iff] at hcase
          omega
      rw [hcase] at hm
      split at hm
      · rename_i hob
        have hob : upper t.spelling = S "OBJECT" := by simpa using hob
        simp only [Option.some.injEq] at hm
        obtain ⟨m, h⟩ := exec_resolve (q := .addLibraryObject) (by
          simp only [addLibrary, resolve, ht, hob, if_true]) h
        rw [← hm]
        exact obj_start ha h
      · rename_i hob
        have hob : upper t.spelling ≠ S "OBJECT" := by simpa using hob
        split at hm
        · simp at hm
        · rename_i hno
          simp only [Option.some.injEq, not_or] at hno hm
          obtain ⟨u, hu, hcase2⟩ := third hlen
          have him : upper u.spelling ≠ S "IMPORTED" := by
            rcases hcase2 with e | ⟨-, rfl⟩
            · intro e'
              exact hno.2.2.2 (by rw [e, e'])
            · rw [hup]
              decide +kernel
          obtain ⟨m, h⟩ := exec_resolve (q := .addSources true (!(hasDeref t.spelling || hasDeref u.spelling))) (by
            simp only [addLibrary, resolve, ht, hu, hob, hno.1, hno.2.1, hno.2.2.1, him, if_false]) h
          rw [← hm]
          exact src_start ha hne h
  · simp at hm

theorem marks_command {k : Str} {ws : List Token} {marks : List Mark} (h : wordMarks k ws = some marks) : k ∈ wordCommands := by
  unfold wordMarks at h
  simp only [wordCommands, List.mem_cons, List.not_mem_nil, or_false]
  repeat' (split at h)
  all_goals first | (simp at h; done) | (simp_all; done) | (rename_i e; simp at e; rcases e with e | e | e | e <;> simp [e])

/-- **C94.** A command that is read word by word, and that the user has not declared, is grouped as `WordSpec.lean` says:
every word is in the group, and of the kind, that the words before it give it. -/
theorem words_grouped_partial {user : Spec} {explicit : Str → Bool} {vartags : List ((Str → Bool) × List Str)}
    {text : Str} {tree s : Node} {name l r : Token} {ws : List Token} {marks : List Mark}
    (hb : text.head? ≠ some BOM) (ha : SwitchesApart (Props.Lex.toks text))
    (h : parse (commandCtx user explicit vartags) (Props.Lex.toks text) = .ok tree) (hs : s ∈ stmtsOf tree)
    (hw : program s.toks = name :: l :: (ws ++ [r])) (hp : ∀ t ∈ ws, t.type ≠ .lparen ∧ t.type ≠ .rparen)
    (hc : Commentless s) (hu : user.kwargs.lookup (lower name.spelling) = none) (hm : wordMarks (lower name.spelling) ws = some marks)
    (hk : ∀ t ∈ ws, spelledIn t (wordStops (lower name.spelling)) = true → t.type = .word) :
    argMarks s = marks := by
  rw [← Props.Parse.program_eq] at hw
  obtain ⟨m, args, more, sub, rest, hgood, hargs, hmem, he, hmarks⟩ :=
    parse_reads h (Props.Groups.toks_ok hb ha) s hs name l ws r hw hp hc
  have hcmd := marks_command hm
  have hshape := fun t ht => Props.Lex.token_shape text _ (Props.Parse.tokenize_toks text) t (hmem t ht)
  have hrs : r.spelling = S ")" := by
    have := hshape r (by simp)
    rw [hgood.close] at this
    exact this
  have hde : ∀ t ∈ args, t.type = .deref → ∃ cs, t.spelling = '$' :: cs := by
    intro t ht e
    have := hshape t (by simp [ht])
    rw [e] at this
    obtain ⟨c, cs, e1, _⟩ := this
    exact ⟨_, e1⟩
  have hap : Apart (wordStops (lower name.spelling)) args := by
    refine ⟨fun t ht hwt hsp => hk t ?_ hsp, fun t ht hwt => blank_not_spelled (hmem t (by simp [ht])) hwt fun w hw => (stops_fine _ w hw).2⟩
    rw [← hargs]
    exact List.mem_filter.2 ⟨ht, (hgood.bald.ink t (by simp [ht])).resolve_left (by simp [hwt])⟩
  obtain ⟨p, hl⟩ : ∃ p, funTable.lookup (lower name.spelling) = some p := by
    have key : ∀ k ∈ wordCommands, (funTable.lookup k).isSome = true := by
      intro k hk
      simp only [wordCommands, List.mem_cons, List.not_mem_nil, or_false] at hk
      rcases hk with rfl | rfl | rfl | rfl | rfl | rfl | rfl | rfl | rfl | rfl <;> rfl
    exact Option.isSome_iff_exists.1 (key _ hcmd)
  have hlook : lookupParser (commandCtx user explicit vartags) name.spelling = p := by
    unfold lookupParser
    rw [Props.ParseDb.commandCtx_db, command_db hcmd hu, hl]
  rw [hlook] at he
  rw [hmarks]
  exact parser_marks hl hgood hrs hde hap (by rw [hargs]; exact hm) he

/-! ### Concrete cases -/

/-- Commands that are read word by word. -/
def wordText : Str :=
  S "set(x a b CACHE STRING \"d\" FORCE)\nforeach(i IN LISTS l m ITEMS n)\nendforeach()\nadd_custom_target(t ALL make COMMAND echo VERBATIM USES_TERMINAL DEPENDS d)\nadd_library(l STATIC EXCLUDE_FROM_ALL a.c b.c)\nfile(WRITE f t u)\n"

theorem word_marks : (demoStmts wordText).map (fun s => (argMarks s).map Mark.show) =
    [[(some false, .argument, S "x"), (some false, .argument, S "a"), (none, .argument, S "b"), (some true, .keyword, S "CACHE"),
      (none, .argument, S "STRING"), (none, .argument, S "\"d\""), (none, .flag, S "FORCE")],
     [(some false, .argument, S "i"), (none, .flag, S "IN"), (some true, .keyword, S "LISTS"), (none, .argument, S "l"),
      (none, .argument, S "m"), (some true, .keyword, S "ITEMS"), (none, .argument, S "n")],
     [],
     [(some false, .argument, S "t"), (none, .flag, S "ALL"), (some false, .argument, S "make"), (some true, .keyword, S "COMMAND"),
      (none, .argument, S "echo"), (some false, .flag, S "VERBATIM"), (none, .flag, S "USES_TERMINAL"),
      (some true, .keyword, S "DEPENDS"), (none, .argument, S "d")],
     [(some false, .argument, S "l"), (none, .flag, S "STATIC"), (none, .flag, S "EXCLUDE_FROM_ALL"), (some false, .argument, S "a.c"),
      (none, .argument, S "b.c")],
     [(some false, .flag, S "WRITE"), (none, .argument, S "f"), (some false, .argument, S "t"), (none, .argument, S "u")]] := by
  decide +kernel

/-- The conditions hold of these commands, and the specification describes each of them. -/
example : wordText.head? ≠ some BOM ∧ SwitchesApart (Props.Lex.toks wordText) ∧ (∀ s ∈ demoStmts wordText, Commentless s) ∧
    ((demoStmts wordText).all fun s =>
      match program s.toks with
      | name :: _ :: rest =>
        (ParseDb.demoSpec.kwargs.lookup (lower name.spelling)).isNone &&
        ((wordMarks (lower name.spelling) rest.dropLast).isSome || lower name.spelling = S "endforeach") &&
        rest.dropLast.all fun t => !spelledIn t (wordStops (lower name.spelling)) || t.type == .word
      | _ => false) = true :=
  ⟨by decide +kernel, Props.Groups.apart_of (by decide +kernel), by unfold Commentless; decide +kernel, by decide +kernel⟩

end Verif.Props.WordGroups
