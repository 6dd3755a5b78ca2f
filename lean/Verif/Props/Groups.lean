import Verif.Groups
import Verif.FormSpec
import Verif.Props.Same
import Verif.Props.Again

/-!
# How the words of a command are grouped (C62, C63)
-/

namespace Verif.Props.Groups
open Verif Py Verif.Lex Verif.Parse Verif.Parse.Funs

/-! ## Blank tokens are not spelled like words -/

theorem blank_not_spelled {text : Str} {t : Token} (ht : t ∈ Props.Lex.toks text) (hw : isWs t = true) {ws : List Str}
    (hi : ∀ w ∈ ws, inked w = true) : spelledIn t ws = false := by
  have hbl := Props.Same.blank_chars (Props.Parse.tokenize_toks text) t ht hw
  unfold spelledIn
  rw [List.any_eq_false]
  intro w hm hu
  have hu : upper w = upper t.spelling := by simpa using hu
  obtain ⟨c, hc, h1⟩ := List.any_eq_true.1 (hi w hm)
  have : upperChar c ∈ upper t.spelling := by
    rw [← hu]
    exact List.mem_map_of_mem hc
  obtain ⟨d, hd, h2⟩ := List.mem_map.1 this
  have e1 := (case_facts d).2.2.2.2
  have e2 := (case_facts c).2.2.2.2
  rw [h2, e2, hbl d hd] at e1
  rw [e1] at h1
  exact absurd h1 (by decide)

theorem lookup_registered (ctx : Ctx) (name : Str) : lookupParser ctx name = registered ctx name := by
  simp only [lookupParser, registered]
  generalize ctx.db (lower name) = o
  generalize ctx.db (S "_default") = o'
  cases o <;> cases o' <;> rfl

/-! ## What a declaration means -/

theorem value_slot {info : Option CmdInfo} {n : Nargs} {flags : List Str} {lg : Bool} {sl : Slot}
    (h : valueSlot flags n = some sl) :
    keySlot (.standard info [{ nargs := n, flags := flags, legacy := lg }] []) = some sl := by
  cases n <;> simpa only [keySlot, valueSlot] using h

theorem decl_slot {k : Str} {d : Decl} {s : Spec} {sl : Slot} (h : Decl.spec k d = .ok s)
    (hs : declSlot k d = some sl) : keySlot (Spec.parser k s) = some sl := by
  obtain ⟨n, sp, m, ps, ks⟩ := s
  unfold declSlot at hs
  rw [Spec.parser]
  split at hs
  · cases hs
  · rename_i h1
    rw [if_neg h1]
    split at hs
    · rename_i h2
      rw [if_pos h2]
      exact hs
    · rename_i h2
      rw [if_neg h2]
      cases d with
      | scalar n =>
        simp only [Decl.spec, parsePspec, Except.ok.injEq, Spec.mk.injEq] at h
        obtain ⟨rfl, rfl, rfl, rfl, rfl⟩ := h
        exact value_slot hs
      | dict pargs flags kwargs spelling maxSub =>
        cases kwargs with
        | cons kd kws => simp at hs
        | nil =>
          simp only [Decl.spec, Decl.kwspecs] at h
          cases pargs with
          | none =>
            simp only [parsePspec, Except.ok.injEq, Spec.mk.injEq] at h
            obtain ⟨rfl, rfl, rfl, rfl, rfl⟩ := h
            simp only [countOf, Option.bind_some] at hs
            exact value_slot hs
          | some p =>
            cases p with
            | scalar n =>
              simp only [parsePspec, Except.ok.injEq, Spec.mk.injEq] at h
              obtain ⟨rfl, rfl, rfl, rfl, rfl⟩ := h
              simp only [countOf, Option.bind_some] at hs
              exact value_slot hs
            | dict d => simp [countOf] at hs
            | list l => simp [countOf] at hs

theorem setKey_new {α : Type} {k : Str} {v : α} : ∀ {l : List (Str × α)}, k ∉ l.map (·.1) → setKey k v l = l ++ [(k, v)]
  | [], _ => rfl
  | (k', v') :: l, h => by
    simp only [List.map_cons, List.mem_cons, not_or] at h
    rw [setKey, if_neg (fun e => h.1 e.symm), setKey_new h.2]
    rfl

theorem kwspecs_slots : ∀ {ds : List (Str × Decl)} {acc ks : List (Str × Spec)} {ss : List (Str × Slot)},
    Decl.kwspecs ds acc = .ok ks → (ds.map (·.1)).Nodup → (∀ k ∈ ds.map (·.1), k ∉ acc.map (·.1)) →
    declSlots ds = some ss → ∃ l, ks = acc ++ l ∧ keySlots (funtree l) = some ss
  | [], acc, ks, ss, h, _, _, hs => by
    simp only [Decl.kwspecs, Except.ok.injEq] at h
    subst h
    exact ⟨[], by simp, by simpa [declSlots, funtree, keySlots] using hs⟩
  | (k, d) :: ds, acc, ks, ss, h, hn, hd, hs => by
    unfold Decl.kwspecs at h
    cases e : Decl.spec k d with
    | error err => rw [e] at h; simp at h
    | ok s =>
      rw [e] at h
      simp only at h
      simp only [List.map_cons, List.nodup_cons] at hn
      rw [setKey_new (hd k (by simp))] at h
      cases e1 : declSlot k d with
      | none => simp [declSlots, e1] at hs
      | some sl =>
        cases e2 : declSlots ds with
        | none => simp [declSlots, e1, e2] at hs
        | some ss' =>
          simp only [declSlots, e1, e2, Option.some.injEq] at hs
          obtain ⟨l, rfl, hl⟩ := kwspecs_slots h hn.2 (by
            intro k' hk' hm
            simp only [List.map_append, List.mem_append, List.map_cons, List.map_nil, List.mem_singleton] at hm
            rcases hm with hm | rfl
            · exact hd k' (by simp only [List.map_cons]; exact List.mem_cons_of_mem _ hk') hm
            · exact hn.1 hk') e2
          refine ⟨(k, s) :: l, by simp, ?_⟩
          rw [funtree, keySlots, decl_slot e e1, hl]
          simpa using hs

theorem decl_command {n : Str} {d : Decl} {s : Spec} {c : Command} {info : Option CmdInfo}
    (h : Decl.spec n d = .ok s) (hn : (declKeywords d).Nodup) (hc : declCommand d = some c) :
    commandOf (.standard info s.pargs (funtree s.kwargs)) = some c := by
  cases d with
  | scalar n => simp [declCommand] at hc
  | dict pargs flags kwargs spelling maxSub =>
    unfold Decl.spec at h
    cases e1 : parsePspec pargs flags with
    | error e => rw [e1] at h; simp at h
    | ok ps =>
      rw [e1] at h
      simp only at h
      cases e2 : Decl.kwspecs kwargs [] with
      | error e => rw [e2] at h; simp at h
      | ok ks =>
        rw [e2] at h
        simp only [Except.ok.injEq] at h
        subst h
        cases e3 : declSlots kwargs with
        | none =>
          simp only [declCommand, e3] at hc
          split at hc <;> simp_all
        | some ss =>
          obtain ⟨l, rfl, hl⟩ := kwspecs_slots e2 hn (by simp) e3
          simp only [declCommand, e3] at hc
          have key : ∀ m, countOf pargs = some m → ps = [{ nargs := m, flags := flags, legacy := true }] := by
            intro m hm
            cases pargs with
            | none =>
              simp only [countOf, Option.some.injEq] at hm
              subst hm
              simpa [parsePspec] using e1.symm
            | some p =>
              cases p with
              | scalar n' =>
                simp only [countOf, Option.some.injEq] at hm
                subst hm
                simpa [parsePspec] using e1.symm
              | dict _ => simp [countOf] at hm
              | list _ => simp [countOf] at hm
          cases e4 : countOf pargs with
          | none => rw [e4] at hc; simp at hc
          | some m =>
            rw [e4] at hc
            obtain rfl := key m e4
            cases m with
            | int k => simpa [commandOf, Spec.pargs, Spec.kwargs, hl] using hc
            | str x => simpa [commandOf, Spec.pargs, Spec.kwargs, hl] using hc

/-! ## Every statement has a name, parentheses and words between them -/

mutual
theorem stmtsOf_sub : ∀ (n : Node) {s : Node}, s ∈ stmtsOf n → Sub s n ∧ ∃ a cs, s = .node .statement a cs
  | .tok t, s, h => by simp [stmtsOf] at h
  | .node ty a cs, s, h => by
    unfold stmtsOf at h
    split at h
    · rename_i e
      rw [List.mem_singleton] at h
      subst h
      exact ⟨.refl _, a, cs, by rw [e]⟩
    · obtain ⟨c, hc, h1, h2⟩ := stmtsL_sub cs h
      exact ⟨.child hc h1, h2⟩
theorem stmtsL_sub : ∀ (ns : List Node) {s : Node}, s ∈ stmtsL ns →
    ∃ n ∈ ns, Sub s n ∧ ∃ a cs, s = .node .statement a cs
  | [], s, h => by simp [stmtsL] at h
  | n :: ns, s, h => by
    rw [stmtsL, List.mem_append] at h
    rcases h with h | h
    · exact ⟨n, List.mem_cons_self .., stmtsOf_sub n h⟩
    · obtain ⟨m, hm, h⟩ := stmtsL_sub ns h
      exact ⟨m, List.mem_cons_of_mem _ hm, h⟩
end

theorem program_append (a b : List Token) : program (a ++ b) = program a ++ program b := by simp [program]

theorem program_noText : ∀ {ns : List Node}, (∀ n ∈ ns, NoText n) → program (toksL ns) = []
  | [], _ => rfl
  | n :: ns, h => by
    rw [toksL, program_append, program_noText fun m hm => h m (List.mem_cons_of_mem _ hm), List.append_nil,
      ← Props.Parse.program_eq, semantics, List.filter_eq_nil_iff]
    intro t ht
    rcases h n (List.mem_cons_self ..) t ht with h | h <;> simp [isSemantic, h]

theorem blank_noText {n : Node} (h : BlankLeaf n) : NoText n := by
  obtain ⟨t, rfl, ht⟩ := h
  intro u hu
  simp only [Node.toks, List.mem_singleton] at hu
  subst hu
  exact Or.inl ht

/-- **C62, statements.** Every statement of a tree consists of a name, an opening parenthesis, words
and a closing parenthesis, so the theorems below speak about all of them. -/
theorem statement_words {ctx : Ctx} {ts : List Token} {tree s : Node} (h : parse ctx ts = .ok tree)
    (hs : s ∈ stmtsOf tree) : ∃ name l ws r, program s.toks = name :: l :: (ws ++ [r]) ∧
      name.type = .word ∧ l.type = .lparen ∧ r.type = .rparen := by
  obtain ⟨h1, a, cs, rfl⟩ := stmtsOf_sub tree hs
  obtain ⟨f, l, r, ws1, ws2, mid, trail, args, rfl, hf, hl, hr, w1, w2, m1, t1⟩ :=
    Props.Parse.tree_well_formed ctx ts tree h _ h1
  refine ⟨f, l, program args.toks, r, ?_, hf, hl, hr⟩
  have one : ∀ (t : Token), t.type = .word ∨ t.type = .lparen ∨ t.type = .rparen → program [t] = [t] := by
    intro t ht
    rcases ht with e | e | e <;> simp [program, e]
  simp only [Node.toks, toksL_append, toksL, mk, List.append_nil, program_append,
    program_noText fun n hn => blank_noText (w1 n hn), program_noText fun n hn => blank_noText (w2 n hn),
    program_noText m1, program_noText t1, one f (Or.inl hf), one l (Or.inr (Or.inl hl)), one r (Or.inr (Or.inr hr))]
  simp

theorem toks_ok {text : Str} (hb : text.head? ≠ some BOM) (ha : SwitchesApart (Props.Lex.toks text)) :
    TsOk false (· ∈ Props.Lex.toks text) (Props.Lex.toks text) :=
  ⟨fun _ h => h, Props.Parse.no_bom text _ (Props.Parse.tokenize_toks text) hb, fun _ => Props.Parse.unglued_of ha⟩

/-- A text without switches. -/
theorem apart_of {ts : List Token} (h : ∀ t ∈ ts, t.type ≠ .formatOn ∧ t.type ≠ .formatOff) : SwitchesApart ts := by
  intro a b hab hsw
  have := h b (hab.subset (by simp))
  simp [this] at hsw

/-! ## C62 -/

/-- **C62.** In a file where the format switches stand apart, take a command without comments and nested
parentheses whose parser is described by `c`.  If every word that is spelled like a keyword of the
command counts as one, its words are grouped as `c` says. -/
theorem words_grouped_partial {ctx : Ctx} {text : Str} {tree s : Node} {name l r : Token} {ws : List Token}
    {c : Command} (hb : text.head? ≠ some BOM) (ha : SwitchesApart (Props.Lex.toks text))
    (h : parse ctx (Props.Lex.toks text) = .ok tree) (hs : s ∈ stmtsOf tree)
    (hw : program s.toks = name :: l :: (ws ++ [r])) (hp : ∀ t ∈ ws, t.type ≠ .lparen ∧ t.type ≠ .rparen)
    (hc : Commentless s)
    (hq : commandOf (registered ctx name.spelling) = some c)
    (hk : ∀ t ∈ ws, spelledIn t (c.keywords.map (·.1)) = true → (c.keyword t).isSome = true)
    (hi : ∀ w ∈ c.keywords.map (·.1) ++ c.flags, inked w = true) :
    argMarks s = c.place ws := by
  rw [← Props.Parse.program_eq] at hw
  refine parse_grouped h (toks_ok hb ha) s hs name l ws r hw hp hc _ c ?_ hq hk
    (fun t ht hws => blank_not_spelled ht hws hi)
  intro ts r' more _
  rw [lookup_registered]
  revert hq
  generalize registered ctx name.spelling = p
  intro hq
  cases p <;> first | rfl | simp [commandOf] at hq

/-- **C62, declared commands.** The same for a command that the user has declared in
`additional_commands` with keywords that have no keywords of their own: its words are grouped as the
declaration says. -/
theorem declared_grouped_partial {cmds : List (Str × Decl)} {sp : Spec} {explicit : Str → Bool}
    {vartags : List ((Str → Bool) × List Str)} {text : Str} {tree s : Node} {name l r : Token} {ws : List Token}
    {n : Str} {d : Decl} {c : Command} (hb : text.head? ≠ some BOM) (ha : SwitchesApart (Props.Lex.toks text))
    (hu : userSpec cmds [] = .ok sp) (hd : declared cmds (lower name.spelling) = some (n, d))
    (hname : lower name.spelling ≠ S "if" ∧ lower name.spelling ≠ S "elseif" ∧ lower name.spelling ≠ S "while")
    (hn : (declKeywords d).Nodup) (hdc : declCommand d = some c)
    (h : parse (commandCtx sp explicit vartags) (Props.Lex.toks text) = .ok tree) (hs : s ∈ stmtsOf tree)
    (hw : program s.toks = name :: l :: (ws ++ [r])) (hp : ∀ t ∈ ws, t.type ≠ .lparen ∧ t.type ≠ .rparen)
    (hc : Commentless s)
    (hk : ∀ t ∈ ws, spelledIn t (c.keywords.map (·.1)) = true → (c.keyword t).isSome = true)
    (hi : ∀ w ∈ c.keywords.map (·.1) ++ c.flags, inked w = true) :
    argMarks s = c.place ws := by
  obtain ⟨s', h1, h2⟩ := Props.ParseDb.declared_command cmds sp name.spelling n d hu hd hname explicit vartags
  refine words_grouped_partial hb ha h hs hw hp hc ?_ hk hi
  rw [← lookup_registered, h2]
  exact decl_command h1 hn hdc

/-! ### The commands of the tool -/

/-- The commands of the tool whose words `Command` cannot describe: those with several forms, those
with an optional argument, with several positional groups, and those that are read word by word. -/
def undescribed : List Str :=
  [S "file", S "install", S "list", S "foreach", S "add_custom_command", S "cmake_policy", S "source_group",
   S "get_filename_component", S "build_command", S "ctest_sleep", S "install_files", S "install_programs",
   S "endfunction", S "endmacro", S "try_compile", S "add_executable", S "add_library", S "add_custom_target",
   S "break", S "continue", S "enable_testing", S "return", S "set"]

theorem tables_described : ((Tables.builtins ++ Tables.modules).all fun nd =>
    nd.1 ∈ undescribed || (((Decl.spec nd.1 nd.2).toOption.map (Spec.parser nd.1)).bind commandOf).isSome) = true := by
  decide +kernel

theorem flow_described : ((flowTable ++ funTable).all fun kp =>
    kp.1 ∈ undescribed || (commandOf kp.2).isSome) = true := by decide +kernel

theorem lookup_cons {α : Type} (w k : Str) (v : α) (l : List (Str × α)) :
    ((k, v) :: l).lookup w = if w = k then some v else l.lookup w := by
  rw [List.lookup_cons]
  by_cases h : w = k
  · simp [h]
  · rw [if_neg h, beq_eq_false_iff_ne.2 h]

theorem lookup_mem {α : Type} {w : Str} {v : α} : ∀ {l : List (Str × α)}, l.lookup w = some v → (w, v) ∈ l
  | [], h => by simp at h
  | (k, v') :: l, h => by
    rw [lookup_cons] at h
    split at h
    · rename_i hk
      cases h
      rw [hk]
      exact List.mem_cons_self ..
    · exact List.mem_cons_of_mem _ (lookup_mem h)

/-- **C62, coverage.** Every command of the tool that the user has not declared is described by a
`Command`, except those listed. -/
theorem tool_described {user : Spec} {k : Str} {p : ArgP} (hu : user.kwargs.lookup k = none)
    (h : commandDb user k = some p) (hk : k ∉ undescribed) : ∃ c, commandOf p = some c := by
  rw [commandDb_eq, hu, builtinDb, builtinOf_eq, stdSpec_lookup, std_declared] at h
  simp only [Option.map_none] at h
  rw [← Option.isSome_iff_exists]
  cases e : (Tables.builtins ++ Tables.modules).reverse.find? fun nd => nd.1 = k with
  | some nd =>
    obtain ⟨n, d⟩ := nd
    have hm := List.mem_reverse.1 (List.mem_of_find?_eq_some e)
    have hn : n = k := by simpa using List.find?_some e
    have := List.all_eq_true.1 tables_described _ hm
    rw [e] at h
    dsimp only at h this
    subst hn
    cases e2 : Decl.spec n d with
    | error err =>
      rw [e2] at this
      simp [Except.toOption, hk] at this
    | ok sp =>
      rw [e2] at h this
      simp only [Except.toOption, Option.map_some, Option.some.injEq] at h
      subst h
      simpa [hk, Except.toOption] using this
  | none =>
    rw [e] at h
    simp only [Option.map_none] at h
    cases e2 : flowTable.lookup k with
    | some q =>
      rw [e2] at h
      simp only [Option.some.injEq] at h
      subst h
      have := List.all_eq_true.1 flow_described _ (List.mem_append_left _ (lookup_mem e2))
      simpa [hk] using this
    | none =>
      rw [e2] at h
      have := List.all_eq_true.1 flow_described _ (List.mem_append_right _ (lookup_mem h))
      simpa [hk] using this

/-! ### Concrete cases -/

/-- The demonstration command with two positional words, a flag after a keyword group and two
keywords. -/
def demoText : Str := S "project(p)\nFoo(a bar SOURCES x\n  y BAZ z Headers)\n"

/-- The statements of a text, read with the demonstration command. -/
def demoStmts (text : Str) : List Node :=
  match parse { commandCtx ParseDb.demoSpec (startsWith (S "#<")) [] with db := fastDb Tables.demo } (Props.Lex.toks text) with
  | .ok tree => stmtsOf tree
  | .error _ => []

/-- What a mark says, without the position of the word. -/
def Mark.show (m : Mark) : Option Bool × NT × Str := (m.opens, m.kind, m.word.spelling)

theorem demo_statements : (demoStmts demoText).map (fun s => (program s.toks).map Token.spelling) =
    [[S "project", S "(", S "p", S ")"],
     [S "Foo", S "(", S "a", S "bar", S "SOURCES", S "x", S "y", S "BAZ", S "z", S "Headers", S ")"]] := by decide +kernel

/-- The words of the demonstration command: `a` opens a positional group, which the flag `bar` joins;
`SOURCES` opens a keyword group with `x` and `y`; the flag `BAZ` opens a positional group again. -/
theorem demo_marks : (demoStmts demoText).map (fun s => (argMarks s).map Mark.show) =
    [[(some false, .argument, S "p")],
     [(some false, .argument, S "a"), (none, .flag, S "bar"), (some true, .keyword, S "SOURCES"),
      (none, .argument, S "x"), (none, .argument, S "y"), (some false, .flag, S "BAZ"), (none, .argument, S "z"),
      (some true, .keyword, S "Headers")]] := by decide +kernel

example : demoText.head? ≠ some BOM ∧ SwitchesApart (Props.Lex.toks demoText) ∧ (∀ s ∈ demoStmts demoText, Commentless s) ∧
    (declared Tables.demo (lower (S "Foo"))).map (fun nd => (declCommand nd.2, declKeywords nd.2)) =
      some (some ⟨[(S "HEADERS", ⟨0, [], some []⟩), (S "SOURCES", ⟨0, [], some []⟩), (S "DEPENDS", ⟨0, [], some []⟩)],
        [S "BAR", S "BAZ"], ⟨0, [], some [S "BAR", S "BAZ"]⟩, ⟨0, [], some [S "BAR", S "BAZ"]⟩⟩,
        [S "HEADERS", S "SOURCES", S "DEPENDS"]) :=
  ⟨by decide +kernel, apart_of (by decide +kernel), by unfold Commentless; decide +kernel, by decide +kernel⟩

/-- Comments in front of a command, behind it and in other commands do not matter: the first command has a comment,
and the conditions hold of the second. -/
def commentText : Str := S "# one\nproject(p # two\n)\nFoo(a SOURCES x) # three\n# four\n"

theorem comment_marks : (demoStmts commentText).map (fun s => (argMarks s).map Mark.show) =
    [[(some false, .argument, S "p")],
     [(some false, .argument, S "a"), (some true, .keyword, S "SOURCES"), (none, .argument, S "x")]] := by decide +kernel

example : commentText.head? ≠ some BOM ∧ SwitchesApart (Props.Lex.toks commentText) ∧
    (∀ s ∈ (demoStmts commentText).drop 1, Commentless s ∧ ∃ t ∈ s.toks, t.type = .comment) ∧
    ∀ s ∈ (demoStmts commentText).take 1, ¬ Commentless s :=
  ⟨by decide +kernel, apart_of (by decide +kernel), by unfold Commentless; decide +kernel, by unfold Commentless; decide +kernel⟩

/-! ## C63 -/

theorem nth_word {ws ts more : List Token} {r : Token} (h : semantics ts = ws ++ r :: more) {n : Nat} {t : Token}
    (hn : ws[n]? = some t) : nthSem n ts = some t := by
  unfold nthSem
  rw [h, List.getElem?_append_left (List.getElem?_eq_some_iff.1 hn).1, hn]

theorem lookup_map {α β : Type} (g : α → β) (w : Str) : ∀ l : List (Str × α),
    (l.map fun p => (p.1, g p.2)).lookup w = (l.lookup w).map g
  | [] => rfl
  | (k, v) :: l => by
    simp only [List.map_cons, List.lookup_cons]
    split
    · rfl
    · exact lookup_map g w l

/-- A table of forms that mirrors a table of parsers. -/
theorem shape_table {f : Forms} {table : List (Str × ArgP)} {w : Str} {c : Command}
    (h1 : f.cases = table.map fun p => (p.1, commandOf p.2)) (h2 : f.otherwise = commandOf anyArgs)
    (h : f.shape w = some c) : commandOf ((table.lookup w).getD anyArgs) = some c := by
  unfold Forms.shape at h
  rw [h1, lookup_map, h2] at h
  cases e : table.lookup w with
  | none => rw [e] at h; exact h
  | some p => rw [e] at h; exact h

/-- What a parser that looks at the words decides, given the first words of the rest of the file. -/
def Chooses (p : ArgP) (ws : List Token) (c : Command) : Prop :=
  ∃ q, commandOf q = some c ∧ ∀ ts r more, semantics ts = ws ++ r :: more → resolve p ts = some q

theorem byFirst_chooses {f : Forms} {table : List (Str × ArgP)} {ws : List Token} {c : Command}
    (hpos : f.position = 0) (h1 : f.cases = table.map fun p => (p.1, commandOf p.2))
    (h2 : f.otherwise = commandOf anyArgs) (hd : f.decides ws c) : Chooses (byFirst table) ws c := by
  obtain ⟨⟨t, ht, hty, hc⟩, -⟩ := hd
  rw [hpos] at ht
  refine ⟨_, shape_table h1 h2 hc, fun ts r more e => ?_⟩
  simp only [byFirst, resolve, nth_word e ht, hty]
  rfl

theorem install_chooses {f : Forms} {ws : List Token} {c : Command}
    (hpos : f.position = 0) (h1 : f.cases = installTable.map fun p => (p.1, commandOf p.2))
    (h2 : f.otherwise = commandOf anyArgs) (hd : f.decides ws c) : Chooses installFn ws c := by
  obtain ⟨⟨t, ht, hty, hc⟩, -⟩ := hd
  rw [hpos] at ht
  refine ⟨_, shape_table h1 h2 hc, fun ts r more e => ?_⟩
  simp only [installFn, resolve, nthWord, nth_word e ht, Option.map_some]

theorem form_chooses {f : Forms} (hf : f ∈ forms) {ws : List Token} {c : Command} (hd : f.decides ws c) :
    ∃ p, funTable.lookup f.command = some p ∧ Chooses p ws c := by
  simp only [forms, List.mem_cons, List.not_mem_nil, or_false] at hf
  rcases hf with rfl | rfl | rfl | rfl | rfl | rfl | rfl | rfl | rfl | rfl | rfl | rfl | rfl | rfl
  · exact ⟨fileFn, by rfl, byFirst_chooses rfl (by decide +kernel) (by decide +kernel) hd⟩
  · exact ⟨listFn, by rfl, byFirst_chooses rfl (by decide +kernel) (by decide +kernel) hd⟩
  · exact ⟨installFn, by rfl, install_chooses rfl (by decide +kernel) (by decide +kernel) hd⟩
  all_goals
    obtain ⟨⟨t, ht, hty, hc⟩, hx⟩ := hd
    dsimp only at ht hx
    simp only [Forms.shape, lookup_cons, List.lookup_nil] at hc
  · refine ⟨addCustomCommand, by rfl, ?_⟩
    by_cases h1 : upper t.spelling = S "TARGET"
    · rw [if_pos h1] at hc
      refine ⟨addCustomCommandEvents, Eq.trans (by decide +kernel) hc, fun ts r more e => ?_⟩
      simp [addCustomCommand, resolve, nth_word e ht, hty, normKwarg, h1]
    · rw [if_neg h1] at hc
      refine ⟨addCustomCommandStandard, Eq.trans (by decide +kernel) hc, fun ts r more e => ?_⟩
      simp [addCustomCommand, resolve, nth_word e ht, hty, normKwarg, h1]
  · refine ⟨foreachFn, by rfl, ?_⟩
    by_cases h1 : upper t.spelling = S "RANGE"
    · rw [if_pos h1] at hc
      refine ⟨foreachRange, Eq.trans (by decide +kernel) hc, fun ts r more e => ?_⟩
      simp [foreachFn, resolve, nthWord, nth_word e ht, h1]
    · rw [if_neg h1] at hc
      cases hc
  · refine ⟨addExecutable, by rfl, ?_⟩
    by_cases h1 : upper t.spelling = S "ALIAS"
    · rw [if_pos h1] at hc
      refine ⟨addExecutableAlias, Eq.trans (by decide +kernel) hc, fun ts r more e => ?_⟩
      simp [addExecutable, resolve, nth_word e ht, h1]
    · rw [if_neg h1] at hc
      by_cases h2 : upper t.spelling = S "IMPORTED"
      · rw [if_pos h2] at hc
        refine ⟨addExecutableImported, Eq.trans (by decide +kernel) hc, fun ts r more e => ?_⟩
        simp only [addExecutable, resolve, nth_word e ht, h2]
        rfl
      · rw [if_neg h2] at hc
        cases hc
  · refine ⟨addLibrary, by rfl, ?_⟩
    by_cases h1 : upper t.spelling = S "ALIAS"
    · rw [if_pos h1] at hc
      refine ⟨addLibraryAlias, Eq.trans (by decide +kernel) hc, fun ts r more e => ?_⟩
      simp only [addLibrary, resolve, nth_word e ht, h1]
      rfl
    · rw [if_neg h1] at hc
      by_cases h2 : upper t.spelling = S "INTERFACE"
      · rw [if_pos h2] at hc
        refine ⟨addLibraryInterface, Eq.trans (by decide +kernel) hc, fun ts r more e => ?_⟩
        simp only [addLibrary, resolve, nth_word e ht, h2]
        rfl
      · rw [if_neg h2] at hc
        by_cases h3 : upper t.spelling = S "IMPORTED"
        · rw [if_pos h3] at hc
          refine ⟨addLibraryImported, Eq.trans (by decide +kernel) hc, fun ts r more e => ?_⟩
          simp only [addLibrary, resolve, nth_word e ht, h3]
          rfl
        · rw [if_neg h3] at hc
          cases hc
  · refine ⟨addLibrary, by rfl, ?_⟩
    by_cases h1 : upper t.spelling = S "IMPORTED"
    · rw [if_pos h1] at hc
      refine ⟨addLibraryImported, Eq.trans (by decide +kernel) hc, fun ts r more e => ?_⟩
      obtain ⟨u, hu⟩ : ∃ u, ws[1]? = some u := by
        have := (List.getElem?_eq_some_iff.1 ht).1
        exact ⟨_, List.getElem?_eq_getElem (by omega)⟩
      have g1 := hx (1, S "OBJECT") (by simp) u hu
      have g2 := hx (1, S "ALIAS") (by simp) u hu
      have g3 := hx (1, S "INTERFACE") (by simp) u hu
      have g4 := hx (1, S "IMPORTED") (by simp) u hu
      dsimp only at g1 g2 g3 g4
      simp only [addLibrary, resolve, nth_word e ht, nth_word e hu, if_neg g1, if_neg g2, if_neg g3, if_neg g4, if_pos h1]
    · rw [if_neg h1] at hc
      cases hc
  · refine ⟨cmakePolicy, by rfl, ?_⟩
    have hdr : t.type ≠ .deref := by rw [hty]; decide
    by_cases h1 : upper t.spelling = S "VERSION"
    · rw [if_pos h1] at hc
      refine ⟨std (.str (S "2+")) [] [S "VERSION"], Eq.trans (by decide +kernel) hc, fun ts r more e => ?_⟩
      simp only [cmakePolicy, resolve, nth_word e ht, if_neg hdr, if_pos h1]
    · rw [if_neg h1] at hc
      by_cases h2 : upper t.spelling = S "SET"
      · rw [if_pos h2] at hc
        refine ⟨std (.int 3) [] [S "SET", S "OLD", S "NEW"], Eq.trans (by decide +kernel) hc, fun ts r more e => ?_⟩
        simp only [cmakePolicy, resolve, nth_word e ht, if_neg hdr, if_neg h1, if_pos h2]
      · rw [if_neg h2] at hc
        by_cases h3 : upper t.spelling = S "GET"
        · rw [if_pos h3] at hc
          refine ⟨std (.int 3) [] [S "GET"], Eq.trans (by decide +kernel) hc, fun ts r more e => ?_⟩
          simp only [cmakePolicy, resolve, nth_word e ht, if_neg hdr, if_neg h1, if_neg h2, if_pos h3]
        · rw [if_neg h3] at hc
          refine ⟨std (.int 1) [] [S "PUSH", S "POP"], Eq.trans (by decide +kernel) hc, fun ts r more e => ?_⟩
          simp only [cmakePolicy, resolve, nth_word e ht, if_neg hdr, if_neg h1, if_neg h2, if_neg h3]
  · refine ⟨getFilenameComponent, by rfl, ?_⟩
    by_cases h1 : upper t.spelling = S "PROGRAM"
    · rw [if_pos h1] at hc
      refine ⟨std (.str (S "3+")) [] [S "PROGRAM", S "PROGRAM_ARGS", S "CACHE"], Eq.trans (by decide +kernel) hc,
        fun ts r more e => ?_⟩
      simp [getFilenameComponent, resolve, nthWord, nth_word e ht, h1]
    · rw [if_neg h1] at hc
      refine ⟨std (.str (S "3+")) [] [S "DIRECTORY", S "NAME", S "EXT", S "NAME_WE", S "ABSOLUTE",
        S "REALPATH", S "PATH"], Eq.trans (by decide +kernel) hc, fun ts r more e => ?_⟩
      simp [getFilenameComponent, resolve, nthWord, nth_word e ht, h1]
  · refine ⟨sourceGroup, by rfl, ?_⟩
    by_cases h1 : upper t.spelling = S "TREE"
    · rw [if_pos h1] at hc
      refine ⟨std (.int 2) [(S "PREFIX", pos (.int 1)), (S "FILES", pos (.str (S "+")))],
        Eq.trans (by decide +kernel) hc, fun ts r more e => ?_⟩
      simp [sourceGroup, resolve, nthWord, nth_word e ht, h1]
    · rw [if_neg h1] at hc
      cases hc
  · refine ⟨sourceGroup, by rfl, ?_⟩
    obtain ⟨u, hu⟩ : ∃ u, ws[0]? = some u := by
      have := (List.getElem?_eq_some_iff.1 ht).1
      exact ⟨_, List.getElem?_eq_getElem (by omega)⟩
    have g1 := hx (0, S "TREE") (by simp) u hu
    dsimp only at g1
    have g2 : ∀ ts r more, semantics ts = ws ++ r :: more → ¬ nthWord 0 ts = some (S "TREE") := by
      intro ts r more e
      simpa [nthWord, nth_word e hu] using g1
    by_cases h1 : upper t.spelling = S "FILES" ∨ upper t.spelling = S "REGULAR_EXPRESSION"
    · refine ⟨std (.int 1) [(S "FILES", pos (.str (S "+"))), (S "REGULAR_EXPRESSION", pos (.int 1))], ?_,
        fun ts r more e => ?_⟩
      · rcases h1 with h1 | h1 <;> rw [h1] at hc
        · exact Eq.trans (by decide +kernel) hc
        · exact Eq.trans (by decide +kernel) hc
      · have h3 : nthWord 1 ts = some (upper t.spelling) := by rw [nthWord, nth_word e ht]; rfl
        simp only [sourceGroup, resolve, if_neg (g2 ts r more e), h3, if_pos h1]
    · have h2 := h1
      simp only [not_or] at h2
      rw [if_neg h2.1, if_neg h2.2] at hc
      refine ⟨std (.int 2), Eq.trans (by decide +kernel) hc, fun ts r more e => ?_⟩
      have h3 : nthWord 1 ts = some (upper t.spelling) := by rw [nthWord, nth_word e ht]; rfl
      simp only [sourceGroup, resolve, if_neg (g2 ts r more e), h3, if_neg h1]
  all_goals
    refine ⟨oldInstallFiles, by rfl, ?_⟩
    by_cases h1 : upper t.spelling = S "FILES"
    · rw [if_pos h1] at hc
      refine ⟨std (.str (S "3+")) [] [S "FILES"], Eq.trans (by decide +kernel) hc, fun ts r more e => ?_⟩
      have h3 : nthWord 1 ts = some (upper t.spelling) := by rw [nthWord, nth_word e ht]; rfl
      simp only [oldInstallFiles, resolve, h3, h1, if_true]
    · rw [if_neg h1] at hc
      cases hc

theorem forms_plain : ∀ f ∈ forms, ((Tables.builtins ++ Tables.modules).all fun nd => nd.1 != f.command) = true ∧
    (flowTable.lookup f.command).isNone = true ∧
    (f.cases.all fun p => match p.2 with
      | some c => c.keywords.all (fun k => upper k.1 = k.1 ∧ inked k.1) && c.flags.all inked
      | none => true) = true ∧
    (match f.otherwise with
      | some c => c.keywords.all (fun k => upper k.1 = k.1 ∧ inked k.1) && c.flags.all inked
      | none => true) = true := by
  decide +kernel

theorem forms_command {f : Forms} (hf : f ∈ forms) {user : Spec} (hu : user.kwargs.lookup f.command = none) :
    commandDb user f.command = funTable.lookup f.command := by
  obtain ⟨h1, h2, -⟩ := forms_plain f hf
  have h3 : (Tables.builtins ++ Tables.modules).reverse.find? (fun nd => nd.1 = f.command) = none := by
    rw [List.find?_eq_none]
    intro nd hnd
    have := List.all_eq_true.1 h1 nd (List.mem_reverse.1 hnd)
    simpa using this
  rw [commandDb_eq, hu, builtinDb, builtinOf_eq, stdSpec_lookup, std_declared, h3]
  simp only [Option.map_none]
  cases e : flowTable.lookup f.command with
  | none => rfl
  | some p => rw [e] at h2; simp at h2

theorem shape_plain {f : Forms} (hf : f ∈ forms) {w : Str} {c : Command} (h : f.shape w = some c) :
    (∀ k ∈ c.keywords, upper k.1 = k.1 ∧ inked k.1 = true) ∧ ∀ w ∈ c.flags, inked w = true := by
  obtain ⟨-, -, h3, h4⟩ := forms_plain f hf
  have key : (c.keywords.all (fun k => upper k.1 = k.1 ∧ inked k.1) && c.flags.all inked) = true := by
    unfold Forms.shape at h
    split at h
    · rename_i o e
      have := List.all_eq_true.1 h3 (w, o) (lookup_mem e)
      rw [h] at this
      exact this
    · rw [h] at h4
      exact h4
  rw [Bool.and_eq_true, List.all_eq_true, List.all_eq_true] at key
  exact ⟨fun k hk => by simpa using key.1 k hk, key.2⟩

theorem keyword_of_word {c : Command} (hc : ∀ k ∈ c.keywords, upper k.1 = k.1) {t : Token} (hty : t.type = .word)
    (hs : spelledIn t (c.keywords.map (·.1)) = true) : (c.keyword t).isSome = true := by
  obtain ⟨w, hw, he⟩ := List.any_eq_true.1 hs
  obtain ⟨k, hk, rfl⟩ := List.mem_map.1 hw
  have he : upper k.1 = upper t.spelling := by simpa using he
  rw [hc k hk] at he
  simp only [Command.keyword, keywordText, hty, if_true, Option.bind_some]
  rw [← he]
  revert hk
  clear hs hw he hc
  generalize c.keywords = l
  intro hk
  induction l with
  | nil => simp at hk
  | cons p l ih =>
    obtain ⟨a, b⟩ := p
    rw [lookup_cons]
    split
    · rfl
    · rename_i hne
      rcases List.mem_cons.1 hk with rfl | hk
      · exact absurd rfl hne
      · exact ih hk

/-- **C63.** A command with several forms that the user has not declared is grouped by the form that
its deciding word calls for. -/
theorem forms_grouped_partial {user : Spec} {explicit : Str → Bool} {vartags : List ((Str → Bool) × List Str)}
    {text : Str} {tree s : Node} {name l r : Token} {ws : List Token} {f : Forms} {c : Command}
    (hb : text.head? ≠ some BOM) (ha : SwitchesApart (Props.Lex.toks text))
    (h : parse (commandCtx user explicit vartags) (Props.Lex.toks text) = .ok tree) (hs : s ∈ stmtsOf tree)
    (hw : program s.toks = name :: l :: (ws ++ [r])) (hp : ∀ t ∈ ws, t.type ≠ .lparen ∧ t.type ≠ .rparen)
    (hc : Commentless s)
    (hf : f ∈ forms) (hn : lower name.spelling = f.command) (hu : user.kwargs.lookup f.command = none)
    (hd : f.decides ws c)
    (hk : ∀ t ∈ ws, spelledIn t (c.keywords.map (·.1)) = true → t.type = .word) :
    argMarks s = c.place ws := by
  obtain ⟨p, h1, q, h2, h3⟩ := form_chooses hf hd
  obtain ⟨⟨t, ht, hty, hsh⟩, -⟩ := hd
  obtain ⟨g1, g2⟩ := shape_plain hf hsh
  have hlook : lookupParser (commandCtx user explicit vartags) name.spelling = p := by
    unfold lookupParser
    rw [Props.ParseDb.commandCtx_db, hn, forms_command hf hu, h1]
  rw [← Props.Parse.program_eq] at hw
  refine parse_grouped h (toks_ok hb ha) s hs name l ws r hw hp hc q c ?_ h2 ?_ ?_
  · rw [hlook]; exact h3
  · exact fun t ht hsp => keyword_of_word (fun k hk => (g1 k hk).1) (hk t ht hsp) hsp
  · refine fun t ht hws => blank_not_spelled ht hws ?_
    intro w hm
    rcases List.mem_append.1 hm with hm | hm
    · obtain ⟨k, hk, rfl⟩ := List.mem_map.1 hm
      exact (g1 k hk).2
    · exact g2 w hm

/-! ### Concrete cases -/

/-- Three commands with several forms. -/
def formText : Str :=
  S "file(glob x RELATIVE d *.c)\nforeach(i range 1 9)\nendforeach()\nadd_custom_command(TARGET t POST_BUILD COMMAND a b)\n"

theorem form_marks : (demoStmts formText).map (fun s => (argMarks s).map Mark.show) =
    [[(some false, .flag, S "glob"), (none, .argument, S "x"), (some true, .keyword, S "RELATIVE"),
      (none, .argument, S "d"), (some false, .argument, S "*.c")],
     [(some false, .argument, S "i"), (some true, .keyword, S "range"), (none, .argument, S "1"),
      (none, .argument, S "9")],
     [],
     [(some true, .keyword, S "TARGET"), (none, .argument, S "t"), (some false, .flag, S "POST_BUILD"),
      (some true, .keyword, S "COMMAND"), (none, .argument, S "a"), (none, .argument, S "b")]] := by decide +kernel

/-- The words of the first of them, and the form that they call for. -/
example : formText.head? ≠ some BOM ∧ SwitchesApart (Props.Lex.toks formText) ∧ (∀ s ∈ demoStmts formText, Commentless s) ∧
    (ParseDb.demoSpec.kwargs.lookup (S "file")).isNone = true ∧
    (forms[0]?.map fun f => (f.command, f.position, f.shape (upper (S "glob")))) =
      some (S "file", 0, some (anyWords [S "GLOB", S "GLOB_RECURSE", S "CONFIGURE_DEPENDS", S "FOLLOW_SYMLINKS"]
        [(S "LIST_DIRECTORIES", exactly 1 []), (S "RELATIVE", exactly 1 [])])) ∧
    ((demoStmts formText).head?.map fun s => (program s.toks)[2]?.map fun t => (t.type, t.spelling)) =
      some (some (.word, S "glob")) :=
  ⟨by decide +kernel, apart_of (by decide +kernel), by unfold Commentless; decide +kernel, by decide +kernel, by decide +kernel, by decide +kernel⟩

/-- A finding: `UNKNOWN` is not a flag of `add_library`, because the table has it misspelled. -/
theorem unknown_library_misspelled :
    (demoStmts (S "add_library(a UNKNOWN IMPORTED)\n")).map (fun s => (argMarks s).map Mark.show) =
      [[(some false, .argument, S "a"), (none, .argument, S "UNKNOWN"), (none, .flag, S "IMPORTED")]] := by
  decide +kernel

end Verif.Props.Groups
