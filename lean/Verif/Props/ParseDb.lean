import Verif.DbLemmas
import Verif.Props.Parse
import Verif.Cover

/-!
# Properties of the command database (C07, C08 for the library's own commands, C55, C56)
-/

namespace Verif.Props.ParseDb
open Verif Py Verif.Lex Verif.Parse

theorem commandCtx_db (user : Spec) (explicit : Str → Bool) (vartags : List ((Str → Bool) × List Str)) :
    (commandCtx user explicit vartags).db = commandDb user := rfl

/-! ## C08 for every command the tool knows -/

/-- **C08, all commands.** With the tool's own command table, whatever the user adds to it,
parsing ends on every token list in which only words are spelled AND or OR. -/
theorem tool_parse_terminates_partial (user : Spec) (explicit : Str → Bool)
    (vartags : List ((Str → Bool) × List Str)) (ts : List Token) (hp : PlainAndOr ts) :
    parse (commandCtx user explicit vartags) ts ≠ .error .fuel ∧
    ∀ n, 12 * ts.length + 12 ≤ n →
      parseN (commandCtx user explicit vartags) n ts = parse (commandCtx user explicit vartags) ts :=
  Props.Parse.parse_terminates_partial _ ts hp fun name => (registered_entry user explicit vartags name).1.flat

theorem flow_if : flowTable.lookup (S "if") = some .conditional := rfl

theorem parser_if (s : Spec) : Spec.parser (S "if") s = .conditional := by
  cases s
  simp [Spec.parser]

theorem builtin_if (std : Spec) : builtinOf std (S "if") = some .conditional := by
  rw [builtinOf_eq]
  cases std.kwargs.lookup (S "if") with
  | some s => simp [parser_if]
  | none => simp only [Option.map_none, flow_if]

/-- Conditions are parsed as conditions, whatever the user declares. -/
theorem if_conditional (user : Spec) : commandDb user (S "if") = some .conditional := by
  rw [commandDb_eq, builtinDb, builtin_if]
  cases user.kwargs.lookup (S "if") with
  | some s => simp [parser_if]
  | none => rfl

/-- **C08 is false** of the tool: no user configuration of commands helps. -/
theorem tool_parse_diverges (user : Spec) (explicit : Str → Bool)
    (vartags : List ((Str → Bool) × List Str)) (n : Nat) :
    parseN (commandCtx user explicit vartags) n (Props.Lex.toks (S "if(a AND#c\n b)\n")) = .error .fuel :=
  Props.Parse.parse_diverges _ (if_conditional user) n

/-! ## C07 for every command the tool knows -/

/-- **C07, all commands.** With the tool's own command table, whatever the user adds to it, the
tokens of the tree reproduce every text that has no byte-order mark and in which
add_custom_command, set_source_files_properties and set_target_properties do not occur. -/
theorem tool_text_reproduced_partial (user : Spec) (explicit : Str → Bool)
    (vartags : List ((Str → Bool) × List Str)) (text : Str) (ts : List Token) (tree : Node)
    (ht : tokenize text = .ok ts) (h : parse (commandCtx user explicit vartags) ts = .ok tree)
    (hbom : text.head? ≠ some BOM)
    (hc : ∀ t ∈ ts, lower t.spelling ≠ S "add_custom_command" ∧
      lower t.spelling ≠ S "set_source_files_properties" ∧ lower t.spelling ≠ S "set_target_properties") :
    (tree.toks.map Token.spelling).flatten = text := by
  refine Props.Parse.text_reproduced_partial _ text ts tree ht h hbom ?_
  intro t htm
  refine ((registered_entry user explicit vartags t.spelling).2 ?_).noTuple
  obtain ⟨h1, h2, h3⟩ := hc t htm
  simp [tupleCommands, h1, h2, h3]

/-- The user's specification when only the demonstration command is declared. -/
def demoSpec : Spec := ((userSpec Tables.demo []).toOption).getD .root

theorem demoSpec_ok : userSpec Tables.demo [] = .ok demoSpec := by rfl

/-- A file with commands of several kinds. -/
def demoFile : Str :=
  S "add_library(a STATIC b.c) # x\ninstall(TARGETS a RUNTIME DESTINATION bin)\nfoo(BAR x SOURCES y)"

theorem demoFile_parses :
    (parse (commandCtx demoSpec (startsWith (S "#<")) []) (Props.Lex.toks demoFile)).isOk = true := by
  unfold commandCtx
  rw [commandDb_fast demoSpec_ok]
  decide +kernel

example : PlainAndOr (Props.Lex.toks demoFile) ∧ tokenize demoFile = .ok (Props.Lex.toks demoFile) ∧
    demoFile.head? ≠ some BOM ∧
    ∀ t ∈ Props.Lex.toks demoFile, lower t.spelling ≠ S "add_custom_command" ∧
      lower t.spelling ≠ S "set_source_files_properties" ∧ lower t.spelling ≠ S "set_target_properties" :=
  ⟨by unfold PlainAndOr; decide +kernel, by decide +kernel, by decide +kernel, by decide +kernel⟩

/-- A finding: a valid file whose last command is `add_library(a)` makes the parser fail with an
`AttributeError`: it looks at the token after the name, but there is none. -/
theorem add_library_crash :
    parse (commandCtx demoSpec (startsWith (S "#<")) []) (Props.Lex.toks (S "add_library(a)\n")) =
      .error .attribute := by
  unfold commandCtx
  rw [commandDb_fast demoSpec_ok]
  have h : (match parse { db := fastDb Tables.demo, explicit := startsWith (S "#<"),
                          vartags := [(commandVar, [S "cmdline"])] } (Props.Lex.toks (S "add_library(a)\n")) with
      | .error e => some e | .ok _ => none) = some .attribute := by decide +kernel
  revert h
  generalize parse _ _ = r
  intro h
  cases r with
  | error e => simpa using h
  | ok t => simp at h

/-! ## C55: additional commands -/

/-- **C55.** A declared command is parsed by its declaration: the last one for that name in any
letter case. -/
theorem declared_command (cmds : List (Str × Decl)) (sp : Spec) (name n : Str) (d : Decl)
    (h : userSpec cmds [] = .ok sp) (hd : declared cmds (lower name) = some (n, d))
    (hc : lower name ≠ S "if" ∧ lower name ≠ S "elseif" ∧ lower name ≠ S "while")
    (explicit : Str → Bool) (vartags : List ((Str → Bool) × List Str)) :
    ∃ s, Decl.spec n d = .ok s ∧
      lookupParser (commandCtx sp explicit vartags) name =
        .standard (some ⟨s.spelling, s.maxSubgroups⟩) s.pargs (funtree s.kwargs) := by
  unfold userSpec at h
  cases ha : Spec.addAll cmds .root with
  | error e => rw [ha] at h; simp at h
  | ok s0 =>
    rw [ha] at h
    simp only [applyOverrides, Except.ok.injEq] at h
    subst h
    have hl := addAll_lookup ha (lower name)
    rw [hd] at hl
    simp only at hl
    have hok := declared_ok ha hd
    obtain ⟨s, e⟩ := hok
    refine ⟨s, e, ?_⟩
    rw [e] at hl
    have hcmd : lower name ≠ S "COMMAND" := by
      intro hcon
      have h2 : lower (lower name) = lower name := Layout.lower_lower name
      rw [hcon] at h2
      exact absurd h2 (by decide)
    unfold lookupParser
    rw [commandCtx_db, commandDb_eq, hl]
    simp only [Except.toOption, Option.map_some]
    cases s
    rw [Spec.parser, if_neg (by simp [hc.1, hc.2.1, hc.2.2]), if_neg hcmd]
    rfl

/-- **C55.** Commands that are not declared are parsed as if nothing had been declared. -/
theorem other_commands (cmds : List (Str × Decl)) (sp : Spec) (name : Str)
    (h : userSpec cmds [] = .ok sp) (hd : declared cmds (lower name) = none)
    (hdef : declared cmds (S "_default") = none)
    (explicit : Str → Bool) (vartags : List ((Str → Bool) × List Str)) :
    lookupParser (commandCtx sp explicit vartags) name =
      lookupParser (commandCtx .root explicit vartags) name := by
  unfold userSpec at h
  cases ha : Spec.addAll cmds .root with
  | error e => rw [ha] at h; simp at h
  | ok s0 =>
    rw [ha] at h
    simp only [applyOverrides, Except.ok.injEq] at h
    subst h
    have h0 : ∀ k, Spec.root.kwargs.lookup k = none := fun _ => rfl
    have key : ∀ k, declared cmds k = none → commandDb s0 k = commandDb .root k := by
      intro k hk
      have hl := addAll_lookup ha k
      rw [hk] at hl
      simp only at hl
      rw [commandDb_eq, commandDb_eq, hl]
    unfold lookupParser
    rw [commandCtx_db, commandCtx_db, key _ hd, key _ hdef]

/-- **C55.** What a declaration says: the spelling is the one given, or the name; the number of
subgroups, the positional groups and, for each keyword, its own last declaration. -/
theorem declaration_parts (n : Str) (pargs : Option Pargs) (flags : List Str) (kwargs : List (Str × Decl))
    (spelling : Option Str) (maxSub : Option Int) (s : Spec)
    (h : Decl.spec n (.dict pargs flags kwargs spelling maxSub) = .ok s) :
    s.name = n ∧ s.spelling = spelling.getD n ∧ s.maxSubgroups = maxSub ∧
    parsePspec pargs flags = .ok s.pargs ∧
    ∀ k, s.kwargs.lookup k =
      match declaredKeyword kwargs k with
      | some (k', d) => (Decl.spec k' d).toOption
      | none => none := by
  unfold Decl.spec at h
  cases e1 : parsePspec pargs flags with
  | error e => rw [e1] at h; simp at h
  | ok ps =>
    rw [e1] at h
    simp only at h
    cases e2 : Decl.kwspecs kwargs [] with
    | error e => rw [e2] at h; simp at h
    | ok ks =>
      rw [e2] at h
      simp only [Except.ok.injEq] at h
      subst h
      refine ⟨rfl, rfl, rfl, rfl, fun k => ?_⟩
      exact kwspecs_lookup kwargs [] ks e2 k

/-- **C55.** A number of arguments, or none given, is one positional group with the flags; a list
has one group for each element.  An element is a number, or a number with a dictionary of
options, whose values are taken over. -/
theorem declaration_pargs :
    (∀ flags, parsePspec none flags = .ok [{ nargs := .str (S "*"), flags := flags, legacy := true }]) ∧
    (∀ n flags, parsePspec (some (.scalar n)) flags = .ok [{ nargs := n, flags := flags, legacy := true }]) ∧
    (∀ ps l, parsePspec (some (.list ps)) [] = .ok l → l.length = ps.length ∧
      ∀ (i : Nat) p, ps[i]? = some p → ∃ q, l[i]? = some q ∧ PDecl.parse p = .ok q) ∧
    (∀ n, PDecl.parse (.scalar n) = .ok { nargs := n } ∧ PDecl.parse (.seq (some n) none) = .ok { nargs := n }) ∧
    (∀ n d q, PDecl.parse (.seq (some n) (some d)) = .ok q →
      q.nargs = n ∧ q.sortable = d.sortable ∧ q.tags = d.tags ∧ q.flags = d.flags ∧ q.legacy = d.legacy ∧
      q.maxPargs = d.maxPargs) := by
  refine ⟨fun _ => rfl, fun _ _ => rfl, fun _ _ h => mapE_get h, fun _ => ⟨rfl, rfl⟩, ?_⟩
  intro n d q h
  simp only [PDecl.parse] at h
  split at h
  · cases h
  · cases e : d.nargs with
    | none => rw [e] at h; cases h; exact ⟨rfl, rfl, rfl, rfl, rfl, rfl⟩
    | some m => rw [e] at h; cases h

/-- **C55.** Mistakes in a declaration are reported: flags beside positional groups, a misspelled
option, a number of arguments given twice or not at all. -/
theorem declaration_mistakes (f : Str) (fs : List Str) (d : PDict) (ps : List PDecl) :
    parsePspec (some (.dict d)) (f :: fs) = .error .user ∧ parsePspec (some (.list ps)) (f :: fs) = .error .user ∧
    (d.unknown = true → PDict.parse d = .error .user ∧ ∀ n, PDecl.parse (.seq n (some d)) = .error .user) ∧
    (d.nargs.isSome = true → ∀ n, PDecl.parse (.seq (some n) (some d)) = .error .user) ∧
    (d.nargs = none → PDecl.parse (.seq none (some d)) = .error .user) := by
  refine ⟨rfl, rfl, fun h => ⟨?_, fun n => ?_⟩, fun h n => ?_, fun h => ?_⟩
  · simp [PDict.parse, h]
  · cases n <;> simp [PDecl.parse, h]
  · simp only [PDecl.parse]
    split
    · rfl
    · cases e : d.nargs with
      | none => rw [e] at h; simp at h
      | some m => rfl
  · simp only [PDecl.parse, h]
    split <;> rfl

/-- A declaration of if, elseif or while has no effect (`if_conditional`), and a dictionary of
positional options outside a list loses its number of arguments. -/
theorem dict_pargs_loses_nargs (n : Nargs) (tags : List Str) :
    parsePspec (some (.dict { nargs := some n, tags := tags })) [] =
      .ok [{ nargs := .str (S "*"), tags := tags }] := rfl

example : userSpec Tables.demo [] = .ok demoSpec ∧
    (declared Tables.demo (lower (S "Foo"))).map Prod.fst = some (S "foo") ∧
    (declared Tables.demo (lower (S "install"))).isNone = true :=
  ⟨demoSpec_ok, by decide +kernel, by decide +kernel⟩

/-! ## C56: `override_spec` -/

/-- **C56, keywords.** An override addressed to a command or to one of its keywords, at any depth,
succeeds only if it exists; it then has the given value, its other values are as before, and so
is everything at every other path. -/
theorem override_keyword (key : Str) (v : OVal) (path : List Str) (s s' : Spec)
    (hne : path ≠ []) (hslash : ∀ k ∈ path, '/' ∉ k) (hdot : '.' ∉ key)
    (hp : ∀ k ∈ path, startsWith (S "parg") k = false)
    (h : applyOverride (join ['/'] path ++ '.' :: key) v s = .ok s') :
    (∃ t t', Spec.at path s = some t ∧ Spec.at path s' = some t' ∧
      (key ≠ S "always_wrap" → attr key t' = some v) ∧
      (∀ key', key' ≠ key → attr key' t' = attr key' t) ∧ t'.pargs = t.pargs) ∧
    ∀ q, q ≠ path → SameAt (Spec.at q s') (Spec.at q s) := by
  rw [applyOverride_address hne hslash hdot] at h
  exact override_path key v path s s' hp h

/-- **C56, positional groups.** An override addressed to a positional group changes that value of
that group: nothing else in the group, no other group, and nothing at any other path. -/
theorem override_parg (key : Str) (v : OVal) (path : List Str) (g : Str) (s s' : Spec)
    (hslash : ∀ k ∈ path ++ [g], '/' ∉ k) (hdot : '.' ∉ key)
    (hp : ∀ k ∈ path, startsWith (S "parg") k = false) (hg : startsWith (S "parg") g = true)
    (h : applyOverride (join ['/'] (path ++ [g]) ++ '.' :: key) v s = .ok s') :
    (∃ (t t' : Spec) (i : Int) (j : Nat) (p p' : PSpec), Spec.at path s = some t ∧ Spec.at path s' = some t' ∧
      intOf (stripBrackets (g.drop 4)) = some i ∧
      ((j : Int) = i ∨ i < 0 ∧ (j : Int) = i + (t.pargs.length : Int)) ∧
      t.pargs[j]? = some p ∧ t'.pargs = t.pargs.set j p' ∧
      (key ≠ S "always_wrap" → pattr key p' = some v) ∧ (∀ key', key' ≠ key → pattr key' p' = pattr key' p) ∧
      t'.name = t.name ∧ t'.spelling = t.spelling ∧ t'.maxSubgroups = t.maxSubgroups) ∧
    ∀ q, q ≠ path → SameAt (Spec.at q s') (Spec.at q s) := by
  rw [applyOverride_address (by simp) hslash hdot] at h
  exact override_group key v path g s s' hp hg h

/-- **C56, unknown addresses.** An address that names nothing is reported as a mistake of the
user; so is an address without a dot. -/
theorem override_unknown (key : Str) (v : OVal) (path rest : List Str) (k : Str) (s t : Spec)
    (hslash : ∀ p ∈ path ++ k :: rest, '/' ∉ p) (hdot : '.' ∉ key)
    (hp : ∀ p ∈ path, startsWith (S "parg") p = false) (hk : startsWith (S "parg") k = false)
    (ht : Spec.at path s = some t) (hl : t.kwargs.lookup k = none) :
    applyOverride (join ['/'] (path ++ k :: rest) ++ '.' :: key) v s = .error .user := by
  rw [applyOverride_address (by simp) hslash hdot]
  exact override_missing key v path rest k s t hp hk ht hl

/-- A finding: the values of the library's own commands cannot be overridden; every address that
begins with a command the user has not declared is an error. -/
theorem override_builtin (cmds : List (Str × Decl)) (sp : Spec) (key : Str) (v : OVal) (rest : List Str) (k : Str)
    (h : userSpec cmds [] = .ok sp) (hd : declared cmds k = none)
    (hslash : ∀ p ∈ k :: rest, '/' ∉ p) (hdot : '.' ∉ key) (hk : startsWith (S "parg") k = false) :
    userSpec cmds [(join ['/'] (k :: rest) ++ '.' :: key, v)] = .error .user := by
  unfold userSpec at h ⊢
  cases ha : Spec.addAll cmds .root with
  | error e => rw [ha] at h; simp at h
  | ok s0 =>
    have hl := addAll_lookup ha k
    rw [hd] at hl
    have := override_unknown key v [] rest k s0 s0 hslash hdot (by simp) hk rfl (by rw [hl]; rfl)
    simp only [List.nil_append] at this
    simp only [applyOverrides, this]

/-- A command of the user's: two positional groups and a keyword with keywords of its own. -/
def userCommands : List (Str × Decl) :=
  [(S "MyCmd", .dict (some (.list [.scalar (.int 1), .dict {}])) []
    [(S "KW", .dict none [S "F"] [(S "SUB", .scalar (.int 2))] none none)] none none)]

/-- Both kinds of override on it. -/
def userOverrides : List (Str × OVal) :=
  [(S "mycmd/KW/SUB.spelling", .str (S "Sub")), (S "mycmd/parg[1].sortable", .bool true)]

example : (userSpec userCommands userOverrides).isOk = true ∧
    ((userSpec userCommands userOverrides).toOption.bind (Spec.at [S "mycmd", S "KW", S "SUB"])).map Spec.spelling
      = some (S "Sub") ∧
    ((userSpec userCommands userOverrides).toOption.bind (Spec.at [S "mycmd"])).map
      (fun t => t.pargs.map (·.sortable)) = some [false, true] := by decide +kernel

/-- A finding: the first index past the end escapes as an `IndexError`; the next one is reported
to the user. -/
theorem override_index :
    (match userSpec userCommands [(S "mycmd/parg[2].sortable", .bool true)] with
      | .error e => some e | .ok _ => none) = some .index ∧
    (match userSpec userCommands [(S "mycmd/parg[3].sortable", .bool true)] with
      | .error e => some e | .ok _ => none) = some .user := by decide +kernel

end Verif.Props.ParseDb
