import Verif.GenTable
import Verif.GenArgs
import Verif.DbLemmas
import Verif.Props.LintParams
import Verif.Props.ParseDb

/-!
# The table that cmake-genparsers writes (C70, C71, C72)
-/

namespace Verif.Props.Gen
open Verif Py Verif.Lex Verif.Gen
open Verif.Parse hiding Rec
open Verif.Lint (nameOf argsOf Place places inside natStr)
open Verif.Props.LintTree (commands)
open Verif.Props.LintParams (definitions)

/-! ## The specification -/

/-- The parser's context: no additional commands, genparsers.py:199-204. -/
def ctx0 (explicit : Str → Bool) (vartags : List ((Str → Bool) × List Str)) : Ctx := commandCtx .root explicit vartags

/-- The command writes this table for the text. -/
def Generates (ctx : Ctx) (text : Str) (table : Table) : Prop :=
  ∃ tree fuel, parse ctx (Props.Lex.toks text) = .ok tree ∧ processTree fuel tree = .ok table

/-- What is between the parentheses of a command. -/
def words (s : Node) : List Str := (argsOf s).map (·.spelling)

/-- The commands between a definition and its end. -/
def body (p : Place) : List Node := inside (nameOf p.cmd) p.later

/-- The call that declares keywords. -/
def declares (s : Node) : Prop := nameOf s = S "cmake_parse_arguments"

/-- The names of a list `"a;b;c"`, in capitals and without blanks around them. -/
def listed (text : Str) : List Str :=
  ((splitOn ';' (stripQuotes text)).map fun x => upper (rstripBy isSpace (lstripBy isSpace x))).filter fun x => x != []

/-- Neither all small nor all capital letters. -/
def mixedCase (w : Str) : Bool := lower w != w && upper w != w

/-- `n` or more. -/
def orMore (n : Nat) : Nargs := if n = 0 then .str (S "*") else .str (natStr n ++ S "+")

/-! ## Definitions and their bodies -/

theorem commands_tree {ctx : Ctx} {text : Str} {tree : Node} (h : parse ctx (Props.Lex.toks text) = .ok tree) :
    commands ctx text = stmtsOf tree := by
  simp only [commands, h]

/-- A definition and what is read from it. -/
structure Read (ctx : Ctx) (p : Place) (d : Defn) : Prop where
  stmt : ∃ x, Stmt x p.cmd
  first : d.words = firstWords p.cmd
  found : ∃ fs, d.body = .ok fs ∧ (matter fs).Perm (matter ((body p).map Gen.found))

theorem sameDef_read {ctx : Ctx} {p : Place} {s : Lint.Spot} (h : SameDef p s) : Read ctx p (defnOf s) := by
  obtain ⟨x, b, bs, e, K, hx, rfl, hs, hq, hl, hi⟩ := h.ex
  refine ⟨⟨x, hs⟩, rfl, bodyFound (.node .body b bs), rfl, ?_⟩
  rw [body, hi]
  exact body_matter hq b

theorem read_right {ctx : Ctx} {ts : List Token} {tree : Node} (h : parse ctx ts = .ok tree) {d : Defn} (hd : d ∈ defnsOf tree) :
    ∃ p ∈ places [] (stmtsOf tree), p.defines = true ∧ Read ctx p d := by
  obtain ⟨s, hs, rfl⟩ := List.mem_map.1 hd
  have hs := (findIn_perm _ _).mem_iff.1 hs
  obtain ⟨p, hp, hr⟩ := (tree_defs h).right s hs
  obtain ⟨h1, h2⟩ := List.mem_filter.1 hp
  exact ⟨p, h1, h2, sameDef_read hr⟩

theorem read_left {ctx : Ctx} {ts : List Token} {tree : Node} (h : parse ctx ts = .ok tree) {p : Place}
    (hp : p ∈ places [] (stmtsOf tree)) (hd : p.defines = true) : ∃ d ∈ defnsOf tree, Read ctx p d := by
  obtain ⟨s, hs, hr⟩ := (tree_defs h).left p (List.mem_filter.2 ⟨hp, hd⟩)
  exact ⟨_, List.mem_map.2 ⟨s, (findIn_perm _ _).mem_iff.2 hs, rfl⟩, sameDef_read hr⟩

theorem kid_toks {n g : Node} (hg : g ∈ Lint.kidsOf n) : ∀ t ∈ Lint.semToks g, t ∈ Lint.semToks n := by
  intro t ht
  rw [Lint.semToks, semantics, List.mem_filter] at ht ⊢
  refine ⟨?_, ht.2⟩
  have : ∀ (l : List Node), g ∈ l → t ∈ toksL l := by
    intro l
    induction l with
    | nil => simp
    | cons c l ih =>
      intro hc
      rw [toksL, List.mem_append]
      rcases List.mem_cons.1 hc with rfl | hc
      · exact Or.inl ht.1
      · exact Or.inr (ih hc)
  cases n with
  | tok t => simp [Lint.kidsOf] at hg
  | node ty a cs => rw [Node.toks]; exact this cs hg

theorem firstWords_cons {ctx : Ctx} (hd : PlainDefs ctx) {ts : List Token} {tree s : Node} (h : parse ctx ts = .ok tree)
    (hs : s ∈ stmtsOf tree) (hf : Lint.funName s = S "function" ∨ Lint.funName s = S "macro") {w : Str} {params : List Str}
    (hw : firstWords s = .ok (w :: params)) : words s = w :: params := by
  have e := firstWords_eq hd h hs hf
  by_cases ha : argsOf s = []
  · exfalso
    unfold firstWords at hw
    split at hw
    · split at hw
      · simp at hw
      · rename_i g hg
        simp only [Except.ok.injEq] at hw
        have hm : g ∈ Lint.kidsOf (Lint.argTree s) := List.mem_of_find?_eq_some hg
        obtain ⟨t, l, ht, _, _⟩ := List.map_eq_cons_iff.1 hw
        have := kid_toks hm t (by rw [ht]; simp)
        rw [Lint.stmt_args h hs, ha] at this
        simp at this
    · simp at hw
  · rw [if_neg ha, hw] at e
    simp only [Except.ok.injEq] at e
    exact e.symm

theorem words_of_read {ctx : Ctx} (hd : PlainDefs ctx) {ts : List Token} {tree : Node} (h : parse ctx ts = .ok tree) {p : Place}
    (hp : p ∈ places [] (stmtsOf tree)) (hdef : p.defines = true) {d : Defn} (hr : Read ctx p d) {w : Str} {params : List Str}
    (hw : d.words = .ok (w :: params)) : words p.cmd = w :: params := by
  obtain ⟨x, hx⟩ := hr.stmt
  rw [hr.first] at hw
  refine firstWords_cons hd h (Lint.places_mem _ _ p hp) ?_ hw
  have : Lint.funName p.cmd = nameOf p.cmd := by rw [Lint.stmt_funName hx, Lint.stmt_nameOf hx]
  rw [this]
  have e : [c! "function", c! "macro"] = [S "function", S "macro"] := by decide
  rw [Place.defines, e] at hdef
  simpa using hdef

theorem places_of_mem : ∀ (l : List Node) (st : List Str), ∀ s ∈ l, ∃ p ∈ places st l, p.cmd = s
  | [], _, s, h => by simp at h
  | a :: l, st, s, h => by
    rcases List.mem_cons.1 h with rfl | h
    · exact ⟨⟨s, st, l⟩, by simp [places], rfl⟩
    · obtain ⟨p, hp, e⟩ := places_of_mem l (Lint.after st (nameOf a)) s h
      exact ⟨p, by simp [places, hp], e⟩

theorem startsWith_underscore (s : Str) : startsWith (S "_") s = false ↔ s.head? ≠ some '_' := by
  have e : S "_" = ['_'] := rfl
  rw [e]
  cases s with
  | nil => simp [startsWith, stripPrefix?]
  | cons c s =>
    simp only [startsWith, stripPrefix?, List.head?_cons, ne_eq, Option.some.injEq]
    by_cases h : c = '_'
    · simp [h]
    · have : ¬ '_' = c := fun e => h e.symm
      simp [h, this]

theorem root_fast : commandDb .root = fastDb [] := by
  have hu : userSpec [] [] = .ok Spec.root := by simp only [userSpec, Spec.addAll, applyOverrides]
  exact commandDb_fast hu

/-- Nothing in a default context replaces the parsers of `function` and `macro`. -/
theorem ctx0_plain (explicit : Str → Bool) (vartags : List ((Str → Bool) × List Str)) : PlainDefs (ctx0 explicit vartags) := by
  have hd := root_fast
  intro name h
  unfold lookupParser
  rw [ctx0, Props.ParseDb.commandCtx_db, hd]
  have h0 : ∀ k, ((Tables.builtins ++ Tables.modules).reverse.find? fun nd => nd.1 = k).isNone = true →
      fastDb [] k = match flowTable.lookup k with | some p => some p | none => funTable.lookup k := by
    intro k hk
    rw [Option.isNone_iff_eq_none] at hk
    simp only [fastDb, declared, List.reverse_nil, List.find?_nil, hk]
    cases flowTable.lookup k <;> rfl
  rcases h with h | h <;> rw [h]
  · rw [h0 _ (by decide +kernel)]
    rfl
  · rw [h0 _ (by decide +kernel)]
    rfl

/-! ## C70 -/

/-- **C70.** The table has one entry for each name, and the names are those of the functions and macros
that are defined anywhere in the file and do not begin with an underscore, in small letters. -/
theorem generated_names {explicit : Str → Bool} {vartags : List ((Str → Bool) × List Str)} {text : Str} {table : Table}
    (h : Generates (ctx0 explicit vartags) text table) :
    (table.map (·.1)).Nodup ∧
    ∀ name, name ∈ table.map (·.1) ↔ name.head? ≠ some '_' ∧
      ∃ s ∈ definitions (commands (ctx0 explicit vartags) text), ((words s).map lower).head? = some name := by
  obtain ⟨tree, fuel, hp, ht⟩ := h
  rw [commands_tree hp]
  have hd := ctx0_plain explicit vartags
  obtain ⟨h1, h2, _, h4⟩ := tableOf_spec fuel (defnsOf tree) [] table ht (by simp)
  refine ⟨h1, fun name => ⟨?_, ?_⟩⟩
  · intro hn
    obtain ⟨⟨n, e⟩, hm, rfl⟩ := List.mem_map.1 hn
    rcases h2 _ hm with hm | ⟨d, hdm, he, hu⟩
    · simp at hm
    · obtain ⟨w, params, fs, e', hw, _, _, e2⟩ := defnEntry_ok he
      obtain ⟨p, hpm, hdef, hr⟩ := read_right hp hdm
      refine ⟨(startsWith_underscore _).1 hu, p.cmd, List.mem_filter.2 ⟨Lint.places_mem _ _ p hpm, hdef⟩, ?_⟩
      rw [words_of_read hd hp hpm hdef hr hw]
      simp only [Prod.mk.injEq] at e2
      simp [e2.1]
  · rintro ⟨hu, s, hs, hw⟩
    obtain ⟨hsm, hdef⟩ := List.mem_filter.1 hs
    obtain ⟨p, hpm, rfl⟩ := places_of_mem _ [] s hsm
    obtain ⟨d, hdm, hr⟩ := read_left hp hpm hdef
    obtain ⟨q, hq, hin⟩ := h4 d hdm
    obtain ⟨w, params, fs, e', hw', _, _, rfl⟩ := defnEntry_ok hq
    rw [words_of_read hd hp hpm hdef hr hw'] at hw
    simp only [List.map_cons, List.head?_cons, Option.some.injEq] at hw
    subst hw
    exact hin ((startsWith_underscore _).2 hu)

/-! ## C71 -/

theorem parse_mem {p : Place} {fs : List Found} (hs : ∀ s ∈ body p, ∃ x, Stmt x s)
    (hm : (matter fs).Perm (matter ((body p).map Gen.found))) (a : List Str) :
    .parseArgs a ∈ fs ↔ ∃ s ∈ body p, declares s ∧ a = (Lint.semToks (Lint.argTree s)).map (·.spelling) := by
  have e : Found.parseArgs a ∈ fs ↔ Found.parseArgs a ∈ (body p).map Gen.found := by
    have e1 : ∀ l, Found.parseArgs a ∈ l ↔ Found.parseArgs a ∈ matter l := by intro l; simp [matter]
    rw [e1, hm.mem_iff, ← e1]
  rw [e, List.mem_map]
  constructor
  · rintro ⟨s, h1, h2⟩
    obtain ⟨x, hx⟩ := hs s h1
    exact ⟨s, h1, (found_parse hx).1 h2⟩
  · rintro ⟨s, h1, h2⟩
    obtain ⟨x, hx⟩ := hs s h1
    exact ⟨s, h1, (found_parse hx).2 h2⟩

theorem later_sub : ∀ (l : List Node) (st : List Str), ∀ p ∈ places st l, ∀ s ∈ p.later, s ∈ l
  | [], st, p, hp => by simp [places] at hp
  | a :: l, st, p, hp => by
    intro s hs
    simp only [places, List.mem_cons] at hp
    rcases hp with rfl | hp
    · exact List.mem_cons_of_mem _ hs
    · exact List.mem_cons_of_mem _ (later_sub l _ p hp s hs)

theorem body_sub {l : List Node} {p : Place} (hp : p ∈ places [] l) : ∀ s ∈ body p, s ∈ l := by
  intro s hs
  obtain ⟨q, hq, rfl⟩ := List.mem_map.1 hs
  exact later_sub l [] p hp _ (Lint.places_mem _ _ q ((List.takeWhile_sublist _).mem hq))

theorem tree_stmts {ctx : Ctx} {ts : List Token} {tree : Node} (h : parse ctx ts = .ok tree) : ∀ s ∈ stmtsOf tree, ∃ x, Stmt x s := by
  obtain ⟨a, cs, c, rfl, hs⟩ := parse_seq h
  intro s hm
  simp only [stmtsOf] at hm
  exact Lint.seq_stmts hs s hm

/-- The definition that an entry comes from: the functions and macros without `cmake_parse_arguments`
have as many positional arguments as parameters, and nothing else; for the others, at least that many,
and lists that come from one of these calls, after replacing references to variables. -/
theorem entry_source {ctx : Ctx} (hd : PlainDefs ctx) {text : Str} {table : Table} (h : Generates ctx text table) {name : Str} {e : Entry}
    (hm : (name, e) ∈ table) : ∃ p ∈ places [] (commands ctx text), p.defines = true ∧ ∃ w params, words p.cmd = w :: params ∧
      name = lower w ∧ e.spelling = mixed w ∧
      ((∀ s ∈ body p, ¬ declares s) → e.nargs = .int params.length ∧ e.flags = none ∧ e.kwargs = none) ∧
      ((∃ s ∈ body p, declares s) → e.nargs = orMore params.length ∧ ∃ s ∈ body p, declares s ∧ ∃ vars a0 a1 a2 a3 more v1 v2 v3,
        words s = a0 :: a1 :: a2 :: a3 :: more ∧ Value vars (stripQuotes a1) v1 ∧
      Value vars (stripQuotes a2) v2 ∧ Value vars (stripQuotes a3) v3 ∧ e.flags = some (listNames (splitOn ';' v1)) ∧
        e.kwargs = some (keywords (listNames (splitOn ';' v2)) (listNames (splitOn ';' v3)))) := by
  obtain ⟨tree, fuel, hp, ht⟩ := h
  rw [commands_tree hp]
  obtain ⟨_, h2, _, _⟩ := tableOf_spec fuel (defnsOf tree) [] table ht (by simp)
  rcases h2 _ hm with hm | ⟨d, hdm, he, hu⟩
  · simp at hm
  · obtain ⟨w, params, fs, e', hw, hb, hbe, e2⟩ := defnEntry_ok he
    obtain ⟨p, hpm, hdef, hr⟩ := read_right hp hdm
    obtain ⟨fs', hb', hperm⟩ := hr.found
    rw [hb] at hb'
    simp only [Except.ok.injEq] at hb'
    subst hb'
    have hst : ∀ s ∈ body p, ∃ x, Stmt x s := fun s hs => tree_stmts hp s (body_sub hpm s hs)
    have hpa := parse_mem hst hperm
    simp only [Prod.mk.injEq] at e2
    obtain ⟨e1, e2⟩ := e2
    subst e2
    refine ⟨p, hpm, hdef, w, params, words_of_read hd hp hpm hdef hr hw, e1, rfl, ?_, ?_⟩
    · intro hn
      have := bodyEntry_none hbe (by
        intro a ha
        obtain ⟨s, hs, h1, _⟩ := (hpa a).1 ha
        exact hn s hs h1)
      subst this
      exact ⟨rfl, rfl, rfl⟩
    · rintro ⟨s, hs, h1⟩
      obtain ⟨a, v, ha, hpe⟩ := bodyEntry_some hbe ⟨_, (hpa _).2 ⟨s, hs, h1, rfl⟩⟩
      obtain ⟨s, hs, h1, rfl⟩ := (hpa a).1 ha
      rw [Lint.stmt_args hp (body_sub hpm s hs)] at hpe
      obtain ⟨a0, a1, a2, a3, more, v1, v2, v3, x0, x1, x2, x3, rfl⟩ := parseEntry_ok hpe
      exact ⟨rfl, s, hs, h1, v, a0, a1, a2, a3, more, v1, v2, v3, x0, x1, x2, x3, rfl, rfl⟩

/-- **C71.** What an entry says: it belongs to a function or macro of that name in the file.  If no
`cmake_parse_arguments` is called inside, it has as many positional arguments as parameters.  Otherwise it
has at least as many, and some call inside gives the flags, the keywords that are followed by one value and
those that are followed by several, if its arguments are texts without references to variables. -/
theorem generated_entry {explicit : Str → Bool} {vartags : List ((Str → Bool) × List Str)} {text : Str} {table : Table}
    (h : Generates (ctx0 explicit vartags) text table) {name : Str} {e : Entry} (hm : (name, e) ∈ table) :
    ∃ p ∈ places [] (commands (ctx0 explicit vartags) text), p.defines = true ∧
      ∃ w params, words p.cmd = w :: params ∧ name = lower w ∧ e.spelling = (if mixedCase w then some w else none) ∧
      ((∀ s ∈ body p, ¬ declares s) → e.nargs = .int params.length ∧ e.flags = none ∧ e.kwargs = none) ∧
      ((∃ s ∈ body p, declares s) → e.nargs = orMore params.length ∧
        ∃ s ∈ body p, declares s ∧ ∃ pre flags ones many more, words s = pre :: flags :: ones :: many :: more ∧
        ('$' ∉ flags → e.flags = some (listed flags)) ∧
        ('$' ∉ ones → '$' ∉ many → ∃ kws, e.kwargs = some kws ∧
          ∀ k, kws.lookup k = if k ∈ listed many then some (.str (S "+")) else if k ∈ listed ones then some (.int 1) else none)) := by
  have noDollar : ∀ a : Str, '$' ∉ a → '$' ∉ stripQuotes a := by
    intro a ha hs
    refine ha ?_
    unfold stripQuotes rstripBy lstripBy at hs
    have := (List.dropWhile_sublist _).mem (List.mem_reverse.1 hs)
    exact (List.dropWhile_sublist _).mem (List.mem_reverse.1 this)
  obtain ⟨p, hp, hdef, w, params, hw, hn, hsp, h1, h2⟩ := entry_source (ctx0_plain explicit vartags) h hm
  refine ⟨p, hp, hdef, w, params, hw, hn, ?_, h1, ?_⟩
  · rw [hsp, mixed, mixedCase]
    simp
  · intro hd
    obtain ⟨hna, s, hs, hds, vars, a0, a1, a2, a3, more, v1, v2, v3, hws, x1, x2, x3, hf, hk⟩ := h2 hd
    refine ⟨hna, s, hs, hds, a0, a1, a2, a3, more, hws, ?_, ?_⟩
    · intro hd1
      rw [hf, ← value_unique (value_plain (noDollar _ hd1)) x1]
      rfl
    · intro hd2 hd3
      refine ⟨_, hk, fun k => ?_⟩
      rw [keywords_lookup, ← value_unique (value_plain (noDollar _ hd2)) x2, ← value_unique (value_plain (noDollar _ hd3)) x3]
      rfl

/-! ## Loading the table -/

/-- The table as `additional_commands` of a configuration file. -/
def asCommands (table : Table) : List (Str × Decl) := table.map fun p => (p.1, p.2.decl)

theorem kwspecs_scalars : ∀ (l : List (Str × Nargs)) (acc : List (Str × Spec)),
    ∃ ks, Decl.kwspecs (l.map fun k => (k.1, Decl.scalar k.2)) acc = .ok ks
  | [], acc => ⟨acc, rfl⟩
  | (k, n) :: l, acc => by
    simp only [List.map_cons, Decl.kwspecs, Decl.spec, parsePspec]
    exact kwspecs_scalars l _

theorem decl_ok (e : Entry) (name : Str) : ∃ ks, Decl.spec name e.decl =
    .ok (.mk name (e.spelling.getD name) none [{ nargs := .str (S "*"), flags := e.flags.getD [] }] ks) ∧
    Decl.kwspecs ((e.kwargs.getD []).map fun k => (k.1, .scalar k.2)) [] = .ok ks := by
  obtain ⟨ks, h⟩ := kwspecs_scalars (e.kwargs.getD []) []
  refine ⟨ks, ?_, h⟩
  simp [Entry.decl, Decl.spec, parsePspec, mapE, PDict.parse, PDict.spec, h]

theorem addAll_entries : ∀ (table : Table) (s : Spec), ∃ s', Spec.addAll (asCommands table) s = .ok s'
  | [], s => ⟨s, rfl⟩
  | (name, e) :: table, .mk n sp m ps ks => by
    obtain ⟨ks', h, _⟩ := decl_ok e name
    have h' := h
    simp only [Entry.decl] at h'
    simp only [asCommands, List.map_cons, Spec.addAll, Spec.add, Entry.decl, h']
    exact addAll_entries table _

theorem find_nodup {α : Type} : ∀ {l : List (Str × α)}, (l.map (·.1)).Nodup → ∀ k, l.find? (fun p => p.1 = k) = (l.lookup k).map (k, ·)
  | [], _, k => rfl
  | (k', v) :: l, h, k => by
    simp only [List.map_cons, List.nodup_cons] at h
    by_cases e : k' = k
    · subst e; simp
    · have e' : ¬ k = k' := fun h => e h.symm
      have e2 : (k == k') = false := by simpa using e'
      rw [List.find?_cons_of_neg (by simpa using e), find_nodup h.2, List.lookup_cons, e2]

theorem lookup_nodup {α : Type} {k : Str} {v : α} : ∀ {l : List (Str × α)}, (l.map (·.1)).Nodup → (k, v) ∈ l → l.lookup k = some v
  | [], _, h => by simp at h
  | (k', v') :: l, hn, h => by
    simp only [List.map_cons, List.nodup_cons] at hn
    rcases List.mem_cons.1 h with h | h1
    · simp only [Prod.mk.injEq] at h
      obtain ⟨rfl, rfl⟩ := h
      simp
    · have : k ≠ k' := by
        intro e
        exact hn.1 (List.mem_map.2 ⟨(k, v), h1, e⟩)
      have e2 : (k == k') = false := by simpa using this
      rw [List.lookup_cons, e2]
      exact lookup_nodup hn.2 h1

theorem find_reverse {α : Type} {l : List (Str × α)} (h : (l.map (·.1)).Nodup) (k : Str) :
    l.reverse.find? (fun p => p.1 = k) = l.find? (fun p => p.1 = k) := by
  have key : ∀ (a b : List (Str × α)), (a.map (·.1)).Nodup → (∀ x, x ∈ a ↔ x ∈ b) → ∀ x, a.find? (fun p => p.1 = k) = some x →
      (b.map (·.1)).Nodup → b.find? (fun p => p.1 = k) = some x := by
    intro a b _ hm x hx hn
    have h1 : x ∈ b := (hm x).1 (List.mem_of_find?_eq_some hx)
    have h2 : x.1 = k := by simpa using List.find?_some hx
    obtain ⟨k', v⟩ := x
    simp only at h2
    subst h2
    rw [find_nodup hn, lookup_nodup hn h1]
    rfl
  have hr : (l.reverse.map (·.1)).Nodup := by rw [List.map_reverse]; exact (List.reverse_perm _).nodup_iff.2 h
  cases h1 : l.reverse.find? (fun p => p.1 = k) with
  | some x => exact (key _ _ hr (by simp) x h1 h).symm
  | none =>
    cases h2 : l.find? (fun p => p.1 = k) with
    | none => rfl
    | some x =>
      rw [key _ _ h (by simp) x h2 hr] at h1
      simp at h1

theorem find_map {α β : Type} (f : α → β) (l : List (Str × α)) (k : Str) :
    (l.map fun p => (p.1, f p.2)).find? (fun p => p.1 = k) = (l.find? fun p => p.1 = k).map fun p => (p.1, f p.2) := by
  induction l with
  | nil => rfl
  | cons a l ih =>
    by_cases h : a.1 = k
    · simp [h]
    · rw [List.map_cons, List.find?_cons_of_neg (by simpa using h), List.find?_cons_of_neg (by simpa using h), ih]

theorem keywords_nodup (a b : List Str) : ((keywords a b).map (·.1)).Nodup := by
  have : ∀ (v : Nargs) (l : List Str) (d : List (Str × Nargs)), (d.map (·.1)).Nodup →
      ((l.foldl (fun d k => setKey k v d) d).map (·.1)).Nodup := by
    intro v l
    induction l with
    | nil => intro d h; exact h
    | cons k l ih => intro d h; exact ih _ (setKey_nodup k v h)
  exact this _ _ _ (this _ _ _ (by simp))

theorem kwargs_nodup {ctx : Ctx} (hd : PlainDefs ctx) {text : Str} {table : Table} (h : Generates ctx text table) {name : Str} {e : Entry}
    (hm : (name, e) ∈ table) : ((e.kwargs.getD []).map (·.1)).Nodup := by
  obtain ⟨p, hp, hdef, w, params, hw, hn, hsp, h1, h2⟩ := entry_source hd h hm
  by_cases hx : ∃ s ∈ body p, declares s
  · obtain ⟨hna, s, hs, hds, vars, a0, a1, a2, a3, more, v1, v2, v3, hws, x1, x2, x3, hf, hk⟩ := h2 hx
    rw [hk]
    exact keywords_nodup _ _
  · have := (h1 fun s hs hd => hx ⟨s, hs, hd⟩).2.2
    rw [this]
    simp

/-- **C71.** The table is accepted as the declarations of additional commands.  Calls of the commands are
then read with the flags and the keywords of their entries; the number of positional arguments is not
used. -/
theorem generated_loads {explicit : Str → Bool} {vartags : List ((Str → Bool) × List Str)} {text : Str} {table : Table}
    (h : Generates (ctx0 explicit vartags) text table) :
    ∃ sp, userSpec (asCommands table) [] = .ok sp ∧ ∀ name e, (name, e) ∈ table → name ∉ [S "if", S "elseif", S "while"] →
      ∀ called explicit vartags, lower called = name → ∃ kws, lookupParser (commandCtx sp explicit vartags) called =
        .standard (some ⟨e.spelling.getD name, none⟩) [{ nargs := .str (S "*"), flags := e.flags.getD [] }] kws ∧
      ∀ k, k ∉ [S "if", S "elseif", S "while", S "COMMAND"] → kws.lookup k =
        ((e.kwargs.getD []).lookup k).map fun n => .standard (some ⟨k, none⟩) [{ nargs := n, legacy := true }] [] := by
  have hd := ctx0_plain explicit vartags
  have hnames := (generated_names h).1
  obtain ⟨sp, hsp⟩ := addAll_entries table .root
  have hu : userSpec (asCommands table) [] = .ok sp := by simp only [userSpec, hsp, applyOverrides]
  refine ⟨sp, hu, ?_⟩
  intro name e hm hc called explicit' vartags' hcall
  have hlow : ∀ p ∈ table, lower p.1 = p.1 := by
    intro p hp
    obtain ⟨_, _, _, w, _, _, hw, _⟩ := entry_source hd h (name := p.1) (e := p.2) hp
    rw [hw, Layout.lower_lower]
  have hdec : declared (asCommands table) (lower called) = some (name, e.decl) := by
    have e1 : declared (asCommands table) (lower called) = (asCommands table).reverse.find? fun p => p.1 = lower called := by
      rw [declared]
      have : ∀ (l : List (Str × Decl)), (∀ p ∈ l, lower p.1 = p.1) →
          l.find? (fun nd => lower nd.1 = lower called) = l.find? fun p => p.1 = lower called := by
        intro l
        induction l with
        | nil => intro _; rfl
        | cons a l ih =>
          intro hl
          rw [List.find?_cons, List.find?_cons, hl a (by simp), ih fun p hp => hl p (by simp [hp])]
      refine this _ ?_
      intro p hp
      rw [List.mem_reverse, asCommands, List.mem_map] at hp
      obtain ⟨q, hq, rfl⟩ := hp
      exact hlow q hq
    have hnd : ((asCommands table).map (·.1)).Nodup := by
      rw [asCommands, List.map_map]
      exact hnames
    rw [e1, find_reverse hnd, asCommands, find_map, find_nodup hnames, hcall]
    rw [lookup_nodup hnames hm]
    rfl
  have hcc : lower called ≠ S "if" ∧ lower called ≠ S "elseif" ∧ lower called ≠ S "while" := by
    rw [hcall]
    simpa [not_or] using hc
  obtain ⟨s, hs, hl⟩ := ParseDb.declared_command (asCommands table) sp called name e.decl hu hdec hcc explicit' vartags'
  obtain ⟨ks, h1, h2⟩ := decl_ok e name
  rw [h1] at hs
  simp only [Except.ok.injEq] at hs
  subst hs
  refine ⟨_, hl, fun k hk => ?_⟩
  simp only [List.mem_cons, List.not_mem_nil, or_false, not_or] at hk
  rw [funtree_lookup]
  simp only [Spec.kwargs]
  rw [kwspecs_lookup _ _ _ h2, declaredKeyword]
  have hkn := kwargs_nodup hd h hm
  have hkn' : (((e.kwargs.getD []).map fun k => (k.1, Decl.scalar k.2)).map (·.1)).Nodup := by
    rw [List.map_map]
    exact hkn
  rw [find_reverse hkn', find_map, find_nodup hkn]
  cases (e.kwargs.getD []).lookup k with
  | none => rfl
  | some n =>
    simp only [Option.map_some, Decl.spec, parsePspec, Except.toOption, Spec.parser]
    rw [if_neg (by simp [hk.1, hk.2.1, hk.2.2.1]), if_neg hk.2.2.2]
    rfl

/-! ## C72 -/

/-- **C72, partial.** If every dollar sign in the arguments of `set` begins a reference `${name}`, replacing
references ends.  In general it does not, see `generation_hangs`. -/
theorem generation_ends_partial {ctx : Ctx} {text : Str} {tree : Node} (h : parse ctx (Props.Lex.toks text) = .ok tree)
    (hset : ∀ s ∈ commands ctx text, nameOf s = S "set" → ∀ w ∈ words s, Simple w) :
    ∃ N, ∀ fuel ≥ N, processTree fuel tree ≠ .error .endless := by
  rw [commands_tree h] at hset
  have := tableOf_enough (defnsOf tree) (by
    intro d hd
    obtain ⟨p, hp, _, hr⟩ := read_right h hd
    obtain ⟨fs, hb, hperm⟩ := hr.found
    refine defnEntry_enough d (by rw [hr.first]; exact firstWords_ends _) (by simp [hb]) ?_
    intro fs' hfs f hf
    rw [hb] at hfs
    simp only [Except.ok.injEq] at hfs
    subst hfs
    cases f with
    | set name vs =>
      cases vs with
      | none => trivial
      | some vs =>
        have : Found.set name (some vs) ∈ matter fs := by simp [matter, hf]
        rw [hperm.mem_iff] at this
        obtain ⟨s, hs, e⟩ := List.mem_map.1 (List.mem_filter.1 this).1
        have hst := body_sub hp s hs
        obtain ⟨x, hx⟩ := tree_stmts h s hst
        obtain ⟨h1, h2⟩ := found_set e
        rw [Lint.stmt_args h hst] at h2
        rw [Lint.stmt_funName hx, ← Lint.stmt_nameOf hx] at h1
        exact fun v hv => hset s hst h1 v (h2 v hv)
    | noName => trivial
    | parseArgs a => trivial
    | other => trivial)
  obtain ⟨N, hN⟩ := this
  exact ⟨N, fun fuel hf => hN fuel hf []⟩

/-! ## A file for which the program does not end -/

def hangs : Str := S "function(f)\n  set(x \"}}${x${x\")\n  cmake_parse_arguments(a \"${x${x}\" \"\" \"\" ${ARGN})\nendfunction()\n"

def hangVars : Vars := [(S "x", S "}}${x${x")]

theorem hang_round {n : Nat} : ∀ {s : Str}, (∃ l r, s = l ++ (S "${x${x}" ++ r)) ∨ (∃ l r, s = l ++ (S "${x}}" ++ r)) →
    replaceRefs hangVars n s = none := by
  have hx : IsName (S "x") := ⟨by decide, by decide⟩
  have href : S "${x}" = ref (S "x") := by decide
  have hval : valueOf hangVars (S "x") = S "}}${x${x" := by decide
  induction n with
  | zero => intro s _; rfl
  | succ n ih =>
    rintro s (⟨l, r, rfl⟩ | ⟨l, r, rfl⟩)
    · have hr : hasRef (l ++ (S "${x${x}" ++ r)) = true := by
        have : l ++ (S "${x${x}" ++ r) = (l ++ S "${x") ++ (ref (S "x") ++ r) := by
          rw [← href]
          simp [S]
        rw [this]
        exact hasRef_ref hx _ _
      rw [replaceRefs, if_pos hr]
      refine ih (Or.inr ⟨sub hangVars l, S "${x${x" ++ sub hangVars r, ?_⟩)
      change sub hangVars _ = _
      have e1 : S "${x${x}" ++ r = '$' :: (S "{x${x}" ++ r) := rfl
      have e2 : '$' :: (S "{x${x}" ++ r) = S "${x" ++ '$' :: (S "{x}" ++ r) := rfl
      have e3 : '$' :: (S "{x}" ++ r) = ref (S "x") ++ r := by rw [← href]; rfl
      rw [e1, sub_dollar _ _ _ _ (Nat.le_refl _), e2, sub_dollar _ _ _ _ (Nat.le_refl _), e3,
        sub_some (refAt_iff.2 ⟨rfl, hx⟩), hval]
      have e4 : sub hangVars (S "${x") = S "${x" := by decide
      rw [e4]
      rfl
    · have hr : hasRef (l ++ (S "${x}}" ++ r)) = true := by
        have : S "${x}}" ++ r = ref (S "x") ++ (S "}" ++ r) := by rw [← href]; rfl
        rw [this]
        exact hasRef_ref hx _ _
      rw [replaceRefs, if_pos hr]
      refine ih (Or.inl ⟨sub hangVars l ++ S "}}", sub hangVars r, ?_⟩)
      change sub hangVars _ = _
      have e1 : S "${x}}" ++ r = '$' :: (S "{x}}" ++ r) := rfl
      have e3 : '$' :: (S "{x}}" ++ r) = ref (S "x") ++ ('}' :: r) := by rw [← href]; rfl
      rw [e1, sub_dollar _ _ _ _ (Nat.le_refl _), e3, sub_some (refAt_iff.2 ⟨rfl, hx⟩), hval]
      have e5 := sub_close hangVars r 0 [] (by simp)
      have e6 : sub hangVars ([] ++ ['}']) = ['}'] := by decide
      rw [List.nil_append] at e5
      rw [e5, e6, List.append_assoc]
      rfl

def defnsView (ctx : Ctx) (text : Str) : Option (List (Option (List Str) × Option (List Found))) :=
  match parse ctx (Props.Lex.toks text) with
  | .error _ => none
  | .ok t => some ((defnsOf t).map fun d => (d.words.toOption, d.body.toOption))

/-- The context of the examples. -/
def demoCtx : Ctx := ctx0 (startsWith (S "#<")) []

theorem hang_view : defnsView demoCtx hangs = some [(some [S "f"], some [.set (S "x") (some [S "\"}}${x${x\""]),
    .parseArgs [S "a", S "\"${x${x}\"", S "\"\"", S "\"\"", S "${ARGN}"]])] := by
  unfold demoCtx ctx0 commandCtx
  rw [root_fast]
  decide +kernel

/-- **A finding.** Replacing references does not end for a text that is valid CMake code as far as the parser
is concerned: however many rounds are allowed, there are references left. -/
theorem generation_hangs : ∃ tree, parse demoCtx (Props.Lex.toks hangs) = .ok tree ∧ ∀ fuel, processTree fuel tree = .error .endless := by
  have hv := hang_view
  unfold defnsView at hv
  cases h : parse demoCtx (Props.Lex.toks hangs) with
  | error e => rw [h] at hv; simp at hv
  | ok tree =>
    rw [h] at hv
    refine ⟨tree, rfl, fun fuel => ?_⟩
    simp only [Option.some.injEq, List.map_eq_cons_iff, List.map_eq_nil_iff, Prod.mk.injEq] at hv
    obtain ⟨d, l, hd, ⟨h1, h2⟩, rfl⟩ := hv
    obtain ⟨dw, db⟩ := d
    simp only at h1 h2
    cases dw with
    | error e => simp [Except.toOption] at h1
    | ok ws =>
      cases db with
      | error e => simp [Except.toOption] at h2
      | ok fs =>
        simp only [Except.toOption, Option.some.injEq] at h1 h2
        subst h1 h2
        cases fuel with
        | zero => simp [processTree, hd, tableOf, defnEntry, bodyEntry, setVar, replaced, replaceRefs, bind, Except.bind]
        | succ n =>
          have e1 : replaceRefs [] (n + 1) (S "x") = some (S "x") := replaceRefs_plain (by omega) (by decide)
          have e2 : replaceRefs [] (n + 1) (join (S ";") ([S "\"}}${x${x\""].map stripQuotes)) = some (S "}}${x${x") :=
            replaceRefs_plain (by omega) (by decide)
          have e3 : replaceRefs hangVars (n + 1) (stripQuotes (S "\"${x${x}\"")) = none := by
            have : stripQuotes (S "\"${x${x}\"") = [] ++ (S "${x${x}" ++ []) := by decide
            rw [this]
            exact hang_round (Or.inl ⟨_, _, rfl⟩)
          have e4 : setKey (S "x") (S "}}${x${x") [] = hangVars := rfl
          simp only [processTree, hd, tableOf, defnEntry, bodyEntry, setVar, replaced, e1, e2, e4, parseEntry, popList, e3, bind, Except.bind,
            pure, Except.pure]

/-! ## Files that meet the hypotheses -/

/-- The table for a text. -/
def generate (ctx : Ctx) (fuel : Nat) (text : Str) : Option Table :=
  match parse ctx (Props.Lex.toks text) with
  | .error _ => none
  | .ok t => (processTree fuel t).toOption

theorem generate_generates {ctx : Ctx} {fuel : Nat} {text : Str} {table : Table} (h : generate ctx fuel text = some table) :
    Generates ctx text table := by
  unfold generate at h
  split at h
  · simp at h
  · rename_i t ht
    refine ⟨t, fuel, ht, ?_⟩
    cases hp : processTree fuel t with
    | error e => rw [hp] at h; simp [Except.toOption] at h
    | ok v => rw [hp] at h; simpa [Except.toOption] using h

/-- Three definitions, one of them private. -/
def demo : Str := S "function(Foo a b)\n  set(options X y)\n  cmake_parse_arguments(A \"${options}\" \"\" \"p;Q\" ${ARGN})\nendfunction()\nmacro(_bar)\nendmacro()\nfunction(BAZ x)\nendfunction()\n"

def demoTable : Table :=
  [(S "foo", { nargs := .str (S "2+"), flags := some [S "X", S "Y"], kwargs := some [(S "P", .str (S "+")), (S "Q", .str (S "+"))],
               spelling := some (S "Foo") }),
   (S "baz", { nargs := .int 1 })]

theorem demo_table : generate demoCtx 3 demo = some demoTable := by
  unfold demoCtx ctx0 commandCtx
  rw [root_fast]
  decide +kernel

example : ∀ name, name ∈ demoTable.map (·.1) ↔ name.head? ≠ some '_' ∧
    ∃ s ∈ definitions (commands demoCtx demo), ((words s).map lower).head? = some name :=
  (generated_names (generate_generates demo_table)).2

example : ∃ p ∈ places [] (commands demoCtx demo), p.defines = true ∧ ∃ w params, words p.cmd = w :: params ∧ S "baz" = lower w := by
  obtain ⟨p, h1, h2, w, ps, h3, h4, _⟩ := generated_entry (generate_generates demo_table) (name := S "baz") (e := { nargs := .int 1 }) (by simp [demoTable])
  exact ⟨p, h1, h2, w, ps, h3, h4⟩

example : ∃ sp, userSpec (asCommands demoTable) [] = .ok sp := by
  obtain ⟨sp, h, _⟩ := generated_loads (generate_generates demo_table)
  exact ⟨sp, h⟩

theorem simple_plain : ∀ (w : Str), '$' ∉ w → Simple w
  | [], _ => .nil
  | c :: w, h => by
    simp only [List.mem_cons, not_or] at h
    exact .char (fun e => h.1 e.symm) (simple_plain w h.2)

theorem demo_sets : ((commands demoCtx demo).all fun s => nameOf s != S "set" || (words s).all fun w => !w.contains '$') = true := by
  unfold demoCtx ctx0 commandCtx
  rw [root_fast]
  decide +kernel

example : ∃ tree, parse demoCtx (Props.Lex.toks demo) = .ok tree ∧ ∃ N, ∀ fuel ≥ N, processTree fuel tree ≠ .error .endless := by
  obtain ⟨tree, _, h, _⟩ := generate_generates demo_table
  refine ⟨tree, h, generation_ends_partial h ?_⟩
  intro s hs hn w hw
  have := List.all_eq_true.1 demo_sets s hs
  simp only [hn, bne_self_eq_false, Bool.false_or] at this
  exact simple_plain w (by simpa using List.all_eq_true.1 this w hw)

/-- The keywords of a nested function are attributed to the outer one as well. -/
theorem nested_function : generate demoCtx 3 (S "function(f a)\n  function(g)\n    cmake_parse_arguments(A \"X\" \"\" \"\" ${ARGN})\n  endfunction()\nendfunction()\n") =
    some [(S "f", { nargs := .str (S "1+"), flags := some [S "X"], kwargs := some [] }),
          (S "g", { nargs := .str (S "*"), flags := some [S "X"], kwargs := some [] })] := by
  unfold demoCtx ctx0 commandCtx
  rw [root_fast]
  decide +kernel

/-- In the form `cmake_parse_arguments(PARSE_ARGV N prefix flags one many)` the prefix is taken for a flag. -/
theorem parse_argv : generate demoCtx 3 (S "function(f)\n  cmake_parse_arguments(PARSE_ARGV 0 A \"X\" \"Y\" \"Z\")\nendfunction()\n") =
    some [(S "f", { nargs := .str (S "*"), flags := some [S "0"], kwargs := some [(S "A", .int 1), (S "X", .str (S "+"))] })] := by
  unfold demoCtx ctx0 commandCtx
  rw [root_fast]
  decide +kernel

end Verif.Props.Gen
