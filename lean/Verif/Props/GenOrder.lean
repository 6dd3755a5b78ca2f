import Verif.GenOrder
import Verif.Props.Gen

/-!
# Which call gives the flags and keywords, and the values of variables (C71)
-/

namespace Verif.Props.GenOrder
open Verif Py Verif.Lex Verif.Gen
open Verif.Parse hiding Rec
open Verif.Lint (nameOf argsOf Place places inside natStr)
open Verif.Props.LintTree (commands)
open Verif.Props.Gen

/-! ## The specification -/

/-- The commands directly in the body of a definition: up to its end, and not in a block inside it. -/
def direct (p : Place) : List Node :=
  (((places [nameOf p.cmd] p.later).takeWhile fun q => !(q.blocks == [nameOf p.cmd] && nameOf q.cmd == c! "end" ++ nameOf p.cmd)).filter
    (·.blocks == [nameOf p.cmd])).map (·.cmd)

/-- The text `t` is the text `s` with the values of variables for the references `${name}`; there are no
other dollar signs. -/
inductive Expands (val : Str → Str) : Str → Str → Prop
  | nil : Expands val [] []
  | char {c : Char} {s t : Str} : c ≠ '$' → Expands val s t → Expands val (c :: s) (c :: t)
  | ref {v s t : Str} : v ≠ [] → (∀ c ∈ v, Lint.isWordChar c = true) → Expands val s t →
      Expands val ('$' :: '{' :: (v ++ '}' :: s)) (val v ++ t)

/-- A `set` of a normal variable in this scope: no comments or switches in it, no parentheses, no `CACHE` and
no `PARENT_SCOPE`. -/
structure PlainAssign (s : Node) : Prop where
  name : nameOf s = S "set"
  toks : ∀ t ∈ s.toks, isAnyComment t = false ∧ isOnOff t = false ∧ upper t.spelling ≠ S "CACHE" ∧ upper t.spelling ≠ S "PARENT_SCOPE"
  parens : ∀ t ∈ argsOf s, t.type ≠ .lparen

/-- These commands change the values of the variables in this way. -/
inductive Runs : (Str → Str) → List Node → (Str → Str) → Prop
  | nil {val : Str → Str} : Runs val [] val
  | other {val val' : Str → Str} {s : Node} {ss : List Node} : nameOf s ≠ S "set" → Runs val ss val' → Runs val (s :: ss) val'
  | set {val val' : Str → Str} {s : Node} {ss : List Node} {v text : Str} {values : List Str} :
      PlainAssign s → words s = v :: values → '$' ∉ v → values ≠ [] →
      Expands val (join (S ";") (values.map stripQuotes)) text →
      Runs (fun x => if x = v then text else val x) ss val' → Runs val (s :: ss) val'

/-- The text that an argument stands for after these commands. -/
def Means (pre : List Node) (arg text : Str) : Prop :=
  ('$' ∉ arg ∧ text = stripQuotes arg) ∨ ∃ val, Runs (fun _ => []) pre val ∧ Expands val (stripQuotes arg) text

/-- The names of a list `a;b;c`, in capitals and without blanks around them. -/
def names (text : Str) : List Str :=
  ((splitOn ';' text).map fun x => upper (rstripBy isSpace (lstripBy isSpace x))).filter fun x => x != []

/-! ## The values of variables -/

theorem expands_simple {val : Str → Str} {s t : Str} (h : Expands val s t) : Simple s := by
  induction h with
  | nil => exact .nil
  | char h1 _ ih => exact .char h1 ih
  | @ref v s t h1 h2 _ ih =>
    have : '$' :: '{' :: (v ++ '}' :: s) = Gen.ref v ++ s := by simp [Gen.ref]
    rw [this]
    exact .ref ⟨h1, h2⟩ ih

theorem expands_sub {vars : Vars} {s t : Str} (h : Expands (valueOf vars) s t) : sub vars s = t := by
  induction h with
  | nil => rfl
  | @char c s t h1 _ ih =>
    have hr : refAt (c :: s) = none := by
      cases hr : refAt (c :: s) with
      | none => rfl
      | some p =>
        obtain ⟨e, _⟩ := refAt_iff.1 (show refAt (c :: s) = some (p.1, p.2) from hr)
        simp only [Gen.ref, List.cons_append, List.cons.injEq] at e
        exact absurd e.1 h1
    rw [sub_none hr, ih]
  | @ref v s t h1 h2 _ ih =>
    have : '$' :: '{' :: (v ++ '}' :: s) = Gen.ref v ++ s := by simp [Gen.ref]
    rw [this, sub_some (refAt_iff.2 ⟨rfl, h1, h2⟩), ih]

theorem expands_value {vars : Vars} (hf : Gen.Flat vars) {s t : Str} (h : Expands (valueOf vars) s t) : Value vars s t ∧ '$' ∉ t := by
  have hs := expands_simple h
  have hd := hs.sub hf
  rw [expands_sub h] at hd
  refine ⟨?_, hd⟩
  cases hr : hasRef s with
  | false =>
    have hn := hs.noDollar hr
    have : sub vars s = s := by
      have key : ∀ s : Str, '$' ∉ s → sub vars s = s := by
        intro s
        induction s with
        | nil => intro _; rfl
        | cons c s ih =>
          intro hc
          simp only [List.mem_cons, not_or] at hc
          have hr : refAt (c :: s) = none := by
            cases hr : refAt (c :: s) with
            | none => rfl
            | some p =>
              obtain ⟨e, _⟩ := refAt_iff.1 (show refAt (c :: s) = some (p.1, p.2) from hr)
              simp only [Gen.ref, List.cons_append, List.cons.injEq] at e
              exact absurd e.1.symm hc.1
          rw [sub_none hr, ih hc.2]
      exact key s hn
    rw [← expands_sub h, this]
    exact value_plain hn
  | true =>
    refine ⟨2, ?_⟩
    rw [replaceRefs, if_pos hr]
    change replaceRefs vars 1 (sub vars s) = _
    rw [expands_sub h]
    exact replaceRefs_plain (by omega) (noDollar_hasRef hd)

theorem flat_setKey {vars : Vars} (hf : Gen.Flat vars) {k v : Str} (hv : '$' ∉ v) : Flat (setKey k v vars) := by
  intro p hp
  rcases mem_setKey hp with rfl | hp
  · exact hv
  · exact hf p hp

theorem valueOf_setKey (k v : Str) (vars : Vars) : valueOf (setKey k v vars) = fun x => if x = k then v else valueOf vars x := by
  funext x
  rw [valueOf, setKey_lookup]
  split <;> rfl

/-- The variables after what is found. -/
def runVars (fuel : Nat) : Vars → List Found → Except Exc Vars
  | vars, [] => .ok vars
  | vars, .set name values :: fs => do
    let vars ← setVar fuel vars name values
    runVars fuel vars fs
  | vars, _ :: fs => runVars fuel vars fs

theorem runVars_other (fuel : Nat) (vars : Vars) (fs : List Found) : runVars fuel vars (.other :: fs) = runVars fuel vars fs := rfl

theorem runVars_matter (fuel : Nat) : ∀ (fs : List Found) (vars : Vars), runVars fuel vars (matter fs) = runVars fuel vars fs
  | [], vars => rfl
  | .set name values :: fs, vars => by
    have : matter (.set name values :: fs) = .set name values :: matter fs := by simp [matter]
    rw [this, runVars, runVars]
    congr 1
    funext v
    exact runVars_matter fuel fs v
  | .noName :: fs, vars => by
    have : matter (.noName :: fs) = .noName :: matter fs := by simp [matter]
    rw [this, runVars, runVars]
    · exact runVars_matter fuel fs vars
    · simp
    · simp
  | .other :: fs, vars => by
    have : matter (.other :: fs) = matter fs := by simp [matter]
    rw [this, runVars_other, runVars_matter fuel fs vars]
  | .parseArgs b :: fs, vars => by
    have : matter (.parseArgs b :: fs) = .parseArgs b :: matter fs := by simp [matter]
    rw [this, runVars, runVars]
    · exact runVars_matter fuel fs vars
    · simp
    · simp

/-- The variables after the commands directly in the body. -/
theorem runs_vars {fuel : Nat} : ∀ {pre : List Node} {val val' : Str → Str},
    Runs val pre val' → ∀ {vars vars' : Vars}, valueOf vars = val → Gen.Flat vars →
    (∀ c ∈ pre, ∃ x, Stmt x c) → (∀ c ∈ pre, ¬ declares c) →
    (∀ c ∈ pre, ∀ v values, PlainAssign c → words c = v :: values → values ≠ [] → found c = .set v (some values)) →
    runVars fuel vars (pre.map found) = .ok vars' → valueOf vars' = val' ∧ Gen.Flat vars' := by
  intro pre val val' h
  induction h with
  | nil =>
    intro vars vars' hv hf _ _ _ hb
    simp only [List.map_nil, runVars, Except.ok.injEq] at hb
    subst hb
    exact ⟨hv, hf⟩
  | @other val val' s ss hn _ ih =>
    intro vars vars' hv hf hst hnd hfo hb
    obtain ⟨x, hx⟩ := hst s (by simp)
    have ho : found s = .other := by
      rw [Lint.stmt_nameOf hx] at hn
      have hd := hnd s (by simp)
      rw [declares, Lint.stmt_nameOf hx] at hd
      simp [found, Lint.stmt_type hx, Lint.stmt_funName hx, hn, hd]
    rw [List.map_cons, ho, runVars_other] at hb
    exact ih hv hf (fun c hc => hst c (by simp [hc])) (fun c hc => hnd c (by simp [hc])) (fun c hc => hfo c (by simp [hc])) hb
  | @set val val' s ss v text values hp hw hd hne hex _ ih =>
    intro vars vars' hv hf hst hnd hfo hb
    rw [List.map_cons, hfo s (by simp) v values hp hw hne, runVars] at hb
    obtain ⟨vars1, h1, hb'⟩ := gen_bind_ok.1 hb
    clear hb
    rw [setVar] at h1
    obtain ⟨nm, h2, h1⟩ := gen_bind_ok.1 h1
    dsimp only at h1
    obtain ⟨tx, h3, h1⟩ := gen_bind_ok.1 h1
    simp only [pure, Except.pure, Except.ok.injEq] at h1
    subst h1
    have e1 := value_unique (replaced_value h2) (value_plain hd)
    subst hv
    obtain ⟨e2, e3⟩ := expands_value hf hex
    have e2 := value_unique (replaced_value h3) e2
    subst e1 e2
    exact ih (valueOf_setKey _ _ _) (flat_setKey hf e3) (fun c hc => hst c (by simp [hc])) (fun c hc => hnd c (by simp [hc]))
      (fun c hc => hfo c (by simp [hc])) hb'

/-- Whatever comes before it, the first call is read. -/
theorem before_entry {fuel n : Nat} {a : List Str} {rest : List Found} {e : Entry} : ∀ {fs : List Found} {vars : Vars},
    (∀ f ∈ fs, ∀ b, f ≠ .parseArgs b) → bodyEntry fuel n vars (fs ++ .parseArgs a :: rest) = .ok e →
    ∃ vars', runVars fuel vars fs = .ok vars' ∧ parseEntry fuel vars' n a = .ok e
  | [], vars, _, h => ⟨vars, rfl, h⟩
  | .set name values :: fs, vars, hn, h => by
    rw [List.cons_append, bodyEntry] at h
    obtain ⟨v, h1, h⟩ := gen_bind_ok.1 h
    obtain ⟨v', h2, h3⟩ := before_entry (fun f hf => hn f (by simp [hf])) h
    exact ⟨v', by rw [runVars]; exact gen_bind_ok.2 ⟨v, h1, h2⟩, h3⟩
  | .noName :: fs, vars, hn, h => by simp [bodyEntry] at h
  | .other :: fs, vars, hn, h => by
    rw [List.cons_append, bodyEntry] at h
    obtain ⟨v', h2, h3⟩ := before_entry (fun f hf => hn f (by simp [hf])) h
    exact ⟨v', by rw [runVars_other]; exact h2, h3⟩
  | .parseArgs b :: fs, vars, hn, h => absurd rfl (hn _ (by simp) b)

/-- `set` has its own parser. -/
theorem ctx0_set (explicit : Str → Bool) (vartags : List ((Str → Bool) × List Str)) : PlainSet (ctx0 explicit vartags) := by
  have hd := root_fast
  intro name h
  unfold lookupParser
  rw [ctx0, Props.ParseDb.commandCtx_db, hd]
  have h0 : ∀ k, ((Tables.builtins ++ Tables.modules).reverse.find? fun nd => nd.1 = k).isNone = true →
      fastDb [] k = match flowTable.lookup k with | some p => some p | none => funTable.lookup k := by
    intro k hk
    rw [Option.isNone_iff_eq_none] at hk
    simp only [fastDb, declared, List.reverse_nil, List.find?_nil, hk]
    cases flowTable.lookup k <;> rfl
  rw [h, h0 _ (by decide +kernel)]
  rfl

theorem names_listNames (t : Str) : listNames (splitOn ';' t) = names t := rfl

theorem noDollar_strip {a : Str} (ha : '$' ∉ a) : '$' ∉ stripQuotes a := by
  intro hs
  refine ha ?_
  unfold stripQuotes rstripBy lstripBy at hs
  have := (List.dropWhile_sublist _).mem (List.mem_reverse.1 hs)
  exact (List.dropWhile_sublist _).mem (List.mem_reverse.1 this)

theorem argTree_toks {x : Str} {s : Node} (h : Stmt x s) : ∀ t ∈ (Lint.argTree s).toks, t ∈ s.toks := by
  obtain ⟨a, t0, cs, rfl, _⟩ := h
  intro t ht
  rw [Node.toks]
  unfold Lint.argTree at ht
  rw [List.headD_eq_head?_getD] at ht
  cases hg : ((List.filter Lint.isNode (Lint.kidsOf (.node .statement a (mk .funname [.tok t0] :: cs)))).drop 2).head? with
  | none => rw [hg] at ht; simp [mk, toksL] at ht
  | some g =>
    rw [hg] at ht
    have : g ∈ Lint.kidsOf (.node .statement a (mk .funname [.tok t0] :: cs)) :=
      (List.mem_filter.1 (List.mem_of_mem_drop (List.mem_of_mem_head? hg))).1
    exact mem_toks_kid this ht

/-- **C71.** Which call gives the flags and keywords: if `cmake_parse_arguments` is called directly in the
body of the function or macro, and not only in a block inside it, it is the first one of these calls.  Its
arguments stand for their texts, with the values that the `set` commands directly in the body and before it
gave to the variables. -/
theorem generated_first {explicit : Str → Bool} {vartags : List ((Str → Bool) × List Str)} {text : Str} {table : Table}
    (h : Generates (ctx0 explicit vartags) text table) {name : Str} {e : Entry} (hm : (name, e) ∈ table) :
    ∃ p ∈ places [] (commands (ctx0 explicit vartags) text), p.defines = true ∧
      ∃ w params, words p.cmd = w :: params ∧ name = lower w ∧
      ∀ pre s post, direct p = pre ++ s :: post → declares s → (∀ c ∈ pre, ¬ declares c) →
        e.nargs = orMore params.length ∧
        ∃ a0 flags ones many more, words s = a0 :: flags :: ones :: many :: more ∧
        (∀ f, Means pre flags f → e.flags = some (names f)) ∧
        (∀ o m, Means pre ones o → Means pre many m → ∃ kws, e.kwargs = some kws ∧
          ∀ k, kws.lookup k = if k ∈ names m then some (.str (S "+")) else if k ∈ names o then some (.int 1) else none) := by
  obtain ⟨tree, fuel, hp, ht⟩ := h
  rw [commands_tree hp]
  have hd := ctx0_plain explicit vartags
  obtain ⟨_, h2, _, _⟩ := tableOf_spec fuel (defnsOf tree) [] table ht (by simp)
  rcases h2 _ hm with hm | ⟨d, hdm, he, hu⟩
  · simp at hm
  · obtain ⟨w, params, fs, e', hw, hb, hbe, e2⟩ := defnEntry_ok he
    obtain ⟨sp, hsp, rfl⟩ := List.mem_map.1 hdm
    obtain ⟨p, hpf, hsd⟩ := (tree_defs hp).right sp ((findIn_perm _ _).mem_iff.1 hsp)
    obtain ⟨hpm, hdef⟩ := List.mem_filter.1 hpf
    have hr : Read (ctx0 explicit vartags) p (defnOf sp) := sameDef_read hsd
    obtain ⟨x, b, bs, en, K, hx, rfl, hs, hq, hl, hi⟩ := hsd.ex
    have hname : nameOf p.cmd = lower x := Lint.stmt_nameOf hs
    rw [hl, hname] at hi
    obtain ⟨rest, hfirst⟩ := direct_first (b := b) hx ⟨_, hs⟩ hq hi
    have hdir : direct p = directIn (lower x) (stmtsL bs ++ en :: K) := by
      rw [direct, directIn, hname, hl]
    rw [← hdir] at hfirst
    simp only [defnOf] at hb
    have hb : bodyFound (.node .body b bs) = fs := by
      simpa [Lint.hasType] using hb
    rw [hb] at hfirst
    simp only [Prod.mk.injEq] at e2
    obtain ⟨e1, e2⟩ := e2
    subst e2
    refine ⟨p, hpm, hdef, w, params, words_of_read hd hp hpm hdef hr hw, e1, ?_⟩
    intro pre s post hds hdecl hpre
    have hsub : ∀ c ∈ direct p, c ∈ stmtsOf tree := by
      intro c hc
      obtain ⟨q, hq, rfl⟩ := List.mem_map.1 hc
      exact later_sub _ [] p hpm _ (Lint.places_mem _ _ q ((List.takeWhile_sublist _).mem (List.mem_filter.1 hq).1))
    have hst : ∀ c ∈ direct p, ∃ x, Stmt x c := fun c hc => tree_stmts hp c (hsub c hc)
    have hsm : s ∈ direct p := by rw [hds]; simp
    have hprem : ∀ c ∈ pre, c ∈ direct p := fun c hc => by rw [hds]; simp [hc]
    obtain ⟨y, hy⟩ := hst s hsm
    have hfs : found s = .parseArgs (words s) := (found_parse hy).2 ⟨hdecl, by rw [Lint.stmt_args hp (hsub s hsm)]; rfl⟩
    have hmat : matter fs = matter (pre.map found) ++ .parseArgs (words s) :: (matter (post.map found) ++ rest) := by
      rw [hfirst, hds, List.map_append, List.map_cons, hfs, matter_append]
      simp [matter]
    rw [bodyEntry_matter, hmat] at hbe
    have hnp : ∀ c ∈ pre, ∀ b, found c ≠ .parseArgs b := by
      intro c hc b hb
      obtain ⟨z, hz⟩ := hst c (hprem c hc)
      exact hpre c hc ((found_parse hz).1 hb).1
    obtain ⟨vars, hrv, hpe⟩ := before_entry (by
      intro f hf b
      obtain ⟨c, hc, rfl⟩ := List.mem_map.1 (List.mem_filter.1 hf).1
      exact hnp c hc b) hbe
    have hset : ∀ c ∈ pre, ∀ v values, PlainAssign c → words c = v :: values → values ≠ [] → found c = .set v (some values) := by
      intro c hc v values hpa hwc hne
      obtain ⟨z, hz⟩ := hst c (hprem c hc)
      have hcs := hsub c (hprem c hc)
      obtain ⟨vt, vals, ha, hv1, hv2⟩ := List.map_eq_cons_iff.1 hwc
      subst hv1 hv2
      refine found_plain (ctx0_set explicit vartags) hp hcs hz ?_ ?_ ha ?_
      · rw [Lint.stmt_funName hz, ← Lint.stmt_nameOf hz]; exact hpa.name
      · intro u hu
        have hus := hpa.toks u (argTree_toks hz u hu)
        refine ⟨hus.1, hus.2.1, ?_, hus.2.2⟩
        intro hlp
        refine hpa.parens u ?_ hlp
        rw [← Lint.stmt_args hp hcs, Lint.semToks, semantics, List.mem_filter]
        exact ⟨hu, by simp [isSemantic, hus.1, hus.2.1, isWs, hlp]⟩
      · intro e; rw [e] at hne; simp at hne
    -- the values of the arguments
    have hmeans : ∀ {arg t : Str}, Means pre arg t → Value vars (stripQuotes arg) t := by
      intro arg t hmn
      rcases hmn with ⟨hnd, rfl⟩ | ⟨val, hrun, hex⟩
      · exact value_plain (noDollar_strip hnd)
      · rw [runVars_matter] at hrv
        obtain ⟨hv, hf⟩ := runs_vars hrun (vars := []) (by funext x; rfl) (by simp [Gen.Flat])
          (fun c hc => hst c (hprem c hc)) hpre hset hrv
        subst hv
        exact (expands_value hf hex).1
    obtain ⟨a0, a1, a2, a3, more, v1, v2, v3, hws, x1, x2, x3, rfl⟩ := parseEntry_ok hpe
    refine ⟨rfl, a0, a1, a2, a3, more, hws, ?_, ?_⟩
    · intro f hmn
      rw [value_unique (hmeans hmn) x1]
      rfl
    · intro o m hmo hmm
      refine ⟨_, rfl, fun k => ?_⟩
      rw [keywords_lookup, value_unique (hmeans hmo) x2, value_unique (hmeans hmm) x3]
      rfl

/-! ## A file that meets the hypotheses -/

def plainly (s : Node) : Bool :=
  nameOf s == S "set" && (s.toks.all fun t => !isAnyComment t && !isOnOff t && upper t.spelling != S "CACHE" && upper t.spelling != S "PARENT_SCOPE") &&
    (argsOf s).all fun t => t.type != .lparen

theorem plainly_iff {s : Node} (h : plainly s = true) : PlainAssign s := by
  simp only [plainly, Bool.and_eq_true, beq_iff_eq, List.all_eq_true, Bool.not_eq_true', bne_iff_ne, ne_eq] at h
  exact ⟨h.1.1, fun t ht => ⟨(h.1.2 t ht).1.1.1, (h.1.2 t ht).1.1.2, (h.1.2 t ht).1.2, (h.1.2 t ht).2⟩, h.2⟩

/-- A call in a block comes earlier in the file than the one that is used, and so does a `set`. -/
def sample : Str := S "function(Foo a b)\n  set(options X)\n  set(all ${options} y)\n  if(a)\n    set(all Z)\n    cmake_parse_arguments(B \"V\" \"\" \"\" ${ARGN})\n  endif()\n  cmake_parse_arguments(A \"${all};W\" \"\" \"p;Q\" ${ARGN})\nendfunction()\n"

def sampleEntry : Gen.Entry :=
  { nargs := .str (S "2+"), flags := some [S "X", S "Y", S "W"], kwargs := some [(S "P", .str (S "+")), (S "Q", .str (S "+"))], spelling := some (S "Foo") }

theorem sample_table : generate demoCtx 3 sample = some [(S "foo", sampleEntry)] := by
  unfold demoCtx ctx0 commandCtx
  rw [root_fast]
  decide +kernel

theorem sample_direct : ((places [] (commands demoCtx sample)).filter fun p => p.defines).map
    (fun p => (direct p).map fun s => (nameOf s, words s, plainly s)) =
    [[(S "set", [S "options", S "X"], true), (S "set", [S "all", S "${options}", S "y"], true), (S "if", [S "a"], false),
      (S "cmake_parse_arguments", [S "A", S "\"${all};W\"", S "\"\"", S "\"p;Q\"", S "${ARGN}"], false)]] := by
  unfold demoCtx ctx0 commandCtx
  rw [root_fast]
  decide +kernel

example : sampleEntry.flags = some (names (S "X;y;W")) := by
  obtain ⟨p, hp, hd, w, params, hw, hn, hall⟩ := generated_first (generate_generates sample_table)
    (name := S "foo") (e := sampleEntry) (by simp)
  have hm : (direct p).map (fun s => (nameOf s, words s, plainly s)) ∈ ((places [] (commands demoCtx sample)).filter fun p => p.defines).map
      (fun p => (direct p).map fun s => (nameOf s, words s, plainly s)) := List.mem_map.2 ⟨p, List.mem_filter.2 ⟨hp, hd⟩, rfl⟩
  rw [sample_direct, List.mem_singleton] at hm
  obtain ⟨s1, l1, e1, h1, hm⟩ := List.map_eq_cons_iff.1 hm
  obtain ⟨s2, l2, rfl, h2, hm⟩ := List.map_eq_cons_iff.1 hm
  obtain ⟨s3, l3, rfl, h3, hm⟩ := List.map_eq_cons_iff.1 hm
  obtain ⟨s4, l4, rfl, h4, hm⟩ := List.map_eq_cons_iff.1 hm
  simp only [Prod.mk.injEq] at h1 h2 h3 h4
  obtain ⟨_, a0, flags, ones, many, more, hws, hfl, _⟩ := hall [s1, s2, s3] s4 l4 e1 h4.1 (by
    intro c hc hd
    simp only [List.mem_cons, List.not_mem_nil, or_false] at hc
    unfold declares at hd
    rcases hc with rfl | rfl | rfl
    · rw [h1.1] at hd; exact absurd hd (by decide)
    · rw [h2.1] at hd; exact absurd hd (by decide)
    · rw [h3.1] at hd; exact absurd hd (by decide))
  rw [h4.2.1] at hws
  simp only [List.cons.injEq] at hws
  obtain ⟨_, rfl, _⟩ := hws
  refine hfl _ (Or.inr ⟨fun x => if x = S "all" then S "X;y" else if x = S "options" then S "X" else [], ?_, ?_⟩)
  · refine .set (plainly_iff h1.2.2) h1.2.1 (by decide) (by decide) (text := S "X") ?_ ?_
    · exact .char (by decide) .nil
    · refine .set (plainly_iff h2.2.2) h2.2.1 (by decide) (by decide) (text := S "X;y") ?_ ?_
      · exact .ref (v := S "options") (s := S ";y") (t := S ";y") (by decide) (by decide) (.char (by decide) (.char (by decide) .nil))
      · exact .other (by rw [h3.1]; decide) .nil
  · exact .ref (v := S "all") (s := S ";W") (t := S ";W") (by decide) (by decide) (.char (by decide) (.char (by decide) .nil))

end Verif.Props.GenOrder
