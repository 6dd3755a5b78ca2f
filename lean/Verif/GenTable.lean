import Verif.GenFind
import Verif.GenRefs
import Verif.SpecLemmas

/-!
# The generated table (lemmas for cmake-genparsers)
-/

namespace Verif.Gen
open Verif Py Lex Parse
open Verif.Lint (Spot kidsOf semToks isNode hasType funName isCall argTree roleOf argsOf nameOf Place places inside stmt_nameOf
  stmt_funName varName)

/-! ## Dictionaries -/

theorem setKey_keys {α : Type} (k : Str) (v : α) (l : List (Str × α)) :
    (setKey k v l).map (·.1) = if k ∈ l.map (·.1) then l.map (·.1) else l.map (·.1) ++ [k] := by
  induction l with
  | nil => simp [setKey]
  | cons p l ih =>
    obtain ⟨k', v'⟩ := p
    simp only [setKey]
    split
    · rename_i e
      subst e
      simp
    · rename_i e
      simp only [List.map_cons, ih, List.mem_cons]
      by_cases h : k ∈ l.map (·.1)
      · simp [h]
      · have : ¬ (k = k' ∨ k ∈ l.map (·.1)) := by
          rintro (h1 | h1)
          · exact e h1.symm
          · exact h h1
        rw [if_neg h, if_neg this]
        rfl

theorem setKey_nodup {α : Type} (k : Str) (v : α) {l : List (Str × α)} (h : (l.map (·.1)).Nodup) :
    ((setKey k v l).map (·.1)).Nodup := by
  rw [setKey_keys]
  split
  · exact h
  · rename_i hk
    rw [List.nodup_append]
    refine ⟨h, by simp, ?_⟩
    intro a ha b hb
    simp only [List.mem_singleton] at hb
    subst hb
    rintro rfl
    exact hk ha

theorem mem_setKey {α : Type} {k : Str} {v : α} {l : List (Str × α)} {p : Str × α} (h : p ∈ setKey k v l) : p = (k, v) ∨ p ∈ l := by
  induction l with
  | nil => simpa [setKey] using h
  | cons q l ih =>
    obtain ⟨k', v'⟩ := q
    simp only [setKey] at h
    split at h
    · rcases List.mem_cons.1 h with h | h
      · exact Or.inl h
      · exact Or.inr (by simp [h])
    · rcases List.mem_cons.1 h with h | h
      · exact Or.inr (by simp [h])
      · rcases ih h with h | h
        · exact Or.inl h
        · exact Or.inr (by simp [h])

theorem key_setKey {α : Type} (k : Str) (v : α) (l : List (Str × α)) : k ∈ (setKey k v l).map (·.1) := by
  rw [setKey_keys]
  split
  · assumption
  · simp

theorem keys_mono {α : Type} (k : Str) (v : α) (l : List (Str × α)) {x : Str} (h : x ∈ l.map (·.1)) : x ∈ (setKey k v l).map (·.1) := by
  rw [setKey_keys]
  split
  · exact h
  · exact List.mem_append_left _ h

/-! ## The table -/

theorem gen_bind_ok {α β : Type} {r : Except Exc α} {f : α → Except Exc β} {y : β} :
    (r >>= f) = .ok y ↔ ∃ x, r = .ok x ∧ f x = .ok y := by
  cases r with
  | error e => simp [bind, Except.bind]
  | ok x => simp [bind, Except.bind]

theorem tableOf_spec (fuel : Nat) : ∀ (ds : List Defn) (out table : Table), tableOf fuel out ds = .ok table →
    (out.map (·.1)).Nodup →
    (table.map (·.1)).Nodup ∧
    (∀ p ∈ table, p ∈ out ∨ ∃ d ∈ ds, defnEntry fuel d = .ok p ∧ startsWith (S "_") p.1 = false) ∧
    (∀ x ∈ out.map (·.1), x ∈ table.map (·.1)) ∧
    (∀ d ∈ ds, ∃ p, defnEntry fuel d = .ok p ∧ (startsWith (S "_") p.1 = false → p.1 ∈ table.map (·.1)))
  | [], out, table, h, hn => by
    simp only [tableOf, Except.ok.injEq] at h
    subst h
    exact ⟨hn, fun p hp => Or.inl hp, fun x hx => hx, by simp⟩
  | d :: ds, out, table, h, hn => by
    simp only [tableOf, gen_bind_ok] at h
    obtain ⟨⟨name, e⟩, h1, h2⟩ := h
    cases hu : startsWith (S "_") name with
    | true =>
      rw [hu] at h2
      simp only [if_true] at h2
      obtain ⟨a, b, c, f⟩ := tableOf_spec fuel ds _ _ h2 hn
      refine ⟨a, ?_, c, ?_⟩
      · intro p hp
        rcases b p hp with h | ⟨d', hd, h⟩
        · exact Or.inl h
        · exact Or.inr ⟨d', by simp [hd], h⟩
      · intro d' hd
        rcases List.mem_cons.1 hd with rfl | hd
        · exact ⟨_, h1, by simp [hu]⟩
        · exact f d' hd
    | false =>
      rw [hu] at h2
      simp only [Bool.false_eq_true, if_false] at h2
      obtain ⟨a, b, c, f⟩ := tableOf_spec fuel ds _ _ h2 (setKey_nodup name e hn)
      refine ⟨a, ?_, fun x hx => c x (keys_mono _ _ _ hx), ?_⟩
      · intro p hp
        rcases b p hp with h | ⟨d', hd, h⟩
        · rcases mem_setKey h with h | h
          · subst h
            exact Or.inr ⟨d, by simp, h1, hu⟩
          · exact Or.inl h
        · exact Or.inr ⟨d', by simp [hd], h⟩
      · intro d' hd
        rcases List.mem_cons.1 hd with rfl | hd
        · exact ⟨_, h1, fun _ => c _ (key_setKey _ _ _)⟩
        · exact f d' hd

/-- `spelling` is kept for names of mixed case. -/
def mixed (w : Str) : Option Str := if lower w ≠ w ∧ upper w ≠ w then some w else none

theorem defnEntry_ok {fuel : Nat} {d : Defn} {p : Str × Entry} (h : defnEntry fuel d = .ok p) :
    ∃ w params fs e, d.words = .ok (w :: params) ∧ d.body = .ok fs ∧ bodyEntry fuel params.length [] fs = .ok e ∧
      p = (lower w, { e with spelling := mixed w }) := by
  simp only [defnEntry, gen_bind_ok] at h
  obtain ⟨words, h1, h⟩ := h
  cases words with
  | nil => simp at h
  | cons w params =>
    simp only [gen_bind_ok] at h
    obtain ⟨fs, h2, e, h3, h⟩ := h
    simp only [pure, Except.pure, Except.ok.injEq] at h
    exact ⟨w, params, fs, e, h1, h2, h3, h.symm⟩

/-! ## Bodies -/

theorem bodyEntry_matter (fuel n : Nat) : ∀ (fs : List Found) (vars : Vars), bodyEntry fuel n vars fs = bodyEntry fuel n vars (matter fs)
  | [], vars => rfl
  | .other :: fs, vars => by
    have : matter (.other :: fs) = matter fs := by simp [matter]
    rw [this, bodyEntry, bodyEntry_matter fuel n fs vars]
  | .noName :: fs, vars => by
    have : matter (.noName :: fs) = .noName :: matter fs := by simp [matter]
    rw [this, bodyEntry, bodyEntry]
  | .parseArgs a :: fs, vars => by
    have : matter (.parseArgs a :: fs) = .parseArgs a :: matter fs := by simp [matter]
    rw [this, bodyEntry, bodyEntry]
  | .set a b :: fs, vars => by
    have : matter (.set a b :: fs) = .set a b :: matter fs := by simp [matter]
    rw [this]
    unfold bodyEntry
    congr 1
    funext v
    exact bodyEntry_matter fuel n fs v

/-- Without `cmake_parse_arguments` there is only the number of parameters. -/
theorem bodyEntry_none {fuel n : Nat} : ∀ {fs : List Found} {vars : Vars} {e : Entry}, bodyEntry fuel n vars fs = .ok e →
    (∀ a, .parseArgs a ∉ fs) → e = { nargs := .int n }
  | [], vars, e, h, _ => by
    simp only [bodyEntry, Except.ok.injEq] at h
    exact h.symm
  | .other :: fs, vars, e, h, hn => by
    rw [bodyEntry] at h
    exact bodyEntry_none h fun a ha => hn a (by simp [ha])
  | .noName :: fs, vars, e, h, _ => by simp [bodyEntry] at h
  | .parseArgs a :: fs, vars, e, _, hn => absurd (by simp) (hn a)
  | .set a b :: fs, vars, e, h, hn => by
    simp only [bodyEntry, gen_bind_ok] at h
    obtain ⟨v, _, h⟩ := h
    exact bodyEntry_none h fun a ha => hn a (by simp [ha])

/-- With it, the entry comes from one of them. -/
theorem bodyEntry_some {fuel n : Nat} : ∀ {fs : List Found} {vars : Vars} {e : Entry}, bodyEntry fuel n vars fs = .ok e →
    (∃ a, .parseArgs a ∈ fs) → ∃ a v, .parseArgs a ∈ fs ∧ parseEntry fuel v n a = .ok e
  | [], vars, e, _, hn => by simp at hn
  | .other :: fs, vars, e, h, hn => by
    rw [bodyEntry] at h
    obtain ⟨a, v, h1, h2⟩ := bodyEntry_some h (by simpa using hn)
    exact ⟨a, v, by simp [h1], h2⟩
  | .noName :: fs, vars, e, h, _ => by simp [bodyEntry] at h
  | .parseArgs a :: fs, vars, e, h, _ => ⟨a, vars, by simp, h⟩
  | .set a b :: fs, vars, e, h, hn => by
    simp only [bodyEntry, gen_bind_ok] at h
    obtain ⟨v, _, h⟩ := h
    obtain ⟨a, v, h1, h2⟩ := bodyEntry_some h (by simpa using hn)
    exact ⟨a, v, by simp [h1], h2⟩

/-- The value of a text, if the rounds suffice. -/
def Value (vars : Vars) (s v : Str) : Prop := ∃ n, replaceRefs vars n s = some v

theorem value_unique {vars : Vars} {s v v' : Str} (h : Value vars s v) (h' : Value vars s v') : v = v' := by
  obtain ⟨n, h⟩ := h
  obtain ⟨m, h'⟩ := h'
  have h1 := replaceRefs_mono h (Nat.le_max_left n m)
  have h2 := replaceRefs_mono h' (Nat.le_max_right n m)
  rw [h1] at h2
  simpa using h2

theorem value_plain {vars : Vars} {s : Str} (h : '$' ∉ s) : Value vars s s := ⟨1, replaceRefs_plain (by omega) (noDollar_hasRef h)⟩

theorem replaced_value {fuel : Nat} {vars : Vars} {s v : Str} (h : replaced fuel vars s = .ok v) : Value vars s v := by
  unfold replaced at h
  split at h
  · simp at h
  · rename_i v' e
    simp only [Except.ok.injEq] at h
    exact ⟨fuel, by rw [e, h]⟩

/-- The keywords of `one` are followed by one value, those of `many` by at least one. -/
def keywords (ones many : List Str) : List (Str × Nargs) :=
  many.foldl (fun d k => setKey k (.str (S "+")) d) (ones.foldl (fun d k => setKey k (.int 1) d) [])

theorem foldl_lookup (v : Nargs) (k : Str) : ∀ (l : List Str) (d : List (Str × Nargs)),
    (l.foldl (fun d k => setKey k v d) d).lookup k = if k ∈ l then some v else d.lookup k
  | [], d => by simp
  | x :: l, d => by
    rw [List.foldl_cons, foldl_lookup v k l, setKey_lookup]
    by_cases h1 : k ∈ l
    · simp [h1]
    · by_cases h2 : k = x
      · subst h2; simp [h1]
      · simp [h1, h2]

theorem keywords_lookup (ones many : List Str) (k : Str) : (keywords ones many).lookup k =
    if k ∈ many then some (.str (S "+")) else if k ∈ ones then some (.int 1) else none := by
  rw [keywords, foldl_lookup, foldl_lookup]
  simp

theorem parseEntry_ok {fuel : Nat} {vars : Vars} {n : Nat} {args : List Str} {e : Entry} (h : parseEntry fuel vars n args = .ok e) :
    ∃ a0 a1 a2 a3 more v1 v2 v3, args = a0 :: a1 :: a2 :: a3 :: more ∧ Value vars (stripQuotes a1) v1 ∧
      Value vars (stripQuotes a2) v2 ∧ Value vars (stripQuotes a3) v3 ∧
      e = { nargs := atLeast n, flags := some (listNames (splitOn ';' v1)),
            kwargs := some (keywords (listNames (splitOn ';' v2)) (listNames (splitOn ';' v3))) } := by
  have pop : ∀ {l : List Str} {r : List Str × List Str}, popList fuel vars l = .ok r →
      ∃ a more v, l = a :: more ∧ Value vars (stripQuotes a) v ∧ r = (splitOn ';' v, more) := by
    intro l r h
    cases l with
    | nil => simp [popList] at h
    | cons a more =>
      simp only [popList, gen_bind_ok] at h
      obtain ⟨v, h1, h2⟩ := h
      simp only [pure, Except.pure, Except.ok.injEq] at h2
      exact ⟨a, more, v, rfl, replaced_value h1, h2.symm⟩
  cases args with
  | nil => simp [parseEntry] at h
  | cons a0 args =>
    simp only [parseEntry, gen_bind_ok] at h
    obtain ⟨⟨l1, m1⟩, h1, ⟨l2, m2⟩, h2, ⟨l3, m3⟩, h3, h⟩ := h
    obtain ⟨a1, r1, v1, rfl, x1, e1⟩ := pop h1
    simp only [Prod.mk.injEq] at e1
    obtain ⟨rfl, rfl⟩ := e1
    obtain ⟨a2, r2, v2, rfl, x2, e2⟩ := pop h2
    simp only [Prod.mk.injEq] at e2
    obtain ⟨rfl, rfl⟩ := e2
    obtain ⟨a3, r3, v3, rfl, x3, e3⟩ := pop h3
    simp only [Prod.mk.injEq] at e3
    obtain ⟨rfl, rfl⟩ := e3
    simp only [pure, Except.pure, Except.ok.injEq] at h
    exact ⟨a0, a1, a2, a3, _, v1, v2, v3, rfl, x1, x2, x3, h.symm⟩

/-! ## What is found in commands -/

theorem found_parse {x : Str} {s : Node} (h : Stmt x s) : ∀ {a : List Str}, found s = .parseArgs a ↔
    nameOf s = S "cmake_parse_arguments" ∧ a = (semToks (argTree s)).map (·.spelling) := by
  intro a
  have hs : hasType .statement s = true := by
    obtain ⟨a, t, cs, rfl, _⟩ := h
    rfl
  have hn : funName s = nameOf s := by rw [stmt_funName h, stmt_nameOf h]
  unfold found
  rw [hs, hn]
  simp only [Bool.true_eq_false, if_false]
  by_cases h1 : nameOf s = S "set"
  · have : nameOf s ≠ S "cmake_parse_arguments" := by rw [h1]; decide
    simp only [h1, if_true]
    constructor
    · intro h
      exfalso
      split at h
      · split at h <;> simp at h
      · simp at h
    · rintro ⟨h, _⟩
      exact absurd h (by decide)
  · simp only [h1, if_false]
    by_cases h2 : nameOf s = S "list"
    · simp only [h2, if_true]
      constructor
      · intro h; simp at h
      · rintro ⟨h, _⟩
        exact absurd h (by decide)
    · simp only [h2, if_false]
      by_cases h3 : nameOf s = S "cmake_parse_arguments"
      · simp only [h3, if_true, Found.parseArgs.injEq, true_and]
        exact eq_comm
      · simp [h3]

theorem found_set {s : Node} {name : Str} {vs : List Str} (h : found s = .set name (some vs)) :
    funName s = S "set" ∧ ∀ v ∈ vs, v ∈ (semToks (argTree s)).map (·.spelling) := by
  unfold found at h
  split at h
  · simp at h
  · split at h
    · rename_i hf
      refine ⟨hf, ?_⟩
      split at h
      · split at h
        · simp at h
        · rename_i t ht
          simp only [Found.set.injEq, Option.map_eq_some_iff] at h
          obtain ⟨_, g, hg, rfl⟩ := h
          intro v hv
          obtain ⟨t, ht, rfl⟩ := List.mem_map.1 hv
          refine List.mem_map.2 ⟨t, ?_, rfl⟩
          unfold valueGroup at hg
          have hm := List.mem_of_getLast? hg
          have hk : g ∈ kidsOf (argTree s) := (List.mem_filter.1 (List.mem_of_mem_drop (List.mem_filter.1 hm).1)).1
          rw [semToks, semantics, List.mem_filter] at ht ⊢
          refine ⟨?_, ht.2⟩
          have : ∀ (l : List Node), g ∈ l → t ∈ toksL l := by
            intro l
            induction l with
            | nil => simp
            | cons c l ih =>
              intro hc
              rw [toksL, List.mem_append]
              rcases List.mem_cons.1 hc with rfl | hc
              · exact Or.inl ht.1
              · exact Or.inr (ih hc)
          generalize argTree s = n at hk
          cases n with
          | tok t => simp [kidsOf] at hk
          | node ty a cs => rw [Node.toks]; exact this cs hk
      · simp at h
    · split at h
      · simp at h
      · split at h <;> simp at h

/-! ## It ends -/

/-- The values that are set are plain but for references. -/
def Tame : Found → Prop
  | .set _ (some vs) => ∀ v ∈ vs, Simple v
  | _ => True

/-- For all rounds from some number on. -/
def Enough (P : Nat → Prop) : Prop := ∃ N, ∀ n ≥ N, P n

theorem Enough.and {P Q : Nat → Prop} (h : Enough P) (h' : Enough Q) : Enough fun n => P n ∧ Q n := by
  obtain ⟨N, h⟩ := h
  obtain ⟨M, h'⟩ := h'
  exact ⟨max N M, fun n hn => ⟨h n (by omega), h' n (by omega)⟩⟩

theorem Enough.mono {P Q : Nat → Prop} (h : Enough P) (hpq : ∀ n, P n → Q n) : Enough Q := by
  obtain ⟨N, h⟩ := h
  exact ⟨N, fun n hn => hpq n (h n hn)⟩

theorem replaced_enough {vars : Vars} (hf : Flat vars) (s : Str) : ∃ v, Enough fun n => replaced n vars s = .ok v := by
  obtain ⟨v, hv⟩ := replaceRefs_ends hf (s.count '$' + 1) s (by omega)
  refine ⟨v, s.count '$' + 1, fun n hn => ?_⟩
  simp only [replaced, replaceRefs_mono hv hn]

theorem setVar_enough {vars : Vars} (hf : Flat vars) (name : Str) (values : Option (List Str)) (ht : Tame (.set name values)) :
    ∃ vars', Flat vars' ∧ Enough fun n => setVar n vars name values = .ok vars' := by
  obtain ⟨k, hk⟩ := replaced_enough hf name
  cases values with
  | none =>
    refine ⟨popKey k vars, ?_, hk.mono fun n h => by simp [setVar, h, bind, Except.bind, pure, Except.pure]⟩
    intro p hp
    exact hf p (List.mem_filter.1 hp).1
  | some vs =>
    obtain ⟨v, hv⟩ := replaced_enough hf (join (S ";") (vs.map stripQuotes))
    refine ⟨setKey k v vars, ?_, (hk.and hv).mono fun n h => by simp [setVar, h.1, h.2, bind, Except.bind, pure, Except.pure]⟩
    have hs : Simple (join (S ";") (vs.map stripQuotes)) := by
      refine Simple.join ?_
      intro s hs
      obtain ⟨t, ht', rfl⟩ := List.mem_map.1 hs
      exact (ht t ht').strip
    intro p hp
    rcases mem_setKey hp with rfl | hp
    · obtain ⟨N, hN⟩ := hv
      obtain ⟨m, hm⟩ := replaced_value (hN N (Nat.le_refl _))
      exact hs.value hf hm
    · exact hf p hp

theorem popList_enough {vars : Vars} (hf : Flat vars) (l : List Str) : ∃ r, Enough fun n => popList n vars l = r ∧ r ≠ .error .endless := by
  cases l with
  | nil => exact ⟨.error .index, 0, fun n _ => ⟨rfl, by simp⟩⟩
  | cons a l =>
    obtain ⟨v, hv⟩ := replaced_enough hf (stripQuotes a)
    refine ⟨.ok (splitOn ';' v, l), hv.mono fun n h => ⟨by simp [popList, h, bind, Except.bind, pure, Except.pure], by simp⟩⟩

theorem parseEntry_enough {vars : Vars} (hf : Flat vars) (k : Nat) (args : List Str) :
    Enough fun n => parseEntry n vars k args ≠ .error .endless := by
  cases args with
  | nil => exact ⟨0, fun n _ => by simp [parseEntry]⟩
  | cons a0 l =>
    obtain ⟨r1, h1⟩ := popList_enough hf l
    cases r1 with
    | error e =>
      refine h1.mono fun n h => ?_
      simp only [parseEntry, h.1, bind, Except.bind]
      exact fun he => h.2 (by simpa using he)
    | ok p1 =>
      obtain ⟨r2, h2⟩ := popList_enough hf p1.2
      cases r2 with
      | error e =>
        refine (h1.and h2).mono fun n h => ?_
        simp only [parseEntry, h.1.1, h.2.1, bind, Except.bind]
        exact fun he => h.2.2 (by simpa using he)
      | ok p2 =>
        obtain ⟨r3, h3⟩ := popList_enough hf p2.2
        cases r3 with
        | error e =>
          refine ((h1.and h2).and h3).mono fun n h => ?_
          simp only [parseEntry, h.1.1.1, h.1.2.1, h.2.1, bind, Except.bind]
          exact fun he => h.2.2 (by simpa using he)
        | ok p3 =>
          refine ((h1.and h2).and h3).mono fun n h => ?_
          simp [parseEntry, h.1.1.1, h.1.2.1, h.2.1, bind, Except.bind, pure, Except.pure]

theorem bodyEntry_enough (k : Nat) : ∀ (fs : List Found) (vars : Vars), Flat vars → (∀ f ∈ fs, Tame f) →
    Enough fun n => bodyEntry n k vars fs ≠ .error .endless
  | [], vars, _, _ => ⟨0, fun n _ => by simp [bodyEntry]⟩
  | .other :: fs, vars, hf, ht => by
    refine (bodyEntry_enough k fs vars hf fun f h => ht f (by simp [h])).mono fun n h => ?_
    rw [bodyEntry]
    exact h
  | .noName :: fs, vars, _, _ => ⟨0, fun n _ => by simp [bodyEntry]⟩
  | .parseArgs a :: fs, vars, hf, _ => by
    refine (parseEntry_enough hf k a).mono fun n h => ?_
    rw [bodyEntry]
    exact h
  | .set a b :: fs, vars, hf, ht => by
    obtain ⟨vars', hf', h1⟩ := setVar_enough hf a b (ht _ (by simp))
    refine (h1.and (bodyEntry_enough k fs vars' hf' fun f h => ht f (by simp [h]))).mono fun n h => ?_
    simp only [bodyEntry, h.1, bind, Except.bind]
    exact h.2

theorem defnEntry_enough (d : Defn) (hw : d.words ≠ .error .endless) (hb : d.body ≠ .error .endless)
    (ht : ∀ fs, d.body = .ok fs → ∀ f ∈ fs, Tame f) : Enough fun n => defnEntry n d ≠ .error .endless := by
  obtain ⟨words, body⟩ := d
  cases words with
  | error e => exact ⟨0, fun n _ => by simpa [defnEntry, bind, Except.bind] using hw⟩
  | ok ws =>
    cases ws with
    | nil => exact ⟨0, fun n _ => by simp [defnEntry, bind, Except.bind]⟩
    | cons w params =>
      cases body with
      | error e => exact ⟨0, fun n _ => by simpa [defnEntry, bind, Except.bind] using hb⟩
      | ok fs =>
        refine (bodyEntry_enough params.length fs [] (by simp [Flat]) (ht fs rfl)).mono fun n h => ?_
        simp only [defnEntry, bind, Except.bind]
        split
        · rename_i e he
          intro hx
          simp only [Except.error.injEq] at hx
          subst hx
          exact h he
        · simp [pure, Except.pure]

theorem tableOf_enough : ∀ (ds : List Defn), (∀ d ∈ ds, Enough fun n => defnEntry n d ≠ .error .endless) →
    Enough fun n => ∀ out, tableOf n out ds ≠ .error .endless
  | [], _ => ⟨0, fun n _ out => by simp [tableOf]⟩
  | d :: ds, h => by
    refine ((h d (by simp)).and (tableOf_enough ds fun d' hd => h d' (by simp [hd]))).mono fun n hn out => ?_
    simp only [tableOf, bind, Except.bind]
    split
    · rename_i e he
      intro hx
      simp only [Except.error.injEq] at hx
      subst hx
      exact hn.1 he
    · exact hn.2 _

theorem firstWords_ends (n : Node) : firstWords n ≠ .error .endless := by
  unfold firstWords
  split
  · split <;> simp
  · simp

end Verif.Gen
