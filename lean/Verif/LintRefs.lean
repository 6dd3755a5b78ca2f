import Verif.LintDoneSpec
import Verif.LintIndent
import Verif.LintEmpty
import Verif.LintParserReport

/-!
# Half-written references (specification and lemmas for W0106)
-/

namespace Verif.Lint.Refs
open Verif Py Lex Parse Verif.Lint

/-! ## Specification -/

/-- A text ends in an even number of backslashes. -/
def EvenEnd (s : Str) : Prop := (s.reverse.takeWhile (· == '\\')).length % 2 = 0

/-- The names of variables: letters, digits and `_./+-`, and other characters after a backslash. -/
inductive IsName : Str → Prop
  | nil : IsName []
  | char {c : Char} {s : Str} : isVarChar c = true → IsName s → IsName (c :: s)
  | esc {d : Char} {s : Str} : isVarChar d = false → IsName s → IsName ('\\' :: d :: s)

/-- No name starts here. -/
def NoName (s : Str) : Prop := ∀ x y, s = x ++ y → IsName x → x = []

/-- One complete reference is replaced by a word. -/
inductive Step : Str → Str → Prop
  | mk {pre name post : Str} : EvenEnd pre → name ≠ [] → IsName name →
      Step (pre ++ (c! "${" ++ (name ++ '}' :: post))) (pre ++ (c! "foo" ++ post))

/-- Any number of them. -/
inductive Steps : Str → Str → Prop
  | refl {s : Str} : Steps s s
  | tail {s t u : Str} : Steps s t → Step t u → Steps s u

/-- All references are replaced: the inner ones first, then those around them. -/
def Reduced (s r : Str) : Prop := Steps s r ∧ ∀ u, ¬ Step r u

/-- `sig` and a longest name stand in the text after `pre`, and are not escaped. -/
def HalfAt (s pre sig name : Str) : Prop :=
  ∃ post, s = pre ++ (sig ++ (name ++ post)) ∧ EvenEnd pre ∧ IsName name ∧ name ≠ [] ∧ NoName post

/-- The first place where one of these and a name stand. -/
def First (sigs : List Str) (s sig name : Str) : Prop :=
  sig ∈ sigs ∧ ∃ pre, HalfAt s pre sig name ∧
    ∀ pre' sig' name', sig' ∈ sigs → HalfAt s pre' sig' name' → pre.length ≤ pre'.length

/-! ## Backslashes -/

/-- The backslashes just read are odd in number. -/
def oddEnd (b : Bool) : Str → Bool
  | [] => b
  | c :: s => oddEnd (c == '\\' && !b) s

theorem oddEnd_append (s t : Str) : ∀ b, oddEnd b (s ++ t) = oddEnd (oddEnd b s) t := by
  induction s with
  | nil => intro b; rfl
  | cons c s ih => intro b; simp [oddEnd, ih]

theorem trail_append (s : Str) (c : Char) : ((s ++ [c]).reverse.takeWhile (· == '\\')).length =
    if c = '\\' then (s.reverse.takeWhile (· == '\\')).length + 1 else 0 := by
  simp only [List.reverse_append, List.reverse_cons, List.reverse_nil, List.nil_append, List.singleton_append,
    List.takeWhile_cons, beq_iff_eq]
  split <;> simp

theorem even_iff_rev (l : Str) : EvenEnd l.reverse ↔ oddEnd false l.reverse = false := by
  induction l with
  | nil => simp [EvenEnd, oddEnd]
  | cons c l ih =>
    rw [List.reverse_cons]
    unfold EvenEnd at ih ⊢
    rw [trail_append, oddEnd_append]
    by_cases h : c = '\\'
    · subst h
      simp only [if_true, oddEnd, beq_self_eq_true, Bool.true_and, Bool.not_eq_eq_eq_not, Bool.not_false]
      rw [← Bool.not_eq_false, ← ih]
      omega
    · simp [h, oddEnd]

theorem even_iff (s : Str) : EvenEnd s ↔ oddEnd false s = false := by
  have := even_iff_rev s.reverse
  rwa [List.reverse_reverse] at this

/-! ## Names -/

theorem varChar_eq (c : Char) : isVarChar c = isNameChar c := rfl

theorem nameChar_slash : isNameChar '\\' = false := by decide

theorem nameRun_cons {c : Char} {s : Str} (h : c ≠ '\\') :
    nameRun (c :: s) = if isNameChar c then (c :: (nameRun s).1, (nameRun s).2) else ([], c :: s) := by
  rw [nameRun.eq_def]
  split
  · rename_i e
    exact absurd (List.cons.inj e).1 h
  · rename_i e
    obtain ⟨rfl, rfl⟩ := List.cons.inj e
    rfl
  · rename_i e; cases e

theorem nameRun_esc {d : Char} {s : Str} :
    nameRun ('\\' :: d :: s) = if isNameChar d then ([], '\\' :: d :: s) else ('\\' :: d :: (nameRun s).1, (nameRun s).2) := by
  rw [nameRun.eq_def]
  rfl

theorem nameRun_slash : nameRun ['\\'] = ([], ['\\']) := by decide

theorem isName_append {x y : Str} (hx : IsName x) (hy : IsName y) : IsName (x ++ y) := by
  induction hx with
  | nil => exact hy
  | char h _ ih => exact .char h ih
  | esc h _ ih => exact .esc h ih

theorem noName_nil : NoName [] := by
  intro x y h _
  cases x with
  | nil => rfl
  | cons _ _ => simp at h

theorem noName_cons {c : Char} {s : Str} (hc : isNameChar c = false) (hb : c ≠ '\\') : NoName (c :: s) := by
  intro x y h hx
  cases hx with
  | nil => rfl
  | char h1 _ =>
    obtain ⟨rfl, _⟩ := List.cons.inj h
    rw [varChar_eq, hc] at h1
    simp at h1
  | esc _ _ =>
    obtain ⟨e, _⟩ := List.cons.inj h
    exact absurd e hb

theorem noName_esc {d : Char} {s : Str} (hd : isNameChar d = true) : NoName ('\\' :: d :: s) := by
  intro x y h hx
  cases hx with
  | nil => rfl
  | char h1 _ =>
    obtain ⟨rfl, _⟩ := List.cons.inj h
    rw [varChar_eq, nameChar_slash] at h1
    simp at h1
  | esc h1 _ =>
    have e := (List.cons.inj (List.cons.inj h).2).1
    rw [varChar_eq, ← e, hd] at h1
    simp at h1

theorem noName_slash : NoName ['\\'] := by
  intro x y h hx
  cases hx with
  | nil => rfl
  | char h1 _ =>
    obtain ⟨rfl, _⟩ := List.cons.inj h
    rw [varChar_eq, nameChar_slash] at h1
    simp at h1
  | esc _ _ => simp at h

/-- The longest name at the front. -/
theorem nameRun_spec : ∀ (n : Nat) (s : Str), s.length ≤ n →
    s = (nameRun s).1 ++ (nameRun s).2 ∧ IsName (nameRun s).1 ∧ NoName (nameRun s).2
  | 0, s, h => by
    have : s = [] := List.length_eq_zero_iff.1 (Nat.le_zero.1 h)
    subst this
    exact ⟨rfl, .nil, noName_nil⟩
  | n + 1, [], h => ⟨rfl, .nil, noName_nil⟩
  | n + 1, c :: s, h => by
    simp only [List.length_cons, Nat.add_le_add_iff_right] at h
    by_cases hb : c = '\\'
    · subst hb
      cases s with
      | nil => rw [nameRun_slash]; exact ⟨rfl, .nil, noName_slash⟩
      | cons d s =>
        rw [nameRun_esc]
        cases hd : isNameChar d with
        | true => exact ⟨rfl, .nil, noName_esc hd⟩
        | false =>
          obtain ⟨h1, h2, h3⟩ := nameRun_spec n s (by simp only [List.length_cons] at h; omega)
          simp only [Bool.false_eq_true, if_false, List.cons_append, ← h1]
          exact ⟨trivial, .esc hd h2, h3⟩
    · rw [nameRun_cons hb]
      cases hc : isNameChar c with
      | true =>
        obtain ⟨h1, h2, h3⟩ := nameRun_spec n s h
        simp only [if_true, List.cons_append, ← h1]
        exact ⟨trivial, .char hc h2, h3⟩
      | false => exact ⟨rfl, .nil, noName_cons hc hb⟩

theorem nameRun_none {s : Str} (h : NoName s) : nameRun s = ([], s) := by
  obtain ⟨h1, h2, _⟩ := nameRun_spec s.length s (Nat.le_refl _)
  have := h _ _ h1 h2
  rw [this, List.nil_append] at h1
  exact Prod.ext this h1.symm

/-- There is only one. -/
theorem nameRun_eq {name post : Str} (hn : IsName name) (hp : NoName post) : nameRun (name ++ post) = (name, post) := by
  induction hn with
  | nil => exact nameRun_none hp
  | @char c s hc _ ih =>
    rw [varChar_eq] at hc
    have hb : c ≠ '\\' := by
      rintro rfl
      rw [nameChar_slash] at hc
      simp at hc
    rw [List.cons_append, nameRun_cons hb, if_pos hc, ih]
  | @esc d s hd _ ih =>
    rw [varChar_eq] at hd
    rw [List.cons_append, List.cons_append, nameRun_esc, hd, ih]
    simp

/-! ## The searches -/

theorem search_none {f : Str → Option (Str × Str)} (hf : f [] = none) : ∀ (s : Str) (b : Bool),
    searchUnescaped f b s = none ↔ ∀ pre rest, s = pre ++ rest → oddEnd b pre = false → f rest = none
  | [], b => by
    simp only [searchUnescaped, true_iff]
    intro pre rest h _
    have := List.append_eq_nil_iff.1 h.symm
    rw [this.2]; exact hf
  | c :: cs, b => by
    have ih := search_none hf cs (c == '\\' && !b)
    simp only [searchUnescaped]
    constructor
    · intro h pre rest e ho
      split at h
      · simp at h
      · rename_i hn
        cases pre with
        | nil =>
          simp only [oddEnd] at ho
          subst ho
          simp only [List.nil_append] at e
          rw [← e]
          simpa using hn
        | cons p pre =>
          obtain ⟨rfl, e1⟩ := List.cons.inj e
          exact ih.1 h pre rest e1 ho
    · intro h
      have h0 : (if b then none else f (c :: cs)) = none := by
        cases b with
        | true => rfl
        | false => exact h [] (c :: cs) rfl rfl
      rw [h0]
      refine ih.2 fun pre rest e ho => h (c :: pre) rest (by rw [e]; rfl) ho

theorem search_some {f : Str → Option (Str × Str)} (hf : f [] = none) : ∀ (s : Str) (b : Bool) (x : Str × Str),
    searchUnescaped f b s = some x ↔ ∃ pre rest, s = pre ++ rest ∧ oddEnd b pre = false ∧ f rest = some x ∧
      ∀ pre' rest', s = pre' ++ rest' → oddEnd b pre' = false → pre'.length < pre.length → f rest' = none
  | [], b, x => by
    simp only [searchUnescaped, reduceCtorEq, false_iff]
    rintro ⟨pre, rest, h, _, hr, _⟩
    rw [(List.append_eq_nil_iff.1 h.symm).2, hf] at hr
    simp at hr
  | c :: cs, b, x => by
    have ih := search_some hf cs (c == '\\' && !b) x
    simp only [searchUnescaped]
    constructor
    · intro h
      split at h
      · rename_i r hr
        obtain rfl : r = x := by simpa using h
        cases b with
        | true => simp at hr
        | false => exact ⟨[], c :: cs, rfl, rfl, by simpa using hr, by simp⟩
      · rename_i hn
        obtain ⟨pre, rest, e, ho, hr, hm⟩ := ih.1 h
        refine ⟨c :: pre, rest, by rw [e]; rfl, ho, hr, ?_⟩
        intro pre' rest' e' ho' hl
        cases pre' with
        | nil =>
          simp only [oddEnd] at ho'
          subst ho'
          simp only [List.nil_append] at e'
          rw [← e']
          simpa using hn
        | cons p pre' =>
          obtain ⟨rfl, e1⟩ := List.cons.inj e'
          exact hm pre' rest' e1 ho' (by simpa using hl)
    · rintro ⟨pre, rest, e, ho, hr, hm⟩
      cases pre with
      | nil =>
        simp only [oddEnd] at ho
        subst ho
        simp only [List.nil_append] at e
        rw [← e] at hr
        simp [hr]
      | cons p pre =>
        obtain ⟨rfl, e1⟩ := List.cons.inj e
        have h0 : (if b then none else f (c :: cs)) = none := by
          cases b with
          | true => rfl
          | false => exact hm [] (c :: cs) rfl rfl (by simp)
        rw [h0]
        refine ih.2 ⟨pre, rest, e1, ho, hr, ?_⟩
        intro pre' rest' e' ho' hl
        exact hm (c :: pre') rest' (by rw [e']; rfl) ho' (by simpa using hl)

/-- A search that finds a sign and a longest name. -/
structure Finds (f : Str → Option (Str × Str)) (sigs : List Str) : Prop where
  some_iff : ∀ s sig name, f s = some (sig, name) ↔
    sig ∈ sigs ∧ ∃ post, s = sig ++ (name ++ post) ∧ IsName name ∧ name ≠ [] ∧ NoName post

theorem Finds.nil {f : Str → Option (Str × Str)} {sigs : List Str} (h : Finds f sigs) (hs : [] ∉ sigs) : f [] = none := by
  cases e : f [] with
  | none => rfl
  | some x =>
    obtain ⟨h1, post, h2, _⟩ := (h.some_iff [] x.1 x.2).1 e
    have := (List.append_eq_nil_iff.1 h2.symm).1
    rw [this] at h1
    exact absurd h1 hs

theorem Finds.first {f : Str → Option (Str × Str)} {sigs : List Str} (h : Finds f sigs) (hs : [] ∉ sigs) {s sig name : Str} :
    searchUnescaped f false s = some (sig, name) ↔ First sigs s sig name := by
  rw [search_some (h.nil hs)]
  constructor
  · rintro ⟨pre, rest, e, ho, hr, hm⟩
    obtain ⟨h1, post, rfl, h2, h3, h4⟩ := (h.some_iff _ _ _).1 hr
    refine ⟨h1, pre, ⟨post, e, (even_iff _).2 ho, h2, h3, h4⟩, ?_⟩
    rintro pre' sig' name' hsig ⟨post', e', ho', k2, k3, k4⟩
    refine Nat.le_of_not_lt fun hl => ?_
    have := hm pre' _ e' ((even_iff _).1 ho') hl
    rw [(h.some_iff _ sig' name').2 ⟨hsig, post', rfl, k2, k3, k4⟩] at this
    simp at this
  · rintro ⟨h1, pre, ⟨post, e, ho, h2, h3, h4⟩, hm⟩
    refine ⟨pre, _, e, (even_iff _).1 ho, (h.some_iff _ _ _).2 ⟨h1, post, rfl, h2, h3, h4⟩, ?_⟩
    intro pre' rest' e' ho' hl
    cases k : f rest' with
    | none => rfl
    | some x =>
      obtain ⟨k1, post', k2, k3, k4, k5⟩ := (h.some_iff rest' x.1 x.2).1 k
      have := hm pre' x.1 x.2 k1 ⟨post', by rw [e', k2], (even_iff _).2 ho', k3, k4, k5⟩
      omega

theorem run_found {s : Str} (h : (nameRun s).1 ≠ []) :
    ∃ post, s = (nameRun s).1 ++ post ∧ IsName (nameRun s).1 ∧ (nameRun s).1 ≠ [] ∧ NoName post := by
  obtain ⟨h1, h2, h3⟩ := nameRun_spec s.length s (Nat.le_refl _)
  exact ⟨_, h1, h2, h, h3⟩

theorem prefix_finds : Finds missingPrefix? [c! "$", c! "{"] where
  some_iff s sig name := by
    constructor
    · intro h
      cases s with
      | nil => simp [missingPrefix?] at h
      | cons c s =>
        simp only [missingPrefix?] at h
        split at h
        · rename_i hc
          split at h
          · simp at h
          · rename_i hn
            simp only [Option.some.injEq, Prod.mk.injEq] at h
            obtain ⟨rfl, rfl⟩ := h
            obtain ⟨post, k⟩ := run_found hn
            refine ⟨?_, post, ?_, k.2⟩
            · rcases hc with rfl | rfl <;> simp
            · rw [List.singleton_append, ← k.1]
        · simp at h
    · rintro ⟨h1, post, rfl, h2, h3, h4⟩
      have e := nameRun_eq h2 h4
      simp only [List.mem_cons, List.not_mem_nil, or_false] at h1
      rcases h1 with rfl | rfl <;> simp [missingPrefix?, e, h3]

theorem suffix_finds : Finds missingSuffix? [c! "${"] where
  some_iff s sig name := by
    constructor
    · intro h
      unfold missingSuffix? at h
      split at h
      · rename_i s'
        dsimp only at h
        split at h
        · simp at h
        · rename_i hn
          simp only [Option.some.injEq, Prod.mk.injEq] at h
          obtain ⟨rfl, rfl⟩ := h
          obtain ⟨post, k⟩ := run_found hn
          refine ⟨by decide, post, ?_, k.2⟩
          rw [← k.1]
          rfl
      · simp at h
    · rintro ⟨h1, post, rfl, h2, h3, h4⟩
      have e := nameRun_eq h2 h4
      simp only [List.mem_singleton] at h1
      subst h1
      simp [missingSuffix?, e, h3]
      rfl

/-! ## Replacing references -/

theorem varRef_some {s rest : Str} (h : varRef? s = some rest) :
    ∃ name, s = c! "${" ++ (name ++ '}' :: rest) ∧ IsName name ∧ name ≠ [] := by
  unfold varRef? at h
  split at h
  · rename_i s'
    dsimp only at h
    split at h
    · simp at h
    · rename_i hn
      obtain ⟨h1, h2, h3⟩ := nameRun_spec s'.length s' (Nat.le_refl _)
      split at h
      · rename_i rest' er
        obtain rfl : rest' = rest := by simpa using h
        refine ⟨(nameRun s').1, ?_, h2, hn⟩
        rw [← er, ← h1]
        rfl
      · simp at h
  · simp at h

theorem brace_noName (s : Str) : NoName ('}' :: s) := noName_cons (by decide) (by decide)

theorem varRef_of {name rest : Str} (hn : IsName name) (h : name ≠ []) : varRef? (c! "${" ++ (name ++ '}' :: rest)) = some rest := by
  have e := nameRun_eq hn (brace_noName rest)
  simp [varRef?, e, h]

theorem Steps.trans {s t u : Str} (h1 : Steps s t) (h2 : Steps t u) : Steps s u := by
  induction h2 with
  | refl => exact h1
  | tail _ h ih => exact .tail ih h

theorem brace_even (pre : Str) : oddEnd false (pre ++ c! "foo") = false := by
  rw [oddEnd_append]
  simp [oddEnd]

theorem mockOnce_cons (n : Nat) (b : Bool) (c : Char) (cs : Str) : mockOnce (S "foo") (n + 1) b (c :: cs) =
    match (if b then none else varRef? (c :: cs)) with
    | some rest => (S "foo" ++ (mockOnce (S "foo") n false rest).1, true)
    | none => (c :: (mockOnce (S "foo") n (c == '\\' && !b) cs).1, (mockOnce (S "foo") n (c == '\\' && !b) cs).2) := by
  rw [mockOnce]
  rfl

/-- One round replaces some references. -/
theorem mock_steps : ∀ (n : Nat) (s pre : Str), Steps (pre ++ s) (pre ++ (mockOnce (S "foo") n (oddEnd false pre) s).1)
  | 0, s, pre => by rw [mockOnce.eq_def]; exact .refl
  | n + 1, [], pre => by rw [mockOnce.eq_def]; exact .refl
  | n + 1, c :: cs, pre => by
    rw [mockOnce_cons]
    split
    · rename_i rest h
      split at h
      · simp at h
      · rename_i hb
        obtain ⟨name, e, h1, h2⟩ := varRef_some h
        have s1 : Steps (pre ++ c :: cs) (pre ++ (c! "foo" ++ rest)) := by
          rw [e]
          exact .tail .refl (.mk ((even_iff _).2 (by simpa using hb)) h2 h1)
        have s2 := mock_steps n rest (pre ++ c! "foo")
        rw [brace_even, List.append_assoc, List.append_assoc] at s2
        exact s1.trans s2
    · have s2 := mock_steps n cs (pre ++ [c])
      rw [oddEnd_append, List.append_assoc, List.append_assoc] at s2
      exact s2

/-- A round without a replacement: there is no reference. -/
theorem mock_quiet : ∀ (n : Nat) (s : Str) (b : Bool), s.length ≤ n → (mockOnce (S "foo") n b s).2 = false →
    (mockOnce (S "foo") n b s).1 = s ∧ ∀ pre rest, s = pre ++ rest → oddEnd b pre = false → varRef? rest = none
  | 0, s, b, hl, h => by
    have : s = [] := List.length_eq_zero_iff.1 (Nat.le_zero.1 hl)
    subst this
    rw [mockOnce.eq_def]
    refine ⟨rfl, fun pre rest e _ => ?_⟩
    rw [(List.append_eq_nil_iff.1 e.symm).2]; rfl
  | n + 1, [], b, hl, h => by
    rw [mockOnce.eq_def]
    refine ⟨rfl, fun pre rest e _ => ?_⟩
    rw [(List.append_eq_nil_iff.1 e.symm).2]; rfl
  | n + 1, c :: cs, b, hl, h => by
    rw [mockOnce_cons] at h ⊢
    split at h
    · simp at h
    · rename_i hn
      obtain ⟨h1, h2⟩ := mock_quiet n cs (c == '\\' && !b) (by simpa using hl) h
      refine ⟨by simp only [h1], ?_⟩
      intro pre rest e ho
      cases pre with
      | nil =>
        simp only [oddEnd] at ho
        subst ho
        simp only [List.nil_append] at e
        rw [← e]
        simpa using hn
      | cons p pre =>
        obtain ⟨rfl, e1⟩ := List.cons.inj e
        exact h2 pre rest e1 ho

theorem mock_shorter : ∀ (n : Nat) (b : Bool) (s : Str), (mockOnce (S "foo") n b s).1.length ≤ s.length ∧
    ((mockOnce (S "foo") n b s).2 = true → (mockOnce (S "foo") n b s).1.length < s.length)
  | 0, b, s => by rw [mockOnce.eq_def]; simp
  | n + 1, b, [] => by rw [mockOnce.eq_def]; simp
  | n + 1, b, c :: cs => by
    rw [mockOnce_cons]
    split
    · rename_i rest h
      split at h
      · simp at h
      · obtain ⟨name, e, h1, h2⟩ := varRef_some h
        have k := (mock_shorter n false rest).1
        have l := congrArg List.length e
        have l2 : 0 < name.length := List.length_pos_iff.2 h2
        simp only [List.length_cons, List.length_append, List.length_nil] at l
        have l3 : (S "foo" ++ (mockOnce (S "foo") n false rest).1).length = 3 + (mockOnce (S "foo") n false rest).1.length := by
          rw [List.length_append]; rfl
        dsimp only
        rw [l3, List.length_cons]
        omega
    · have k := mock_shorter n (c == '\\' && !b) cs
      simp only [List.length_cons]
      exact ⟨by omega, fun h => by have := k.2 h; omega⟩

theorem mock_reduced : ∀ (n : Nat) (s : Str), s.length ≤ n → Reduced s (mockVarrefs (S "foo") n s)
  | 0, s, h => by
    have : s = [] := List.length_eq_zero_iff.1 (Nat.le_zero.1 h)
    subst this
    refine ⟨.refl, ?_⟩
    intro u hu
    generalize e : mockVarrefs (S "foo") 0 [] = r at hu
    cases hu with
    | mk he hn hm =>
      have := congrArg List.length e
      simp [mockVarrefs] at this
  | n + 1, s, h => by
    rw [mockVarrefs]
    split
    · rename_i hr
      have hl := (mock_shorter s.length false s).2 hr
      obtain ⟨h1, h2⟩ := mock_reduced n (mockOnce (S "foo") s.length false s).1 (by omega)
      exact ⟨(mock_steps s.length s []).trans h1, h2⟩
    · rename_i hr
      refine ⟨.refl, ?_⟩
      intro u hu
      obtain ⟨h1, h2⟩ := mock_quiet s.length s false (Nat.le_refl _) (by simpa using hr)
      cases hu with
      | mk he hn hm =>
        have := h2 _ _ rfl ((even_iff _).1 he)
        rw [varRef_of hm hn] at this
        simp at this

end Verif.Lint.Refs
