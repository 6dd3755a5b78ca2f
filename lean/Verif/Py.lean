/-!
# Python primitives used by the code

A Python `str` is modelled as `List Char`.  Nothing here models repository code;
these are the library operations the repository calls.
-/

namespace Verif

/-- A Python `str` (lone surrogates excluded). -/
abbrev Str := List Char

/-- String literal helper. -/
def S (s : String) : Str := s.toList

instance instDecidableEqExcept {ε α : Type _} [DecidableEq ε] [DecidableEq α] :
    DecidableEq (Except ε α)
  | .ok a, .ok b => if h : a = b then isTrue (by rw [h]) else isFalse (fun e => h (by injection e))
  | .error a, .error b =>
    if h : a = b then isTrue (by rw [h]) else isFalse (fun e => h (by injection e))
  | .ok _, .error _ => isFalse (by intro e; injection e)
  | .error _, .ok _ => isFalse (by intro e; injection e)

namespace Py

/-- `\s` in a `re` pattern compiled without the UNICODE flag (what `re.Scanner`
does), i.e. `[ \t\n\r\f\v]`. -/
def isSpace (c : Char) : Bool :=
  c == ' ' || c == '\t' || c == '\n' || c == '\r' || c == '\x0b' || c == '\x0c'

/-- `[0-9]`. -/
def isDigit (c : Char) : Bool := 48 ≤ c.toNat && c.toNat ≤ 57

/-- `[a-z]`. -/
def isLower (c : Char) : Bool := 97 ≤ c.toNat && c.toNat ≤ 122

/-- `[A-Z]`. -/
def isUpper (c : Char) : Bool := 65 ≤ c.toNat && c.toNat ≤ 90

/-- `c.upper()` for ASCII letters; other characters are left alone
(simplification, see DESIGN.md section 5). -/
def upperChar (c : Char) : Char :=
  if isLower c then Char.ofNat (c.toNat - 32) else c

/-- `c.lower()` for ASCII letters. -/
def lowerChar (c : Char) : Char :=
  if isUpper c then Char.ofNat (c.toNat + 32) else c

/-- `str.upper()`. -/
def upper (s : Str) : Str := s.map upperChar

/-- `str.lower()`. -/
def lower (s : Str) : Str := s.map lowerChar

/-- `s.startswith(p)` together with what follows the prefix. -/
def stripPrefix? : (p s : Str) → Option Str
  | [], s => some s
  | _ :: _, [] => none
  | p :: ps, c :: cs => if p = c then stripPrefix? ps cs else none

/-- `s.startswith(p)`. -/
def startsWith (p s : Str) : Bool := (stripPrefix? p s).isSome

/-- `s.lstrip(chars)` for a character class. -/
def lstripBy (f : Char → Bool) (s : Str) : Str := s.dropWhile f

/-- `s.rstrip(chars)` for a character class. -/
def rstripBy (f : Char → Bool) (s : Str) : Str := (s.reverse.dropWhile f).reverse

/-- `str.split(sep)` with a one-character separator: always at least one piece. -/
def splitOn (sep : Char) : Str → List Str
  | [] => [[]]
  | c :: cs =>
    if c = sep then [] :: splitOn sep cs
    else match splitOn sep cs with
      | [] => [[c]]
      | l :: ls => (c :: l) :: ls

/-- `sep.join(lines)`. -/
def join (sep : Str) : List Str → Str
  | [] => []
  | [l] => l
  | l :: ls => l ++ sep ++ join sep ls

/-- `len(bytearray(s, 'utf-8'))`. -/
def utf8Len : Str → Nat
  | [] => 0
  | c :: cs => c.utf8Size + utf8Len cs

/-- Insert an element that came earlier than everything in the list. -/
def insertBy {α : Type _} (le : α → α → Bool) (x : α) : List α → List α
  | [] => [x]
  | y :: ys => if le x y then x :: y :: ys else y :: insertBy le x ys

/-- `sorted(l, key=…)`: Python's sort is stable, so for a total preorder its result is
determined by the input; insertion sort computes it. -/
def sortBy {α : Type _} (le : α → α → Bool) : List α → List α
  | [] => []
  | x :: xs => insertBy le x (sortBy le xs)

/-- `a <= b` on `str`: lexicographic by code point. -/
def strLe : Str → Str → Bool
  | [], _ => true
  | _ :: _, [] => false
  | a :: as, b :: bs =>
    if a.toNat < b.toNat then true else if b.toNat < a.toNat then false else strLe as bs

/-! ### Basic facts -/

theorem insertBy_perm {α : Type _} (le : α → α → Bool) (x : α) (l : List α) :
    (insertBy le x l).Perm (x :: l) := by
  induction l with
  | nil => exact .refl _
  | cons y ys ih =>
    simp only [insertBy]
    split
    · exact .refl _
    · exact (List.Perm.cons y ih).trans (.swap x y ys)

theorem sortBy_perm {α : Type _} (le : α → α → Bool) (l : List α) : (sortBy le l).Perm l := by
  induction l with
  | nil => exact .refl _
  | cons x xs ih => exact (insertBy_perm le x _).trans (.cons x ih)

theorem insertBy_pairwise {α : Type _} {le : α → α → Bool}
    (trans : ∀ a b c, le a b = true → le b c = true → le a c = true)
    (total : ∀ a b, le a b = true ∨ le b a = true) (x : α) {l : List α}
    (h : l.Pairwise (fun a b => le a b = true)) :
    (insertBy le x l).Pairwise (fun a b => le a b = true) := by
  induction l with
  | nil => simp [insertBy]
  | cons y ys ih =>
    simp only [insertBy]
    rw [List.pairwise_cons] at h
    split
    · rename_i hxy
      rw [List.pairwise_cons, List.pairwise_cons]
      refine ⟨?_, h.1, h.2⟩
      intro z hz
      rcases List.mem_cons.1 hz with e | hz
      · exact e ▸ hxy
      · exact trans _ _ _ hxy (h.1 z hz)
    · rename_i hxy
      rw [List.pairwise_cons]
      refine ⟨?_, ih h.2⟩
      intro z hz
      rcases List.mem_cons.1 ((insertBy_perm le x ys).mem_iff.1 hz) with e | hz
      · subst e; rcases total z y with h' | h'
        · exact absurd h' hxy
        · exact h'
      · exact h.1 z hz

theorem sortBy_pairwise {α : Type _} {le : α → α → Bool}
    (trans : ∀ a b c, le a b = true → le b c = true → le a c = true)
    (total : ∀ a b, le a b = true ∨ le b a = true) (l : List α) :
    (sortBy le l).Pairwise (fun a b => le a b = true) := by
  induction l with
  | nil => simp [sortBy]
  | cons x xs ih => exact insertBy_pairwise trans total x ih

theorem sortBy_of_pairwise {α : Type _} {le : α → α → Bool} {l : List α}
    (h : l.Pairwise (fun a b => le a b = true)) : sortBy le l = l := by
  induction l with
  | nil => rfl
  | cons x xs ih =>
    rw [List.pairwise_cons] at h
    rw [sortBy, ih h.2]
    cases xs with
    | nil => rfl
    | cons y ys => simp [insertBy, h.1 y (by simp)]

/-- Stability: the elements of one equivalence class keep their order. -/
theorem sortBy_stable {α : Type _} {le : α → α → Bool} (p : α → Bool)
    (hp : ∀ a b, p a = true → p b = true → le a b = true) (l : List α) :
    (sortBy le l).filter p = l.filter p := by
  have ins : ∀ x (l : List α), (insertBy le x l).filter p = (x :: l).filter p := by
    intro x l
    induction l with
    | nil => rfl
    | cons y ys ih =>
      simp only [insertBy]
      split
      · rfl
      · rename_i hxy
        rw [List.filter_cons, ih]
        cases hx : p x with
        | false => simp [List.filter_cons, hx]
        | true =>
          cases hy : p y with
          | false => simp [hx, hy]
          | true => exact absurd (hp x y hx hy) hxy
  induction l with
  | nil => rfl
  | cons x xs ih => rw [sortBy, ins, List.filter_cons, List.filter_cons, ih]

theorem insertBy_map {α β : Type _} (f : α → β) (le : β → β → Bool) (x : α) (l : List α) :
    (insertBy (fun a b => le (f a) (f b)) x l).map f = insertBy le (f x) (l.map f) := by
  induction l with
  | nil => rfl
  | cons y ys ih =>
    simp only [insertBy, List.map_cons]
    split <;> simp [ih]

theorem sortBy_map {α β : Type _} (f : α → β) (le : β → β → Bool) (l : List α) :
    (sortBy (fun a b => le (f a) (f b)) l).map f = sortBy le (l.map f) := by
  induction l with
  | nil => rfl
  | cons x xs ih => simp [sortBy, insertBy_map, ih]

theorem strLe_refl (a : Str) : strLe a a = true := by
  induction a with
  | nil => rfl
  | cons c cs ih => simp [strLe, ih]

theorem strLe_total (a b : Str) : strLe a b = true ∨ strLe b a = true := by
  induction a generalizing b with
  | nil => exact Or.inl rfl
  | cons x xs ih =>
    cases b with
    | nil => exact Or.inr rfl
    | cons y ys =>
      simp only [strLe]
      by_cases h1 : x.toNat < y.toNat
      · simp [h1]
      · by_cases h2 : y.toNat < x.toNat
        · simp [h2]
        · simp only [h1, h2, if_false]; exact ih ys

theorem strLe_trans (a b c : Str) (h1 : strLe a b = true) (h2 : strLe b c = true) :
    strLe a c = true := by
  induction a generalizing b c with
  | nil => rfl
  | cons x xs ih =>
    cases b with
    | nil => simp [strLe] at h1
    | cons y ys =>
      cases c with
      | nil => simp [strLe] at h2
      | cons z zs =>
        simp only [strLe] at h1 h2 ⊢
        split at h1
        · split at h2
          · rw [if_pos (by omega)]
          · split at h2
            · simp at h2
            · rw [if_pos (by omega)]
        · split at h1
          · simp at h1
          · split at h2
            · rw [if_pos (by omega)]
            · split at h2
              · simp at h2
              · rw [if_neg (by omega), if_neg (by omega)]
                exact ih _ _ h1 h2

theorem strLe_antisymm {a b : Str} (h1 : strLe a b = true) (h2 : strLe b a = true) : a = b := by
  induction a generalizing b with
  | nil => cases b with
    | nil => rfl
    | cons y ys => simp [strLe] at h2
  | cons x xs ih =>
    cases b with
    | nil => simp [strLe] at h1
    | cons y ys =>
      simp only [strLe] at h1 h2
      split at h1
      · rename_i hlt
        rw [if_neg (by omega), if_pos hlt] at h2; simp at h2
      · split at h1
        · simp at h1
        · rename_i h3 h4
          rw [if_neg h4, if_neg h3] at h2
          have : x = y := Char.toNat_inj.1 (by omega)
          rw [this, ih h1 h2]

theorem stripPrefix?_eq {p s r : Str} (h : stripPrefix? p s = some r) : s = p ++ r := by
  induction p generalizing s with
  | nil => simp [stripPrefix?] at h; simp [h]
  | cons a p ih =>
    cases s with
    | nil => simp [stripPrefix?] at h
    | cons c cs =>
      simp only [stripPrefix?] at h
      split at h
      · rename_i hac; rw [hac, ih h]; rfl
      · exact absurd h (by simp)

theorem stripPrefix?_append (p r : Str) : stripPrefix? p (p ++ r) = some r := by
  induction p with
  | nil => simp [stripPrefix?]
  | cons a p ih => simp [stripPrefix?, ih]

theorem utf8Len_append (a b : Str) : utf8Len (a ++ b) = utf8Len a + utf8Len b := by
  induction a with
  | nil => simp [utf8Len]
  | cons c cs ih => simp [utf8Len, ih]; omega

theorem splitOn_ne_nil (sep : Char) (s : Str) : splitOn sep s ≠ [] := by
  cases s with
  | nil => simp [splitOn]
  | cons c cs =>
    simp only [splitOn]
    split
    · simp
    · split <;> simp

theorem join_splitOn (sep : Char) (s : Str) : join [sep] (splitOn sep s) = s := by
  induction s with
  | nil => simp [splitOn, join]
  | cons c cs ih =>
    simp only [splitOn]
    split
    · rename_i h
      cases hs : splitOn sep cs with
      | nil => exact absurd hs (splitOn_ne_nil _ _)
      | cons l ls => rw [hs] at ih; simp [join, ih, h]
    · cases hs : splitOn sep cs with
      | nil => exact absurd hs (splitOn_ne_nil _ _)
      | cons l ls =>
        rw [hs] at ih
        cases ls with
        | nil => simp [join] at ih ⊢; exact ih
        | cons m ms => simp [join] at ih ⊢; exact ih

theorem not_mem_splitOn {sep : Char} {s l : Str} (h : l ∈ splitOn sep s) : sep ∉ l := by
  induction s generalizing l with
  | nil => simp [splitOn] at h; simp [h]
  | cons c cs ih =>
    simp only [splitOn] at h
    split at h
    · simp at h
      rcases h with h | h
      · simp [h]
      · exact ih h
    · rename_i hne
      cases hs : splitOn sep cs with
      | nil => exact absurd hs (splitOn_ne_nil _ _)
      | cons m ms =>
        rw [hs] at h ih
        simp at h
        rcases h with h | h
        · subst h
          simp only [List.mem_cons, not_or]
          exact ⟨fun e => hne e.symm, ih (by simp)⟩
        · exact ih (by simp [h])

theorem splitOn_of_not_mem {sep : Char} {s : Str} (h : sep ∉ s) : splitOn sep s = [s] := by
  induction s with
  | nil => simp [splitOn]
  | cons c cs ih =>
    simp only [List.mem_cons, not_or] at h
    simp only [splitOn, ih h.2]
    split
    · rename_i e; exact absurd e.symm h.1
    · rfl

theorem splitOn_append_sep {sep : Char} {a : Str} (h : sep ∉ a) (b : Str) :
    splitOn sep (a ++ sep :: b) = a :: splitOn sep b := by
  induction a with
  | nil => simp [splitOn]
  | cons c cs ih =>
    simp only [List.mem_cons, not_or] at h
    simp only [List.cons_append, splitOn, ih h.2]
    split
    · rename_i e; exact absurd e.symm h.1
    · rfl

/-- Splitting the join of separator-free pieces gives the pieces back. -/
theorem splitOn_join {sep : Char} {ls : List Str} (hne : ls ≠ [])
    (h : ∀ l ∈ ls, sep ∉ l) : splitOn sep (join [sep] ls) = ls := by
  induction ls with
  | nil => exact absurd rfl hne
  | cons l ls ih =>
    cases ls with
    | nil => simp only [join]; exact splitOn_of_not_mem (h l (by simp))
    | cons m ms =>
      simp only [join, List.append_assoc, List.cons_append, List.nil_append]
      rw [splitOn_append_sep (h l (by simp))]
      rw [ih (by simp) (fun x hx => h x (by simp [hx]))]

end Py
end Verif
