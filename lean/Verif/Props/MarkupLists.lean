import Verif.Props.Markup

/-!
# Nesting and numbering of lists in comments (C54)
-/

namespace Verif.Props.MarkupLists
open Verif Py Verif.Wrap Verif.Markup

/-! ## Specification -/

/-- How many lists a list at indentation `n` lies in, given the indentations of the earlier
lists of the run, the nearest first: the nearest less indented list contains it, and so on. -/
def depthIn : Nat → List Nat → Nat
  | _, [] => 0
  | n, m :: ms => if m < n then depthIn m ms + 1 else depthIn n ms

/-- A list. -/
def isListItem (i : Item) : Bool := i.kind = .bulletList || i.kind = .enumList

/-- The indentations of the lists so far; anything but a list or a blank line ends the run. -/
def runOf (run : List Nat) (i : Item) : List Nat :=
  if isListItem i then i.indent :: run else if i.kind = .separator then run else []

/-- The lines of each item, indented by two blanks for each list it lies in and formatted to
the remaining width. -/
def Nested (cfg : Cfg) (width : Int) : List Nat → List Item → List Str → Prop
  | _, [], ls => ls = []
  | run, i :: is, ls =>
    let depth := if isListItem i then depthIn i.indent run else 0
    ∃ own rest, formatItem cfg (width - 2 * depth) i = .ok own ∧
      ls = own.map (List.replicate (2 * depth) ' ' ++ ·) ++ rest ∧ Nested cfg width (runOf run i) is rest

/-! ## Proofs -/

theorem dropWhile_twice {n k : Nat} (h : k ≤ n) (hist : List Nat) : popIndent k (popIndent n hist) = popIndent k hist := by
  induction hist with
  | nil => rfl
  | cons m ms ih =>
    unfold popIndent at *
    by_cases h1 : m ≥ n
    · rw [List.dropWhile_cons_of_pos (by simpa using h1), ih, List.dropWhile_cons_of_pos (by simpa using Nat.le_trans h h1)]
    · rw [List.dropWhile_cons_of_neg (by simpa using h1)]

theorem items_nested {cfg : Cfg} {width : Int} {items : List Item} : ∀ {hist run : List Nat} {ls : List Str},
    (∀ n, (popIndent n hist).length = depthIn n run) → formatItems cfg width hist items = .ok ls →
    Nested cfg width run items ls := by
  induction items with
  | nil =>
    intro hist run ls _ h
    simp only [formatItems, Except.ok.injEq] at h
    exact h.symm
  | cons i is ih =>
    intro hist run ls hinv h
    simp only [formatItems] at h
    split at h
    · simp at h
    · rename_i own ho
      split at h
      · simp at h
      · rename_i rest hr
        simp only [Except.ok.injEq] at h
        by_cases hl : i.kind = .bulletList ∨ i.kind = .enumList
        · have hli : isListItem i = true := by simpa [isListItem] using hl
          simp only [decide_eq_true hl, if_true, List.length_cons, Nat.add_sub_cancel] at ho hr h
          simp only [Nested, hli, if_true]
          rw [hinv] at ho h
          refine ⟨own, rest, by simpa using ho, h.symm, ?_⟩
          simp only [runOf, hli, if_true]
          refine ih ?_ hr
          intro k
          simp only [depthIn]
          split
          · rename_i hlt
            unfold popIndent
            rw [List.dropWhile_cons_of_neg (by simpa using hlt)]
            have := hinv i.indent
            simp only [popIndent] at this
            simp [this]
          · rename_i hge
            have : popIndent k (i.indent :: popIndent i.indent hist) = popIndent k (popIndent i.indent hist) := by
              conv => lhs; unfold popIndent
              rw [List.dropWhile_cons_of_pos (by simpa using hge)]
              rfl
            rw [this, dropWhile_twice (by omega), hinv]
        · have hli : isListItem i = false := by simpa [isListItem] using hl
          simp only [decide_eq_false hl, Bool.false_eq_true, if_false] at ho hr h
          simp only [Nested, hli, Bool.false_eq_true, if_false]
          refine ⟨own, rest, by simpa using ho, by simpa [spaces] using h.symm, ?_⟩
          simp only [runOf, hli, Bool.false_eq_true, if_false]
          refine ih ?_ hr
          split
          · exact hinv
          · intro n; rfl

/-- **C54.** Lists in comments keep their nesting: the lines of a list are indented by two
blanks for each list it lies in, and formatted to the width that remains. -/
theorem lists_keep_nesting (cfg : Cfg) (width : Int) (items : List Item) (ls : List Str)
    (h : formatItems cfg width [] items = .ok ls) : Nested cfg width [] items ls :=
  items_nested (fun _ => rfl) h

/-- Two items, one nested, the next one back at the first level. -/
def exampleItems : List Item :=
  [{ kind := .bulletList, indent := 0, lines := [S "one", S "two"] }, { kind := .bulletList, indent := 3, lines := [S "inner"] },
    { kind := .separator }, { kind := .enumList, indent := 0, lines := [S "three", S "four"] },
    { kind := .enumList, indent := 0, lines := [S "again"] }]

example : (formatItems Props.Markup.defaultCfg 30 [] exampleItems).toOption =
    some [S "* one", S "* two", S "  * inner", [], S "1. three", S "2. four", S "1. again"] := by decide +kernel

/-! ## Numbers -/

theorem le_pow (n : Nat) (h : 1 ≤ n) : n ≤ 10 ^ (n - 1) := by
  induction n with
  | zero => omega
  | succ n ih =>
    cases n with
    | zero => simp
    | succ n =>
      have := ih (by omega)
      simp only [Nat.add_sub_cancel] at this ⊢
      rw [Nat.pow_succ]
      omega

/-- **C54.** The room for numbers in a list of `n` entries: as many digits as the smallest
power of ten that is at least `n` has zeros. -/
theorem enum_digits (n : Nat) (h : 1 ≤ n) : n ≤ 10 ^ digitsOf n ∧ ∀ d, n ≤ 10 ^ d → digitsOf n ≤ d := by
  unfold digitsOf
  cases hf : (List.range n).find? fun d => decide (n ≤ 10 ^ d) with
  | none =>
    rw [List.find?_eq_none] at hf
    have := hf (n - 1) (by simp; omega)
    simp [le_pow n h] at this
  | some d =>
    simp only [Option.getD_some]
    have h1 := List.find?_some hf
    simp only [decide_eq_true_eq] at h1
    refine ⟨h1, fun e he => ?_⟩
    rw [List.find?_range_eq_some] at hf
    obtain ⟨_, _, h4⟩ := hf
    by_cases hlt : e < d
    · have := h4 e hlt
      simp at this
      omega
    · omega

theorem decimal_length : ∀ (f n d : Nat), n < f → n < 10 ^ (d + 1) → (decimal f n).length ≤ d + 1
  | 0, _, _, h, _ => by omega
  | f + 1, n, d, hf, hn => by
    simp only [decimal]
    split
    · simp
    · cases d with
      | zero => simp only [Nat.zero_add, Nat.pow_one] at hn; omega
      | succ d =>
        have : n / 10 < 10 ^ (d + 1) := by
          rw [Nat.div_lt_iff_lt_mul (by omega)]
          rw [Nat.pow_succ] at hn
          exact hn
        have := decimal_length f (n / 10) d (by omega) this
        simp only [List.length_append, List.length_singleton]
        omega

/-- **C54.** The numbers of a list are right-aligned: all take the same room, except when the
number of entries is a power of ten, where the last number takes one column more. -/
theorem enum_aligned (n k : Nat) (h1 : 1 ≤ k) (h2 : k ≤ n) :
    (padNum (digitsOf n) k).length = digitsOf n ∨ (k = n ∧ n = 10 ^ digitsOf n) := by
  have h0 := (enum_digits n (by omega)).1
  by_cases h3 : k < 10 ^ digitsOf n
  case neg => right; omega
  left
  have hd : digitsOf n ≠ 0 := by intro e; rw [e] at h3; simp at h3; omega
  obtain ⟨d, hd⟩ := Nat.exists_eq_succ_of_ne_zero hd
  have := decimal_length (k + 1) k d (by omega) (by rw [← Nat.succ_eq_add_one, ← hd]; exact h3)
  simp only [padNum, List.length_append, spaces, List.length_replicate]
  omega

example : (List.range 12).map (fun k => padNum (digitsOf 12) (k + 1)) =
    [S " 1", S " 2", S " 3", S " 4", S " 5", S " 6", S " 7", S " 8", S " 9", S "10", S "11", S "12"] := by decide +kernel

/-- With ten entries the last number sticks out by one column. -/
theorem ten_entries : digitsOf 10 = 1 ∧ (padNum (digitsOf 10) 10).length = 2 := by decide +kernel

end Verif.Props.MarkupLists
