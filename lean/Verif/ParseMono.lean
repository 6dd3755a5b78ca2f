import Verif.ParseLemmas

/-!
# The fuel of the parser does not influence its result (lemmas for C08)
-/

namespace Verif.Parse
open Verif Py Lex

/-- `x` ran out of fuel or is `y`. -/
def Le {α : Type} (x y : Except Err α) : Prop := x = .error .fuel ∨ x = y

theorem Le.refl {α : Type} (x : Except Err α) : Le x x := Or.inr rfl

theorem Le.bind {α β : Type} {x y : Except Err α} {f g : α → Except Err β} (h : Le x y)
    (hf : ∀ a, Le (f a) (g a)) : Le (x >>= f) (y >>= g) := by
  rcases h with rfl | rfl
  · exact Or.inl rfl
  · cases x with
    | ok a => exact hf a
    | error e => exact Or.inr rfl

theorem Le.must {x y : R} (ts : List Token) (h : Le x y) : Le (must x ts) (must y ts) :=
  Le.bind h fun _ => Le.refl _

theorem if_le {α : Type} {c : Prop} [Decidable c] {x y x' y' : Except Err α} (h1 : Le x y)
    (h2 : Le x' y') : Le (if c then x else x') (if c then y else y') := by
  split
  · exact h1
  · exact h2

/-- Bring two runs of the same loop body together. -/
macro "mono" H:ident : tactic => `(tactic| repeat' first
  | exact Le.refl _
  | exact $H _ _ _
  | (refine Le.bind ($H _ _ _) ?_; intro _)
  | (refine Le.bind (Le.must _ ($H _ _ _)) ?_; intro _)
  | (refine Le.bind (Le.refl _) ?_; intro _)
  | split)

section
variable {ctx : Ctx} {rec rec' : Rec} (H : ∀ job up ts, Le (rec job up ts) (rec' job up ts))
include H

theorem stdIter_mono (cmd : Option CmdInfo) (specs : List PSpec) (dflt : PSpec) (kwargs : List (Str × ArgP)) (brk : List Breaker) (kbrk : List Breaker) (acc : List Node) (up : Bool) (ts : List Token) :
    Le (stdIter rec cmd specs dflt kwargs brk kbrk acc up ts) (stdIter rec' cmd specs dflt kwargs brk kbrk acc up ts) := by
  cases ts <;> simp only [stdIter] <;> mono H

theorem posIter_mono (spec : PSpec) (brk : List Breaker) (sortable : Bool) (acc : List Node) (n : Nat) (up : Bool) (ts : List Token) :
    Le (posIter ctx rec spec brk sortable acc n up ts) (posIter ctx rec' spec brk sortable acc n up ts) := by
  cases ts <;> simp only [posIter] <;> mono H

theorem kwIter_mono (word : Str) (p : ArgP) (brk : List Breaker) (ts : List Token) :
    Le (kwIter rec word p brk ts) (kwIter rec' word p brk ts) := by
  cases ts <;> simp only [kwIter] <;> mono H

theorem parenIter_mono  (ts : List Token) :
    Le (parenIter ctx rec  ts) (parenIter ctx rec'  ts) := by
  cases ts <;> simp only [parenIter] <;> mono H

theorem condIter_mono (brk : List Breaker) (acc : List Node) (up : Bool) (ts : List Token) :
    Le (condIter rec brk acc up ts) (condIter rec' brk acc up ts) := by
  cases ts <;> simp only [condIter] <;> mono H

theorem tupleIter_mono (npargs : Nargs) (ntup : Nat) (flags : List Str) (brk : List Breaker) (acc : List Node) (grp : Option (List Node)) (after : List Node) (np : Nat) (nt : Nat) (up : Bool) (ts : List Token) :
    Le (tupleIter ctx rec npargs ntup flags brk acc grp after np nt up ts) (tupleIter ctx rec' npargs ntup flags brk acc grp after np nt up ts) := by
  cases ts <;> simp only [tupleIter] <;> mono H

theorem flagIter_mono (flags : List Str) (brk : List Breaker) (acc : List Node) (up : Bool) (ts : List Token) :
    Le (flagIter ctx rec flags brk acc up ts) (flagIter ctx rec' flags brk acc up ts) := by
  cases ts <;> simp only [flagIter] <;> mono H

theorem setIter_mono (varname : Option Str) (brk : List Breaker) (acc : List Node) (up : Bool) (ts : List Token) :
    Le (setIter ctx rec varname brk acc up ts) (setIter ctx rec' varname brk acc up ts) := by
  cases ts <;> simp only [setIter] <;> mono H

theorem emptyIter_mono (brk : List Breaker) (acc : List Node) (up : Bool) (ts : List Token) :
    Le (emptyIter rec brk acc up ts) (emptyIter rec' brk acc up ts) := by
  cases ts <;> simp only [emptyIter] <;> mono H

theorem foreachInIter_mono (brk : List Breaker) (acc : List Node) (up : Bool) (ts : List Token) :
    Le (foreachInIter rec brk acc up ts) (foreachInIter rec' brk acc up ts) := by
  cases ts <;> simp only [foreachInIter] <;> mono H

theorem srcIter_mono (lib : Bool) (brk : List Breaker) (state : Nat) (sortable : Bool) (srcSortable : Bool) (inAfter : Bool) (before : List Node) (parg : List Node) (src : List Node) (after : List Node) (up : Bool) (ts : List Token) :
    Le (srcIter ctx rec lib brk state sortable srcSortable inAfter before parg src after up ts) (srcIter ctx rec' lib brk state sortable srcSortable inAfter before parg src after up ts) := by
  cases ts with
  | nil => exact Le.refl _
  | cons t ts =>
    simp only [srcIter]
    refine if_le ?_ (if_le ?_ (if_le ?_ (if_le ?_ (if_le (if_le ?_ ?_) ?_))))
    · exact Le.refl _
    · exact if_le (H _ _ _) (if_le (H _ _ _) (if_le (H _ _ _) (H _ _ _)))
    · exact if_le (H _ _ _) (if_le (H _ _ _) (if_le (H _ _ _) (H _ _ _)))
    all_goals exact H _ _ _

theorem objIter_mono (brk : List Breaker) (acc : List Node) (up : Bool) (ts : List Token) :
    Le (objIter rec brk acc up ts) (objIter rec' brk acc up ts) := by
  cases ts <;> simp only [objIter] <;> mono H

theorem targetIter_mono (state : Nat) (brk : List Breaker) (acc : List Node) (up : Bool) (ts : List Token) :
    Le (targetIter rec state brk acc up ts) (targetIter rec' state brk acc up ts) := by
  cases ts <;> simp only [targetIter] <;> mono H

theorem installIter_mono (brk : List Breaker) (acc : List Node) (up : Bool) (ts : List Token) :
    Le (installIter rec brk acc up ts) (installIter rec' brk acc up ts) := by
  cases ts <;> simp only [installIter] <;> mono H

theorem stmtIter_mono  (ts : List Token) :
    Le (stmtIter ctx rec  ts) (stmtIter ctx rec'  ts) := by
  cases ts <;> simp only [stmtIter] <;> mono H

theorem flowIter_mono  (ts : List Token) :
    Le (flowIter rec  ts) (flowIter rec'  ts) := by
  cases ts <;> simp only [flowIter] <;> mono H

theorem ifIter_mono (acc : List Node) (ts : List Token) :
    Le (ifIter rec acc ts) (ifIter rec' acc ts) := by
  cases ts <;> simp only [ifIter] <;> mono H

theorem bodyIter_mono (breakset : List Str) (acc : List Node) (ts : List Token) :
    Le (bodyIter ctx rec breakset acc ts) (bodyIter ctx rec' breakset acc ts) := by
  cases ts <;> simp only [bodyIter] <;> mono H

theorem step_mono (job : Job) (up : Bool) (ts : List Token) :
    Le (step ctx rec job up ts) (step ctx rec' job up ts) := by
  cases job with
  | arg p brk =>
    cases p <;> simp only [step, argStart, stdStart, setStart, foreachStdStart, foreachInStart, objStart,
      fileWriteStart] <;> mono H
  | pos spec brk => simp only [step, posStart]; mono H
  | stdLoop cmd specs dflt kwargs brk kbrk acc => exact stdIter_mono H ..
  | posLoop spec brk sortable acc n => exact posIter_mono H ..
  | kwGroup word p brk => exact kwIter_mono H ..
  | paren  => exact parenIter_mono H ..
  | condLoop brk acc => exact condIter_mono H ..
  | tupleLoop npargs ntup flags brk acc grp after np nt => exact tupleIter_mono H ..
  | flagLoop flags brk acc => exact flagIter_mono H ..
  | setLoop varname brk acc => exact setIter_mono H ..
  | emptyLoop brk acc => exact emptyIter_mono H ..
  | foreachInLoop brk acc => exact foreachInIter_mono H ..
  | srcLoop lib brk state sortable srcSortable inAfter before parg src after => exact srcIter_mono H ..
  | objLoop brk acc => exact objIter_mono H ..
  | targetLoop state brk acc => exact targetIter_mono H ..
  | installLoop brk acc => exact installIter_mono H ..
  | statement  => exact stmtIter_mono H ..
  | flow  => exact flowIter_mono H ..
  | ifLoop acc => exact ifIter_mono H ..
  | body breakset acc => exact bodyIter_mono H ..
end

theorem exec_le_succ (ctx : Ctx) (n : Nat) (job : Job) (up : Bool) (ts : List Token) :
    Le (exec ctx n job up ts) (exec ctx (n + 1) job up ts) := by
  induction n generalizing job up ts with
  | zero => exact Or.inl rfl
  | succ n ih => exact step_mono ih job up ts

theorem Le.trans {α : Type} {x y z : Except Err α} (h1 : Le x y) (h2 : Le y z) : Le x z := by
  rcases h1 with rfl | rfl
  · exact Or.inl rfl
  · exact h2

theorem exec_le (ctx : Ctx) {n m : Nat} (h : n ≤ m) (job : Job) (up : Bool) (ts : List Token) :
    Le (exec ctx n job up ts) (exec ctx m job up ts) := by
  induction h with
  | refl => exact Le.refl _
  | step _ ih => exact ih.trans (exec_le_succ ctx _ job up ts)

/-- More fuel gives the same result. -/
theorem exec_stable {ctx : Ctx} {n m : Nat} (h : n ≤ m) {job : Job} {up : Bool} {ts : List Token}
    (hn : exec ctx n job up ts ≠ .error .fuel) : exec ctx m job up ts = exec ctx n job up ts := by
  rcases exec_le ctx h job up ts with e | e
  · exact absurd e hn
  · exact e.symm

theorem parseN_stable {ctx : Ctx} {n m : Nat} (h : n ≤ m) {ts : List Token}
    (hn : parseN ctx n ts ≠ .error .fuel) : parseN ctx m ts = parseN ctx n ts := by
  have : exec ctx n (.body [] []) false ts ≠ .error .fuel := by
    intro e; apply hn; simp [parseN, e]
  simp only [parseN, exec_stable h this]

end Verif.Parse
