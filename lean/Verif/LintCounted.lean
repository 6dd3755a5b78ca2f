import Verif.LintTree
import Verif.ParseNeat
import Verif.DbLemmas

/-!
# Every group of positional arguments has a count that cmake-lint can read

`check_positional_group` asks for the least number of arguments of a group; that fails for a count
that is not a number, `*`, `?`, `+` or a number with `+`.
-/

namespace Verif.Parse
open Verif Py Lex Parse.Funs

/-- A count that can be read: what `Lint.minArgs` accepts. -/
def goodCount : Nargs → Bool
  | .int _ => true
  | .str s => s == ['*'] || s == ['?'] || s == ['+'] || (s.getLast? == some '+' && isIntLit s.dropLast) || isIntLit s

theorem minArgs_good {k : Nargs} (h : goodCount k = true) : ∃ m, Lint.minArgs k = .ok m := by
  cases k with
  | int n => exact ⟨n, rfl⟩
  | str s =>
    have e1 : S "*" = ['*'] := rfl
    have e2 : S "?" = ['?'] := rfl
    have e3 : S "+" = ['+'] := rfl
    simp only [goodCount, Bool.or_eq_true, Bool.and_eq_true, beq_iff_eq] at h
    simp only [Lint.minArgs, e1, e2, e3]
    split
    · exact ⟨_, rfl⟩
    · split
      · exact ⟨_, rfl⟩
      · split
        · exact ⟨_, rfl⟩
        · split
          · exact ⟨_, rfl⟩
          · simp_all

mutual
/-- All counts of a parser can be read. -/
def ArgP.counted : ArgP → Bool
  | .standard _ specs kwargs => specs.all (fun s => goodCount s.nargs) && countedL kwargs
  | .positional s => goodCount s.nargs
  | .choose _ => false
  | _ => true
/-- The keywords. -/
def countedL : List (Str × ArgP) → Bool
  | [] => true
  | (_, p) :: kps => p.counted && countedL kps
end

theorem countedL_mem {kps : List (Str × ArgP)} (h : countedL kps = true) : ∀ kp ∈ kps, kp.2.counted = true := by
  induction kps with
  | nil => simp
  | cons kp kps ih =>
    obtain ⟨k, p⟩ := kp
    simp only [countedL, Bool.and_eq_true] at h
    intro kp hkp
    rcases List.mem_cons.1 hkp with rfl | hkp
    · exact h.1
    · exact ih h.2 kp hkp

/-- The same for what the database holds: a parser, or a choice among such parsers. -/
inductive Counts : ArgP → Prop
  | one {p : ArgP} : p.counted = true → Counts p
  | choose {f : List Token → Except Err ArgP} : (∀ ts q, f ts = .ok q → q.counted = true) → Counts (.choose f)

/-- A group of positional arguments has a count that can be read. -/
def CountedHere : Node → Prop
  | .node .pargGroup a _ => ∃ k, a.nargs = some k ∧ goodCount k = true
  | _ => True

/-- All groups in the tree have one. -/
def Counted (n : Node) : Prop := ∀ m, Sub m n → CountedHere m

/-- All groups in a list of trees have one. -/
def CountedL (cs : List Node) : Prop := ∀ x ∈ cs, Counted x

theorem counted_tok (t : Token) : Counted (.tok t) := by
  intro m h; cases h; trivial

theorem counted_node {ty : NT} {a : Attr} {cs : List Node} (h : CountedL cs)
    (hh : CountedHere (.node ty a cs)) : Counted (.node ty a cs) := by
  intro m hm
  cases hm with
  | refl => exact hh
  | child hc hs => exact h _ hc m hs

theorem counted_kids {ty : NT} {a : Attr} {cs : List Node} (h : Counted (.node ty a cs)) : CountedL cs :=
  fun _ hc m hs => h m (.child hc hs)

theorem cl_nil : CountedL [] := by simp [CountedL]

theorem cl_append {a b : List Node} (ha : CountedL a) (hb : CountedL b) : CountedL (a ++ b) := by
  intro x hx
  rcases List.mem_append.1 hx with h | h
  · exact ha x h
  · exact hb x h

theorem cl_cons {a : Node} {b : List Node} (ha : Counted a) (hb : CountedL b) : CountedL (a :: b) := by
  intro x hx
  rcases List.mem_cons.1 hx with rfl | h
  · exact ha
  · exact hb x h

theorem cl_leaves (ts : List Token) : CountedL (leaves ts) := by
  intro x hx
  simp only [leaves, List.mem_map] at hx
  obtain ⟨t, _, rfl⟩ := hx
  exact counted_tok t

theorem cl_map (ts : List Token) : CountedL (ts.map Node.tok) := cl_leaves ts

theorem cl_if {c : Prop} [Decidable c] {a : List Node} (ha : CountedL a) : CountedL (if c then a else []) := by
  split
  · exact ha
  · exact cl_nil

theorem counted_comment (t : Token) (ts : List Token) : Counted (consumeComment t ts).1 := by
  simp only [consumeComment]
  repeat' split
  all_goals exact counted_node (by first | exact cl_map _ | exact cl_leaves _ | exact cl_cons (counted_tok _) cl_nil) trivial

theorem cl_trailing (ctx : Ctx) (ts : List Token) : CountedL (consumeTrailing ctx ts).1 := by
  simp only [consumeTrailing]
  repeat' split
  all_goals first
    | exact cl_nil
    | exact cl_append (cl_leaves _) (cl_cons (counted_node (cl_leaves _) trivial) cl_nil)
    | exact cl_append (cl_map _) (cl_cons (counted_node (cl_map _) trivial) cl_nil)

theorem cl_wsComments (k : Nat) (ts : List Token) : CountedL (wsComments k ts).1 := by
  induction k generalizing ts with
  | zero => exact cl_nil
  | succ k ih =>
    cases ts with
    | nil => exact cl_nil
    | cons t ts =>
      simp only [wsComments]
      repeat' split
      all_goals first
        | exact cl_cons (counted_tok _) (ih _)
        | exact cl_cons (counted_comment _ _) (ih _)
        | exact cl_cons (counted_node (cl_cons (counted_tok _) cl_nil) trivial) (ih _)
        | exact cl_nil

theorem counted_group {a : Attr} {cs : List Node} {k : Nargs} (ha : a.nargs = some k) (hk : goodCount k = true)
    (h : CountedL cs) : Counted (.node .pargGroup a cs) := counted_node h ⟨k, ha, hk⟩

theorem counted_addTags {tags : List Str} {n : Node} (h : Counted n) : Counted (addTags tags n) := by
  cases n with
  | tok t => exact h
  | node ty a cs =>
    refine counted_node (counted_kids h) ?_
    have := h _ (.refl _)
    cases ty <;> first | trivial | exact this

theorem counted_tagGroups {n : Node} (h : Counted n) : Counted (tagGroups n) := by
  cases n with
  | tok t => exact h
  | node ty a cs =>
    refine counted_node ?_ ?_
    · intro x hx
      obtain ⟨c, hc, rfl⟩ := List.mem_map.1 hx
      have hcc := counted_kids h c hc
      split
      · have := hcc _ (.refl _)
        exact counted_node (counted_kids hcc) this
      · exact hcc
    · have := h _ (.refl _)
      cases ty <;> first | trivial | exact this

/-- The counts that a job works with can be read. -/
def JobCounts : Job → Prop
  | .arg p _ => Counts p
  | .stdLoop _ specs dflt kwargs _ _ _ => (∀ s ∈ specs, goodCount s.nargs = true) ∧ goodCount dflt.nargs = true ∧ ∀ kp ∈ kwargs, kp.2.counted = true
  | .pos spec _ => goodCount spec.nargs = true
  | .posLoop spec _ _ _ _ => goodCount spec.nargs = true
  | .kwGroup _ p _ => p.counted = true
  | _ => True

/-- What a job needs. -/
def CPre (job : Job) : Prop := JobCounts job ∧ CountedL job.nodes

theorem counted_leaf {ty : NT} {cs : List Node} (ht : ty ≠ .pargGroup) (h : CountedL cs) : Counted (mk ty cs) := by
  refine counted_node h ?_
  cases ty <;> first | trivial | exact absurd rfl ht

theorem counted_choice {c : Prop} [Decidable c] {cs : List Node} (h : CountedL cs) :
    Counted (mk (if c then .flag else .argument) cs) := by
  refine counted_leaf ?_ h
  split <;> simp

theorem lookup_counted {t : Token} {kwargs : List (Str × ArgP)} {w : Str} {p : ArgP}
    (h : (normKwarg t).bind (fun w => (kwargs.lookup w).map (fun p => (w, p))) = some (w, p))
    (hk : ∀ kp ∈ kwargs, kp.2.counted = true) : p.counted = true := by
  obtain ⟨w', _, h⟩ := Option.bind_eq_some_iff.1 h
  obtain ⟨q, h1, h2⟩ := Option.map_eq_some_iff.1 h
  simp only [Prod.mk.injEq] at h2
  obtain ⟨rfl, rfl⟩ := h2
  exact hk _ (lookup_pair_mem h1)

/-- A goal about trees or lists of trees. -/
macro "cntl" : tactic => `(tactic| repeat' first
  | assumption
  | exact cl_nil
  | exact cl_leaves _
  | exact cl_map _
  | exact cl_trailing _ _
  | exact cl_wsComments _ _
  | exact counted_tok _
  | exact counted_comment _ _
  | refine counted_addTags ?_
  | refine cl_append ?_ ?_
  | refine cl_cons ?_ ?_
  | refine cl_if ?_
  | refine counted_choice ?_
  | refine counted_leaf (by simp) ?_
  | refine counted_group rfl rfl ?_
  | refine counted_group rfl (by assumption) ?_
  | refine counted_node ?_ trivial)

/-- The side conditions of a call. -/
macro "cntpre" : tactic => `(tactic|
  (refine ⟨?_, ?_⟩
   · first
     | exact trivial
     | assumption
     | rfl
     | exact .one rfl
     | exact lookup_counted (by assumption) (by assumption)
   · simp only [Job.nodes]; cntl))

section
variable {ctx : Ctx} {rec : Rec}
  (H : ∀ job up ts, CPre job → Sat (fun r => Counted r.1) True (rec job up ts))

/-- Walk through a loop body. -/
macro "cntw" H:ident : tactic => `(tactic| repeat' first
  | exact Sat.any
  | exact done (by (try simp only [stdNode, mkPos, mkArg, mkBare, srcNode, tupleChildren]); cntl)
  | exact $H _ _ _ (by cntpre)
  | (refine Sat.bind ($H _ _ _ (by cntpre)) ?_; rintro ⟨sub, rest⟩ hsub;
      try dsimp only at hsub ⊢)
  | (refine Sat.bind (Sat.must' ($H _ _ _ (by cntpre))) ?_;
      rintro ⟨sub, rest⟩ hsub; try dsimp only at hsub ⊢)
  | (refine Sat.bindT ?_; intro _ _; try dsimp only)
  | split)

include H

theorem posIter_counted (spec : PSpec) (brk : List Breaker) (sortable : Bool) (acc : List Node) (k : Nat)
    (up : Bool) (ts : List Token) (hs : goodCount spec.nargs = true) (hA : CountedL acc) :
    Sat (fun r => Counted r.1) True (posIter ctx rec spec brk sortable acc k up ts) := by
  cases ts <;> simp only [posIter] <;> cntw H

theorem condIter_counted (brk : List Breaker) (acc : List Node) (up : Bool) (ts : List Token) (hA : CountedL acc) :
    Sat (fun r => Counted r.1) True (condIter rec brk acc up ts) := by
  cases ts <;> simp only [condIter] <;> cntw H

theorem setIter_counted (varname : Option Str) (brk : List Breaker) (acc : List Node) (up : Bool) (ts : List Token) (hA : CountedL acc) :
    Sat (fun r => Counted r.1) True (setIter ctx rec varname brk acc up ts) := by
  cases ts <;> simp only [setIter] <;> cntw H

theorem emptyIter_counted (brk : List Breaker) (acc : List Node) (up : Bool) (ts : List Token) (hA : CountedL acc) :
    Sat (fun r => Counted r.1) True (emptyIter rec brk acc up ts) := by
  cases ts <;> simp only [emptyIter] <;> cntw H

theorem foreachInIter_counted (brk : List Breaker) (acc : List Node) (up : Bool) (ts : List Token) (hA : CountedL acc) :
    Sat (fun r => Counted r.1) True (foreachInIter rec brk acc up ts) := by
  cases ts <;> simp only [foreachInIter] <;> cntw H

theorem objIter_counted (brk : List Breaker) (acc : List Node) (up : Bool) (ts : List Token) (hA : CountedL acc) :
    Sat (fun r => Counted r.1) True (objIter rec brk acc up ts) := by
  cases ts <;> simp only [objIter] <;> cntw H

theorem flagIter_counted (flags : List Str) (brk : List Breaker) (acc : List Node) (up : Bool) (ts : List Token) (hA : CountedL acc) :
    Sat (fun r => Counted r.1) True (flagIter ctx rec flags brk acc up ts) := by
  cases ts <;> simp only [flagIter] <;> cntw H

theorem kwIter_counted (word : Str) (p : ArgP) (brk : List Breaker) (ts : List Token) (hp : p.counted = true) :
    Sat (fun r => Counted r.1) True (kwIter rec word p brk ts) := by
  have hp' := Counts.one hp
  cases ts <;> simp only [kwIter] <;> cntw H

theorem parenIter_counted (ts : List Token) : Sat (fun r => Counted r.1) True (parenIter ctx rec ts) := by
  cases ts <;> simp only [parenIter] <;> cntw H

theorem stdIter_counted (cmd : Option CmdInfo) (specs : List PSpec) (dflt : PSpec) (kwargs : List (Str × ArgP))
    (brk kbrk : List Breaker) (acc : List Node) (up : Bool) (ts : List Token) (h1 : ∀ s ∈ specs, goodCount s.nargs = true)
    (h2 : goodCount dflt.nargs = true) (h3 : ∀ kp ∈ kwargs, kp.2.counted = true) (hA : CountedL acc) :
    Sat (fun r => Counted r.1) True (stdIter rec cmd specs dflt kwargs brk kbrk acc up ts) := by
  have hj : (∀ s ∈ specs, goodCount s.nargs = true) ∧ goodCount dflt.nargs = true ∧ ∀ kp ∈ kwargs, kp.2.counted = true := ⟨h1, h2, h3⟩
  have hj' : (∀ s ∈ specs.tail, goodCount s.nargs = true) ∧ goodCount dflt.nargs = true ∧ ∀ kp ∈ kwargs, kp.2.counted = true :=
    ⟨fun s hs => h1 s (List.mem_of_mem_tail hs), h2, h3⟩
  have hh : goodCount (specs.headD dflt).nargs = true := by
    cases specs with
    | nil => exact h2
    | cons s ss => exact h1 s (List.mem_cons_self ..)
  cases ts <;> simp only [stdIter] <;> cntw H

theorem targetIter_counted (state : Nat) (brk : List Breaker) (acc : List Node) (up : Bool) (ts : List Token) (hA : CountedL acc) :
    Sat (fun r => Counted r.1) True (targetIter rec state brk acc up ts) := by
  have hk : ∀ kp ∈ targetKwargs, kp.2.counted = true := countedL_mem rfl
  cases ts <;> simp only [targetIter] <;> cntw H

theorem installIter_counted (brk : List Breaker) (acc : List Node) (up : Bool) (ts : List Token) (hA : CountedL acc) :
    Sat (fun r => Counted r.1) True (installIter rec brk acc up ts) := by
  have hk : ∀ kp ∈ installKwargs, kp.2.counted = true := countedL_mem rfl
  cases ts <;> simp only [installIter] <;> cntw H

theorem tupleIter_counted (npargs : Nargs) (ntup : Nat) (flags : List Str) (brk : List Breaker) (acc : List Node)
    (grp : Option (List Node)) (after : List Node) (np nt : Nat) (up : Bool) (ts : List Token)
    (hA : CountedL (acc ++ grp.getD [] ++ after)) :
    Sat (fun r => Counted r.1) True (tupleIter ctx rec npargs ntup flags brk acc grp after np nt up ts) := by
  have h1 : CountedL acc := fun x hx => hA x (by simp [hx])
  have h2 : CountedL after := fun x hx => hA x (by simp [hx])
  have h3 : CountedL (grp.getD []) := fun x hx => hA x (by simp [hx])
  cases grp with
  | none => cases ts <;> simp only [tupleIter] <;> cntw H
  | some g =>
    simp only [Option.getD_some] at h3
    cases ts <;> simp only [tupleIter] <;> cntw H

theorem srcIter_counted (lib : Bool) (brk : List Breaker) (state : Nat) (sortable srcSortable inAfter : Bool)
    (before parg src after : List Node) (up : Bool) (ts : List Token) (hA : CountedL (before ++ parg ++ src ++ after)) :
    Sat (fun r => Counted r.1) True (srcIter ctx rec lib brk state sortable srcSortable inAfter before parg src after up ts) := by
  have h1 : CountedL before := fun x hx => hA x (by simp [hx])
  have h2 : CountedL parg := fun x hx => hA x (by simp [hx])
  have h3 : CountedL src := fun x hx => hA x (by simp [hx])
  have h4 : CountedL after := fun x hx => hA x (by simp [hx])
  cases ts <;> simp only [srcIter] <;> cntw H

theorem argStart_counted (p : ArgP) (brk : List Breaker) (up : Bool) (ts : List Token) (hp : Counts p) :
    Sat (fun r => Counted r.1) True (argStart rec p brk up ts) := by
  cases p with
  | shell =>
    simp only [argStart]
    refine Sat.bind (H _ _ _ (by cntpre)) ?_
    rintro ⟨n, rest⟩ h1
    exact done (counted_tagGroups h1)
  | standard cmd specs kwargs =>
    have hp : (ArgP.standard cmd specs kwargs).counted = true := by cases hp; assumption
    simp only [ArgP.counted, Bool.and_eq_true, List.all_eq_true] at hp
    simp only [argStart, stdStart]
    refine H _ _ _ ⟨⟨?_, ?_, countedL_mem hp.2⟩, cl_leaves _⟩
    · intro s hs
      unfold splitSpecs at hs
      split at hs
      · split at hs
        · simp at hs
        · exact hp.1 s hs
      · exact hp.1 s hs
    · unfold splitSpecs
      split
      · split
        · exact hp.1 _ (List.mem_singleton.2 rfl)
        · rfl
      · rfl
  | positional s =>
    have hp : (ArgP.positional s).counted = true := by cases hp; assumption
    simp only [ArgP.counted] at hp
    simp only [argStart]
    cntw H
  | choose f =>
    simp only [argStart]
    cases e : f ts with
    | error e => exact Sat.any
    | ok q =>
      refine H _ _ _ ⟨?_, cl_nil⟩
      cases hp with
      | one h => simp [ArgP.counted] at h
      | choose h => exact .one (h ts q e)
  | _ =>
    simp only [argStart, setStart, foreachStdStart, foreachInStart, objStart, fileWriteStart]
    cntw H

omit H in
theorem stmtTail_counted (k : Nat) (ts : List Token) (ns : List Node) (rest : List Token)
    (h : stmtTail k ts = .ok (ns, rest)) : CountedL ns := by
  induction k generalizing ts ns rest with
  | zero => simp only [stmtTail, Except.ok.injEq, Prod.mk.injEq] at h; rw [← h.1]; exact cl_nil
  | succ k ih =>
    cases ts with
    | nil => simp only [stmtTail, Except.ok.injEq, Prod.mk.injEq] at h; rw [← h.1]; exact cl_nil
    | cons t ts =>
      simp only [stmtTail] at h
      split at h
      · simp only [Except.ok.injEq, Prod.mk.injEq] at h; rw [← h.1]; exact cl_nil
      · split at h
        · obtain ⟨⟨ns', r'⟩, h1, h⟩ := Parse.bind_ok.1 h
          simp only [pure_ok, Prod.mk.injEq] at h
          rw [← h.1]
          exact cl_cons (counted_tok _) (ih _ _ _ h1)
        · split at h
          · obtain ⟨⟨ns', r'⟩, h1, h⟩ := Parse.bind_ok.1 h
            simp only [pure_ok, Prod.mk.injEq] at h
            rw [← h.1]
            exact cl_cons (counted_comment _ _) (ih _ _ _ h1)
          · simp at h

theorem stmtIter_counted (hc : ∀ name, Counts (lookupParser ctx name)) (ts : List Token) :
    Sat (fun r => Counted r.1) True (stmtIter ctx rec ts) := by
  cases ts with
  | nil => exact Sat.any
  | cons t ts =>
    simp only [stmtIter]
    split
    · exact Sat.any
    · split
      · exact Sat.any
      · refine Sat.bind (H _ _ _ ⟨hc _, cl_nil⟩) ?_
        rintro ⟨sub, rest⟩ hsub
        dsimp only at hsub ⊢
        refine Sat.bindT ?_
        rintro ⟨tail, rest1⟩ ht
        have htail := stmtTail_counted _ _ _ _ ht
        dsimp only
        split
        · exact Sat.any
        · exact done (by cntl)

theorem flowIter_counted (ts : List Token) : Sat (fun r => Counted r.1) True (flowIter rec ts) := by
  cases ts <;> simp only [flowIter] <;> cntw H

theorem ifIter_counted (acc : List Node) (ts : List Token) (hA : CountedL acc) : Sat (fun r => Counted r.1) True (ifIter rec acc ts) := by
  cases ts <;> simp only [ifIter] <;> cntw H

theorem bodyIter_counted (breakset : List Str) (acc : List Node) (ts : List Token) (hA : CountedL acc) :
    Sat (fun r => Counted r.1) True (bodyIter ctx rec breakset acc ts) := by
  cases ts <;> simp only [bodyIter] <;> cntw H

theorem step_counted (hc : ∀ name, Counts (lookupParser ctx name)) (job : Job) (up : Bool) (ts : List Token) (hp : CPre job) :
    Sat (fun r => Counted r.1) True (step ctx rec job up ts) := by
  obtain ⟨hj, hA⟩ := hp
  cases job with
  | arg p brk => exact argStart_counted H p brk up ts hj
  | stdLoop cmd specs dflt kwargs brk kbrk acc => exact stdIter_counted H _ _ _ _ _ _ _ _ _ hj.1 hj.2.1 hj.2.2 hA
  | pos spec brk => exact H _ _ _ ⟨hj, cl_leaves _⟩
  | posLoop spec brk sortable acc n => exact posIter_counted H _ _ _ _ _ _ _ hj hA
  | kwGroup word p brk => exact kwIter_counted H _ _ _ _ hj
  | paren => exact parenIter_counted H ..
  | condLoop brk acc => exact condIter_counted H _ _ _ _ hA
  | tupleLoop npargs ntup flags brk acc grp after np nt => exact tupleIter_counted H _ _ _ _ _ _ _ _ _ _ _ hA
  | flagLoop flags brk acc => exact flagIter_counted H _ _ _ _ _ hA
  | setLoop varname brk acc => exact setIter_counted H _ _ _ _ _ hA
  | emptyLoop brk acc => exact emptyIter_counted H _ _ _ _ hA
  | foreachInLoop brk acc => exact foreachInIter_counted H _ _ _ _ hA
  | srcLoop lib brk state sortable srcSortable inAfter before parg src after =>
    exact srcIter_counted H _ _ _ _ _ _ _ _ _ _ _ _ hA
  | objLoop brk acc => exact objIter_counted H _ _ _ _ hA
  | targetLoop state brk acc => exact targetIter_counted H _ _ _ _ _ hA
  | installLoop brk acc => exact installIter_counted H _ _ _ _ hA
  | statement => exact stmtIter_counted H hc _
  | flow => exact flowIter_counted H _
  | ifLoop acc => exact ifIter_counted H _ _ hA
  | body breakset acc => exact bodyIter_counted H _ _ _ hA

omit H in
theorem exec_counted (hc : ∀ name, Counts (lookupParser ctx name)) (n : Nat) (job : Job) (up : Bool) (ts : List Token)
    (hp : CPre job) : Sat (fun r => Counted r.1) True (exec ctx n job up ts) := by
  induction n generalizing job up ts with
  | zero => exact fun _ => trivial
  | succ n ih => exact step_counted (fun job up ts hp => ih job up ts hp) hc job up ts hp

end

/-- Every group of a parsed file has a count that can be read. -/
theorem parse_counted {ctx : Ctx} (hc : ∀ name, Counts (lookupParser ctx name)) {ts : List Token} {tree : Node}
    (h : parse ctx ts = .ok tree) : Counted tree := by
  have h1 := exec_counted hc (12 * ts.length + 12) (.body [] []) false ts ⟨trivial, cl_nil⟩
  simp only [parse, parseN] at h
  split at h
  · simp at h
  · rename_i tree' rest he
    simp only [Except.ok.injEq] at h
    subst h
    rw [he] at h1
    exact h1

/-! ## The command database -/

theorem anyArgs_counted : anyArgs.counted = true := rfl

theorem table_counted {table : List (Str × ArgP)} (h : countedL table = true) (w : Str) :
    ((table.lookup w).getD anyArgs).counted = true := by
  cases e : table.lookup w with
  | none => rfl
  | some p => exact countedL_mem h _ (lookup_pair_mem e)

theorem byFirst_counts {table : List (Str × ArgP)} (h : countedL table = true) : Counts (byFirst table) := by
  refine .choose ?_
  intro ts q hq
  split at hq
  · rw [← Except.ok.inj hq]; rfl
  · split at hq
    · rw [← Except.ok.inj hq]; rfl
    · rw [← Except.ok.inj hq]; exact table_counted h _

/-- What a parse function may choose. -/
macro "chosen" : tactic => `(tactic|
  (refine Counts.choose ?_
   intro ts q h
   repeat' split at h
   all_goals first
     | (rw [anyLogged_ok h]; rfl)
     | (rw [← Except.ok.inj h]; rfl)
     | (rw [← Except.ok.inj h]; exact table_counted rfl _)
     | (simp at h; done)))

theorem funTable_counts : ∀ kp ∈ funTable, Counts kp.2 := by
  unfold funTable
  repeat' refine List.forall_mem_cons.2 ⟨?_, ?_⟩
  all_goals
    first
    | exact fun _ h => absurd h (List.not_mem_nil)
    | exact .one rfl
    | exact byFirst_counts rfl
    | (show Counts addExecutable; chosen)
    | (show Counts addLibrary; chosen)
    | (show Counts oldInstallFiles; chosen)
    | (show Counts foreachFn; chosen)
    | (show Counts installFn; chosen)
    | (show Counts buildCommand; chosen)
    | (show Counts cmakePolicy; chosen)
    | (show Counts getFilenameComponent; chosen)
    | (show Counts sourceGroup; chosen)
    | (show Counts ctestSleep; chosen)
    | (show Counts addCustomCommand; chosen)

theorem flowTable_counts : ∀ kp ∈ flowTable, Counts kp.2 := by
  unfold flowTable
  repeat' refine List.forall_mem_cons.2 ⟨?_, ?_⟩
  all_goals
    first
    | exact fun _ h => absurd h (List.not_mem_nil)
    | exact .one rfl

theorem std_counts : ∀ nd ∈ Tables.builtins ++ Tables.modules, ∀ s, Decl.spec nd.1 nd.2 = .ok s →
    (Spec.parser nd.1 s).counted = true := by
  have : (Tables.builtins ++ Tables.modules).all (fun nd =>
      match Decl.spec nd.1 nd.2 with
      | .error _ => true
      | .ok s => (Spec.parser nd.1 s).counted) = true := by decide +kernel
  intro nd hnd s hs
  have h := List.all_eq_true.1 this nd hnd
  rw [hs] at h
  exact h

/-- All counts in the user's specification can be read. -/
def Spec.counted (user : Spec) : Bool := countedL (funtree user.kwargs)

theorem commandDb_counts {user : Spec} (hu : user.counted = true) {name : Str} {p : ArgP} (h : commandDb user name = some p) :
    Counts p := by
  rw [commandDb_eq] at h
  split at h
  · rename_i q e
    simp only [Option.some.injEq] at h
    subst h
    rw [← funtree_lookup] at e
    exact .one (countedL_mem hu _ (lookup_pair_mem e))
  · rw [builtinDb, builtinOf_eq, stdSpec_lookup, std_declared] at h
    cases hd : (Tables.builtins ++ Tables.modules).reverse.find? fun nd => nd.1 = name with
    | some nd =>
      obtain ⟨n, d⟩ := nd
      have hm : (n, d) ∈ Tables.builtins ++ Tables.modules := List.mem_reverse.1 (List.mem_of_find?_eq_some hd)
      have hn : n = name := by simpa using List.find?_some hd
      subst hn
      rw [hd] at h
      obtain ⟨s, e⟩ := declared_ok stdSpec_ok (show declared (Tables.builtins ++ Tables.modules) n = some (n, d) by rw [std_declared]; exact hd)
      simp only [e, Except.toOption, Option.map_some, Option.some.injEq] at h
      subst h
      exact .one (std_counts _ hm _ e)
    | none =>
      rw [hd] at h
      simp only [Option.map_none] at h
      split at h
      · rename_i q e
        simp only [Option.some.injEq] at h
        subst h
        exact flowTable_counts _ (lookup_pair_mem e)
      · exact funTable_counts _ (lookup_pair_mem h)

theorem command_counts {user : Spec} (hu : user.counted = true) (explicit : Str → Bool) (vt : List ((Str → Bool) × List Str)) :
    ∀ name, Counts (lookupParser (commandCtx user explicit vt) name) := by
  intro name
  unfold lookupParser
  have hd : (commandCtx user explicit vt).db = commandDb user := rfl
  rw [hd]
  cases e : commandDb user (lower name) with
  | some p => exact commandDb_counts hu e
  | none =>
    cases e2 : commandDb user (S "_default") with
    | some p => exact commandDb_counts hu e2
    | none => exact .one rfl

end Verif.Parse
