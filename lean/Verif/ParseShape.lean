import Verif.ParseSpec
import Verif.ParseFuel

/-!
# Every job builds well-formed trees (lemmas for C09 and C10)
-/

namespace Verif.Parse
open Verif Py Lex

@[simp] theorem wf_tok (t : Token) : WellFormed (.tok t) := by
  intro m h; cases h; trivial

theorem wf_node {ty : NT} {a : Attr} {cs : List Node} :
    WellFormed (.node ty a cs) ↔ Shape (.node ty a cs) ∧ ∀ c ∈ cs, WellFormed c := by
  constructor
  · intro h
    exact ⟨h _ (.refl _), fun c hc m hm => h m (.child hc hm)⟩
  · rintro ⟨h1, h2⟩ m hm
    cases hm with
    | refl => exact h1
    | child hc hm => exact h2 _ hc m hm

/-- Node types without a shape of their own. -/
def NT.free : NT → Bool
  | .statement => false
  | .flowControl => false
  | _ => true

theorem wf_free {ty : NT} {a : Attr} {cs : List Node} (h : ty.free = true) :
    WellFormed (.node ty a cs) ↔ ∀ c ∈ cs, WellFormed c := by
  rw [wf_node]
  refine and_iff_right ?_
  cases ty <;> first | trivial | simp [NT.free] at h

theorem wf_mk {ty : NT} {cs : List Node} (h : ty.free = true) :
    WellFormed (mk ty cs) ↔ ∀ c ∈ cs, WellFormed c := wf_free h

theorem wf_leaves (ts : List Token) : ∀ n ∈ leaves ts, WellFormed n := by
  intro n h
  simp only [leaves, List.mem_map] at h
  obtain ⟨t, _, rfl⟩ := h
  exact wf_tok t

theorem wf_map_tok (ts : List Token) : ∀ n ∈ ts.map Node.tok, WellFormed n := wf_leaves ts

theorem wf_comment (t : Token) (ts : List Token) : WellFormed (consumeComment t ts).1 := by
  simp only [consumeComment]
  split
  · exact (wf_mk rfl).2 (by simp)
  · exact (wf_mk rfl).2 (wf_map_tok _)

theorem wf_trailing (ctx : Ctx) (ts : List Token) : ∀ n ∈ (consumeTrailing ctx ts).1, WellFormed n := by
  intro n h
  simp only [consumeTrailing] at h
  split at h
  · simp at h
  · split at h
    · simp only [List.mem_append, List.mem_singleton] at h
      rcases h with h | rfl
      · exact wf_map_tok _ n h
      · exact (wf_free rfl).2 (wf_map_tok _)
    · split at h
      · simp at h
      · simp only [List.mem_append, List.mem_singleton] at h
        rcases h with h | rfl
        · exact wf_map_tok _ n h
        · exact (wf_free rfl).2 (wf_map_tok _)

theorem wf_wsComments (k : Nat) (ts : List Token) : ∀ n ∈ (wsComments k ts).1, WellFormed n := by
  induction k generalizing ts with
  | zero => simp [wsComments]
  | succ k ih =>
    cases ts with
    | nil => simp [wsComments]
    | cons t ts =>
      simp only [wsComments]
      repeat' split
      · intro n h
        simp only [List.mem_cons] at h
        rcases h with rfl | h
        · simp
        · exact ih _ n h
      · intro n h
        simp only [List.mem_cons] at h
        rcases h with rfl | h
        · exact wf_comment t ts
        · exact ih _ n h
      · intro n h
        simp only [List.mem_cons] at h
        rcases h with rfl | h
        · exact (wf_mk rfl).2 (by simp)
        · exact ih _ n h
      · simp

theorem wf_attr {ty : NT} {a b : Attr} {cs : List Node} (h : WellFormed (.node ty a cs)) :
    WellFormed (.node ty b cs) := by
  rw [wf_node] at *
  refine ⟨?_, h.2⟩
  have := h.1
  cases ty <;> first | trivial | exact this

theorem wf_addTags {tags : List Str} {n : Node} (h : WellFormed n) : WellFormed (addTags tags n) := by
  cases n with
  | tok t => exact h
  | node ty a cs => exact wf_attr h

/-- Neither a statement nor a flow-control node. -/
def Free : Node → Prop
  | .tok _ => True
  | .node ty _ _ => ty.free = true

theorem wf_tagGroups {n : Node} (h : WellFormed n) (hf : Free n) : WellFormed (tagGroups n) := by
  cases n with
  | tok t => exact h
  | node ty a cs =>
    simp only [tagGroups]
    rw [wf_free hf] at *
    intro c hc
    simp only [List.mem_map] at hc
    obtain ⟨d, hd, rfl⟩ := hc
    have := h d hd
    split
    · exact wf_attr this
    · exact this

theorem free_tagGroups {n : Node} (hf : Free n) : Free (tagGroups n) := by
  cases n <;> exact hf

theorem free_addTags {tags : List Str} {n : Node} (hf : Free n) : Free (addTags tags n) := by
  cases n <;> exact hf

/-- The nodes a job has collected. -/
def Job.nodes : Job → List Node
  | .stdLoop _ _ _ _ _ _ acc => acc
  | .posLoop _ _ _ acc _ => acc
  | .condLoop _ acc => acc
  | .tupleLoop _ _ _ _ acc grp after _ _ => acc ++ grp.getD [] ++ after
  | .flagLoop _ _ acc => acc
  | .setLoop _ _ acc => acc
  | .emptyLoop _ acc => acc
  | .foreachInLoop _ acc => acc
  | .srcLoop _ _ _ _ _ _ before parg src after => before ++ parg ++ src ++ after
  | .objLoop _ acc => acc
  | .targetLoop _ _ acc => acc
  | .installLoop _ acc => acc
  | .ifLoop acc => acc
  | .body _ acc => acc
  | _ => []

/-- The first token is a word. -/
def HeadWord : List Token → Prop
  | [] => True
  | t :: _ => t.type = .word

/-- The children of an if block so far, and the token that comes next. -/
def IfAcc (acc : List Node) (ts : List Token) : Prop :=
  HeadWord ts ∧
  ((acc = [] ∧ ∃ t rest, ts = t :: rest ∧ upper t.spelling = S "IF") ∨
   (∃ o b mid, acc = o :: b :: mid ∧ stmtName o = some (S "IF") ∧ IsBody b ∧
     (∀ rest, IfRest rest → IfRest (mid ++ rest)) ∧
     ∀ t rest, ts = t :: rest →
       upper t.spelling ∈ [S "ELSE", S "ELSEIF", S "ENDIF"]))

/-- What the jobs of bodies need. -/
def ShapePre (ts : List Token) : Job → Prop
  | .statement => HeadWord ts
  | .flow => HeadWord ts ∧ ∀ t rest, ts = t :: rest → upper t.spelling ∈ flowNames
  | .ifLoop acc => IfAcc acc ts
  | _ => True

/-- What a job returns. -/
def ShapePost (job : Job) (ts : List Token) (r : Node × List Token) : Prop :=
  WellFormed r.1 ∧
  match job with
  | .statement => ∃ t rest, ts = t :: rest ∧ stmtName r.1 = some (upper t.spelling)
  | .flow => True
  | .ifLoop _ => True
  | .body breakset _ => IsBody r.1 ∧ (HeadWord r.2 ∧
      ∀ t rest, r.2 = t :: rest → upper t.spelling ∈ breakset)
  | _ => Free r.1

/-- What a job needs. -/
def Pre (job : Job) (ts : List Token) : Prop := (∀ x ∈ job.nodes, WellFormed x) ∧ ShapePre ts job

theorem wf_append {a b : List Node} (ha : ∀ x ∈ a, WellFormed x) (hb : ∀ x ∈ b, WellFormed x) :
    ∀ x ∈ a ++ b, WellFormed x := by
  intro x hx
  rcases List.mem_append.1 hx with h | h
  · exact ha x h
  · exact hb x h

theorem wf_cons {a : Node} {b : List Node} (ha : WellFormed a) (hb : ∀ x ∈ b, WellFormed x) :
    ∀ x ∈ a :: b, WellFormed x := by
  intro x hx
  rcases List.mem_cons.1 hx with rfl | h
  · exact ha
  · exact hb x h

theorem wf_nil : ∀ x ∈ ([] : List Node), WellFormed x := by simp

theorem wf_if_nil {c : Prop} [Decidable c] {a : List Node} (ha : ∀ x ∈ a, WellFormed x) :
    ∀ x ∈ (if c then a else []), WellFormed x := by
  split
  · exact ha
  · simp

/-- The children are well-formed. -/
macro "wfl" : tactic => `(tactic| repeat' first
  | assumption
  | exact wf_nil
  | exact wf_leaves _
  | exact wf_tok _
  | exact wf_comment _ _
  | exact wf_trailing _ _
  | exact wf_wsComments _ _
  | refine wf_append ?_ ?_
  | refine wf_cons ?_ ?_
  | refine wf_if_nil ?_
  | refine wf_addTags ?_
  | refine (wf_mk rfl).2 ?_
  | refine (wf_mk (by split <;> rfl)).2 ?_
  | refine (wf_free rfl).2 ?_)

section
variable {ctx : Ctx} {rec : Rec}
  (H : ∀ job up ts, Pre job ts → Sat (ShapePost job ts) True (rec job up ts))

theorem Sat.any {P : Node × List Token → Prop} {e : Err} : Sat P True (.error e) := fun _ => trivial

theorem done {P : Node × List Token → Prop} {r : Node × List Token} (h : P r) : Sat P True (.ok r) := h

theorem Sat.must' {P : Node × List Token → Prop} {F : Prop} {x : R} {ts : List Token} (h : Sat P F x) :
    Sat P F (Parse.must x ts) := Sat.imp (Sat.must h) (fun _ hr => hr.1) id

theorem Sat.bindT {α : Type} {Q : Node × List Token → Prop} {x : Except Err α} {f : α → R}
    (hf : ∀ a, x = .ok a → Sat Q True (f a)) : Sat Q True (x >>= f) := by
  cases x with
  | ok r => exact hf r rfl
  | error e => exact fun _ => trivial

/-- Walk through a loop body. -/
macro "shape" H:ident : tactic => `(tactic| repeat' first
  | exact Sat.any
  | exact done ⟨by wfl, rfl⟩
  | exact $H _ _ _ ⟨by simp only [Job.nodes]; wfl, trivial⟩
  | (refine Sat.bind ($H _ _ _ ⟨by simp only [Job.nodes]; wfl, trivial⟩) ?_; rintro ⟨sub, rest⟩ ⟨hsub, hfree⟩;
      try dsimp only at hsub hfree ⊢)
  | (refine Sat.bind (Sat.must' ($H _ _ _ ⟨by simp only [Job.nodes]; wfl, trivial⟩)) ?_;
      rintro ⟨sub, rest⟩ ⟨hsub, hfree⟩; try dsimp only at hsub hfree ⊢)
  | (refine Sat.bindT ?_; intro _ _; try dsimp only)
  | split)

include H

theorem posIter_shape (spec : PSpec) (brk : List Breaker) (sortable : Bool) (acc : List Node) (k : Nat)
    (up : Bool) (ts : List Token) (hA : ∀ x ∈ acc, WellFormed x) :
    Sat (ShapePost (.posLoop spec brk sortable acc k) ts) True
      (posIter ctx rec spec brk sortable acc k up ts) := by
  cases ts <;> simp only [posIter] <;> shape H

theorem stdIter_shape (cmd : Option CmdInfo) (specs : List PSpec) (dflt : PSpec) (kwargs : List (Str × ArgP)) (brk : List Breaker) (kbrk : List Breaker) (acc : List Node) (up : Bool) (ts : List Token) (hA : ∀ x ∈ acc, WellFormed x) :
    Sat (ShapePost (.stdLoop cmd specs dflt kwargs brk kbrk acc) ts) True (stdIter rec cmd specs dflt kwargs brk kbrk acc up ts) := by
  cases ts <;> simp only [stdIter] <;> shape H

theorem kwIter_shape (word : Str) (p : ArgP) (brk : List Breaker) (ts : List Token)  :
    Sat (ShapePost (.kwGroup word p brk) ts) True (kwIter rec word p brk ts) := by
  cases ts <;> simp only [kwIter] <;> shape H

theorem parenIter_shape  (ts : List Token)  :
    Sat (ShapePost .paren ts) True (parenIter ctx rec  ts) := by
  cases ts <;> simp only [parenIter] <;> shape H

theorem condIter_shape (brk : List Breaker) (acc : List Node) (up : Bool) (ts : List Token) (hA : ∀ x ∈ acc, WellFormed x) :
    Sat (ShapePost (.condLoop brk acc) ts) True (condIter rec brk acc up ts) := by
  cases ts <;> simp only [condIter] <;> shape H

theorem flagIter_shape (flags : List Str) (brk : List Breaker) (acc : List Node) (up : Bool) (ts : List Token) (hA : ∀ x ∈ acc, WellFormed x) :
    Sat (ShapePost (.flagLoop flags brk acc) ts) True (flagIter ctx rec flags brk acc up ts) := by
  cases ts <;> simp only [flagIter] <;> shape H

theorem setIter_shape (varname : Option Str) (brk : List Breaker) (acc : List Node) (up : Bool) (ts : List Token) (hA : ∀ x ∈ acc, WellFormed x) :
    Sat (ShapePost (.setLoop varname brk acc) ts) True (setIter ctx rec varname brk acc up ts) := by
  cases ts <;> simp only [setIter] <;> shape H

theorem emptyIter_shape (brk : List Breaker) (acc : List Node) (up : Bool) (ts : List Token) (hA : ∀ x ∈ acc, WellFormed x) :
    Sat (ShapePost (.emptyLoop brk acc) ts) True (emptyIter rec brk acc up ts) := by
  cases ts <;> simp only [emptyIter] <;> shape H

theorem foreachInIter_shape (brk : List Breaker) (acc : List Node) (up : Bool) (ts : List Token) (hA : ∀ x ∈ acc, WellFormed x) :
    Sat (ShapePost (.foreachInLoop brk acc) ts) True (foreachInIter rec brk acc up ts) := by
  cases ts <;> simp only [foreachInIter] <;> shape H

theorem objIter_shape (brk : List Breaker) (acc : List Node) (up : Bool) (ts : List Token) (hA : ∀ x ∈ acc, WellFormed x) :
    Sat (ShapePost (.objLoop brk acc) ts) True (objIter rec brk acc up ts) := by
  cases ts <;> simp only [objIter] <;> shape H

theorem targetIter_shape (state : Nat) (brk : List Breaker) (acc : List Node) (up : Bool) (ts : List Token) (hA : ∀ x ∈ acc, WellFormed x) :
    Sat (ShapePost (.targetLoop state brk acc) ts) True (targetIter rec state brk acc up ts) := by
  cases ts <;> simp only [targetIter] <;> shape H

theorem installIter_shape (brk : List Breaker) (acc : List Node) (up : Bool) (ts : List Token) (hA : ∀ x ∈ acc, WellFormed x) :
    Sat (ShapePost (.installLoop brk acc) ts) True (installIter rec brk acc up ts) := by
  cases ts <;> simp only [installIter] <;> shape H

omit H in
theorem wf_split {a b : List Node} (h : ∀ x ∈ a ++ b, WellFormed x) :
    (∀ x ∈ a, WellFormed x) ∧ (∀ x ∈ b, WellFormed x) :=
  ⟨fun x hx => h x (by simp [hx]), fun x hx => h x (by simp [hx])⟩

theorem tupleIter_shape (npargs : Nargs) (ntup : Nat) (flags : List Str) (brk : List Breaker)
    (acc : List Node) (grp : Option (List Node)) (after : List Node) (np nt : Nat) (up : Bool)
    (ts : List Token) (hA : ∀ x ∈ acc ++ grp.getD [] ++ after, WellFormed x) :
    Sat (ShapePost (.tupleLoop npargs ntup flags brk acc grp after np nt) ts) True
      (tupleIter ctx rec npargs ntup flags brk acc grp after np nt up ts) := by
  obtain ⟨h1, h3⟩ := wf_split hA
  obtain ⟨h1, h2⟩ := wf_split h1
  clear hA
  have hall : ∀ x ∈ tupleChildren acc grp after, WellFormed x := by
    cases grp <;> simp only [tupleChildren] <;> wfl
  cases ts with
  | nil => simp only [tupleIter]; shape H
  | cons t ts =>
    simp only [tupleIter]
    refine Sat.bindT fun _ _ => ?_
    split
    · shape H
    · split
      · shape H
      · split
        · shape H
        · split
          · shape H
          · cases ts with
            | nil => shape H
            | cons u us =>
              simp only
              split
              · shape H
              · cases grp with
                | none => simp only; shape H
                | some g =>
                  replace h2 : ∀ x ∈ g, WellFormed x := h2
                  simp only
                  split
                  · shape H
                  · refine H _ _ _ ⟨?_, trivial⟩
                    simp only [Job.nodes, Option.getD_some]
                    wfl

theorem srcIter_shape (lib : Bool) (brk : List Breaker) (state : Nat)
    (sortable srcSortable inAfter : Bool) (before parg src after : List Node) (up : Bool)
    (ts : List Token) (hA : ∀ x ∈ before ++ parg ++ src ++ after, WellFormed x) :
    Sat (ShapePost (.srcLoop lib brk state sortable srcSortable inAfter before parg src after) ts) True
      (srcIter ctx rec lib brk state sortable srcSortable inAfter before parg src after up ts) := by
  obtain ⟨h1, h4⟩ := wf_split hA
  obtain ⟨h1, h3⟩ := wf_split h1
  obtain ⟨h1, h2⟩ := wf_split h1
  clear hA
  have hall : WellFormed (srcNode (lastState lib) state srcSortable before parg src after) := by
    simp only [srcNode]; wfl
  cases ts with
  | nil => exact done ⟨hall, rfl⟩
  | cons t ts =>
    simp only [srcIter]
    split
    · exact done ⟨hall, rfl⟩
    · split
      · shape H
      · split
        · generalize (if (decide (state > 1) && tagIn t [S "unsort", S "unsortable"]) = true then false
            else if (decide (state > 1) && lib && tagIn t [S "sort", S "sortable"]) = true then true
              else sortable) = so
          shape H
        · split
          · shape H
          · split
            · generalize (if lib = true then (if state = 2 then [S "STATIC", S "SHARED", S "MODULE", S "OBJECT"]
                  else [S "EXCLUDE_FROM_ALL"]) else [S "WIN32", S "MACOSX_BUNDLE", S "EXCLUDE_FROM_ALL"]) = fl
              split
              · exact H _ _ _ ⟨by simp only [Job.nodes]; wfl, trivial⟩
              · exact H _ _ _ ⟨by simp only [Job.nodes]; wfl, trivial⟩
            · shape H

theorem argStart_shape (p : ArgP) (brk : List Breaker) (up : Bool) (ts : List Token) :
    Sat (ShapePost (.arg p brk) ts) True (argStart rec p brk up ts) := by
  cases p with
  | shell =>
    simp only [argStart]
    refine Sat.bind (H _ _ _ ⟨wf_nil, trivial⟩) ?_
    rintro ⟨n, rest⟩ ⟨h1, h2⟩
    exact done ⟨wf_tagGroups h1 h2, free_tagGroups h2⟩
  | _ =>
    simp only [argStart, stdStart, setStart, foreachStdStart, foreachInStart, objStart, fileWriteStart]
    shape H

end

theorem noText_comment {a : Attr} {ts : List Token} (h : ∀ t ∈ ts, isWs t = true ∨ isAnyComment t = true) :
    NoText (.node .comment a (ts.map .tok)) := by
  intro t ht
  simp only [toks_node] at ht
  have e : toksL (ts.map .tok) = ts := by
    clear h ht
    induction ts with
    | nil => simp
    | cons t ts ih => simp [ih]
  rw [e] at ht
  exact h t ht

theorem commentRun_noText {ok : Token → Bool} (hok : ∀ t, ok t = true → isAnyComment t = true)
    (last : Option Nat) (ts : List Token) :
    ∀ t ∈ (commentRun ok last ts).1, isWs t = true ∨ isAnyComment t = true := by
  have nl : ∀ t : Token, t.type = .newline → isWs t = true := by intro t h; simp [isWs, h]
  have ws : ∀ t : Token, t.type = .whitespace → isWs t = true := by intro t h; simp [isWs, h]
  induction last, ts using commentRun.induct ok <;> rw [commentRun.eq_def] <;> simp only [*] <;> grind

theorem explicitRun_noText (ctx : Ctx) (ts : List Token) :
    ∀ t ∈ (explicitRun ctx ts).1, isWs t = true ∨ isAnyComment t = true := by
  induction ts with
  | nil => simp [explicitRun]
  | cons t ts ih =>
    simp only [explicitRun]
    split
    · rename_i h
      simp only [List.mem_cons, forall_eq_or_imp]
      refine ⟨?_, ih⟩
      simp only [nextExplicit] at h
      by_cases hw : isWs t = true
      · exact Or.inl hw
      · rw [if_neg hw] at h
        simp only [Bool.and_eq_true, beq_iff_eq] at h
        right; simp [isAnyComment, h.1]
    · simp

theorem consumeComment_noText (t : Token) (ts : List Token) (h : isAnyComment t = true) :
    NoText (consumeComment t ts).1 := by
  simp only [consumeComment]
  split
  · intro x hx
    simp only [toks_mk, toksL_cons, toks_tok, toksL_nil, List.append_nil, List.mem_singleton] at hx
    subst hx; exact Or.inr h
  · exact noText_comment (commentRun_noText (by intro t ht; simp only [isComment, isAnyComment, beq_iff_eq] at *; simp [ht]) _ _)

theorem noText_tok {t : Token} (h : isWs t = true) : NoText (.tok t) := by
  intro x hx
  simp only [toks_tok, List.mem_singleton] at hx
  subst hx; exact Or.inl h

theorem mem_takeWs {t : Token} {ts : List Token} (h : t ∈ ts.takeWhile isWs) : isWs t = true := by
  have := List.all_takeWhile (p := isWs) (l := ts)
  exact List.all_eq_true.1 this t h

theorem noText_takeWs (ts : List Token) : ∀ n ∈ (ts.takeWhile isWs).map Node.tok, NoText n := by
  intro n hn
  simp only [List.mem_map] at hn
  obtain ⟨t, ht, rfl⟩ := hn
  exact noText_tok (mem_takeWs ht)

theorem blank_takeWs (ts : List Token) : ∀ n ∈ leaves (ts.takeWhile isWs), BlankLeaf n := by
  intro n hn
  simp only [leaves, List.mem_map] at hn
  obtain ⟨t, ht, rfl⟩ := hn
  exact ⟨t, rfl, mem_takeWs ht⟩

theorem consumeTrailing_noText (ctx : Ctx) (ts : List Token) :
    ∀ n ∈ (consumeTrailing ctx ts).1, NoText n := by
  intro n hn
  simp only [consumeTrailing] at hn
  split at hn
  · simp at hn
  · split at hn
    · simp only [List.mem_append, List.mem_singleton] at hn
      rcases hn with hn | rfl
      · exact noText_takeWs ts n hn
      · exact noText_comment (explicitRun_noText ctx _)
    · split at hn
      · simp at hn
      · simp only [List.mem_append, List.mem_singleton] at hn
        rcases hn with hn | rfl
        · split at hn
          · rename_i t _ _ hw
            simp only [List.map_cons, List.map_nil, List.mem_singleton] at hn
            subst hn
            exact noText_tok (by simp [isWs, hw])
          · simp at hn
        · refine noText_comment (commentRun_noText ?_ _ _)
          intro t ht
          simp only [validTrailing, Bool.and_eq_true] at ht
          exact ht.1

theorem stmtTail_noText (k : Nat) (ts : List Token) (ns : List Node) (rest : List Token)
    (h : stmtTail k ts = .ok (ns, rest)) :
    (∀ n ∈ ns, NoText n ∧ WellFormed n) ∧
      (ts.length ≤ k → ∀ t r, rest = t :: r → t.type = .rparen) := by
  induction k generalizing ts ns rest with
  | zero =>
    simp only [stmtTail, Except.ok.injEq, Prod.mk.injEq] at h
    obtain ⟨rfl, rfl⟩ := h
    refine ⟨by simp, ?_⟩
    intro hl t r e
    simp [e] at hl
  | succ k ih =>
    cases ts with
    | nil =>
      simp only [stmtTail, Except.ok.injEq, Prod.mk.injEq] at h
      obtain ⟨rfl, rfl⟩ := h
      simp
    | cons t ts =>
      simp only [stmtTail] at h
      split at h
      · rename_i hr
        simp only [Except.ok.injEq, Prod.mk.injEq] at h
        obtain ⟨rfl, rfl⟩ := h
        refine ⟨by simp, ?_⟩
        rintro _ t' r e
        simp only [List.cons.injEq] at e
        rw [← e.1]; simpa using hr
      · split at h
        · rename_i hw
          obtain ⟨⟨ns', rest'⟩, h1, h2⟩ := bind_ok.1 h
          simp only [pure_ok, Prod.mk.injEq] at h2
          obtain ⟨rfl, rfl⟩ := h2
          obtain ⟨a, b⟩ := ih _ _ _ h1
          refine ⟨?_, fun hl => b (by simpa using hl)⟩
          simp only [List.mem_cons, forall_eq_or_imp]
          exact ⟨⟨noText_tok hw, wf_tok t⟩, a⟩
        · split at h
          · rename_i hc
            have hc' : isAnyComment t = true := by
              simp only [isComment, isAnyComment, beq_iff_eq] at *; simp [hc]
            obtain ⟨⟨ns', rest'⟩, h1, h2⟩ := bind_ok.1 h
            simp only [pure_ok, Prod.mk.injEq] at h2
            obtain ⟨rfl, rfl⟩ := h2
            obtain ⟨a, b⟩ := ih _ _ _ h1
            refine ⟨?_, fun hl => b ?_⟩
            · simp only [List.mem_cons, forall_eq_or_imp]
              exact ⟨⟨consumeComment_noText t ts hc', wf_comment t ts⟩, a⟩
            · have := (comment_short t ts hc').2
              simp only [List.length_cons] at hl
              omega
          · simp at h

section
variable {ctx : Ctx} {rec : Rec}
  (H : ∀ job up ts, Pre job ts → Sat (ShapePost job ts) True (rec job up ts))
include H

theorem stmtIter_shape (ts : List Token) (hp : HeadWord ts) :
    Sat (ShapePost .statement ts) True (stmtIter ctx rec ts) := by
  cases ts with
  | nil => exact Sat.any
  | cons t ts =>
    simp only [stmtIter]
    split
    · exact Sat.any
    · rename_i l ts1 he
      split
      · exact Sat.any
      · rename_i hl
        refine Sat.bind (H _ _ _ ⟨wf_nil, trivial⟩) ?_
        rintro ⟨sub, rest⟩ ⟨hs, hf⟩
        refine Sat.bindT ?_
        rintro ⟨tail, rest1⟩ h1
        obtain ⟨hA, hB⟩ := stmtTail_noText _ _ _ _ h1
        simp only
        split
        · exact Sat.any
        · rename_i r rest2
          refine done ⟨?_, t, ts, rfl, rfl⟩
          rw [wf_node]
          refine ⟨?_, ?_⟩
          · refine ⟨t, l, r, _, _, _, _, sub, rfl, hp, by simpa using hl, hB (Nat.le_refl _) _ _ rfl,
              blank_takeWs ts, blank_takeWs ts1, fun n hn => (hA n hn).1, consumeTrailing_noText ctx rest2⟩
          · have hA2 := fun n hn => (hA n hn).2
            clear hA hB h1
            wfl

theorem flowIter_shape (ts : List Token) (hp : HeadWord ts)
    (hn : ∀ t rest, ts = t :: rest → upper t.spelling ∈ flowNames) :
    Sat (ShapePost .flow ts) True (flowIter rec ts) := by
  cases ts with
  | nil => exact Sat.any
  | cons t ts =>
    simp only [flowIter]
    split
    · rename_i hi
      refine Sat.imp (H _ _ _ ⟨wf_nil, hp, Or.inl ⟨rfl, t, ts, rfl, hi⟩⟩) ?_ id
      intro r hr
      exact ⟨hr.1, trivial⟩
    · rename_i hi
      refine Sat.bind (H .statement _ _ ⟨wf_nil, hp⟩) ?_
      rintro ⟨o, rest1⟩ ⟨ho, t', r', e, hname⟩
      simp only [List.cons.injEq] at e
      obtain ⟨rfl, rfl⟩ := e
      refine Sat.bind (H _ _ _ ⟨wf_nil, trivial⟩) ?_
      rintro ⟨b, rest2⟩ ⟨hb, hib, hw, hbs⟩
      refine Sat.bind (H .statement _ _ ⟨wf_nil, hw⟩) ?_
      rintro ⟨c, rest3⟩ ⟨hc, t2, r2, e2, hname2⟩
      refine done ⟨?_, trivial⟩
      have h2 := hbs t2 r2 e2
      simp only [List.mem_singleton] at h2
      have h3 := hn t ts rfl
      simp only [flowNames, List.mem_cons, hi, false_or] at h3
      simp only [mk]
      rw [wf_node]
      refine ⟨.loop (name := upper t.spelling) (by simpa using h3) hname hib ?_, ?_⟩
      · rw [← h2]; exact hname2
      · wfl

theorem ifIter_shape (acc : List Node) (ts : List Token) (hA : ∀ x ∈ acc, WellFormed x)
    (hp : IfAcc acc ts) : Sat (ShapePost (.ifLoop acc) ts) True (ifIter rec acc ts) := by
  obtain ⟨hw, hp⟩ := hp
  cases ts with
  | nil =>
    refine done ⟨?_, trivial⟩
    simp only [mk]
    rw [wf_node]
    refine ⟨?_, hA⟩
    rcases hp with ⟨_, t, r, e, _⟩ | ⟨o, b, mid, rfl, h1, h2, h3, _⟩
    · simp at e
    · exact .ifBlock h1 h2 (by simpa using h3 [] .unclosed)
  | cons t ts =>
    simp only [ifIter]
    split
    · rename_i hi
      refine Sat.bind (H .statement _ _ ⟨wf_nil, hw⟩) ?_
      rintro ⟨c, rest⟩ ⟨hc, t', r', e, hname⟩
      simp only [List.cons.injEq] at e
      obtain ⟨rfl, rfl⟩ := e
      refine done ⟨?_, trivial⟩
      simp only [mk]
      rw [wf_node]
      refine ⟨?_, by wfl⟩
      rcases hp with ⟨_, t2, r2, e, h2⟩ | ⟨o, b, mid, rfl, h1, h2, h3, _⟩
      · simp only [List.cons.injEq] at e
        obtain ⟨rfl, rfl⟩ := e
        rw [hi] at h2
        exact absurd h2 (by decide)
      · exact .ifBlock h1 h2 (h3 _ (.closed (by rw [← hi]; exact hname)))
    · rename_i hi
      refine Sat.bind (H .statement _ _ ⟨wf_nil, hw⟩) ?_
      rintro ⟨o, rest1⟩ ⟨ho, t', r', e, hname⟩
      simp only [List.cons.injEq] at e
      obtain ⟨rfl, rfl⟩ := e
      refine Sat.bind (H _ _ _ ⟨wf_nil, trivial⟩) ?_
      rintro ⟨b, rest2⟩ ⟨hb, hib, hw2, hbs⟩
      refine Sat.imp (H _ _ _ ⟨?_, hw2, Or.inr ?_⟩) (fun r hr => ⟨hr.1, trivial⟩) id
      · simp only [Job.nodes]; wfl
      · rcases hp with ⟨rfl, t2, r2, e, h2⟩ | ⟨o', b', mid, rfl, h1, h2, h3, h4⟩
        · simp only [List.cons.injEq] at e
          obtain ⟨rfl, rfl⟩ := e
          exact ⟨o, b, [], rfl, by rw [← h2]; exact hname, hib, fun rest h => h, hbs⟩
        · refine ⟨o', b', mid ++ [o, b], rfl, h1, h2, ?_, hbs⟩
          intro rest hr
          have h5 := h4 t ts rfl
          simp only [List.mem_cons, hi, List.not_mem_nil, or_false] at h5
          have h6 := h3 (o :: b :: rest) (.branch (by
            rcases h5 with h5 | h5
            · left; rw [← h5]; exact hname
            · right; rw [← h5]; exact hname) hib hr)
          simpa using h6

theorem bodyIter_shape (breakset : List Str) (acc : List Node) (ts : List Token)
    (hA : ∀ x ∈ acc, WellFormed x) :
    Sat (ShapePost (.body breakset acc) ts) True (bodyIter ctx rec breakset acc ts) := by
  cases ts with
  | nil => exact done ⟨by wfl, trivial, trivial, by simp⟩
  | cons t ts =>
    have wsn : ∀ l, ∀ x ∈ acc ++ [mk .whitespace (leaves l)], WellFormed x := by intro l; wfl
    simp only [bodyIter]
    split
    · exact H _ _ _ ⟨wsn _, trivial⟩
    · split
      · exact H _ _ _ ⟨by simp only [Job.nodes]; wfl, trivial⟩
      · split
        · exact H _ _ _ ⟨by simp only [Job.nodes]; wfl, trivial⟩
        · split
          · rename_i hword
            have hword : t.type = .word := by simpa using hword
            split
            · rename_i hb
              refine done ⟨by wfl, trivial, hword, ?_⟩
              rintro t' r' e
              simp only [List.cons.injEq] at e
              rw [← e.1]; simpa using hb
            · split
              · rename_i hfl
                refine Sat.bind (H .flow _ _ ⟨wf_nil, hword, ?_⟩) ?_
                · rintro t' r' e
                  simp only [List.cons.injEq] at e
                  rw [← e.1]; simpa using hfl
                · rintro ⟨sub, rest⟩ ⟨hs, _⟩
                  exact H _ _ _ ⟨by simp only [Job.nodes]; wfl, trivial⟩
              · refine Sat.bind (H .statement _ _ ⟨wf_nil, hword⟩) ?_
                rintro ⟨sub, rest⟩ ⟨hs, _⟩
                exact H _ _ _ ⟨by simp only [Job.nodes]; wfl, trivial⟩
          · split
            · exact H _ _ _ ⟨by simp only [Job.nodes]; wfl, trivial⟩
            · split
              · exact H _ _ _ ⟨by simp only [Job.nodes]; wfl, trivial⟩
              · exact Sat.any

theorem step_shape (job : Job) (up : Bool) (ts : List Token) (hp : Pre job ts) :
    Sat (ShapePost job ts) True (step ctx rec job up ts) := by
  obtain ⟨hA, hp⟩ := hp
  cases job with
  | arg p brk => exact argStart_shape H p brk up ts
  | stdLoop cmd specs dflt kwargs brk kbrk acc => exact stdIter_shape H _ _ _ _ _ _ _ _ _ hA
  | pos spec brk => simp only [step, posStart]; exact H _ _ _ ⟨wf_leaves _, trivial⟩
  | posLoop spec brk sortable acc n => exact posIter_shape H _ _ _ _ _ _ _ hA
  | kwGroup word p brk => exact kwIter_shape H ..
  | paren => exact parenIter_shape H ..
  | condLoop brk acc => exact condIter_shape H _ _ _ _ hA
  | tupleLoop npargs ntup flags brk acc grp after np nt => exact tupleIter_shape H _ _ _ _ _ _ _ _ _ _ _ hA
  | flagLoop flags brk acc => exact flagIter_shape H _ _ _ _ _ hA
  | setLoop varname brk acc => exact setIter_shape H _ _ _ _ _ hA
  | emptyLoop brk acc => exact emptyIter_shape H _ _ _ _ hA
  | foreachInLoop brk acc => exact foreachInIter_shape H _ _ _ _ hA
  | srcLoop lib brk state sortable srcSortable inAfter before parg src after =>
    exact srcIter_shape H _ _ _ _ _ _ _ _ _ _ _ _ hA
  | objLoop brk acc => exact objIter_shape H _ _ _ _ hA
  | targetLoop state brk acc => exact targetIter_shape H _ _ _ _ _ hA
  | installLoop brk acc => exact installIter_shape H _ _ _ _ hA
  | statement => exact stmtIter_shape H _ hp
  | flow => exact flowIter_shape H _ hp.1 hp.2
  | ifLoop acc => exact ifIter_shape H _ _ hA hp
  | body breakset acc => exact bodyIter_shape H _ _ _ hA

omit H in
theorem exec_shape (n : Nat) (job : Job) (up : Bool) (ts : List Token) (hp : Pre job ts) :
    Sat (ShapePost job ts) True (exec ctx n job up ts) := by
  induction n generalizing job up ts with
  | zero => exact fun _ => trivial
  | succ n ih => exact step_shape (fun job up ts hp => ih job up ts hp) job up ts hp

end
end Verif.Parse
