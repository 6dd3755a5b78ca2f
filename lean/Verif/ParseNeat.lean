import Verif.ParseShape

/-!
# What each node of a parse tree consists of

A finer invariant than `WellFormed`: which children every kind of node has.  The layout
relies on it.
-/

namespace Verif.Parse
open Verif Py Lex

/-- A token that can start an argument. -/
def HeadTok (t : Token) : Prop := isWs t = false ∧ isAnyComment t = false

/-- The children after an argument or a closing parenthesis: nothing, or blanks and one
comment. -/
def Trail (cs : List Node) : Prop :=
  cs = [] ∨ ∃ ws a ds, cs = leaves ws ++ [.node .comment a ds] ∧ ∀ t ∈ ws, isWs t = true

/-- The children of a comment node. -/
def CommentShape (cs : List Node) : Prop :=
  ∃ t ts, cs = leaves (t :: ts) ∧ isAnyComment t = true ∧
    ∀ u ∈ ts, isWs u = true ∨ isAnyComment u = true

/-- The first token of a flag. -/
def FlagTok (t : Token) : Prop :=
  isWs t = false ∧ (normKwarg t ≠ none ∨ upper t.spelling ∈ targetFlags)

/-- What may stand in an argument list. -/
def Inner : Node → Prop
  | .tok t => isWs t = true
  | .node ty _ _ => ty = .comment ∨ ty = .onoff ∨ ty = .argument ∨ ty = .flag ∨ ty = .argGroup ∨
      ty = .pargGroup ∨ ty = .kwargGroup ∨ ty = .parenGroup

/-- A group of arguments. -/
def Grp : Node → Prop
  | .tok _ => False
  | .node ty _ _ => ty = .argGroup ∨ ty = .pargGroup

/-- Blanks and comments. -/
def Filler : Node → Prop
  | .tok t => isWs t = true
  | .node ty _ _ => ty = .comment

/-- What may stand in a body. -/
def Block : Node → Prop
  | .tok _ => False
  | .node ty _ _ => ty = .whitespace ∨ ty = .comment ∨ ty = .onoff ∨ ty = .statement ∨
      ty = .flowControl ∨ ty = .atwordStatement

/-- What may stand in a flow-control node. -/
def FlowPart : Node → Prop
  | .tok _ => False
  | .node ty _ _ => ty = .statement ∨ ty = .body

/-- What one node consists of. -/
def NeatHere (ctx : Ctx) : Node → Prop
  | .tok _ => True
  | .node ty attr cs =>
    match ty with
    | .funname => ∃ t, cs = [.tok t] ∧ t.type = .word
    | .atword => ∃ t, cs = [.tok t] ∧ t.type = .atword
    | .lparen => ∃ t, cs = [.tok t] ∧ t.type = .lparen
    | .rparen => ∃ t, cs = [.tok t] ∧ t.type = .rparen
    | .keyword => ∃ t, cs = [.tok t] ∧ normKwarg t ≠ none
    | .argument => ∃ t trail, cs = .tok t :: trail ∧ HeadTok t ∧ Trail trail
    | .flag => ∃ t trail, cs = .tok t :: trail ∧ FlagTok t ∧ Trail trail
    | .comment => CommentShape cs
    | .onoff => ∃ t, cs = [.tok t] ∧ isOnOff t = true
    | .whitespace => ∃ t ts, cs = leaves (t :: ts) ∧ ∀ u ∈ t :: ts, isWs u = true
    | .statement => ∃ f l r ws ws1 sub mid trail,
        cs = [mk .funname [.tok f]] ++ leaves ws ++ [mk .lparen [.tok l]] ++ leaves ws1 ++ [sub] ++ mid
          ++ [mk .rparen [.tok r]] ++ trail ∧
        (∀ t ∈ ws, isWs t = true) ∧ (∀ t ∈ ws1, isWs t = true) ∧ Grp sub ∧ (∀ n ∈ mid, Filler n) ∧ Trail trail ∧
        attr.spelling = cmdSpelling (lookupParser ctx f.spelling)
    | .atwordStatement => ∃ t trail, cs = mk .atword [.tok t] :: trail ∧ Trail trail
    | .kwargGroup => ∃ t ws body, cs = mk .keyword [.tok t] :: leaves ws ++ body ∧
        (∀ t ∈ ws, isWs t = true) ∧ (body = [] ∨ ∃ sub, body = [sub] ∧ Grp sub)
    | .parenGroup => ∃ l r sub trail,
        cs = [mk .lparen [.tok l], sub, mk .rparen [.tok r]] ++ trail ∧ Grp sub ∧ Trail trail
    | .argGroup | .pargGroup => ∀ c ∈ cs, Inner c
    | .flagGroup => False
    | .body => ∀ c ∈ cs, Block c
    | .flowControl => ∀ c ∈ cs, FlowPart c

/-- Every node of the tree is as it should be. -/
def Neat (ctx : Ctx) (n : Node) : Prop := ∀ m, Sub m n → NeatHere ctx m

variable {ctx : Ctx}

@[simp] theorem neat_tok (t : Token) : Neat ctx (.tok t) := by
  intro m h; cases h; trivial

theorem neat_node {ty : NT} {a : Attr} {cs : List Node} :
    Neat ctx (.node ty a cs) ↔ NeatHere ctx (.node ty a cs) ∧ ∀ c ∈ cs, Neat ctx c := by
  constructor
  · intro h
    exact ⟨h _ (.refl _), fun c hc m hm => h m (.child hc hm)⟩
  · rintro ⟨h1, h2⟩ m hm
    cases hm with
    | refl => exact h1
    | child hc hm => exact h2 _ hc m hm

theorem neat_leaves (ts : List Token) : ∀ n ∈ leaves ts, Neat ctx n := by
  intro n h
  simp only [leaves, List.mem_map] at h
  obtain ⟨t, _, rfl⟩ := h
  exact neat_tok t

/-- All children satisfy `P` and are neat. -/
def Kids (ctx : Ctx) (P : Node → Prop) (cs : List Node) : Prop := ∀ x ∈ cs, Neat ctx x ∧ P x

theorem kids_nil {P : Node → Prop} : Kids ctx P [] := by simp [Kids]

theorem kids_append {P : Node → Prop} {a b : List Node} (ha : Kids ctx P a) (hb : Kids ctx P b) : Kids ctx P (a ++ b) := by
  intro x hx
  rcases List.mem_append.1 hx with h | h
  · exact ha x h
  · exact hb x h

theorem kids_cons {P : Node → Prop} {a : Node} {b : List Node} (ha : Neat ctx a) (hp : P a) (hb : Kids ctx P b) :
    Kids ctx P (a :: b) := by
  intro x hx
  rcases List.mem_cons.1 hx with rfl | h
  · exact ⟨ha, hp⟩
  · exact hb x h

theorem kids_if {P : Node → Prop} {c : Prop} [Decidable c] {a : List Node} (ha : Kids ctx P a) :
    Kids ctx P (if c then a else []) := by
  split
  · exact ha
  · exact kids_nil

theorem kids_ws {ts : List Token} (h : ∀ t ∈ ts, isWs t = true) : Kids ctx Inner (leaves ts) := by
  intro n hn
  simp only [leaves, List.mem_map] at hn
  obtain ⟨t, ht, rfl⟩ := hn
  exact ⟨neat_tok t, h t ht⟩

theorem kids_takeWs (ts : List Token) : Kids ctx Inner (leaves (ts.takeWhile isWs)) :=
  kids_ws fun _ h => mem_takeWs h

theorem neat_group {ty : NT} {a : Attr} {cs : List Node} (ht : ty = .argGroup ∨ ty = .pargGroup)
    (h : Kids ctx Inner cs) : Neat ctx (.node ty a cs) := by
  rw [neat_node]
  refine ⟨?_, fun c hc => (h c hc).1⟩
  rcases ht with rfl | rfl <;> exact fun c hc => (h c hc).2

theorem grp_inner {n : Node} (h : Grp n) : Inner n := by
  cases n with
  | tok t => exact h.elim
  | node ty a cs => rcases h with rfl | rfl <;> simp [Inner]

theorem neat_commentNode {a : Attr} {t : Token} {ts : List Token} (ht : isAnyComment t = true)
    (h : ∀ u ∈ ts, isWs u = true ∨ isAnyComment u = true) : Neat ctx (.node .comment a (leaves (t :: ts))) := by
  rw [neat_node]
  exact ⟨⟨t, ts, rfl, ht, h⟩, neat_leaves _⟩

theorem neat_comment1 {t : Token} (ht : isAnyComment t = true) : Neat ctx (mk .comment [.tok t]) :=
  neat_commentNode (a := {}) (ts := []) ht (by simp)

theorem neat_bare1 {t : Token} (ht : isAnyComment t = true) : Neat ctx (mkBare [.tok t]) :=
  neat_commentNode (a := { role := .bare }) (ts := []) ht (by simp)

/-- A run of comments starts with its first token. -/
theorem commentRun_head {ok : Token → Bool} {t : Token} {ts : List Token} (h : ok t = true) :
    ∃ r, (commentRun ok none (t :: ts)).1 = t :: r := by
  rw [commentRun.eq_def]
  simp only [h, aligned, Bool.and_true, if_true]
  repeat' split
  all_goals exact ⟨_, rfl⟩

theorem comment_neat {t : Token} (ts : List Token) (h : isAnyComment t = true) :
    Neat ctx (consumeComment t ts).1 ∧ Filler (consumeComment t ts).1 := by
  simp only [consumeComment]
  split
  · exact ⟨neat_comment1 h, rfl⟩
  · rename_i hb
    have hc : isComment t = true := by
      simp only [isAnyComment, isComment, Bool.or_eq_true, beq_iff_eq] at *
      rcases h with h | h
      · exact h
      · exact absurd (Or.inl h) hb
    obtain ⟨r, hr⟩ := commentRun_head (ts := ts) hc
    have hn := commentRun_noText (ok := isComment) (by
      intro t ht; simp only [isComment, isAnyComment, beq_iff_eq] at *; simp [ht]) none (t :: ts)
    simp only
    rw [hr] at hn ⊢
    exact ⟨neat_commentNode h fun u hu => hn u (by simp [hu]), rfl⟩

theorem comment_filler (t : Token) (ts : List Token) : Filler (consumeComment t ts).1 := by
  simp only [consumeComment]
  split <;> rfl

theorem filler_inner {n : Node} (h : Filler n) : Inner n := by
  cases n with
  | tok t => exact h
  | node ty a cs => exact Or.inl h

theorem trailing_neat (ctx : Ctx) (ts : List Token) :
    Trail (consumeTrailing ctx ts).1 ∧ ∀ c ∈ (consumeTrailing ctx ts).1, Neat ctx c := by
  have key : ∀ (ws : List Token) (a : Attr) (ds : List Node), (∀ t ∈ ws, isWs t = true) →
      Neat ctx (.node .comment a ds) →
      Trail (ws.map Node.tok ++ [.node .comment a ds]) ∧
        ∀ c ∈ ws.map Node.tok ++ [.node .comment a ds], Neat ctx c := by
    intro ws a ds h1 h2
    refine ⟨Or.inr ⟨ws, a, ds, rfl, h1⟩, ?_⟩
    intro c hc
    simp only [List.mem_append, List.mem_singleton] at hc
    rcases hc with hc | rfl
    · exact neat_leaves ws c hc
    · exact h2
  simp only [consumeTrailing]
  split
  · exact ⟨Or.inl rfl, by simp⟩
  · rename_i hnt
    split
    · rename_i hex
      refine key _ _ _ (fun _ h => mem_takeWs h) ?_
      have hd : nextExplicit ctx (ts.dropWhile isWs) = true := by
        clear hnt
        induction ts with
        | nil => exact hex
        | cons t ts ih =>
          by_cases hw : isWs t = true
          · simp only [nextExplicit, hw, if_true] at hex
            simpa [hw] using ih hex
          · simpa [hw] using hex
      have hno := explicitRun_noText ctx (ts.dropWhile isWs)
      have hhead : ∀ t r, ts.dropWhile isWs = t :: r → isWs t = false := by
        intro t r e
        have := List.head?_dropWhile_not (p := isWs) (l := ts)
        rw [e] at this
        simpa using this
      cases e : ts.dropWhile isWs with
      | nil => rw [e] at hd; simp [nextExplicit] at hd
      | cons t r =>
        rw [e] at hd hno
        have hw := hhead t r e
        simp only [explicitRun, hd, if_true] at hno ⊢
        simp only [nextExplicit, hw] at hd
        refine neat_commentNode (t := t) (by
          simp only [Bool.false_eq_true, if_false, Bool.and_eq_true, beq_iff_eq] at hd
          simp [isAnyComment, hd.1]) (fun u hu => hno u (by simp [hu]))
    · rename_i hex
      split
      · exact ⟨Or.inl rfl, by simp⟩
      · rename_i t ts'
        have hv : ∀ t, validTrailing t = true → isAnyComment t = true := by
          intro t ht
          simp only [validTrailing, Bool.and_eq_true] at ht
          exact ht.1
        have run : ∀ u us, validTrailing u = true → ∀ a : Attr,
            Neat ctx (.node .comment a ((commentRun validTrailing none (u :: us)).1.map Node.tok)) := by
          intro u us hu a
          obtain ⟨r, hr⟩ := commentRun_head (ts := us) hu
          have hn := commentRun_noText (ok := validTrailing) hv none (u :: us)
          rw [hr] at hn ⊢
          exact neat_commentNode (hv u hu) fun x hx => hn x (by simp [hx])
        simp only [nextTrailing] at hnt
        by_cases hw : t.type = .whitespace
        · have hvt : validTrailing t = false := by simp [validTrailing, isAnyComment, hw]
          simp only [hw, if_true]
          cases ts' with
          | nil =>
            simp only [hvt, hex] at hnt
            simp at hnt
          | cons u us =>
            simp only [hvt, hex, hw] at hnt
            refine key _ _ _ (by simp [isWs, hw]) (run u us (by simpa using hnt) _)
        · simp only [hw, if_false]
          refine key _ _ _ (by simp) (run t ts' ?_ _)
          cases ts' with
          | nil => simpa [hex] using hnt
          | cons u us => simpa [hex, hw] using hnt

theorem neat_arg {t : Token} (ctx : Ctx) (ts : List Token) (h : HeadTok t) :
    Neat ctx (mk .argument (.tok t :: (consumeTrailing ctx ts).1)) := by
  simp only [mk]
  rw [neat_node]
  obtain ⟨h1, h2⟩ := trailing_neat ctx ts
  refine ⟨⟨t, _, rfl, h, h1⟩, ?_⟩
  intro c hc
  rcases List.mem_cons.1 hc with rfl | hc
  · exact neat_tok t
  · exact h2 c hc

theorem neat_flag {t : Token} (ctx : Ctx) (ts : List Token) (h : FlagTok t) :
    Neat ctx (mk .flag (.tok t :: (consumeTrailing ctx ts).1)) := by
  simp only [mk]
  rw [neat_node]
  obtain ⟨h1, h2⟩ := trailing_neat ctx ts
  refine ⟨⟨t, _, rfl, h, h1⟩, ?_⟩
  intro c hc
  rcases List.mem_cons.1 hc with rfl | hc
  · exact neat_tok t
  · exact h2 c hc

theorem kwargIn_some {t : Token} {ws : List Str} (h : kwargIn t ws = true) : normKwarg t ≠ none := by
  unfold kwargIn at h
  split at h
  · rename_i x hx; rw [hx]; simp
  · simp at h

theorem flagTok_kw {t : Token} (h : normKwarg t ≠ none) : FlagTok t := by
  refine ⟨?_, Or.inl h⟩
  cases hw : isWs t with
  | false => rfl
  | true =>
    exfalso; apply h
    simp only [isWs, Bool.or_eq_true, beq_iff_eq] at hw
    rcases hw with hw | hw <;> simp [normKwarg, hw]

theorem neat_choice {t : Token} (ctx : Ctx) (ts : List Token) (flags : List Str) (h : HeadTok t) :
    Neat ctx (mk (if kwargIn t flags then .flag else .argument) (.tok t :: (consumeTrailing ctx ts).1)) := by
  split
  · rename_i hk; exact neat_flag ctx ts (flagTok_kw (kwargIn_some hk))
  · exact neat_arg ctx ts h

theorem inner_choice {c : Prop} [Decidable c] {cs : List Node} :
    Inner (mk (if c then .flag else .argument) cs) := by
  split <;> simp [Inner, mk]

theorem kids_wsComments (k : Nat) (ts : List Token) : Kids ctx Inner (wsComments k ts).1 := by
  induction k generalizing ts with
  | zero => simp [wsComments, Kids]
  | succ k ih =>
    cases ts with
    | nil => simp [wsComments, Kids]
    | cons t ts =>
      simp only [wsComments]
      repeat' split
      · rename_i h; exact kids_cons (neat_tok t) h (ih _)
      · rename_i h
        exact kids_cons (comment_neat ts h).1 (filler_inner (comment_filler t ts)) (ih _)
      · rename_i h
        refine kids_cons ?_ (Or.inr (Or.inl rfl)) (ih _)
        simp only [mk]
        rw [neat_node]
        exact ⟨⟨t, rfl, h⟩, by simp⟩
      · simp [Kids]

theorem neat_onoff {t : Token} (h : isOnOff t = true) : Neat ctx (mk .onoff [.tok t]) := by
  simp only [mk]
  rw [neat_node]
  exact ⟨⟨t, rfl, h⟩, by simp⟩

theorem neat_tokNode {ty : NT} {t : Token} (h : NeatHere ctx (mk ty [.tok t])) : Neat ctx (mk ty [.tok t]) := by
  simp only [mk] at *
  rw [neat_node]
  exact ⟨h, by simp⟩

theorem neat_attr {ty : NT} {a b : Attr} {cs : List Node} (hg : ty = .argGroup ∨ ty = .pargGroup)
    (h : Neat ctx (.node ty a cs)) :
    Neat ctx (.node ty b cs) := by
  rw [neat_node] at *
  refine ⟨?_, h.2⟩
  have := h.1
  rcases hg with rfl | rfl <;> exact this

theorem neat_addTags {tags : List Str} {n : Node} (hg : Grp n) (h : Neat ctx n) : Neat ctx (addTags tags n) := by
  cases n with
  | tok t => exact h
  | node ty a cs => exact neat_attr hg h

theorem grp_addTags {tags : List Str} {n : Node} (h : Grp n) : Grp (addTags tags n) := by
  cases n with
  | tok t => exact h
  | node ty a cs => exact h

theorem neat_tagGroups {n : Node} (h : Neat ctx n) (hg : Grp n) : Neat ctx (tagGroups n) ∧ Grp (tagGroups n) := by
  cases n with
  | tok t => exact ⟨h, hg⟩
  | node ty a cs =>
    refine ⟨?_, hg⟩
    simp only [tagGroups]
    rw [neat_node] at h
    refine neat_group hg ?_
    intro c hc
    simp only [List.mem_map] at hc
    obtain ⟨d, hd, rfl⟩ := hc
    have h1 := h.2 d hd
    have h2 : Inner d := by
      have := h.1
      rcases hg with rfl | rfl <;> exact this d hd
    split
    · exact ⟨neat_attr (Or.inr rfl) h1, h2⟩
    · exact ⟨h1, h2⟩

/-- What the collected children of a job must be. -/
def Job.child : Job → Node → Prop
  | .body _ _ => Block
  | .ifLoop _ => FlowPart
  | _ => Inner

/-- The first token can be a keyword. -/
def HeadKw : List Token → Prop
  | [] => True
  | t :: _ => normKwarg t ≠ none

/-- What a job needs. -/
def NPre (ctx : Ctx) (job : Job) (ts : List Token) : Prop :=
  Kids ctx job.child job.nodes ∧
  match job with
  | .kwGroup _ _ _ => HeadKw ts
  | .flagLoop flags _ _ => flags = targetFlags
  | .statement => HeadWord ts
  | .flow => HeadWord ts
  | .ifLoop _ => HeadWord ts
  | _ => True

/-- What a job returns. -/
def NPost (ctx : Ctx) (job : Job) (r : Node × List Token) : Prop :=
  Neat ctx r.1 ∧
  match job with
  | .kwGroup _ _ _ => Inner r.1
  | .paren => Inner r.1
  | .statement => FlowPart r.1 ∧ Block r.1
  | .flow => Block r.1
  | .ifLoop _ => Block r.1
  | .body _ _ => FlowPart r.1 ∧ HeadWord r.2
  | _ => Grp r.1

theorem lookup_kwarg {α : Type} {t : Token} {f : Str → Option α} {x : α}
    (h : (normKwarg t).bind f = some x) : normKwarg t ≠ none := by
  cases e : normKwarg t with
  | none => rw [e] at h; simp at h
  | some w => simp

theorem headTok_of {t : Token} (h1 : ¬ isWs t = true) (h2 : ¬ isAnyComment t = true) : HeadTok t :=
  ⟨by simpa using h1, by simpa using h2⟩

theorem headTok_lparen {t : Token} (h : t.type = .lparen) : HeadTok t := by
  simp [HeadTok, isWs, isAnyComment, h]

/-- Facts about a single child. -/
macro "neat1" : tactic => `(tactic| first
  | assumption
  | exact neat_tok _
  | exact (comment_neat _ (by assumption)).1
  | exact filler_inner (comment_filler _ _)
  | exact neat_comment1 (by assumption)
  | exact neat_comment1 (by simp_all)
  | exact neat_bare1 (by assumption)
  | exact neat_bare1 (by simp_all)
  | exact neat_onoff (by assumption)
  | exact grp_inner (by assumption)
  | exact grp_inner (grp_addTags (by assumption))
  | exact neat_addTags (by assumption) (by assumption)
  | exact neat_choice _ _ _ (headTok_of (by assumption) (by assumption))
  | exact neat_arg _ _ (headTok_of (by assumption) (by assumption))
  | exact neat_flag _ _ (flagTok_kw (kwargIn_some (by assumption)))
  | exact inner_choice
  | (simp [Inner, Grp, mk, mkPos, mkArg, mkBare]; done))

/-- Facts about a list of children. -/
macro "neatl" : tactic => `(tactic| repeat' first
  | exact kids_nil
  | exact kids_takeWs _
  | exact kids_wsComments _ _
  | neat1
  | refine kids_append ?_ ?_
  | refine kids_cons ?_ ?_ ?_
  | refine kids_if ?_
  | refine neat_group (Or.inl rfl) ?_
  | refine neat_group (Or.inr rfl) ?_)

/-- The side conditions of a call. -/
macro "neatpre" : tactic => `(tactic|
  (refine ⟨?_, ?_⟩
   · first
     | exact kids_nil
     | (simp only [Job.nodes, Job.child]; neatl)
   · first
     | exact trivial
     | exact kwargIn_some (by assumption)
     | exact lookup_kwarg (by assumption)
     | (simp only [HeadKw]; simp_all; done)
     | rfl))

section
variable {rec : Rec}
  (H : ∀ job up ts, NPre ctx job ts → Sat (NPost ctx job) True (rec job up ts))

/-- Walk through a loop body. -/
macro "neatw" H:ident : tactic => `(tactic| repeat' first
  | exact Sat.any
  | exact done ⟨by (try simp only [stdNode, mk, mkPos, mkArg]); neatl, by simp [Grp, mk, mkPos, mkArg, stdNode]⟩
  | exact $H _ _ _ (by neatpre)
  | (refine Sat.bind ($H _ _ _ (by neatpre)) ?_; rintro ⟨sub, rest⟩ ⟨hsub, hgrp⟩;
      try dsimp only at hsub hgrp ⊢)
  | (refine Sat.bind (Sat.must' ($H _ _ _ (by neatpre))) ?_;
      rintro ⟨sub, rest⟩ ⟨hsub, hgrp⟩; try dsimp only at hsub hgrp ⊢)
  | (refine Sat.bindT ?_; intro _ _; try dsimp only)
  | split)

include H

theorem posIter_neat (spec : PSpec) (brk : List Breaker) (sortable : Bool) (acc : List Node) (k : Nat)
    (up : Bool) (ts : List Token) (hA : Kids ctx Inner acc) :
    Sat (NPost ctx (.posLoop spec brk sortable acc k)) True (posIter ctx rec spec brk sortable acc k up ts) := by
  cases ts <;> simp only [posIter] <;> neatw H

theorem stdIter_neat (cmd : Option CmdInfo) (specs : List PSpec) (dflt : PSpec) (kwargs : List (Str × ArgP))
    (brk : List Breaker) (kbrk : List Breaker) (acc : List Node) (up : Bool) (ts : List Token)
    (hA : Kids ctx Inner acc) :
    Sat (NPost ctx (.stdLoop cmd specs dflt kwargs brk kbrk acc)) True
      (stdIter rec cmd specs dflt kwargs brk kbrk acc up ts) := by
  cases ts <;> simp only [stdIter] <;> neatw H

theorem condIter_neat (brk : List Breaker) (acc : List Node) (up : Bool) (ts : List Token)
    (hA : Kids ctx Inner acc) : Sat (NPost ctx (.condLoop brk acc)) True (condIter rec brk acc up ts) := by
  cases ts <;> simp only [condIter] <;> neatw H

theorem setIter_neat (varname : Option Str) (brk : List Breaker) (acc : List Node) (up : Bool)
    (ts : List Token) (hA : Kids ctx Inner acc) :
    Sat (NPost ctx (.setLoop varname brk acc)) True (setIter ctx rec varname brk acc up ts) := by
  cases ts <;> simp only [setIter] <;> neatw H

theorem emptyIter_neat (brk : List Breaker) (acc : List Node) (up : Bool) (ts : List Token)
    (hA : Kids ctx Inner acc) : Sat (NPost ctx (.emptyLoop brk acc)) True (emptyIter rec brk acc up ts) := by
  cases ts <;> simp only [emptyIter] <;> neatw H

theorem foreachInIter_neat (brk : List Breaker) (acc : List Node) (up : Bool) (ts : List Token)
    (hA : Kids ctx Inner acc) : Sat (NPost ctx (.foreachInLoop brk acc)) True (foreachInIter rec brk acc up ts) := by
  cases ts <;> simp only [foreachInIter] <;> neatw H

theorem objIter_neat (brk : List Breaker) (acc : List Node) (up : Bool) (ts : List Token)
    (hA : Kids ctx Inner acc) : Sat (NPost ctx (.objLoop brk acc)) True (objIter rec brk acc up ts) := by
  cases ts <;> simp only [objIter] <;> neatw H

theorem targetIter_neat (state : Nat) (brk : List Breaker) (acc : List Node) (up : Bool) (ts : List Token)
    (hA : Kids ctx Inner acc) : Sat (NPost ctx (.targetLoop state brk acc)) True (targetIter rec state brk acc up ts) := by
  cases ts <;> simp only [targetIter] <;> neatw H

theorem installIter_neat (brk : List Breaker) (acc : List Node) (up : Bool) (ts : List Token)
    (hA : Kids ctx Inner acc) : Sat (NPost ctx (.installLoop brk acc)) True (installIter rec brk acc up ts) := by
  cases ts <;> simp only [installIter] <;> neatw H

theorem kwIter_neat (word : Str) (p : ArgP) (brk : List Breaker) (ts : List Token) (hk : HeadKw ts) :
    Sat (NPost ctx (.kwGroup word p brk)) True (kwIter rec word p brk ts) := by
  cases ts with
  | nil => exact Sat.any
  | cons t ts =>
    simp only [kwIter]
    split
    · exact Sat.any
    · refine Sat.bind (H _ _ _ (by neatpre)) ?_
      rintro ⟨sub, rest⟩ ⟨hsub, hgrp⟩
      dsimp only at hsub
      replace hgrp : Grp sub := hgrp
      refine done ⟨?_, by simp [Inner, mk]⟩
      simp only [mk]
      rw [neat_node]
      refine ⟨⟨t, _, _, rfl, fun _ h => mem_takeWs h, ?_⟩, ?_⟩
      · split
        · exact Or.inr ⟨sub, rfl, hgrp⟩
        · exact Or.inl rfl
      · intro c hc
        simp only [List.mem_append, List.mem_cons] at hc
        rcases hc with (rfl | hc) | hc
        · exact neat_tokNode (ty := .keyword) ⟨t, rfl, hk⟩
        · exact neat_leaves _ c hc
        · split at hc
          · simp only [List.mem_singleton] at hc; subst hc; exact hsub
          · simp at hc

theorem parenIter_neat (ts : List Token) : Sat (NPost ctx .paren) True (parenIter ctx rec ts) := by
  cases ts with
  | nil => exact Sat.any
  | cons t ts =>
    simp only [parenIter]
    split
    · exact Sat.any
    · rename_i hl
      refine Sat.bind (H _ _ _ (by neatpre)) ?_
      rintro ⟨sub, rest⟩ ⟨hsub, hgrp⟩
      dsimp only at hsub
      replace hgrp : Grp sub := hgrp
      simp only
      split
      · exact Sat.any
      · rename_i r rest'
        split
        · exact Sat.any
        · rename_i hr
          obtain ⟨h1, h2⟩ := trailing_neat ctx rest'
          refine done ⟨?_, by simp [Inner, mk]⟩
          simp only [mk]
          rw [neat_node]
          refine ⟨⟨t, r, sub, _, rfl, hgrp, h1⟩, ?_⟩
          intro c hc
          simp only [List.mem_append, List.mem_cons, List.not_mem_nil, or_false] at hc
          rcases hc with (rfl | rfl | rfl) | hc
          · exact neat_tokNode (ty := .lparen) ⟨t, rfl, by simpa using hl⟩
          · exact hsub
          · exact neat_tokNode (ty := .rparen) ⟨r, rfl, by simpa using hr⟩
          · exact h2 c hc

theorem flagIter_neat (flags : List Str) (brk : List Breaker) (acc : List Node) (up : Bool) (ts : List Token)
    (hA : Kids ctx Inner acc) (hf : flags = targetFlags) :
    Sat (NPost ctx (.flagLoop flags brk acc)) True (flagIter ctx rec flags brk acc up ts) := by
  subst hf
  cases ts with
  | nil => simp only [flagIter]; neatw H
  | cons t ts =>
    simp only [flagIter]
    split
    · neatw H
    · split
      · neatw H
      · rename_i hw
        split
        · neatw H
        · rename_i hc
          have hc : FlagTok t := ⟨by simpa using hw, Or.inr (by simpa using hc)⟩
          refine H _ _ _ ⟨?_, rfl⟩
          simp only [Job.nodes, Job.child]
          refine kids_append hA (kids_cons (neat_flag ctx ts hc) (by simp [Inner, mk]) kids_nil)

omit H in
theorem kids_split {P : Node → Prop} {a b : List Node} (h : Kids ctx P (a ++ b)) : Kids ctx P a ∧ Kids ctx P b :=
  ⟨fun x hx => h x (by simp [hx]), fun x hx => h x (by simp [hx])⟩

theorem tupleIter_neat (npargs : Nargs) (ntup : Nat) (flags : List Str) (brk : List Breaker)
    (acc : List Node) (grp : Option (List Node)) (after : List Node) (np nt : Nat) (up : Bool)
    (ts : List Token) (hA : Kids ctx Inner (acc ++ grp.getD [] ++ after)) :
    Sat (NPost ctx (.tupleLoop npargs ntup flags brk acc grp after np nt)) True
      (tupleIter ctx rec npargs ntup flags brk acc grp after np nt up ts) := by
  obtain ⟨h12, h3⟩ := kids_split hA
  obtain ⟨h1, h2⟩ := kids_split h12
  clear hA h12
  have hall : Kids ctx Inner (tupleChildren acc grp after) := by
    cases grp <;> simp only [tupleChildren, mkPos] <;> neatl
  cases ts with
  | nil => simp only [tupleIter]; neatw H
  | cons t ts =>
    simp only [tupleIter]
    refine Sat.bindT fun _ _ => ?_
    split
    · neatw H
    · split
      · neatw H
      · split
        · neatw H
        · split
          · neatw H
          · rename_i hw hc
            have hchild : ∀ us, Neat ctx (mk (if kwargIn t flags then .flag else .argument)
                (.tok t :: (consumeTrailing ctx us).1)) := fun us => neat_choice ctx us flags (headTok_of hw hc)
            cases ts with
            | nil => neatw H
            | cons u us =>
              simp only
              split
              · neatw H
              · have hg : ∀ g, Kids ctx Inner g → Kids ctx Inner [mkPos (.int 2) (g ++ [mk (if kwargIn t flags = true then
                    NT.flag else NT.argument) (.tok t :: (consumeTrailing ctx (u :: us)).1)])] := by
                  intro g hg
                  refine kids_cons (neat_group (Or.inr rfl) (kids_append hg
                    (kids_cons (hchild _) inner_choice kids_nil))) (by simp [Inner, mkPos]) kids_nil
                cases grp with
                | none =>
                  simp only
                  split
                  · refine H _ _ _ ⟨?_, trivial⟩
                    simp only [Job.nodes, Job.child, Option.getD_none]
                    have := hg [] kids_nil
                    simp only [List.nil_append] at this
                    exact kids_append (kids_append (kids_append (kids_append h1 h3) this) kids_nil) kids_nil
                  · refine H _ _ _ ⟨?_, trivial⟩
                    simp only [Job.nodes, Job.child, Option.getD_some]
                    exact kids_append (kids_append (kids_append h1 h3) (kids_cons (hchild _) inner_choice kids_nil))
                      kids_nil
                | some g =>
                  replace h2 : Kids ctx Inner g := h2
                  simp only
                  split
                  · refine H _ _ _ ⟨?_, trivial⟩
                    simp only [Job.nodes, Job.child, Option.getD_none]
                    exact kids_append (kids_append (kids_append (kids_append h1 (hg g h2)) h3) kids_nil) kids_nil
                  · refine H _ _ _ ⟨?_, trivial⟩
                    simp only [Job.nodes, Job.child, Option.getD_some]
                    exact kids_append (kids_append h1 (kids_append h2 (kids_cons (hchild _) inner_choice kids_nil))) h3

theorem srcIter_neat (lib : Bool) (brk : List Breaker) (state : Nat)
    (sortable srcSortable inAfter : Bool) (before parg src after : List Node) (up : Bool)
    (ts : List Token) (hA : Kids ctx Inner (before ++ parg ++ src ++ after)) :
    Sat (NPost ctx (.srcLoop lib brk state sortable srcSortable inAfter before parg src after)) True
      (srcIter ctx rec lib brk state sortable srcSortable inAfter before parg src after up ts) := by
  obtain ⟨h123, h4⟩ := kids_split hA
  obtain ⟨h12, h3⟩ := kids_split h123
  obtain ⟨h1, h2⟩ := kids_split h12
  clear hA h12 h123
  have hall : Neat ctx (srcNode (lastState lib) state srcSortable before parg src after) := by
    simp only [srcNode, mk, mkPos]; neatl
  cases ts with
  | nil => exact done ⟨hall, by simp [Grp, srcNode, mk]⟩
  | cons t ts =>
    simp only [srcIter]
    split
    · exact done ⟨hall, by simp [Grp, srcNode, mk]⟩
    · have put : ∀ (so : Bool) (n : Node), Neat ctx n → Inner n →
          Sat (NPost ctx (.srcLoop lib brk state sortable srcSortable inAfter before parg src after)) True
            (if state ≤ 1 then
              rec (.srcLoop lib brk state so srcSortable inAfter (before ++ [n]) parg src after) up ts
            else if inAfter = true then
              rec (.srcLoop lib brk state so srcSortable inAfter before parg src (after ++ [n])) up ts
            else if state < lastState lib then
              rec (.srcLoop lib brk state so srcSortable inAfter before (parg ++ [n]) src after) up ts
            else
              rec (.srcLoop lib brk state so srcSortable inAfter before parg (src ++ [n]) after) up ts) := by
        intro so n hn hi
        have := kids_cons hn hi kids_nil
        repeat' split
        · exact H _ _ _ ⟨kids_append (kids_append (kids_append (kids_append h1 this) h2) h3) h4, trivial⟩
        · exact H _ _ _ ⟨kids_append (kids_append (kids_append h1 h2) h3) (kids_append h4 this), trivial⟩
        · exact H _ _ _ ⟨kids_append (kids_append (kids_append h1 (kids_append h2 this)) h3) h4, trivial⟩
        · exact H _ _ _ ⟨kids_append (kids_append (kids_append h1 h2) (kids_append h3 this)) h4, trivial⟩
      split
      · rename_i hw
        exact put _ _ (neat_tok t) hw
      · split
        · rename_i hc
          exact put _ _ (neat_bare1 hc) (Or.inl rfl)
        · split
          · neatw H
          · split
            · generalize (if lib = true then (if state = 2 then [S "STATIC", S "SHARED", S "MODULE", S "OBJECT"]
                  else [S "EXCLUDE_FROM_ALL"]) else [S "WIN32", S "MACOSX_BUNDLE", S "EXCLUDE_FROM_ALL"]) = fl
              split
              · exact H _ _ _ (by neatpre)
              · exact H _ _ _ (by neatpre)
            · neatw H

theorem argStart_neat (p : ArgP) (brk : List Breaker) (up : Bool) (ts : List Token) :
    Sat (NPost ctx (.arg p brk)) True (argStart rec p brk up ts) := by
  cases p with
  | shell =>
    simp only [argStart]
    refine Sat.bind (H _ _ _ (by neatpre)) ?_
    rintro ⟨n, rest⟩ ⟨h1, h2⟩
    exact done (neat_tagGroups h1 h2)
  | _ =>
    simp only [argStart, stdStart, setStart, foreachStdStart, foreachInStart, objStart, fileWriteStart]
    neatw H

omit H in
theorem stmtTail_neat (k : Nat) (ts : List Token) (ns : List Node) (rest : List Token)
    (h : stmtTail k ts = .ok (ns, rest)) : Kids ctx Filler ns := by
  induction k generalizing ts ns rest with
  | zero =>
    simp only [stmtTail, Except.ok.injEq, Prod.mk.injEq] at h
    obtain ⟨rfl, rfl⟩ := h
    exact kids_nil
  | succ k ih =>
    cases ts with
    | nil =>
      simp only [stmtTail, Except.ok.injEq, Prod.mk.injEq] at h
      obtain ⟨rfl, rfl⟩ := h
      exact kids_nil
    | cons t ts =>
      simp only [stmtTail] at h
      split at h
      · simp only [Except.ok.injEq, Prod.mk.injEq] at h
        obtain ⟨rfl, rfl⟩ := h
        exact kids_nil
      · split at h
        · rename_i hw
          obtain ⟨⟨ns', rest'⟩, h1, h2⟩ := bind_ok.1 h
          simp only [pure_ok, Prod.mk.injEq] at h2
          obtain ⟨rfl, rfl⟩ := h2
          exact kids_cons (neat_tok t) hw (ih _ _ _ h1)
        · split at h
          · rename_i hc
            have hc' : isAnyComment t = true := by
              simp only [isComment, isAnyComment, beq_iff_eq] at *; simp [hc]
            obtain ⟨⟨ns', rest'⟩, h1, h2⟩ := bind_ok.1 h
            simp only [pure_ok, Prod.mk.injEq] at h2
            obtain ⟨rfl, rfl⟩ := h2
            exact kids_cons (comment_neat ts hc').1 (comment_filler t ts) (ih _ _ _ h1)
          · simp at h

theorem stmtIter_neat (ts : List Token) (hp : HeadWord ts) : Sat (NPost ctx .statement) True (stmtIter ctx rec ts) := by
  cases ts with
  | nil => exact Sat.any
  | cons t ts =>
    simp only [stmtIter]
    split
    · exact Sat.any
    · rename_i l ts1 he
      split
      · exact Sat.any
      · rename_i hl
        refine Sat.bind (H _ _ _ (by neatpre)) ?_
        rintro ⟨sub, rest⟩ ⟨hs, hg⟩
        replace hg : Grp sub := hg
        dsimp only at hs
        refine Sat.bindT ?_
        rintro ⟨tail, rest1⟩ h1
        have hA := stmtTail_neat (ctx := ctx) _ _ _ _ h1
        have hB := (stmtTail_noText _ _ _ _ h1).2
        simp only
        split
        · exact Sat.any
        · rename_i r rest2
          obtain ⟨ht1, ht2⟩ := trailing_neat ctx rest2
          refine done ⟨?_, Or.inl rfl, by simp [Block]⟩
          rw [neat_node]
          refine ⟨⟨t, l, r, _, _, sub, tail, _, rfl, fun _ h => mem_takeWs h, fun _ h => mem_takeWs h, hg,
            fun n hn => (hA n hn).2, ht1, rfl⟩, ?_⟩
          intro c hc
          simp only [List.mem_append, List.mem_singleton] at hc
          rcases hc with ((((((rfl | hc) | rfl) | hc) | rfl) | hc) | rfl) | hc
          · exact neat_tokNode (ty := .funname) ⟨t, rfl, hp⟩
          · exact neat_leaves _ c hc
          · exact neat_tokNode (ty := .lparen) ⟨l, rfl, by simpa using hl⟩
          · exact neat_leaves _ c hc
          · exact hs
          · exact (hA c hc).1
          · exact neat_tokNode (ty := .rparen) ⟨r, rfl, hB (Nat.le_refl _) _ _ rfl⟩
          · exact ht2 c hc

theorem flowIter_neat (ts : List Token) (hp : HeadWord ts) : Sat (NPost ctx .flow) True (flowIter rec ts) := by
  cases ts with
  | nil => exact Sat.any
  | cons t ts =>
    simp only [flowIter]
    split
    · exact Sat.imp (H _ _ _ ⟨kids_nil, hp⟩) (fun r hr => hr) id
    · refine Sat.bind (H .statement _ _ ⟨kids_nil, hp⟩) ?_
      rintro ⟨o, rest1⟩ ⟨ho, ho2, _⟩
      refine Sat.bind (H _ _ _ ⟨kids_nil, trivial⟩) ?_
      rintro ⟨b, rest2⟩ ⟨hb, hb2, hw⟩
      refine Sat.bind (H .statement _ _ ⟨kids_nil, hw⟩) ?_
      rintro ⟨c, rest3⟩ ⟨hc, hc2, _⟩
      refine done ⟨?_, by simp [Block, mk]⟩
      simp only [mk]
      rw [neat_node]
      have hk : Kids ctx FlowPart [o, b, c] := kids_cons ho ho2 (kids_cons hb hb2 (kids_cons hc hc2 kids_nil))
      exact ⟨fun c hc => (hk c hc).2, fun c hc => (hk c hc).1⟩

theorem ifIter_neat (acc : List Node) (ts : List Token) (hA : Kids ctx FlowPart acc) (hp : HeadWord ts) :
    Sat (NPost ctx (.ifLoop acc)) True (ifIter rec acc ts) := by
  have fin : ∀ cs, Kids ctx FlowPart cs → Neat ctx (mk .flowControl cs) := by
    intro cs hk
    simp only [mk]
    rw [neat_node]
    exact ⟨fun c hc => (hk c hc).2, fun c hc => (hk c hc).1⟩
  cases ts with
  | nil => exact done ⟨fin _ hA, by simp [Block, mk]⟩
  | cons t ts =>
    simp only [ifIter]
    split
    · refine Sat.bind (H .statement _ _ ⟨kids_nil, hp⟩) ?_
      rintro ⟨c, rest⟩ ⟨hc, hc2, _⟩
      exact done ⟨fin _ (kids_append hA (kids_cons hc hc2 kids_nil)), by simp [Block, mk]⟩
    · refine Sat.bind (H .statement _ _ ⟨kids_nil, hp⟩) ?_
      rintro ⟨o, rest1⟩ ⟨ho, ho2, _⟩
      refine Sat.bind (H _ _ _ ⟨kids_nil, trivial⟩) ?_
      rintro ⟨b, rest2⟩ ⟨hb, hb2, hw⟩
      exact Sat.imp (H _ _ _ ⟨kids_append hA (kids_cons ho ho2 (kids_cons hb hb2 kids_nil)), hw⟩)
        (fun r hr => hr) id

theorem bodyIter_neat (breakset : List Str) (acc : List Node) (ts : List Token) (hA : Kids ctx Block acc) :
    Sat (NPost ctx (.body breakset acc)) True (bodyIter ctx rec breakset acc ts) := by
  have fin : Neat ctx (mk .body acc) := by
    simp only [mk]
    rw [neat_node]
    exact ⟨fun c hc => (hA c hc).2, fun c hc => (hA c hc).1⟩
  have go : ∀ n ts, Neat ctx n → Block n →
      Sat (NPost ctx (.body breakset acc)) True (rec (.body breakset (acc ++ [n])) false ts) := by
    intro n ts h1 h2
    exact Sat.imp (H _ _ _ ⟨kids_append hA (kids_cons h1 h2 kids_nil), trivial⟩) (fun r hr => hr) id
  cases ts with
  | nil => exact done ⟨fin, Or.inr rfl, trivial⟩
  | cons t ts =>
    simp only [bodyIter]
    split
    · rename_i hw
      refine go _ _ ?_ (Or.inl rfl)
      simp only [mk]
      rw [neat_node]
      refine ⟨⟨t, ts.takeWhile isWs, ?_, ?_⟩, neat_leaves _⟩
      · rw [List.takeWhile_cons_of_pos hw]
      · intro u hu
        rcases List.mem_cons.1 hu with rfl | hu
        · exact hw
        · exact mem_takeWs hu
    · split
      · rename_i hc
        obtain ⟨h1, h2⟩ := comment_neat ts hc
        refine go _ _ h1 ?_
        simp only [consumeComment]
        split <;> simp [Block, mk]
      · split
        · rename_i h
          exact go _ _ (neat_onoff h) (by simp [Block, mk])
        · split
          · rename_i hword
            have hword : t.type = .word := by simpa using hword
            split
            · exact done ⟨fin, Or.inr rfl, hword⟩
            · split
              · refine Sat.bind (H .flow _ _ ⟨kids_nil, hword⟩) ?_
                rintro ⟨sub, rest⟩ ⟨hs, hs2⟩
                exact go _ _ hs hs2
              · refine Sat.bind (H .statement _ _ ⟨kids_nil, hword⟩) ?_
                rintro ⟨sub, rest⟩ ⟨hs, _, hs2⟩
                exact go _ _ hs hs2
          · split
            · rename_i hat
              obtain ⟨h1, h2⟩ := trailing_neat ctx ts
              refine go _ _ ?_ (by simp [Block, mk])
              simp only [mk]
              rw [neat_node]
              refine ⟨⟨t, _, rfl, h1⟩, ?_⟩
              intro c hc
              rcases List.mem_cons.1 hc with rfl | hc
              · exact neat_tokNode (ty := .atword) ⟨t, rfl, by simpa using hat⟩
              · exact h2 c hc
            · split
              · exact Sat.imp (H _ _ _ ⟨hA, trivial⟩) (fun r hr => hr) id
              · exact Sat.any

theorem step_neat (job : Job) (up : Bool) (ts : List Token) (hp : NPre ctx job ts) :
    Sat (NPost ctx job) True (step ctx rec job up ts) := by
  obtain ⟨hA, hp⟩ := hp
  cases job with
  | arg p brk => exact argStart_neat H p brk up ts
  | stdLoop cmd specs dflt kwargs brk kbrk acc => exact stdIter_neat H _ _ _ _ _ _ _ _ _ hA
  | pos spec brk => simp only [step, posStart]; exact H _ _ _ ⟨kids_takeWs _, trivial⟩
  | posLoop spec brk sortable acc n => exact posIter_neat H _ _ _ _ _ _ _ hA
  | kwGroup word p brk => exact kwIter_neat H _ _ _ _ hp
  | paren => exact parenIter_neat H ..
  | condLoop brk acc => exact condIter_neat H _ _ _ _ hA
  | tupleLoop npargs ntup flags brk acc grp after np nt => exact tupleIter_neat H _ _ _ _ _ _ _ _ _ _ _ hA
  | flagLoop flags brk acc => exact flagIter_neat H _ _ _ _ _ hA hp
  | setLoop varname brk acc => exact setIter_neat H _ _ _ _ _ hA
  | emptyLoop brk acc => exact emptyIter_neat H _ _ _ _ hA
  | foreachInLoop brk acc => exact foreachInIter_neat H _ _ _ _ hA
  | srcLoop lib brk state sortable srcSortable inAfter before parg src after =>
    exact srcIter_neat H _ _ _ _ _ _ _ _ _ _ _ _ hA
  | objLoop brk acc => exact objIter_neat H _ _ _ _ hA
  | targetLoop state brk acc => exact targetIter_neat H _ _ _ _ _ hA
  | installLoop brk acc => exact installIter_neat H _ _ _ _ hA
  | statement => exact stmtIter_neat H _ hp
  | flow => exact flowIter_neat H _ hp
  | ifLoop acc => exact ifIter_neat H _ _ hA hp
  | body breakset acc => exact bodyIter_neat H _ _ _ hA

omit H in
theorem exec_neat (n : Nat) (job : Job) (up : Bool) (ts : List Token) (hp : NPre ctx job ts) :
    Sat (NPost ctx job) True (exec ctx n job up ts) := by
  induction n generalizing job up ts with
  | zero => exact fun _ => trivial
  | succ n ih => exact step_neat (fun job up ts hp => ih job up ts hp) job up ts hp

end

/-- Every tree the parser returns is neat. -/
theorem parse_neat {n : Nat} {ts : List Token} {tree : Node} (h : parseN ctx n ts = .ok tree) :
    Neat ctx tree ∧ IsBody tree := by
  simp only [parseN] at h
  have h1 := exec_neat (ctx := ctx) n (.body [] []) false ts ⟨kids_nil, trivial⟩
  have h2 := exec_shape (ctx := ctx) n (.body [] []) false ts ⟨wf_nil, trivial⟩
  split at h
  · simp at h
  · rename_i tree' rest he
    simp only [Except.ok.injEq] at h
    subst h
    rw [he] at h1 h2
    exact ⟨h1.1, h2.2.1⟩

end Verif.Parse
