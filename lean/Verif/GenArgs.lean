import Verif.Gen
import Verif.LintParams
import Verif.LocalTop

/-!
# The first group of a definition (lemmas for cmake-genparsers)
-/

namespace Verif.Gen
open Verif Py Lex Parse
open Verif.Lint (Spot spots kidsOf semToks isNode hasType funName isCall argTree roleOf argsOf nameOf)

/-! ## How the nodes of a file are made -/

/-- Bodies and blocks are made without attributes, statements by the parser of statements. -/
inductive Built (ctx : Ctx) : Node → Prop
  | leaf {n : Node} : Leafy n → Built ctx n
  | stmt {k : Nat} {up : Bool} {ts : List Token} {r : Node × List Token} : exec ctx k .statement up ts = .ok r → Built ctx r.1
  | block {ty : NT} {cs : List Node} : ty = .body ∨ ty = .flowControl → (∀ c ∈ cs, Built ctx c) → Built ctx (mk ty cs)

variable {ctx : Ctx}

/-- What the block-level jobs make. -/
structure BuiltUpTo (ctx : Ctx) (n : Nat) : Prop where
  body : ∀ bs acc up ts r, (∀ c ∈ acc, Built ctx c) → exec ctx n (.body bs acc) up ts = .ok r → Built ctx r.1
  flow : ∀ up ts r, exec ctx n .flow up ts = .ok r → Built ctx r.1
  ifs : ∀ acc up ts r, (∀ c ∈ acc, Built ctx c) → exec ctx n (.ifLoop acc) up ts = .ok r → Built ctx r.1

theorem built_snoc {acc : List Node} {m : Node} (h : ∀ c ∈ acc, Built ctx c) (hm : Built ctx m) :
    ∀ c ∈ acc ++ [m], Built ctx c := by
  intro c hc
  rcases List.mem_append.1 hc with hc | hc
  · exact h c hc
  · simp only [List.mem_singleton] at hc
    rwa [hc]

theorem exec_built (n : Nat) : BuiltUpTo ctx n := by
  induction n with
  | zero => constructor <;> intros <;> rename_i h <;> simp [exec] at h
  | succ n ih =>
    refine ⟨?_, ?_, ?_⟩
    · intro bs acc up ts r hs h
      simp only [exec, step] at h
      cases ts with
      | nil =>
        simp only [bodyIter, Except.ok.injEq] at h
        subst h
        exact .block (Or.inl rfl) hs
      | cons t ts =>
        have next : ∀ (m : Node) (rest : List Token), Built ctx m →
            exec ctx n (.body bs (acc ++ [m])) false rest = .ok r → Built ctx r.1 :=
          fun m rest hm h => ih.body _ _ _ _ _ (built_snoc hs hm) h
        simp only [bodyIter] at h
        split at h
        · refine next _ _ (.leaf ?_) h
          intro m hm
          cases hm with
          | refl => rfl
          | child hc hm =>
            simp only [leaves, List.mem_map] at hc
            obtain ⟨u, _, rfl⟩ := hc
            cases hm
            rfl
        · split at h
          · rename_i hc
            have := comment_neat (ctx := ctx) ts hc
            exact next _ _ (.leaf (leafy_of_neat this.1 (quiet_filler this.2))) h
          · split at h
            · rename_i hc
              exact next _ _ (.leaf (leafy_of_neat (ctx := ctx) (neat_onoff hc) rfl)) h
            · split at h
              · split at h
                · simp only [Except.ok.injEq] at h
                  subst h
                  exact .block (Or.inl rfl) hs
                · split at h
                  · obtain ⟨⟨sub, rest⟩, h1, h2⟩ := Parse.bind_ok.1 h
                    exact next _ _ (ih.flow _ _ _ h1) h2
                  · obtain ⟨⟨sub, rest⟩, h1, h2⟩ := Parse.bind_ok.1 h
                    exact next _ _ (.stmt h1) h2
              · split at h
                · refine next _ _ (.leaf ?_) h
                  have ht := trailing_neat ctx ts
                  intro m hm
                  cases hm with
                  | refl => rfl
                  | child hc hm =>
                    rcases List.mem_cons.1 hc with rfl | hc
                    · cases hm with
                      | refl => rfl
                      | child hc hm =>
                        simp only [List.mem_singleton] at hc
                        subst hc
                        cases hm
                        rfl
                    · exact leafy_of_neat (ht.2 _ hc) (quiet_trail ht.1 _ hc) _ hm
                · split at h
                  · exact ih.body _ _ _ _ _ hs h
                  · simp at h
    · intro up ts r h
      cases ts with
      | nil => simp [exec, step, flowIter] at h
      | cons t ts =>
        simp only [exec, step, flowIter] at h
        split at h
        · exact ih.ifs _ _ _ _ (by simp) h
        · obtain ⟨⟨o, r1⟩, h1, h⟩ := Parse.bind_ok.1 h
          obtain ⟨⟨b, r2⟩, h2, h⟩ := Parse.bind_ok.1 h
          obtain ⟨⟨c, r3⟩, h3, h⟩ := Parse.bind_ok.1 h
          simp only [pure, Except.pure, Except.ok.injEq] at h
          subst h
          refine .block (Or.inr rfl) ?_
          intro x hx
          simp only [List.mem_cons, List.not_mem_nil, or_false] at hx
          rcases hx with rfl | rfl | rfl
          · exact .stmt h1
          · exact ih.body _ _ _ _ _ (by simp) h2
          · exact .stmt h3
    · intro acc up ts r hs h
      cases ts with
      | nil =>
        simp only [exec, step, ifIter, Except.ok.injEq] at h
        subst h
        exact .block (Or.inr rfl) hs
      | cons t ts =>
        simp only [exec, step, ifIter] at h
        split at h
        · obtain ⟨⟨e, r1⟩, h1, h⟩ := Parse.bind_ok.1 h
          simp only [pure, Except.pure, Except.ok.injEq] at h
          subst h
          exact .block (Or.inr rfl) (built_snoc hs (.stmt h1))
        · obtain ⟨⟨o, r1⟩, h1, h⟩ := Parse.bind_ok.1 h
          obtain ⟨⟨b, r2⟩, h2, h⟩ := Parse.bind_ok.1 h
          refine ih.ifs _ _ _ _ ?_ h
          have := built_snoc (built_snoc hs (.stmt h1)) (ih.body _ _ _ _ _ (by simp) h2)
          simpa using this

theorem parse_built {ts : List Token} {tree : Node} (h : parse ctx ts = .ok tree) : Built ctx tree := by
  simp only [parse, parseN] at h
  split at h
  · simp at h
  · rename_i tree' rest he
    simp only [Except.ok.injEq] at h
    subst h
    exact (exec_built _).body _ _ _ _ _ (by simp) he

theorem exec_stmtsOf {k : Nat} {up : Bool} {ts : List Token} {r : Node × List Token} (h : exec ctx k .statement up ts = .ok r) :
    stmtsOf r.1 = [r.1] := by
  cases k with
  | zero => simp [exec] at h
  | succ k =>
    change stmtIter ctx (exec ctx k) ts = _ at h
    cases ts with
    | nil => simp [stmtIter] at h
    | cons t ts =>
      simp only [stmtIter] at h
      split at h
      · simp at h
      · split at h
        · simp at h
        · obtain ⟨⟨sub, rest⟩, _, h⟩ := Parse.bind_ok.1 h
          obtain ⟨⟨tail, rest1⟩, _, h⟩ := Parse.bind_ok.1 h
          dsimp only at h
          split at h
          · simp at h
          · simp only [pure, Except.pure, Except.ok.injEq] at h
            subst h
            simp [stmtsOf]

/-- Statements are made by the parser of statements. -/
theorem built_stmts {n : Node} (h : Built ctx n) : ∀ s ∈ stmtsOf n,
    ∃ k up ts r, exec ctx k .statement up ts = .ok r ∧ r.1 = s := by
  induction h with
  | leaf h => intro s hs; rw [Lint.leafy_stmts _ h] at hs; simp at hs
  | @stmt k up ts r h =>
    intro s hs
    rw [exec_stmtsOf h, List.mem_singleton] at hs
    exact ⟨k, up, ts, r, h, hs.symm⟩
  | @block ty cs hty _ ih =>
    intro s hs
    have e : stmtsOf (mk ty cs) = stmtsL cs := by
      rcases hty with rfl | rfl <;> simp [mk, stmtsOf]
    rw [e] at hs
    have : ∀ (l : List Node), s ∈ stmtsL l → ∃ c ∈ l, s ∈ stmtsOf c := by
      intro l
      induction l with
      | nil => simp [stmtsL]
      | cons c l ihl =>
        intro h
        simp only [stmtsL, List.mem_append] at h
        rcases h with h | h
        · exact ⟨c, by simp, h⟩
        · obtain ⟨d, hd, h⟩ := ihl h
          exact ⟨d, by simp [hd], h⟩
    obtain ⟨c, hc, h⟩ := this cs hs
    exact ih c hc s h

/-! ## One group holds all words -/

/-- Nothing but blanks and comments before the closing parenthesis, or the end. -/
def AtEnd (ts : List Token) : Prop := ∀ t, (semantics ts).head? = some t → t.type = .rparen

/-- What a group of definitions may hold. -/
def many : PSpec := { nargs := .str (S "1+"), legacy := true }

theorem sem_cons_not {t : Token} {ts : List Token} (h : isSemantic t = false) : semantics (t :: ts) = semantics ts := by
  simp [semantics, h]

theorem atEnd_cons {t : Token} {ts : List Token} (h : isSemantic t = false) : AtEnd (t :: ts) ↔ AtEnd ts := by
  simp [AtEnd, sem_cons_not h]

theorem sem_ws_not {t : Token} (h : isWs t = true) : isSemantic t = false := by simp [isSemantic, h]
theorem sem_comment_not {t : Token} (h : isAnyComment t = true) : isSemantic t = false := by simp [isSemantic, h]
theorem sem_onoff_not {t : Token} (h : isOnOff t = true) : isSemantic t = false := by simp [isSemantic, h]

theorem breaks_paren {t : Token} (h : shouldBreak t ([.paren] ++ [kwBreaker []]) = true) : t.type = .rparen := by
  simpa [shouldBreak, Breaker.fires, kwBreaker] using h

theorem atEnd_break {t : Token} {ts : List Token} (h : shouldBreak t ([.paren] ++ [kwBreaker []]) = true) : AtEnd (t :: ts) := by
  have := breaks_paren h
  intro u hu
  have hs : isSemantic t = true := by simp [isSemantic, isWs, isAnyComment, isOnOff, this]
  simp only [semantics, List.filter_cons, hs, if_true, List.head?_cons, Option.some.injEq] at hu
  rwa [← hu]

theorem atEnd_up {up : Bool} {ts : List Token} {cs : List Node} (h : belongsUp up ts cs ([.paren] ++ [kwBreaker []]) = true) :
    AtEnd ts := by
  intro u hu
  simp only [belongsUp, hu] at h
  split at h
  · rename_i e
    simp only [Option.some.injEq] at e
    subst e
    simp only [Bool.and_eq_true] at h
    exact breaks_paren h.1.1
  · simp at h

theorem posLoop_end : ∀ (n : Nat) (sortable : Bool) (acc : List Node) (k : Nat) (up : Bool) (ts : List Token)
    (r : Node × List Token), exec ctx n (.posLoop many ([.paren] ++ [kwBreaker []]) sortable acc k) up ts = .ok r →
    hasType .pargGroup r.1 = true ∧ AtEnd r.2
  | 0, _, _, _, _, _, _, h => by simp [exec] at h
  | n + 1, sortable, acc, k, up, ts, r, h => by
    change posIter ctx (exec ctx n) many _ sortable acc k up ts = _ at h
    cases ts with
    | nil =>
      simp only [posIter, Except.ok.injEq] at h
      subst h
      exact ⟨rfl, by simp [AtEnd, semantics]⟩
    | cons t ts =>
      have hp : pargsFull many.nargs k = .ok false := rfl
      simp only [posIter, hp, Bind.bind, Except.bind, Bool.false_eq_true, if_false] at h
      split at h
      · rename_i hb
        simp only [Bool.and_eq_true] at hb
        simp only [pure, Except.pure, Except.ok.injEq] at h
        subst h
        exact ⟨rfl, atEnd_break hb.1⟩
      · split at h
        · split at h
          · simp at h
          · exact posLoop_end n _ _ _ _ _ _ h
        · split at h
          · exact posLoop_end n _ _ _ _ _ _ h
          · split at h
            · split at h
              · rename_i hb
                simp only [pure, Except.pure, Except.ok.injEq] at h
                subst h
                exact ⟨rfl, atEnd_up hb⟩
              · exact posLoop_end n _ _ _ _ _ _ h
            · split at h
              · exact posLoop_end n _ _ _ _ _ _ h
              · exact posLoop_end n _ _ _ _ _ _ h

theorem pos_end {n : Nat} {up : Bool} {ts : List Token} {r : Node × List Token}
    (h : exec ctx n (.pos many ([.paren] ++ [kwBreaker []])) up ts = .ok r) : hasType .pargGroup r.1 = true ∧ AtEnd r.2 := by
  cases n with
  | zero => simp [exec] at h
  | succ n =>
    change posStart (exec ctx n) many _ up ts = _ at h
    exact posLoop_end n _ _ _ _ _ _ h

/-- No groups, no words. -/
def Idle (n : Node) : Prop := hasType .pargGroup n = false ∧ semToks n = []

theorem idle_ws {t : Token} (h : isWs t = true) : Idle (.tok t) := ⟨rfl, by simp [semToks, Node.toks, semantics, sem_ws_not h]⟩

theorem idle_comment {t : Token} (ts : List Token) (h : isAnyComment t = true) : Idle (consumeComment t ts).1 := by
  refine ⟨?_, ?_⟩
  · simp only [consumeComment]
    split <;> rfl
  · have := consumeComment_noText t ts h
    rw [semToks, semantics, List.filter_eq_nil_iff]
    intro a ha
    rcases this a ha with e | e <;> simp [isSemantic, e]

theorem idle_onoff {t : Token} (h : isOnOff t = true) : Idle (mk .onoff [.tok t]) :=
  ⟨rfl, by simp [semToks, mk, Node.toks, toksL, semantics, sem_onoff_not h]⟩

theorem idle_leaves (ts : List Token) : ∀ c ∈ leaves (ts.takeWhile isWs), Idle c := by
  intro c hc
  simp only [leaves, List.mem_map] at hc
  obtain ⟨t, ht, rfl⟩ := hc
  exact idle_ws (mem_takeWs ht)

/-- One group, and idle nodes beside it. -/
def OneGroup (l : List Node) : Prop :=
  (∀ c ∈ l, Idle c) ∨ ∃ pre g post, l = pre ++ g :: post ∧ (∀ c ∈ pre, Idle c) ∧ hasType .pargGroup g = true ∧ ∀ c ∈ post, Idle c

theorem idle_snoc {acc : List Node} {m : Node} (h : ∀ c ∈ acc, Idle c) (hm : Idle m) : ∀ c ∈ acc ++ [m], Idle c := by
  intro c hc
  rcases List.mem_append.1 hc with hc | hc
  · exact h c hc
  · simp only [List.mem_singleton] at hc
    rwa [hc]

/-- The rest of the loop, once the words are read. -/
theorem std_done : ∀ (n : Nat) (acc : List Node) (up : Bool) (ts : List Token) (r : Node × List Token), AtEnd ts →
    exec ctx n (.stdLoop none [] many [] [.paren] ([.paren] ++ [kwBreaker []]) acc) up ts = .ok r →
    ∃ post, r.1 = stdNode none (acc ++ post) ∧ ∀ c ∈ post, Idle c
  | 0, _, _, _, _, _, h => by simp [exec] at h
  | n + 1, acc, up, ts, r, he, h => by
    change stdIter (exec ctx n) none [] many [] [.paren] _ acc up ts = _ at h
    cases ts with
    | nil =>
      simp only [stdIter, Except.ok.injEq] at h
      subst h
      exact ⟨[], by simp, by simp⟩
    | cons t ts =>
      have next : ∀ (m : Node) (rest : List Token), Idle m → AtEnd rest →
          exec ctx n (.stdLoop none [] many [] [.paren] ([.paren] ++ [kwBreaker []]) (acc ++ [m])) up rest = .ok r →
          ∃ post, r.1 = stdNode none (acc ++ post) ∧ ∀ c ∈ post, Idle c := by
        intro m rest hm hr h
        obtain ⟨post, e, hp⟩ := std_done n _ _ _ _ hr h
        refine ⟨m :: post, by rw [e]; simp, ?_⟩
        intro c hc
        rcases List.mem_cons.1 hc with rfl | hc
        · exact hm
        · exact hp c hc
      simp only [stdIter] at h
      split at h
      · rename_i hw
        exact next _ _ (idle_ws hw) ((atEnd_cons (sem_ws_not hw)).1 he) h
      · rename_i hw
        split at h
        · rename_i hc
          split at h
          · simp only [Except.ok.injEq] at h
            subst h
            exact ⟨[], by simp, by simp⟩
          · refine next _ _ (idle_comment ts hc) ?_ h
            have := (atEnd_cons (sem_comment_not hc)).1 he
            simpa only [AtEnd, consumeComment_sem t ts hc] using this
        · rename_i hc
          split at h
          · rename_i ho
            exact next _ _ (idle_onoff ho) ((atEnd_cons (sem_onoff_not ho)).1 he) h
          · rename_i ho
            have ht : t.type = .rparen := he t (by
              have : isSemantic t = true := by simp [isSemantic, hw, hc, ho]
              simp [semantics, this])
            have hb : shouldBreak t [.paren] = true := by simp [shouldBreak, Breaker.fires, ht]
            simp only [hb, List.headD_nil, many, Nargs.exact, Bool.not_false, Bool.true_or, Bool.and_true, if_true,
              Except.ok.injEq] at h
            subst h
            exact ⟨[], by simp, by simp⟩

theorem std_loop : ∀ (n : Nat) (acc : List Node) (up : Bool) (ts : List Token) (r : Node × List Token), (∀ c ∈ acc, Idle c) →
    exec ctx n (.stdLoop none [] many [] [.paren] ([.paren] ++ [kwBreaker []]) acc) up ts = .ok r →
    ∃ l, r.1 = stdNode none l ∧ OneGroup l
  | 0, _, _, _, _, _, h => by simp [exec] at h
  | n + 1, acc, up, ts, r, ha, h => by
    change stdIter (exec ctx n) none [] many [] [.paren] _ acc up ts = _ at h
    cases ts with
    | nil =>
      simp only [stdIter, Except.ok.injEq] at h
      subst h
      exact ⟨acc, rfl, Or.inl ha⟩
    | cons t ts =>
      simp only [stdIter] at h
      split at h
      · rename_i hw
        exact std_loop n _ _ _ _ (idle_snoc ha (idle_ws hw)) h
      · split at h
        · rename_i hc
          split at h
          · simp only [Except.ok.injEq] at h
            subst h
            exact ⟨acc, rfl, Or.inl ha⟩
          · exact std_loop n _ _ _ _ (idle_snoc ha (idle_comment ts hc)) h
        · split at h
          · rename_i ho
            exact std_loop n _ _ _ _ (idle_snoc ha (idle_onoff ho)) h
          · split at h
            · simp only [Except.ok.injEq] at h
              subst h
              exact ⟨acc, rfl, Or.inl ha⟩
            · have hk : ((normKwarg t).bind fun w => (([] : List (Str × ArgP)).lookup w).map fun p => (w, p)) = none := by
                cases normKwarg t <;> rfl
              rw [hk] at h
              obtain ⟨⟨g, rest⟩, h1, h⟩ := Parse.bind_ok.1 h
              dsimp only at h
              split at h
              · simp at h
              · simp only [List.tail_nil, List.flatMap_nil, List.append_nil, keys, List.map_nil, List.headD_nil] at h1 h
                obtain ⟨hg, hr⟩ := pos_end h1
                obtain ⟨post, e, hp⟩ := std_done n _ _ _ _ hr h
                exact ⟨acc ++ [g] ++ post, e, Or.inr ⟨acc, g, post, by simp, ha, hg, hp⟩⟩

theorem std_arg {n : Nat} {up : Bool} {ts : List Token} {r : Node × List Token}
    (h : exec ctx n (.arg (std (.str (S "1+"))) [.paren]) up ts = .ok r) : ∃ l, r.1 = stdNode none l ∧ OneGroup l := by
  cases n with
  | zero => simp [exec] at h
  | succ n =>
    change stdStart (exec ctx n) none [many] [] [.paren] up ts = _ at h
    have hs : splitSpecs [many] = (many, []) := rfl
    simp only [stdStart, hs] at h
    exact std_loop n _ _ _ _ (idle_leaves ts) h

theorem argTree_stmt {a : Attr} {f l r : Token} {ws ws1 : List Token} {sub : Node} {tail trail : List Node} (h : isNode sub = true) :
    argTree (.node .statement a ([mk .funname [.tok f]] ++ leaves ws ++ [mk .lparen [.tok l]] ++ leaves ws1 ++ [sub] ++ tail
      ++ [mk .rparen [.tok r]] ++ trail)) = sub := by
  have i1 : ∀ ty at_ ds, isNode (.node ty at_ ds) = true := fun _ _ _ => rfl
  simp only [argTree, kidsOf, List.filter_append, Lint.filter_leaves, List.filter_cons, h, i1, mk, if_true, List.filter_nil]
  simp

/-- The argument tree of a statement is what the parser of its command makes. -/
theorem stmt_from {k : Nat} {up : Bool} {ts : List Token} {r : Node × List Token} (h : exec ctx k .statement up ts = .ok r) :
    ∃ (t : Token) (sub : Node) (rest : List Token) (k' : Nat) (ts1 : List Token), funName r.1 = lower t.spelling ∧ exec ctx k' (.arg (lookupParser ctx t.spelling) [.paren]) false ts1 = .ok (sub, rest) ∧
      (isNode sub = true → argTree r.1 = sub) := by
  cases k with
  | zero => simp [exec] at h
  | succ k =>
    change stmtIter ctx (exec ctx k) ts = _ at h
    cases ts with
    | nil => simp [stmtIter] at h
    | cons t ts =>
      simp only [stmtIter] at h
      split at h
      · simp at h
      · split at h
        · simp at h
        · obtain ⟨⟨sub, rest⟩, h1, h⟩ := Parse.bind_ok.1 h
          obtain ⟨⟨tail, rest1⟩, _, h⟩ := Parse.bind_ok.1 h
          dsimp only at h
          split at h
          · simp at h
          · simp only [pure, Except.pure, Except.ok.injEq] at h
            subst h
            exact ⟨t, sub, rest, k, _, rfl, h1, argTree_stmt⟩

theorem semantics_append' (a b : List Token) : semantics (a ++ b) = semantics a ++ semantics b := by simp [semantics]

theorem semToks_idle : ∀ {l : List Node}, (∀ c ∈ l, Idle c) → semantics (toksL l) = []
  | [], _ => rfl
  | c :: l, h => by
    rw [toksL, semantics_append', semToks_idle fun x hx => h x (by simp [hx]), List.append_nil]
    exact (h c (by simp)).2

theorem find_group : ∀ {pre : List Node} {g : Node} {post : List Node}, (∀ c ∈ pre, Idle c) → hasType .pargGroup g = true →
    (pre ++ g :: post).find? (hasType .pargGroup) = some g
  | [], g, post, _, hg => by simp [hg]
  | c :: pre, g, post, h, hg => by
    simp only [List.cons_append, List.find?_cons, (h c (by simp)).1]
    exact find_group (fun x hx => h x (by simp [hx])) hg

/-- The commands `function` and `macro` are read as lists of words. -/
def PlainDefs (ctx : Ctx) : Prop := ∀ name, lower name = S "function" ∨ lower name = S "macro" → lookupParser ctx name = std (.str (S "1+"))

/-- **The first group of a definition** holds all its arguments. -/
theorem firstWords_eq {ts : List Token} {tree s : Node} (hd : PlainDefs ctx) (h : parse ctx ts = .ok tree) (hs : s ∈ stmtsOf tree)
    (hf : funName s = S "function" ∨ funName s = S "macro") :
    firstWords s = if argsOf s = [] then firstWords s else .ok ((argsOf s).map (·.spelling)) := by
  obtain ⟨k, up, us, r, hr, rfl⟩ := built_stmts (parse_built h) s hs
  obtain ⟨t, sub, rest, k', ts1, e1, e2, e3⟩ := stmt_from hr
  rw [e1] at hf
  rw [hd _ hf] at e2
  obtain ⟨l, e4, hl⟩ := std_arg e2
  simp only at e4
  subst e4
  have e5 := e3 rfl
  have e6 := Lint.stmt_args h hs
  rw [e5] at e6
  have e7 : semToks (stdNode none l) = semantics (toksL l) := by simp [semToks, stdNode, Node.toks]
  rcases hl with hl | ⟨pre, g, post, rfl, h1, h2, h3⟩
  · rw [e7, semToks_idle hl] at e6
    rw [← e6]
    simp
  · have e8 : argsOf r.1 = semToks g := by
      rw [← e6, e7]
      simp only [toksL_append, toksL, semantics_append', semToks_idle h1, semToks_idle h3, List.append_nil, List.nil_append]
      rfl
    have e9 : firstWords r.1 = .ok ((semToks g).map (·.spelling)) := by
      simp only [firstWords, e5, stdNode, roleOf, kidsOf, if_true, find_group h1 h2]
    rw [e8, e9]
    split <;> rfl

end Verif.Gen
