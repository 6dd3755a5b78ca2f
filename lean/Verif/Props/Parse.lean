import Verif.ParseTokens
import Verif.ParseShape
import Verif.ParseMono
import Verif.Props.Lex

/-!
# Properties of the parser (C07 - C11, C50)
-/

namespace Verif.Props.Parse
open Verif Py Verif.Lex Verif.Parse

/-! ## A small command database for the examples -/

/-- if, set, and a command with a tuple parser. -/
def exampleDb : Str → Option ArgP := fun name =>
  if name = S "if" ∨ name = S "endif" ∨ name = S "else" then some .conditional
  else if name = S "set" then some .setFn
  else if name = S "props" then
    some (std (.str (S "*")) [(S "PROPERTIES", .tuple (.str (S "+")) 2 [])])
  else none

/-- A context without trailing-comment pattern. -/
def exampleCtx : Ctx := { db := exampleDb, explicit := fun _ => false }

/-- The tree of a text. -/
def treeOf (text : Str) : Except Err Node := parse exampleCtx (Props.Lex.toks text)

/-! ## C07 -/

theorem argOk_all (p : ArgP) : ∀ top, ArgOk false top p := by
  refine ArgP.rec (motive_1 := fun p => ∀ top, ArgOk false top p)
    (motive_2 := fun l => ∀ kp ∈ l, ∀ top, ArgOk false top kp.2)
    (motive_3 := fun x => ∀ q, x = .ok q → ∀ top, ArgOk false top q)
    (motive_4 := fun kp => ∀ top, ArgOk false top kp.2)
    ?_ ?_ ?_ ?_ ?_ ?_ ?_ ?_ ?_ ?_ ?_ ?_ ?_ ?_ ?_ ?_ ?_ ?_ ?_ ?_ ?_ p
  · intro cmd specs kwargs ih top
    exact .standard _ _ _ fun kp h => ih kp h false
  · exact fun s top => .positional s
  · exact fun top => .conditional
  · exact fun n k f top => .tuple n k f rfl
  · exact fun top => .shell
  · exact fun top => .null
  · exact fun top => .setFn
  · exact fun top => .emptyFn
  · exact fun top => .foreachStandard
  · exact fun top => .foreachIn
  · exact fun l s top => .addSources l s (by simp)
  · exact fun top => .addLibraryObject
  · exact fun top => .customTarget
  · exact fun top => .fileWrite
  · exact fun top => .installTargets
  · exact fun f ih top => .choose f fun ts q h => ih ts q h top
  · simp
  · intro h t ih1 ih2 kp hkp
    rcases List.mem_cons.1 hkp with rfl | h
    · exact ih1
    · exact ih2 kp h
  · intro e q h; simp at h
  · intro a ih q h
    simp only [Except.ok.injEq] at h
    subst h; exact ih
  · exact fun a b ih => ih

theorem argOk_of_noTuple {top : Bool} {p : ArgP} (h : NoTuple top p) : ArgOk true top p := by
  induction h with
  | standard cmd specs kwargs _ ih => exact .standard cmd specs kwargs ih
  | choose f _ ih => exact .choose f ih
  | positional s => exact .positional s
  | addSources l s => exact .addSources l s (fun _ => rfl)
  | _ => constructor

theorem registered_eq (ctx : Ctx) (name : Str) : lookupParser ctx name = registered ctx name := by
  simp only [lookupParser, registered]
  cases ctx.db (lower name) with
  | some p => rfl
  | none => cases ctx.db (S "_default") <;> rfl

theorem program_eq (ts : List Token) : semantics ts = program ts := by
  simp only [semantics, program]
  congr 1
  funext t
  simp only [isSemantic, isWs, isAnyComment, isOnOff]
  cases t.type <;> decide

theorem unglued_of {ts : List Token} (h : SwitchesApart ts) : Unglued ts := by
  intro a b hab hb
  have := h a b hab (by simpa [isOnOff, or_comm] using hb)
  simp only [isWs, isAnyComment, Bool.or_eq_true, beq_iff_eq]
  simpa [or_assoc] using this

theorem parse_all {ctx : Ctx} {n : Nat} {ts : List Token} {tree : Node}
    (h : parseN ctx n ts = .ok tree) : exec ctx n (.body [] []) false ts = .ok (tree, []) := by
  simp only [parseN] at h
  split at h
  · simp at h
  · rename_i t rest he
    simp only [Except.ok.injEq] at h
    subst h
    have := exec_shape (ctx := ctx) n (.body [] []) false ts ⟨by simp [Job.nodes], trivial⟩
    rw [he] at this
    obtain ⟨_, _, _, h3⟩ := this
    cases rest with
    | nil => exact he
    | cons a b => exact absurd (h3 a b rfl) (by simp)

/-- **C07.** Whatever the command database: a successful parse puts every token in the tree
exactly once, with the tokens that are program text in their order — provided that every
format switch stands apart from the token before it (see `glued_switch_drops_token`).
Blanks and comments between the elements of a tuple are moved behind the tuple. -/
theorem tokens_conserved_partial (ctx : Ctx) (ts : List Token) (tree : Node)
    (h : parse ctx ts = .ok tree) (hb : ∀ t ∈ ts, t.type ≠ .bom) (hs : SwitchesApart ts) :
    tree.toks.Perm ts ∧ program tree.toks = program ts := by
  have he := parse_all h
  obtain ⟨c, hc, hr⟩ := exec_holds (s := false) (Q := fun _ => True)
    (fun t _ => argOk_all _ true) _ _ _ _ _ he trivial ⟨by simp, hb, fun _ => unglued_of hs⟩
  simp only [List.append_nil] at hc
  subst hc
  simp only [Rel, Job.toks, toksL_nil, List.nil_append, Bool.false_eq_true, if_false] at hr
  exact ⟨hr.1, by rw [← program_eq, ← program_eq]; exact hr.2⟩

/-- **C07.** If no command used in the text has a tuple parser, the tokens of the tree are
the tokens of the input, in order. -/
theorem tokens_in_order_partial (ctx : Ctx) (ts : List Token) (tree : Node)
    (h : parse ctx ts = .ok tree) (hb : ∀ t ∈ ts, t.type ≠ .bom)
    (hc : ∀ t ∈ ts, NoTuple true (registered ctx t.spelling)) :
    tree.toks = ts := by
  have he := parse_all h
  obtain ⟨c, hcc, hr⟩ := exec_holds (s := true)
    (Q := fun t => NoTuple true (registered ctx t.spelling))
    (fun t ht => by rw [registered_eq]; exact argOk_of_noTuple ht) _ _ _ _ _ he trivial
    ⟨hc, hb, by simp⟩
  simp only [List.append_nil] at hcc
  subst hcc
  simpa [Rel, Job.toks] using hr

/-- The lexer produces a byte-order mark token only for a byte-order mark at the start. -/
theorem body_no_bom (text : Str) (ts : List Token) (h : tokenizeBody text = .ok ts) :
    ∀ t ∈ ts, t.type ≠ .bom := by
  intro t ht hb
  rw [tokenizeBody_ok] at h
  injection h with h; subst h
  have : (t.type, t.spelling) ∈ (scan text.length none text).1 := by
    rw [← locate_spellings 0 ⟨1, 0, 0⟩ (scan text.length none text).1]
    exact List.mem_map.mpr ⟨t, ht, rfl⟩
  obtain ⟨p, s, b, h⟩ := scan_mem this
  rw [hb] at h
  simpa using lexOne_cases h

theorem no_bom (text : Str) (ts : List Token) (h : tokenize text = .ok ts)
    (hbom : text.head? ≠ some BOM) : ∀ t ∈ ts, t.type ≠ .bom := by
  apply body_no_bom text
  unfold tokenize at h
  split at h
  · rename_i c cs
    split at h
    · rename_i hc; simp [hc] at hbom
    · exact h
  · exact h

/-- **C07.** For a text without byte-order mark and without tuple commands, the spellings
of the tree's tokens reproduce the text. -/
theorem text_reproduced_partial (ctx : Ctx) (text : Str) (ts : List Token) (tree : Node)
    (ht : tokenize text = .ok ts) (h : parse ctx ts = .ok tree) (hbom : text.head? ≠ some BOM)
    (hc : ∀ t ∈ ts, NoTuple true (registered ctx t.spelling)) :
    (tree.toks.map Token.spelling).flatten = text := by
  rw [tokens_in_order_partial ctx ts tree h (no_bom text ts ht hbom) hc]
  obtain ⟨ts', h1, h2⟩ := Props.Lex.tokenize_total_lossless text
  rw [ht] at h1
  injection h1 with h1
  rw [h1]; exact h2

/-- **C07, byte-order mark.** A byte-order mark token in a body is skipped. -/
theorem bom_ignored (ctx : Ctx) (n : Nat) (b : Token) (ts : List Token) (h : b.type = .bom) :
    parseN ctx (n + 1) (b :: ts) = parseN ctx n ts := by
  simp [parseN, exec, step, bodyIter, h, isWs, isAnyComment, isOnOff]

/-- **C07 is false** for a tuple element glued to a format switch: the token is lost. -/
theorem glued_switch_drops_token :
    (treeOf (S "props(x PROPERTIES a b# cmf: on\n)")).toOption.map
      (fun n => (n.toks.map Token.spelling).flatten) =
    some (S "props(x PROPERTIES a # cmf: on\n)") := by decide +kernel

/-- Comments between the elements of a tuple are moved behind it. -/
theorem tuple_moves_comments :
    (treeOf (S "props(x PROPERTIES a\n#c\nb)")).toOption.map
      (fun n => (n.toks.map Token.spelling).flatten) =
    some (S "props(x PROPERTIES ab\n#c\n)") := by decide +kernel

/-- A listfile with a block, comments and an unknown command. -/
def sample : Str := S "if(a)\nset(b c) # d\nfoo(x (y z) 1)\nendif()\n"

theorem sample_parses : ∃ tree, parse exampleCtx (Props.Lex.toks sample) = .ok tree := by
  have : (parse exampleCtx (Props.Lex.toks sample)).isOk = true := by decide +kernel
  revert this
  cases parse exampleCtx (Props.Lex.toks sample) with
  | ok t => intro _; exact ⟨t, rfl⟩
  | error e => intro h; simp [Except.isOk, Except.toBool] at h

theorem tokenize_toks (text : Str) : tokenize text = .ok (Props.Lex.toks text) := by
  obtain ⟨ts, h, _⟩ := Props.Lex.tokenize_total_lossless text
  simp [Props.Lex.toks, h, Except.toOption]

/-- No two neighbouring tokens violate `SwitchesApart`. -/
def switchesApartB : List Token → Bool
  | a :: b :: ts => (!(b.type == .formatOn || b.type == .formatOff) ||
      [TokType.whitespace, .newline, .comment, .bracketComment].contains a.type) &&
      switchesApartB (b :: ts)
  | _ => true

theorem switchesApart_of {ts : List Token} (h : switchesApartB ts = true) : SwitchesApart ts := by
  induction ts with
  | nil => intro a b hab; simp at hab
  | cons x ts ih =>
    intro a b hab hb
    cases ts with
    | nil =>
      have := hab.length_le; simp at this
    | cons y ts =>
      simp only [switchesApartB, Bool.and_eq_true] at h
      rw [List.infix_cons_iff] at hab
      rcases hab with hab | hab
      · simp only [List.cons_prefix_cons] at hab
        obtain ⟨rfl, rfl, _⟩ := hab
        have := h.1
        rcases hb with hb | hb <;> simpa [hb] using this
      · exact ih h.2 a b hab hb

theorem registered_example (name : Str) :
    registered exampleCtx name = .conditional ∨ registered exampleCtx name = .setFn ∨
    (lower name = S "props" ∧ registered exampleCtx name =
      std (.str (S "*")) [(S "PROPERTIES", .tuple (.str (S "+")) 2 [])]) ∨
    registered exampleCtx name = std (.str (S "*")) := by
  have e : exampleDb (S "_default") = none := by rfl
  simp only [registered, exampleCtx, e]
  simp only [exampleDb]
  by_cases h1 : lower name = S "if" ∨ lower name = S "endif" ∨ lower name = S "else"
  · simp [h1]
  · by_cases h2 : lower name = S "set"
    · simp only [if_neg h1, if_pos h2]; simp
    · by_cases h3 : lower name = S "props"
      · simp only [if_neg h1, if_neg h2, if_pos h3]; simp [h3]
      · simp only [if_neg h1, if_neg h2, if_neg h3]; simp

/-- The example database, apart from the tuple command. -/
theorem exampleDb_noTuple (name : Str) (h : lower name ≠ S "props") :
    NoTuple true (registered exampleCtx name) := by
  rcases registered_example name with e | e | ⟨e, _⟩ | e
  · rw [e]; exact .conditional
  · rw [e]; exact .setFn
  · exact absurd e h
  · rw [e]; exact .standard _ _ _ (by simp)

example : (∃ tree, parse exampleCtx (Props.Lex.toks sample) = .ok tree) ∧
    (∀ t ∈ Props.Lex.toks sample, t.type ≠ .bom) ∧ SwitchesApart (Props.Lex.toks sample) ∧
    sample.head? ≠ some BOM ∧
    (∀ t ∈ Props.Lex.toks sample, NoTuple true (registered exampleCtx t.spelling)) :=
  ⟨sample_parses, by decide +kernel, switchesApart_of (by decide +kernel), by decide +kernel,
    fun t ht => exampleDb_noTuple _ (by revert t; decide +kernel)⟩

/-- `tokens_conserved_partial` also covers tuples and switches standing apart. -/
example : SwitchesApart (Props.Lex.toks (S "props(x PROPERTIES a\n b # cmf: on\n)")) ∧
    (treeOf (S "props(x PROPERTIES a\n b # cmf: on\n)")).isOk = true :=
  ⟨switchesApart_of (by decide +kernel), by decide +kernel⟩

/-! ## C08 -/

/-- **C08.** If no token other than a word is spelled AND or OR, and dispatchers in the
database choose among parsers that are not dispatchers, parsing ends: the nesting never
exceeds `12 * tokens + 12` calls, so more fuel changes nothing. -/
theorem parse_terminates_partial (ctx : Ctx) (ts : List Token) (hp : PlainAndOr ts)
    (hf : ∀ name, Flat (registered ctx name)) :
    parse ctx ts ≠ .error .fuel ∧ ∀ n, 12 * ts.length + 12 ≤ n → parseN ctx n ts = parse ctx ts := by
  have h1 : parse ctx ts ≠ .error .fuel := by
    have := exec_sat (ctx := ctx) (fun name => by rw [registered_eq]; exact hf name)
      (12 * ts.length + 12) (.body [] []) false ts
    intro h
    simp only [parse, parseN] at h
    split at h
    · rename_i e he
      rw [he] at this
      simp only [Except.error.injEq] at h
      rcases this h with h' | h'
      · simp only [need, rank] at h'; omega
      · exact h' ⟨trivial, hp⟩
    · simp at h
  exact ⟨h1, fun n hn => parseN_stable hn h1⟩

theorem exampleDb_flat (name : Str) : Flat (registered exampleCtx name) := by
  rcases registered_example name with e | e | ⟨_, e⟩ | e
  · rw [e]; exact .basic _ rfl
  · rw [e]; exact .basic _ rfl
  · rw [e]; exact .standard _ _ _ (by simp; exact .basic _ rfl)
  · rw [e]; exact .standard _ _ _ (by simp)

example : PlainAndOr (Props.Lex.toks (S "if(a AND (b OR c))\nendif()\n")) ∧
    (∀ name, Flat (registered exampleCtx name)) ∧
    (treeOf (S "if(a AND (b OR c))\nendif()\n")).isOk = true :=
  ⟨by unfold PlainAndOr; decide +kernel, exampleDb_flat, by decide +kernel⟩

/-- A job that never finishes. -/
def Diverges (ctx : Ctx) (job : Job) (up : Bool) (ts : List Token) : Prop :=
  ∀ n, exec ctx n job up ts = .error .fuel

/-- A condition loops forever at a token spelled AND or OR that is not a word. -/
theorem cond_diverges (ctx : Ctx) (t : Token) (ts : List Token) (up : Bool) (acc : List Node)
    (ht : t.type = .unquoted) (hs : upper t.spelling = S "AND" ∨ upper t.spelling = S "OR")
    (hd : startsWith ['-'] t.spelling = false) :
    Diverges ctx (.condLoop [.paren] acc) up (t :: ts) := by
  intro n
  induction n generalizing acc with
  | zero => rfl
  | succ n ih =>
    have hk : kwargIn t [S "AND", S "OR"] = false := by simp [kwargIn, normKwarg, ht, hd]
    have hb : shouldBreak t [.paren, kwBreaker [S "AND", S "OR"]] = true := by
      have e1 : S "AND" = upper (S "AND") := by decide
      have e2 : S "OR" = upper (S "OR") := by decide
      rcases hs with h | h <;> simp [shouldBreak, Breaker.fires, kwBreaker, h, ← e1, ← e2]
    have hpos : ∀ n, exec ctx n (.pos { nargs := .str (S "+"), flags := conditionalFlags }
        [.paren, kwBreaker [S "AND", S "OR"]]) true (t :: ts) = .error .fuel ∨
        ∃ sub, exec ctx n (.pos { nargs := .str (S "+"), flags := conditionalFlags }
          [.paren, kwBreaker [S "AND", S "OR"]]) true (t :: ts) = .ok (sub, t :: ts) := by
      intro n
      rcases n with _ | _ | n
      · exact Or.inl rfl
      · exact Or.inl rfl
      · right
        have hf : pargsFull (.str (S "+")) 0 = .ok false := by decide
        simp [exec, step, posStart, posIter, isWs, ht, hb, hf, Nargs.exact, bind, Except.bind,
          pure, Except.pure]
    rcases hpos n with h | ⟨sub, h⟩
    · simp [exec, step, condIter, shouldBreak, Breaker.fires, isWs, isAnyComment, isOnOff, ht, hk,
        h, bind, Except.bind]
    · have := ih (acc ++ [sub])
      simp [exec, step, condIter, shouldBreak, Breaker.fires, isWs, isAnyComment, isOnOff, ht, hk,
        h, bind, Except.bind, this]

/-- A job that ends with some fuel ends the same way or runs out of fuel with any other. -/
theorem exec_all {ctx : Ctx} {n : Nat} {job : Job} {up : Bool} {ts : List Token} {r : Node × List Token}
    (h : exec ctx n job up ts = .ok r) (m : Nat) :
    exec ctx m job up ts = .error .fuel ∨ exec ctx m job up ts = .ok r := by
  rcases Nat.le_total n m with hl | hl
  · right; rw [exec_stable hl (by simp [h]), h]
  · rcases exec_le ctx hl job up ts with e | e
    · exact Or.inl e
    · right; rw [e, h]

/-- **C08 is false** of the code: with the library's parser for `if`, the parse of this
listfile never ends, whatever the rest of the configuration. -/
theorem parse_diverges (ctx : Ctx) (h : ctx.db (S "if") = some .conditional) (n : Nat) :
    parseN ctx n (Props.Lex.toks (S "if(a AND#c\n b)\n")) = .error .fuel := by
  have hts : ((Props.Lex.toks (S "if(a AND#c\n b)\n")).take 5).map (fun t => (t.type, t.spelling)) =
      [(.word, S "if"), (.lparen, S "("), (.word, S "a"), (.whitespace, S " "),
       (.unquoted, S "AND")] := by decide +kernel
  generalize Props.Lex.toks (S "if(a AND#c\n b)\n") = ts at hts
  obtain _ | ⟨i, _ | ⟨l, _ | ⟨a, _ | ⟨w, _ | ⟨d, ts⟩⟩⟩⟩⟩ := ts <;>
    simp only [List.take_succ_cons, List.take_nil, List.take_zero, List.map_cons, List.map_nil,
      List.cons.injEq, Prod.mk.injEq, reduceCtorEq, and_false, and_true] at hts
  obtain ⟨⟨hi1, hi2⟩, ⟨hl1, hl2⟩, ⟨ha1, ha2⟩, ⟨hw1, hw2⟩, hd1, hd2⟩ := hts
  have hd : ∀ acc, Diverges ctx (.condLoop [.paren] acc) false (d :: ts) := fun acc =>
    cond_diverges ctx d ts false acc hd1 (Or.inl (by rw [hd2]; decide)) (by rw [hd2]; decide)
  have hb1 : shouldBreak a [.paren, kwBreaker [S "AND", S "OR"]] = false := by
    simp only [shouldBreak, List.any, Breaker.fires, kwBreaker, ha1, ha2]; decide
  have hb2 : shouldBreak w [.paren, kwBreaker [S "AND", S "OR"]] = false := by
    simp only [shouldBreak, List.any, Breaker.fires, kwBreaker, hw1, hw2]; decide
  have hb3 : shouldBreak d [.paren, kwBreaker [S "AND", S "OR"]] = true := by
    simp only [shouldBreak, List.any, Breaker.fires, kwBreaker, hd1, hd2]; decide
  have hf : ∀ k, pargsFull (.str (S "+")) k = .ok false := by
    intro k
    have e : S "+" ≠ S "?" := by decide
    simp [pargsFull, e]
  have hk : kwargIn a [S "AND", S "OR"] = false := by
    simp only [kwargIn, normKwarg, ha1, ha2]; decide
  have hpos : ∃ sub, exec ctx 10 (.pos { nargs := .str (S "+"), flags := conditionalFlags }
      [.paren, kwBreaker [S "AND", S "OR"]]) true (a :: w :: d :: ts) = .ok (sub, d :: ts) := by
    simp [exec, step, posStart, posIter, isWs, isAnyComment, isOnOff, ha1, hw1, hd1, hb1, hb2, hb3, hf,
      Nargs.exact, bind, Except.bind, pure, Except.pure, consumeTrailing, nextTrailing, nextExplicit,
      validTrailing]
  obtain ⟨sub, hpos⟩ := hpos
  have hc : ∀ acc, Diverges ctx (.condLoop [.paren] acc) false (a :: w :: d :: ts) := by
    intro acc n
    cases n with
    | zero => rfl
    | succ n =>
      rcases exec_all hpos n with e | e
      · simp [exec, step, condIter, shouldBreak, Breaker.fires, isWs, isAnyComment, isOnOff, ha1, hk,
          e, bind, Except.bind]
      · have := hd (acc ++ [sub]) n
        simp [exec, step, condIter, shouldBreak, Breaker.fires, isWs, isAnyComment, isOnOff, ha1, hk,
          e, bind, Except.bind, this]
  have harg : Diverges ctx (.arg .conditional [.paren]) false (a :: w :: d :: ts) := by
    intro n
    cases n with
    | zero => rfl
    | succ n =>
      have := hc [] n
      simp [exec, step, argStart, isWs, ha1, leaves, this]
  have hst : Diverges ctx .statement false (i :: l :: a :: w :: d :: ts) := by
    intro n
    cases n with
    | zero => rfl
    | succ n =>
      have := harg n
      have e : lookupParser ctx i.spelling = .conditional := by
        have : lower (S "if") = S "if" := by decide
        simp [lookupParser, hi2, this, h]
      simp [exec, step, stmtIter, isWs, hl1, ha1, e, this, bind, Except.bind]
  have hup : upper (S "if") = S "IF" := by decide
  have hif : Diverges ctx (.ifLoop []) false (i :: l :: a :: w :: d :: ts) := by
    intro n
    cases n with
    | zero => rfl
    | succ n =>
      have := hst n
      have e : S "IF" ≠ S "ENDIF" := by decide
      simp [exec, step, ifIter, hi2, hup, e, this, bind, Except.bind]
  have hfl : Diverges ctx .flow false (i :: l :: a :: w :: d :: ts) := by
    intro n
    cases n with
    | zero => rfl
    | succ n =>
      have := hif n
      simp [exec, step, flowIter, hi2, hup, this]
  cases n with
  | zero => rfl
  | succ n =>
    have := hfl n
    have e : S "IF" ∈ flowNames := by decide
    simp [parseN, exec, step, bodyIter, isWs, isAnyComment, isOnOff, hi1, hi2, hup, e, this, bind,
      Except.bind]

example : exampleCtx.db (S "if") = some .conditional := rfl

/-! ## C09, C10 -/

/-- **C09, C10.** Whatever the command database: in the tree of a successful parse every
flow-control block and every statement has its shape. -/
theorem tree_well_formed (ctx : Ctx) (ts : List Token) (tree : Node) (h : parse ctx ts = .ok tree) :
    WellFormed tree := by
  have := exec_shape (ctx := ctx) (12 * ts.length + 12) (.body [] []) false ts
    ⟨by simp [Job.nodes], trivial⟩
  rw [parse_all h] at this
  exact this.1

/-- **C09.** -/
theorem flow_control_bracketed (ctx : Ctx) (ts : List Token) (tree : Node)
    (h : parse ctx ts = .ok tree) (a : Attr) (cs : List Node)
    (hs : Sub (.node .flowControl a cs) tree) : FlowShape cs :=
  tree_well_formed ctx ts tree h _ hs

/-- **C10.** -/
theorem statement_shape (ctx : Ctx) (ts : List Token) (tree : Node)
    (h : parse ctx ts = .ok tree) (a : Attr) (cs : List Node)
    (hs : Sub (.node .statement a cs) tree) : StatementShape cs :=
  tree_well_formed ctx ts tree h _ hs

/-- A tree has a top-level child of a type. -/
def hasChild (ty : NT) : Node → Bool
  | .node _ _ cs => cs.any fun c => match c with
    | .node ty' _ _ => ty' == ty
    | _ => false
  | _ => false

theorem hasChild_sub {ty : NT} {n : Node} (h : hasChild ty n = true) :
    ∃ a cs, Sub (.node ty a cs) n := by
  cases n with
  | tok t => simp [hasChild] at h
  | node _ _ cs =>
    simp only [hasChild, List.any_eq_true] at h
    obtain ⟨c, hc, h⟩ := h
    cases c with
    | tok t => simp at h
    | node ty' a ds =>
      simp only [beq_iff_eq] at h
      subst h
      exact ⟨a, ds, .child hc (.refl _)⟩

theorem parse_hasChild {ty : NT} {text : Str}
    (h : ((parse exampleCtx (Props.Lex.toks text)).toOption.map (hasChild ty)) = some true) :
    ∃ tree a cs, parse exampleCtx (Props.Lex.toks text) = .ok tree ∧ Sub (.node ty a cs) tree := by
  revert h
  cases parse exampleCtx (Props.Lex.toks text) with
  | error e => simp [Except.toOption]
  | ok t =>
    intro h
    simp only [Except.toOption, Option.map_some, Option.some.injEq] at h
    obtain ⟨a, cs, h⟩ := hasChild_sub h
    exact ⟨t, a, cs, rfl, h⟩

example : ∃ tree a cs, parse exampleCtx (Props.Lex.toks sample) = .ok tree ∧
    Sub (.node .flowControl a cs) tree := parse_hasChild (by decide +kernel)

example : ∃ tree a cs, parse exampleCtx (Props.Lex.toks (S "foo(a)\n")) = .ok tree ∧
    Sub (.node .statement a cs) tree := parse_hasChild (by decide +kernel)

/-! ## C11 -/

theorem breaks_iff (brk : List Breaker) (t : Token) : shouldBreak t brk = true ↔ Breaks brk t := by
  simp only [shouldBreak, Breaks, List.any_eq_true]
  constructor
  · rintro ⟨b, hb, hf⟩
    cases b with
    | paren => exact Or.inl ⟨hb, by simpa [Breaker.fires] using hf⟩
    | kwargs ws => exact Or.inr ⟨ws, hb, by simpa [Breaker.fires] using hf⟩
  · rintro (⟨hb, hf⟩ | ⟨ws, hb, hf⟩)
    · exact ⟨_, hb, by simpa [Breaker.fires] using hf⟩
    · exact ⟨_, hb, by simpa [Breaker.fires] using hf⟩

theorem full_iff {nargs : Nargs} {n : Nat} : pargsFull nargs n = .ok true → Full nargs n := by
  cases nargs with
  | int k => simp [pargsFull, Full]
  | str s =>
    simp only [pargsFull, Full]
    repeat' split
    all_goals simp_all

theorem allows_succ {nargs : Nargs} {n : Nat} (h : pargsFull nargs n = .ok false) :
    Allows nargs (n + 1) := by
  cases nargs with
  | int k => simp [pargsFull] at h; simp only [Allows]; omega
  | str s =>
    intro hs
    subst hs
    simp [pargsFull] at h
    omega

/-- What holds of a positional group: see `positional_group`. -/
structure PosOk (spec : PSpec) (brk : List Breaker) (up : Bool) (cs : List Node)
    (rest : List Token) : Prop where
  arity : Allows spec.nargs (cs.countP isArgument)
  args : ∀ c ∈ cs, isArgument c = true → ∃ t, c.firstTok = some t ∧
    (Breaks brk t → spec.nargs.exact = true ∧ t.type ≠ .rparen)
  stop : ∀ t rest', rest = t :: rest' →
    Full spec.nargs (cs.countP isArgument) ∨
    (Breaks brk t ∧ (spec.nargs.exact = true → t.type = .rparen)) ∨
    (up = true ∧ isAnyComment t = true ∧ ∃ u, (semantics rest).head? = some u ∧ Breaks brk u)

theorem posLoop_ok {ctx : Ctx} {spec : PSpec} {brk : List Breaker} (n : Nat) :
    ∀ {sortable : Bool} {acc : List Node} {k : Nat} {up : Bool} {ts : List Token}
      {r : Node × List Token}, exec ctx n (.posLoop spec brk sortable acc k) up ts = .ok r →
      acc.countP isArgument = k → Allows spec.nargs k →
      (∀ c ∈ acc, isArgument c = true → ∃ t, c.firstTok = some t ∧
        (Breaks brk t → spec.nargs.exact = true ∧ t.type ≠ .rparen)) →
      ∃ a cs, r.1 = .node .pargGroup a cs ∧ PosOk spec brk up cs r.2 := by
  induction n with
  | zero => intro _ _ _ _ _ _ h; simp [exec] at h
  | succ n ih =>
    intro sortable acc k up ts r h hk ha hc
    have done : ∀ {rest : List Token}, (∀ t rest', rest = t :: rest' →
        Full spec.nargs (acc.countP isArgument) ∨
        (Breaks brk t ∧ (spec.nargs.exact = true → t.type = .rparen)) ∨
        (up = true ∧ isAnyComment t = true ∧ ∃ u, (semantics rest).head? = some u ∧ Breaks brk u)) →
        r = (.node .pargGroup (posAttr spec sortable) acc, rest) →
        ∃ a cs, r.1 = .node .pargGroup a cs ∧ PosOk spec brk up cs r.2 := by
      rintro rest hst rfl
      exact ⟨_, _, rfl, ⟨by rw [hk]; exact ha, hc, hst⟩⟩
    have push : ∀ {x : Node} {rest : List Token}, isArgument x = false →
        exec ctx n (.posLoop spec brk sortable (acc ++ [x]) k) up rest = .ok r →
        ∃ a cs, r.1 = .node .pargGroup a cs ∧ PosOk spec brk up cs r.2 := by
      intro x rest hx h
      refine ih h (by simp [hk, hx]) ha ?_
      intro c hcm hca
      rcases List.mem_append.1 hcm with hm | hm
      · exact hc c hm hca
      · simp only [List.mem_singleton] at hm; subst hm; simp [hx] at hca
    simp only [exec, step] at h
    cases ts with
    | nil =>
      simp only [posIter, Except.ok.injEq] at h
      exact done (by simp) h.symm
    | cons t ts =>
      simp only [posIter, bind, Except.bind, pure, Except.pure] at h
      split at h
      · simp at h
      rename_i b hb
      cases b with
      | true =>
        simp only [if_true, Except.ok.injEq] at h
        exact done (fun _ _ _ => Or.inl (by rw [hk]; exact full_iff hb)) h.symm
      | false =>
        simp only [Bool.false_eq_true, if_false] at h
        split at h
        · rename_i hbrk
          simp only [Except.ok.injEq] at h
          refine done ?_ h.symm
          intro t' rest' e
          simp only [List.cons.injEq] at e
          obtain ⟨rfl, rfl⟩ := e
          simp only [Bool.and_eq_true, Bool.or_eq_true, Bool.not_eq_true', beq_iff_eq] at hbrk
          refine Or.inr (Or.inl ⟨(breaks_iff _ _).1 hbrk.1, fun he => ?_⟩)
          rcases hbrk.2 with h' | h'
          · simp [he] at h'
          · exact h'
        · rename_i hbrk
          split at h
          · -- parenthesis
            split at h
            · simp at h
            rename_i sub hsub
            refine push ?_ h
            cases n with
            | zero => simp [exec] at hsub
            | succ n =>
              simp only [exec, step, parenIter, bind, Except.bind, pure, Except.pure] at hsub
              repeat' split at hsub
              all_goals first | (simp at hsub; done) | skip
              simp only [Except.ok.injEq] at hsub
              subst hsub
              rfl
          · split at h
            · exact push rfl h
            · split at h
              · rename_i hcom
                split at h
                · rename_i hup
                  simp only [Except.ok.injEq] at h
                  refine done ?_ h.symm
                  intro t' rest' e
                  simp only [List.cons.injEq] at e
                  obtain ⟨rfl, rfl⟩ := e
                  refine Or.inr (Or.inr ?_)
                  simp only [belongsUp] at hup
                  split at hup
                  · rename_i nxt t'' ts'' e1 e2
                    simp only [Bool.and_eq_true] at hup
                    exact ⟨hup.1.2, hcom, nxt, e1, (breaks_iff _ _).1 hup.1.1⟩
                  · simp at hup
                · refine push ?_ h
                  simp only [consumeComment]; split <;> rfl
              · split at h
                · exact push rfl h
                · refine ih h ?_ (allows_succ hb) ?_
                  · rw [List.countP_append, hk, List.countP_singleton]
                    split <;> simp [mk, isArgument]
                  · intro c hcm hca
                    rcases List.mem_append.1 hcm with hm | hm
                    · exact hc c hm hca
                    · simp only [List.mem_singleton] at hm
                      subst hm
                      refine ⟨t, by simp [Node.firstTok, mk, Node.toks, toksL], fun hbr => ?_⟩
                      have := (breaks_iff _ _).2 hbr
                      simp only [this, Bool.true_and, Bool.or_eq_true, Bool.not_eq_true',
                        beq_iff_eq, not_or] at hbrk
                      exact ⟨by simpa using hbrk.1, hbrk.2⟩

/-- **C11.** A positional group holds at most as many arguments as its arity allows; no
argument starts with a token that a breaker names (with an exact arity: that is a closing
parenthesis); and the group ends only at the end of the input, when the arity is
exhausted, at a token that a breaker names (with an exact arity: a closing parenthesis),
or at a comment that is followed by such a token and left to the parent. -/
theorem positional_group (ctx : Ctx) (n : Nat) (spec : PSpec) (brk : List Breaker) (up : Bool)
    (ts : List Token) (node : Node) (rest : List Token)
    (h : exec ctx n (.pos spec brk) up ts = .ok (node, rest)) :
    ∃ a cs, node = .node .pargGroup a cs ∧
      Allows spec.nargs (cs.countP isArgument) ∧
      (∀ c ∈ cs, isArgument c = true → ∃ t, c.firstTok = some t ∧
        (Breaks brk t → spec.nargs.exact = true ∧ t.type ≠ .rparen)) ∧
      (∀ t rest', rest = t :: rest' →
        Full spec.nargs (cs.countP isArgument) ∨
        (Breaks brk t ∧ (spec.nargs.exact = true → t.type = .rparen)) ∨
        (up = true ∧ isAnyComment t = true ∧ ∃ u, (semantics rest).head? = some u ∧ Breaks brk u)) := by
  cases n with
  | zero => simp [exec] at h
  | succ n =>
    simp only [exec, step, posStart] at h
    have hl : ∀ c ∈ leaves (ts.takeWhile isWs), isArgument c = false := by
      intro c hc
      simp only [leaves, List.mem_map] at hc
      obtain ⟨t, _, rfl⟩ := hc
      rfl
    obtain ⟨a, cs, e, hok⟩ := posLoop_ok n h
      (by rw [List.countP_eq_zero]; intro c hc; simp [hl c hc])
      (by cases spec.nargs <;> simp [Allows]; omega)
      (by intro c hc h'; simp [hl c hc] at h')
    exact ⟨a, cs, e, hok.arity, hok.args, hok.stop⟩

/-- Two of three arguments are taken; the keyword stops a group of unlimited arity. -/
example :
    ((exec exampleCtx 20 (.pos { nargs := .int 2 } [.paren]) false
        (Props.Lex.toks (S "a b c)"))).toOption.map fun r =>
      (r.1.children.countP isArgument, r.2.map Token.spelling)) = some (2, [S " ", S "c", S ")"]) ∧
    ((exec exampleCtx 20 (.pos { nargs := .str (S "+") } [.paren, kwBreaker [S "KEY"]]) false
        (Props.Lex.toks (S "a b key)"))).toOption.map fun r =>
      (r.1.children.countP isArgument, r.2.map Token.spelling)) = some (2, [S "key", S ")"]) := by
  decide +kernel

/-! ## C50 -/

/-- **C50.** The parser registered for a command depends on the lower-cased name only. -/
theorem lookup_ignores_case (ctx : Ctx) (a b : Str) (h : lower a = lower b) :
    registered ctx a = registered ctx b := by
  simp only [registered, h]

/-- The statement with another name token. -/
def renamed (t : Token) : Node → Node
  | .node ty a (_ :: cs) => .node ty a (mk .funname [.tok t] :: cs)
  | n => n

/-- **C50.** Changing the letter case of a command's name changes nothing in the parsed
statement but the name itself: same arguments, same rest, same exceptions. -/
theorem statement_ignores_case (ctx : Ctx) (n : Nat) (up : Bool) (t t' : Token) (ts : List Token)
    (h : lower t.spelling = lower t'.spelling) :
    exec ctx n .statement up (t' :: ts) =
      (exec ctx n .statement up (t :: ts)).map fun r => (renamed t' r.1, r.2) := by
  cases n with
  | zero => rfl
  | succ n =>
    have hl : lookupParser ctx t.spelling = lookupParser ctx t'.spelling := by
      simp only [lookupParser, h]
    simp only [exec, step, stmtIter, hl, bind, Except.bind, pure, Except.pure]
    repeat' split
    all_goals simp_all [Except.map, renamed]

example : lower (S "Set") = lower (S "sET") ∧
    ((exec exampleCtx 20 .statement false (Props.Lex.toks (S "Set(a b)"))).toOption.map fun r =>
      r.1.toks.length) = some 6 := by decide +kernel

end Verif.Props.Parse
