import Verif.Write

/-!
# What every layout looks like

`Placed` says, without passes or wrapping decisions, how the children of a laid out box
can lie relative to each other; every result of `reflow` is of that form.
-/

namespace Verif.Layout
open Verif Py Lex Parse

/-- Two boxes that may touch. -/
def Tight (p b : NT) : Prop :=
  p = .lparen ∨ b = .rparen ∨ (p = .funname ∧ b = .lparen) ∨ (p = .rparen ∧ b = .comment)

/-- Where the next child `b` may start when the cursor after the previous one is `cur`. -/
def Step (prev : Option Box) (cur : Cur) (b : Box) (c : Cur) : Prop :=
  (cur.row < c.row ∧ c.row ≤ cur.row + 2) ∨
  match prev with
  | none => c = cur
  | some p => endsLine p = false ∧ (c = cur.right 1 ∨ (c = cur ∧ Tight p.ty b.ty))

/-- Rows between blocks: the next child of a body starts on the next line. -/
def Blocks (col tab : Nat) (prev : Option Box) (cur : Cur) (b : Box) (c : Cur) : Prop :=
  c.col = (if b.ty = .body then col + tab else col) ∧
    match prev with
    | none => c.row = cur.row
    | some _ => c.row = cur.row + 1

/-- In a statement the name comes first, and its parenthesis is on the same line. -/
def NameStep (prev : Option Box) (cur : Cur) (b : Box) (c : Cur) : Prop :=
  Step prev cur b c ∧
    match prev with
    | none => c = cur
    | some p => p.ty = .funname → c.row = cur.row

/-- Which relation holds between consecutive children. -/
def StepFor (cfg : Cfg) (ty : NT) (col : Nat) : Option Box → Cur → Box → Cur → Prop :=
  match ty with
  | .statement | .atwordStatement => NameStep
  | .body => Blocks col 0
  | .flowControl => Blocks col cfg.tabSize
  | _ => Step

/-- Statements and bodies by turns, with a statement at the end; `stmt` says that a statement
is next. -/
def alternates : Bool → List Box → Bool
  | stmt, [] => !stmt
  | stmt, b :: bs => (b.ty == if stmt then .statement else .body) && alternates (!stmt) bs

mutual
/-- `l` is a possible layout of a box at `c` that ends at `out`. -/
def Placed (cfg : Cfg) : Box → Cur → Laid → Cur → Prop
  | .mk ty attr pkids kids, c, .mk ty' attr' pkids' info lines kids', out =>
    ty' = ty ∧ attr' = attr ∧ pkids' = pkids ∧ info.pos = c ∧
    ((info.valid = true → (info.colext : Int) ≤ cfg.linewidth) ∧ (ty = .flowControl → alternates true kids = true)) ∧
    match ty with
    | .lparen | .rparen => kids' = [] ∧ out = c.right 1 ∧ info.colext = c.col + 1
    | .whitespace => kids' = [] ∧ out = c
    | .onoff =>
      kids' = [] ∧ ∃ t, headTok pkids = .ok t ∧ out = c.right (switchText t).length ∧
        info.colext = c.col + (switchText t).length
    | .comment =>
      kids' = [] ∧
      match bracketOf pkids with
      | some t =>
        out = (flow c (Text.normalizeLineEndings t.spelling)).1 ∧
        info.colext = (flow c (Text.normalizeLineEndings t.spelling)).2
      | none =>
        ∃ ts last, commentToks pkids = .ok ts ∧
          Markup.formatComment cfg.markup (attr.trailing == .explicit) (isFirstToken cfg pkids)
            (headSpelling pkids) (cfg.linewidth - c.col) ((ts.filter isComment).map (·.spelling))
            = .ok lines ∧
          lines.getLast? = some last ∧
          out = ⟨c.row + (lines.length - 1), c.col + last.length⟩ ∧
          info.colext = c.col + maxLen lines
    | .funname | .argument | .keyword | .flag | .atword =>
      ∃ t, headTok pkids = .ok t ∧
        (flow c (Text.normalizeLineEndings t.spelling)).2 ≤ info.colext ∧
        kids.length ≤ 1 ∧ (∀ k ∈ kids, k.ty = .comment) ∧ (∀ k ∈ kids', k.colext ≤ info.colext) ∧
        PlacedL cfg Step (some (.mk ty attr pkids []))
          (flow c (Text.normalizeLineEndings t.spelling)).1 kids kids' out
    | _ =>
      (∀ k ∈ kids', k.colext ≤ info.colext) ∧ PlacedL cfg (StepFor cfg ty c.col) none c kids kids' out
/-- The children, one after the other. -/
def PlacedL (cfg : Cfg) (step : Option Box → Cur → Box → Cur → Prop) :
    Option Box → Cur → List Box → List Laid → Cur → Prop
  | _, c, [], ls, out => ls = [] ∧ out = c
  | prev, c, b :: bs, ls, out =>
    match ls with
    | [] => False
    | l :: ls' =>
      ∃ c' o, step prev c b c' ∧ Placed cfg b c' l o ∧ PlacedL cfg step (some b) o bs ls' out
end

/-- A word without comment. -/
def plainWord (b : Box) : Bool := b.kids.isEmpty

/-- A word on one line. -/
def flatWord (b : Box) : Bool :=
  plainWord b && !(Text.normalizeLineEndings (headSpelling b.pkids)).contains '\n'

mutual
/-- The name of a statement is on one line and carries no comment, nor does the keyword of
a keyword group. -/
def bare : Box → Bool
  | .mk ty _ _ kids =>
    (match ty, kids with
      | .statement, k :: _ => flatWord k
      | .kwargGroup, k :: _ | .atwordStatement, k :: _ => plainWord k
      | _, _ => true) && bareL kids
/-- All of them. -/
def bareL : List Box → Bool
  | [] => true
  | b :: bs => bare b && bareL bs
end

/-! ## Helpers -/

theorem bind_ok {α β : Type} {x : Except Err α} {f : α → Except Err β} {b : β} :
    (x >>= f) = .ok b ↔ ∃ a, x = .ok a ∧ f a = .ok b := by
  cases x <;> simp [bind, Except.bind]

theorem check_ok {c : Bool} {e : Err} {u : Unit} : check c e = .ok u ↔ c = true := by
  cases c <;> simp [check]

/-- A child's `reflow` gives possible layouts. -/
def Sound (cfg : Cfg) (k : Child) : Prop :=
  ∀ path term c n l o, k.run path term c n = .ok (l, o) → Placed cfg k.box c l o

theorem placed_ty {cfg : Cfg} {b : Box} {c : Cur} {l : Laid} {o : Cur} (h : Placed cfg b c l o) :
    l.ty = b.ty := by
  cases b; cases l; exact h.1

theorem placedL_cons {cfg : Cfg} {step : Option Box → Cur → Box → Cur → Prop} {prev : Option Box}
    {c c' o out : Cur} {b : Box} {bs : List Box} {l : Laid} {ls : List Laid}
    (h1 : step prev c b c') (h2 : Placed cfg b c' l o) (h3 : PlacedL cfg step (some b) o bs ls out) :
    PlacedL cfg step prev c (b :: bs) (l :: ls) out := by
  simp only [PlacedL]; exact ⟨c', o, h1, h2, h3⟩

theorem placedL_nil {cfg : Cfg} {step : Option Box → Cur → Box → Cur → Prop} {prev : Option Box}
    {c : Cur} : PlacedL cfg step prev c [] [] c := by
  simp [PlacedL]

theorem step_down {prev : Option Box} {cur : Cur} {b : Box} {col : Nat} :
    Step prev cur b ⟨cur.row + 1, col⟩ := Or.inl ⟨by simp, by simp⟩

theorem step_right {p : Box} {cur : Cur} {b : Box} (h : endsLine p = false) :
    Step (some p) cur b (cur.right 1) := Or.inr ⟨h, Or.inl rfl⟩

theorem step_same {p : Box} {cur : Cur} {b : Box} (h : endsLine p = false) (t : Tight p.ty b.ty) :
    Step (some p) cur b cur := Or.inr ⟨h, Or.inr ⟨rfl, t⟩⟩

theorem placedL_mono {cfg : Cfg} {S S' : Option Box → Cur → Box → Cur → Prop}
    (hS : ∀ {prev cur b c}, S prev cur b c → S' prev cur b c) {bs : List Box} {prev : Option Box} {c out : Cur}
    {ls : List Laid} (h : PlacedL cfg S prev c bs ls out) : PlacedL cfg S' prev c bs ls out := by
  induction bs generalizing prev c ls with
  | nil => simpa only [PlacedL] using h
  | cons b bs ih =>
    cases ls with
    | nil => simp [PlacedL] at h
    | cons l ls =>
      simp only [PlacedL] at h ⊢
      obtain ⟨c', o, h1, h2, h3⟩ := h
      exact ⟨c', o, hS h1, h2, ih h3⟩

theorem name_step {p : Box} {cur : Cur} {b : Box} {c : Cur} (h : Step (some p) cur b c) (hp : p.ty ≠ .funname) :
    NameStep (some p) cur b c := ⟨h, fun e => absurd e hp⟩

theorem step_first {cur : Cur} {b : Box} : Step none cur b cur := Or.inr rfl

theorem endsLine_of_ty {b : Box} (h : b.ty = .lparen ∨ b.ty = .rparen) : endsLine b = false := by
  rcases b with ⟨ty, attr, pk, kids⟩
  rcases h with h | h <;> (simp only [Box.ty] at h; subst h; rfl)

theorem endsLine_argGroup {b : Box} (h : b.ty = .argGroup) : endsLine b = hasTerminal b := by
  rcases b with ⟨ty, attr, pk, kids⟩
  simp only [Box.ty] at h; subst h; rfl

/-! ## The loops -/

section
variable {cfg : Cfg} {path : List Str} {n : Int} {wrap term : Bool} {col : Nat}

theorem andThen_ok {r : Except Err (Laid × Loop)} {k : Loop → Except Err (List Laid × Loop)}
    {x : List Laid × Loop} :
    andThen r k = .ok x ↔ ∃ l s ls s', r = .ok (l, s) ∧ k s = .ok (ls, s') ∧ x = (l :: ls, s') := by
  unfold andThen
  cases r with
  | error e => simp
  | ok v =>
    obtain ⟨l, s⟩ := v
    dsimp only
    cases h : k s with
    | error e => simp [h]
    | ok w =>
      obtain ⟨ls, s'⟩ := w
      simp only [Except.ok.injEq]
      constructor
      · rintro rfl; exact ⟨l, s, ls, s', rfl, h, rfl⟩
      · rintro ⟨l2, s2, ls2, s2', e1, e2, e3⟩
        simp only [Prod.mk.injEq] at e1
        obtain ⟨rfl, rfl⟩ := e1
        rw [h] at e2
        simp only [Except.ok.injEq, Prod.mk.injEq] at e2
        obtain ⟨rfl, rfl⟩ := e2
        exact e3.symm

/-- The extent of a group covers its children. -/
def LoopOk (cfg : Cfg) (s : Loop) (ks : List Child) (ls : List Laid) (s' : Loop) : Prop :=
  PlacedL cfg Step s.prev s.cur (ks.map (·.box)) ls s'.cur ∧ (∀ l ∈ ls, l.colext ≤ s'.colext) ∧
    s.colext ≤ s'.colext

theorem loopOk_nil (s : Loop) : LoopOk cfg s [] [] s := ⟨placedL_nil, by simp, Nat.le_refl _⟩

theorem loopOk_cons {s s1 s2 : Loop} {k : Child} {ks : List Child} {l : Laid} {ls : List Laid}
    (h1 : ∃ c', Step s.prev s.cur k.box c' ∧ Placed cfg k.box c' l s1.cur) (hp : s1.prev = some k.box)
    (he : l.colext ≤ s1.colext) (hs : s.colext ≤ s1.colext)
    (h2 : LoopOk cfg s1 ks ls s2) : LoopOk cfg s (k :: ks) (l :: ls) s2 := by
  obtain ⟨c', hc, hpl⟩ := h1
  obtain ⟨a, b, c⟩ := h2
  rw [hp] at a
  refine ⟨placedL_cons hc hpl a, ?_, Nat.le_trans hs c⟩
  intro x hx
  rcases List.mem_cons.1 hx with rfl | hx
  · exact Nat.le_trans he c
  · exact b x hx

theorem pargStep_ok {last : Bool} {k : Child} {s s' : Loop} {l : Laid} (hk : Sound cfg k)
    (h : pargStep cfg path n wrap term col last k s = .ok (l, s')) :
    (∃ c', Step s.prev s.cur k.box c' ∧ Placed cfg k.box c' l s'.cur) ∧ s'.prev = some k.box ∧
      l.colext ≤ s'.colext ∧ s.colext ≤ s'.colext := by
  unfold pargStep at h
  cases hp : s.prev with
  | none =>
    simp only [hp, bind_ok, Except.ok.injEq, Prod.mk.injEq] at h
    obtain ⟨r, hr, rfl, rfl⟩ := h
    exact ⟨⟨s.cur, step_first, hk _ _ _ _ _ _ hr⟩, rfl, Nat.le_max_right .., Nat.le_max_left ..⟩
  | some p =>
    simp only [hp] at h
    split at h
    · simp only [bind_ok, Except.ok.injEq, Prod.mk.injEq] at h
      obtain ⟨r, hr, rfl, rfl⟩ := h
      exact ⟨⟨_, step_down, hk _ _ _ _ _ _ hr⟩, rfl, Nat.le_max_right .., Nat.le_max_left ..⟩
    · rename_i hn
      simp only [Bool.or_eq_true, not_or, Bool.not_eq_true] at hn
      simp only [bind_ok] at h
      obtain ⟨r, hr, h⟩ := h
      split at h
      · simp only [bind_ok, Except.ok.injEq, Prod.mk.injEq] at h
        obtain ⟨r', hr', rfl, rfl⟩ := h
        exact ⟨⟨_, step_down, hk _ _ _ _ _ _ hr'⟩, rfl, Nat.le_max_right .., Nat.le_max_left ..⟩
      · simp only [Except.ok.injEq, Prod.mk.injEq] at h
        obtain ⟨rfl, rfl⟩ := h
        exact ⟨⟨_, step_right hn.1, hk _ _ _ _ _ _ hr⟩, rfl, Nat.le_max_right .., Nat.le_max_left ..⟩

theorem pargLoop_ok {ks : List Child} (hk : ∀ k ∈ ks, Sound cfg k) {s s' : Loop} {ls : List Laid}
    (h : pargLoop cfg path n wrap term col ks s = .ok (ls, s')) : LoopOk cfg s ks ls s' := by
  induction ks generalizing s ls with
  | nil =>
    simp only [pargLoop, Except.ok.injEq, Prod.mk.injEq] at h
    obtain ⟨rfl, rfl⟩ := h; exact loopOk_nil _
  | cons k ks ih =>
    simp only [pargLoop, andThen_ok] at h
    obtain ⟨l, s1, ls1, s2, h1, h2, h3⟩ := h
    simp only [Prod.mk.injEq] at h3; obtain ⟨rfl, rfl⟩ := h3
    obtain ⟨a, b, c, d⟩ := pargStep_ok (hk k (by simp)) h1
    exact loopOk_cons a b c d (ih (fun k hk' => hk k (by simp [hk'])) h2)

theorem argStep_ok {last : Bool} {k : Child} {s s' : Loop} {l : Laid} (hk : Sound cfg k)
    (hr : s.colRow = s.cur.row)
    (h : argStep cfg path n wrap term col last k s = .ok (l, s')) :
    (∃ c', Step s.prev s.cur k.box c' ∧ Placed cfg k.box c' l s'.cur) ∧ s'.prev = some k.box ∧
      l.colext ≤ s'.colext ∧ s.colext ≤ s'.colext ∧ s'.colRow = s'.cur.row := by
  unfold argStep at h
  rw [hr] at h
  cases hp : s.prev with
  | none =>
    simp only [hp, bind_ok, Except.ok.injEq, Prod.mk.injEq] at h
    obtain ⟨r, hr, rfl, rfl⟩ := h
    exact ⟨⟨s.cur, step_first, hk _ _ _ _ _ _ hr⟩, rfl, Nat.le_max_right .., Nat.le_max_left .., rfl⟩
  | some p =>
    simp only [hp] at h
    split at h
    · simp only [bind_ok, Except.ok.injEq, Prod.mk.injEq] at h
      obtain ⟨r, hr, rfl, rfl⟩ := h
      exact ⟨⟨_, step_down, hk _ _ _ _ _ _ hr⟩, rfl, Nat.le_max_right .., Nat.le_max_left .., rfl⟩
    · rename_i hn
      simp only [Bool.or_eq_true, not_or, Bool.not_eq_true] at hn
      simp only [bind_ok] at h
      obtain ⟨r, hr, h⟩ := h
      split at h
      · simp only [bind_ok, Except.ok.injEq, Prod.mk.injEq] at h
        obtain ⟨r', hr', rfl, rfl⟩ := h
        exact ⟨⟨_, step_down, hk _ _ _ _ _ _ hr'⟩, rfl, Nat.le_max_right .., Nat.le_max_left .., rfl⟩
      · simp only [Except.ok.injEq, Prod.mk.injEq] at h
        obtain ⟨rfl, rfl⟩ := h
        exact ⟨⟨_, step_right hn.1, hk _ _ _ _ _ _ hr⟩, rfl, Nat.le_max_right .., Nat.le_max_left .., rfl⟩

theorem argLoop_ok {ks : List Child} (hk : ∀ k ∈ ks, Sound cfg k) {s s' : Loop} {ls : List Laid}
    (hr : s.colRow = s.cur.row)
    (h : argLoop cfg path n wrap term col ks s = .ok (ls, s')) : LoopOk cfg s ks ls s' := by
  induction ks generalizing s ls with
  | nil =>
    simp only [argLoop, Except.ok.injEq, Prod.mk.injEq] at h
    obtain ⟨rfl, rfl⟩ := h; exact loopOk_nil _
  | cons k ks ih =>
    simp only [argLoop, andThen_ok] at h
    obtain ⟨l, s1, ls1, s2, h1, h2, h3⟩ := h
    simp only [Prod.mk.injEq] at h3; obtain ⟨rfl, rfl⟩ := h3
    obtain ⟨a, b, c, d, e⟩ := argStep_ok (hk k (by simp)) hr h1
    exact loopOk_cons a b c d (ih (fun k hk' => hk k (by simp [hk'])) e h2)

theorem parenPlace_ok {b : Box} {s : Loop} : Step s.prev s.cur b (parenPlace wrap col b s) := by
  unfold parenPlace
  cases s.prev with
  | none => exact step_first
  | some p =>
    dsimp only
    split
    · rename_i h; exact step_same (endsLine_of_ty (Or.inl h)) (Or.inl h)
    · split
      · exact step_down
      · rename_i hn
        simp only [Bool.or_eq_true, not_or, Bool.not_eq_true] at hn
        split
        · rename_i h; exact step_same hn.1 (Or.inr (Or.inl h))
        · exact step_right hn.1

theorem parenStep_ok {last : Bool} {k : Child} {s s' : Loop} {l : Laid} (hk : Sound cfg k)
    (hr : s.colRow = s.cur.row)
    (h : parenStep cfg path n wrap term col last k s = .ok (l, s')) :
    (∃ c', Step s.prev s.cur k.box c' ∧ Placed cfg k.box c' l s'.cur) ∧ s'.prev = some k.box ∧
      l.colext ≤ s'.colext ∧ s.colext ≤ s'.colext ∧ s'.colRow = s'.cur.row := by
  unfold parenStep at h
  rw [hr] at h
  simp only [bind_ok] at h
  obtain ⟨r, hr, h⟩ := h
  split at h
  · simp only [bind_ok, Except.ok.injEq, Prod.mk.injEq] at h
    obtain ⟨r', hr', rfl, rfl⟩ := h
    exact ⟨⟨_, step_down, hk _ _ _ _ _ _ hr'⟩, rfl, Nat.le_max_right .., Nat.le_max_left .., rfl⟩
  · simp only [Except.ok.injEq, Prod.mk.injEq] at h
    obtain ⟨rfl, rfl⟩ := h
    exact ⟨⟨_, parenPlace_ok, hk _ _ _ _ _ _ hr⟩, rfl, Nat.le_max_right .., Nat.le_max_left .., rfl⟩

theorem parenLoop_ok {ks : List Child} (hk : ∀ k ∈ ks, Sound cfg k) {s s' : Loop} {ls : List Laid}
    (hr : s.colRow = s.cur.row)
    (h : parenLoop cfg path n wrap term col ks s = .ok (ls, s')) : LoopOk cfg s ks ls s' := by
  induction ks generalizing s ls with
  | nil =>
    simp only [parenLoop, Except.ok.injEq, Prod.mk.injEq] at h
    obtain ⟨rfl, rfl⟩ := h; exact loopOk_nil _
  | cons k ks ih =>
    simp only [parenLoop, andThen_ok] at h
    obtain ⟨l, s1, ls1, s2, h1, h2, h3⟩ := h
    simp only [Prod.mk.injEq] at h3; obtain ⟨rfl, rfl⟩ := h3
    obtain ⟨a, b, c, d, e⟩ := parenStep_ok (hk k (by simp)) hr h1
    exact loopOk_cons a b c d (ih (fun k hk' => hk k (by simp [hk'])) e h2)

/-- The row of the next block. -/
def RowOk (s : Loop) : Prop :=
  match s.prev with
  | none => s.colRow = s.cur.row
  | some _ => s.colRow = s.cur.row + 1

/-- Like `LoopOk`, for blocks. -/
def BlocksOk (cfg : Cfg) (col tab : Nat) (s : Loop) (ks : List Child) (ls : List Laid) (s' : Loop) : Prop :=
  PlacedL cfg (Blocks col tab) s.prev s.cur (ks.map (·.box)) ls s'.cur ∧
    (∀ l ∈ ls, l.colext ≤ s'.colext) ∧ s.colext ≤ s'.colext

theorem blocksOk_cons {tab : Nat} {s s1 s2 : Loop} {k : Child} {ks : List Child} {l : Laid} {ls : List Laid}
    {c' : Cur} (h0 : Blocks col tab s.prev s.cur k.box c') (h1 : Placed cfg k.box c' l s1.cur)
    (hp : s1.prev = some k.box)
    (he : l.colext ≤ s1.colext) (hs : s.colext ≤ s1.colext)
    (h2 : BlocksOk cfg col tab s1 ks ls s2) : BlocksOk cfg col tab s (k :: ks) (l :: ls) s2 := by
  obtain ⟨a, b, c⟩ := h2
  rw [hp] at a
  refine ⟨placedL_cons h0 h1 a, ?_, Nat.le_trans hs c⟩
  intro x hx
  rcases List.mem_cons.1 hx with rfl | hx
  · exact Nat.le_trans he c
  · exact b x hx

theorem rowOk_blocks {s : Loop} (h : RowOk s) {tab : Nat} {b : Box} {x : Nat}
    (hx : x = if b.ty = .body then col + tab else col) :
    Blocks col tab s.prev s.cur b ⟨s.colRow, x⟩ := by
  unfold RowOk at h
  refine ⟨hx, ?_⟩
  cases hp : s.prev <;> simp only [hp] at h ⊢ <;> exact h

theorem bodyLoop_ok {ks : List Child} (hk : ∀ k ∈ ks, Sound cfg k) {s s' : Loop} {ls : List Laid}
    (hr : RowOk s) (h : bodyLoop path n col ks s = .ok (ls, s')) : BlocksOk cfg col 0 s ks ls s' := by
  induction ks generalizing s ls with
  | nil =>
    simp only [bodyLoop, Except.ok.injEq, Prod.mk.injEq] at h
    obtain ⟨rfl, rfl⟩ := h; exact ⟨placedL_nil, by simp, Nat.le_refl _⟩
  | cons k ks ih =>
    simp only [bodyLoop, bind_ok, Except.ok.injEq, Prod.mk.injEq] at h
    obtain ⟨r, h1, rest, h2, rfl, rfl⟩ := h
    exact blocksOk_cons (rowOk_blocks hr (by simp)) (hk k (by simp) _ _ _ _ _ _ h1) rfl
      (Nat.le_max_right ..) (Nat.le_max_left ..)
      (ih (fun k hk' => hk k (by simp [hk'])) (by simp [RowOk]) h2)

theorem flowLoop_ok {stmt : Bool} {ks : List Child} (hk : ∀ k ∈ ks, Sound cfg k) {s s' : Loop}
    {ls : List Laid} (hr : RowOk s) (h : flowLoop cfg path n col stmt ks s = .ok (ls, s')) :
    BlocksOk cfg col cfg.tabSize s ks ls s' := by
  induction ks generalizing s ls stmt with
  | nil =>
    simp only [flowLoop] at h
    split at h
    · simp at h
    · simp only [Except.ok.injEq, Prod.mk.injEq] at h
      obtain ⟨rfl, rfl⟩ := h; exact ⟨placedL_nil, by simp, Nat.le_refl _⟩
  | cons k ks ih =>
    simp only [flowLoop, bind_ok, check_ok, Except.ok.injEq, Prod.mk.injEq] at h
    obtain ⟨_, hty, r, h1, rest, h2, rfl, rfl⟩ := h
    have hx : (if stmt = true then col else col + cfg.tabSize) =
        if k.box.ty = .body then col + cfg.tabSize else col := by
      cases stmt <;> simp at hty <;> simp [hty]
    exact blocksOk_cons (rowOk_blocks hr hx) (hk k (by simp) _ _ _ _ _ _ h1) rfl
      (Nat.le_max_right ..) (Nat.le_max_left ..)
      (ih (fun k hk' => hk k (by simp [hk'])) (by simp [RowOk]) h2)

/-! ## Statements -/

theorem placed_rparen {b : Box} {c : Cur} {l : Laid} {o : Cur} (hb : b.ty = .rparen)
    (h : Placed cfg b c l o) : o = c.right 1 := by
  rcases b with ⟨ty, attr, pk, kids⟩
  simp only [Box.ty] at hb; subst hb
  cases l
  simp only [Placed] at h
  exact h.2.2.2.2.2.2.1

/-- What the end of a statement looks like. -/
def TailOk (cfg : Cfg) (rc dc : Cur) (rp cm : Child) (t : Tail) : Prop :=
  ∃ lr lc c1 o1 c2, t.kids = [lr, lc] ∧ (c1 = rc ∨ c1 = dc) ∧ Placed cfg rp.box c1 lr o1 ∧
    Step (some rp.box) o1 cm.box c2 ∧ Placed cfg cm.box c2 lc t.cur ∧
    lr.colext ≤ t.colext ∧ lc.colext ≤ t.colext

theorem reflowTail_ok {start : Nat} {dangle : Bool} {rp cm : Child} {c3 rc dc : Cur} {rp0 : Laid × Cur}
    {t : Tail} (hrp : Sound cfg rp) (hcm : Sound cfg cm) (hty : rp.box.ty = .rparen)
    (hdc : dc.row = c3.row + 1) (hrc : rc = if dangle then dc else c3)
    (h0 : Placed cfg rp.box rc rp0.1 rp0.2)
    (h : reflowTail cfg path n start dangle rp rc dc rp0 cm = .ok t) :
    TailOk cfg rc dc rp cm t ∧ cm.box.ty = .comment := by
  simp only [reflowTail, bind_ok, check_ok] at h
  obtain ⟨_, hct, c1, hc1, h⟩ := h
  have hct : cm.box.ty = .comment := by simpa using hct
  refine ⟨?_, hct⟩
  have he : endsLine rp.box = false := endsLine_of_ty (Or.inr hty)
  have t1 : Tight rp.box.ty cm.box.ty := Or.inr (Or.inr (Or.inr ⟨hty, hct⟩))
  have e0 := placed_rparen hty h0
  split at h
  · rename_i hd
    simp only [Bool.and_eq_true, Bool.not_eq_true'] at hd
    simp only [bind_ok] at h
    obtain ⟨rp1, hrp1, c2, hc2, h⟩ := h
    have p1 := hrp _ _ _ _ _ _ hrp1
    have e1 := placed_rparen hty p1
    split at h
    · simp only [bind_ok, Except.ok.injEq] at h
      obtain ⟨rp2, hrp2, c3', hc3, rfl⟩ := h
      have p2 := hrp _ _ _ _ _ _ hrp2
      have e2 := placed_rparen hty p2
      refine ⟨rp2.1, c3'.1, rc, rp2.2, _, rfl, Or.inl rfl, p2, ?_, hcm _ _ _ _ _ _ hc3,
        Nat.le_max_right .., Nat.le_max_left ..⟩
      left
      rw [e1, e2]
      simp only [hd.1, Bool.false_eq_true, if_false] at hrc
      simp only [Cur.right, hdc, hrc]
      omega
    · simp only [Except.ok.injEq] at h
      subst h
      exact ⟨rp1.1, c2.1, dc, rp1.2, rp1.2, rfl, Or.inr rfl, p1, step_same he t1,
        hcm _ _ _ _ _ _ hc2, Nat.le_max_right .., Nat.le_max_left ..⟩
  · split at h
    · simp only [bind_ok, Except.ok.injEq] at h
      obtain ⟨rp2, hrp2, c3', hc3, rfl⟩ := h
      have p2 := hrp _ _ _ _ _ _ hrp2
      have e2 := placed_rparen hty p2
      refine ⟨rp2.1, c3'.1, rc, rp2.2, _, rfl, Or.inl rfl, p2, ?_, hcm _ _ _ _ _ _ hc3,
        Nat.le_max_right .., Nat.le_max_left ..⟩
      left
      rw [e0, e2]
      simp only [Cur.right]
      omega
    · simp only [Except.ok.injEq] at h
      subst h
      exact ⟨rp0.1, c1.1, rc, rp0.2, rp0.2.right 1, rfl, Or.inl rfl, h0, step_right he,
        hcm _ _ _ _ _ _ hc1, Nat.le_max_right .., Nat.le_max_left ..⟩

theorem reflowClose_ok {start c3 : Cur} {argCol : Nat} {args : Box} {rest : List Child} {t : Tail}
    (hk : ∀ k ∈ rest, Sound cfg k) (ha : args.ty = .argGroup)
    (h : reflowClose cfg path n wrap start argCol args c3 rest = .ok t) :
    PlacedL cfg NameStep (some args) c3 (rest.map (·.box)) t.kids t.cur ∧
      ∀ l ∈ t.kids, l.colext ≤ t.colext := by
  unfold reflowClose at h
  cases rest with
  | nil => simp at h
  | cons rp rest' =>
    simp only [bind_ok, check_ok] at h
    obtain ⟨_, hty, dcol, _, rp0, hrp0, h⟩ := h
    have hty : rp.box.ty = .rparen := by simpa using hty
    have hrp := hk rp (by simp)
    generalize hdd : (cfg.dangleParens && decide (c3.row > start.row) ||
      decide ((c3.col : Int) ≥ cfg.linewidth) || hasTerminal args) = dangle at h hrp0
    have p0 := hrp _ _ _ _ _ _ hrp0
    have hs : ∀ c1, (c1 = (if dangle = true then (⟨c3.row + 1, dcol⟩ : Cur) else c3) ∨
        c1 = ⟨c3.row + 1, dcol⟩) → NameStep (some args) c3 rp.box c1 := by
      intro c1 hc1
      refine name_step ?_ (by rw [ha]; simp)
      rcases hc1 with rfl | rfl
      · split
        · exact step_down
        · rename_i hd
          subst hdd
          simp only [Bool.or_eq_true, not_or, Bool.not_eq_true] at hd
          exact step_same (by rw [endsLine_argGroup ha]; exact hd.2) (Or.inr (Or.inl hty))
      · exact step_down
    match rest', h with
    | [], h =>
      simp only [Except.ok.injEq] at h
      subst h
      refine ⟨placedL_cons (hs _ (Or.inl rfl)) p0 placedL_nil, ?_⟩
      intro l hl
      simp only [List.mem_singleton] at hl
      subst hl; exact Nat.le_refl _
    | [cm], h =>
      simp only [bind_ok, Except.ok.injEq] at h
      obtain ⟨t', ht', rfl⟩ := h
      obtain ⟨⟨lr, lc, c1, o1, c2, e, hc, a, b, d, x, y⟩, _⟩ :=
        reflowTail_ok hrp (hk cm (by simp)) hty rfl rfl p0 ht'
      simp only [e]
      refine ⟨placedL_cons (hs _ hc) a (placedL_cons (name_step b (by rw [hty]; simp)) d placedL_nil), ?_⟩
      intro l hl
      simp only [List.mem_cons, List.not_mem_nil, or_false] at hl
      rcases hl with rfl | rfl
      · exact x
      · exact y
    | _ :: _ :: _, h => simp at h

theorem endsLine_plain {b : Box} (hs : isScalar b.ty = true) (h : plainWord b = true) :
    endsLine b = false := by
  rcases b with ⟨ty, attr, pk, kids⟩
  simp only [plainWord, Box.kids, List.isEmpty_iff] at h
  subst h
  cases ty <;> simp [isScalar, Box.ty] at hs <;> rfl

theorem splitOn_flat {s : Str} (h : s.contains '\n' = false) : splitOn '\n' s = [s] := by
  induction s with
  | nil => rfl
  | cons c cs ih =>
    simp only [List.contains_cons, Bool.or_eq_false_iff] at h
    have hc : c ≠ '\n' := by
      intro e; subst e; simp at h
    simp only [splitOn, hc, if_false, ih h.2]

theorem flow_flat {c : Cur} {s : Str} (h : s.contains '\n' = false) :
    flow c s = (c.right s.length, c.col + s.length) := by
  simp only [flow, splitOn_flat h, walk]

theorem placed_flat {b : Box} {c : Cur} {l : Laid} {o : Cur} (hs : isScalar b.ty = true)
    (hf : flatWord b = true) (h : Placed cfg b c l o) : o.row = c.row := by
  rcases b with ⟨ty, attr, pk, kids⟩
  simp only [flatWord, plainWord, Box.kids, Box.pkids, Bool.and_eq_true, List.isEmpty_iff,
    Bool.not_eq_true'] at hf
  obtain ⟨rfl, hf⟩ := hf
  rcases l with ⟨ty', attr', pk', info, lines, kids'⟩
  have key : ∃ t, headTok pk = .ok t ∧ o = (flow c (Text.normalizeLineEndings t.spelling)).1 := by
    cases ty <;> simp [isScalar, Box.ty] at hs <;>
    · simp only [Placed, PlacedL] at h
      have h := h.2.2.2.2.2
      obtain ⟨t, ht, _, _, _, _, _, ho⟩ := h
      exact ⟨t, ht, ho⟩
  obtain ⟨t, ht, ho⟩ := key
  rw [ho]
  have e : headSpelling pk = t.spelling := by
    cases pk with
    | nil => simp [headTok] at ht
    | cons n ns =>
      cases n with
      | tok t' => simp only [headTok, Except.ok.injEq] at ht; subst ht; rfl
      | node ty a cs => simp [headTok] at ht
  rw [e] at hf
  rw [flow_flat hf]; rfl

theorem placed_lparen {b : Box} {c : Cur} {l : Laid} {o : Cur} (hb : b.ty = .lparen)
    (h : Placed cfg b c l o) : o = c.right 1 := by
  rcases b with ⟨ty, attr, pk, kids⟩
  simp only [Box.ty] at hb; subst hb
  cases l
  simp only [Placed] at h
  exact h.2.2.2.2.2.2.1

theorem reflowStatement_ok {boxes : List Box} {kids : List Child} {c : Cur} {o : Out}
    (hk : ∀ k ∈ kids, Sound cfg k) (hb : ∀ k, kids.head? = some k → flatWord k.box = true)
    (h : reflowStatement cfg path n wrap boxes kids c = .ok o) :
    PlacedL cfg NameStep none c (kids.map (·.box)) o.kids o.cur ∧ ∀ l ∈ o.kids, l.colext ≤ o.colext := by
  unfold reflowStatement at h
  cases kids with
  | nil => simp at h
  | cons fn rest =>
    simp only [bind_ok, check_ok] at h
    obtain ⟨_, hfn, r0, hr0, t, ht, h⟩ := h
    have hfn : fn.box.ty = .funname := by simpa using hfn
    cases rest with
    | nil => simp at h
    | cons lp rest' =>
      simp only [bind_ok, check_ok] at h
      obtain ⟨_, hlp, r1, hr1, h⟩ := h
      have hlp : lp.box.ty = .lparen := by simpa using hlp
      cases rest' with
      | nil => simp at h
      | cons ag rest'' =>
        simp only [bind_ok, check_ok, Except.ok.injEq] at h
        obtain ⟨_, hag, r2, hr2, t, ht, rfl⟩ := h
        have hag : ag.box.ty = .argGroup := by simpa using hag
        have p0 := hk fn (by simp) _ _ _ _ _ _ hr0
        have p1 := hk lp (by simp) _ _ _ _ _ _ hr1
        have p2 := hk ag (by simp) _ _ _ _ _ _ hr2
        obtain ⟨p3, e3⟩ := reflowClose_ok (fun k hk' => hk k (by simp [hk'])) hag ht
        have hl := placed_lparen hlp p1
        have hff := hb fn rfl
        have hsc : isScalar fn.box.ty = true := by rw [hfn]; rfl
        have hrow := placed_flat hsc hff p0
        have hfe : endsLine fn.box = false := by
          simp only [flatWord, Bool.and_eq_true] at hff
          exact endsLine_plain hsc hff.1
        refine ⟨placedL_cons ⟨step_first, rfl⟩ p0 (placedL_cons ⟨?_, fun _ => ?_⟩ p1
          (placedL_cons (name_step ?_ (by rw [hlp]; simp)) p2 p3)), ?_⟩
        · split
          · exact step_right hfe
          · exact step_same hfe (Or.inr (Or.inr (Or.inl ⟨hfn, hlp⟩)))
        · split <;> rfl
        · generalize (if (prefixWidth cfg boxes : Int) ≤ cfg.minPrefixChars then false else wrap) = w
          cases w
          · exact step_same (endsLine_of_ty (Or.inl hlp)) (Or.inl hlp)
          · simp only [if_true]
            left
            rw [hl]
            simp only [Cur.right]
            split <;> (simp only [hrow]; omega)
        · intro l hl
          simp only [List.mem_cons] at hl
          rcases hl with rfl | rfl | rfl | hl
          · simp only [Laid.colext]; omega
          · simp only [Laid.colext]; omega
          · simp only [Laid.colext]; omega
          · have := e3 l hl; simp only [Laid.colext] at this ⊢; omega

theorem reflowAtWord_ok {kids : List Child} {c : Cur} {o : Out}
    (hk : ∀ k ∈ kids, Sound cfg k) (hb : ∀ k, kids.head? = some k → plainWord k.box = true)
    (h : reflowAtWord cfg path n wrap kids c = .ok o) :
    PlacedL cfg NameStep none c (kids.map (·.box)) o.kids o.cur ∧ ∀ l ∈ o.kids, l.colext ≤ o.colext := by
  unfold reflowAtWord at h
  cases kids with
  | nil => simp at h
  | cons w rest =>
    simp only [bind_ok, check_ok] at h
    obtain ⟨_, hw, r0, hr0, h⟩ := h
    have hw : w.box.ty = .atword := by simpa using hw
    have p0 := hk w (by simp) _ _ _ _ _ _ hr0
    have hwe : endsLine w.box = false := endsLine_plain (by rw [hw]; rfl) (hb w rfl)
    match rest, h with
    | [], h =>
      simp only [Except.ok.injEq] at h
      subst h
      refine ⟨placedL_cons ⟨step_first, rfl⟩ p0 placedL_nil, ?_⟩
      intro l hl
      simp only [List.mem_singleton] at hl
      subst hl; exact Nat.le_max_right ..
    | [cm], h =>
      simp only [bind_ok, check_ok] at h
      obtain ⟨_, hcm, c1, hc1, h⟩ := h
      split at h
      · simp only [bind_ok, Except.ok.injEq] at h
        obtain ⟨c2, hc2, rfl⟩ := h
        refine ⟨placedL_cons ⟨step_first, rfl⟩ p0
          (placedL_cons (name_step step_down (by rw [hw]; simp)) (hk cm (by simp) _ _ _ _ _ _ hc2) placedL_nil), ?_⟩
        intro l hl
        simp only [List.mem_cons, List.not_mem_nil, or_false] at hl
        rcases hl with rfl | rfl <;> (simp only [Laid.colext]; omega)
      · simp only [Except.ok.injEq] at h
        subst h
        refine ⟨placedL_cons ⟨step_first, rfl⟩ p0
          (placedL_cons (name_step (step_right hwe) (by rw [hw]; simp)) (hk cm (by simp) _ _ _ _ _ _ hc1) placedL_nil), ?_⟩
        intro l hl
        simp only [List.mem_cons, List.not_mem_nil, or_false] at hl
        rcases hl with rfl | rfl <;> (simp only [Laid.colext]; omega)
    | _ :: _ :: _, h => simp at h

theorem reflowKwarg_ok {boxes : List Box} {kids : List Child} {c : Cur} {o : Out}
    (hk : ∀ k ∈ kids, Sound cfg k) (hb : ∀ k, kids.head? = some k → plainWord k.box = true)
    (h : reflowKwarg cfg path n wrap term boxes kids c = .ok o) :
    PlacedL cfg Step none c (kids.map (·.box)) o.kids o.cur ∧ ∀ l ∈ o.kids, l.colext ≤ o.colext := by
  unfold reflowKwarg at h
  cases kids with
  | nil => simp at h
  | cons kw rest =>
    simp only [bind_ok, check_ok] at h
    obtain ⟨_, hlen, _, hw, r0, hr0, h⟩ := h
    have hlen : rest.length ≤ 1 := by simpa using hlen
    have hw : kw.box.ty = .keyword := by simpa using hw
    have p0 := hk kw (by simp) _ _ _ _ _ _ hr0
    have hwe : endsLine kw.box = false := endsLine_plain (by rw [hw]; rfl) (hb kw rfl)
    match rest, h, hlen with
    | [], h, _ =>
      simp only [Except.ok.injEq] at h
      subst h
      refine ⟨placedL_cons step_first p0 placedL_nil, ?_⟩
      intro l hl
      simp only [List.mem_singleton] at hl
      subst hl; exact Nat.le_refl ..
    | [ag], h, _ =>
      simp only [bind_ok, Except.ok.injEq] at h
      obtain ⟨r1, hr1, rfl⟩ := h
      refine ⟨placedL_cons step_first p0
        (placedL_cons ?_ (hk ag (by simp) _ _ _ _ _ _ hr1) placedL_nil), ?_⟩
      · generalize (if ((firstName boxes).length : Int) ≤ cfg.minPrefixChars then false else wrap) = w
        cases w
        · exact step_right hwe
        · exact step_down
      · intro l hl
        simp only [List.mem_cons, List.not_mem_nil, or_false] at hl
        rcases hl with rfl | rfl <;> (simp only [Laid.colext]; omega)

end

/-! ## `reflow` -/

theorem runPasses_ok {parent : Int} {att : Int × Bool → Except Err Out} {val : Out → Bool}
    {P : Out → Prop} (hP : ∀ p o, att p = .ok o → P { o with valid := o.valid && val o })
    {ps : List (Int × Bool)} {best : Option (Int × Out)} (hb : ∀ r, best = some r → P r.2)
    {r : Int × Out} (h : runPasses parent att val best ps = .ok r) : P r.2 := by
  induction ps generalizing best with
  | nil =>
    simp only [runPasses] at h
    cases best with
    | none => simp at h
    | some b => simp only [Except.ok.injEq] at h; subst h; exact hb _ rfl
  | cons p ps ih =>
    simp only [runPasses] at h
    split at h
    · cases best with
      | none => simp at h
      | some b => simp only [Except.ok.injEq] at h; subst h; exact hb _ rfl
    · cases ha : att p with
      | error e => simp [ha] at h
      | ok o =>
        simp only [ha] at h
        split at h
        · simp only [Except.ok.injEq] at h
          subst h; exact hP p o ha
        · refine ih ?_ h
          intro r hr
          simp only [Option.some.injEq] at hr
          subst hr; exact hP p o ha

theorem validate_width {cfg : Cfg} {b : Box} {path : List Str} {c : Cur} {o : Out}
    (h : validate cfg b path c o = true) : (o.colext : Int) ≤ cfg.linewidth := by
  unfold validate at h
  simp only at h
  split at h
  · simp at h
  · omega

section
variable {cfg : Cfg}

theorem flowLoop_alternates {path : List Str} {n : Int} {col : Nat} {stmt : Bool} {ks : List Child} {s s' : Loop}
    {ls : List Laid} (h : flowLoop cfg path n col stmt ks s = .ok (ls, s')) :
    alternates stmt (ks.map (·.box)) = true := by
  induction ks generalizing stmt s ls s' with
  | nil =>
    simp only [flowLoop] at h
    split at h
    · simp at h
    · rename_i hn
      simp only [Bool.or_eq_true, not_or, Bool.not_eq_true] at hn
      simp [alternates, hn.1]
  | cons k ks ih =>
    simp only [flowLoop, bind_ok, check_ok, Except.ok.injEq, Prod.mk.injEq] at h
    obtain ⟨_, hk, r, _, rest, h2, _, _⟩ := h
    simp only [List.map_cons, alternates, Bool.and_eq_true]
    exact ⟨hk, ih (s' := rest.2) (ls := rest.1) h2⟩

/-- What `_reflow` left behind is a possible layout, whatever is stored with it. -/
def Fits (cfg : Cfg) (b : Box) (c : Cur) (o : Out) : Prop :=
  ∀ n w v, (v = true → (o.colext : Int) ≤ cfg.linewidth) →
    Placed cfg b c (.mk b.ty b.attr b.pkids ⟨c, n, w, v, o.colext⟩ o.lines o.kids) o.cur

theorem fits_scalar {ty : NT} {attr : Attr} {pk : List Node} {bs : List Box} {kids : List Child}
    {path : List Str} {n : Int} {w : Bool} {c : Cur} {o : Out}
    (hs : isScalar ty = true) (hk : ∀ k ∈ kids, Sound cfg k) (hb : kids.map (·.box) = bs)
    (h : reflowScalar path n w pk kids c = .ok o) : Fits cfg (.mk ty attr pk bs) c o := by
  subst hb
  unfold reflowScalar at h
  simp only [bind_ok] at h
  obtain ⟨t, ht, h⟩ := h
  have key : (flow c (Text.normalizeLineEndings t.spelling)).2 ≤ o.colext ∧
      (kids.map (·.box)).length ≤ 1 ∧ (∀ k ∈ kids.map (·.box), k.ty = .comment) ∧
      (∀ k ∈ o.kids, k.colext ≤ o.colext) ∧
      PlacedL cfg Step (some (.mk ty attr pk []))
        (flow c (Text.normalizeLineEndings t.spelling)).1 (kids.map (·.box)) o.kids o.cur := by
    match kids, h with
    | [], h =>
      simp only [Except.ok.injEq] at h
      subst h
      exact ⟨Nat.le_refl _, by simp, by simp, by simp, placedL_nil⟩
    | [k], h =>
      simp only [bind_ok, check_ok, Except.ok.injEq] at h
      obtain ⟨_, hc, r, hr, rfl⟩ := h
      have hc : k.box.ty = .comment := by simpa using hc
      refine ⟨Nat.le_max_left .., by simp, by simpa using hc, ?_, ?_⟩
      · intro l hl
        simp only [List.mem_singleton] at hl
        subst hl; exact Nat.le_max_right ..
      · refine placedL_cons (step_right ?_) (hk k (by simp) _ _ _ _ _ _ hr) placedL_nil
        exact endsLine_plain (by simpa [Box.ty] using hs) (by rfl)
    | _ :: _ :: _, h => simp at h
  intro n w v hv
  cases ty <;> simp [isScalar] at hs <;>
  · simp only [Box.ty, Box.attr, Box.pkids, Placed]
    exact ⟨trivial, trivial, trivial, trivial, ⟨hv, nofun⟩, t, ht, key⟩

theorem fits_group {ty : NT} {attr : Attr} {pk : List Node} {bs : List Box} {c : Cur} {o : Out}
    (hg : isScalar ty = false)
    (hg' : ty ≠ .lparen ∧ ty ≠ .rparen ∧ ty ≠ .whitespace ∧ ty ≠ .onoff ∧ ty ≠ .comment)
    (h : PlacedL cfg (StepFor cfg ty c.col) none c bs o.kids o.cur) (he : ∀ l ∈ o.kids, l.colext ≤ o.colext)
    (ha : ty = .flowControl → alternates true bs = true) :
    Fits cfg (.mk ty attr pk bs) c o := by
  intro n w v hv
  cases ty <;> simp [isScalar] at hg hg' <;>
  · simp only [Box.ty, Box.attr, Box.pkids, Placed]
    exact ⟨trivial, trivial, trivial, trivial, ⟨hv, by first | exact fun _ => ha rfl | nofun⟩, he, h⟩

theorem fits_comment {attr : Attr} {pk : List Node} {bs : List Box} {w : Bool} {c : Cur} {o : Out}
    (h : reflowComment cfg w attr pk c = .ok o) : Fits cfg (.mk .comment attr pk bs) c o := by
  intro n w v hv
  unfold reflowComment at h
  simp only [Box.ty, Box.attr, Box.pkids, Placed]
  cases hbr : bracketOf pk with
  | some t =>
    simp only [hbr, Except.ok.injEq] at h
    subst h
    exact ⟨trivial, trivial, trivial, trivial, ⟨hv, nofun⟩, rfl, rfl, rfl⟩
  | none =>
    simp only [hbr, bind_ok] at h
    obtain ⟨ts, hts, lines, hl, h⟩ := h
    cases hlast : lines.getLast? with
    | none => simp [hlast] at h
    | some l =>
      simp only [hlast, Except.ok.injEq] at h
      subst h
      exact ⟨trivial, trivial, trivial, trivial, ⟨hv, nofun⟩, rfl, ts, l, hts, hl, hlast, rfl, rfl⟩

theorem attempt_fits {b : Box} {kids : List Child} {path : List Str} {term : Bool} {c : Cur}
    {p : Int × Bool} {o : Out} (hk : ∀ k ∈ kids, Sound cfg k) (hkb : kids.map (·.box) = b.kids)
    (hb : bare b = true) (h : attempt cfg b kids path term c p = .ok o) : Fits cfg b c o := by
  rcases b with ⟨ty, attr, pk, bs⟩
  simp only [Box.kids] at hkb
  have hd : ∀ k, kids.head? = some k → ∃ bs', bs = k.box :: bs' := by
    intro k hk'
    cases kids with
    | nil => simp at hk'
    | cons a as =>
      simp only [List.head?_cons, Option.some.injEq] at hk'
      subst hk'
      exact ⟨as.map (·.box), by rw [← hkb]; rfl⟩
  cases ty <;> simp only [attempt, Box.ty, Box.pkids, Box.attr, Box.kids] at h
  case body =>
    unfold reflowBody at h
    simp only [bind_ok, Except.ok.injEq] at h
    obtain ⟨r, hr, rfl⟩ := h
    have := bodyLoop_ok (s' := r.2) (ls := r.1) hk (by simp [RowOk]) hr
    refine fits_group rfl (by simp) ?_ this.2.1 nofun
    rw [← hkb]; exact this.1
  case flowControl =>
    unfold reflowFlow at h
    simp only [bind_ok, Except.ok.injEq] at h
    obtain ⟨r, hr, rfl⟩ := h
    have := flowLoop_ok (s' := r.2) (ls := r.1) hk (by simp [RowOk]) hr
    refine fits_group rfl (by simp) ?_ this.2.1 (fun _ => hkb ▸ flowLoop_alternates (s' := r.2) (ls := r.1) hr)
    rw [← hkb]; exact this.1
  case argGroup =>
    unfold reflowArg at h
    simp only [bind_ok, Except.ok.injEq] at h
    obtain ⟨_, _, r, hr, rfl⟩ := h
    have := argLoop_ok (s' := r.2) (ls := r.1) hk (by rfl) hr
    refine fits_group rfl (by simp) ?_ this.2.1 nofun
    rw [← hkb]; exact this.1
  case pargGroup =>
    unfold reflowParg at h
    simp only [bind_ok, Except.ok.injEq] at h
    obtain ⟨r, hr, rfl⟩ := h
    have := pargLoop_ok (s' := r.2) (ls := r.1) hk hr
    refine fits_group rfl (by simp) ?_ this.2.1 nofun
    rw [← hkb]; exact this.1
  case flagGroup =>
    unfold reflowParg at h
    simp only [bind_ok, Except.ok.injEq] at h
    obtain ⟨r, hr, rfl⟩ := h
    have := pargLoop_ok (s' := r.2) (ls := r.1) hk hr
    refine fits_group rfl (by simp) ?_ this.2.1 nofun
    rw [← hkb]; exact this.1
  case parenGroup =>
    unfold reflowParenGroup at h
    simp only [bind_ok, Except.ok.injEq] at h
    obtain ⟨_, _, r, hr, rfl⟩ := h
    have := parenLoop_ok (s' := r.2) (ls := r.1) hk (by rfl) hr
    refine fits_group rfl (by simp) ?_ this.2.1 nofun
    rw [← hkb]; exact this.1
  case statement =>
    have := reflowStatement_ok hk (fun k hk' => by
      obtain ⟨bs', e⟩ := hd k hk'
      subst e
      simp only [bare, Bool.and_eq_true] at hb
      exact hb.1) h
    refine fits_group rfl (by simp) ?_ this.2 nofun
    rw [← hkb]; exact this.1
  case atwordStatement =>
    have := reflowAtWord_ok hk (fun k hk' => by
      obtain ⟨bs', e⟩ := hd k hk'
      subst e
      simp only [bare, Bool.and_eq_true] at hb
      exact hb.1) h
    refine fits_group rfl (by simp) ?_ this.2 nofun
    rw [← hkb]; exact this.1
  case kwargGroup =>
    have := reflowKwarg_ok hk (fun k hk' => by
      obtain ⟨bs', e⟩ := hd k hk'
      subst e
      simp only [bare, Bool.and_eq_true] at hb
      exact hb.1) h
    refine fits_group rfl (by simp) ?_ this.2 nofun
    rw [← hkb]; exact this.1
  case comment => exact fits_comment h
  case whitespace =>
    unfold reflowWhitespace at h
    simp only [Except.ok.injEq] at h
    subst h
    intro n w v hv
    exact ⟨rfl, rfl, rfl, rfl, ⟨hv, nofun⟩, rfl, rfl⟩
  case lparen | rparen =>
    unfold reflowParen at h
    simp only [Except.ok.injEq] at h
    subst h
    intro n w v hv
    exact ⟨rfl, rfl, rfl, rfl, ⟨hv, nofun⟩, rfl, rfl, rfl⟩
  case onoff =>
    unfold reflowOnOff at h
    simp only [bind_ok, Except.ok.injEq] at h
    obtain ⟨t, ht, rfl⟩ := h
    intro n w v hv
    exact ⟨rfl, rfl, rfl, rfl, ⟨hv, nofun⟩, rfl, t, ht, rfl, rfl⟩
  all_goals exact fits_scalar rfl hk hkb h

theorem reflowNode_sound {b : Box} {idx : Nat} {kids : List Child} (hk : ∀ k ∈ kids, Sound cfg k)
    (hkb : kids.map (·.box) = b.kids) (hb : bare b = true) :
    Sound cfg ⟨b, reflowNode cfg b idx kids⟩ := by
  intro path term c n l o h
  simp only [reflowNode] at h
  generalize path ++ (pathName idx b).toList = path' at h
  cases hr : runPasses (limitOf b.ty n) (attempt cfg b kids path' term c) (validate cfg b path' c) none
      (passesOf cfg b.ty) with
  | error e => simp [hr] at h
  | ok r =>
    obtain ⟨m, r⟩ := r
    simp only [hr, Except.ok.injEq, Prod.mk.injEq] at h
    obtain ⟨rfl, rfl⟩ := h
    have := runPasses_ok (P := fun o => (o.valid = true → (o.colext : Int) ≤ cfg.linewidth) ∧ Fits cfg b c o)
      (by
        intro p o ho
        have hf : Fits cfg b c o := attempt_fits hk hkb hb ho
        refine ⟨?_, hf⟩
        intro hv
        simp only [Bool.and_eq_true] at hv
        exact validate_width hv.2) (by simp) hr
    exact this.2 _ _ _ this.1

mutual
/-- Every result of `reflow` is a possible layout. -/
theorem reflow_sound : ∀ (b : Box) (idx : Nat), bare b = true → Sound cfg ⟨b, reflow cfg b idx⟩
  | .mk ty attr pk kids, idx, hb => by
    have hk : bareL kids = true := by
      simp only [bare, Bool.and_eq_true] at hb; exact hb.2
    rw [reflow]
    exact reflowNode_sound (children_sound kids 0 hk) (children_box kids 0) hb
theorem children_sound : ∀ (bs : List Box) (n : Nat), bareL bs = true → ∀ k ∈ children cfg n bs, Sound cfg k
  | [], _, _ => by simp [children]
  | b :: bs, n, hb => by
    simp only [bareL, Bool.and_eq_true] at hb
    simp only [children, List.mem_cons]
    rintro k (rfl | hk)
    · exact reflow_sound b n hb.1
    · exact children_sound bs _ hb.2 k hk
theorem children_box : ∀ (bs : List Box) (n : Nat), (children cfg n bs).map (·.box) = bs
  | [], _ => by simp [children]
  | b :: bs, n => by simp only [children, List.map_cons, children_box bs]
end

end

end Verif.Layout
