import Verif.Pieces
import Verif.ParseBlank

/-!
# Two trees that are laid out alike

Boxes whose words have the same extent and the same written text, and that agree on
command names and keywords up to letter case, are laid out alike.
-/

namespace Verif.Layout
open Verif Py Lex Parse

/-- The canonical spelling the children of a node see, as in `pieces`. -/
def handDown (ty : NT) (a : Attr) : Option Str :=
  match ty with
  | .statement | .atwordStatement | .argGroup | .parenGroup => a.spelling
  | _ => none

/-- Two words that take the same room and are written with the same text. -/
structure WordTwin (cfg : Cfg) (ty : NT) (par : Option Str) (t u : Token) : Prop where
  name : lower u.spelling = lower t.spelling
  flow : ∀ c, flow c (Text.normalizeLineEndings u.spelling) = flow c (Text.normalizeLineEndings t.spelling)
  text : scalarText cfg ty par u = scalarText cfg ty par t

/-- The layout of a file reads the first token only for comments. -/
abbrev Cfg.at (cfg : Cfg) (f : Option Token) : Cfg := { cfg with firstToken := f }

/-- Two comments that are laid out and written alike. -/
structure NoteTwin (cfg : Cfg) (f : Option Token) (b b' : Box) : Prop where
  ty : b.ty = .comment
  ty' : b'.ty = .comment
  attr : b'.attr = b.attr
  kind : (bracketOf b'.pkids).map (fun t => Text.normalizeLineEndings t.spelling) =
    (bracketOf b.pkids).map fun t => Text.normalizeLineEndings t.spelling
  run : ∀ wrap c o, reflowComment cfg wrap b.attr b.pkids c = .ok o → reflowComment (cfg.at f) wrap b.attr b'.pkids c = .ok o

mutual
/-- Two boxes that are laid out and written alike; the second one may have a blank line in an
empty body. -/
def Twin (cfg : Cfg) (f : Option Token) : Option Str → Box → Box → Prop
  | par, .mk ty a pk ks, .mk ty' a' pk' ks' =>
    ty' = ty ∧ (ty ≠ .whitespace → a' = a) ∧ headIsComment pk = false ∧ headIsComment pk' = false ∧
    match ty with
    | .lparen | .rparen | .whitespace => True
    | .comment | .onoff => False
    | .funname | .argument | .keyword | .flag | .atword =>
      ks = [] ∧ ks' = [] ∧ ∃ t u, headTok pk = .ok t ∧ headTok pk' = .ok u ∧ WordTwin cfg ty par t u
    | .body => TwinB cfg f ks ks' ∨ (ks = [] ∧ ∃ a pk ks, ks' = [.mk .whitespace a pk ks])
    | .flowControl => TwinL cfg f none ks ks'
    | .pargGroup | .flagGroup => TwinL cfg f none ks ks'
    | .kwargGroup => lower (firstName ks') = lower (firstName ks) ∧ TwinL cfg f none ks ks'
    | .statement => lower (firstName ks') = lower (firstName ks) ∧ TwinL cfg f a.spelling ks ks'
    | .atwordStatement | .argGroup | .parenGroup => TwinL cfg f a.spelling ks ks'
/-- One by one. -/
def TwinL (cfg : Cfg) (f : Option Token) : Option Str → List Box → List Box → Prop
  | _, [], bs' => bs' = []
  | par, b :: bs, bs' =>
    match bs' with
    | [] => False
    | b' :: bs' => Twin cfg f par b b' ∧ TwinL cfg f par bs bs'
/-- One by one, with comments. -/
def TwinB (cfg : Cfg) (f : Option Token) : List Box → List Box → Prop
  | [], bs' => bs' = []
  | b :: bs, bs' =>
    match bs' with
    | [] => False
    | b' :: bs' => (Twin cfg f none b b' ∨ NoteTwin cfg f b b') ∧ TwinB cfg f bs bs'
end

/-- The same place, the same texts. -/
structure LaidTwin (cfg : Cfg) (par : Option Str) (l l' : Laid) : Prop where
  ty : l'.ty = l.ty
  info : l'.info = l.info
  pieces : pieces cfg par l' = pieces cfg par l

theorem LaidTwin.colext {cfg : Cfg} {par : Option Str} {l l' : Laid} (h : LaidTwin cfg par l l') :
    l'.colext = l.colext := by unfold Laid.colext; rw [h.info]
theorem LaidTwin.valid {cfg : Cfg} {par : Option Str} {l l' : Laid} (h : LaidTwin cfg par l l') :
    l'.valid = l.valid := by unfold Laid.valid; rw [h.info]

/-- Children that can be told apart only by their trees. -/
structure ChildTwin (cfg : Cfg) (par : Option Str) (k k' : Child) : Prop where
  ty : k'.box.ty = k.box.ty
  nocomment : k.box.ty ≠ .comment
  ends : endsLine k.box = false
  ends' : endsLine k'.box = false
  tok : k.box.ty = .funname → ∀ t, headTok k.box.pkids = .ok t → ∃ u, headTok k'.box.pkids = .ok u ∧ lower u.spelling = lower t.spelling
  run : ∀ path term c n l o, k.run path term c n = .ok (l, o) →
    ∃ l', k'.run path term c n = .ok (l', o) ∧ LaidTwin cfg par l l'

/-- One by one. -/
inductive Pairs {α β : Type} (R : α → β → Prop) : List α → List β → Prop
  | nil : Pairs R [] []
  | cons {a b as bs} : R a b → Pairs R as bs → Pairs R (a :: as) (b :: bs)

/-- What one call leaves behind. -/
structure OutTwin (cfg : Cfg) (par : Option Str) (o o' : Out) : Prop where
  cur : o'.cur = o.cur
  colext : o'.colext = o.colext
  valid : o'.valid = o.valid
  wrap : o'.wrap = o.wrap
  kids : Pairs (LaidTwin cfg par) o.kids o'.kids

/-- The previous children. -/
def PrevTwin : Option Box → Option Box → Prop
  | none, none => True
  | some p, some q => q.ty = p.ty ∧ endsLine p = false ∧ endsLine q = false
  | _, _ => False

/-- The states of two loops. -/
structure LoopTwin (s s' : Loop) : Prop where
  prev : PrevTwin s.prev s'.prev
  cur : s'.cur = s.cur
  colRow : s'.colRow = s.colRow
  rows : s'.rows = s.rows
  colext : s'.colext = s.colext
  valid : s'.valid = s.valid

theorem okDo {α β : Type} {a : α} {f : α → Except Err β} : (Except.ok a >>= f) = f a := rfl

section
variable {cfg : Cfg} {f : Option Token} {par : Option Str} {path : List Str} {n : Int} {wrap term : Bool} {col : Nat}

theorem ChildTwin.prev {k k' : Child} (h : ChildTwin cfg par k k') : PrevTwin (some k.box) (some k'.box) :=
  ⟨h.ty, h.ends, h.ends'⟩

theorem pargStep_twin {last : Bool} {k k' : Child} (hk : ChildTwin cfg par k k') {s s' : Loop} (hs : LoopTwin s s')
    {l : Laid} {s1 : Loop} (h : pargStep cfg path n wrap term col last k s = .ok (l, s1)) :
    ∃ l' s1', pargStep (cfg.at f) path n wrap term col last k' s' = .ok (l', s1') ∧ LaidTwin cfg par l l' ∧
      LoopTwin s1 s1' := by
  obtain ⟨prev, cur, colRow, rows, colext, valid⟩ := s
  obtain ⟨prev', cur', colRow', rows', colext', valid'⟩ := s'
  obtain ⟨hp, rfl, rfl, rfl, rfl, rfl⟩ := hs
  dsimp only at hp
  unfold pargStep at h ⊢
  dsimp only at h ⊢
  match prev, prev', hp with
  | none, none, _ =>
    simp only [bind_ok, Except.ok.injEq, Prod.mk.injEq] at h
    obtain ⟨r, hr, rfl, rfl⟩ := h
    obtain ⟨l', h1, h2⟩ := hk.run _ _ _ _ _ _ hr
    simp only [h1, okDo]
    exact ⟨l', _, rfl, h2, ⟨hk.prev, rfl, rfl, rfl, by rw [h2.colext], by rw [h2.valid]⟩⟩
  | some p, some q, ⟨hty, e1, e2⟩ =>
    simp only [e1, Bool.false_or] at h
    simp only [e2, Bool.false_or]
    split at h
    · rename_i hw
      simp only [hw, if_true]
      simp only [bind_ok, Except.ok.injEq, Prod.mk.injEq] at h
      obtain ⟨r, hr, rfl, rfl⟩ := h
      obtain ⟨l', h1, h2⟩ := hk.run _ _ _ _ _ _ hr
      simp only [h1, okDo]
      exact ⟨l', _, rfl, h2, ⟨hk.prev, rfl, rfl, rfl, by rw [h2.colext], by rw [h2.valid]⟩⟩
    · rename_i hw
      simp only [hw, if_false]
      simp only [bind_ok] at h
      obtain ⟨r, hr, h⟩ := h
      obtain ⟨l', h1, h2⟩ := hk.run _ _ _ _ _ _ hr
      have hn : pargNeedsWrap (cfg.at f) term (some q) k'.box (l', r.2)
          = pargNeedsWrap cfg term (some p) k.box r := by
        simp only [pargNeedsWrap, h2.colext, hk.ty, hty]
        have : (k.box.ty == NT.comment) = false := by simpa using hk.nocomment
        simp [this]
      simp only [h1, okDo, hn, Bool.false_eq_true, if_false]
      split at h
      · rename_i hb
        simp only [hb, if_true]
        simp only [bind_ok, Except.ok.injEq, Prod.mk.injEq] at h
        obtain ⟨r, hr, rfl, rfl⟩ := h
        obtain ⟨l', h1, h2⟩ := hk.run _ _ _ _ _ _ hr
        simp only [h1, okDo]
        exact ⟨l', _, rfl, h2, ⟨hk.prev, rfl, rfl, rfl, by rw [h2.colext], by rw [h2.valid]⟩⟩
      · rename_i hb
        simp only [hb, if_false]
        simp only [Except.ok.injEq, Prod.mk.injEq] at h
        obtain ⟨rfl, rfl⟩ := h
        exact ⟨l', _, rfl, h2, ⟨hk.prev, rfl, rfl, rfl, by rw [h2.colext], by rw [h2.valid]⟩⟩

theorem pairs_isEmpty {α β : Type} {R : α → β → Prop} {as : List α} {bs : List β} (h : Pairs R as bs) :
    bs.isEmpty = as.isEmpty := by cases h <;> rfl

theorem pairs_length {α β : Type} {R : α → β → Prop} {as : List α} {bs : List β} (h : Pairs R as bs) :
    bs.length = as.length := by induction h <;> simp_all

theorem pargLoop_twin {ks ks' : List Child} (hk : Pairs (ChildTwin cfg par) ks ks') : ∀ {s s' : Loop},
    LoopTwin s s' → ∀ {ls : List Laid} {s1 : Loop}, pargLoop cfg path n wrap term col ks s = .ok (ls, s1) →
    ∃ ls' s1', pargLoop (cfg.at f) path n wrap term col ks' s' = .ok (ls', s1') ∧
      Pairs (LaidTwin cfg par) ls ls' ∧ LoopTwin s1 s1' := by
  induction hk with
  | nil =>
    intro s s' hs ls s1 h
    simp only [pargLoop, Except.ok.injEq, Prod.mk.injEq] at h ⊢
    obtain ⟨rfl, rfl⟩ := h
    exact ⟨_, _, ⟨rfl, rfl⟩, .nil, hs⟩
  | cons h1 h2 ih =>
    intro s s' hs ls s1 h
    simp only [pargLoop, andThen_ok] at h ⊢
    obtain ⟨l, s2, ls1, s3, e1, e2, e3⟩ := h
    simp only [Prod.mk.injEq] at e3; obtain ⟨rfl, rfl⟩ := e3
    obtain ⟨l', s2', a1, a2, a3⟩ := pargStep_twin (f := f) h1 hs e1
    obtain ⟨ls', s3', b1, b2, b3⟩ := ih a3 e2
    rw [pairs_isEmpty h2]
    exact ⟨_, _, ⟨l', s2', ls', s3', a1, b1, rfl⟩, .cons a2 b2, b3⟩

theorem argStep_twin {last : Bool} {k k' : Child} (hk : ChildTwin cfg par k k') {s s' : Loop} (hs : LoopTwin s s')
    {l : Laid} {s1 : Loop} (h : argStep cfg path n wrap term col last k s = .ok (l, s1)) :
    ∃ l' s1', argStep (cfg.at f) path n wrap term col last k' s' = .ok (l', s1') ∧ LaidTwin cfg par l l' ∧
      LoopTwin s1 s1' := by
  obtain ⟨prev, cur, colRow, rows, colext, valid⟩ := s
  obtain ⟨prev', cur', colRow', rows', colext', valid'⟩ := s'
  obtain ⟨hp, rfl, rfl, rfl, rfl, rfl⟩ := hs
  dsimp only at hp
  unfold argStep at h ⊢
  dsimp only at h ⊢
  match prev, prev', hp with
  | none, none, _ =>
    simp only [bind_ok, Except.ok.injEq, Prod.mk.injEq] at h
    obtain ⟨r, hr, rfl, rfl⟩ := h
    obtain ⟨l', h1, h2⟩ := hk.run _ _ _ _ _ _ hr
    simp only [h1, okDo]
    exact ⟨l', _, rfl, h2, ⟨hk.prev, rfl, rfl, rfl, by rw [h2.colext], by rw [h2.valid]⟩⟩
  | some p, some q, ⟨hty, e1, e2⟩ =>
    simp only [e1, Bool.false_or] at h
    simp only [e2, Bool.false_or]
    split at h
    · rename_i hw
      simp only [hw, if_true]
      simp only [bind_ok, Except.ok.injEq, Prod.mk.injEq] at h
      obtain ⟨r, hr, rfl, rfl⟩ := h
      obtain ⟨l', h1, h2⟩ := hk.run _ _ _ _ _ _ hr
      simp only [h1, okDo]
      exact ⟨l', _, rfl, h2, ⟨hk.prev, rfl, rfl, rfl, by rw [h2.colext], by rw [h2.valid]⟩⟩
    · rename_i hw
      simp only [hw, if_false]
      simp only [bind_ok] at h
      obtain ⟨r, hr, h⟩ := h
      obtain ⟨l', h1, h2⟩ := hk.run _ _ _ _ _ _ hr
      simp only [h1, okDo, h2.colext, Bool.false_eq_true, if_false]
      split at h
      · rename_i hb
        simp only [hb, if_true]
        simp only [bind_ok, Except.ok.injEq, Prod.mk.injEq] at h
        obtain ⟨r, hr, rfl, rfl⟩ := h
        obtain ⟨l', h1, h2⟩ := hk.run _ _ _ _ _ _ hr
        simp only [h1, okDo]
        exact ⟨l', _, rfl, h2, ⟨hk.prev, rfl, rfl, rfl, by rw [h2.colext], by rw [h2.valid]⟩⟩
      · rename_i hb
        simp only [hb, if_false]
        simp only [Except.ok.injEq, Prod.mk.injEq] at h
        obtain ⟨rfl, rfl⟩ := h
        exact ⟨l', _, rfl, h2, ⟨hk.prev, rfl, rfl, rfl, rfl, by rw [h2.valid]⟩⟩

theorem argLoop_twin {ks ks' : List Child} (hk : Pairs (ChildTwin cfg par) ks ks') : ∀ {s s' : Loop},
    LoopTwin s s' → ∀ {ls : List Laid} {s1 : Loop}, argLoop cfg path n wrap term col ks s = .ok (ls, s1) →
    ∃ ls' s1', argLoop (cfg.at f) path n wrap term col ks' s' = .ok (ls', s1') ∧
      Pairs (LaidTwin cfg par) ls ls' ∧ LoopTwin s1 s1' := by
  induction hk with
  | nil =>
    intro s s' hs ls s1 h
    simp only [argLoop, Except.ok.injEq, Prod.mk.injEq] at h ⊢
    obtain ⟨rfl, rfl⟩ := h
    exact ⟨_, _, ⟨rfl, rfl⟩, .nil, hs⟩
  | cons h1 h2 ih =>
    intro s s' hs ls s1 h
    simp only [argLoop, andThen_ok] at h ⊢
    obtain ⟨l, s2, ls1, s3, e1, e2, e3⟩ := h
    simp only [Prod.mk.injEq] at e3; obtain ⟨rfl, rfl⟩ := e3
    obtain ⟨l', s2', a1, a2, a3⟩ := argStep_twin (f := f) h1 hs e1
    obtain ⟨ls', s3', b1, b2, b3⟩ := ih a3 e2
    rw [pairs_isEmpty h2]
    exact ⟨_, _, ⟨l', s2', ls', s3', a1, b1, rfl⟩, .cons a2 b2, b3⟩

theorem parenPlace_twin {b b' : Box} (hb : b'.ty = b.ty) {s s' : Loop} (hs : LoopTwin s s') :
    parenPlace wrap col b' s' = parenPlace wrap col b s := by
  obtain ⟨prev, cur, colRow, rows, colext, valid⟩ := s
  obtain ⟨prev', cur', colRow', rows', colext', valid'⟩ := s'
  obtain ⟨hp, rfl, rfl, rfl, rfl, rfl⟩ := hs
  dsimp only at hp
  match prev, prev', hp with
  | none, none, _ => rfl
  | some p, some q, ⟨hty, e1, e2⟩ => simp only [parenPlace, hty, e1, e2, hb]

theorem parenStep_twin {last : Bool} {k k' : Child} (hk : ChildTwin cfg par k k') {s s' : Loop} (hs : LoopTwin s s')
    {l : Laid} {s1 : Loop} (h : parenStep cfg path n wrap term col last k s = .ok (l, s1)) :
    ∃ l' s1', parenStep (cfg.at f) path n wrap term col last k' s' = .ok (l', s1') ∧ LaidTwin cfg par l l' ∧
      LoopTwin s1 s1' := by
  have hpp := parenPlace_twin (wrap := wrap) (col := col) hk.ty hs
  unfold parenStep at h ⊢
  rw [hpp]
  dsimp only at h ⊢
  simp only [bind_ok] at h
  obtain ⟨r, hr, h⟩ := h
  obtain ⟨l', h1, h2⟩ := hk.run _ _ _ _ _ _ hr
  simp only [h1, okDo, h2.colext, h2.valid]
  split at h
  · rename_i hb
    simp only [hb, if_true]
    simp only [bind_ok, Except.ok.injEq, Prod.mk.injEq] at h
    obtain ⟨r, hr, rfl, rfl⟩ := h
    obtain ⟨l', h1, h2⟩ := hk.run _ _ _ _ _ _ hr
    simp only [hs.colRow, h1, okDo]
    exact ⟨l', _, rfl, h2, ⟨hk.prev, rfl, rfl, rfl, by rw [h2.colext, hs.colext], by rw [h2.valid, hs.valid]⟩⟩
  · rename_i hb
    simp only [hb, if_false]
    simp only [Except.ok.injEq, Prod.mk.injEq] at h
    obtain ⟨rfl, rfl⟩ := h
    exact ⟨l', _, rfl, h2, ⟨hk.prev, rfl, rfl, rfl, by rw [hs.colext], by rw [hs.valid]⟩⟩

theorem parenLoop_twin {ks ks' : List Child} (hk : Pairs (ChildTwin cfg par) ks ks') : ∀ {s s' : Loop},
    LoopTwin s s' → ∀ {ls : List Laid} {s1 : Loop}, parenLoop cfg path n wrap term col ks s = .ok (ls, s1) →
    ∃ ls' s1', parenLoop (cfg.at f) path n wrap term col ks' s' = .ok (ls', s1') ∧
      Pairs (LaidTwin cfg par) ls ls' ∧ LoopTwin s1 s1' := by
  induction hk with
  | nil =>
    intro s s' hs ls s1 h
    simp only [parenLoop, Except.ok.injEq, Prod.mk.injEq] at h ⊢
    obtain ⟨rfl, rfl⟩ := h
    exact ⟨_, _, ⟨rfl, rfl⟩, .nil, hs⟩
  | cons h1 h2 ih =>
    intro s s' hs ls s1 h
    simp only [parenLoop, andThen_ok] at h ⊢
    obtain ⟨l, s2, ls1, s3, e1, e2, e3⟩ := h
    simp only [Prod.mk.injEq] at e3; obtain ⟨rfl, rfl⟩ := e3
    obtain ⟨l', s2', a1, a2, a3⟩ := parenStep_twin (f := f) h1 hs e1
    obtain ⟨ls', s3', b1, b2, b3⟩ := ih a3 e2
    rw [pairs_isEmpty h2]
    exact ⟨_, _, ⟨l', s2', ls', s3', a1, b1, rfl⟩, .cons a2 b2, b3⟩

/-- Children of a body that are laid out and written alike. -/
def RunTwin (cfg : Cfg) (par : Option Str) (k k' : Child) : Prop :=
  ∀ path term c n l o, k.run path term c n = .ok (l, o) →
    ∃ l', k'.run path term c n = .ok (l', o) ∧ LaidTwin cfg par l l'

theorem bodyLoop_twin {ks ks' : List Child} (hk : Pairs (RunTwin cfg par) ks ks') : ∀ {s s' : Loop},
    (s'.cur = s.cur ∧ s'.colRow = s.colRow ∧ s'.colext = s.colext ∧ s'.valid = s.valid) →
    ∀ {ls : List Laid} {s1 : Loop}, bodyLoop path n col ks s = .ok (ls, s1) →
    ∃ ls' s1', bodyLoop path n col ks' s' = .ok (ls', s1') ∧
      Pairs (LaidTwin cfg par) ls ls' ∧ (s1'.cur = s1.cur ∧ s1'.colext = s1.colext ∧ s1'.valid = s1.valid) := by
  induction hk with
  | nil =>
    intro s s' hs ls s1 h
    simp only [bodyLoop, Except.ok.injEq, Prod.mk.injEq] at h ⊢
    obtain ⟨rfl, rfl⟩ := h
    exact ⟨_, _, ⟨rfl, rfl⟩, .nil, hs.1, hs.2.2.1, hs.2.2.2⟩
  | @cons k k' _ _ h1 h2 ih =>
    intro s s' hs ls s1 h
    simp only [bodyLoop, bind_ok, Except.ok.injEq, Prod.mk.injEq] at h
    obtain ⟨r, hr, rest, hrest, rfl, rfl⟩ := h
    obtain ⟨l', a1, a2⟩ := h1 _ _ _ _ _ _ hr
    obtain ⟨ls', s3', b1, b2, b3⟩ := ih
      (s := ⟨some k.box, r.2, r.2.row + 1, 0, max s.colext r.1.colext, s.valid && r.1.valid⟩)
      (s' := ⟨some k'.box, r.2, r.2.row + 1, 0, max s'.colext l'.colext, s'.valid && l'.valid⟩)
      ⟨rfl, rfl, by dsimp only; rw [a2.colext, hs.2.2.1], by dsimp only; rw [a2.valid, hs.2.2.2]⟩ hrest
    refine ⟨l' :: ls', s3', ?_, .cons a2 b2, b3⟩
    simp only [bodyLoop, hs.2.1, a1, okDo, b1]

theorem flowLoop_twin {ks ks' : List Child} (hk : Pairs (ChildTwin cfg par) ks ks') : ∀ {stmt : Bool} {s s' : Loop},
    LoopTwin s s' → ∀ {ls : List Laid} {s1 : Loop}, flowLoop cfg path n col stmt ks s = .ok (ls, s1) →
    ∃ ls' s1', flowLoop (cfg.at f) path n col stmt ks' s' = .ok (ls', s1') ∧
      Pairs (LaidTwin cfg par) ls ls' ∧ LoopTwin s1 s1' := by
  induction hk with
  | nil =>
    intro stmt s s' hs ls s1 h
    simp only [flowLoop] at h ⊢
    rw [hs.rows]
    split at h
    · simp at h
    · rename_i hc
      simp only [hc, if_false]
      simp only [Except.ok.injEq, Prod.mk.injEq] at h
      obtain ⟨rfl, rfl⟩ := h
      exact ⟨_, _, rfl, .nil, hs⟩
  | cons h1 h2 ih =>
    intro stmt s s' hs ls s1 h
    simp only [flowLoop, bind_ok, check_ok, Except.ok.injEq, Prod.mk.injEq] at h
    obtain ⟨_, hty, r, hr, rest, hrest, rfl, rfl⟩ := h
    obtain ⟨l', a1, a2⟩ := h1.run _ _ _ _ _ _ hr
    have hs1 : LoopTwin ⟨some _, r.2, r.2.row + 1, s.rows + 1, max s.colext r.1.colext, s.valid && r.1.valid⟩
        ⟨some _, r.2, r.2.row + 1, s'.rows + 1, max s'.colext l'.colext, s'.valid && l'.valid⟩ :=
      ⟨h1.prev, rfl, rfl, by rw [hs.rows], by rw [a2.colext, hs.colext], by rw [a2.valid, hs.valid]⟩
    obtain ⟨ls', s3', b1, b2, b3⟩ := ih hs1 hrest
    refine ⟨l' :: ls', s3', ?_, .cons a2 b2, b3⟩
    simp only [flowLoop, bind_ok, check_ok, Except.ok.injEq, Prod.mk.injEq, h1.ty, hs.colRow]
    exact ⟨(), hty, _, a1, _, b1, rfl, rfl⟩

/-! ## `_reflow` of the node types -/

theorem countArguments_twin {ks ks' : List Child} (hk : Pairs (ChildTwin cfg par) ks ks') :
    countArguments ks' = countArguments ks := by
  unfold countArguments
  induction hk with
  | nil => rfl
  | cons h1 _ ih => simp only [List.filter_cons, h1.ty]; split <;> simp_all

theorem countSubgroups_twin {ks ks' : List Child} (hk : Pairs (ChildTwin cfg par) ks ks') :
    countSubgroups ks' = countSubgroups ks := by
  induction hk with
  | nil => rfl
  | cons h1 _ ih => simp only [countSubgroups, h1.ty, ih]

theorem loopTwin_start {c : Cur} {x : Nat} :
    LoopTwin { prev := none, cur := c, colRow := c.row, rows := 0, colext := x, valid := true }
      { prev := none, cur := c, colRow := c.row, rows := 0, colext := x, valid := true } :=
  ⟨trivial, rfl, rfl, rfl, rfl, rfl⟩

theorem reflowParg_twin {a : Attr} {ks ks' : List Child} (hk : Pairs (ChildTwin cfg par) ks ks') {c : Cur} {o : Out}
    (h : reflowParg cfg path n wrap term a ks c = .ok o) :
    ∃ o', reflowParg (cfg.at f) path n wrap term a ks' c = .ok o' ∧ OutTwin cfg par o o' := by
  unfold reflowParg at h ⊢
  dsimp only at h ⊢
  simp only [bind_ok, Except.ok.injEq] at h
  obtain ⟨r, hr, rfl⟩ := h
  obtain ⟨ls', s', h1, h2, h3⟩ := pargLoop_twin (f := f) hk loopTwin_start hr
  rw [h1, okDo, countArguments_twin hk]
  exact ⟨_, rfl, ⟨h3.cur, h3.colext, by simp only [h3.valid, h3.rows], rfl, h2⟩⟩

theorem reflowArg_twin {a : Attr} {ks ks' : List Child} (hk : Pairs (ChildTwin cfg par) ks ks') {c : Cur} {o : Out}
    (h : reflowArg cfg path n wrap term a ks c = .ok o) :
    ∃ o', reflowArg (cfg.at f) path n wrap term a ks' c = .ok o' ∧ OutTwin cfg par o o' := by
  unfold reflowArg at h ⊢
  dsimp only at h ⊢
  simp only [bind_ok, Except.ok.injEq] at h
  obtain ⟨m, hm, r, hr, rfl⟩ := h
  obtain ⟨ls', s', h1, h2, h3⟩ := argLoop_twin (f := f) hk loopTwin_start hr
  rw [countSubgroups_twin hk, hm, okDo, h1, okDo]
  exact ⟨_, rfl, ⟨h3.cur, h3.colext, by simp only [h3.valid], rfl, h2⟩⟩

theorem reflowParenGroup_twin {ks ks' : List Child} (hk : Pairs (ChildTwin cfg par) ks ks') {c : Cur} {o : Out}
    (h : reflowParenGroup cfg path n wrap term ks c = .ok o) :
    ∃ o', reflowParenGroup (cfg.at f) path n wrap term ks' c = .ok o' ∧ OutTwin cfg par o o' := by
  unfold reflowParenGroup at h ⊢
  simp only [bind_ok, check_ok, Except.ok.injEq] at h
  obtain ⟨_, hl, r, hr, rfl⟩ := h
  obtain ⟨ls', s', h1, h2, h3⟩ := parenLoop_twin (f := f) hk loopTwin_start hr
  rw [pairs_length hk]
  simp only [check, hl, if_true, okDo, h1]
  exact ⟨_, rfl, ⟨h3.cur, h3.colext, h3.valid, rfl, h2⟩⟩

theorem reflowBody_twin {ks ks' : List Child} (hk : Pairs (RunTwin cfg par) ks ks') {c : Cur} {o : Out}
    (h : reflowBody path n wrap ks c = .ok o) :
    ∃ o', reflowBody path n wrap ks' c = .ok o' ∧ OutTwin cfg par o o' := by
  unfold reflowBody at h ⊢
  simp only [bind_ok, Except.ok.injEq] at h
  obtain ⟨r, hr, rfl⟩ := h
  obtain ⟨ls', s', h1, h2, h3⟩ := bodyLoop_twin
    (s' := { prev := none, cur := c, colRow := c.row, rows := 0, colext := 0, valid := true }) hk ⟨rfl, rfl, rfl, rfl⟩ hr
  simp only [okDo, h1]
  exact ⟨_, rfl, ⟨h3.1, h3.2.1, h3.2.2, rfl, h2⟩⟩

theorem reflowFlow_twin {ks ks' : List Child} (hk : Pairs (ChildTwin cfg par) ks ks') {c : Cur} {o : Out}
    (h : reflowFlow cfg path n wrap ks c = .ok o) :
    ∃ o', reflowFlow (cfg.at f) path n wrap ks' c = .ok o' ∧ OutTwin cfg par o o' := by
  unfold reflowFlow at h ⊢
  simp only [bind_ok, Except.ok.injEq] at h
  obtain ⟨r, hr, rfl⟩ := h
  obtain ⟨ls', s', h1, h2, h3⟩ := flowLoop_twin (f := f) hk loopTwin_start hr
  simp only [okDo, h1]
  exact ⟨_, rfl, ⟨h3.cur, h3.colext, h3.valid, rfl, h2⟩⟩

theorem reflowAtWord_twin {ks ks' : List Child} (hk : Pairs (ChildTwin cfg par) ks ks') {c : Cur} {o : Out}
    (h : reflowAtWord cfg path n wrap ks c = .ok o) :
    ∃ o', reflowAtWord (cfg.at f) path n wrap ks' c = .ok o' ∧ OutTwin cfg par o o' := by
  unfold reflowAtWord at h ⊢
  cases hk with
  | nil => simp at h
  | cons h1 h2 =>
    dsimp only at h ⊢
    simp only [bind_ok, check_ok] at h
    obtain ⟨_, hty, r0, hr0, h⟩ := h
    obtain ⟨l0, a1, a2⟩ := h1.run _ _ _ _ _ _ hr0
    rw [h1.ty]
    simp only [check, hty, if_true, okDo, a1]
    cases h2 with
    | nil =>
      simp only [Except.ok.injEq] at h ⊢
      subst h
      exact ⟨_, rfl, ⟨rfl, by simp only [a2.colext], a2.valid, rfl, .cons a2 .nil⟩⟩
    | cons h3 h4 =>
      cases h4 with
      | nil =>
        simp only [bind_ok, check_ok, beq_iff_eq] at h
        obtain ⟨_, h, _⟩ := h
        exact absurd h h3.nocomment
      | cons _ _ => simp at h

theorem reflowKwarg_twin {bs bs' : List Box} (hb : (firstName bs').length = (firstName bs).length)
    {ks ks' : List Child} (hk : Pairs (ChildTwin cfg par) ks ks') {c : Cur} {o : Out}
    (h : reflowKwarg cfg path n wrap term bs ks c = .ok o) :
    ∃ o', reflowKwarg (cfg.at f) path n wrap term bs' ks' c = .ok o' ∧ OutTwin cfg par o o' := by
  unfold reflowKwarg at h ⊢
  cases hk with
  | nil => simp at h
  | cons h1 h2 =>
    dsimp only at h ⊢
    simp only [bind_ok, check_ok] at h
    obtain ⟨_, hlen, _, hty, r0, hr0, h⟩ := h
    obtain ⟨l0, a1, a2⟩ := h1.run _ _ _ _ _ _ hr0
    rw [h1.ty, hb, pairs_length h2]
    simp only [check, hlen, hty, if_true, okDo, a1]
    cases h2 with
    | nil =>
      simp only [Except.ok.injEq] at h ⊢
      subst h
      exact ⟨_, rfl, ⟨rfl, by simp only [a2.colext], a2.valid, rfl, .cons a2 .nil⟩⟩
    | cons h3 h4 =>
      simp only [bind_ok, Except.ok.injEq] at h
      obtain ⟨r1, hr1, rfl⟩ := h
      obtain ⟨l1, b1, b2⟩ := h3.run _ _ _ _ _ _ hr1
      simp only [b1, okDo]
      exact ⟨_, rfl, ⟨rfl, by simp only [a2.colext, b2.colext], by simp only [a2.valid, b2.valid], rfl,
        .cons a2 (.cons b2 .nil)⟩⟩

theorem endsLine_args {b : Box} (h : endsLine b = false) : hasTerminal b = false := by
  simp only [endsLine, Bool.or_eq_false_iff] at h; exact h.2

theorem reflowClose_twin {start c3 : Cur} {argCol : Nat} {args args' : Box} (ha : endsLine args = false)
    (ha' : endsLine args' = false) {ks ks' : List Child} (hk : Pairs (ChildTwin cfg par) ks ks') {t : Tail}
    (h : reflowClose cfg path n wrap start argCol args c3 ks = .ok t) :
    ∃ t', reflowClose (cfg.at f) path n wrap start argCol args' c3 ks' = .ok t' ∧ t'.cur = t.cur ∧
      t'.colext = t.colext ∧ t'.valid = t.valid ∧ Pairs (LaidTwin cfg par) t.kids t'.kids := by
  unfold reflowClose at h ⊢
  rw [endsLine_args ha] at h
  rw [endsLine_args ha']
  cases hk with
  | nil => simp at h
  | cons h1 h2 =>
    dsimp only at h ⊢
    simp only [bind_ok, check_ok] at h
    obtain ⟨_, hty, dcol, hdc, rp0, hrp, h⟩ := h
    obtain ⟨l0, a1, a2⟩ := h1.run _ _ _ _ _ _ hrp
    have hdc' : dangleCol (cfg.at f) start.col argCol = .ok dcol := hdc
    rw [h1.ty]
    simp only [check, hty, if_true, okDo, hdc', a1]
    cases h2 with
    | nil =>
      simp only [Except.ok.injEq] at h ⊢
      subst h
      exact ⟨_, rfl, rfl, a2.colext, by simp only [a2.valid], .cons a2 .nil⟩
    | cons h3 h4 =>
      cases h4 with
      | nil =>
        simp only [bind_ok] at h
        obtain ⟨t, ht, _⟩ := h
        simp only [reflowTail, bind_ok, check_ok, beq_iff_eq] at ht
        obtain ⟨_, ht, _⟩ := ht
        exact absurd ht h3.nocomment
      | cons _ _ => simp at h

theorem reflowStatement_twin {bs bs' : List Box} (hb : lower (firstName bs') = lower (firstName bs))
    {ks ks' : List Child} (hk : Pairs (ChildTwin cfg par) ks ks') {c : Cur} {o : Out}
    (h : reflowStatement cfg path n wrap bs ks c = .ok o) :
    ∃ o', reflowStatement (cfg.at f) path n wrap bs' ks' c = .ok o' ∧ OutTwin cfg par o o' := by
  have hw : prefixWidth (cfg.at f) bs' = prefixWidth cfg bs := by
    simp only [prefixWidth, hb]; rfl
  unfold reflowStatement at h ⊢
  rw [hw]
  cases hk with
  | nil => simp at h
  | cons h1 h2 =>
    dsimp only at h ⊢
    simp only [bind_ok, check_ok] at h
    obtain ⟨_, hty, r0, hr0, t, ht, h⟩ := h
    obtain ⟨l0, a1, a2⟩ := h1.run _ _ _ _ _ _ hr0
    obtain ⟨u, hu, hlu⟩ := h1.tok (by simpa using hty) t ht
    have hn : needParenSpace (cfg.at f) (lower u.spelling) = needParenSpace cfg (lower t.spelling) := by
      rw [hlu]; rfl
    rw [h1.ty]
    simp only [check, hty, if_true, okDo, a1, hu, hn]
    cases h2 with
    | nil => simp at h
    | cons h3 h4 =>
      simp only [bind_ok, check_ok] at h
      obtain ⟨_, hty1, r1, hr1, h⟩ := h
      obtain ⟨l1, b1, b2⟩ := h3.run _ _ _ _ _ _ hr1
      simp only [h3.ty, hty1, if_true, okDo, b1]
      cases h4 with
      | nil => simp at h
      | cons h5 h6 =>
        simp only [bind_ok, check_ok, Except.ok.injEq] at h
        obtain ⟨_, hty2, r2, hr2, tl, htl, rfl⟩ := h
        obtain ⟨l2, d1, d2⟩ := h5.run _ _ _ _ _ _ hr2
        obtain ⟨tl', e1, e2, e3, e4, e5⟩ := reflowClose_twin (f := f) h5.ends h5.ends' h6 htl
        simp only [h5.ty, hty2, if_true, okDo, d1, e1]
        exact ⟨_, rfl, ⟨e2, by simp only [a2.colext, b2.colext, d2.colext, e3],
          by simp only [a2.valid, b2.valid, d2.valid, e4], rfl, .cons a2 (.cons b2 (.cons d2 e5))⟩⟩

end

/-! ## `reflow` -/

/-- What one call leaves behind, as far as it can be seen. -/
structure OutSame (cfg : Cfg) (par : Option Str) (word : Bool) (o o' : Out) : Prop where
  cur : o'.cur = o.cur
  colext : o'.colext = o.colext
  valid : o'.valid = o.valid
  wrap : o'.wrap = o.wrap
  texts : piecesL cfg par o'.kids = piecesL cfg par o.kids
  word : word = true → o.kids = [] ∧ o'.kids = []

theorem piecesL_pairs {cfg : Cfg} {par : Option Str} {ls ls' : List Laid} (h : Pairs (LaidTwin cfg par) ls ls') :
    piecesL cfg par ls' = piecesL cfg par ls := by
  induction h with
  | nil => rfl
  | cons h1 _ ih => simp only [piecesL, h1.pieces, ih]

theorem OutTwin.same {cfg : Cfg} {par : Option Str} {o o' : Out} (h : OutTwin cfg par o o') :
    OutSame cfg par false o o' := ⟨h.cur, h.colext, h.valid, h.wrap, piecesL_pairs h.kids, by simp⟩

/-- The result so far. -/
def BestSame (cfg : Cfg) (par : Option Str) (word : Bool) : Option (Int × Out) → Option (Int × Out) → Prop
  | none, none => True
  | some r, some r' => r'.1 = r.1 ∧ OutSame cfg par word r.2 r'.2
  | _, _ => False

theorem runPasses_twin {cfg : Cfg} {par : Option Str} {word : Bool} {parent : Int}
    {att att' : Int × Bool → Except Err Out} {val val' : Out → Bool}
    (hv : ∀ o o', OutSame cfg par word o o' → val' o' = val o) {ps : List (Int × Bool)}
    (ha : ∀ p ∈ ps, ∀ o, att p = .ok o → ∃ o', att' p = .ok o' ∧ OutSame cfg par word o o') :
    ∀ {best best' : Option (Int × Out)}, BestSame cfg par word best best' → ∀ {n : Int} {o : Out},
    runPasses parent att val best ps = .ok (n, o) →
    ∃ o', runPasses parent att' val' best' ps = .ok (n, o') ∧ OutSame cfg par word o o' := by
  have base : ∀ {best best' : Option (Int × Out)}, BestSame cfg par word best best' → ∀ {n : Int} {o : Out},
      (match best with
        | some r => Except.ok r
        | none => Except.error Wrap.Err.assertion) = .ok (n, o) →
      ∃ o', (match best' with
        | some r => Except.ok r
        | none => Except.error Wrap.Err.assertion) = .ok (n, o') ∧ OutSame cfg par word o o' := by
    intro best best' hb n o h
    match best, best', hb with
    | some r, some r', ⟨h1, h2⟩ =>
      simp only [Except.ok.injEq] at h
      subst h
      obtain ⟨m, o'⟩ := r'
      dsimp only at h1
      subst h1
      exact ⟨o', rfl, h2⟩
  induction ps with
  | nil =>
    intro best best' hb n o h
    simp only [runPasses] at h ⊢
    exact base hb h
  | cons p ps ih =>
    intro best best' hb n o h
    simp only [runPasses] at h ⊢
    split at h
    · rename_i hp
      rw [if_pos hp]
      exact base hb h
    · rename_i hp
      rw [if_neg hp]
      cases hat : att p with
      | error e => simp [hat] at h
      | ok o1 =>
        obtain ⟨o1', e1, e2⟩ := ha p (by simp) o1 hat
        simp only [hat] at h
        have hval : (o1'.valid && val' o1') = (o1.valid && val o1) := by rw [hv _ _ e2, e2.valid]
        simp only [e1, hval]
        have hsame : OutSame cfg par word { o1 with valid := o1.valid && val o1 }
            { o1' with valid := o1.valid && val o1 } :=
          ⟨e2.cur, e2.colext, rfl, e2.wrap, e2.texts, e2.word⟩
        split at h
        · rename_i hok
          rw [if_pos hok]
          simp only [Except.ok.injEq, Prod.mk.injEq] at h
          obtain ⟨rfl, rfl⟩ := h
          exact ⟨_, rfl, hsame⟩
        · rename_i hok
          rw [if_neg hok]
          have hb' : BestSame cfg par word (some (p.1, { o1 with valid := o1.valid && val o1 }))
              (some (p.1, { o1' with valid := o1.valid && val o1 })) := And.intro rfl hsame
          exact ih (fun p hp => ha p (by simp [hp])) hb' h

/-- A blank line changes nothing but the row: it is within the width, has no rows of its own,
and no option names it. -/
structure Harmless (cfg : Cfg) : Prop where
  width : 0 ≤ cfg.linewidth
  lines : 0 ≤ cfg.maxLinesHwrap
  blank : cfg.layoutPasses (S "WhitespaceNode") = none
  body : cfg.layoutPasses (S "BodyNode") = none
  wrap : ∀ path, cfg.alwaysWrap.contains (join ['/'] (path ++ [S "WhitespaceNode"])) = false

theorem blank_run {cfg : Cfg} (hc : Harmless cfg) {a : Attr} {pk : List Node} {ks : List Box} {idx : Nat}
    {path : List Str} {term : Bool} {c : Cur} :
    reflow cfg (.mk .whitespace a pk ks) idx path term c 0 =
      .ok (.mk .whitespace a pk { pos := c, passno := 0, wrap := false, valid := true, colext := 0 } [] [], c) := by
  have h1 : passesOf cfg .whitespace = [(0, false)] := by
    have : className .whitespace = S "WhitespaceNode" := rfl
    simp only [passesOf, this, hc.blank, defaultPasses]
  have h2 : ∀ o : Out, o.colext = 0 → o.wrap = false → o.cur = c →
      validate cfg (.mk .whitespace a pk ks) (path ++ [S "WhitespaceNode"]) c o = true := by
    intro o e1 e2 e3
    unfold validate
    have hw := hc.width
    have hl := hc.lines
    simp only [e1, e2, e3, Nat.sub_self, Box.ty, Bool.false_eq_true, if_false, hc.wrap]
    rw [if_neg (by omega), if_neg (by simp; omega)]
    rfl
  simp only [reflow, reflowNode]
  have hp : (pathName idx (.mk .whitespace a pk ks)).toList = [S "WhitespaceNode"] := rfl
  rw [hp]
  simp only [Box.ty, h1, limitOf, runPasses, attempt, reflowWhitespace]
  rw [if_neg (by omega)]
  have h3 := h2 { kids := [], cur := c, colext := 0, valid := true, wrap := false } rfl rfl rfl
  simp only [h3, Bool.and_self, if_true]
  rfl

theorem twin_ty {cfg : Cfg} {f : Option Token} {par : Option Str} {b b' : Box} (h : Twin cfg f par b b') : b'.ty = b.ty := by
  cases b; cases b'; simp only [Twin] at h; exact h.1

theorem twin_head {cfg : Cfg} {f : Option Token} {par : Option Str} {b b' : Box} (h : Twin cfg f par b b') :
    headIsComment b.pkids = false ∧ headIsComment b'.pkids = false := by
  cases b; cases b'; simp only [Twin] at h; exact ⟨h.2.2.1, h.2.2.2.1⟩

theorem twin_comment {cfg : Cfg} {f : Option Token} {par : Option Str} {b b' : Box} (h : Twin cfg f par b b') : b.ty ≠ .comment := by
  rcases b with ⟨ty, a, pk, ks⟩
  rcases b' with ⟨ty', a', pk', ks'⟩
  rintro rfl
  simp only [Twin] at h
  exact h.2.2.2.2

theorem twinL_pairs {cfg : Cfg} {f : Option Token} {par : Option Str} : ∀ {bs bs' : List Box}, TwinL cfg f par bs bs' →
    Pairs (Twin cfg f par) bs bs'
  | [], bs', h => by simp only [TwinL] at h; subst h; exact .nil
  | b :: bs, [], h => by simp [TwinL] at h
  | b :: bs, b' :: bs', h => by
    simp only [TwinL] at h
    exact .cons h.1 (twinL_pairs h.2)

theorem afterRparen_mem {b : Box} : ∀ {bs : List Box}, b ∈ afterRparen bs → b ∈ bs
  | [], h => by simp [afterRparen] at h
  | x :: bs, h => by
    simp only [afterRparen] at h
    split at h
    · simp [h]
    · simp [afterRparen_mem h]

theorem pairs_mem {α β : Type} {R : α → β → Prop} {as : List α} {bs : List β} (h : Pairs R as bs) :
    (∀ a ∈ as, ∃ b, R a b) ∧ ∀ b ∈ bs, ∃ a, R a b := by
  induction h with
  | nil => simp
  | @cons a b as bs h1 _ ih =>
    constructor
    · intro x hx
      rcases List.mem_cons.1 hx with rfl | hx
      · exact ⟨b, h1⟩
      · exact ih.1 x hx
    · intro x hx
      rcases List.mem_cons.1 hx with rfl | hx
      · exact ⟨a, h1⟩
      · exact ih.2 x hx

theorem lastHead_false {ks : List Box} (h : ∀ k ∈ ks, headIsComment k.pkids = false) :
    (match (afterRparen ks).getLast? with
      | some k => headIsComment k.pkids
      | none => false) = false := by
  cases hl : (afterRparen ks).getLast? with
  | none => rfl
  | some k => exact h k (afterRparen_mem (List.mem_of_getLast? hl))

mutual
theorem twin_terminal {cfg : Cfg} {f : Option Token} : ∀ (b b' : Box) (par : Option Str), Twin cfg f par b b' →
    hasTerminal b = false ∧ hasTerminal b' = false
  | .mk ty a pk ks, .mk ty' a' pk' ks', par, h => by
    simp only [Twin] at h
    obtain ⟨rfl, _, _, _, h⟩ := h
    have heads : ∀ {p}, TwinL cfg f p ks ks' → (∀ k ∈ ks, headIsComment k.pkids = false) ∧
        ∀ k ∈ ks', headIsComment k.pkids = false := by
      intro p h
      have := pairs_mem (twinL_pairs h)
      constructor
      · intro k hk
        obtain ⟨b, hb⟩ := this.1 k hk
        exact (twin_head hb).1
      · intro k hk
        obtain ⟨b, hb⟩ := this.2 k hk
        exact (twin_head hb).2
    cases ty' <;> simp only [hasTerminal, and_self] <;> simp only at h
    case funname => obtain ⟨rfl, rfl, _⟩ := h; exact ⟨rfl, rfl⟩
    case argument => obtain ⟨rfl, rfl, _⟩ := h; exact ⟨rfl, rfl⟩
    case keyword => obtain ⟨rfl, rfl, _⟩ := h; exact ⟨rfl, rfl⟩
    case flag => obtain ⟨rfl, rfl, _⟩ := h; exact ⟨rfl, rfl⟩
    case atword => obtain ⟨rfl, rfl, _⟩ := h; exact ⟨rfl, rfl⟩
    case parenGroup => exact ⟨lastHead_false (heads h).1, lastHead_false (heads h).2⟩
    case kwargGroup => exact twinL_terminal ks ks' _ h.2
    all_goals exact twinL_terminal ks ks' _ h
theorem twinL_terminal {cfg : Cfg} {f : Option Token} : ∀ (bs bs' : List Box) (par : Option Str), TwinL cfg f par bs bs' →
    lastTerminal bs = false ∧ lastTerminal bs' = false
  | [], bs', par, h => by simp only [TwinL] at h; subst h; exact ⟨rfl, rfl⟩
  | b :: bs, [], par, h => by simp [TwinL] at h
  | b :: bs, b' :: bs', par, h => by
    simp only [TwinL] at h
    have h1 := twin_terminal b b' par h.1
    have h2 := twinL_terminal bs bs' par h.2
    have hc := twin_comment h.1
    have hc' : b'.ty ≠ .comment := by rw [twin_ty h.1]; exact hc
    match bs, bs', h.2, h2 with
    | [], [], _, _ => simp [lastTerminal, h1.1, h1.2, hc, hc']
    | [], _ :: _, h, _ => simp [TwinL] at h
    | _ :: _, [], h, _ => simp [TwinL] at h
    | x :: xs, y :: ys, _, h2 => simpa only [lastTerminal] using h2
end

theorem twin_ends {cfg : Cfg} {f : Option Token} {b b' : Box} {par : Option Str} (h : Twin cfg f par b b') :
    endsLine b = false ∧ endsLine b' = false := by
  have hc := twin_comment h
  have hc' : b'.ty ≠ .comment := by rw [twin_ty h]; exact hc
  have := twin_terminal b b' par h
  simp [endsLine, isLineComment, hc, hc', this.1, this.2]

theorem twin_tok {cfg : Cfg} {f : Option Token} {b b' : Box} {par : Option Str} (h : Twin cfg f par b b') (hf : b.ty = .funname)
    (t : Token) (ht : headTok b.pkids = .ok t) :
    ∃ u, headTok b'.pkids = .ok u ∧ lower u.spelling = lower t.spelling := by
  rcases b with ⟨ty, a, pk, ks⟩
  rcases b' with ⟨ty', a', pk', ks'⟩
  simp only [Box.ty] at hf
  subst hf
  simp only [Twin] at h
  obtain ⟨_, _, _, _, _, _, t', u, h1, h2, h3⟩ := h
  simp only [Box.pkids] at ht ⊢
  rw [h1] at ht
  simp only [Except.ok.injEq] at ht
  subst ht
  exact ⟨u, h2, h3.name⟩

theorem lower_length {a b : Str} (h : lower a = lower b) : a.length = b.length := by
  have := congrArg List.length h
  simpa [lower] using this

theorem validate_same {cfg : Cfg} {f : Option Token} {par par' : Option Str} {b b' : Box} (h : Twin cfg f par' b b')
    {path : List Str} {c : Cur} {word : Bool} {o o' : Out} (ho : OutSame cfg par word o o') :
    validate (cfg.at f) b' path c o' = validate cfg b path c o := by
  rcases b with ⟨ty, a, pk, ks⟩
  rcases b' with ⟨ty', a', pk', ks'⟩
  simp only [Twin] at h
  obtain ⟨rfl, _, _, _, h⟩ := h
  unfold validate
  simp only [ho.cur, ho.colext, ho.wrap, Box.ty, Box.kids]
  cases ty' <;> simp only
  case statement =>
    have : prefixWidth (cfg.at f) ks' = prefixWidth cfg ks := by simp only [prefixWidth, h.1]; rfl
    change (if (o.colext : Int) > cfg.linewidth then false
      else !(!o.wrap && decide (o.cur.row - c.row > 1) &&
        decide ((prefixWidth (cfg.at f) ks' : Int) > cfg.maxPrefixChars))) = _
    rw [this]
    split <;> rfl
  case kwargGroup =>
    change (if (o.colext : Int) > cfg.linewidth then false
      else !(!o.wrap && decide (o.cur.row - c.row > 1) &&
        decide (((firstName ks').length : Int) > cfg.maxPrefixChars))) = _
    rw [lower_length h.1]
    split <;> rfl

theorem pathName_twin {cfg : Cfg} {f : Option Token} {par : Option Str} {b b' : Box} (h : Twin cfg f par b b') (idx : Nat) :
    pathName idx b' = pathName idx b := by
  rcases b with ⟨ty, a, pk, ks⟩
  rcases b' with ⟨ty', a', pk', ks'⟩
  simp only [Twin] at h
  obtain ⟨rfl, _, _, _, h⟩ := h
  cases ty' <;> simp only [pathName, Box.ty, Box.kids, Box.pkids]
  case statement => rw [h.1]
  case kwargGroup => rw [upper_of_lower h.1]
  case onoff => exact h.elim

theorem passesOf_at {cfg : Cfg} {f : Option Token} (ty : NT) : passesOf (cfg.at f) ty = passesOf cfg ty := rfl

theorem reflowScalar_same {cfg : Cfg} {par : Option Str} {path : List Str} {n : Int} {wrap : Bool}
    {pk pk' : List Node} {t u : Token} (ht : headTok pk = .ok t) (hu : headTok pk' = .ok u)
    (hf : ∀ c, flow c (Text.normalizeLineEndings u.spelling) = flow c (Text.normalizeLineEndings t.spelling))
    {c : Cur} {o : Out} (h : reflowScalar path n wrap pk [] c = .ok o) :
    ∃ o', reflowScalar path n wrap pk' [] c = .ok o' ∧ OutSame cfg par true o o' := by
  simp only [reflowScalar, ht, hu, okDo, hf, Except.ok.injEq] at h ⊢
  subst h
  exact ⟨_, rfl, rfl, rfl, rfl, rfl, rfl, fun _ => ⟨rfl, rfl⟩⟩

/-- One call of `_reflow`. -/
theorem attempt_same {cfg : Cfg} {f : Option Token} (hc : Harmless (cfg.at f)) {par : Option Str} {b b' : Box}
    (h : Twin cfg f par b b')
    {path : List Str} {term : Bool} {c : Cur} {p : Int × Bool} (hp : p ∈ passesOf cfg b.ty)
    (hk : ∀ par, TwinL cfg f par b.kids b'.kids →
      Pairs (ChildTwin cfg par) (children cfg 0 b.kids) (children (cfg.at f) 0 b'.kids))
    (hb : TwinB cfg f b.kids b'.kids →
      Pairs (RunTwin cfg none) (children cfg 0 b.kids) (children (cfg.at f) 0 b'.kids)) {o : Out}
    (ho : attempt cfg b (children cfg 0 b.kids) path term c p = .ok o) :
    ∃ o', attempt (cfg.at f) b' (children (cfg.at f) 0 b'.kids) path term c p = .ok o' ∧
      OutSame cfg (handDown b.ty b.attr) (isScalar b.ty) o o' := by
  rcases b with ⟨ty, a, pk, ks⟩
  rcases b' with ⟨ty', a', pk', ks'⟩
  simp only [Twin] at h
  obtain ⟨rfl, ha, _, _, h⟩ := h
  by_cases hws : ty' = .whitespace
  · subst hws
    exact ⟨o, ho, rfl, rfl, rfl, rfl, rfl, by simp [isScalar, Box.ty]⟩
  obtain rfl := ha hws
  simp only [Box.kids, Box.ty, Box.attr] at *
  cases ty' <;> simp only [attempt, Box.ty, Box.pkids, Box.kids, Box.attr, handDown, isScalar] at ho ⊢ <;>
    simp only at h
  case funname =>
    obtain ⟨rfl, rfl, t, u, h1, h2, h3⟩ := h
    exact reflowScalar_same h1 h2 h3.flow ho
  case argument =>
    obtain ⟨rfl, rfl, t, u, h1, h2, h3⟩ := h
    exact reflowScalar_same h1 h2 h3.flow ho
  case keyword =>
    obtain ⟨rfl, rfl, t, u, h1, h2, h3⟩ := h
    exact reflowScalar_same h1 h2 h3.flow ho
  case flag =>
    obtain ⟨rfl, rfl, t, u, h1, h2, h3⟩ := h
    exact reflowScalar_same h1 h2 h3.flow ho
  case atword =>
    obtain ⟨rfl, rfl, t, u, h1, h2, h3⟩ := h
    exact reflowScalar_same h1 h2 h3.flow ho
  case lparen => exact ⟨o, ho, rfl, rfl, rfl, rfl, rfl, by simp⟩
  case rparen => exact ⟨o, ho, rfl, rfl, rfl, rfl, rfl, by simp⟩
  case whitespace => exact absurd rfl hws
  case statement =>
    obtain ⟨o', h1, h2⟩ := reflowStatement_twin (f := f) h.1 (hk _ h.2) ho
    exact ⟨o', h1, h2.same⟩
  case kwargGroup =>
    obtain ⟨o', h1, h2⟩ := reflowKwarg_twin (f := f) (lower_length h.1) (hk _ h.2) ho
    exact ⟨o', h1, h2.same⟩
  case atwordStatement =>
    obtain ⟨o', h1, h2⟩ := reflowAtWord_twin (f := f) (hk _ h) ho
    exact ⟨o', h1, h2.same⟩
  case argGroup =>
    obtain ⟨o', h1, h2⟩ := reflowArg_twin (f := f) (hk _ h) ho
    exact ⟨o', h1, h2.same⟩
  case pargGroup =>
    obtain ⟨o', h1, h2⟩ := reflowParg_twin (f := f) (hk _ h) ho
    exact ⟨o', h1, h2.same⟩
  case flagGroup =>
    obtain ⟨o', h1, h2⟩ := reflowParg_twin (f := f) (hk _ h) ho
    exact ⟨o', h1, h2.same⟩
  case parenGroup =>
    obtain ⟨o', h1, h2⟩ := reflowParenGroup_twin (f := f) (hk _ h) ho
    exact ⟨o', h1, h2.same⟩
  case flowControl =>
    obtain ⟨o', h1, h2⟩ := reflowFlow_twin (f := f) (hk _ h) ho
    exact ⟨o', h1, h2.same⟩
  case body =>
    rcases h with h | ⟨rfl, a, pk, ks, rfl⟩
    · obtain ⟨o', h1, h2⟩ := reflowBody_twin (hb h) ho
      exact ⟨o', h1, h2.same⟩
    · have hpp : p = (0, false) := by
        have e : className .body = S "BodyNode" := rfl
        have e2 : cfg.layoutPasses (S "BodyNode") = none := hc.body
        simpa [passesOf, e, e2, defaultPasses] using hp
      subst hpp
      simp only [children, reflowBody, bodyLoop, okDo, Except.ok.injEq] at ho ⊢
      subst ho
      have hw := blank_run (a := a) (pk := pk) (ks := ks) (idx := 0) (path := path) (term := false)
        (c := ⟨c.row, c.col⟩) hc
      simp only [hw, okDo]
      refine ⟨_, rfl, rfl, rfl, rfl, rfl, ?_, by simp⟩
      simp only [piecesL, pieces, okDo]
      rfl

theorem twin_laid {cfg : Cfg} {f : Option Token} {par : Option Str} {b b' : Box} (h : Twin cfg f par b b') {info : Info}
    {lines lines' : List Str} {o o' : Out} (ho : OutSame cfg (handDown b.ty b.attr) (isScalar b.ty) o o') :
    LaidTwin cfg par (.mk b.ty b.attr b.pkids info lines o.kids) (.mk b'.ty b'.attr b'.pkids info lines' o'.kids) := by
  rcases b with ⟨ty, a, pk, ks⟩
  rcases b' with ⟨ty', a', pk', ks'⟩
  simp only [Twin] at h
  obtain ⟨rfl, ha, _, _, h⟩ := h
  by_cases hws : ty' = .whitespace
  · subst hws
    exact ⟨rfl, rfl, by simp only [Box.ty, Box.attr, Box.pkids, pieces]⟩
  obtain rfl := ha hws
  refine ⟨rfl, rfl, ?_⟩
  obtain ⟨_, _, _, _, htx, hw⟩ := ho
  simp only [Box.ty, Box.attr, Box.pkids] at *
  cases ty' <;> simp only [handDown, isScalar] at htx hw <;> simp only [pieces] <;> simp only at h
  case statement => exact htx
  case atwordStatement => exact htx
  case argGroup => exact htx
  case parenGroup => exact htx
  case body => exact htx
  case flowControl => exact htx
  case pargGroup => exact htx
  case flagGroup => exact htx
  case kwargGroup => exact htx
  all_goals
    obtain ⟨_, _, t, u, h1, h2, h3⟩ := h
    obtain ⟨e1, e2⟩ := hw trivial
    simp only [e1, e2, h1, h2, okDo, h3.text]

theorem runPasses_eq {parent : Int} {att att' : Int × Bool → Except Err Out} {val : Out → Bool}
    (ha : ∀ p o, att p = .ok o → att' p = .ok o) : ∀ {ps : List (Int × Bool)} {best : Option (Int × Out)} {r},
    runPasses parent att val best ps = .ok r → runPasses parent att' val best ps = .ok r := by
  intro ps
  induction ps with
  | nil => intro best r h; exact h
  | cons p ps ih =>
    intro best r h
    simp only [runPasses] at h ⊢
    split at h
    · rename_i hp
      rw [if_pos hp]
      exact h
    · rename_i hp
      rw [if_neg hp]
      cases hat : att p with
      | error e => simp [hat] at h
      | ok o1 =>
        simp only [hat] at h
        simp only [ha p o1 hat]
        split at h
        · rename_i hv
          rw [if_pos hv]
          exact h
        · rename_i hv
          rw [if_neg hv]
          exact ih h

/-- Comments are laid out alike. -/
theorem note_run {cfg : Cfg} {f : Option Token} {par : Option Str} {b b' : Box} (h : NoteTwin cfg f b b')
    (idx path term c n l o) (hr : reflow cfg b idx path term c n = .ok (l, o)) :
    ∃ l', reflow (cfg.at f) b' idx path term c n = .ok (l', o) ∧ LaidTwin cfg par l l' := by
  rcases b with ⟨ty, a, pk, ks⟩
  rcases b' with ⟨ty', a', pk', ks'⟩
  obtain ⟨h1, h2, h3, h4, h5⟩ := h
  simp only [Box.ty, Box.attr, Box.pkids] at h1 h2 h3 h4 h5
  subst h1 h2 h3
  simp only [reflow, reflowNode] at hr ⊢
  have hp : pathName idx (.mk .comment a' pk' ks') = pathName idx (.mk .comment a' pk ks) := by
    simp only [pathName, Box.ty]
  rw [hp]
  generalize hq : path ++ (pathName idx (.mk .comment a' pk ks)).toList = q at hr ⊢
  generalize hrun : runPasses (limitOf (Box.mk .comment a' pk ks).ty n)
      (attempt cfg (.mk .comment a' pk ks) (children cfg 0 ks) q term c)
      (validate cfg (.mk .comment a' pk ks) q c) none (passesOf cfg (Box.mk .comment a' pk ks).ty) = res at hr
  cases res with
  | error e => simp at hr
  | ok r =>
    obtain ⟨m, out⟩ := r
    simp only [Except.ok.injEq, Prod.mk.injEq] at hr
    obtain ⟨rfl, rfl⟩ := hr
    have := runPasses_eq (att' := attempt (cfg.at f) (.mk .comment a' pk' ks') (children (cfg.at f) 0 ks') q term c)
      (by intro p o ho
          simp only [attempt, Box.ty, Box.pkids, Box.kids, Box.attr] at ho ⊢
          exact h5 _ _ _ ho) hrun
    have v : validate (cfg.at f) (.mk .comment a' pk' ks') q c = validate cfg (.mk .comment a' pk ks) q c := rfl
    simp only [passesOf_at, v]
    simp only [Box.ty] at this ⊢
    rw [this]
    refine ⟨_, rfl, rfl, rfl, ?_⟩
    simp only [pieces, Box.ty, Box.attr, Box.pkids]
    cases hb : bracketOf pk with
    | none =>
      cases hb' : bracketOf pk' with
      | none => rfl
      | some t => simp [hb, hb'] at h4
    | some t =>
      cases hb' : bracketOf pk' with
      | none => simp [hb, hb'] at h4
      | some t' => simp only [hb, hb', Option.map_some, Option.some.injEq] at h4; simp only [h4]

mutual
/-- Twins are laid out alike. -/
theorem reflow_twin {cfg : Cfg} {f : Option Token} (hc : Harmless (cfg.at f)) : ∀ (b b' : Box) (par : Option Str),
    Twin cfg f par b b' → ∀ idx path term c n l o, reflow cfg b idx path term c n = .ok (l, o) →
    ∃ l', reflow (cfg.at f) b' idx path term c n = .ok (l', o) ∧ LaidTwin cfg par l l'
  | .mk ty a pk ks, .mk ty' a' pk' ks', par, ht, idx, path, term, c, n, l, o, h => by
    have hty := twin_ty ht
    simp only [reflow, reflowNode] at h ⊢
    rw [pathName_twin ht]
    generalize hq : path ++ (pathName idx (.mk ty a pk ks)).toList = q at h ⊢
    have hk : ∀ par, TwinL cfg f par ks ks' → Pairs (ChildTwin cfg par) (children cfg 0 ks) (children (cfg.at f) 0 ks') :=
      fun par h => children_twin hc ks ks' par h 0
    generalize hrun : runPasses (limitOf (Box.mk ty a pk ks).ty n)
      (attempt cfg (.mk ty a pk ks) (children cfg 0 ks) q term c)
      (validate cfg (.mk ty a pk ks) q c) none (passesOf cfg (Box.mk ty a pk ks).ty) = res at h
    cases res with
    | error e => simp at h
    | ok r =>
      obtain ⟨m, out⟩ := r
      simp only [Except.ok.injEq, Prod.mk.injEq] at h
      obtain ⟨rfl, rfl⟩ := h
      obtain ⟨o', h1, h2⟩ := runPasses_twin (cfg := cfg) (par := handDown ty a) (word := isScalar ty)
        (att' := attempt (cfg.at f) (.mk ty' a' pk' ks') (children (cfg.at f) 0 ks') q term c)
        (val' := validate (cfg.at f) (.mk ty' a' pk' ks') q c) (best := none) (best' := none)
        (fun o o' ho => validate_same ht ho)
        (fun p hp o ho => attempt_same hc ht hp hk (fun h => childrenB_twin hc ks ks' h 0) ho) trivial hrun
      rw [passesOf_at, hty, h1]
      simp only [h2.cur, h2.wrap, h2.valid, h2.colext]
      refine ⟨_, rfl, ?_⟩
      have := twin_laid (info := { pos := c, passno := m, wrap := out.wrap, valid := out.valid, colext := out.colext })
        (lines := out.lines) (lines' := o'.lines) ht h2
      rw [hty] at this
      exact this
theorem children_twin {cfg : Cfg} {f : Option Token} (hc : Harmless (cfg.at f)) : ∀ (bs bs' : List Box)
    (par : Option Str), TwinL cfg f par bs bs' → ∀ n,
    Pairs (ChildTwin cfg par) (children cfg n bs) (children (cfg.at f) n bs')
  | [], bs', par, h, n => by
    simp only [TwinL] at h
    subst h
    simp only [children]
    exact .nil
  | b :: bs, [], par, h, n => by simp [TwinL] at h
  | b :: bs, b' :: bs', par, h, n => by
    simp only [TwinL] at h
    have e : isParg b' = isParg b := by simp only [isParg, twin_ty h.1]
    simp only [children, e]
    refine .cons ⟨twin_ty h.1, twin_comment h.1, (twin_ends h.1).1, (twin_ends h.1).2, twin_tok h.1, ?_⟩
      (children_twin hc bs bs' par h.2 _)
    intro path term c m l o hr
    exact reflow_twin hc b b' par h.1 n path term c m l o hr
theorem childrenB_twin {cfg : Cfg} {f : Option Token} (hc : Harmless (cfg.at f)) : ∀ (bs bs' : List Box),
    TwinB cfg f bs bs' → ∀ n,
    Pairs (RunTwin cfg none) (children cfg n bs) (children (cfg.at f) n bs')
  | [], bs', h, n => by
    simp only [TwinB] at h
    subst h
    simp only [children]
    exact .nil
  | b :: bs, [], h, n => by simp [TwinB] at h
  | b :: bs, b' :: bs', h, n => by
    simp only [TwinB] at h
    have ty : b'.ty = b.ty := by
      rcases h.1 with h | h
      · exact twin_ty h
      · rw [h.ty, h.ty']
    have e : isParg b' = isParg b := by simp only [isParg, ty]
    simp only [children, e]
    refine .cons ?_ (childrenB_twin hc bs bs' h.2 _)
    intro path term c m l o hr
    rcases h.1 with h1 | h1
    · exact reflow_twin hc b b' none h1 n path term c m l o hr
    · exact note_run h1 n path term c m l o hr
end

end Verif.Layout
