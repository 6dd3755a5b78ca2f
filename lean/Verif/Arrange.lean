import Verif.ArrangeSpec
import Verif.LayoutLemmas
import Verif.Chain
import Verif.ParseBlank

/-!
# Where `reflow` puts the parts (lemmas for C84 and C85)
-/

namespace Verif.Layout
open Verif Py Lex Parse

/-! ## Forgetting the positions -/

mutual
/-- The box of a part. -/
def forget : Laid → Box
  | .mk ty a pk _ _ kids => .mk ty a pk (forgetL kids)
/-- The boxes of several. -/
def forgetL : List Laid → List Box
  | [] => []
  | l :: ls => forget l :: forgetL ls
end

/-- The kinds of parts that `reflow` leaves without children. -/
def isLeaf : NT → Bool
  | .lparen | .rparen | .whitespace | .onoff | .comment => true
  | _ => false

mutual
/-- A box without the children that `reflow` drops. -/
def trim : Box → Box
  | .mk ty a pk kids => .mk ty a pk (if isLeaf ty then [] else trimL kids)
/-- Several boxes. -/
def trimL : List Box → List Box
  | [] => []
  | b :: bs => trim b :: trimL bs
end

theorem trim_ty (b : Box) : (trim b).ty = b.ty := by cases b; simp [trim, Box.ty]

theorem trim_pkids (b : Box) : (trim b).pkids = b.pkids := by cases b; simp [trim, Box.pkids]

theorem trimL_map : ∀ (bs : List Box), trimL bs = bs.map trim
  | [] => rfl
  | b :: bs => by simp [trimL, trimL_map bs]

theorem trimL_last (bs : List Box) : (trimL bs).getLast? = bs.getLast?.map trim := by
  rw [trimL_map, List.getLast?_map]

theorem after_trim : ∀ (bs : List Box), afterRparen (trimL bs) = trimL (afterRparen bs)
  | [] => rfl
  | b :: bs => by
    simp only [trimL, afterRparen, trim_ty, after_trim bs]
    split <;> rfl

mutual
theorem terminal_trim : ∀ (b : Box), hasTerminal (trim b) = hasTerminal b
  | .mk ty a pk kids => by
    cases ty <;> simp only [trim, isLeaf, hasTerminal, Bool.false_eq_true, if_false]
    case funname | argument | keyword | flag | atword =>
      rw [trimL_last]; cases kids.getLast? <;> simp [trim_pkids]
    case parenGroup => rw [after_trim, trimL_last]; cases (afterRparen kids).getLast? <;> simp [trim_pkids]
    case argGroup | kwargGroup | pargGroup | flagGroup => exact lastTerminal_trim kids
theorem lastTerminal_trim : ∀ (bs : List Box), lastTerminal (trimL bs) = lastTerminal bs
  | [] => rfl
  | [b] => by simp only [trimL, lastTerminal, trim_ty, terminal_trim b]
  | _ :: b :: bs => by
    have := lastTerminal_trim (b :: bs)
    simp only [trimL] at this
    simp only [trimL, lastTerminal, this]
end

theorem forget_ty (l : Laid) : (forget l).ty = l.ty := by cases l; rfl

theorem forget_pkids (l : Laid) : headSpelling (forget l).pkids = l.word := by cases l; rfl

theorem forgetL_last (ls : List Laid) : (forgetL ls).getLast? = ls.getLast?.map forget := by
  induction ls with
  | nil => rfl
  | cons l ls ih =>
    cases ls with
    | nil => rfl
    | cons m ms =>
      simp only [forgetL] at ih ⊢
      rw [List.getLast?_cons_cons, ih, List.getLast?_cons_cons]

theorem lastLine_forget (ls : List Laid) :
    lastLineComment ls = (match (forgetL ls).getLast? with
      | some k => headIsComment k.pkids
      | none => false) := by
  rw [forgetL_last, lastLineComment]
  cases ls.getLast? with
  | none => rfl
  | some l => cases l; rfl

theorem after_forget (ls : List Laid) :
    afterRparen (forgetL ls) = forgetL ((ls.dropWhile (fun k => k.ty != .rparen)).drop 1) := by
  induction ls with
  | nil => rfl
  | cons l ls ih =>
    simp only [forgetL, afterRparen, forget_ty, List.dropWhile_cons]
    by_cases h : l.ty = .rparen
    · simp [h]
    · rw [if_neg h, ih, if_pos (by simpa using h)]

mutual
theorem loud_forget : ∀ (l : Laid), endsLoud l = hasTerminal (forget l)
  | .mk ty a pk i ls kids => by
    cases ty <;> simp only [endsLoud, hasTerminal, forget]
    case funname | argument | keyword | flag | atword => exact lastLine_forget kids
    case parenGroup => rw [after_forget]; exact lastLine_forget _
    case argGroup | kwargGroup | pargGroup | flagGroup => exact lastLoud_forget kids
theorem lastLoud_forget : ∀ (ls : List Laid), lastLoud ls = lastTerminal (forgetL ls)
  | [] => rfl
  | [l] => by simp only [lastLoud, forgetL, lastTerminal, forget_ty, loud_forget l]
  | _ :: l :: ls => by
    have := lastLoud_forget (l :: ls)
    simp only [forgetL] at this
    simp only [lastLoud, forgetL, lastTerminal, this]
end

/-! ## Names -/

theorem starts_end {u : Str} (h : startsWith (S "END") u = true) : u = S "END" ++ u.drop 3 := by
  match u, h with
  | [], h => simp [startsWith, S, stripPrefix?] at h
  | [a], h => simp [startsWith, S, stripPrefix?] at h
  | [a, b], h => simp [startsWith, S, stripPrefix?] at h
  | a :: b :: c :: r, h =>
    simp [startsWith, S, stripPrefix?] at h
    simp [S]
    grind

theorem need_gap (cfg : Cfg) (s : Str) :
    needParenSpace cfg (lower s) = if controlNames.contains (upper s) then cfg.separateCtrl else cfg.separateFn := by
  simp only [needParenSpace, upper_lower]
  generalize upper s = u
  by_cases h1 : isFlow u = true
  · rw [if_pos h1, if_pos]
    simp only [isFlow, Bool.or_eq_true, beq_iff_eq] at h1
    rcases h1 with (((rfl | rfl) | rfl) | rfl) | rfl <;> decide
  rw [if_neg h1]
  by_cases h2 : (startsWith (S "END") u && isFlow (u.drop 3)) = true
  · rw [if_pos h2, if_pos]
    rw [Bool.and_eq_true] at h2
    rw [starts_end h2.1]
    have h2 := h2.2
    generalize u.drop 3 = v at h2
    simp only [isFlow, Bool.or_eq_true, beq_iff_eq] at h2
    rcases h2 with (((rfl | rfl) | rfl) | rfl) | rfl <;> decide
  rw [if_neg h2]
  by_cases h3 : (u == S "ELSE" || u == S "ELSEIF") = true
  · rw [if_pos h3, if_pos]
    simp only [Bool.or_eq_true, beq_iff_eq] at h3
    rcases h3 with rfl | rfl <;> decide
  rw [if_neg h3, if_neg]
  intro hc
  simp only [controlNames, List.contains_eq_mem, List.mem_cons, List.not_mem_nil, or_false, decide_eq_true_eq] at hc
  rcases hc with rfl | rfl | rfl | rfl | rfl | rfl | rfl | rfl | rfl | rfl | rfl | rfl <;>
    first
    | exact h1 (by decide)
    | exact h2 (by decide)
    | exact h3 (by decide)

theorem name_gap (cfg : Cfg) (s : Str) (c : Cur) :
    (if needParenSpace cfg (lower s) then c.right 1 else c) = c.right (nameGap cfg s) := by
  rw [need_gap, nameGap]
  cases controlNames.contains (upper s) <;> cases cfg.separateCtrl <;> cases cfg.separateFn <;> rfl

theorem width_eq (cfg : Cfg) (s : Str) (pk : List Node) (hs : headSpelling pk = s) (ty : NT) (a : Attr) (ks bs : List Box) :
    prefixWidth cfg (.mk ty a pk ks :: bs) = s.length + 1 + nameGap cfg s := by
  simp only [prefixWidth, firstName, Box.pkids, hs, need_gap, nameGap]
  have : (lower s).length = s.length := by simp [lower]
  rw [this]
  cases controlNames.contains (upper s) <;> cases cfg.separateCtrl <;> cases cfg.separateFn <;> rfl

/-! ## Children -/

/-- What every `reflow` of a child respects. -/
def Basic (k : Child) : Prop :=
  ∀ path term c n l o, k.run path term c n = .ok (l, o) → forget l = trim k.box ∧ l.pos = c ∧ stopOf l = o

/-- The parts come from the children, in order. -/
def Runs (path : List Str) : List Child → List Laid → Prop
  | [], [] => True
  | k :: ks, l :: ls => (∃ t c n o, k.run path t c n = .ok (l, o)) ∧ Runs path ks ls
  | _, _ => False

theorem runs_forget {path : List Str} : ∀ {ks : List Child} {ls : List Laid}, (∀ k ∈ ks, Basic k) →
    Runs path ks ls → forgetL ls = ks.map (fun k => trim k.box)
  | [], [], _, _ => rfl
  | [], _ :: _, _, h => h.elim
  | _ :: _, [], _, h => h.elim
  | k :: ks, l :: ls, hk, h => by
    obtain ⟨⟨t, c, n, o, hr⟩, h⟩ := h
    simp only [forgetL, List.map_cons, (hk k (by simp) _ _ _ _ _ _ hr).1,
      runs_forget (fun k hk' => hk k (by simp [hk'])) h]

theorem forgetL_map : ∀ (ls : List Laid), forgetL ls = ls.map forget
  | [] => rfl
  | l :: ls => by simp [forgetL, forgetL_map ls]

theorem runs_count {path : List Str} {f : NT → Bool} {ks : List Child} {ls : List Laid} (hk : ∀ k ∈ ks, Basic k)
    (h : Runs path ks ls) : (ls.filter (fun l => f l.ty)).length = (ks.filter (fun k => f k.box.ty)).length := by
  have e := runs_forget hk h
  rw [forgetL_map] at e
  have e2 := congrArg (fun bs => (bs.filter (fun b : Box => f b.ty)).length) e
  simp only [List.filter_map, List.length_map] at e2
  rw [← show ((fun b : Box => f b.ty) ∘ fun x : Child => trim x.box) = fun k : Child => f k.box.ty from by funext k; simp [trim_ty], ← e2]
  congr 2
  funext l
  simp [forget_ty]

theorem countSubgroups_eq : ∀ {ks : List Child} {n : Nat}, countSubgroups ks = .ok n →
    n = (ks.filter (fun k => k.box.ty == .kwargGroup || k.box.ty == .pargGroup || k.box.ty == .parenGroup)).length
  | [], n, h => by simp [countSubgroups] at h; simp [h]
  | k :: ks, n, h => by
    rw [countSubgroups] at h
    cases ht : k.box.ty <;> simp only [ht] at h <;> try (simp at h; done)
    case kwargGroup | pargGroup | parenGroup =>
      cases hc : countSubgroups ks with
      | error e => simp [hc] at h
      | ok m =>
        simp only [hc, Except.ok.injEq] at h
        rw [List.filter_cons, if_pos (by simp [ht]), List.length_cons, ← countSubgroups_eq hc, h]
    case comment | onoff =>
      rw [List.filter_cons, if_neg (by simp [ht])]
      exact countSubgroups_eq h

/-! ## Running texts -/

/-- Like `Running`, after a position. -/
def RunAfter (col : Nat) : Cur → List Laid → Prop
  | _, [] => True
  | c, l :: ls => (l.pos = c.right 1 ∨ l.pos = ⟨c.row + 1, col⟩) ∧ RunAfter col (stopOf l) ls

/-- Like `Vertical`, after a position. -/
def DownAfter (col : Nat) : Cur → List Laid → Prop
  | _, [] => True
  | c, l :: ls => l.pos = ⟨c.row + 1, col⟩ ∧ DownAfter col (stopOf l) ls

/-- Like `startLines`, after a position. -/
def linesAfter : Cur → List Laid → Nat
  | _, [] => 0
  | c, l :: ls => (if c.row < l.pos.row then 1 else 0) + linesAfter (stopOf l) ls

theorem running_of {col : Nat} : ∀ {l : Laid} {ls : List Laid}, RunAfter col (stopOf l) ls → Running col (l :: ls)
  | _, [], _ => trivial
  | _, _ :: _, h => ⟨h.1, running_of h.2⟩

theorem vertical_of {col : Nat} : ∀ {l : Laid} {ls : List Laid}, DownAfter col (stopOf l) ls → Vertical col (l :: ls)
  | _, [], _ => trivial
  | _, _ :: _, h => ⟨h.1, vertical_of h.2⟩

theorem startLines_of : ∀ (l : Laid) (ls : List Laid), startLines (l :: ls) = 1 + linesAfter (stopOf l) ls
  | _, [] => rfl
  | l, m :: ms => by
    rw [startLines, startLines_of m ms, linesAfter]
    omega

section
variable {cfg : Cfg} {path : List Str} {n : Int} {wrap term : Bool} {col : Nat}

/-- What a loop over the children leaves behind. -/
structure Ran (path : List Str) (col : Nat) (wrap : Bool) (s : Loop) (ks : List Child) (ls : List Laid) (s' : Loop) : Prop where
  runs : Runs path ks ls
  stop : stopLast s.cur ls = s'.cur
  valid : s'.valid = true → s.valid = true ∧ ∀ l ∈ ls, l.valid = true
  first : s.prev = none → ∀ k, ls.head? = some k → k.pos = s.cur
  after : s.prev.isSome = true → RunAfter col s.cur ls ∧ (wrap = true → DownAfter col s.cur ls)
  whole : s.prev = none → Running col ls ∧ (wrap = true → Vertical col ls)

/-- One round. -/
structure Stepped (path : List Str) (col : Nat) (wrap : Bool) (s : Loop) (k : Child) (l : Laid) (s' : Loop) : Prop where
  run : ∃ t c n, k.run path t c n = .ok (l, s'.cur) ∧ (s.prev = none → c = s.cur) ∧
    (s.prev.isSome = true → (c = s.cur.right 1 ∨ c = ⟨s.cur.row + 1, col⟩) ∧ (wrap = true → c = ⟨s.cur.row + 1, col⟩))
  prev : s'.prev = some k.box
  valid : s'.valid = (s.valid && l.valid)

theorem ran_nil (s : Loop) : Ran path col wrap s [] [] s :=
  ⟨trivial, rfl, fun h => ⟨h, by simp⟩, by simp, fun _ => ⟨trivial, fun _ => trivial⟩, fun _ => ⟨trivial, fun _ => trivial⟩⟩

theorem ran_cons {s s1 s2 : Loop} {k : Child} {ks : List Child} {l : Laid} {ls : List Laid} (hb : Basic k)
    (h1 : Stepped path col wrap s k l s1) (h2 : Ran path col wrap s1 ks ls s2) :
    Ran path col wrap s (k :: ks) (l :: ls) s2 := by
  obtain ⟨⟨t, c, m, hr, hc1, hc2⟩, hp, hv⟩ := h1
  obtain ⟨_, e1, e2⟩ := hb _ _ _ _ _ _ hr
  obtain ⟨h3, h4⟩ := h2.after (by rw [hp]; rfl)
  rw [← e2] at h3 h4
  refine ⟨⟨⟨t, c, m, _, hr⟩, h2.runs⟩, ?_, ?_, ?_, ?_, fun _ => ⟨running_of h3, fun w => vertical_of (h4 w)⟩⟩
  · rw [stopLast, e2]; exact h2.stop
  · intro h
    obtain ⟨a, b⟩ := h2.valid h
    rw [hv, Bool.and_eq_true] at a
    exact ⟨a.1, by simpa using ⟨a.2, b⟩⟩
  · intro h x hx
    simp only [List.head?_cons, Option.some.injEq] at hx
    subst hx
    rw [e1, hc1 h]
  · intro h
    obtain ⟨h5, h6⟩ := hc2 h
    exact ⟨⟨by rw [e1]; exact h5, h3⟩, fun w => ⟨by rw [e1]; exact h6 w, h4 w⟩⟩

theorem pargStep_ran {last : Bool} {k : Child} {s s' : Loop} {l : Laid}
    (h : pargStep cfg path n wrap term col last k s = .ok (l, s')) : Stepped path col wrap s k l s' ∧
    (s.prev = none → s'.rows = 1) ∧
    (Basic k → s.prev.isSome = true → s'.rows = s.rows + if s.cur.row < l.pos.row then 1 else 0) := by
  unfold pargStep at h
  cases hp : s.prev with
  | none =>
    simp only [hp, bind_ok, Except.ok.injEq, Prod.mk.injEq] at h
    obtain ⟨r, hr, rfl, rfl⟩ := h
    exact ⟨⟨⟨_, _, _, hr, by simp [hp], by simp [hp]⟩, rfl, rfl⟩, by simp, by simp⟩
  | some p =>
    simp only [hp] at h
    split at h
    · simp only [bind_ok, Except.ok.injEq, Prod.mk.injEq] at h
      obtain ⟨r, hr, rfl, rfl⟩ := h
      refine ⟨⟨⟨_, _, _, hr, by simp [hp], by simp⟩, rfl, rfl⟩, by simp, fun hb _ => ?_⟩
      rw [(hb _ _ _ _ _ _ hr).2.1]
      simp
    · rename_i hn
      simp only [Bool.or_eq_true, not_or, Bool.not_eq_true] at hn
      simp only [bind_ok] at h
      obtain ⟨r, hr, h⟩ := h
      split at h
      · simp only [bind_ok, Except.ok.injEq, Prod.mk.injEq] at h
        obtain ⟨r', hr', rfl, rfl⟩ := h
        refine ⟨⟨⟨_, _, _, hr', by simp [hp], by simp⟩, rfl, rfl⟩, by simp, fun hb _ => ?_⟩
        rw [(hb _ _ _ _ _ _ hr').2.1]
        simp
      · simp only [Except.ok.injEq, Prod.mk.injEq] at h
        obtain ⟨rfl, rfl⟩ := h
        refine ⟨⟨⟨_, _, _, hr, by simp [hp], by simp [hn.2]⟩, rfl, rfl⟩, by simp, fun hb _ => ?_⟩
        rw [(hb _ _ _ _ _ _ hr).2.1]
        simp [Cur.right]

theorem pargLoop_ran {ks : List Child} (hk : ∀ k ∈ ks, Basic k) {s s' : Loop} {ls : List Laid}
    (h : pargLoop cfg path n wrap term col ks s = .ok (ls, s')) : Ran path col wrap s ks ls s' ∧
    (s.prev.isSome = true → s'.rows = s.rows + linesAfter s.cur ls) ∧
    (s.prev = none → s.rows = 0 → s'.rows = startLines ls) := by
  induction ks generalizing s ls with
  | nil =>
    simp only [pargLoop, Except.ok.injEq, Prod.mk.injEq] at h
    obtain ⟨rfl, rfl⟩ := h
    exact ⟨ran_nil _, by simp [linesAfter], by simp [startLines]⟩
  | cons k ks ih =>
    simp only [pargLoop, andThen_ok] at h
    obtain ⟨l, s1, ls1, s2, h1, h2, h3⟩ := h
    simp only [Prod.mk.injEq] at h3; obtain ⟨rfl, rfl⟩ := h3
    obtain ⟨a, b, c⟩ := pargStep_ran h1
    obtain ⟨i1, i2, i3⟩ := ih (fun k hk' => hk k (by simp [hk'])) h2
    have hb := hk k (by simp)
    have e2 : stopOf l = s1.cur := by
      obtain ⟨t, c, m, hr, _⟩ := a.run
      exact (hb _ _ _ _ _ _ hr).2.2
    have i2' := i2 (by rw [a.prev]; rfl)
    refine ⟨ran_cons hb a i1, ?_, ?_⟩
    · intro hs
      rw [i2', c hb hs, linesAfter, e2]
      omega
    · intro hs _
      rw [i2', b hs, startLines_of, e2]

theorem argStep_ran {last : Bool} {k : Child} {s s' : Loop} {l : Laid} (hr : s.colRow = s.cur.row)
    (h : argStep cfg path n wrap term col last k s = .ok (l, s')) :
    Stepped path col wrap s k l s' ∧ s'.colRow = s'.cur.row := by
  unfold argStep at h
  rw [hr] at h
  cases hp : s.prev with
  | none =>
    simp only [hp, bind_ok, Except.ok.injEq, Prod.mk.injEq] at h
    obtain ⟨r, hr, rfl, rfl⟩ := h
    exact ⟨⟨⟨_, _, _, hr, by simp [hp], by simp [hp]⟩, rfl, rfl⟩, rfl⟩
  | some p =>
    simp only [hp] at h
    split at h
    · simp only [bind_ok, Except.ok.injEq, Prod.mk.injEq] at h
      obtain ⟨r, hr, rfl, rfl⟩ := h
      exact ⟨⟨⟨_, _, _, hr, by simp [hp], by simp⟩, rfl, rfl⟩, rfl⟩
    · rename_i hn
      simp only [Bool.or_eq_true, not_or, Bool.not_eq_true] at hn
      simp only [bind_ok] at h
      obtain ⟨r, hr, h⟩ := h
      split at h
      · simp only [bind_ok, Except.ok.injEq, Prod.mk.injEq] at h
        obtain ⟨r', hr', rfl, rfl⟩ := h
        exact ⟨⟨⟨_, _, _, hr', by simp [hp], by simp⟩, rfl, rfl⟩, rfl⟩
      · simp only [Except.ok.injEq, Prod.mk.injEq] at h
        obtain ⟨rfl, rfl⟩ := h
        exact ⟨⟨⟨_, _, _, hr, by simp [hp], by simp [hn.2]⟩, rfl, rfl⟩, rfl⟩

theorem argLoop_ran {ks : List Child} (hk : ∀ k ∈ ks, Basic k) {s s' : Loop} {ls : List Laid}
    (hr : s.colRow = s.cur.row)
    (h : argLoop cfg path n wrap term col ks s = .ok (ls, s')) : Ran path col wrap s ks ls s' := by
  induction ks generalizing s ls with
  | nil =>
    simp only [argLoop, Except.ok.injEq, Prod.mk.injEq] at h
    obtain ⟨rfl, rfl⟩ := h; exact ran_nil _
  | cons k ks ih =>
    simp only [argLoop, andThen_ok] at h
    obtain ⟨l, s1, ls1, s2, h1, h2, h3⟩ := h
    simp only [Prod.mk.injEq] at h3; obtain ⟨rfl, rfl⟩ := h3
    obtain ⟨a, b⟩ := argStep_ran hr h1
    exact ran_cons (hk k (by simp)) a (ih (fun k hk' => hk k (by simp [hk'])) b h2)

/-- What a loop leaves behind, positions aside. -/
structure Went (path : List Str) (s : Loop) (ks : List Child) (ls : List Laid) (s' : Loop) : Prop where
  runs : Runs path ks ls
  stop : stopLast s.cur ls = s'.cur
  valid : s'.valid = true → s.valid = true ∧ ∀ l ∈ ls, l.valid = true

theorem went_nil (s : Loop) : Went path s [] [] s := ⟨trivial, rfl, fun h => ⟨h, by simp⟩⟩

theorem went_cons {s s1 s2 : Loop} {k : Child} {ks : List Child} {l : Laid} {ls : List Laid} (hb : Basic k)
    {t : Bool} {c : Cur} {m : Int} (hr : k.run path t c m = .ok (l, s1.cur)) (hv : s1.valid = (s.valid && l.valid))
    (h2 : Went path s1 ks ls s2) : Went path s (k :: ks) (l :: ls) s2 := by
  refine ⟨⟨⟨t, c, m, _, hr⟩, h2.runs⟩, ?_, ?_⟩
  · rw [stopLast, (hb _ _ _ _ _ _ hr).2.2]; exact h2.stop
  · intro h
    obtain ⟨a, b⟩ := h2.valid h
    rw [hv, Bool.and_eq_true] at a
    exact ⟨a.1, by simpa using ⟨a.2, b⟩⟩

theorem parenLoop_went {ks : List Child} (hk : ∀ k ∈ ks, Basic k) {s s' : Loop} {ls : List Laid}
    (h : parenLoop cfg path n wrap term col ks s = .ok (ls, s')) : Went path s ks ls s' := by
  induction ks generalizing s ls with
  | nil =>
    simp only [parenLoop, Except.ok.injEq, Prod.mk.injEq] at h
    obtain ⟨rfl, rfl⟩ := h; exact went_nil _
  | cons k ks ih =>
    simp only [parenLoop, andThen_ok] at h
    obtain ⟨l, s1, ls1, s2, h1, h2, h3⟩ := h
    simp only [Prod.mk.injEq] at h3; obtain ⟨rfl, rfl⟩ := h3
    unfold parenStep at h1
    simp only [bind_ok] at h1
    obtain ⟨r, hr, h1⟩ := h1
    split at h1
    · simp only [bind_ok, Except.ok.injEq, Prod.mk.injEq] at h1
      obtain ⟨r', hr', rfl, rfl⟩ := h1
      exact went_cons (hk k (by simp)) hr' rfl (ih (fun k hk' => hk k (by simp [hk'])) h2)
    · simp only [Except.ok.injEq, Prod.mk.injEq] at h1
      obtain ⟨rfl, rfl⟩ := h1
      exact went_cons (hk k (by simp)) hr rfl (ih (fun k hk' => hk k (by simp [hk'])) h2)

theorem bodyLoop_went {ks : List Child} (hk : ∀ k ∈ ks, Basic k) {s s' : Loop} {ls : List Laid}
    (h : bodyLoop path n col ks s = .ok (ls, s')) : Went path s ks ls s' := by
  induction ks generalizing s ls with
  | nil =>
    simp only [bodyLoop, Except.ok.injEq, Prod.mk.injEq] at h
    obtain ⟨rfl, rfl⟩ := h; exact went_nil _
  | cons k ks ih =>
    simp only [bodyLoop, bind_ok, Except.ok.injEq, Prod.mk.injEq] at h
    obtain ⟨r, h1, rest, h2, rfl, rfl⟩ := h
    exact went_cons (s1 := { prev := some k.box, cur := r.2, colRow := r.2.row + 1, rows := 0, colext := max s.colext r.1.colext, valid := s.valid && r.1.valid }) (hk k (by simp)) h1 rfl
      (ih (fun k hk' => hk k (by simp [hk'])) h2)

theorem flowLoop_went {stmt : Bool} {ks : List Child} (hk : ∀ k ∈ ks, Basic k) {s s' : Loop} {ls : List Laid}
    (h : flowLoop cfg path n col stmt ks s = .ok (ls, s')) : Went path s ks ls s' := by
  induction ks generalizing s ls stmt with
  | nil =>
    simp only [flowLoop] at h
    split at h
    · simp at h
    · simp only [Except.ok.injEq, Prod.mk.injEq] at h
      obtain ⟨rfl, rfl⟩ := h; exact went_nil _
  | cons k ks ih =>
    simp only [flowLoop, bind_ok, check_ok, Except.ok.injEq, Prod.mk.injEq] at h
    obtain ⟨_, hty, r, h1, rest, h2, rfl, rfl⟩ := h
    exact went_cons (s1 := { prev := some k.box, cur := r.2, colRow := r.2.row + 1, rows := s.rows + 1, colext := max s.colext r.1.colext, valid := s.valid && r.1.valid }) (hk k (by simp)) h1 rfl
      (ih (fun k hk' => hk k (by simp [hk'])) h2)

end

/-! ## Nodes -/

/-- What one call of `_reflow` leaves behind. -/
structure Made (cfg : Cfg) (b : Box) (kids : List Child) (path : List Str) (c : Cur) (o : Out) : Prop where
  runs : if isLeaf b.ty = true then o.kids = [] else Runs path kids o.kids
  valid : o.valid = true → ∀ l ∈ o.kids, l.valid = true
  stop : ∀ info : Info, info.pos = c → stopOf (.mk b.ty b.attr b.pkids info o.lines o.kids) = o.cur
  placed : ∀ info : Info, info.pos = c → Arranged cfg (o.valid && validate cfg b path c o) (join ['/'] path)
    (.mk b.ty b.attr b.pkids info o.lines o.kids)

section
variable {cfg : Cfg} {path : List Str} {n : Int} {term : Bool}

theorem headTok_word {pk : List Node} {t : Token} (h : headTok pk = .ok t) : headSpelling pk = t.spelling := by
  cases pk with
  | nil => simp [headTok] at h
  | cons a as =>
    cases a with
    | tok u => simp only [headTok, Except.ok.injEq] at h; subst h; rfl
    | node ty a cs => simp [headTok] at h

theorem made_scalar {ty : NT} {attr : Attr} {pk : List Node} {bs : List Box} {kids : List Child} {w : Bool} {c : Cur} {o : Out}
    (hs : isScalar ty = true) (hk : ∀ k ∈ kids, Basic k) (h : reflowScalar path n w pk kids c = .ok o) :
    Made cfg (.mk ty attr pk bs) kids path c o := by
  unfold reflowScalar at h
  simp only [bind_ok] at h
  obtain ⟨t, ht, h⟩ := h
  have key : Runs path kids o.kids ∧ (o.valid = true → ∀ l ∈ o.kids, l.valid = true) ∧
      stopLast (advance c (Text.normalizeLineEndings t.spelling)) o.kids = o.cur := by
    match kids, h with
    | [], h =>
      simp only [Except.ok.injEq] at h
      subst h
      exact ⟨trivial, by simp, by rw [flow_advance]; rfl⟩
    | [k], h =>
      simp only [bind_ok, check_ok, Except.ok.injEq] at h
      obtain ⟨_, _, r, hr, rfl⟩ := h
      exact ⟨⟨⟨_, _, _, _, hr⟩, trivial⟩, by simp, by simp only [stopLast]; exact (hk k (by simp) _ _ _ _ _ _ hr).2.2⟩
    | _ :: _ :: _, h => simp at h
  refine ⟨by cases ty <;> simp [isScalar] at hs <;> exact key.1, key.2.1, ?_, ?_⟩ <;> intro info hi <;> subst hi
  · cases ty <;> simp [isScalar] at hs <;> simp only [Box.ty, Box.pkids, stopOf, headTok_word ht] <;> exact key.2.2
  · cases ty <;> simp [isScalar] at hs <;> trivial

/-- What `validate` says of the groups. -/
theorem validate_group {b : Box} {c : Cur} {o : Out} (hb : b.ty ≠ .statement ∧ b.ty ≠ .kwargGroup ∧ b.ty ≠ .body ∧
    b.ty ≠ .comment ∧ b.ty ≠ .flowControl) (h : validate cfg b path c o = true) :
    o.wrap = true ∨ ((o.cur.row - c.row : Nat) : Int) ≤ cfg.maxLinesHwrap ∧ join ['/'] path ∉ cfg.alwaysWrap := by
  unfold validate at h
  simp only at h
  split at h
  · simp at h
  · split at h
    · rename_i e; exact absurd e hb.1
    · rename_i e; exact absurd e hb.2.1
    · cases hw : o.wrap with
      | true => exact Or.inl rfl
      | false =>
        right
        simp only [hw, Bool.false_eq_true, if_false] at h
        split at h
        · simp at h
        · rename_i hn
          simp only [Bool.not_eq_true', List.contains_eq_mem, decide_eq_false_iff_not] at h
          refine ⟨?_, h⟩
          have := hb.2.2
          simp only [this.1, this.2.1, this.2.2, ne_eq, not_false_eq_true, and_true] at hn
          omega

theorem made_list {ty : NT} {attr : Attr} {pk : List Node} {bs : List Box} {kids : List Child} {w0 : Bool} {c : Cur} {o : Out}
    (hty : ty = .pargGroup ∨ ty = .flagGroup) (hk : ∀ k ∈ kids, Basic k)
    (h : reflowParg cfg path n w0 term attr kids c = .ok o) : Made cfg (.mk ty attr pk bs) kids path c o := by
  unfold reflowParg at h
  simp only [bind_ok] at h
  obtain ⟨⟨ls, s'⟩, hr, h⟩ := h
  simp only [Except.ok.injEq] at h
  obtain ⟨a, _, rows⟩ := pargLoop_ran hk hr
  have rows := rows rfl rfl
  have ek : o.kids = ls := by rw [← h]
  have ec : o.cur = s'.cur := by rw [← h]
  have ew : o.wrap = if attr.tags.contains (S "cmdline") then false else w0 := by rw [← h]
  have ev : o.valid = true → s'.valid = true ∧
      (attr.tags.contains (S "cmdline") = true → (s'.rows : Int) ≤ cfg.maxRowsCmdline) ∧
      (attr.tags.contains (S "cmdline") = false → (countArguments kids : Int) > attr.maxPargs.getD cfg.maxPargsHwrap → w0 = true) := by
    rw [← h]
    simp only [Bool.and_eq_true]
    intro hv
    refine ⟨hv.1, ?_, ?_⟩
    · intro ht
      have := hv.2
      rw [if_pos ht] at this
      simpa using this
    · intro ht hg
      have := hv.2
      simp only [ht, Bool.false_eq_true, if_false] at this
      cases hmp : attr.maxPargs <;> simp only [hmp, Option.getD_none, Option.getD_some] at this hg <;>
        (rw [if_pos hg] at this; exact this)
  have hstop : ∀ info : Info, info.pos = c → stopOf (.mk ty attr pk info o.lines o.kids) = o.cur := by
    intro info hi
    subst hi
    rw [ek, ec, ← a.stop]
    rcases hty with rfl | rfl <;> simp only [stopOf]
  refine ⟨by rcases hty with rfl | rfl <;> exact ek ▸ a.runs, fun hv => ek ▸ (a.valid (ev hv).1).2, hstop, ?_⟩
  intro info hi
  have hs := hstop info hi
  have goal : ListPlaced cfg (o.valid && validate cfg (.mk ty attr pk bs) path c o) (join ['/'] path)
      (.mk ty attr pk info o.lines o.kids) := by
    have hw := a.whole rfl
    refine ⟨?_, ?_, ?_⟩
    · simp only [Laid.kids, Laid.pos, Laid.info, hi, ek]
      exact a.first rfl
    · simp only [Laid.kids, Laid.pos, Laid.info, hi, ek]
      exact hw.1
    · rw [Bool.and_eq_true]
      rintro ⟨hv, hval⟩
      have hg := validate_group (by rcases hty with rfl | rfl <;> simp [Box.ty]) hval
      have hv := ev hv
      have hm : moreLines (.mk ty attr pk info o.lines o.kids) = o.cur.row - c.row := by
        rw [moreLines, hs]; simp only [Laid.pos, Laid.info, hi]
      simp only [Laid.attr, Laid.kids, hm]
      split
      · rename_i ht
        rw [ew, if_pos ht] at hg
        refine ⟨?_, ?_⟩
        · rw [ek, ← rows]; exact hv.2.1 ht
        · rcases hg with hg | hg
          · simp at hg
          · exact hg
      · rename_i ht
        rw [ew, if_neg ht] at hg
        intro hc
        simp only [Laid.pos, Laid.info, hi, ek]
        refine hw.2 ?_
        rw [if_neg ht]
        rcases hg with hg | hg
        · exact hg
        · rcases hc with hc | hc | hc
          · refine hv.2.2 (by simpa using ht) ?_
            rw [countArguments, ← runs_count (f := fun t => t != .comment) hk a.runs, ← ek]
            exact hc
          · omega
          · exact absurd hc hg.2
  rcases hty with rfl | rfl <;> exact goal

theorem made_groups {attr : Attr} {pk : List Node} {bs : List Box} {kids : List Child} {w : Bool} {c : Cur} {o : Out}
    (hk : ∀ k ∈ kids, Basic k)
    (h : reflowArg cfg path n w term attr kids c = .ok o) : Made cfg (.mk .argGroup attr pk bs) kids path c o := by
  unfold reflowArg at h
  simp only [bind_ok] at h
  obtain ⟨m, hm, ⟨ls, s'⟩, hr, h⟩ := h
  simp only [Except.ok.injEq] at h
  have a := argLoop_ran hk rfl hr
  have ek : o.kids = ls := by rw [← h]
  have ec : o.cur = s'.cur := by rw [← h]
  have ew : o.wrap = w := by rw [← h]
  have ev : o.valid = true → s'.valid = true ∧
      ((m : Int) > attr.maxSubgroups.getD cfg.maxSubgroupsHwrap → w = true) := by
    rw [← h]
    simp only [Bool.and_eq_true]
    intro hv
    refine ⟨hv.1, ?_⟩
    intro hg
    have := hv.2
    cases hmp : attr.maxSubgroups <;> simp only [hmp, Option.getD_none, Option.getD_some] at this hg <;>
      (rw [if_pos hg] at this; exact this)
  have hstop : ∀ info : Info, info.pos = c → stopOf (.mk .argGroup attr pk info o.lines o.kids) = o.cur := by
    intro info hi
    subst hi
    rw [ek, ec, ← a.stop]
    simp only [stopOf]
  refine ⟨ek ▸ a.runs, fun hv => ek ▸ (a.valid (ev hv).1).2, hstop, ?_⟩
  intro info hi
  have hs := hstop info hi
  have hw := a.whole rfl
  refine ⟨?_, ?_, ?_⟩
  · simp only [Laid.kids, Laid.pos, Laid.info, hi, ek]
    exact a.first rfl
  · simp only [Laid.kids, Laid.pos, Laid.info, hi, ek]
    exact hw.1
  · rw [Bool.and_eq_true]
    rintro ⟨hv, hval⟩
    have hg := validate_group (by simp [Box.ty]) hval
    have hv := ev hv
    have hml : moreLines (.mk .argGroup attr pk info o.lines o.kids) = o.cur.row - c.row := by
      rw [moreLines, hs]; simp only [Laid.pos, Laid.info, hi]
    simp only [Box.ty, Box.attr, Box.pkids, Laid.attr, Laid.kids, hml]
    intro hc
    simp only [Laid.pos, Laid.info, hi, ek]
    refine hw.2 ?_
    rw [ew] at hg
    rcases hg with hg | hg
    · exact hg
    · rcases hc with hc | hc | hc
      · refine hv.2 ?_
        rw [countSubgroups_eq hm, ← runs_count (f := fun t => t == .kwargGroup || t == .pargGroup || t == .parenGroup) hk a.runs, ← ek]
        exact hc
      · omega
      · exact absurd hc hg.2

theorem made_went {ty : NT} {attr : Attr} {pk : List Node} {bs : List Box} {kids : List Child} {c : Cur} {o : Out}
    {s s' : Loop} (hty : ty = .body ∨ ty = .flowControl ∨ ty = .parenGroup) (h : Went path s kids o.kids s')
    (h1 : s.cur = c) (h2 : o.cur = s'.cur) (h3 : o.valid = true → s'.valid = true) :
    Made cfg (.mk ty attr pk bs) kids path c o := by
  refine ⟨by rcases hty with rfl | rfl | rfl <;> exact h.runs, fun hv => (h.valid (h3 hv)).2, ?_, ?_⟩ <;> intro info hi <;> subst hi
  · rw [h2, ← h.stop, h1]
    rcases hty with rfl | rfl | rfl <;> simp only [Box.ty, stopOf]
  · rcases hty with rfl | rfl | rfl <;> trivial

/-- What `validate` says of commands and keyword groups. -/
theorem validate_prefix {b : Box} {c : Cur} {o : Out} {w : Nat}
    (hb : b.ty = .statement ∧ prefixWidth cfg b.kids = w ∨ b.ty = .kwargGroup ∧ (firstName b.kids).length = w)
    (h : validate cfg b path c o = true) (h1 : o.cur.row - c.row > 1) (h2 : (w : Int) > cfg.maxPrefixChars) : o.wrap = true := by
  unfold validate at h
  simp only at h
  split at h
  · simp at h
  · rcases hb with ⟨e, e2⟩ | ⟨e, e2⟩ <;>
    · simp only [e, e2] at h
      cases hw : o.wrap with
      | true => rfl
      | false => simp [hw, h1, h2] at h

theorem made_keyword {attr : Attr} {pk : List Node} {bs : List Box} {kids : List Child} {w0 : Bool} {c : Cur} {o : Out}
    (hk : ∀ k ∈ kids, Basic k) (hb : kids.map (·.box) = bs)
    (h : reflowKwarg cfg path n w0 term bs kids c = .ok o) : Made cfg (.mk .kwargGroup attr pk bs) kids path c o := by
  unfold reflowKwarg at h
  cases kids with
  | nil => simp at h
  | cons kw rest =>
    simp only [bind_ok, check_ok] at h
    obtain ⟨_, hlen, _, hw, r0, hr0, h⟩ := h
    have hlen : rest.length ≤ 1 := by simpa using hlen
    obtain ⟨a1, a2, a3⟩ := hk kw (by simp) _ _ _ _ _ _ hr0
    have hfn : firstName bs = r0.1.word := by
      rw [← hb, ← forget_pkids, a1, trim_pkids]; rfl
    match rest, h, hlen with
    | [], h, _ =>
      simp only [Except.ok.injEq] at h
      subst h
      refine ⟨⟨⟨false, _, _, _, hr0⟩, trivial⟩, by simp, ?_, ?_⟩ <;> intro info hi <;> subst hi
      · simp only [Box.ty, stopOf, stopLast]; exact a3
      · exact ⟨r0.1, [], rfl, a2, Or.inl rfl⟩
    | [ag], h, _ =>
      simp only [bind_ok] at h
      obtain ⟨r1, hr1, h⟩ := h
      simp only [Except.ok.injEq] at h
      obtain ⟨b1, b2, b3⟩ := hk ag (by simp) _ _ _ _ _ _ hr1
      have ek : o.kids = [r0.1, r1.1] := by rw [← h]
      have ec : o.cur = r1.2 := by rw [← h]
      have ew : o.wrap = if ((firstName bs).length : Int) ≤ cfg.minPrefixChars then false else w0 := by rw [← h]
      have ev : o.valid = (r0.1.valid && r1.1.valid) := by rw [← h]
      rw [← ew] at b2
      have hstop : ∀ info : Info, info.pos = c → stopOf (.mk .kwargGroup attr pk info o.lines o.kids) = o.cur := by
        intro info hi
        rw [ek, ec]
        simp only [stopOf, stopLast]; exact b3
      refine ⟨ek ▸ ⟨⟨_, _, _, _, hr0⟩, ⟨_, _, _, _, hr1⟩, trivial⟩, by rw [ek, ev]; simp, hstop, ?_⟩
      intro info hi
      have hs := hstop info hi
      have hml : moreLines (.mk .kwargGroup attr pk info o.lines o.kids) = o.cur.row - c.row := by
        rw [moreLines, hs]; simp only [Laid.pos, Laid.info, hi]
      refine ⟨r0.1, [r1.1], ek, by rw [a2]; exact hi.symm, Or.inr ⟨r1.1, rfl, ?_, ?_, ?_⟩⟩
      · rw [b2, a3, below, a3]
        simp only [Laid.pos, Laid.info, hi, Box.ty, Box.attr, Box.pkids]
        cases o.wrap
        · exact Or.inl rfl
        · exact Or.inr rfl
      · intro hle
        rw [b2, ew, hfn, if_pos hle, a3]
        rfl
      · rw [Bool.and_eq_true]
        rintro ⟨_, hval⟩ hmore hlong
        have hwr : o.wrap = true := by
          refine validate_prefix (Or.inr ⟨rfl, rfl⟩) hval ?_ ?_
          · rw [← hml]; exact hmore
          · simp only [Box.kids, hfn]; exact hlong
        rw [b2, hwr, below, a3]
        simp only [if_true, Laid.pos, Laid.info, hi, Box.ty, Box.attr, Box.pkids]

theorem dangling_eq {a b d : Nat} (h : dangleCol cfg a b = .ok d) : danglingColumn cfg a b = some d := by
  unfold dangleCol at h
  unfold danglingColumn
  split at h
  · rw [if_pos (by assumption)]; simpa using h
  · rw [if_neg (by assumption)]
    split at h
    · rw [if_pos (by assumption)]; simpa using h
    · rw [if_neg (by assumption)]
      split at h
      · rw [if_pos (by assumption)]; simpa using h
      · simp at h

/-- The end of a command. -/
structure Closed (path : List Str) (start : Nat) (dangle : Bool) (c3 dc : Cur) (rest : List Child) (t : Tail) : Prop where
  runs : Runs path rest t.kids
  valid : t.valid = true → ∀ l ∈ t.kids, l.valid = true
  stop : ∀ c, stopLast c t.kids = t.cur
  parts : ∃ rp more, t.kids = rp :: more ∧ (dangle = true → rp.pos = dc) ∧
    (dangle = false → rp.pos = c3 ∨ more ≠ [] ∧ rp.pos = dc) ∧
    (more = [] ∨ ∃ cm, more = [cm] ∧
      (cm.pos = (stopOf rp).right 1 ∨ rp.pos = dc ∧ cm.pos = stopOf rp ∨
        cm.pos.col = start ∧ (stopOf rp).row < cm.pos.row))

theorem paren_runs {k : Child} (hk : Basic k) (hty : k.box.ty = .rparen) {t : Bool} {c : Cur} {m : Int} {l : Laid} {o : Cur}
    (h : k.run path t c m = .ok (l, o)) : o = c.right 1 := by
  obtain ⟨e1, e2, e3⟩ := hk _ _ _ _ _ _ h
  rw [← e3]
  rcases l with ⟨ty, a, pk, i, ls, ks⟩
  have e : ty = .rparen := by rw [← hty, ← trim_ty, ← e1]; rfl
  subst e
  simp only [stopOf]
  rw [← e2]; rfl

theorem tail_closed {start : Nat} {dangle : Bool} {rp cm : Child} {c3 rc dc : Cur} {rp0 : Laid × Cur} {t : Tail}
    (hrp : Basic rp) (hcm : Basic cm) (hty : rp.box.ty = .rparen)
    (hdc : dc.row = c3.row + 1) (hrc : rc = if dangle then dc else c3) (h0 : rp.run path false rc n = .ok rp0)
    (h : reflowTail cfg path n start dangle rp rc dc rp0 cm = .ok t) : Closed path start dangle c3 dc [rp, cm] t := by
  simp only [reflowTail, bind_ok, check_ok] at h
  obtain ⟨_, hct, c1, hc1, h⟩ := h
  obtain ⟨_, p0, q0⟩ := hrp _ _ _ _ _ _ h0
  obtain ⟨_, p1, q1⟩ := hcm _ _ _ _ _ _ hc1
  have e0 := paren_runs hrp hty h0
  split at h
  · rename_i hd
    simp only [Bool.and_eq_true, Bool.not_eq_true'] at hd
    simp only [bind_ok] at h
    obtain ⟨rp1, hrp1, c2, hc2, h⟩ := h
    obtain ⟨_, p2, q2⟩ := hrp _ _ _ _ _ _ hrp1
    obtain ⟨_, p3, q3⟩ := hcm _ _ _ _ _ _ hc2
    have e1 := paren_runs hrp hty hrp1
    split at h
    · simp only [bind_ok, Except.ok.injEq] at h
      obtain ⟨rp2, hrp2, c3', hc3, rfl⟩ := h
      obtain ⟨_, p4, q4⟩ := hcm _ _ _ _ _ _ hc3
      rw [h0] at hrp2
      simp only [Except.ok.injEq] at hrp2
      subst hrp2
      refine ⟨⟨⟨_, _, _, _, h0⟩, ⟨_, _, _, _, hc3⟩, trivial⟩, ?_, fun c => by simp only [stopLast]; exact q4,
        rp0.1, [c3'.1], rfl, ?_, ?_, Or.inr ⟨_, rfl, Or.inr (Or.inr ?_)⟩⟩
      · simp only [Bool.and_eq_true, List.mem_cons, List.not_mem_nil, or_false]
        rintro ⟨⟨ha, hb⟩, hc⟩ l (rfl | rfl)
        · exact ha
        · exact hc
      · intro hh; rw [hd.1] at hh; simp at hh
      · intro _
        left
        rw [p0, hrc, hd.1]; rfl
      · rw [p4, q0, e0, e1, hrc, hd.1]
        simp [Cur.right]; omega
    · simp only [Except.ok.injEq] at h
      subst h
      refine ⟨⟨⟨_, _, _, _, hrp1⟩, ⟨_, _, _, _, hc2⟩, trivial⟩, ?_, fun c => by simp only [stopLast]; exact q3,
        rp1.1, [c2.1], rfl, fun _ => p2, fun _ => Or.inr ⟨by simp, p2⟩, Or.inr ⟨_, rfl, Or.inr (Or.inl ⟨p2, ?_⟩)⟩⟩
      · simp only [Bool.and_eq_true, List.mem_cons, List.not_mem_nil, or_false]
        rintro ⟨⟨ha, hb⟩, hc⟩ l (rfl | rfl)
        · exact hb
        · exact hc
      · rw [p3, q2]
  · have hpos : (dangle = true → rp0.1.pos = dc) ∧ (dangle = false → rp0.1.pos = c3) := by
      rw [p0, hrc]
      constructor <;> intro hh <;> simp [hh]
    split at h
    · simp only [bind_ok, Except.ok.injEq] at h
      obtain ⟨rp2, hrp2, c3', hc3, rfl⟩ := h
      obtain ⟨_, p4, q4⟩ := hcm _ _ _ _ _ _ hc3
      rw [h0] at hrp2
      simp only [Except.ok.injEq] at hrp2
      subst hrp2
      refine ⟨⟨⟨_, _, _, _, h0⟩, ⟨_, _, _, _, hc3⟩, trivial⟩, ?_, fun c => by simp only [stopLast]; exact q4,
        rp0.1, [c3'.1], rfl, hpos.1, fun hh => Or.inl (hpos.2 hh), Or.inr ⟨_, rfl, Or.inr (Or.inr ?_)⟩⟩
      · simp only [Bool.and_eq_true, List.mem_cons, List.not_mem_nil, or_false]
        rintro ⟨ha, hc⟩ l (rfl | rfl)
        · exact ha
        · exact hc
      · rw [p4, q0]
        simp [Cur.right]
    · simp only [Except.ok.injEq] at h
      subst h
      refine ⟨⟨⟨_, _, _, _, h0⟩, ⟨_, _, _, _, hc1⟩, trivial⟩, ?_, fun c => by simp only [stopLast]; exact q1,
        rp0.1, [c1.1], rfl, hpos.1, fun hh => Or.inl (hpos.2 hh), Or.inr ⟨_, rfl, Or.inl ?_⟩⟩
      · simp only [Bool.and_eq_true, List.mem_cons, List.not_mem_nil, or_false]
        rintro ⟨ha, hc⟩ l (rfl | rfl)
        · exact ha
        · exact hc
      · rw [p1, q0]

theorem close_closed {start c3 : Cur} {argCol : Nat} {args : Box} {rest : List Child} {t : Tail} {wrap : Bool}
    (hk : ∀ k ∈ rest, Basic k)
    (h : reflowClose cfg path n wrap start argCol args c3 rest = .ok t) :
    ∃ dcol, danglingColumn cfg start.col argCol = some dcol ∧
      Closed path start.col (cfg.dangleParens && decide (c3.row > start.row) ||
        decide ((c3.col : Int) ≥ cfg.linewidth) || hasTerminal args) c3 ⟨c3.row + 1, dcol⟩ rest t := by
  unfold reflowClose at h
  cases rest with
  | nil => simp at h
  | cons rp rest' =>
    simp only [bind_ok, check_ok] at h
    obtain ⟨_, hty, dcol, hdc, rp0, hrp0, h⟩ := h
    have hty : rp.box.ty = .rparen := by simpa using hty
    have hrp := hk rp (by simp)
    refine ⟨dcol, dangling_eq hdc, ?_⟩
    generalize hdd : (cfg.dangleParens && decide (c3.row > start.row) ||
      decide ((c3.col : Int) ≥ cfg.linewidth) || hasTerminal args) = dangle at h hrp0
    obtain ⟨_, p0, q0⟩ := hrp _ _ _ _ _ _ hrp0
    match rest', h with
    | [], h =>
      simp only [Except.ok.injEq] at h
      subst h
      refine ⟨⟨⟨_, _, _, _, hrp0⟩, trivial⟩, by simp, fun c => by simp only [stopLast]; exact q0,
        rp0.1, [], rfl, ?_, ?_, Or.inl rfl⟩
      · intro hh; rw [p0, if_pos hh]
      · intro hh; left; rw [p0, hh]; rfl
    | [cm], h =>
      simp only [bind_ok, Except.ok.injEq] at h
      obtain ⟨t', ht', rfl⟩ := h
      have := tail_closed (start := start.col) hrp (hk cm (by simp)) hty (c3 := c3) rfl rfl hrp0 ht'
      exact ⟨this.runs, fun hv => this.valid (by simp only [Bool.and_eq_true] at hv; exact hv.2), this.stop, this.parts⟩
    | _ :: _ :: _, h => simp at h

theorem made_command {attr : Attr} {pk : List Node} {bs : List Box} {kids : List Child} {w0 : Bool} {c : Cur} {o : Out}
    (hk : ∀ k ∈ kids, Basic k) (hb : kids.map (·.box) = bs)
    (h : reflowStatement cfg path n w0 bs kids c = .ok o) : Made cfg (.mk .statement attr pk bs) kids path c o := by
  unfold reflowStatement at h
  cases kids with
  | nil => simp at h
  | cons fn rest =>
    simp only [bind_ok, check_ok] at h
    obtain ⟨_, hfn, r0, hr0, t, ht, h⟩ := h
    cases rest with
    | nil => simp at h
    | cons lp rest' =>
      simp only [bind_ok, check_ok] at h
      obtain ⟨_, hlp, r1, hr1, h⟩ := h
      cases rest' with
      | nil => simp at h
      | cons ag rest'' =>
        simp only [bind_ok, check_ok] at h
        obtain ⟨_, hag, r2, hr2, tl, htl, h⟩ := h
        simp only [Except.ok.injEq] at h
        obtain ⟨a1, a2, a3⟩ := hk fn (by simp) _ _ _ _ _ _ hr0
        obtain ⟨b1, b2, b3⟩ := hk lp (by simp) _ _ _ _ _ _ hr1
        obtain ⟨d1, d2, d3⟩ := hk ag (by simp) _ _ _ _ _ _ hr2
        have hword : t.spelling = r0.1.word := by
          rw [← forget_pkids, a1, trim_pkids]; exact (headTok_word ht).symm
        rw [name_gap, hword] at b2
        have hpw : prefixWidth cfg bs = r0.1.word.length + 1 + nameGap cfg r0.1.word := by
          rw [← hb, List.map_cons]
          cases hfb : fn.box
          refine width_eq cfg _ _ ?_ _ _ _ _
          rw [← forget_pkids, a1, trim_pkids, hfb]; rfl
        have ek : o.kids = r0.1 :: r1.1 :: r2.1 :: tl.kids := by rw [← h]
        have ec : o.cur = tl.cur := by rw [← h]
        have ew : o.wrap = if (prefixWidth cfg bs : Int) ≤ cfg.minPrefixChars then false else w0 := by rw [← h]
        have ev : o.valid = (r0.1.valid && r1.1.valid && r2.1.valid && tl.valid) := by rw [← h]
        rw [← ew] at d2 htl
        obtain ⟨dcol, hdcol, cl⟩ := close_closed (fun k hk' => hk k (by simp [hk'])) htl
        have hstop : ∀ info : Info, info.pos = c → stopOf (.mk .statement attr pk info o.lines o.kids) = o.cur := by
          intro info hi
          rw [ek, ec]
          simp only [stopOf, stopLast]; exact cl.stop _
        refine ⟨ek ▸ ⟨⟨_, _, _, _, hr0⟩, ⟨_, _, _, _, hr1⟩, ⟨_, _, _, _, hr2⟩, cl.runs⟩, ?_, hstop, ?_⟩
        · rw [ek, ev]
          simp only [Bool.and_eq_true, List.mem_cons]
          rintro ⟨⟨⟨ha, hb⟩, hc⟩, hd⟩ l (rfl | rfl | rfl | hl)
          · exact ha
          · exact hb
          · exact hc
          · exact cl.valid hd l hl
        · intro info hi
          have hs := hstop info hi
          have hml : moreLines (.mk .statement attr pk info o.lines o.kids) = o.cur.row - c.row := by
            rw [moreLines, hs]; simp only [Laid.pos, Laid.info, hi]
          obtain ⟨rp, more, e1, e2, e3, e4⟩ := cl.parts
          have hargs : r2.1.pos = if o.wrap = true then ⟨c.row + 1, c.col + cfg.tabSize⟩ else r1.2 := d2
          have hcol : (if o.wrap = true then ⟨c.row + 1, c.col + cfg.tabSize⟩ else r1.2 : Cur).col = r2.1.pos.col := by rw [hargs]
          rw [hcol] at hdcol
          have hmd : MustDangle cfg (.mk .statement attr pk info o.lines o.kids) r2.1 ↔
              (cfg.dangleParens && decide (r2.2.row > c.row) || decide ((r2.2.col : Int) ≥ cfg.linewidth) ||
                hasTerminal ag.box) = true := by
            simp only [MustDangle, d3, Laid.pos, Laid.info, hi, loud_forget, d1, terminal_trim, Bool.or_eq_true, Bool.and_eq_true,
              decide_eq_true_eq, gt_iff_lt, ge_iff_le, or_assoc]
          refine ⟨r0.1, r1.1, r2.1, rp, more, dcol, by simp only [Laid.kids, ek, e1], ?_, ?_, ?_, ?_, ?_, ?_, ?_, ?_, ?_⟩
          · simp only [Laid.pos, Laid.info, hi, Box.ty, Box.attr, Box.pkids]; exact hdcol
          · rw [a2]; exact hi.symm
          · rw [b2, a3]
          · simp only [Box.ty, Box.attr, Box.pkids]
            rw [show (Laid.mk .statement attr pk info o.lines o.kids).pos = c from hi, hargs, b3]
            cases o.wrap
            · exact Or.inl rfl
            · exact Or.inr rfl
          · intro hle
            rw [hargs, ew, hpw, if_pos hle, b3]; rfl
          · rw [Bool.and_eq_true]
            rintro ⟨_, hval⟩ hmore hlong
            have hwr : o.wrap = true := by
              refine validate_prefix (Or.inl ⟨rfl, rfl⟩) hval ?_ ?_
              · rw [← hml]; exact hmore
              · simp only [Box.kids, hpw]; exact hlong
            rw [hargs, hwr]
            simp only [if_true, Laid.pos, Laid.info, hi, Box.ty, Box.attr, Box.pkids]
          · intro hm
            rw [below, d3]
            exact e2 (hmd.1 hm)
          · intro hm
            rw [below, d3]
            exact e3 (by simpa using fun h => hm (hmd.2 h))
          · simp only [Laid.pos, Laid.info, hi, Box.ty, Box.attr, Box.pkids, below, d3]
            exact e4

theorem made_leaf {b : Box} {kids : List Child} {c : Cur} {o : Out} (hb : isLeaf b.ty = true) (h1 : o.kids = [])
    (h2 : ∀ info : Info, info.pos = c → stopOf (.mk b.ty b.attr b.pkids info o.lines []) = o.cur) :
    Made cfg b kids path c o := by
  refine ⟨by rw [if_pos hb]; exact h1, by simp [h1], by rw [h1]; exact h2, ?_⟩
  intro info hi
  rcases b with ⟨ty, a, pk, ks⟩
  cases ty <;> simp [isLeaf, Box.ty] at hb <;> trivial

theorem made_atword {attr : Attr} {pk : List Node} {bs : List Box} {kids : List Child} {w : Bool} {c : Cur} {o : Out}
    (hk : ∀ k ∈ kids, Basic k) (h : reflowAtWord cfg path n w kids c = .ok o) :
    Made cfg (.mk .atwordStatement attr pk bs) kids path c o := by
  unfold reflowAtWord at h
  cases kids with
  | nil => simp at h
  | cons a rest =>
    simp only [bind_ok, check_ok] at h
    obtain ⟨_, hw, r0, hr0, h⟩ := h
    obtain ⟨_, _, q0⟩ := hk a (by simp) _ _ _ _ _ _ hr0
    match rest, h with
    | [], h =>
      simp only [Except.ok.injEq] at h
      subst h
      exact ⟨⟨⟨_, _, _, _, hr0⟩, trivial⟩, by simp, fun info hi => by simp only [Box.ty, stopOf, stopLast]; exact q0,
        fun info hi => trivial⟩
    | [cm], h =>
      simp only [bind_ok, check_ok] at h
      obtain ⟨_, hcm, c1, hc1, h⟩ := h
      split at h
      · simp only [bind_ok, Except.ok.injEq] at h
        obtain ⟨c2, hc2, rfl⟩ := h
        obtain ⟨_, _, q1⟩ := hk cm (by simp) _ _ _ _ _ _ hc2
        exact ⟨⟨⟨_, _, _, _, hr0⟩, ⟨_, _, _, _, hc2⟩, trivial⟩, by simp,
          fun info hi => by simp only [Box.ty, stopOf, stopLast]; exact q1, fun info hi => trivial⟩
      · simp only [Except.ok.injEq] at h
        subst h
        obtain ⟨_, _, q1⟩ := hk cm (by simp) _ _ _ _ _ _ hc1
        exact ⟨⟨⟨_, _, _, _, hr0⟩, ⟨_, _, _, _, hc1⟩, trivial⟩, by simp,
          fun info hi => by simp only [Box.ty, stopOf, stopLast]; exact q1, fun info hi => trivial⟩
    | _ :: _ :: _, h => simp at h

theorem attempt_made {b : Box} {kids : List Child} {c : Cur} {p : Int × Bool} {o : Out} (hk : ∀ k ∈ kids, Basic k)
    (hkb : kids.map (·.box) = b.kids) (h : attempt cfg b kids path term c p = .ok o) : Made cfg b kids path c o := by
  rcases b with ⟨ty, attr, pk, bs⟩
  simp only [Box.kids] at hkb
  cases ty <;> simp only [attempt, Box.ty, Box.pkids, Box.attr, Box.kids] at h
  case body =>
    unfold reflowBody at h
    simp only [bind_ok, Except.ok.injEq] at h
    obtain ⟨⟨ls, s'⟩, hr, rfl⟩ := h
    exact made_went (Or.inl rfl) (bodyLoop_went hk hr) rfl rfl (fun h => h)
  case flowControl =>
    unfold reflowFlow at h
    simp only [bind_ok, Except.ok.injEq] at h
    obtain ⟨⟨ls, s'⟩, hr, rfl⟩ := h
    exact made_went (Or.inr (Or.inl rfl)) (flowLoop_went hk hr) rfl rfl (fun h => h)
  case parenGroup =>
    unfold reflowParenGroup at h
    simp only [bind_ok, Except.ok.injEq] at h
    obtain ⟨_, _, ⟨ls, s'⟩, hr, rfl⟩ := h
    exact made_went (Or.inr (Or.inr rfl)) (parenLoop_went hk hr) rfl rfl (fun h => h)
  case argGroup => exact made_groups hk h
  case pargGroup => exact made_list (Or.inl rfl) hk h
  case flagGroup => exact made_list (Or.inr rfl) hk h
  case statement => exact made_command hk hkb h
  case atwordStatement => exact made_atword hk h
  case kwargGroup => exact made_keyword hk hkb h
  case whitespace =>
    simp only [reflowWhitespace, Except.ok.injEq] at h
    subst h
    exact made_leaf rfl rfl (fun info hi => by simp only [Box.ty, stopOf]; exact hi)
  case lparen | rparen =>
    simp only [reflowParen, Except.ok.injEq] at h
    subst h
    exact made_leaf rfl rfl (fun info hi => by simp only [Box.ty, stopOf]; rw [hi])
  case onoff =>
    simp only [reflowOnOff, bind_ok, Except.ok.injEq] at h
    obtain ⟨t, ht, rfl⟩ := h
    refine made_leaf rfl rfl (fun info hi => ?_)
    simp only [Box.ty, Box.pkids, stopOf, hi]
    cases pk with
    | nil => simp [headTok] at ht
    | cons a as =>
      cases a with
      | tok u =>
        simp only [headTok, Except.ok.injEq] at ht
        subst ht
        simp only [switchText]
        split <;> rfl
      | node ty a cs => simp [headTok] at ht
  case comment =>
    unfold reflowComment at h
    cases hbr : bracketOf pk with
    | some t =>
      simp only [hbr, Except.ok.injEq] at h
      subst h
      refine made_leaf rfl rfl (fun info hi => ?_)
      simp only [Box.ty, Box.pkids, stopOf, hi, hbr, flow_advance]
    | none =>
      simp only [hbr, bind_ok] at h
      obtain ⟨ts, hts, lines, hl, h⟩ := h
      cases hlast : lines.getLast? with
      | none => simp [hlast] at h
      | some l =>
        simp only [hlast, Except.ok.injEq] at h
        subst h
        refine made_leaf rfl rfl (fun info hi => ?_)
        simp only [Box.ty, Box.pkids, stopOf, hi, hbr, hlast, Option.getD_some]
  all_goals exact made_scalar rfl hk h

/-- What `reflow` of a node stores. -/
theorem reflowNode_made {b : Box} {idx : Nat} {kids : List Child} (hk : ∀ k ∈ kids, Basic k)
    (hkb : kids.map (·.box) = b.kids) {c : Cur} {l : Laid} {o : Cur}
    (h : reflowNode cfg b idx kids path term c n = .ok (l, o)) :
    ∃ (info : Info) (r : Out), l = .mk b.ty b.attr b.pkids info r.lines r.kids ∧ o = r.cur ∧ info.pos = c ∧
      Made cfg b kids (path ++ (pathName idx b).toList) c r ∧
      (info.valid = true → r.valid = true ∧ validate cfg b (path ++ (pathName idx b).toList) c r = true) := by
  simp only [reflowNode] at h
  generalize path ++ (pathName idx b).toList = path' at h
  cases hr : runPasses (limitOf b.ty n) (attempt cfg b kids path' term c) (validate cfg b path' c) none
      (passesOf cfg b.ty) with
  | error e => simp [hr] at h
  | ok r =>
    obtain ⟨m, r⟩ := r
    simp only [hr, Except.ok.injEq, Prod.mk.injEq] at h
    obtain ⟨rfl, rfl⟩ := h
    have := runPasses_ok (P := fun r => ∃ r' : Out, Made cfg b kids path' c r' ∧
        r = { r' with valid := r'.valid && validate cfg b path' c r' })
      (by
        intro p o ho
        exact ⟨o, attempt_made hk hkb ho, rfl⟩) (by simp) hr
    obtain ⟨r', h1, h2⟩ := this
    simp only at h2
    subst h2
    refine ⟨_, r', rfl, rfl, rfl, h1, ?_⟩
    intro hv
    simpa using hv

end

section
variable {cfg : Cfg}

mutual
theorem reflow_basic : ∀ (b : Box) (idx : Nat), Basic ⟨b, reflow cfg b idx⟩
  | .mk ty attr pk kids, idx => by
    intro path term c n l o h
    simp only [reflow] at h
    have hk := children_basic kids 0
    obtain ⟨info, r, rfl, rfl, hi, hm, _⟩ := reflowNode_made hk (children_box kids 0) h
    refine ⟨?_, hi, hm.stop info hi⟩
    simp only [forget, trim, Box.ty, Box.attr, Box.pkids]
    congr 1
    have hr := hm.runs
    by_cases hl : isLeaf ty = true
    · rw [if_pos (show isLeaf (Box.mk ty attr pk kids).ty = true from hl)] at hr
      rw [if_pos hl, hr]; rfl
    · rw [if_neg (show ¬ isLeaf (Box.mk ty attr pk kids).ty = true from hl)] at hr
      rw [if_neg hl, runs_forget hk hr, trimL_map]
      have := congrArg (List.map trim) (children_box (cfg := cfg) kids 0)
      rw [List.map_map] at this
      exact this
theorem children_basic : ∀ (bs : List Box) (n : Nat), ∀ k ∈ children cfg n bs, Basic k
  | [], _ => by simp [children]
  | b :: bs, n => by
    simp only [children, List.mem_cons]
    rintro k (rfl | hk)
    · exact reflow_basic b n
    · exact children_basic bs _ k hk
end

theorem name_of_forget {l : Laid} {b : Box} (h : forget l = trim b) (idx : Nat) :
    partName idx l = (pathName idx b).toList := by
  rcases l with ⟨ty, a, pk, i, ls, ks⟩
  rcases b with ⟨ty', a', pk', ks'⟩
  simp only [forget, trim, Box.mk.injEq] at h
  obtain ⟨rfl, rfl, rfl, h⟩ := h
  have hfirst : isLeaf ty = false → (match ks with | k :: _ => k.word | [] => []) = firstName ks' := by
    intro hl
    rw [hl] at h
    cases ks with
    | nil =>
      cases ks' with
      | nil => rfl
      | cons b bs => simp [forgetL, trimL] at h
    | cons k ks =>
      cases ks' with
      | nil => simp [forgetL, trimL] at h
      | cons b bs =>
        simp only [Bool.false_eq_true, if_false, forgetL, trimL, List.cons.injEq] at h
        simp only [firstName, ← forget_pkids, h.1, trim_pkids]
  cases ty <;> try rfl
  case statement =>
    have := hfirst rfl
    simp only [partName, pathName, Laid.ty, Box.ty, Laid.kids, Box.kids, ← this]
    cases ks <;> rfl
  case kwargGroup =>
    have := hfirst rfl
    simp only [partName, pathName, Laid.ty, Box.ty, Laid.kids, Box.kids, ← this]
    cases ks <;> rfl
  case onoff =>
    simp only [partName, pathName, Laid.ty, Box.ty, Box.pkids]
    cases pk with
    | nil => rfl
    | cons x xs => cases x <;> rfl

theorem arranged_weak {strict : Bool} {path : Str} {l : Laid} (h : Arranged cfg strict path l) : Arranged cfg false path l := by
  unfold Arranged at h ⊢
  split at h
  · obtain ⟨name, lp, args, rp, rest, dcol, h1, h2, h3, h4, h5, h6, h7, h8⟩ := h
    exact ⟨name, lp, args, rp, rest, dcol, h1, h2, h3, h4, h5, h6, nofun, h8⟩
  · obtain ⟨k, rest, h1, h2, h3⟩ := h
    exact ⟨k, rest, h1, h2, h3.imp id fun ⟨a, e, h4, h5, _⟩ => ⟨a, e, h4, h5, nofun⟩⟩
  · exact ⟨h.1, h.2.1, nofun⟩
  · exact ⟨h.1, h.2.1, nofun⟩
  · exact ⟨h.1, h.2.1, nofun⟩
  · trivial

mutual
/-- Every part is where it belongs. -/
theorem reflow_arranged : ∀ (b : Box) (idx : Nat) (path : List Str) (term : Bool) (c : Cur) (n : Int) (l : Laid) (o : Cur),
    reflow cfg b idx path term c n = .ok (l, o) →
    ∀ x ∈ partsFrom path idx l, ∀ strict : Bool, (strict = true → l.valid = true) → Arranged cfg strict (join ['/'] x.1) x.2
  | .mk ty attr pk kids, idx, path, term, c, n, l, o, h => by
    have hbasic := reflow_basic (cfg := cfg) (.mk ty attr pk kids) idx path term c n l o h
    have hname := name_of_forget hbasic.1 idx
    simp only [reflow] at h
    have hk := children_basic (cfg := cfg) kids 0
    obtain ⟨info, r, rfl, rfl, hi, hm, hv⟩ := reflowNode_made hk (children_box kids 0) h
    simp only [Box.ty, Box.attr, Box.pkids] at hname hm ⊢
    intro x hx strict hs
    simp only [partsFrom, hname] at hx
    have hs' : strict = true → r.valid = true ∧ _ := fun e => hv (hs e)
    rcases List.mem_cons.1 hx with rfl | hx
    · have := hm.placed info hi
      simp only [Box.ty, Box.attr, Box.pkids] at this
      cases strict with
      | true =>
        obtain ⟨v1, v2⟩ := hs' rfl
        rw [v1, v2] at this
        exact this
      | false => exact arranged_weak this
    · have hr := hm.runs
      by_cases hl : isLeaf ty = true
      · rw [if_pos (show isLeaf (Box.mk ty attr pk kids).ty = true from hl)] at hr
        rw [hr] at hx; simp [partsFromL] at hx
      · rw [if_neg (show ¬ isLeaf (Box.mk ty attr pk kids).ty = true from hl)] at hr
        exact children_arranged kids 0 _ r.kids hr x hx strict (fun e => hm.valid (hs' e).1)
theorem children_arranged : ∀ (bs : List Box) (n : Nat) (path : List Str) (ls : List Laid), Runs path (children cfg n bs) ls →
    ∀ x ∈ partsFromL path n ls, ∀ strict : Bool, (strict = true → ∀ l ∈ ls, l.valid = true) →
      Arranged cfg strict (join ['/'] x.1) x.2
  | [], _, path, ls, h => by
    cases ls with
    | nil => simp [partsFromL]
    | cons l ls => exact h.elim
  | b :: bs, n, path, ls, h => by
    cases ls with
    | nil => exact h.elim
    | cons l ls =>
      simp only [children] at h
      obtain ⟨⟨t, c, m, o, hr⟩, h⟩ := h
      intro x hx strict hs
      simp only [partsFromL] at hx
      rcases List.mem_append.1 hx with hx | hx
      · exact reflow_arranged b n path t c m l o hr x hx strict (fun e => hs e l (by simp))
      · have ht : l.ty = b.ty := by
          have := (reflow_basic b n path t c m l o hr).1
          rw [← forget_ty, this, trim_ty]
        rw [ht] at hx
        exact children_arranged bs _ path ls h x hx strict (fun e k hk => hs e k (by simp [hk]))
end

end

end Verif.Layout
