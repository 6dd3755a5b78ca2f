import Verif.WordSpec
import Verif.Groups

/-!
# Commands that are read word by word (lemmas for C94)
-/

namespace Verif.Parse
open Verif Py Lex
open Verif.Layout (Bald trailing_bald)

section
variable {ctx : Ctx} {r : Token} {more : List Token}

/-! ## Groups -/

/-- No group is open. -/
def noGroup : Open := ⟨closed, fun _ => true⟩

theorem sections_slot (op : Token → Opening) (stop : Token → Bool) (ws : List Token) : ∀ (slot : Slot) (stops : Token → Bool),
    (∀ t ∈ ws, stop t = stops t) →
    sections op ⟨slot, stops⟩ ws = (slotWords slot stop ws).map joins ++ sections op noGroup (slotRest slot stop ws) := by
  induction ws with
  | nil =>
    intro slot stops _
    cases hm : slot.more <;> simp [slotWords, slotRest, sections, hm]
  | cons t ts ih =>
    intro slot stops hstop
    by_cases hf : slot.forced = 0
    · cases hm : slot.more with
      | none =>
        have : sections op ⟨slot, stops⟩ (t :: ts) = sections op noGroup (t :: ts) := by
          simp [sections, noGroup, closed, hf, hm]
        rw [this]
        simp [slotWords, slotRest, hf, hm]
      | some fl =>
        have ht := hstop t (by simp)
        cases hst : stop t with
        | true =>
          rw [hst] at ht
          simp only [slotWords, slotRest, hf, hm, List.take_zero, List.drop_zero, List.takeWhile_cons, List.dropWhile_cons, hst]
          simp only [Bool.not_true, Bool.false_eq_true, if_false, List.map_nil, List.append_nil, List.nil_append]
          simp [sections, noGroup, closed, hf, hm, ← ht]
        | false =>
          rw [hst] at ht
          have ih := ih slot stops (fun u hu => hstop u (by simp [hu]))
          simp only [slotWords, slotRest, hf, hm, List.take_zero, List.drop_zero, List.map_nil, List.nil_append] at ih ⊢
          simp only [List.takeWhile_cons, List.dropWhile_cons, hst, Bool.not_false, if_true, List.map_cons, List.cons_append]
          rw [← ih]
          simp only [sections, hf, ne_eq, not_true_eq_false, if_false, hm, ← ht, Bool.false_eq_true]
          rfl
    · have ih := ih slot.pred stops (fun u hu => hstop u (by simp [hu]))
      obtain ⟨k, hk⟩ := Nat.exists_eq_succ_of_ne_zero hf
      have e : sections op ⟨slot, stops⟩ (t :: ts) = joins (mk2 slot.fflags t) :: sections op ⟨slot.pred, stops⟩ ts := by
        simp only [sections, ne_eq, hf, not_false_eq_true, if_true]
        rfl
      rw [e, ih]
      have h1 : slotWords slot stop (t :: ts) = mk2 slot.fflags t :: slotWords slot.pred stop ts := by
        simp [slotWords, Slot.pred, hk]
      have h2 : slotRest slot stop (t :: ts) = slotRest slot.pred stop ts := by
        simp [slotRest, Slot.pred, hk]
      rw [h1, h2]
      simp

theorem sections_open (op : Token → Opening) (t : Token) (ts : List Token) :
    sections op noGroup (t :: ts) = ⟨some (op t).keyword, (op t).kind, t⟩ :: sections op (op t).group ts := by
  simp [sections, noGroup, closed]

/-- Everything after an open slot without words of its own. -/
theorem sections_done (op : Token → Opening) (stops : Token → Bool) (flags : List Str) (ws : List Token) :
    sections op ⟨⟨0, flags, none⟩, stops⟩ ws = sections op noGroup ws := by
  cases ws <;> simp [sections, noGroup, closed]

/-- How the words of an argument list relate to the keywords of a command. -/
structure Apart (ks : List Str) (args : List Token) : Prop where
  /-- what is spelled like a keyword is one -/
  keyword : ∀ t ∈ args, isWs t = false → spelledIn t ks = true → t.type = .word
  /-- blanks are not spelled like a keyword -/
  blank : ∀ t ∈ args, isWs t = true → spelledIn t ks = false

theorem Apart.drop {ks : List Str} {a b : List Token} (h : Apart ks (a ++ b)) : Apart ks b :=
  ⟨fun t ht => h.keyword t (by simp [ht]), fun t ht => h.blank t (by simp [ht])⟩

theorem spelled_sub {t : Token} {ks ks' : List Str} (hs : ∀ k ∈ ks', k ∈ ks) (h : spelledIn t ks' = true) :
    spelledIn t ks = true := by
  simp only [spelledIn, List.any_eq_true] at h ⊢
  obtain ⟨k, hk, e⟩ := h
  exact ⟨k, hs k hk, e⟩

theorem Apart.sub {ks ks' : List Str} {args : List Token} (h : Apart ks args) (hs : ∀ k ∈ ks', k ∈ ks) : Apart ks' args := by
  refine ⟨fun t ht hw hk => h.keyword t ht hw (spelled_sub hs hk), fun t ht hw => ?_⟩
  have := h.blank t ht hw
  cases e : spelledIn t ks' with
  | false => rfl
  | true => rw [spelled_sub hs e] at this; exact this

theorem named_eq (t : Token) (ks : List Str) : named t ks = kwargIn t ks := by
  unfold named kwargIn
  rw [keywordText_eq]
  rfl

/-- What is spelled like a keyword and is a word is one. -/
theorem spelled_named {t : Token} {ks : List Str} (hu : ∀ k ∈ ks, upper k = k) (h : spelledIn t ks = true → t.type = .word) :
    spelledIn t ks = named t ks := by
  cases e : spelledIn t ks with
  | true =>
    have hw := h e
    simp only [spelledIn, List.any_eq_true, beq_iff_eq] at e
    obtain ⟨k, hk, e⟩ := e
    rw [hu k hk] at e
    simp [named, keywordText, hw, ← e, hk]
  | false =>
    cases e' : named t ks with
    | false => rfl
    | true =>
      rw [named_eq] at e'
      rw [spelled_of_kwargIn e'] at e
      simp at e

theorem sems_ws {a : List Token} : ∀ t ∈ semantics a, isWs t = false := by
  intro t ht
  simp only [semantics, List.mem_filter, isSemantic, Bool.not_eq_true', Bool.or_eq_false_iff] at ht
  exact ht.2.1.1

theorem sem_mem {a : List Token} : ∀ t ∈ semantics a, t ∈ a := fun _ ht => (List.mem_filter.1 ht).1

/-- A positional group that takes any number of words. -/
theorem seg_pos {op : Token → Opening} {spec : PSpec} {fl : List Str} {stops : Token → Bool} {brk : List Breaker}
    {m : Nat} {up : Bool} {t : Token} {ts : List Token} {sub : Node} {rest : List Token}
    (hs : posSlot spec = some ⟨0, [], some fl⟩) (hb : .paren ∈ brk) (ha : Args (t :: ts) r more) (ht : isSemantic t = true)
    (hop : op t = ⟨false, kindOf fl t, ⟨⟨0, [], some fl⟩, stops⟩⟩)
    (hst : ∀ u ∈ t :: ts, isWs u = false → shouldBreak u brk = stops u)
    (hbl : ∀ u ∈ t :: ts, isWs u = true → shouldBreak u brk = false) (h0 : stops t = false)
    (h : exec ctx m (.pos spec brk) up (t :: (ts ++ r :: more)) = .ok (sub, rest)) :
    ∃ a b at_ ds, sub = .node .pargGroup at_ ds ∧ t :: ts = a ++ b ∧ rest = b ++ r :: more ∧
      marked false (leafsL ds) ++ sections op noGroup (semantics b) = sections op noGroup (semantics (t :: ts)) := by
  obtain ⟨at_, ds, rfl, ⟨a, b, f2, f3, f4, f5⟩, f6⟩ := pos_words (args := t :: ts) hs hb ha hbl h
  refine ⟨a, b, at_, ds, rfl, f2, f3, ?_⟩
  rw [f4, f6, semantics_word ht, sections_open, hop]
  have hst' : ∀ u ∈ semantics ts, shouldBreak u brk = stops u := by
    intro u hu
    exact hst u (List.mem_cons_of_mem _ (sem_mem u hu)) (sems_ws u hu)
  have hbt : shouldBreak t brk = false := by
    rw [hst t (by simp) (by
      simp only [isSemantic, Bool.not_eq_true', Bool.or_eq_false_iff] at ht
      exact ht.1.1), h0]
  rw [sections_slot op (fun u => shouldBreak u brk) (semantics ts) ⟨0, [], some fl⟩ stops hst', ← List.cons_append]
  congr 1
  · simp only [slotWords, List.take_zero, List.drop_zero, List.map_nil, List.nil_append, List.takeWhile_cons, hbt,
      Bool.not_false, if_true, List.map_cons, marked_cons]
    rfl
  · simp [slotRest, hbt]

/-- A keyword and what follows it. -/
theorem seg_key {op : Token → Opening} {w : Str} {p : ArgP} {slot : Slot} {stops : Token → Bool} {brk : List Breaker}
    {m : Nat} {up : Bool} {t : Token} {ts : List Token} {sub : Node} {rest : List Token}
    (hs : keySlot p = some slot) (hb : .paren ∈ brk) (ha : Args (t :: ts) r more) (ht : isSemantic t = true)
    (hop : op t = ⟨true, .keyword, ⟨slot, stops⟩⟩)
    (hst : ∀ u ∈ t :: ts, isWs u = false → shouldBreak u brk = stops u)
    (hbl : ∀ u ∈ t :: ts, isWs u = true → shouldBreak u brk = false)
    (h : exec ctx m (.kwGroup w p brk) up (t :: (ts ++ r :: more)) = .ok (sub, rest)) :
    ∃ a b ds, sub = mk .kwargGroup ds ∧ t :: ts = a ++ b ∧ rest = b ++ r :: more ∧
      marked true (leafsL ds) ++ sections op noGroup (semantics b) = sections op noGroup (semantics (t :: ts)) := by
  obtain ⟨ds, words, rfl, g1, ⟨a, b, f2, f3, f4, f5⟩, f6⟩ := keyword_words hs hb ha.tail
    (fun u hu hwu => hbl u (by simp [hu]) hwu) h
  refine ⟨t :: a, b, ds, rfl, by rw [f2]; rfl, f3, ?_⟩
  have hst' : ∀ u ∈ semantics ts, shouldBreak u brk = stops u := by
    intro u hu
    exact hst u (List.mem_cons_of_mem _ (sem_mem u hu)) (sems_ws u hu)
  rw [f4, g1, semantics_word ht, sections_open, hop, marked_cons, f6,
    sections_slot op (fun u => shouldBreak u brk) (semantics ts) slot stops hst']
  rfl

/-- The words at the start. -/
theorem seg_first {op : Token → Opening} {n : Nat} {flags : List Str} {spec : PSpec} {brk : List Breaker} {m : Nat} {up : Bool}
    {args : List Token} {sub : Node} {rest : List Token} (hs : posSlot spec = some ⟨n + 1, flags, none⟩) (hb : .paren ∈ brk)
    (ha : Args args r more) (hbl : ∀ u ∈ args, isWs u = true → shouldBreak u brk = false)
    (h : exec ctx m (.pos spec brk) up (args ++ r :: more) = .ok (sub, rest)) :
    ∃ a b at_ ds, sub = .node .pargGroup at_ ds ∧ args = a ++ b ∧ rest = b ++ r :: more ∧
      marked false (leafsL ds) ++ sections op noGroup (semantics b) = firstWords (n + 1) flags op (semantics args) := by
  obtain ⟨at_, ds, rfl, ⟨a, b, f2, f3, f4, f5⟩, f6⟩ := pos_words hs hb ha hbl h
  refine ⟨a, b, at_, ds, rfl, f2, f3, ?_⟩
  rw [f4, f6]
  cases hw : semantics args with
  | nil => simp [slotWords, slotRest, marked, firstWords, sections]
  | cons t ts =>
    simp only [firstWords, exactly, Nat.add_sub_cancel]
    rw [sections_slot op (fun _ => true) ts ⟨n, flags, none⟩ _ (fun _ _ => rfl)]
    simp only [slotWords, slotRest, List.take_succ_cons, List.drop_succ_cons, List.map_cons, List.append_nil, marked_cons,
      List.cons_append]
    rfl

theorem break_one (t : Token) (ks : List Str) (ht : t.type ≠ .rparen) :
    shouldBreak t ([.paren] ++ [kwBreaker ks]) = spelledIn t ks := by
  simp only [shouldBreak, List.cons_append, List.nil_append, List.any_cons, List.any_nil, kwBreaker_fires, Bool.or_false]
  simp [Breaker.fires, ht]

theorem break_none (t : Token) (ht : t.type ≠ .rparen) : shouldBreak t [.paren] = false := by
  simp [shouldBreak, Breaker.fires, ht]

theorem plus_slot (fl : List Str) (legacy : Bool) : posSlot { nargs := .str (S "+"), flags := fl, legacy := legacy } =
    some ⟨0, [], some fl⟩ := by
  have : S "+" ≠ S "?" := by decide
  simp [posSlot, this]

theorem int_slot (n : Nat) (fl : List Str) (legacy : Bool) :
    posSlot { nargs := .int (n : Int), flags := fl, legacy := legacy } = some ⟨n, fl, none⟩ := by
  simp [posSlot]

/-! ## `set` -/

theorem addTags_group (tags : List Str) (at_ : Attr) (ds : List Node) :
    addTags tags (.node .pargGroup at_ ds) = .node .pargGroup { at_ with tags := at_.tags ++ tags } ds := rfl

/-- The words that end groups in `set`. -/
def setStops : List Str := [S "CACHE", S "PARENT_SCOPE"]

theorem set_words {vn : Option Str} : ∀ (m : Nat) (up : Bool) (acc : List Node) (args : List Token), Args args r more →
    Apart setStops args → ∀ nd rest, exec ctx m (.setLoop vn [.paren] acc) up (args ++ r :: more) = .ok (nd, rest) →
    ∃ cs, nd = mkArg .set (acc ++ cs) ∧ cs.flatMap groupMarks = sections setOpening noGroup (semantics args)
  | 0, _, _, _, _, _, _, _, h => by simp [exec] at h
  | m + 1, up, acc, args, ha, hp, nd, rest, h => by
    simp only [exec, step] at h
    cases args with
    | nil =>
      simp only [List.nil_append, setIter, rparen_break (List.mem_singleton.2 rfl) ha.close, if_true, Except.ok.injEq,
        Prod.mk.injEq] at h
      exact ⟨[], by simp [h.1], by simp [semantics, sections]⟩
    | cons t ts =>
      have hsw := ha.bald.switch t (by simp)
      have hnr : ∀ u ∈ t :: ts, u.type ≠ .rparen := fun u hu => (ha.noParen u hu).2
      simp only [List.cons_append, setIter, break_none t (hnr t (by simp)), Bool.false_eq_true, if_false, hsw.1, Bool.false_and] at h
      have go : ∀ {x : Node} {a b : List Token}, t :: ts = a ++ b →
          exec ctx m (.setLoop vn [.paren] (acc ++ [x])) up (b ++ r :: more) = .ok (nd, rest) →
          groupMarks x ++ sections setOpening noGroup (semantics b) = sections setOpening noGroup (semantics (t :: ts)) →
          ∃ cs, nd = mkArg .set (acc ++ cs) ∧ cs.flatMap groupMarks = sections setOpening noGroup (semantics (t :: ts)) := by
        intro x a b e h he
        obtain ⟨cs, e1, e2⟩ := set_words m up _ b (by rw [e] at ha; exact ha.drop) (by rw [e] at hp; exact hp.drop) nd rest h
        exact ⟨x :: cs, by simp [e1], by rw [List.flatMap_cons, e2, he]⟩
      split at h
      · rename_i hw
        exact go (a := [t]) (b := ts) rfl h (by rw [semantics_ws hw]; rfl)
      · rename_i hw
        have hw : isWs t = false := by simpa using hw
        have hsem : isSemantic t = true := (ha.bald.ink t (by simp)).resolve_left (by simp [hw])
        have hk : ∀ k : Str, k ∈ setStops → (normKwarg t = some k ↔ named t [k] = true) := by
          intro k _
          rw [named, keywordText_eq]
          cases normKwarg t <;> simp
        have hone : ∀ u ∈ t :: ts, isWs u = true → ∀ ks : List Str, (∀ k ∈ ks, k ∈ setStops) →
            shouldBreak u ([.paren] ++ [kwBreaker ks]) = false := by
          intro u hu hwu ks hks
          rw [break_one u ks (hnr u hu)]
          exact (hp.sub hks).blank u hu hwu
        have hstop : ∀ ks : List Str, ∀ u ∈ t :: ts, isWs u = false →
            shouldBreak u ([.paren] ++ [kwBreaker ks]) = spelledIn u ks := fun ks u hu _ => break_one u ks (hnr u hu)
        have hup : ∀ k ∈ setStops, upper k = k := by decide +kernel
        have hspell : ∀ ks : List Str, (∀ k ∈ ks, k ∈ setStops) → spelledIn t ks = named t ks := by
          intro ks hks
          exact spelled_named (fun k hk => hup k (hks k hk)) ((hp.sub hks).keyword t (by simp) hw)
        split at h
        · rename_i hc
          obtain ⟨⟨sub, rest1⟩, h1, h⟩ := Parse.bind_ok.1 h
          simp only at h
          split at h
          · simp at h
          · split at h
            · obtain ⟨a, b, ds, rfl, f2, f3, f4⟩ := seg_key (op := setOpening) (slot := any [S "FORCE"])
                (stops := fun u => spelledIn u [S "CACHE", S "PARENT_SCOPE"]) (by decide +kernel) (by simp) ha hsem
                (by rw [setOpening, if_pos ((hk _ (by simp [setStops])).1 hc)]; rfl) (hstop _)
                (fun u hu hwu => hone u hu hwu _ (fun _ h => h)) h1
              rw [f3] at h
              exact go f2 h f4
            · simp at h
        · rename_i hc
          have hc' : named t [S "CACHE"] = false := by
            cases e : named t [S "CACHE"] with
            | false => rfl
            | true => exact absurd ((hk _ (by simp [setStops])).2 e) hc
          split at h
          · rename_i hps
            obtain ⟨⟨sub, rest1⟩, h1, h⟩ := Parse.bind_ok.1 h
            have h1 := (must_ok h1).1
            obtain ⟨a, b, at_, ds, rfl, f2, f3, f4⟩ := seg_pos (op := setOpening) (stops := fun u => spelledIn u [S "CACHE"])
              (plus_slot _ _) (by simp) ha hsem
              (by rw [setOpening, if_neg (by simp [hc']), if_pos ((hk _ (by simp [setStops])).1 hps)]; rfl) (hstop _)
              (fun u hu hwu => hone u hu hwu _ (by simp [setStops]))
              (by rw [hspell _ (by simp [setStops])]; exact hc') h1
            simp only at h
            rw [f3] at h
            exact go f2 h f4
          · rename_i hps
            have hps' : named t [S "PARENT_SCOPE"] = false := by
              cases e : named t [S "PARENT_SCOPE"] with
              | false => rfl
              | true => exact absurd ((hk _ (by simp [setStops])).2 e) hps
            obtain ⟨⟨sub, rest1⟩, h1, h⟩ := Parse.bind_ok.1 h
            have hkind : kindOf [] t = .argument := by
              unfold kindOf
              split <;> simp
            obtain ⟨a, b, at_, ds, rfl, f2, f3, f4⟩ := seg_pos (op := setOpening)
              (stops := fun u => spelledIn u [S "CACHE", S "PARENT_SCOPE"])
              (plus_slot _ _) (by simp) ha hsem
              (by rw [setOpening, if_neg (by simp [hc']), if_neg (by simp [hps'])]; rfl) (hstop _)
              (fun u hu hwu => hone u hu hwu _ (fun _ h => h))
              (by
                rw [hspell [S "CACHE", S "PARENT_SCOPE"] (fun _ h => h)]
                unfold named at hc' hps' ⊢
                cases e : keywordText t with
                | none => rfl
                | some w => rw [e] at hc' hps'; simp at hc' hps' ⊢; exact ⟨hc', hps'⟩) h1
            simp only at h
            split at h
            · split at h
              · split at h
                · rw [f3] at h
                  exact go f2 h f4
                · simp at h
              · simp at h
            · split at h
              · rw [f3] at h
                refine go f2 h ?_
                rw [addTags_group]
                exact f4
              · simp at h

theorem kind_none (t : Token) : kindOf [] t = .argument := by
  unfold kindOf
  split <;> simp

theorem kind_named {t : Token} {ks : List Str} (h : named t ks = true) : kindOf ks t = .flag := by
  unfold named at h
  unfold kindOf
  split at h <;> simp_all

theorem Args.blanks {args : List Token} (ha : Args args r more) : Args (args.dropWhile isWs) r more := by
  have := List.takeWhile_append_dropWhile (p := isWs) (l := args)
  rw [← this] at ha
  exact ha.drop

theorem Apart.blanks {ks : List Str} {args : List Token} (ha : Apart ks args) : Apart ks (args.dropWhile isWs) := by
  have := List.takeWhile_append_dropWhile (p := isWs) (l := args)
  rw [← this] at ha
  exact ha.drop

theorem leaves_marks (ws : List Token) : (leaves ws).flatMap groupMarks = [] := by
  induction ws with
  | nil => rfl
  | cons t ts ih =>
    show groupMarks (.tok t) ++ (leaves ts).flatMap groupMarks = []
    rw [ih]; rfl

/-- The parser of `set`. -/
theorem set_start {m : Nat} {up : Bool} {args : List Token} (ha : Args args r more) (hp : Apart setStops args) {nd : Node}
    {rest : List Token} (h : exec ctx m (.arg .setFn [.paren]) up (args ++ r :: more) = .ok (nd, rest)) :
    treeMarks nd = setMarks (semantics args) := by
  cases m with
  | zero => simp [exec] at h
  | succ m =>
    simp only [exec, step, argStart, setStart, (takeWhile_ws ha.close).1, (takeWhile_ws ha.close).2] at h
    obtain ⟨⟨sub, rest1⟩, h1, h⟩ := Parse.bind_ok.1 h
    have h1 := (must_ok h1).1
    obtain ⟨a, b, at_, ds, rfl, f2, f3, f4⟩ := seg_first (op := setOpening) (n := 0) (int_slot 1 _ _) (by simp) ha.blanks
      (fun u hu hwu => by
        rw [break_one u _ (ha.blanks.noParen u hu).2]
        exact (hp.blanks.sub (by simp [setStops])).blank u hu hwu) h1
    have ha2 := ha.blanks
    have hp2 := hp.blanks
    rw [f2] at ha2 hp2
    simp only at h
    rw [f3] at h
    obtain ⟨cs, rfl, e⟩ := set_words m up _ b ha2.drop hp2.drop _ _ h
    rw [mkArg, treeMarks, List.append_assoc, List.flatMap_append, leaves_marks, List.nil_append, List.flatMap_append, e,
      List.flatMap_cons, List.flatMap_nil, List.append_nil]
    rw [semantics_drop] at f4
    exact f4

/-! ## One group -/

theorem sections_group (ws : List Token) : sections oneGroup ⟨any [], fun _ => false⟩ ws = ws.map fun t => ⟨none, .argument, t⟩ := by
  induction ws with
  | nil => rfl
  | cons t ts ih =>
    rw [List.map_cons, ← ih]
    simp [sections, any, kind_none]

theorem sections_one (ws : List Token) : sections oneGroup noGroup ws = emptyMarks ws := by
  cases ws with
  | nil => rfl
  | cons t ts =>
    rw [sections_open]
    show _ :: sections oneGroup ⟨any [], fun _ => false⟩ ts = _
    rw [sections_group]
    simp [emptyMarks, grouped, marked, oneGroup, Function.comp_def]

/-- One group of all the words. -/
theorem seg_one {legacy : Bool} {m : Nat} {up : Bool} {args : List Token} {sub : Node} {rest : List Token}
    (ha : Args args r more)
    (h : exec ctx m (.pos { nargs := .str (S "+"), legacy := legacy } [.paren]) up (args ++ r :: more) = .ok (sub, rest)) :
    ∃ a b at_ ds, sub = .node .pargGroup at_ ds ∧ args = a ++ b ∧ rest = b ++ r :: more ∧ semantics b = [] ∧
      marked false (leafsL ds) = sections oneGroup noGroup (semantics args) := by
  obtain ⟨at_, ds, rfl, ⟨a, b, f2, f3, f4, f5⟩, f6⟩ := pos_words (plus_slot _ _) (List.mem_singleton.2 rfl) ha
    (fun u hu _ => break_none u (ha.noParen u hu).2) h
  have key : ∀ l : List Token, (∀ t ∈ l, t.type ≠ .rparen) →
      (l.takeWhile fun t => !shouldBreak t [.paren]) = l ∧ (l.dropWhile fun t => !shouldBreak t [.paren]) = [] := by
    intro l hl
    induction l with
    | nil => exact ⟨rfl, rfl⟩
    | cons t l ih =>
      have ih := ih (fun u hu => hl u (by simp [hu]))
      simp [break_none t (hl t (by simp)), ih]
  have hk := key (semantics args) (fun t ht => (ha.noParen t (sem_mem t ht)).2)
  refine ⟨a, b, at_, ds, rfl, f2, f3, ?_, ?_⟩
  · rw [f4]
    simp [slotRest, hk.2]
  · rw [f6, sections_one, emptyMarks, grouped]
    simp only [slotWords, List.take_zero, List.drop_zero, List.map_nil, List.nil_append, hk.1]
    congr 1
    exact List.map_congr_left fun t _ => by simp [mk2, kind_none]

theorem obj_words : ∀ (m : Nat) (up : Bool) (acc : List Node) (args : List Token), Args args r more →
    ∀ nd rest, exec ctx m (.objLoop [.paren] acc) up (args ++ r :: more) = .ok (nd, rest) →
    ∃ cs, nd = mk .argGroup (acc ++ cs) ∧ cs.flatMap groupMarks = sections oneGroup noGroup (semantics args)
  | 0, _, _, _, _, _, _, h => by simp [exec] at h
  | m + 1, up, acc, args, ha, nd, rest, h => by
    simp only [exec, step] at h
    cases args with
    | nil =>
      simp only [List.nil_append, objIter, rparen_break (List.mem_singleton.2 rfl) ha.close, if_true, Except.ok.injEq,
        Prod.mk.injEq] at h
      exact ⟨[], by simp [h.1], by simp [semantics, sections]⟩
    | cons t ts =>
      have hsw := ha.bald.switch t (by simp)
      simp only [List.cons_append, objIter, break_none t (ha.noParen t (by simp)).2, Bool.false_eq_true, if_false, hsw.1,
        Bool.false_and] at h
      split at h
      · rename_i hw
        obtain ⟨cs, e1, e2⟩ := obj_words m up _ ts ha.tail nd rest h
        exact ⟨.tok t :: cs, by simp [e1], by rw [semantics_ws hw, ← e2]; rfl⟩
      · obtain ⟨⟨sub, rest1⟩, h1, h⟩ := Parse.bind_ok.1 h
        obtain ⟨a, b, at_, ds, rfl, f2, f3, f4, f5⟩ := seg_one (args := t :: ts) ha (must_ok h1).1
        simp only at h
        rw [f3] at h
        have ha2 := ha
        rw [f2] at ha2
        obtain ⟨cs, e1, e2⟩ := obj_words m up _ b ha2.drop nd rest h
        refine ⟨.node .pargGroup at_ ds :: cs, by simp [e1], ?_⟩
        rw [List.flatMap_cons, e2, f4, ← f5]
        simp [groupMarks, sections]

theorem empty_words : ∀ (m : Nat) (up : Bool) (acc : List Node) (args : List Token), Args args r more →
    ∀ nd rest, exec ctx m (.emptyLoop [.paren] acc) up (args ++ r :: more) = .ok (nd, rest) →
    ∃ cs, nd = mk .argGroup (acc ++ cs) ∧ cs.flatMap groupMarks = sections oneGroup noGroup (semantics args)
  | 0, _, _, _, _, _, _, h => by simp [exec] at h
  | m + 1, up, acc, args, ha, nd, rest, h => by
    simp only [exec, step] at h
    cases args with
    | nil =>
      simp only [List.nil_append, emptyIter, rparen_break (List.mem_singleton.2 rfl) ha.close, if_true, Except.ok.injEq,
        Prod.mk.injEq] at h
      exact ⟨[], by simp [h.1], by simp [semantics, sections]⟩
    | cons t ts =>
      have hsw := ha.bald.switch t (by simp)
      simp only [List.cons_append, emptyIter, break_none t (ha.noParen t (by simp)).2, Bool.false_eq_true, if_false, hsw.1] at h
      split at h
      · rename_i hw
        obtain ⟨cs, e1, e2⟩ := empty_words m up _ ts ha.tail nd rest h
        exact ⟨.tok t :: cs, by simp [e1], by rw [semantics_ws hw, ← e2]; rfl⟩
      · obtain ⟨⟨sub, rest1⟩, h1, h⟩ := Parse.bind_ok.1 h
        obtain ⟨a, b, at_, ds, rfl, f2, f3, f4, f5⟩ := seg_one (args := t :: ts) ha (must_ok h1).1
        simp only at h
        rw [f3] at h
        have ha2 := ha
        rw [f2] at ha2
        obtain ⟨cs, e1, e2⟩ := empty_words m up _ b ha2.drop nd rest h
        refine ⟨.node .pargGroup at_ ds :: cs, by simp [e1], ?_⟩
        rw [List.flatMap_cons, e2, f4, ← f5]
        simp [groupMarks, sections]

/-- A command without arguments. -/
theorem empty_start {m : Nat} {up : Bool} {args : List Token} (ha : Args args r more) {nd : Node}
    {rest : List Token} (h : exec ctx m (.arg .emptyFn [.paren]) up (args ++ r :: more) = .ok (nd, rest)) :
    treeMarks nd = emptyMarks (semantics args) := by
  cases m with
  | zero => simp [exec] at h
  | succ m =>
    simp only [exec, step, argStart] at h
    obtain ⟨cs, rfl, e⟩ := empty_words m up _ args ha _ _ h
    rw [← sections_one, ← e]
    rfl

/-- `add_library(x OBJECT ...)`. -/
theorem obj_start {m : Nat} {up : Bool} {args : List Token} (ha : Args args r more) {nd : Node}
    {rest : List Token} (h : exec ctx m (.arg .addLibraryObject [.paren]) up (args ++ r :: more) = .ok (nd, rest)) :
    treeMarks nd = objectMarks (semantics args) := by
  cases m with
  | zero => simp [exec] at h
  | succ m =>
    simp only [exec, step, argStart, objStart, (takeWhile_ws ha.close).1, (takeWhile_ws ha.close).2] at h
    obtain ⟨⟨sub, rest1⟩, h1, h⟩ := Parse.bind_ok.1 h
    have h1 := (must_ok h1).1
    obtain ⟨a, b, at_, ds, rfl, f2, f3, f4⟩ := seg_first (op := oneGroup) (n := 1) (int_slot 2 _ _) (by simp) ha.blanks
      (fun u hu hwu => break_none u (ha.blanks.noParen u hu).2) h1
    have ha2 := ha.blanks
    rw [f2] at ha2
    simp only at h
    rw [f3] at h
    obtain ⟨cs, rfl, e⟩ := obj_words m up _ b ha2.drop _ _ h
    rw [mk, treeMarks, List.append_assoc, List.flatMap_append, leaves_marks, List.nil_append, List.flatMap_append, e,
      List.flatMap_cons, List.flatMap_nil, List.append_nil]
    rw [semantics_drop] at f4
    exact f4

/-- `foreach(var item ...)`. -/
theorem foreach_start {m : Nat} {up : Bool} {args : List Token} (ha : Args args r more) {nd : Node}
    {rest : List Token} (h : exec ctx m (.arg .foreachStandard [.paren]) up (args ++ r :: more) = .ok (nd, rest)) :
    treeMarks nd = firstWords 1 [] oneGroup (semantics args) := by
  cases m with
  | zero => simp [exec] at h
  | succ m =>
    simp only [exec, step, argStart, foreachStdStart, (takeWhile_ws ha.close).1, (takeWhile_ws ha.close).2] at h
    obtain ⟨⟨sub, rest1⟩, h1, h⟩ := Parse.bind_ok.1 h
    have h1 := (must_ok h1).1
    obtain ⟨a, b, at_, ds, rfl, f2, f3, f4⟩ := seg_first (op := oneGroup) (n := 0) (int_slot 1 _ _) (by simp) ha.blanks
      (fun u hu hwu => break_none u (ha.blanks.noParen u hu).2) h1
    have ha2 := ha.blanks
    rw [f2] at ha2
    simp only at h
    rw [f3] at h
    obtain ⟨⟨sub2, rest2⟩, h2, h⟩ := Parse.bind_ok.1 h
    obtain ⟨a', b', at', ds', rfl, g2, g3, g4, g5⟩ := seg_one ha2.drop (must_ok h2).1
    simp only [pure_ok, Prod.mk.injEq] at h
    rw [← h.1, mk, treeMarks, List.flatMap_append, leaves_marks, List.nil_append]
    simp only [List.flatMap_cons, List.flatMap_nil, List.append_nil, groupMarks]
    rw [g5, f4, semantics_drop]

theorem wsComments_bald : ∀ (n : Nat) (args : List Token), Args args r more → args.length ≤ n →
    wsComments (n + 1) (args ++ r :: more) = (leaves (args.takeWhile isWs), args.dropWhile isWs ++ r :: more)
  | n, [], ha, _ => by
    obtain ⟨h1, h2, h3⟩ := rparen_sem ha.close
    simp [wsComments, h1, h2, h3, leaves]
  | n, t :: ts, ha, hn => by
    have hsw := ha.bald.switch t (by simp)
    cases n with
    | zero => simp at hn
    | succ n =>
      have ih := wsComments_bald n ts ha.tail (by simpa using hn)
      cases hw : isWs t with
      | true => rw [List.cons_append, wsComments]; simp [hw, ih, leaves]
      | false => rw [List.cons_append, wsComments]; simp [hw, hsw.1, hsw.2, leaves]

/-- `file(WRITE)` and `file(APPEND)`. -/
theorem write_start {m : Nat} {up : Bool} {args : List Token} (ha : Args args r more) {nd : Node}
    {rest : List Token} (h : exec ctx m (.arg .fileWrite [.paren]) up (args ++ r :: more) = .ok (nd, rest)) :
    treeMarks nd = writeMarks (semantics args) := by
  have hws : ∀ (args : List Token), Args args r more → wsComments (args ++ r :: more).length (args ++ r :: more) =
      (leaves (args.takeWhile isWs), args.dropWhile isWs ++ r :: more) := by
    intro args ha
    have := wsComments_bald (args.length + more.length) args ha (by omega)
    simpa [Nat.add_assoc] using this
  cases m with
  | zero => simp [exec] at h
  | succ m =>
    simp only [exec, step, argStart, fileWriteStart, hws args ha] at h
    obtain ⟨⟨sub, rest1⟩, h1, h⟩ := Parse.bind_ok.1 h
    obtain ⟨a, b, at_, ds, rfl, f2, f3, f4⟩ := seg_first (op := oneGroup) (n := 1) (int_slot 2 _ _) (by simp) ha.blanks
      (fun u hu hwu => break_none u (ha.blanks.noParen u hu).2) h1
    have ha2 := ha.blanks
    rw [f2] at ha2
    simp only at h
    rw [f3, hws b ha2.drop] at h
    obtain ⟨⟨sub2, rest2⟩, h2, h⟩ := Parse.bind_ok.1 h
    obtain ⟨a', b', at', ds', rfl, g2, g3, g4, g5⟩ := seg_one ha2.drop.blanks h2
    simp only [pure_ok, Prod.mk.injEq] at h
    rw [← h.1, mk, treeMarks]
    simp only [List.flatMap_append, leaves_marks, List.nil_append, List.flatMap_cons, List.flatMap_nil, List.append_nil,
      groupMarks]
    rw [g5, semantics_drop, f4, semantics_drop]
    rfl

/-! ## `foreach` -/

/-- The keywords of `foreach(IN)`. -/
def inStops : List Str := [S "LISTS", S "ITEMS"]

theorem in_words : ∀ (m : Nat) (up : Bool) (acc : List Node) (args : List Token), Args args r more → Apart inStops args →
    ∀ nd rest, exec ctx m (.foreachInLoop [.paren] acc) up (args ++ r :: more) = .ok (nd, rest) →
    ∃ cs, nd = mk .argGroup (acc ++ cs) ∧ cs.flatMap groupMarks = sections inOpening noGroup (semantics args)
  | 0, _, _, _, _, _, _, _, h => by simp [exec] at h
  | m + 1, up, acc, args, ha, hp, nd, rest, h => by
    simp only [exec, step] at h
    cases args with
    | nil =>
      simp only [List.nil_append, foreachInIter, rparen_break (List.mem_singleton.2 rfl) ha.close, if_true, Except.ok.injEq,
        Prod.mk.injEq] at h
      exact ⟨[], by simp [h.1], by simp [semantics, sections]⟩
    | cons t ts =>
      have hsw := ha.bald.switch t (by simp)
      have hnr : ∀ u ∈ t :: ts, u.type ≠ .rparen := fun u hu => (ha.noParen u hu).2
      simp only [List.cons_append, foreachInIter, break_none t (hnr t (by simp)), Bool.false_eq_true, if_false, hsw.1,
        Bool.false_and] at h
      have go : ∀ {x : Node} {a b : List Token}, t :: ts = a ++ b →
          exec ctx m (.foreachInLoop [.paren] (acc ++ [x])) up (b ++ r :: more) = .ok (nd, rest) →
          groupMarks x ++ sections inOpening noGroup (semantics b) = sections inOpening noGroup (semantics (t :: ts)) →
          ∃ cs, nd = mk .argGroup (acc ++ cs) ∧ cs.flatMap groupMarks = sections inOpening noGroup (semantics (t :: ts)) := by
        intro x a b e h he
        obtain ⟨cs, e1, e2⟩ := in_words m up _ b (by rw [e] at ha; exact ha.drop) (by rw [e] at hp; exact hp.drop) nd rest h
        exact ⟨x :: cs, by simp [e1], by rw [List.flatMap_cons, e2, he]⟩
      split at h
      · rename_i hw
        exact go (a := [t]) (b := ts) rfl h (by rw [semantics_ws hw]; rfl)
      · rename_i hw
        have hw : isWs t = false := by simpa using hw
        have hsem : isSemantic t = true := (ha.bald.ink t (by simp)).resolve_left (by simp [hw])
        have hup : ∀ k ∈ inStops, upper k = k := by decide +kernel
        have hspell : spelledIn t [S "LISTS", S "ITEMS"] = named t [S "LISTS", S "ITEMS"] :=
          spelled_named hup (hp.keyword t (by simp) hw)
        split at h
        · rename_i hc
          obtain ⟨⟨sub, rest1⟩, h1, h⟩ := Parse.bind_ok.1 h
          obtain ⟨a, b, ds, rfl, f2, f3, f4⟩ := seg_key (op := inOpening) (slot := any [])
            (stops := fun u => spelledIn u [S "LISTS", S "ITEMS"]) (by decide +kernel) (by simp) ha hsem
            (by rw [inOpening, named_eq, if_pos hc]; rfl) (fun u hu _ => break_one u _ (hnr u hu))
            (fun u hu hwu => by rw [break_one u _ (hnr u hu)]; exact hp.blank u hu hwu) (must_ok h1).1
          simp only at h
          rw [f3] at h
          exact go f2 h f4
        · rename_i hc
          rw [← named_eq] at hc
          obtain ⟨⟨sub, rest1⟩, h1, h⟩ := Parse.bind_ok.1 h
          obtain ⟨a, b, at_, ds, rfl, f2, f3, f4⟩ := seg_pos (op := inOpening) (stops := fun u => spelledIn u [S "LISTS", S "ITEMS"])
            (plus_slot _ _) (by simp) ha hsem (by rw [inOpening, if_neg hc]; rfl) (fun u hu _ => break_one u _ (hnr u hu))
            (fun u hu hwu => by rw [break_one u _ (hnr u hu)]; exact hp.blank u hu hwu)
            (by rw [hspell]; simpa using hc) (must_ok h1).1
          simp only at h
          rw [f3] at h
          exact go f2 h f4

/-- `foreach(var IN ...)`. -/
theorem in_start {m : Nat} {up : Bool} {args : List Token} (ha : Args args r more) (hp : Apart inStops args) {nd : Node}
    {rest : List Token} (h : exec ctx m (.arg .foreachIn [.paren]) up (args ++ r :: more) = .ok (nd, rest)) :
    treeMarks nd = firstWords 2 [S "IN"] inOpening (semantics args) := by
  cases m with
  | zero => simp [exec] at h
  | succ m =>
    simp only [exec, step, argStart, foreachInStart, (takeWhile_ws ha.close).1, (takeWhile_ws ha.close).2] at h
    obtain ⟨⟨sub, rest1⟩, h1, h⟩ := Parse.bind_ok.1 h
    have h1 := (must_ok h1).1
    obtain ⟨a, b, at_, ds, rfl, f2, f3, f4⟩ := seg_first (op := inOpening) (n := 1) (int_slot 2 _ _) (by simp) ha.blanks
      (fun u hu hwu => break_none u (ha.blanks.noParen u hu).2) h1
    have ha2 := ha.blanks
    have hp2 := hp.blanks
    rw [f2] at ha2 hp2
    simp only at h
    rw [f3] at h
    obtain ⟨cs, rfl, e⟩ := in_words m up _ b ha2.drop hp2.drop _ _ h
    rw [mk, treeMarks, List.append_assoc, List.flatMap_append, leaves_marks, List.nil_append, List.flatMap_append, e,
      List.flatMap_cons, List.flatMap_nil, List.append_nil]
    rw [semantics_drop] at f4
    exact f4

/-! ## `add_custom_target` -/

theorem spelled_mem {t : Token} {ks : List Str} (hu : ∀ k ∈ ks, upper k = k) : spelledIn t ks = ks.contains (upper t.spelling) := by
  rw [Bool.eq_iff_iff]
  simp only [spelledIn, List.any_eq_true, beq_iff_eq, List.contains_iff_mem]
  constructor
  · rintro ⟨k, hk, e⟩
    rw [hu k hk] at e
    rwa [← e]
  · intro h
    exact ⟨_, h, hu _ h⟩

theorem target_upper : ∀ k ∈ targetWords, upper k = k := by decide +kernel
theorem target_keys : keySlots targetKwargs = some targetKeywords := by decide +kernel
theorem target_all : keys targetKwargs ++ targetFlags = targetWords := by decide +kernel
theorem target_switches : targetFlags = targetSwitches := rfl
theorem target_disjoint : ∀ k ∈ targetSwitches, k ∉ targetKeywords.map (·.1) ∧ targetKeywords.lookup k = none := by
  decide +kernel

theorem switch_word {k : Str} (h : k ∈ targetSwitches) : k ∈ targetWords := by
  simp [targetWords, h]

theorem key_word {k : Str} (h : k ∈ targetKeywords.map (·.1)) : k ∈ targetWords := by
  simp only [targetWords, List.mem_append]
  exact .inl h

/-- Flags that follow each other. -/
theorem flag_words : ∀ (m : Nat) (up : Bool) (acc : List Node) (args : List Token), Args args r more → Apart targetWords args →
    ∀ nd rest, exec ctx m (.flagLoop targetFlags ([.paren] ++ [kwBreaker (keys targetKwargs)]) acc) up (args ++ r :: more) =
      .ok (nd, rest) →
    ∃ a b ds, nd = mkPos (.str (S "+")) (acc ++ ds) ∧ args = a ++ b ∧ rest = b ++ r :: more ∧
      leafsL ds = ((semantics args).takeWhile fun u => spelledIn u targetSwitches).map (fun u => (NT.flag, u)) ∧
      semantics b = (semantics args).dropWhile fun u => spelledIn u targetSwitches
  | 0, _, _, _, _, _, _, _, h => by simp [exec] at h
  | m + 1, up, acc, args, ha, hp, nd, rest, h => by
    simp only [exec, step] at h
    cases args with
    | nil =>
      simp only [List.nil_append, flagIter, rparen_break (brk := [.paren] ++ [kwBreaker (keys targetKwargs)]) (by simp) ha.close,
        if_true, Except.ok.injEq, Prod.mk.injEq] at h
      exact ⟨[], [], [], by simp [h.1], rfl, h.2.symm, rfl, rfl⟩
    | cons t ts =>
      have hnr : t.type ≠ .rparen := (ha.noParen t (by simp)).2
      have hkeys : keys targetKwargs = targetKeywords.map (·.1) := (keySlots_keys target_keys).symm
      simp only [List.cons_append, flagIter] at h
      have hbr := break_one t (keys targetKwargs) hnr
      rw [hkeys] at hbr h
      cases hw : isWs t with
      | true =>
        have := (hp.sub fun k hk => key_word hk).blank t (by simp) hw
        rw [this] at hbr
        rw [List.cons_append] at hbr
        rw [hbr] at h
        simp only [Bool.false_eq_true, if_false, hw, if_true] at h
        rw [← hkeys] at h
        obtain ⟨a, b, ds, e1, e2, e3, e4, e5⟩ := flag_words m up _ ts ha.tail (Apart.drop (a := [t]) hp) nd rest h
        exact ⟨t :: a, b, .tok t :: ds, by simp [e1], by rw [e2]; rfl, e3, by rw [semantics_ws hw, ← e4]; rfl,
          by rw [semantics_ws hw, e5]⟩
      | false =>
        have hsem : isSemantic t = true := (ha.bald.ink t (by simp)).resolve_left (by simp [hw])
        rw [semantics_word hsem]
        have hsp : spelledIn t targetSwitches = targetFlags.contains (upper t.spelling) :=
          spelled_mem fun k hk => target_upper k (switch_word hk)
        have hkp : spelledIn t (targetKeywords.map (·.1)) = (targetKeywords.map (·.1)).contains (upper t.spelling) :=
          spelled_mem fun k hk => target_upper k (key_word hk)
        split at h
        · rename_i hb
          have hb : spelledIn t (targetKeywords.map (·.1)) = true := by rw [← hbr]; exact hb
          have hno : spelledIn t targetSwitches = false := by
            rw [hkp, List.contains_iff_mem] at hb
            cases e : spelledIn t targetSwitches with
            | false => rfl
            | true =>
              rw [hsp, List.contains_iff_mem] at e
              exact absurd hb (target_disjoint _ e).1
          simp only [Except.ok.injEq, Prod.mk.injEq] at h
          exact ⟨[], t :: ts, [], by simp [h.1], rfl, h.2.symm, by simp [hno, leafsL], by simp [hno, semantics_word hsem]⟩
        · simp only [hw, Bool.false_eq_true, if_false] at h
          split at h
          · rename_i hno
            have hno : spelledIn t targetSwitches = false := by rw [hsp]; simpa using hno
            simp only [Except.ok.injEq, Prod.mk.injEq] at h
            exact ⟨[], t :: ts, [], by simp [h.1], rfl, h.2.symm, by simp [hno, leafsL], by simp [hno, semantics_word hsem]⟩
          · rename_i hyes
            have hyes : spelledIn t targetSwitches = true := by rw [hsp]; simpa using hyes
            rw [ha.tail.trailing ctx, ← hkeys] at h
            obtain ⟨a, b, ds, e1, e2, e3, e4, e5⟩ := flag_words m up _ ts ha.tail (Apart.drop (a := [t]) hp) nd rest h
            refine ⟨t :: a, b, mk .flag [.tok t] :: ds, by simp [e1], by rw [e2]; rfl, e3, ?_, by simp [hyes, e5]⟩
            simp only [List.takeWhile_cons, hyes, if_true, List.map_cons, ← e4]
            rfl

theorem target_words : ∀ (m : Nat) (up : Bool) (state : Nat) (acc : List Node) (args : List Token), state ≠ 0 → Args args r more →
    Apart targetWords args → ∀ nd rest, exec ctx m (.targetLoop state [.paren] acc) up (args ++ r :: more) = .ok (nd, rest) →
    ∃ cs, nd = mk .argGroup (acc ++ cs) ∧ cs.flatMap groupMarks = sections targetOpening noGroup (semantics args)
  | 0, _, _, _, _, _, _, _, _, _, h => by simp [exec] at h
  | m + 1, up, state, acc, args, hs0, ha, hp, nd, rest, h => by
    simp only [exec, step] at h
    cases args with
    | nil =>
      simp only [List.nil_append, targetIter, rparen_break (List.mem_singleton.2 rfl) ha.close, if_true, Except.ok.injEq,
        Prod.mk.injEq] at h
      exact ⟨[], by simp [h.1], by simp [semantics, sections]⟩
    | cons t ts =>
      have hsw := ha.bald.switch t (by simp)
      have hnr : ∀ u ∈ t :: ts, u.type ≠ .rparen := fun u hu => (ha.noParen u hu).2
      simp only [List.cons_append, targetIter, break_none t (hnr t (by simp)), Bool.false_eq_true, if_false, hsw.1, hs0,
        target_all] at h
      have go : ∀ {x : Node} {a b : List Token} {state' : Nat}, state' ≠ 0 → t :: ts = a ++ b →
          exec ctx m (.targetLoop state' [.paren] (acc ++ [x])) up (b ++ r :: more) = .ok (nd, rest) →
          groupMarks x ++ sections targetOpening noGroup (semantics b) = sections targetOpening noGroup (semantics (t :: ts)) →
          ∃ cs, nd = mk .argGroup (acc ++ cs) ∧ cs.flatMap groupMarks = sections targetOpening noGroup (semantics (t :: ts)) := by
        intro x a b state' hs' e h he
        obtain ⟨cs, e1, e2⟩ := target_words m up state' _ b hs' (by rw [e] at ha; exact ha.drop) (by rw [e] at hp; exact hp.drop) nd rest h
        exact ⟨x :: cs, by simp [e1], by rw [List.flatMap_cons, e2, he]⟩
      split at h
      · rename_i hw
        exact go (a := [t]) (b := ts) hs0 rfl h (by rw [semantics_ws hw]; rfl)
      · rename_i hw
        have hw : isWs t = false := by simpa using hw
        have hsem : isSemantic t = true := (ha.bald.ink t (by simp)).resolve_left (by simp [hw])
        have hspell : ∀ ks : List Str, (∀ k ∈ ks, k ∈ targetWords) → ∀ u ∈ t :: ts, isWs u = false → spelledIn u ks = named u ks :=
          fun ks hks u hu hwu => spelled_named (fun k hk => target_upper k (hks k hk)) ((hp.sub hks).keyword u hu hwu)
        have hst : ∀ u ∈ t :: ts, isWs u = false →
            shouldBreak u ([.paren] ++ [kwBreaker targetWords]) = spelledIn u targetWords := fun u hu _ => break_one u _ (hnr u hu)
        have hbl : ∀ u ∈ t :: ts, isWs u = true → shouldBreak u ([.paren] ++ [kwBreaker targetWords]) = false := by
          intro u hu hwu
          rw [break_one u _ (hnr u hu)]
          exact hp.blank u hu hwu
        have plain : named t targetWords = false → targetOpening t = until_ [] targetWords t := by
          intro hno
          have h1 : ((keywordText t).bind fun w => targetKeywords.lookup w) = none := by
            cases hk : keywordText t with
            | none => rfl
            | some w =>
              rw [named, hk] at hno
              simp only [Option.bind_some]
              cases hl : targetKeywords.lookup w with
              | none => rfl
              | some slot =>
                have : w ∈ targetKeywords.map (·.1) := by
                  have := List.lookup_eq_some_iff.1 hl
                  obtain ⟨l1, l2, e, _⟩ := this
                  rw [e]; simp
                exact absurd (key_word this) (by simpa using hno)
          have h2 : named t targetSwitches = false := by
            cases hk : keywordText t with
            | none => simp [named, hk]
            | some w =>
              rw [named, hk] at hno ⊢
              cases e : targetSwitches.contains w with
              | false => exact e
              | true => exact absurd (switch_word (List.contains_iff_mem.1 e)) (by simpa using hno)
          rw [targetOpening, h1]
          simp [h2]
        have posGo : ∀ {sub : Node} {rest1 : List Token}, named t targetWords = false →
            exec ctx m (.pos { nargs := .str (S "+") } ([.paren] ++ [kwBreaker targetWords])) up (t :: (ts ++ r :: more)) =
              .ok (sub, rest1) →
            exec ctx m (.targetLoop 2 [.paren] (acc ++ [sub])) up rest1 = .ok (nd, rest) →
            ∃ cs, nd = mk .argGroup (acc ++ cs) ∧ cs.flatMap groupMarks = sections targetOpening noGroup (semantics (t :: ts)) := by
          intro sub rest1 hno h1 h
          obtain ⟨a, b, at_, ds, rfl, f2, f3, f4⟩ := seg_pos (op := targetOpening) (stops := fun u => spelledIn u targetWords)
            (plus_slot _ _) (by simp) ha hsem (by rw [plain hno]; rfl) hst hbl
            (by rw [hspell _ (fun _ h => h) t (by simp) hw]; exact hno) h1
          rw [f3] at h
          exact go (by simp) f2 h f4
        split at h
        · split at h
          · exact target_words m up 2 acc (t :: ts) (by simp) ha hp nd rest h
          · rename_i hno
            obtain ⟨⟨sub, rest1⟩, h1, h⟩ := Parse.bind_ok.1 h
            exact posGo (by rw [named_eq]; simpa using hno) (must_ok h1).1 h
        · split at h
          · rename_i hf
            rw [← named_eq] at hf
            have hf : named t targetSwitches = true := hf
            obtain ⟨⟨sub, rest1⟩, h1, h⟩ := Parse.bind_ok.1 h
            obtain ⟨a, b, ds, rfl, f2, f3, f4, f5⟩ := flag_words m up [] (t :: ts) ha hp _ _ (must_ok h1).1
            simp only at h
            rw [f3] at h
            refine go (by simp) f2 h ?_
            have hop : targetOpening t = ⟨false, .flag, ⟨any targetSwitches, fun u => !spelledIn u targetSwitches⟩⟩ := by
              have h1 : ((keywordText t).bind fun w => targetKeywords.lookup w) = none := by
                cases hk : keywordText t with
                | none => rfl
                | some w =>
                  rw [named, hk] at hf
                  exact (target_disjoint w (by simpa using hf)).2
              rw [targetOpening, h1]
              simp [hf]
            have ht : spelledIn t targetSwitches = true := by
              rw [hspell _ (fun _ h => switch_word h) t (by simp) hw]; exact hf
            rw [semantics_word hsem] at f4 f5 ⊢
            rw [sections_open, hop, f5]
            simp only [List.takeWhile_cons, List.dropWhile_cons, ht, if_true, List.map_cons] at f4 ⊢
            rw [sections_slot targetOpening (fun u => !spelledIn u targetSwitches) (semantics ts) (any targetSwitches) _ (fun _ _ => rfl)]
            have : groupMarks (mkPos (.str (S "+")) ([] ++ ds)) = marked false (leafsL ds) := rfl
            rw [this, f4, marked_cons]
            simp only [slotWords, slotRest, any, List.take_zero, List.drop_zero, List.map_nil, List.nil_append, Bool.not_not,
              List.cons_append, List.map_map]
            congr 2
            refine List.map_congr_left fun u hu => ?_
            have hu1 := List.all_eq_true.1 (List.all_takeWhile (p := fun u => spelledIn u targetSwitches) (l := semantics ts)) u hu
            have hu2 : u ∈ semantics ts := (List.takeWhile_sublist _).subset hu
            have : named u targetSwitches = true := by
              rw [← hspell _ (fun _ h => switch_word h) u (by simp [sem_mem u hu2]) (sems_ws u hu2)]
              exact hu1
            simp [mk2, kind_named this]
          · rename_i hf
            rw [← named_eq] at hf
            have hf : named t targetSwitches = false := by rw [← target_switches]; simpa using hf
            split at h
            · rename_i w p hlook
              obtain ⟨w', hw1, hw2⟩ := Option.bind_eq_some_iff.1 hlook
              obtain ⟨p', hp1, hp2⟩ := Option.map_eq_some_iff.1 hw2
              simp only [Prod.mk.injEq] at hp2
              obtain ⟨rfl, rfl⟩ := hp2
              obtain ⟨slot, hs1, hs2⟩ := (keySlots_lookup w' target_keys).1 p' hp1
              obtain ⟨⟨sub, rest1⟩, h1, h⟩ := Parse.bind_ok.1 h
              obtain ⟨a, b, ds, rfl, f2, f3, f4⟩ := seg_key (op := targetOpening) (slot := slot)
                (stops := fun u => spelledIn u targetWords) hs1 (by simp) ha hsem
                (by
                  rw [targetOpening, keywordText_eq, hw1, Option.bind_some, hs2]
                  rfl) hst hbl (must_ok h1).1
              simp only at h
              rw [f3] at h
              exact go (by simp) f2 h f4
            · rename_i hlook
              obtain ⟨⟨sub, rest1⟩, h1, h⟩ := Parse.bind_ok.1 h
              refine posGo ?_ (must_ok h1).1 h
              cases e : named t targetWords with
              | false => rfl
              | true =>
                exfalso
                rw [named, keywordText_eq] at e hf
                cases hn : normKwarg t with
                | none => simp [hn] at e
                | some w =>
                  simp only [hn, Option.bind_some, Option.map_eq_none_iff] at hlook
                  simp only [hn, List.contains_iff_mem] at e
                  simp only [hn] at hf
                  simp only [targetWords, List.mem_append] at e
                  rcases e with e | e
                  · rw [keySlots_keys target_keys] at e
                    obtain ⟨q, hq, e⟩ := List.mem_map.1 e
                    have := List.lookup_eq_none_iff.1 hlook q hq
                    simp [e] at this
                  · rw [List.contains_iff_mem.2 e] at hf
                    simp at hf

theorem target_start {m : Nat} {up : Bool} {args : List Token} (ha : Args args r more) (hp : Apart targetWords args) {nd : Node}
    {rest : List Token} (h : exec ctx m (.arg .customTarget [.paren]) up (args ++ r :: more) = .ok (nd, rest)) :
    treeMarks nd = targetMarks (semantics args) := by
  cases m with
  | zero => simp [exec] at h
  | succ m =>
    simp only [exec, step, argStart, (takeWhile_ws ha.close).1, (takeWhile_ws ha.close).2] at h
    cases m with
    | zero => simp [exec] at h
    | succ m =>
      have ha' := ha.blanks
      have hp' := hp.blanks
      rw [← semantics_drop args]
      simp only [exec, step] at h
      cases hargs : args.dropWhile isWs with
      | nil =>
        rw [hargs] at h
        simp only [List.nil_append, targetIter, rparen_break (List.mem_singleton.2 rfl) ha.close, if_true, Except.ok.injEq,
          Prod.mk.injEq] at h
        rw [← h.1, mk, treeMarks, leaves_marks]
        rfl
      | cons t ts =>
        rw [hargs] at h ha' hp'
        have hsw := ha'.bald.switch t (by simp)
        have hnr : ∀ u ∈ t :: ts, u.type ≠ .rparen := fun u hu => (ha'.noParen u hu).2
        have hw : isWs t = false := by
          have := List.head?_dropWhile_not isWs args
          rw [hargs] at this
          simpa using this
        have hsem : isSemantic t = true := (ha'.bald.ink t (by simp)).resolve_left (by simp [hw])
        simp only [List.cons_append, targetIter, break_none t (hnr t (by simp)), Bool.false_eq_true, if_false, hsw.1, hw,
          if_true, target_all] at h
        obtain ⟨⟨sub, rest1⟩, h1, h⟩ := Parse.bind_ok.1 h
        have h1 := (must_ok h1).1
        have hn : (match (semantics (ts ++ r :: more)).head? with
            | some u => if normKwarg u = some (S "ALL") then (2 : Int) else 1
            | none => 1) =
            (((if (((semantics (t :: ts))[1]?).any fun u => named u [S "ALL"]) = true then 1 else 0 : Nat) + 1 : Nat) : Int) := by
          rw [semantics_word hsem]
          have : semantics (ts ++ r :: more) = semantics ts ++ r :: semantics more := by
            have hr : isSemantic r = true := by
              obtain ⟨q1, q2, q3⟩ := rparen_sem ha.close
              simp only [isSemantic, q1, q2, q3, Bool.or_self, Bool.not_false]
            simp [semantics, hr]
          rw [this]
          cases hts : semantics ts with
          | nil => simp [normKwarg, ha.close]
          | cons u us =>
            simp only [List.cons_append, List.head?_cons, List.getElem?_cons_succ, List.getElem?_cons_zero, Option.any_some]
            simp only [named, keywordText_eq]
            cases hk : normKwarg u with
            | none => simp
            | some w => by_cases e : w = S "ALL" <;> simp [e]
        have h1 : exec ctx m (.pos { nargs := .int (((if (((semantics (t :: ts))[1]?).any fun u => named u [S "ALL"]) = true then 1
            else 0 : Nat) + 1 : Nat) : Int), flags := [S "ALL"] } ([.paren] ++ [kwBreaker targetWords])) up
            (t :: ts ++ r :: more) = .ok (sub, rest1) := by
          rw [← hn]; exact h1
        obtain ⟨a, b, at_, ds, rfl, f2, f3, f4⟩ := seg_first (args := t :: ts) (op := targetOpening) (int_slot _ _ _) (by simp) ha'
          (fun u hu hwu => by
            rw [break_one u _ (hnr u hu)]
            exact hp'.blank u hu hwu) h1
        rw [f2] at ha' hp'
        simp only at h
        rw [f3] at h
        obtain ⟨cs, rfl, e⟩ := target_words m up 1 _ b (by simp) ha'.drop hp'.drop _ _ h
        rw [mk, treeMarks, List.append_assoc, List.flatMap_append, leaves_marks, List.nil_append, List.flatMap_append, e,
          List.flatMap_cons, List.flatMap_nil, List.append_nil]
        show marked false (leafsL ds) ++ _ = _
        rw [f4, targetMarks]
        congr 1
        split <;> rfl

/-! ## Sources -/

/-- The flags of the name and the sources, from the words that are left. -/
def srcParts (lib : Bool) (state : Nat) (ws : List Token) : List Token × List Token :=
  if state ≥ lastState lib then ([], ws)
  else if lib then
    if state = 2 then libraryParts ws
    else
      let excluded := (ws.take 1).takeWhile fun t => named t [S "EXCLUDE_FROM_ALL"]
      (excluded, ws.drop excluded.length)
  else
    let isFlag := fun t => named t [S "WIN32", S "MACOSX_BUNDLE", S "EXCLUDE_FROM_ALL"]
    (ws.takeWhile isFlag, ws.dropWhile isFlag)

/-- The flags that are accepted. -/
def srcFlags (lib : Bool) (state : Nat) : List Str :=
  if lib then (if state = 2 then [S "STATIC", S "SHARED", S "MODULE", S "OBJECT"] else [S "EXCLUDE_FROM_ALL"])
  else [S "WIN32", S "MACOSX_BUNDLE", S "EXCLUDE_FROM_ALL"]

theorem srcParts_nil (lib : Bool) (state : Nat) : srcParts lib state [] = ([], []) := by
  unfold srcParts libraryParts
  split <;> (try split) <;> (try split) <;> simp

theorem srcParts_last {lib : Bool} {state : Nat} (h : state ≥ lastState lib) (ws : List Token) : srcParts lib state ws = ([], ws) := by
  simp [srcParts, h]

theorem srcParts_flag {lib : Bool} {state : Nat} (h2 : state ≥ 2) (h : state < lastState lib) {t : Token} (ts : List Token)
    (hf : named t (srcFlags lib state) = true) :
    srcParts lib state (t :: ts) = (t :: (srcParts lib (if lib then state + 1 else state) ts).1,
      (srcParts lib (if lib then state + 1 else state) ts).2) := by
  cases lib with
  | false =>
    have : ¬ state ≥ lastState false := by omega
    simp only [srcFlags, Bool.false_eq_true, if_false] at hf
    simp [srcParts, this, hf]
  | true =>
    have h' : state < 4 := h
    have : state = 2 ∨ state = 3 := by omega
    rcases this with rfl | rfl
    · simp only [srcFlags, if_true] at hf
      simp [srcParts, lastState, libraryParts, hf]
    · simp only [srcFlags, if_true] at hf
      simp at hf
      simp [srcParts, lastState, hf]

theorem srcParts_next {lib : Bool} {state : Nat} (h2 : state ≥ 2) (h : state < lastState lib) {t : Token} (ts : List Token)
    (hf : named t (srcFlags lib state) = false) : srcParts lib state (t :: ts) = srcParts lib (state + 1) (t :: ts) := by
  cases lib with
  | false =>
    have h' : state < 3 := h
    have : state = 2 := by omega
    subst this
    simp only [srcFlags, Bool.false_eq_true, if_false] at hf
    simp [srcParts, lastState, hf]
  | true =>
    have h' : state < 4 := h
    have : state = 2 ∨ state = 3 := by omega
    rcases this with rfl | rfl
    · simp only [srcFlags, if_true] at hf
      simp [srcParts, lastState, libraryParts, hf]
    · simp only [srcFlags, if_true] at hf
      simp at hf
      simp [srcParts, lastState, hf]

theorem src_node {lib : Bool} {state : Nat} (h2 : state ≥ 2) {sso : Bool} {before parg src after : List Node}
    (hb : before.flatMap groupMarks = []) (haf : after.flatMap groupMarks = []) (hsrc : state < lastState lib → leafsL src = []) :
    treeMarks (srcNode (lastState lib) state sso before parg src after) = marked false (leafsL parg) ++ marked false (leafsL src) := by
  have h1 : state > 1 := by omega
  rw [srcNode, mk, treeMarks]
  simp only [List.flatMap_append, hb, haf, h1, if_true, List.nil_append, List.append_nil]
  congr 1
  · simp [mkPos, groupMarks]
  · split
    · simp [groupMarks]
    · rw [hsrc (by omega)]; rfl

theorem src_words {lib : Bool} : ∀ (m : Nat) (up : Bool) (state : Nat) (so sso ia : Bool) (before parg src after : List Node)
    (args : List Token), state ≥ 2 → Args args r more → before.flatMap groupMarks = [] → after.flatMap groupMarks = [] →
    (state < lastState lib → leafsL src = []) → ∀ nd rest,
    exec ctx m (.srcLoop lib [.paren] state so sso ia before parg src after) up (args ++ r :: more) = .ok (nd, rest) →
    treeMarks nd = marked false (leafsL parg ++ (srcParts lib state (semantics args)).1.map fun t => (.flag, t)) ++
      marked false (leafsL src ++ (srcParts lib state (semantics args)).2.map fun t => (.argument, t))
  | 0, _, _, _, _, _, _, _, _, _, _, _, _, _, _, _, _, _, h => by simp [exec] at h
  | m + 1, up, state, so, sso, ia, before, parg, src, after, args, h2, ha, hb, haf, hsrc, nd, rest, h => by
    have h1 : ¬ state ≤ 1 := by omega
    simp only [exec, step] at h
    cases args with
    | nil =>
      have : (r.type == TokType.rparen) = true := by simp [ha.close]
      simp only [List.nil_append, srcIter, this, if_true, Except.ok.injEq, Prod.mk.injEq] at h
      rw [← h.1, src_node h2 hb haf hsrc]
      simp [semantics, srcParts_nil]
    | cons t ts =>
      have hsw := ha.bald.switch t (by simp)
      have hnr : (t.type == TokType.rparen) = false := by simp [(ha.noParen t (by simp)).2]
      simp only [List.cons_append, srcIter, hnr, Bool.false_eq_true, if_false, hsw.1, h1, ha.tail.trailing ctx] at h
      cases hw : isWs t with
      | true =>
        rw [semantics_ws hw]
        simp only [hw, if_true] at h
        split at h
        · exact src_words m up state so sso ia before parg src (after ++ [.tok t]) ts h2 ha.tail hb
            (by rw [List.flatMap_append, haf]; rfl) hsrc nd rest h
        · split at h
          · have := src_words m up state so sso ia before (parg ++ [.tok t]) src after ts h2 ha.tail hb haf hsrc nd rest h
            rw [this, leafsL_append]
            simp [leafsL, leafs]
          · rename_i hlt
            have := src_words m up state so sso ia before parg (src ++ [.tok t]) after ts h2 ha.tail hb haf
              (fun hl => absurd hl hlt) nd rest h
            rw [this, leafsL_append]
            simp [leafsL, leafs]
      | false =>
        have hsem : isSemantic t = true := (ha.bald.ink t (by simp)).resolve_left (by simp [hw])
        simp only [hw, Bool.false_eq_true, if_false] at h
        split at h
        · rename_i hlt
          by_cases hf : kwargIn t (srcFlags lib state) = true
          · have hf' := hf
            unfold srcFlags at hf'
            rw [if_pos hf'] at h
            have hf : named t (srcFlags lib state) = true := by rw [named_eq]; exact hf
            have := src_words m up (if lib then state + 1 else state) so _ ia before (parg ++ [mk .flag [.tok t]]) src after ts
              (by split <;> omega) ha.tail hb haf (fun hl => hsrc hlt) nd rest h
            rw [this, semantics_word hsem, srcParts_flag h2 hlt _ hf, leafsL_append]
            simp [leafsL, leafs, mk]
          · have hf' := hf
            unfold srcFlags at hf'
            rw [if_neg hf'] at h
            have hf : named t (srcFlags lib state) = false := by rw [named_eq]; simpa using hf
            have := src_words m up (state + 1) so _ ia before parg src after (t :: ts) (by omega) ha hb haf (fun _ => hsrc hlt) nd rest h
            rw [this, semantics_word hsem, srcParts_next h2 hlt _ hf]
        · rename_i hlt
          have := src_words m up state so sso _ before parg (src ++ [mk .argument [.tok t]]) after ts h2 ha.tail hb haf
            (fun hl => absurd hl hlt) nd rest h
          rw [this, semantics_word hsem, srcParts_last (by omega), srcParts_last (by omega), leafsL_append]
          simp [leafsL, leafs, mk]

/-- The name with its flags; then the sources. -/
theorem src_start {lib so : Bool} {m : Nat} {up : Bool} {args : List Token} (ha : Args args r more) (hne : semantics args ≠ [])
    {nd : Node} {rest : List Token} (h : exec ctx m (.arg (.addSources lib so) [.paren]) up (args ++ r :: more) = .ok (nd, rest)) :
    treeMarks nd = if lib then libraryMarks (semantics args) else executableMarks (semantics args) := by
  cases m with
  | zero => simp [exec] at h
  | succ m =>
    simp only [exec, step, argStart, (takeWhile_ws ha.close).1, (takeWhile_ws ha.close).2] at h
    cases m with
    | zero => simp [exec] at h
    | succ m =>
      have ha' := ha.blanks
      rw [← semantics_drop args] at hne ⊢
      simp only [exec, step] at h
      cases hargs : args.dropWhile isWs with
      | nil => rw [hargs] at hne; exact absurd rfl hne
      | cons t ts =>
        rw [hargs] at h ha'
        have hsw := ha'.bald.switch t (by simp)
        have hnr : (t.type == TokType.rparen) = false := by simp [(ha'.noParen t (by simp)).2]
        have hw : isWs t = false := by
          have := List.head?_dropWhile_not isWs args
          rw [hargs] at this
          simpa using this
        have hsem : isSemantic t = true := (ha'.bald.ink t (by simp)).resolve_left (by simp [hw])
        simp only [List.cons_append, srcIter, hnr, Bool.false_eq_true, if_false, hsw.1, hw, Nat.le_refl, if_true,
          ha'.tail.trailing ctx] at h
        have := src_words m up 2 so false false _ [mk .argument [.tok t]] [] [] ts (by omega) ha'.tail (leaves_marks _) rfl
          (fun _ => rfl) nd rest h
        rw [this, semantics_word hsem]
        cases lib with
        | true => simp [libraryMarks, srcParts, lastState, grouped, leafsL, leafs, mk]
        | false => simp [executableMarks, srcParts, lastState, grouped, leafsL, leafs, mk]

end

end Verif.Parse
