import Verif.WrapLemmas
import Verif.Markup

/-!
# Formatted comment lines contain no line feed
-/

namespace Verif.Markup
open Verif Py Verif.Wrap

/-- A line. -/
def OneLine (s : Str) : Prop := '\n' ∉ s

/-- The configured marks and patterns bring in no line feed. -/
structure CleanCfg (cfg : Cfg) : Prop where
  bullet : OneLine cfg.bulletChar
  enum : OneLine cfg.enumChar
  trailing : OneLine cfg.explicitTrailing
  fence : ∀ l a b, cfg.fence l = some (a, b) → OneLine l → OneLine b

theorem oneLine_of_subset {a b : Str} (h : ∀ c ∈ a, c ∈ b) (hb : OneLine b) : OneLine a :=
  fun hc => hb (h _ hc)

theorem OneLine.append {a b : Str} (ha : OneLine a) (hb : OneLine b) : OneLine (a ++ b) := by
  simp only [OneLine, List.mem_append, not_or]; exact ⟨ha, hb⟩

theorem mem_rstrip {f : Char → Bool} {s : Str} {c : Char} (h : c ∈ rstripBy f s) : c ∈ s := by
  simp only [rstripBy, List.mem_reverse] at h
  exact List.mem_reverse.1 ((List.dropWhile_suffix f).subset h)

theorem mem_lstrip {f : Char → Bool} {s : Str} {c : Char} (h : c ∈ lstripBy f s) : c ∈ s :=
  (List.dropWhile_suffix f).subset h

theorem mem_strip {s : Str} {c : Char} (h : c ∈ strip s) : c ∈ s := mem_lstrip (mem_rstrip h)

theorem OneLine.strip {s : Str} (h : OneLine s) : OneLine (strip s) :=
  oneLine_of_subset (fun _ => mem_strip) h

theorem oneLine_spaces (n : Nat) : OneLine (spaces n) := by
  intro h
  have := List.eq_of_mem_replicate h
  exact absurd this (by decide)

theorem munge_oneLine (s : Str) : OneLine (munge s) := by
  intro h
  have := munge_space h (by decide)
  exact absurd this (by decide)

theorem wrapChunks_oneLine {width : Nat} {n : Nat} {first : Bool} {cs : List Str}
    (h : ∀ c ∈ cs, OneLine c) : ∀ l ∈ wrapChunks width n first cs, OneLine l := by
  induction n generalizing first cs with
  | zero => simp [wrapChunks]
  | succ n ih =>
    cases cs with
    | nil => simp [wrapChunks]
    | cons c cs =>
      simp only [wrapChunks]
      generalize hcs : (if (!first && blankChunk c) = true then cs else c :: cs) = cs'
      have h' : ∀ x ∈ cs', OneLine x := by
        subst hcs
        split
        · exact fun x hx => h x (by simp [hx])
        · exact h
      have e := nextLine_append width cs'
      have h1 : ∀ x ∈ (nextLine width cs').1, OneLine x := fun x hx =>
        h' x (by rw [← e]; simp [hx])
      have h2 : ∀ x ∈ (nextLine width cs').2, OneLine x := fun x hx =>
        h' x (by rw [← e]; simp [hx])
      split
      · exact ih h2
      · intro l hl
        rcases List.mem_cons.1 hl with rfl | hl
        · intro hm
          obtain ⟨x, hx, hm⟩ := List.mem_flatten.1 hm
          exact h1 x ((dropBlank_prefix _).subset hx) hm
        · exact ih h2 l hl

theorem wrap_oneLine {width : Int} {s : Str} {ls : List Str} (h : wrap width s = .ok ls) :
    ∀ l ∈ ls, OneLine l := by
  simp only [wrap] at h
  split at h
  · simp at h
  · simp only [Except.ok.injEq] at h
    subst h
    apply wrapChunks_oneLine
    intro c hc hm
    exact munge_oneLine s (by rw [← chunks_flatten (munge s)]; exact List.mem_flatten.2 ⟨c, hc, hm⟩)

theorem stableWrap_oneLine {width : Int} {s : Str} {ls : List Str} (h : stableWrap width s = .ok ls) :
    ∀ l ∈ ls, OneLine l := by
  have key : ∀ n (s : Str), stableLoop width n s = .ok ls → ∀ l ∈ ls, OneLine l := by
    intro n
    induction n with
    | zero => intro s h; simp [stableLoop] at h
    | succ n ih =>
      intro s h
      simp only [stableLoop] at h
      cases hw : wrap width s with
      | error e => simp [hw] at h
      | ok ls' =>
        simp only [hw] at h
        split at h
        · simp only [Except.ok.injEq] at h
          subst h; exact wrap_oneLine hw
        · split at h
          · simp at h
          · exact ih _ h
  exact key 8 s h

theorem entry_oneLine {lead pad : Str} {r : Except Err (List Str)} {ls : List Str} (hl : OneLine lead)
    (hp : OneLine pad) (hr : ∀ x, r = .ok x → ∀ l ∈ x, OneLine l) (h : entry lead pad r = .ok ls) :
    ∀ l ∈ ls, OneLine l := by
  unfold entry at h
  split at h
  · simp at h
  · simp at h
  · rename_i a as
    simp only [Except.ok.injEq] at h
    subst h
    have := hr _ rfl
    intro l hm
    rcases List.mem_cons.1 hm with rfl | hm
    · exact hl.append (this a (by simp))
    · obtain ⟨x, hx, rfl⟩ := List.mem_map.1 hm
      exact hp.append (this x (by simp [hx]))

theorem entries_oneLine {width : Int} {lead : Nat → Str} {pad : Str} (hl : ∀ k, OneLine (lead k))
    (hp : OneLine pad) {k : Nat} {xs ls : List Str} (h : entries width lead pad k xs = .ok ls) :
    ∀ l ∈ ls, OneLine l := by
  induction xs generalizing k ls with
  | nil => simp only [entries, Except.ok.injEq] at h; subst h; simp
  | cons x xs ih =>
    simp only [entries] at h
    split at h
    · simp at h
    · rename_i a ha
      split at h
      · simp at h
      · rename_i b hb
        simp only [Except.ok.injEq] at h
        subst h
        intro l hm
        rcases List.mem_append.1 hm with hm | hm
        · exact entry_oneLine (hl k) hp (fun y hy => stableWrap_oneLine hy) ha l hm
        · exact ih hb l hm

theorem decimal_oneLine (f n : Nat) : OneLine (decimal f n) := by
  induction f generalizing n with
  | zero => simp [decimal, OneLine]
  | succ f ih =>
    simp only [decimal]
    have hd : OneLine [Char.ofNat (48 + n % 10)] := by
      have hlt : n % 10 < 10 := Nat.mod_lt _ (by decide)
      have key : ∀ m < 10, ¬ ('\n' ∈ [Char.ofNat (48 + m)]) := by decide
      exact key _ hlt
    split
    · exact hd
    · exact (ih _).append hd

/-- Verbatim lines contain no line feed. -/
def CleanItem (i : Item) : Prop := i.kind = .verbatim → ∀ l ∈ i.lines, OneLine l

theorem formatItem_oneLine {cfg : Cfg} (hc : CleanCfg cfg) {width : Int} {i : Item} {ls : List Str}
    (hi : CleanItem i) (h : formatItem cfg width i = .ok ls) : ∀ l ∈ ls, OneLine l := by
  unfold formatItem at h
  split at h
  · simp only [Except.ok.injEq] at h; subst h; simp [OneLine]
  · simp only [Except.ok.injEq] at h; subst h
    intro l hl; simp only [List.mem_singleton] at hl; subst hl
    exact (by decide : ¬ ('\n' ∈ S "~~~"))
  · rename_i hk
    simp only [Except.ok.injEq] at h; subst h
    intro l hl
    obtain ⟨x, hx, rfl⟩ := List.mem_map.1 hl
    exact oneLine_of_subset (fun _ => mem_rstrip) (hi hk x hx)
  · exact stableWrap_oneLine h
  · exact stableWrap_oneLine h
  · split at h
    · simp only [Except.ok.injEq] at h; subst h
      intro l hl; simp only [List.mem_singleton] at hl; subst hl
      intro hm
      exact absurd (List.eq_of_mem_replicate hm) (by decide)
    · exact stableWrap_oneLine h
  · split at h
    · simp at h
    · exact entries_oneLine (fun _ => hc.bullet.append (by simp [OneLine]))
        (by exact (by decide : ¬ ('\n' ∈ S "  "))) h
  · split at h
    · simp at h
    · refine entries_oneLine (fun k => ?_) (oneLine_spaces _) h
      refine OneLine.append (OneLine.append ?_ hc.enum) (by simp [OneLine])
      exact (oneLine_spaces _).append (decimal_oneLine _ _)

theorem formatItems_oneLine {cfg : Cfg} (hc : CleanCfg cfg) {width : Int} {hist : List Nat}
    {is : List Item} {ls : List Str} (hi : ∀ i ∈ is, CleanItem i)
    (h : formatItems cfg width hist is = .ok ls) : ∀ l ∈ ls, OneLine l := by
  induction is generalizing hist ls with
  | nil => simp only [formatItems, Except.ok.injEq] at h; subst h; simp
  | cons i is ih =>
    simp only [formatItems] at h
    split at h
    · simp at h
    · rename_i a ha
      split at h
      · simp at h
      · rename_i b hb
        simp only [Except.ok.injEq] at h
        subst h
        intro l hm
        rcases List.mem_append.1 hm with hm | hm
        · obtain ⟨x, hx, rfl⟩ := List.mem_map.1 hm
          exact (oneLine_spaces _).append (formatItem_oneLine hc (hi i (by simp)) ha x hx)
        · exact ih (fun j hj => hi j (by simp [hj])) hb l hm

/-- In a list the last item is no verbatim block. -/
def CleanState (acc : List Item × State) : Prop :=
  (∀ i ∈ acc.1, CleanItem i) ∧
    ((∃ a p, acc.2 = .bullet a p ∨ acc.2 = .enum a p) → ∀ i, acc.1.getLast? = some i → i.kind ≠ .verbatim)

theorem onLast_clean {f : Item → Item} {is : List Item} (h : ∀ i ∈ is, CleanItem i)
    (hf : ∀ i, is.getLast? = some i → CleanItem (f i)) : ∀ i ∈ onLast f is, CleanItem i := by
  induction is with
  | nil => simp [onLast]
  | cons x xs ih =>
    cases xs with
    | nil =>
      simp only [onLast, List.mem_singleton, forall_eq]
      exact hf x rfl
    | cons y ys =>
      intro i hi
      simp only [onLast] at hi
      rcases List.mem_cons.1 hi with rfl | hi
      · exact h _ (by simp)
      · exact ih (fun j hj => h j (by simp [hj])) (fun j hj => hf j (by simpa using hj)) i hi

theorem onLast_last {f : Item → Item} {is : List Item} :
    (onLast f is).getLast? = is.getLast?.map f := by
  induction is with
  | nil => rfl
  | cons x xs ih =>
    cases xs with
    | nil => rfl
    | cons y ys =>
      have hne : onLast f (y :: ys) ≠ [] := by cases ys <;> simp [onLast]
      simp only [onLast]
      rw [List.getLast?_cons, List.getLast?_cons_cons, ← ih]
      cases h : (onLast f (y :: ys)).getLast? with
      | none => exact absurd (List.getLast?_eq_none_iff.1 h) hne
      | some z => rfl

theorem clean_snoc {is : List Item} {i : Item} (h : ∀ j ∈ is, CleanItem j) (hi : CleanItem i) :
    ∀ j ∈ is ++ [i], CleanItem j := by
  intro j hj
  rcases List.mem_append.1 hj with hj | hj
  · exact h j hj
  · simp only [List.mem_singleton] at hj; subst hj; exact hi

theorem addLine_clean {is : List Item} {l : Str} (h : ∀ j ∈ is, CleanItem j) (hl : OneLine l) :
    ∀ j ∈ addLine l is, CleanItem j := by
  refine onLast_clean h ?_
  intro i hi hk x hx
  rcases List.mem_append.1 hx with hx | hx
  · exact h i (List.mem_of_getLast? hi) hk x hx
  · simp only [List.mem_singleton] at hx; subst hx; exact hl

theorem addLine_kind {is : List Item} {l : Str} (h : ∀ i, is.getLast? = some i → i.kind ≠ .verbatim) :
    ∀ i, (addLine l is).getLast? = some i → i.kind ≠ .verbatim := by
  intro i hi
  rw [addLine, onLast_last] at hi
  cases hg : is.getLast? with
  | none => simp [hg] at hi
  | some j =>
    simp only [hg, Option.map_some, Option.some.injEq] at hi
    subst hi; exact h j hg

theorem extendLine_clean {is : List Item} {l : Str} (h : ∀ j ∈ is, CleanItem j)
    (hk : ∀ i, is.getLast? = some i → i.kind ≠ .verbatim) :
    (∀ j ∈ extendLine l is, CleanItem j) ∧
      ∀ i, (extendLine l is).getLast? = some i → i.kind ≠ .verbatim := by
  constructor
  · refine onLast_clean h ?_
    intro i hi hk'
    exact absurd hk' (hk i hi)
  · intro i hi
    rw [extendLine, onLast_last] at hi
    cases hg : is.getLast? with
    | none => simp [hg] at hi
    | some j =>
      simp only [hg, Option.map_some, Option.some.injEq] at hi
      subst hi; exact hk j hg

theorem cleanState_plain {is : List Item} {st : State} (h : ∀ i ∈ is, CleanItem i)
    (hs : ∀ a p, st ≠ .bullet a p ∧ st ≠ .enum a p) : CleanState (is, st) :=
  ⟨h, fun ⟨a, p, hp⟩ => hp.elim (fun e => absurd e (hs a p).1) (fun e => absurd e (hs a p).2)⟩

theorem freshLine_clean {cfg : Cfg} {is : List Item} {line : Str} (h : ∀ i ∈ is, CleanItem i) :
    CleanState (freshLine cfg is line) := by
  unfold freshLine
  split
  · refine ⟨clean_snoc h (fun hk => by simp at hk), fun _ i hi => ?_⟩
    simp only [List.getLast?_append, List.getLast?_singleton, Option.some_or, Option.some.injEq] at hi
    subst hi; simp
  · split
    · refine ⟨clean_snoc h (fun hk => by simp at hk), fun _ i hi => ?_⟩
      simp only [List.getLast?_append, List.getLast?_singleton, Option.some_or, Option.some.injEq] at hi
      subst hi; simp
    · split
      · exact cleanState_plain (clean_snoc h (fun hk => by simp at hk)) (by simp)
      · split
        · exact cleanState_plain (clean_snoc h (fun hk => by simp at hk)) (by simp)
        · exact cleanState_plain (clean_snoc h (fun hk => by simp at hk)) (by simp)

theorem plainLine_clean {cfg : Cfg} {is : List Item} {st : State} {line : Str} (hl : OneLine line)
    (h : CleanState (is, st)) : CleanState (plainLine cfg is st line) := by
  unfold plainLine
  split
  · refine cleanState_plain (addLine_clean h.1 ?_) (by simp)
    split
    · exact fun hm => hl (List.mem_cons_of_mem _ hm)
    · exact hl
  · split
    · split
      · exact h
      · exact cleanState_plain (clean_snoc h.1 (fun hk => by simp at hk)) (by simp)
    · split
      · exact cleanState_plain (clean_snoc h.1 (fun hk => by simp at hk)) (by simp)
      · split
        · exact freshLine_clean h.1
        · exact freshLine_clean h.1
        · exact freshLine_clean h.1
        · exact freshLine_clean h.1
        · split
          · exact cleanState_plain (clean_snoc h.1 (fun hk => by simp at hk)) (by simp)
          · split
            · exact cleanState_plain (clean_snoc h.1 (fun hk => by simp at hk)) (by simp)
            · exact cleanState_plain (addLine_clean h.1 hl.strip) (by simp)
        · split
          · exact cleanState_plain (clean_snoc h.1 (fun hk => by simp at hk)) (by simp)
          · split
            · exact cleanState_plain (clean_snoc h.1 (fun hk => by simp at hk)) (by simp)
            · exact cleanState_plain (addLine_clean h.1 hl.strip) (by simp)
        · rename_i ind p _
          have hk := h.2 ⟨ind, p, Or.inl rfl⟩
          split
          · rename_i t ht
            refine ⟨addLine_clean h.1 (OneLine.strip ?_), fun _ => addLine_kind hk⟩
            unfold bulletNext at ht
            split at ht
            · rename_i c xs hs
              split at ht
              · simp only [Option.some.injEq] at ht
                subst ht
                refine oneLine_of_subset (b := line) (fun x hx => ?_) hl
                rw [stripPrefix?_eq hs]
                simp only [List.mem_append, List.mem_cons] at hx ⊢
                grind
              · simp at ht
            · simp at ht
          · exact ⟨(extendLine_clean h.1 hk).1, fun _ => (extendLine_clean h.1 hk).2⟩
        · rename_i ind p _
          have hk := h.2 ⟨ind, p, Or.inr rfl⟩
          split
          · rename_i t ht
            refine ⟨addLine_clean h.1 (OneLine.strip ?_), fun _ => addLine_kind hk⟩
            unfold enumNext at ht
            split at ht
            · rename_i s hs
              have hsl : ∀ x ∈ s, x ∈ line := by
                intro x hx; rw [stripPrefix?_eq hs]; simp [hx]
              have hds : ∀ x ∈ s.dropWhile isDigit, x ∈ line := fun x hx =>
                hsl x ((List.dropWhile_suffix _).subset hx)
              simp only at ht
              split at ht
              · simp at ht
              · split at ht
                · rename_i c xs hd
                  split at ht
                  · simp only [Option.some.injEq] at ht
                    subst ht
                    refine oneLine_of_subset (b := line) (fun x hx => ?_) hl
                    exact hds x (by rw [hd]; exact List.mem_cons_of_mem _ hx)
                  · simp at ht
                · rename_i xs hd
                  split at ht
                  · simp only [Option.some.injEq] at ht
                    subst ht
                    refine oneLine_of_subset (b := line) (fun x hx => ?_) hl
                    exact hds x (by rw [hd]; exact hx)
                  · simp at ht
                · simp at ht
            · simp at ht
          · exact ⟨(extendLine_clean h.1 hk).1, fun _ => (extendLine_clean h.1 hk).2⟩

theorem parseLine_clean {cfg : Cfg} (hc : CleanCfg cfg) {acc : List Item × State} {line : Str}
    (hl : OneLine line) (h : CleanState acc) : CleanState (parseLine cfg acc line) := by
  unfold parseLine
  split
  · rename_i g1 g2 hf
    have hg : OneLine (strip g2) := (hc.fence _ _ _ hf hl).strip
    have h1 : ∀ i ∈ acc.1 ++ [{ kind := .fence, lines := [strip g1] }], CleanItem i :=
      clean_snoc h.1 (fun hk => by simp at hk)
    have h2 : ∀ i ∈ acc.1 ++ [{ kind := .fence, lines := [strip g1] }] ++ [{ kind := .verbatim }],
        CleanItem i := clean_snoc h1 (fun _ => by simp)
    simp only
    split
    · split
      · exact cleanState_plain h1 (by simp)
      · exact plainLine_clean hg (cleanState_plain h1 (by simp))
    · split
      · exact cleanState_plain h2 (by simp)
      · exact plainLine_clean hg (cleanState_plain h2 (by simp))
  · exact plainLine_clean hl h

theorem parse_clean {cfg : Cfg} (hc : CleanCfg cfg) {lines : List Str} (hl : ∀ l ∈ lines, OneLine l) :
    ∀ i ∈ parse cfg lines, CleanItem i := by
  have key : ∀ (ls : List Str) (acc : List Item × State), (∀ l ∈ ls, OneLine l) → CleanState acc →
      CleanState (ls.foldl (parseLine cfg) acc) := by
    intro ls
    induction ls with
    | nil => intro acc _ h; exact h
    | cons l ls ih =>
      intro acc hls h
      exact ih _ (fun x hx => hls x (by simp [hx])) (parseLine_clean hc (hls l (by simp)) h)
  exact (key lines ([], .none) hl ⟨by simp, fun ⟨_, _, h⟩ => by simp at h⟩).1

theorem commentText_oneLine {cfg : Cfg} {ex : Bool} {s : Str} (h : OneLine s) :
    OneLine (commentText cfg ex s) := by
  unfold commentText
  simp only
  split
  · exact oneLine_of_subset (fun x hx => List.mem_of_mem_drop hx) h.strip
  · split
    · exact oneLine_of_subset (fun x hx => List.mem_of_mem_drop hx) h.strip
    · split
      · exact oneLine_of_subset (fun x hx => List.mem_of_mem_drop hx) h.strip
      · exact oneLine_of_subset (fun x hx => (List.dropWhile_suffix _).subset hx) h.strip

/-- Every line of a formatted comment is one line. -/
theorem formatComment_oneLine {cfg : Cfg} (hc : CleanCfg cfg) {ex first : Bool} {fs : Str} {width : Int}
    {ss ls : List Str} (hs : ∀ s ∈ ss, OneLine s) (h : formatComment cfg ex first fs width ss = .ok ls) :
    ∀ l ∈ ls, OneLine l := by
  have hin : ∀ l ∈ ss.map (commentText cfg ex), OneLine l := by
    intro l hl
    obtain ⟨x, hx, rfl⟩ := List.mem_map.1 hl
    exact commentText_oneLine (hs x hx)
  have hpre : OneLine (if ex = true then cfg.explicitTrailing else S "#") := by
    split
    · exact hc.trailing
    · exact (by decide : ¬ ('\n' ∈ S "#"))
  have hlit : ∀ l ∈ (ss.map (commentText cfg ex)).map fun l =>
      (if ex = true then cfg.explicitTrailing else S "#") ++ rstripBy isWhite l, OneLine l := by
    intro l hl
    obtain ⟨x, hx, rfl⟩ := List.mem_map.1 hl
    exact hpre.append (oneLine_of_subset (fun _ => mem_rstrip) (hin x hx))
  unfold formatComment at h
  simp only at h
  split at h
  · simp only [Except.ok.injEq] at h; subst h; exact hlit
  · split at h
    · simp only [Except.ok.injEq] at h; subst h; exact hlit
    · split at h
      · simp only [Except.ok.injEq] at h; subst h; exact hlit
      · split at h
        · simp at h
        · rename_i xs hx
          simp only [Except.ok.injEq] at h
          subst h
          intro l hl
          obtain ⟨x, hm, rfl⟩ := List.mem_map.1 hl
          exact (hpre.append (oneLine_spaces _)).append
            (formatItems_oneLine hc (parse_clean hc hin) hx x hm)

end Verif.Markup
