import Verif.LintPragma
import Verif.Props.LintTree
import Verif.Props.Lint

/-!
# What a pragma in the file hides (C90)
-/

namespace Verif.Props.LintPragma
open Verif Py Lex Parse Verif.Lint Verif.Props.LintTree

/-! ## Specification -/

/-- A maximal run of characters that are not blank. -/
def IsWord (text w : Str) : Prop :=
  ∃ a b, text = a ++ w ++ b ∧ w ≠ [] ∧ (∀ c ∈ w, Lint.isBlank c = false) ∧ (∀ c, a.getLast? = some c → Lint.isBlank c = true) ∧
    ∀ c, b.head? = some c → Lint.isBlank c = true

/-- A piece between commas. -/
def IsPiece (text p : Str) : Prop :=
  ∃ a b, text = a ++ p ++ b ∧ ',' ∉ p ∧ (a = [] ∨ a.getLast? = some ',') ∧ (b = [] ∨ b.head? = some ',')

/-- The comment asks to hide a code: `# cmake-lint: disable=A,B`, with known codes; other words may stand beside it. -/
def Names (t : Token) (code : Str) : Prop :=
  t.type = .comment ∧ ∃ content w list, t.spelling = S "# cmake-lint: " ++ content ∧ IsWord content w ∧
    w = S "disable=" ++ list ∧ IsPiece list code ∧ code ∈ lintIds

/-- A comment directly in the file names the code of the record; the record is on a line from the first line of that comment
on, but before the line of the last token of the file. -/
def Hidden (tree : Node) (r : Lint.Rec) : Prop :=
  ∃ n ∈ kidsOf tree, hasType .comment n = true ∧ (∃ t ∈ n.toks, Names t r.id) ∧
    ∃ first last line rest, n.toks.head? = some first ∧ tree.toks.getLast? = some last ∧ r.loc = line :: rest ∧
      first.begin_.line ≤ line ∧ line < last.begin_.line

/-- Pragmas are in comments directly in the file only: none inside of a command or a block. -/
def PragmasOnTop (tree : Node) : Prop := ∀ n ∈ kidsOf tree, hasType .comment n = false → NoPragma n.toks

/-! ## Reading a pragma -/

theorem splitBlank_blank {c : Char} (h : Lint.isBlank c = true) (cs : Str) : splitBlank (c :: cs) = splitBlank cs := by
  rw [splitBlank.eq_def]; simp [h]

theorem splitBlank_word : ∀ (cs : Str) {c : Char}, Lint.isBlank c = false →
    splitBlank (c :: cs) = (c :: cs.takeWhile (fun x => !Lint.isBlank x)) :: splitBlank (cs.dropWhile (fun x => !Lint.isBlank x))
  | [], c, h => by simp [splitBlank, h]
  | d :: cs, c, h => by
    rw [splitBlank.eq_def]
    simp only [h, Bool.false_eq_true, if_false]
    by_cases hd : Lint.isBlank d = true
    · simp only [hd, if_true, List.takeWhile_cons, Bool.not_true, List.dropWhile_cons, Bool.false_eq_true, if_false]
    · have hd : Lint.isBlank d = false := by simpa using hd
      rw [splitBlank_word cs hd]
      simp [hd]

theorem dropWhile_len (p : Char → Bool) (l : Str) : (l.dropWhile p).length ≤ l.length := by
  induction l with
  | nil => simp
  | cons c l ih =>
    rw [List.dropWhile_cons]
    split
    · simp; omega
    · simp

theorem isWord_blank {c : Char} (h : Lint.isBlank c = true) (cs w : Str) : IsWord (c :: cs) w ↔ IsWord cs w := by
  constructor
  · rintro ⟨a, b, e, h1, h2, h3, h4⟩
    cases a with
    | nil =>
      cases w with
      | nil => exact absurd rfl h1
      | cons x w =>
        simp only [List.nil_append, List.cons_append, List.cons.injEq] at e
        rw [e.1] at h
        rw [h2 x (by simp)] at h
        simp at h
    | cons x a =>
      simp only [List.cons_append, List.cons.injEq] at e
      refine ⟨a, b, e.2, h1, h2, ?_, h4⟩
      intro y hy
      exact h3 y (by cases a with
        | nil => simp at hy
        | cons z a => simpa using hy)
  · rintro ⟨a, b, e, h1, h2, h3, h4⟩
    refine ⟨c :: a, b, by simp [e], h1, h2, ?_, h4⟩
    intro y hy
    cases a with
    | nil => simp at hy; rw [← hy]; exact h
    | cons z a => exact h3 y (by simpa using hy)

theorem mem_splitBlank (w : Str) : ∀ (n : Nat) (text : Str), text.length ≤ n → (w ∈ splitBlank text ↔ IsWord text w)
  | n, [], _ => by
    constructor
    · intro h; simp [splitBlank] at h
    · rintro ⟨a, b, e, h1, _⟩
      have e := e.symm
      simp only [List.append_eq_nil_iff] at e
      exact absurd e.1.2 h1
  | 0, c :: cs, h => by simp at h
  | n + 1, c :: cs, hn => by
    have hn' : cs.length ≤ n := by simpa using hn
    by_cases h : Lint.isBlank c = true
    · rw [splitBlank_blank h, isWord_blank h, mem_splitBlank w n cs hn']
    · have h : Lint.isBlank c = false := by simpa using h
      rw [splitBlank_word cs h, List.mem_cons,
        mem_splitBlank w n _ (Nat.le_trans (dropWhile_len _ _) hn')]
      have hsplit : cs = cs.takeWhile (fun x => !Lint.isBlank x) ++ cs.dropWhile (fun x => !Lint.isBlank x) :=
        List.takeWhile_append_dropWhile.symm
      have htw : ∀ x ∈ cs.takeWhile (fun x => !Lint.isBlank x), Lint.isBlank x = false := by
        intro x hx
        have := List.all_eq_true.1 List.all_takeWhile x hx
        simpa using this
      have hdw : ∀ x, (cs.dropWhile (fun x => !Lint.isBlank x)).head? = some x → Lint.isBlank x = true := by
        intro x hx
        have := List.head?_dropWhile_not (fun x => !Lint.isBlank x) cs
        rw [hx] at this
        simpa using this
      generalize hT : cs.takeWhile (fun x => !Lint.isBlank x) = T at *
      generalize hD : cs.dropWhile (fun x => !Lint.isBlank x) = D at *
      constructor
      · rintro (rfl | ⟨a, b, e, h1, h2, h3, h4⟩)
        · refine ⟨[], D, by simp [hsplit], by simp, ?_, by simp, hdw⟩
          intro x hx
          rcases List.mem_cons.1 hx with rfl | hx
          · exact h
          · exact htw x hx
        · refine ⟨c :: T ++ a, b, by rw [hsplit, e]; simp, h1, h2, ?_, h4⟩
          intro y hy
          cases a with
          | nil =>
            exfalso
            cases w with
            | nil => exact h1 rfl
            | cons x w =>
              have := hdw x (by rw [e]; simp)
              rw [h2 x (by simp)] at this
              simp at this
          | cons z a => 
            refine h3 y ?_
            rw [List.getLast?_append] at hy
            simpa using hy
      · rintro ⟨a, b, e, h1, h2, h3, h4⟩
        -- the word is the first one, or lies after it
        have e' : (c :: T) ++ D = a ++ w ++ b := by rw [← e, hsplit]; simp
        have hcT : ∀ x ∈ c :: T, Lint.isBlank x = false := by
          intro x hx
          rcases List.mem_cons.1 hx with rfl | hx
          · exact h
          · exact htw x hx
        cases ha : a with
        | nil =>
          left
          subst ha
          simp only [List.nil_append] at e'
          rcases List.append_eq_append_iff.1 e' with ⟨k, k1, k2⟩ | ⟨k, k1, k2⟩
          · cases k with
            | nil => simpa using k1
            | cons x k =>
              have q1 := hdw x (by rw [k2]; simp)
              have q2 := h2 x (by rw [k1]; simp)
              rw [q1] at q2
              simp at q2
          · cases k with
            | nil => simpa using k1.symm
            | cons x k =>
              have q1 := h4 x (by rw [k2]; simp)
              have q2 := hcT x (by rw [k1]; simp)
              rw [q1] at q2
              simp at q2
        | cons z a' =>
          right
          rw [List.append_assoc] at e'
          rcases List.append_eq_append_iff.1 e' with ⟨k, k1, k2⟩ | ⟨k, k1, k2⟩
          · refine ⟨k, b, by rw [k2]; simp, h1, h2, ?_, h4⟩
            intro y hy
            refine h3 y ?_
            rw [k1, List.getLast?_append, hy]
            rfl
          · exfalso
            have hne : a ≠ [] := by rw [ha]; simp
            obtain ⟨y, hy⟩ : ∃ y, a.getLast? = some y := ⟨_, List.getLast?_eq_some_getLast hne⟩
            have q1 := h3 y hy
            have q2 := hcT y (by rw [k1]; exact List.mem_append_left _ (List.mem_of_getLast? hy))
            rw [q1] at q2
            simp at q2

theorem splitOn_after (p : Str) (rest : Str) (h : p ∈ splitOn ',' rest) : ∀ (a : Str), p ∈ (splitOn ',' (a ++ ',' :: rest)).tail
  | [] => by simp [splitOn, h]
  | c :: a => by
    have ih := splitOn_after p rest h a
    simp only [List.cons_append, splitOn]
    split
    · exact List.mem_of_mem_tail ih
    · split
      · rename_i e; rw [e] at ih; simp at ih
      · rename_i e; rw [e] at ih; exact ih

theorem splitOn_parts : ∀ (text : Str), ∃ l ls, splitOn ',' text = l :: ls ∧
    (∃ b, text = l ++ b ∧ ',' ∉ l ∧ (b = [] ∨ b.head? = some ',')) ∧
    ∀ p ∈ ls, ∃ a b, text = a ++ p ++ b ∧ ',' ∉ p ∧ a.getLast? = some ',' ∧ (b = [] ∨ b.head? = some ',')
  | [] => ⟨[], [], rfl, ⟨[], rfl, by simp, .inl rfl⟩, by simp⟩
  | c :: cs => by
    obtain ⟨l, ls, e, ⟨b, e1, e2, e3⟩, h⟩ := splitOn_parts cs
    simp only [splitOn]
    split
    · rename_i hc
      subst hc
      refine ⟨[], _, rfl, ⟨',' :: cs, rfl, by simp, .inr rfl⟩, ?_⟩
      intro p hp
      rw [e] at hp
      rcases List.mem_cons.1 hp with rfl | hp
      · exact ⟨[','], b, by simp [e1], e2, rfl, e3⟩
      · obtain ⟨a, b', k1, k2, k3, k4⟩ := h p hp
        refine ⟨',' :: a, b', by simp [k1], k2, ?_, k4⟩
        cases a with
        | nil => rfl
        | cons x a => simpa using k3
    · rename_i hc
      rw [e]
      refine ⟨c :: l, ls, rfl, ⟨b, by simp [e1], ?_, e3⟩, ?_⟩
      · intro hm
        rcases List.mem_cons.1 hm with hm | hm
        · exact hc hm.symm
        · exact e2 hm
      · intro p hp
        obtain ⟨a, b', k1, k2, k3, k4⟩ := h p hp
        refine ⟨c :: a, b', by simp [k1], k2, ?_, k4⟩
        cases a with
        | nil => simp at k3
        | cons x a => simpa using k3

theorem mem_splitOn (p text : Str) : p ∈ splitOn ',' text ↔ IsPiece text p := by
  constructor
  · intro h
    obtain ⟨l, ls, e, ⟨b, e1, e2, e3⟩, hl⟩ := splitOn_parts text
    rw [e] at h
    rcases List.mem_cons.1 h with rfl | h
    · exact ⟨[], b, by simpa using e1, e2, .inl rfl, e3⟩
    · obtain ⟨a, b', k1, k2, k3, k4⟩ := hl p h
      exact ⟨a, b', k1, k2, .inr k3, k4⟩
  · rintro ⟨a, b, e, h1, h2, h3⟩
    have key : p ∈ splitOn ',' (p ++ b) := by
      rcases h3 with rfl | h3
      · rw [List.append_nil, splitOn_of_not_mem h1]; simp
      · cases b with
        | nil => simp at h3
        | cons x b =>
          simp only [List.head?_cons, Option.some.injEq] at h3
          subst h3
          rw [splitOn_append_sep h1]
          simp
    rcases h2 with rfl | h2
    · rw [e]; simpa using key
    · rcases List.eq_nil_or_concat a with rfl | ⟨a', x, rfl⟩
      · simp at h2
      · rw [List.concat_eq_append, List.getLast?_append] at h2
        simp only [List.getLast?_singleton, Option.some_or, Option.some.injEq] at h2
        subst h2
        rw [e, show a'.concat ',' ++ p ++ b = a' ++ ',' :: (p ++ b) by simp]
        exact List.mem_of_mem_tail (splitOn_after p _ key a')

theorem mem_pragmaIds (row col : Nat) (code : Str) : ∀ ids, code ∈ (pragmaIds row col ids).1 ↔ code ∈ ids ∧ code ∈ lintIds
  | [] => by simp [pragmaIds]
  | i :: ids => by
    have ih := mem_pragmaIds row col code ids
    simp only [pragmaIds]
    split
    · rename_i hi
      simp only [List.mem_cons, ih]
      constructor
      · rintro (rfl | h)
        · exact ⟨.inl rfl, hi⟩
        · exact ⟨.inr h.1, h.2⟩
      · rintro ⟨rfl | h, k⟩
        · exact .inl rfl
        · exact .inr ⟨h, k⟩
    · rename_i hi
      rw [ih]
      simp only [List.mem_cons]
      constructor
      · rintro ⟨h, k⟩; exact ⟨.inr h, k⟩
      · rintro ⟨rfl | h, k⟩
        · exact absurd k hi
        · exact ⟨h, k⟩

theorem key_value {item : Str} (h : '=' ∈ item) :
    item = item.takeWhile (· ≠ '=') ++ '=' :: (item.dropWhile (· ≠ '=')).drop 1 := by
  induction item with
  | nil => simp at h
  | cons c cs ih =>
    by_cases e : c = '='
    · subst e; simp
    · have : '=' ∈ cs := by
        rcases List.mem_cons.1 h with h | h
        · exact absurd h.symm e
        · exact h
      simp only [ne_eq, e, not_false_eq_true, decide_true, List.takeWhile_cons, if_true, List.dropWhile_cons, List.cons_append]
      have := ih this
      simp only [ne_eq] at this
      rw [← this]

theorem key_unique {a b v : Str} (h : '=' ∉ a) (e : b = a ++ '=' :: v) :
    b.takeWhile (· ≠ '=') = a ∧ (b.dropWhile (· ≠ '=')).drop 1 = v := by
  have hp : ∀ c ∈ a, decide (c ≠ '=') = true := by
    intro c hc
    simp only [ne_eq, decide_eq_true_eq]
    rintro rfl
    exact h hc
  rw [e, List.takeWhile_append_of_pos hp, List.dropWhile_append_of_pos hp]
  simp

theorem mem_pragmaItems (row : Nat) (code : Str) : ∀ (items : List Str) (col : Nat),
    code ∈ (pragmaItems row col items).1 ↔ (∃ v, S "disable=" ++ v ∈ items ∧ IsPiece v code) ∧ code ∈ lintIds
  | [], col => by simp [pragmaItems]
  | item :: items, col => by
    have hS : ∀ v : Str, S "disable=" ++ v = S "disable" ++ '=' :: v := fun v => by
      rw [show S "disable=" = S "disable" ++ ['='] by decide]; simp
    have hn : '=' ∉ S "disable" := by decide
    simp only [pragmaItems]
    split
    · rename_i he
      rw [mem_pragmaItems row code items]
      refine and_congr_left fun _ => exists_congr fun v => and_congr_left fun _ => ?_
      rw [List.mem_cons]
      constructor
      · exact .inr
      · rintro (h | h)
        · exfalso; apply he; rw [← h, hS]; simp
        · exact h
    · rename_i he
      have he : '=' ∈ item := by simpa using he
      split
      · rename_i hk
        rw [List.mem_append, mem_pragmaIds, mem_pragmaItems row code items, mem_splitOn]
        have hit : item = S "disable=" ++ (item.dropWhile (· ≠ '=')).drop 1 := by
          rw [hS, ← hk]; exact key_value he
        constructor
        · rintro (⟨h1, h2⟩ | ⟨⟨v, h1, h2⟩, h3⟩)
          · exact ⟨⟨_, by rw [← hit]; simp, h1⟩, h2⟩
          · exact ⟨⟨v, by simp [h1], h2⟩, h3⟩
        · rintro ⟨⟨v, h1, h2⟩, h3⟩
          rcases List.mem_cons.1 h1 with h1 | h1
          · left
            have := (key_unique hn (h1.symm.trans (hS v))).2
            rw [this]
            exact ⟨h2, h3⟩
          · exact .inr ⟨⟨v, h1, h2⟩, h3⟩
      · rename_i hk
        rw [mem_pragmaItems row code items]
        refine and_congr_left fun _ => exists_congr fun v => and_congr_left fun _ => ?_
        rw [List.mem_cons]
        constructor
        · exact .inr
        · rintro (h | h)
          · exact absurd (key_unique hn (h.symm.trans (hS v))).1 hk
          · exact h

theorem stripPrefix_some {p s : Str} : ∀ {r : Str}, stripPrefix? p s = some r ↔ s = p ++ r := by
  induction p generalizing s with
  | nil => intro r; simp [stripPrefix?]
  | cons c p ih =>
    intro r
    cases s with
    | nil => simp [stripPrefix?]
    | cons d s =>
      simp only [stripPrefix?]
      split
      · rename_i e; rw [ih]; simp [e]
      · rename_i e
        simp only [List.cons_append, List.cons.injEq, reduceCtorEq, false_iff]
        rintro ⟨h, _⟩
        exact e (by simp [h])

/-- What is read from a comment is what it names. -/
theorem mem_pragmaComment {t : Token} (ht : t.type = .comment) (row col : Nat) (code : Str) :
    code ∈ (pragmaComment row col t.spelling).1 ↔ Names t code := by
  unfold pragmaComment
  constructor
  · intro h
    split at h
    · simp at h
    · rename_i content e
      obtain ⟨⟨v, h1, h2⟩, h3⟩ := (mem_pragmaItems _ _ _ _).1 h
      exact ⟨ht, content, _, v, stripPrefix_some.1 e, (mem_splitBlank _ _ _ (Nat.le_refl _)).1 h1, rfl, h2, h3⟩
  · rintro ⟨_, content, w, v, e, h1, rfl, h2, h3⟩
    rw [stripPrefix_some.2 e]
    exact (mem_pragmaItems _ _ _ _).2 ⟨⟨v, (mem_splitBlank _ _ _ (Nat.le_refl _)).2 h1, h2⟩, h3⟩

theorem mem_pragmas (code : Str) : ∀ (seg : List Token), code ∈ (pragmas (leaves seg)).1 ↔ ∃ t ∈ seg, Names t code
  | [] => by simp [leaves, pragmas]
  | t :: seg => by
    have ih := mem_pragmas code seg
    simp only [leaves, List.map_cons, pragmas] at ih ⊢
    split
    · rename_i ht
      rw [List.mem_append, mem_pragmaComment ht, ih]
      simp
    · rename_i ht
      rw [ih]
      constructor
      · rintro ⟨u, h1, h2⟩; exact ⟨u, by simp [h1], h2⟩
      · rintro ⟨u, h1, h2⟩
        rcases List.mem_cons.1 h1 with rfl | h1
        · exact absurd h2.1 ht
        · exact ⟨u, h1, h2⟩

/-! ## The report -/

theorem ordered_parts {cs : List Node} {ts : List Token} (hp : Parts cs ts) (hl : LinesUp ts) : Ordered cs := by
  intro a n b e hc t ht
  subst e
  obtain ⟨seg, rfl, hsub⟩ := hp.comment n (by simp) hc
  have hseg : LinesUp seg := hl.sublist hsub
  have htk : (mk .comment (leaves seg)).toks = seg := by rw [toks_mk, toks_leafs]
  rw [toksL_cons, htk, List.mem_append] at ht
  unfold headLine
  rw [htk]
  cases seg with
  | nil => simp
  | cons x seg =>
    simp only
    rcases ht with ht | ht
    · rcases List.mem_cons.1 ht with rfl | ht
      · exact Nat.le_refl _
      · exact (List.pairwise_cons.1 hseg).1 t ht
    · have hp' : Parts ((a ++ [mk .comment (leaves (x :: seg))]) ++ b) ts := by simpa using hp
      refine hp'.lines hl x ?_ t ht
      rw [toksL_append, List.mem_append]
      right
      simp [leaves]

theorem loud_toks {n : Node} (h : Loud n) : n.toks ≠ [] := by
  intro e
  apply h.2
  cases n with
  | tok t => rfl
  | node ty a cs =>
    rw [toks_node] at e
    simp only [kidsOf]
    clear h
    induction cs with
    | nil => rfl
    | cons c cs ih =>
      rw [toksL_cons, List.append_eq_nil_iff] at e
      cases c with
      | tok t => simp at e
      | node ty' a' cs' => simpa [pragmas] using ih e.2

theorem up_of_ordered : ∀ {cs : List Node}, Ordered cs → CommentsUp cs
  | [], _ => List.Pairwise.nil
  | n :: cs, h => by
    refine List.pairwise_cons.2 ⟨?_, up_of_ordered h.tail⟩
    intro m hm h1 h2
    cases hk : m.toks with
    | nil => exact absurd hk (loud_toks h2)
    | cons x xs =>
      have : headLine m = x.begin_.line := by simp [headLine, hk]
      rw [this]
      refine h [] n cs rfl h1.1 x ?_
      rw [toksL_cons, List.mem_append]
      right
      have : ∀ (l : List Node), m ∈ l → x ∈ toksL l := by
        intro l
        induction l with
        | nil => simp
        | cons y l ih =>
          intro hy
          rw [toksL_cons, List.mem_append]
          rcases List.mem_cons.1 hy with rfl | hy
          · left; rw [hk]; simp
          · exact .inr (ih hy)
      exact this cs hm

theorem count_filter' {r : Lint.Rec} (p : Lint.Rec → Bool) (l : List Lint.Rec) : (l.filter p).count r = if p r then l.count r else 0 := by
  split
  · rename_i h; exact List.count_filter h
  · rename_i h
    rw [List.count_eq_zero]
    intro hm
    exact h (List.mem_filter.1 hm).2

theorem count_map_record (r : Lint.Rec) (l : List Lint.Rec) : (l.map Call.record).count (.record r) = l.count r := by
  induction l with
  | nil => rfl
  | cons x l ih =>
    simp only [List.map_cons, List.count_cons, ih]
    by_cases e : x = r <;> simp [e]

/-- **C90.** If pragmas are only in comments directly in the file: a record is hidden if it is `Hidden`, and otherwise it is
reported as often as it is found. For the codes that are checked for a body as a whole this is shown for lines before that of
the last token only. -/
theorem pragma_exact_partial {o : Opts} {cfg : Cfg} {parseLint : List Token → List Lint.Rec} {ctx : Parse.Ctx} {text : Str}
    {rs : List Lint.Rec} (h : lintText o cfg parseLint ctx text = some rs) (hbom : text.head? ≠ some BOM)
    (hap : SwitchesApart (Props.Lex.toks text)) :
    ∃ tree calls, parse ctx (Props.Lex.toks text) = .ok tree ∧ checkFile o parseLint ctx text = .ok calls ∧
      (PragmasOnTop tree → ∀ r, r.id ∉ cfg.disabled →
        (r.id ∉ bodyCodes ∨ ∃ last line rest, tree.toks.getLast? = some last ∧ r.loc = line :: rest ∧ 0 < line ∧ line < last.begin_.line) →
        (Hidden tree r → r ∉ rs) ∧
        (¬ Hidden tree r → rs.count r = (checkBasics cfg text).count r + calls.count (.record r))) := by
  obtain ⟨calls, c, h1, h2, h3⟩ := lintText_ok h
  obtain ⟨ts, c1, tree, c2, hts, hc1, htree, hc2, rfl⟩ := checkFile_ok h1
  rw [Props.Parse.tokenize_toks] at hts
  injection hts with hts
  subst hts
  refine ⟨tree, _, htree, h1, ?_⟩
  intro htop r hd hcase
  obtain ⟨cs, rfl, hparts⟩ := parse_parts htree (Props.Parse.no_bom text _ (Props.Parse.tokenize_toks text) hbom) hap
  have hord := ordered_parts hparts (lines_up hbom)
  have hup := up_of_ordered hord
  have hcom : ∀ n ∈ cs, hasType .comment n = true → ∃ seg, n = mk .comment (leaves seg) := fun n hn hc => by
    obtain ⟨seg, e, _⟩ := hparts.comment n hn hc
    exact ⟨seg, e⟩
  have hnames : ∀ n ∈ cs, ∀ code, NamesIn n code ↔ hasType .comment n = true ∧ ∃ t ∈ n.toks, Names t code := by
    intro n hn code
    refine and_congr_right fun hc => ?_
    obtain ⟨seg, rfl⟩ := hcom n hn hc
    rw [toks_mk, toks_leafs]
    exact mem_pragmas code seg
  obtain ⟨r1, rfl, hr1⟩ := tokens_codes _ _ hc1
  simp only [checkParseTree, res_bind, res_pure] at hc2
  obtain ⟨ca, hca, ⟨c3, p3⟩, hc3, rfl⟩ := hc2
  obtain ⟨ra, rfl⟩ := records_of_quiet ((assigns_codes _ hca).only (code := []) (by decide))
  obtain ⟨rr, hrr⟩ := records_of_quiet ((refs_codes (mk .body cs).toks).only (code := []) (by decide))
  rw [hrr] at h2
  simp only [mk, checkTree, res_bind, res_pure] at hc3
  obtain ⟨cn, hcn, ⟨ck, q⟩, hck, hc3⟩ := hc3
  simp only [Prod.mk.injEq] at hc3
  obtain ⟨rfl, rfl⟩ := hc3
  have hkq := kids_quiet htop hcom hck
  have hcn' := hcn
  simp only [checkNode, checkBody, res_bind, res_pure] at hcn
  obtain ⟨⟨ci, supp⟩, hci, E, hE, rfl⟩ := hcn
  simp only [kidsOf] at hci
  -- the last line
  obtain ⟨last, hlast, hEl⟩ : ∃ last, (mk .body cs).toks.getLast? = some last ∧ last.begin_.line = E := by
    unfold lastLine at hE
    split at hE
    · simp at hE
    · rename_i t ht
      simp only [Except.ok.injEq] at hE
      exact ⟨t, ht, hE⟩
  have hloudE : ∀ n ∈ cs, Loud n → headLine n ≤ E := by
    intro n hn hloud
    obtain ⟨a, b, rfl⟩ := List.append_of_mem hn
    refine hEl ▸ hord a n b rfl hloud.1 last ?_
    rw [toks_mk, toksL_append] at hlast
    have hne : toksL (n :: b) ≠ [] := by
      rw [toksL_cons]
      simp [loud_toks hloud]
    rw [List.getLast?_append, Option.or_eq_some_iff] at hlast
    rcases hlast with hl | ⟨hl, _⟩
    · exact List.mem_of_getLast? hl
    · exact absurd (List.getLast?_eq_none_iff.1 hl) hne
  -- the run
  have esplit : (checkBasics cfg text).map Call.record ++ (r1.map Call.record ++ (parseLint (Props.Lex.toks text)).map Call.record ++
      (ra.map Call.record ++ rr.map Call.record ++ (ci ++ (if supp = [] then [] else [Call.unsuppress E supp]) ++ ck))) =
      (checkBasics cfg text ++ r1 ++ parseLint (Props.Lex.toks text) ++ ra ++ rr).map .record ++
        (ci ++ ((if supp = [] then [] else [Call.unsuppress E supp]) ++ ck)) := by simp
  have h2 := esplit ▸ h2
  rw [run_append] at h2
  obtain ⟨s1, q1, h2⟩ := Option.bind_eq_some_iff.1 h2
  rw [run_append] at h2
  obtain ⟨s2, q2, h2⟩ := Option.bind_eq_some_iff.1 h2
  rw [run_append] at h2
  obtain ⟨s3, q3, q4⟩ := Option.bind_eq_some_iff.1 h2
  have s1supp : s1.supp = [] := run_records_supp _ _ _ _ q1
  have s1ev : s1.events = [] := run_records_events _ _ _ _ q1
  have s1count := run_records_count _ r _ _ _ q1
  obtain ⟨s2ev, s2supp⟩ := items_events o cfg.disabled _ _ _ _ _ _ _ _ hci (by simp [s1supp]) q2
  have s3supp : s3.supp = [] := node_supp hcn' s1supp (by rw [run_append, q2]; exact q3)
  have s3lint : s3.lint = s2.lint := by
    split at q3
    · simp only [Ctx.run, Option.some.injEq] at q3; rw [← q3]
    · simp only [Ctx.run, Ctx.call, Option.bind_some, Option.some.injEq] at q3; rw [← q3]
  have s3ev : s3.events = adds [] cs ++ if supp = [] then [] else [⟨E, false, supp⟩] := by
    split at q3
    · simp only [Ctx.run, Option.some.injEq] at q3
      rw [← q3, s2ev, s1ev]
      simp [*]
    · simp only [Ctx.run, Ctx.call, Option.bind_some, Option.some.injEq] at q3
      rw [← q3]
      simp [s2ev, s1ev, *]
  have cev := records_events hkq q4
  have ccount := quiet_count hkq r q4
  rw [s3supp, s3lint] at ccount
  have hsupp : ∀ i, i ∈ supp ↔ ∃ n ∈ cs, NamesIn n i := fun i => by simpa using s2supp i
  -- hidden
  have hact : ∀ line rest, r.loc = line :: rest →
      (r.id ∈ (seen c.events r.loc).foldl applyEvent [] ↔ Hidden (mk .body cs) r) := by
    intro line rest hloc
    rw [cev, s3ev, hloc, body_active hsupp hup hloudE]
    constructor
    · rintro ⟨⟨n, k1, k2, k3⟩, k4⟩
      obtain ⟨k5, k6⟩ := (hnames n k1 _).1 k2
      have hloud : Loud n := ⟨k2.1, List.ne_nil_of_mem k2.2⟩
      cases hk : n.toks with
      | nil => exact absurd hk (loud_toks hloud)
      | cons x xs =>
        refine ⟨n, k1, k5, k6, x, last, line, rest, by rw [hk]; rfl, hlast, hloc, ?_, by omega⟩
        simpa [headLine, hk] using k3
    · rintro ⟨n, k1, k5, k6, x, last', line', rest', k7, k8, k9, k10, k11⟩
      rw [hloc] at k9
      obtain ⟨rfl, rfl⟩ := List.cons.inj k9
      rw [hlast] at k8
      obtain rfl := Option.some.inj k8
      refine ⟨⟨n, k1, (hnames n k1 _).2 ⟨k5, k6⟩, ?_⟩, by omega⟩
      cases hk : n.toks with
      | nil => rw [hk] at k7; simp at k7
      | cons y ys =>
        rw [hk] at k7
        obtain rfl := Option.some.inj k7
        simpa [headLine, hk] using k10
  have hrs : rs.count r = if r.id ∈ (seen c.events r.loc).foldl applyEvent [] then 0 else c.lint.count r := by
    rw [← h3, getLint_eq, count_filter', (sortBy_perm recLe c.lint).count_eq]
    by_cases hin : r.id ∈ (seen c.events r.loc).foldl applyEvent [] <;> simp [hin]
  constructor
  · intro hh
    have hh' := hh
    obtain ⟨_, _, _, _, _, _, line, rest, _, _, hloc, _⟩ := hh'
    rw [← List.count_eq_zero, hrs, if_pos ((hact line rest hloc).2 hh)]
  · intro hh
    have hseen : r.id ∉ (seen c.events r.loc).foldl applyEvent [] := by
      cases hloc : r.loc with
      | nil => simp [seen]
      | cons line rest => rw [← hloc, hact line rest hloc]; exact hh
    rw [hrs, if_neg hseen, ccount]
    have hmid : s2.lint.count r = s1.lint.count r + ci.count (.record r) := by
      rcases hcase with hb | ⟨last', line, rest, hl1, hloc, hpos, hlt⟩
      · have : Call.record r ∉ ci := fun hm => hb (items_codes o _ _ _ _ _ _ hci _ hm)
        rw [run_none this q2, List.count_eq_zero.2 this, Nat.add_zero]
      · rw [hlast] at hl1
        obtain rfl := Option.some.inj hl1
        rw [items_run o cfg.disabled r line hpos rest hloc _ _ _ _ _ _ _ _ hci (by simp [s1supp]) hord ?_ (by simp) q2, if_neg hd]
        intro n hn hni hle
        refine hh ?_
        rw [← hact line rest hloc, cev, s3ev, hloc, body_active hsupp hup hloudE]
        exact ⟨⟨n, hn, hni, hle⟩, by omega⟩
    have hun : (if supp = [] then [] else [Call.unsuppress E supp]).count (Call.record r) = 0 := by
      split <;> simp
    rw [hmid, s1count]
    simp only [hd, List.not_mem_nil, or_self, if_false, hrr, List.count_append, count_map_record, List.count_nil, hun]
    omega

/-- The line of the last token of the file. -/
def lastLineOf (ctx : Parse.Ctx) (text : Str) : Nat :=
  match parse ctx (Props.Lex.toks text) with
  | .ok tree => (tree.toks.getLast?.map (·.begin_.line)).getD 0
  | .error _ => 0

/-- The record is hidden by a comment of the text. -/
def HiddenIn (ctx : Parse.Ctx) (text : Str) (r : Lint.Rec) : Prop :=
  ∃ tree, parse ctx (Props.Lex.toks text) = .ok tree ∧ Hidden tree r

/-- Pragmas are only in comments directly in the file. -/
structure OnTop (ctx : Parse.Ctx) (text : Str) : Prop where
  bom : text.head? ≠ some BOM
  apart : SwitchesApart (Props.Lex.toks text)
  top : ∀ tree, parse ctx (Props.Lex.toks text) = .ok tree → PragmasOnTop tree

theorem count_only {r : Lint.Rec} (calls : List Call) : (only r.id calls).count (.record r) = calls.count (.record r) := by
  unfold only
  exact List.count_filter (by simp [codeOf])

/-- The records of one check, with pragmas. -/
theorem hidden_tree {o : Opts} {cfg : Cfg} {parseLint : List Token → List Lint.Rec} {ctx : Parse.Ctx} {text : Str}
    {rs : List Lint.Rec} (h : lintText o cfg parseLint ctx text = some rs) (hpl : ParserLint parseLint) (ht : OnTop ctx text)
    {code : Str} (hcode : TreeCode code) {spec : List Node → List Lint.Rec}
    (hspec : ∀ ts tree calls, parse ctx ts = .ok tree → checkParseTree o tree = .ok calls →
      (only code calls).Perm ((spec (stmtsOf tree)).map .record))
    (hd : code ∉ cfg.disabled) {r : Lint.Rec} (hr : r.id = code)
    (hcase : code ∉ bodyCodes ∨ ∃ line rest, r.loc = line :: rest ∧ 0 < line ∧ line < lastLineOf ctx text) :
    (HiddenIn ctx text r → r ∉ rs) ∧ (¬ HiddenIn ctx text r → rs.count r = (spec (commands ctx text)).count r) := by
  subst hr
  obtain ⟨tree, calls, k1, k2, k3⟩ := pragma_exact_partial h ht.bom ht.apart
  have k4 := k3 (ht.top tree k1) r hd (by
    refine hcase.imp id ?_
    rintro ⟨line, rest, a, b, c⟩
    simp only [lastLineOf, k1] at c
    cases hl : tree.toks.getLast? with
    | none => simp [hl] at c
    | some t => exact ⟨t, line, rest, rfl, a, b, by simpa [hl] using c⟩)
  have hid : HiddenIn ctx text r ↔ Hidden tree r := by
    constructor
    · rintro ⟨t, a, b⟩
      rw [k1] at a
      injection a with a
      exact a ▸ b
    · exact fun b => ⟨tree, k1, b⟩
  rw [hid]
  refine ⟨k4.1, fun hn => ?_⟩
  rw [k4.2 hn]
  obtain ⟨ts, c1, tree', c2, hts, hc1, htree, hc2, rfl⟩ := checkFile_ok k2
  rw [Props.Parse.tokenize_toks] at hts
  injection hts with hts
  subst hts
  rw [k1] at htree
  injection htree with htree
  subst htree
  obtain ⟨r1, rfl, hr1⟩ := tokens_codes _ _ hc1
  have z1 : (checkBasics cfg text).count r = 0 :=
    List.count_eq_zero.2 fun hm => hcode.line (basics_codes cfg text r hm)
  have z2 : r1.count r = 0 := List.count_eq_zero.2 fun hm => hcode.token (hr1 r hm)
  have z3 : (parseLint (Props.Lex.toks text)).count r = 0 :=
    List.count_eq_zero.2 fun hm => hcode.parser (hpl _ r hm)
  rw [show commands ctx text = stmtsOf tree by simp [commands, k1]]
  simp only [List.count_append, count_map_record, z1, z2, z3, Nat.zero_add]
  rw [← count_only, (hspec _ _ _ k1 hc2).count_eq, count_map_record]

/-- **C90, C64.** With pragmas, a stray `break` or `continue` is reported unless a comment before it hides it. -/
theorem stray_breaks_hidden {o : Opts} {cfg : Cfg} {parseLint : List Token → List Lint.Rec} {ctx : Parse.Ctx} {text : Str}
    {rs : List Lint.Rec} (h : lintText o cfg parseLint ctx text = some rs) (hpl : ParserLint parseLint) (ht : OnTop ctx text)
    (hd : S "E0103" ∉ cfg.disabled) (r : Lint.Rec) (hr : r.id = S "E0103") :
    (HiddenIn ctx text r → r ∉ rs) ∧ (¬ HiddenIn ctx text r → rs.count r = (strayBreaks (commands ctx text)).count r) := by
  refine hidden_tree h hpl ht ⟨by decide, by decide, by decide, by decide⟩ ?_ hd hr (.inl (by decide))
  intro ts tree calls h1 h2
  rw [break_calls h1 h2, strayBreaks, List.map_map]
  exact .refl _

/-- **C90, C65.** The same for commands that are never reached, on lines before the last token. -/
theorem dead_ends_hidden {o : Opts} {cfg : Cfg} {parseLint : List Token → List Lint.Rec} {ctx : Parse.Ctx} {text : Str}
    {rs : List Lint.Rec} (h : lintText o cfg parseLint ctx text = some rs) (hpl : ParserLint parseLint) (ht : OnTop ctx text)
    (hd : S "W0101" ∉ cfg.disabled) (r : Lint.Rec) (hr : r.id = S "W0101") {line : Nat} {rest : List Nat}
    (hloc : r.loc = line :: rest) (hpos : 0 < line) (hlast : line < lastLineOf ctx text) :
    (HiddenIn ctx text r → r ∉ rs) ∧ (¬ HiddenIn ctx text r → rs.count r = (deadEnds (commands ctx text)).count r) := by
  refine hidden_tree h hpl ht ⟨by decide, by decide, by decide, by decide⟩ ?_ hd hr (.inr ⟨line, rest, hloc, hpos, hlast⟩)
  intro ts tree calls h1 h2
  rw [← deadEnds_calls]
  exact dead_calls h1 h2

/-- **C90, C66.** The same for the limits on functions and macros. -/
theorem too_many_hidden {o : Opts} {cfg : Cfg} {parseLint : List Token → List Lint.Rec} {ctx : Parse.Ctx} {text : Str}
    {rs : List Lint.Rec} (h : lintText o cfg parseLint ctx text = some rs) (hpl : ParserLint parseLint) (ht : OnTop ctx text)
    {code : Str} {limit : Int} {counts : Str → Bool} (hl : (code, limit, counts) ∈ limits o)
    (hd : code ∉ cfg.disabled) (r : Lint.Rec) (hr : r.id = code) :
    (HiddenIn ctx text r → r ∉ rs) ∧
      (¬ HiddenIn ctx text r → rs.count r = (tooMany code limit counts (commands ctx text)).count r) := by
  refine hidden_tree h hpl ht ?_ ?_ hd hr (.inl ?_)
  · simp only [limits, List.mem_cons, List.not_mem_nil, or_false, Prod.mk.injEq] at hl
    rcases hl with ⟨rfl, _⟩ | ⟨rfl, _⟩ | ⟨rfl, _⟩ <;> exact ⟨by decide, by decide, by decide, by decide⟩
  · intro ts tree calls h1 h2
    rw [← tooMany_calls]
    exact count_calls (l := (code, limit, counts)) hl h1 h2
  · simp only [limits, List.mem_cons, List.not_mem_nil, or_false, Prod.mk.injEq] at hl
    rcases hl with ⟨rfl, _⟩ | ⟨rfl, _⟩ | ⟨rfl, _⟩ <;> decide

/-! ## A case, and the last line -/

/-- Two stray `break` commands, with a pragma between them. -/
def demo2 : Str := S "break()\n\n# cmake-lint: disable=E0103,W0101\n\nbreak()\n\n"

def onTopB (tree : Node) : Bool := (kidsOf tree).all fun n => hasType .comment n || noPragmaB n.toks

theorem demo2_top : OnTop Props.Parse.exampleCtx demo2 where
  bom := by decide +kernel
  apart := Props.Parse.switchesApart_of (by decide +kernel)
  top := by
    intro tree h n hn hc
    have key : (match parse Props.Parse.exampleCtx (Props.Lex.toks demo2) with
        | .ok t => onTopB t
        | .error _ => true) = true := by decide +kernel
    rw [h] at key
    have := List.all_eq_true.1 key n hn
    rw [hc, Bool.false_or] at this
    exact noPragma_of this

theorem demo2_lint : lintText demoOpts {} (fun _ => []) Props.Parse.exampleCtx demo2 =
    some [⟨S "E0103", [1, 0, 0], [S "break"]⟩, ⟨S "W0101", [1, 0, 0], []⟩] := by decide +kernel

/-- The first one is reported, since it is not hidden; the second one is found, and hidden. -/
example : (strayBreaks (commands Props.Parse.exampleCtx demo2)).count ⟨S "E0103", [1, 0, 0], [S "break"]⟩ = 1 ∧
    (strayBreaks (commands Props.Parse.exampleCtx demo2)).count ⟨S "E0103", [5, 0, 44], [S "break"]⟩ = 1 ∧
    HiddenIn Props.Parse.exampleCtx demo2 ⟨S "E0103", [5, 0, 44], [S "break"]⟩ := by
  refine ⟨by decide +kernel, by decide +kernel, ?_⟩
  apply Classical.byContradiction
  intro hn
  have := (stray_breaks_hidden demo2_lint demo_parser demo2_top (by simp) ⟨S "E0103", [5, 0, 44], [S "break"]⟩ rfl).2 hn
  revert this
  decide +kernel

/-- **Finding.** The pragma does not reach the last line of the file: the region ends at the line of the last token, and that
token is the end of the last line. With one more line at the end the record is hidden. -/
theorem last_line_not_hidden :
    lintText demoOpts {} (fun _ => []) Props.Parse.exampleCtx (S "# cmake-lint: disable=E0103\n\nbreak()\n") =
      some [⟨S "E0103", [3, 0, 29], [S "break"]⟩] ∧
    lintText demoOpts {} (fun _ => []) Props.Parse.exampleCtx (S "# cmake-lint: disable=E0103\n\nbreak()\n\n") = some [] := by
  decide +kernel

end Verif.Props.LintPragma
