import Verif.Props.Parse

/-!
# No two neighbouring blanks in a body

The parser takes all blanks between two blocks together.
-/

namespace Verif.Parse
open Verif Py Lex

/-- A run of blanks between blocks. -/
def isBlankNode : Node → Bool
  | .node .whitespace _ _ => true
  | _ => false

/-- No two neighbours are blanks. -/
def apart : List Node → Bool
  | a :: b :: rest => !(isBlankNode a && isBlankNode b) && apart (b :: rest)
  | _ => true

mutual
/-- In no body are there neighbouring blanks. -/
def spread : Node → Bool
  | .tok _ => true
  | .node ty _ cs =>
    match ty with
    | .body => apart cs && spreadL cs
    | .flowControl => spreadL cs
    | _ => true
/-- All of them. -/
def spreadL : List Node → Bool
  | [] => true
  | n :: ns => spread n && spreadL ns
end

theorem spreadL_append {a b : List Node} : spreadL (a ++ b) = (spreadL a && spreadL b) := by
  induction a with
  | nil => rfl
  | cons n ns ih => simp [spreadL, ih, Bool.and_assoc]

/-- The last child is blank. -/
def endsBlank (acc : List Node) : Bool :=
  match acc.getLast? with
  | some n => isBlankNode n
  | none => false

theorem apart_one {acc : List Node} {n : Node} (h : apart acc = true) (h2 : endsBlank acc = true → isBlankNode n = false) :
    apart (acc ++ [n]) = true := by
  induction acc with
  | nil => rfl
  | cons a as ih =>
    cases as with
    | nil =>
      simp only [List.cons_append, List.nil_append, apart, Bool.and_true]
      simp only [endsBlank, List.getLast?_singleton] at h2
      cases ha : isBlankNode a with
      | false => rfl
      | true => simp [h2 ha]
    | cons b bs =>
      simp only [List.cons_append, apart, Bool.and_eq_true] at h ⊢
      refine ⟨h.1, ih h.2 (fun he => h2 ?_)⟩
      simpa only [endsBlank, List.getLast?_cons_cons] using he

/-- The next token is blank. -/
def headWs : List Token → Bool
  | t :: _ => isWs t
  | [] => false

/-- What holds before a round of the loop over a body. -/
structure Spaced (acc : List Node) (ts : List Token) : Prop where
  apart : apart acc = true
  kids : spreadL acc = true
  head : endsBlank acc = true → headWs ts = false

theorem spaced_nil (ts : List Token) : Spaced [] ts := ⟨rfl, rfl, by simp [endsBlank]⟩

theorem spaced_next {acc : List Node} {ts ts' : List Token} {n : Node} (h : Spaced acc ts) (hn : isBlankNode n = false)
    (hs : spread n = true) : Spaced (acc ++ [n]) ts' where
  apart := apart_one h.apart (fun _ => hn)
  kids := by simp [spreadL_append, h.kids, spreadL, hs]
  head he := by simp [endsBlank, hn] at he

theorem headWs_dropWhile (ts : List Token) : headWs (ts.dropWhile isWs) = false := by
  induction ts with
  | nil => rfl
  | cons t ts ih =>
    by_cases h : isWs t = true
    · rw [List.dropWhile_cons_of_pos h]; exact ih
    · rw [List.dropWhile_cons_of_neg h]; simpa [headWs] using h

theorem isBlank_comment (t : Token) (ts : List Token) : isBlankNode (consumeComment t ts).1 = false ∧
    spread (consumeComment t ts).1 = true := by
  simp only [consumeComment]
  split <;> simp [mk, isBlankNode, spread]

theorem stmt_type {ctx : Ctx} {n : Nat} {up : Bool} {ts : List Token} {r : Node × List Token}
    (h : exec ctx n .statement up ts = .ok r) : isBlankNode r.1 = false ∧ spread r.1 = true := by
  cases n with
  | zero => simp [exec] at h
  | succ n =>
    simp only [exec, step] at h
    cases ts with
    | nil => simp [stmtIter] at h
    | cons t ts =>
      simp only [stmtIter] at h
      split at h
      · simp at h
      · split at h
        · simp at h
        · obtain ⟨⟨sub, rest⟩, _, h⟩ := bind_ok.1 h
          obtain ⟨⟨tail, rest1⟩, _, h⟩ := bind_ok.1 h
          simp only at h
          split at h
          · simp at h
          · simp only [pure, Except.pure, Except.ok.injEq] at h
            subst h
            exact ⟨rfl, rfl⟩

/-- What the block-level jobs do. -/
structure SpreadUpTo (ctx : Ctx) (n : Nat) : Prop where
  body : ∀ bs acc up ts r, TsOk false (fun _ => True) ts → Spaced acc ts → exec ctx n (.body bs acc) up ts = .ok r →
    spread r.1 = true
  flow : ∀ up ts r, TsOk false (fun _ => True) ts → exec ctx n .flow up ts = .ok r →
    isBlankNode r.1 = false ∧ spread r.1 = true
  ifs : ∀ acc up ts r, spreadL acc = true → TsOk false (fun _ => True) ts → exec ctx n (.ifLoop acc) up ts = .ok r →
    isBlankNode r.1 = false ∧ spread r.1 = true

theorem rest_ok {ctx : Ctx} {n : Nat} {job : Job} {up : Bool} {ts : List Token} {r : Node × List Token}
    (ht : TsOk false (fun _ => True) ts) (h : exec ctx n job up ts = .ok r) (hj : JobOk false ts job) :
    TsOk false (fun _ => True) r.2 :=
  ht.good (exec_holds (s := false) (Q := fun _ => True) (fun _ _ => Props.Parse.argOk_all _ true) n job up ts r h hj ht)

theorem exec_spread (ctx : Ctx) (n : Nat) : SpreadUpTo ctx n := by
  induction n with
  | zero => constructor <;> intros <;> rename_i h <;> simp [exec] at h
  | succ n ih =>
    refine ⟨?_, ?_, ?_⟩
    · intro bs acc up ts r ht hs h
      have fin : spread (mk .body acc) = true := by simp [mk, spread, hs.apart, hs.kids]
      simp only [exec, step] at h
      cases ts with
      | nil =>
        simp only [bodyIter, Except.ok.injEq] at h
        subst h; exact fin
      | cons t ts =>
        simp only [bodyIter] at h
        split at h
        · rename_i hw
          refine ih.body _ _ _ _ _ ht.dropWs ⟨?_, ?_, fun _ => headWs_dropWhile _⟩ h
          · refine apart_one hs.apart (fun he => ?_)
            have := hs.head he
            simp [headWs, hw] at this
          · simp [spreadL_append, hs.kids, spreadL, spread, mk]
        · split at h
          · have hc := isBlank_comment t ts
            exact ih.body _ _ _ _ _ ht.comment (spaced_next hs hc.1 hc.2) h
          · split at h
            · exact ih.body _ _ _ _ _ ht.tail (spaced_next hs rfl rfl) h
            · split at h
              · split at h
                · simp only [Except.ok.injEq] at h
                  subst h; exact fin
                · split at h
                  · obtain ⟨⟨sub, rest⟩, h1, h2⟩ := bind_ok.1 h
                    obtain ⟨a, b⟩ := ih.flow _ _ _ ht h1
                    exact ih.body _ _ _ _ _ (rest_ok ht h1 trivial) (spaced_next hs a b) h2
                  · obtain ⟨⟨sub, rest⟩, h1, h2⟩ := bind_ok.1 h
                    obtain ⟨a, b⟩ := stmt_type h1
                    exact ih.body _ _ _ _ _ (rest_ok ht h1 trivial) (spaced_next hs a b) h2
              · split at h
                · exact ih.body _ _ _ _ _ (ht.trailing (ctx := ctx)) (spaced_next hs rfl rfl) h
                · split at h
                  · rename_i hb
                    exact absurd (by simpa using hb) (ht.nobom t (by simp))
                  · simp at h
    · intro up ts r ht h
      simp only [exec, step] at h
      cases ts with
      | nil => simp [flowIter] at h
      | cons t ts =>
        simp only [flowIter] at h
        split at h
        · exact ih.ifs _ _ _ _ rfl ht h
        · obtain ⟨⟨o, r1⟩, h1, h⟩ := bind_ok.1 h
          obtain ⟨⟨b, r2⟩, h2, h⟩ := bind_ok.1 h
          obtain ⟨⟨c, r3⟩, h3, h⟩ := bind_ok.1 h
          simp only [pure, Except.pure, Except.ok.injEq] at h
          subst h
          have t1 := rest_ok ht h1 trivial
          have hb := ih.body _ _ _ _ _ t1 (spaced_nil _) h2
          refine ⟨rfl, ?_⟩
          have ho := (stmt_type h1).2
          have hc := (stmt_type h3).2
          simp only at ho hc hb
          simp [mk, spread, spreadL, ho, hc, hb]
    · intro acc up ts r ha ht h
      simp only [exec, step] at h
      cases ts with
      | nil =>
        simp only [ifIter, Except.ok.injEq] at h
        subst h
        exact ⟨rfl, by simp [mk, spread, ha]⟩
      | cons t ts =>
        simp only [ifIter] at h
        split at h
        · obtain ⟨⟨c, r1⟩, h1, h⟩ := bind_ok.1 h
          simp only [pure, Except.pure, Except.ok.injEq] at h
          subst h
          have hc := (stmt_type h1).2
          simp only at hc
          exact ⟨rfl, by simp [mk, spread, spreadL_append, spreadL, ha, hc]⟩
        · obtain ⟨⟨o, r1⟩, h1, h⟩ := bind_ok.1 h
          obtain ⟨⟨b, r2⟩, h2, h⟩ := bind_ok.1 h
          have t1 := rest_ok ht h1 trivial
          have t2 := rest_ok t1 h2 trivial
          have ho := (stmt_type h1).2
          have hb := ih.body _ _ _ _ _ t1 (spaced_nil _) h2
          simp only at ho hb
          exact ih.ifs _ _ _ _ (by simp [spreadL_append, spreadL, ha, ho, hb]) t2 h

/-- No body of a parse tree has neighbouring blanks. -/
theorem parse_spread {ctx : Ctx} {m : Nat} {ts : List Token} {tree : Node} (h : parseN ctx m ts = .ok tree)
    (hb : ∀ t ∈ ts, t.type ≠ .bom) (hu : Unglued ts) : spread tree = true :=
  (exec_spread ctx m).body _ _ _ _ _ ⟨by simp, hb, fun _ => hu⟩ (spaced_nil _) (Props.Parse.parse_all h)

end Verif.Parse
