import Verif.LintReport
import Verif.Props.Parse

/-!
# Pragmas directly in the file (lemmas for C90)
-/

namespace Verif.Parse
open Verif Py Lex

/-! ## The parts of the file -/

/-- The children of a body with the tokens that each was read from. -/
inductive Parts : List Node → List Token → Prop
  | nil : Parts [] []
  | snoc {cs : List Node} {ts seg : List Token} {n : Node} : Parts cs ts → n.toks.Perm seg →
      (Lint.hasType .comment n = true → n = mk .comment (leaves seg)) → Parts (cs ++ [n]) (ts ++ seg)

theorem toks_leafs (l : List Token) : toksL (leaves l) = l := by
  induction l with
  | nil => rfl
  | cons t l ih => simp only [leaves, List.map_cons, toksL_cons, toks_tok] at ih ⊢; rw [ih]; rfl

theorem comment_is (t : Token) (ts : List Token) : ∃ seg, (consumeComment t ts).1 = mk .comment (leaves seg) ∧
    seg ++ (consumeComment t ts).2 = t :: ts := by
  unfold consumeComment
  split
  · exact ⟨[t], rfl, rfl⟩
  · exact ⟨_, rfl, commentRun_splits _ _ _⟩

variable {ctx : Ctx}

theorem ifLoop_type : ∀ (n : Nat) (acc : List Node) (up : Bool) (ts : List Token) (r : Node × List Token),
    exec ctx n (.ifLoop acc) up ts = .ok r → Lint.hasType .comment r.1 = false
  | 0, acc, up, ts, r, h => by simp [exec] at h
  | n + 1, acc, up, ts, r, h => by
    simp only [exec, step] at h
    cases ts with
    | nil => simp only [ifIter, Except.ok.injEq] at h; subst h; rfl
    | cons t ts =>
      simp only [ifIter] at h
      split at h
      · obtain ⟨⟨c, rest⟩, h1, h2⟩ := bind_ok.1 h
        simp only [pure, Except.pure, Except.ok.injEq] at h2
        subst h2
        rfl
      · obtain ⟨⟨o, rest⟩, h1, h2⟩ := bind_ok.1 h
        obtain ⟨⟨b, rest2⟩, h3, h4⟩ := bind_ok.1 h2
        exact ifLoop_type n _ _ _ _ h4

theorem flow_type {n : Nat} {up : Bool} {ts : List Token} {r : Node × List Token} (h : exec ctx n .flow up ts = .ok r) :
    Lint.hasType .comment r.1 = false := by
  cases n with
  | zero => simp [exec] at h
  | succ n =>
    simp only [exec, step] at h
    cases ts with
    | nil => simp [flowIter] at h
    | cons t ts =>
      simp only [flowIter] at h
      split at h
      · exact ifLoop_type n _ _ _ _ h
      · obtain ⟨⟨o, rest⟩, h1, h2⟩ := bind_ok.1 h
        obtain ⟨⟨b, rest2⟩, h3, h4⟩ := bind_ok.1 h2
        obtain ⟨⟨c, rest3⟩, h5, h6⟩ := bind_ok.1 h4
        simp only [pure, Except.pure, Except.ok.injEq] at h6
        subst h6
        rfl

theorem statement_type {n : Nat} {up : Bool} {ts : List Token} {r : Node × List Token}
    (h : exec ctx n .statement up ts = .ok r) : Lint.hasType .comment r.1 = false := by
  cases n with
  | zero => simp [exec] at h
  | succ n =>
    simp only [exec, step] at h
    cases ts with
    | nil => simp [stmtIter] at h
    | cons t ts =>
      simp only [stmtIter] at h
      split at h
      · simp at h
      · split at h
        · simp at h
        · obtain ⟨⟨o, rest⟩, h1, h2⟩ := bind_ok.1 h
          obtain ⟨⟨b, rest2⟩, h3, h4⟩ := bind_ok.1 h2
          dsimp only at h4
          split at h4
          · simp at h4
          · simp only [pure, Except.pure, Except.ok.injEq] at h4
            subst h4
            rfl

theorem body_parts {orig : List Token} : ∀ (n : Nat) (bs : List Str) (acc : List Node) (up : Bool) (pre ts : List Token)
    (r : Node × List Token), orig = pre ++ ts → TsOk false (fun _ => True) ts → Parts acc pre →
    exec ctx n (.body bs acc) up ts = .ok r → ∃ cs p, r.1 = mk .body cs ∧ orig = p ++ r.2 ∧ Parts cs p
  | 0, bs, acc, up, pre, ts, r, ho, hk, hp, h => by simp [exec] at h
  | n + 1, bs, acc, up, pre, ts, r, ho, hk, hp, h => by
    simp only [exec, step] at h
    have hh : Holds false (fun _ => True) (exec ctx n) := exec_holds (fun t _ => Props.Parse.argOk_all _ true) n
    cases ts with
    | nil =>
      simp only [bodyIter, Except.ok.injEq] at h
      subst h
      exact ⟨acc, pre, rfl, by simpa using ho, hp⟩
    | cons t ts =>
      have next : ∀ (m : Node) (seg rest : List Token), t :: ts = seg ++ rest → m.toks.Perm seg →
          (Lint.hasType .comment m = true → m = mk .comment (leaves seg)) →
          exec ctx n (.body bs (acc ++ [m])) false rest = .ok r → ∃ cs p, r.1 = mk .body cs ∧ orig = p ++ r.2 ∧ Parts cs p := by
        intro m seg rest e1 e2 e3 h
        refine body_parts n bs _ _ (pre ++ seg) rest r (by rw [ho, e1, List.append_assoc]) ?_ (.snoc hp e2 e3) h
        rw [e1] at hk
        exact hk.suffix
      simp only [bodyIter] at h
      split at h
      · refine next _ _ _ (ws_split _) ?_ ?_ h
        · rw [toks_mk, toks_leafs]
        · intro hc; simp [Lint.hasType, mk] at hc
      · split at h
        · obtain ⟨seg, e1, e2⟩ := comment_is t ts
          refine next _ seg _ e2.symm ?_ (fun _ => e1) h
          rw [e1, toks_mk, toks_leafs]
        · split at h
          · refine next _ [t] ts rfl ?_ ?_ h
            · simp
            · intro hc; simp [Lint.hasType, mk] at hc
          · split at h
            · split at h
              · simp only [Except.ok.injEq] at h
                subst h
                exact ⟨acc, pre, rfl, ho, hp⟩
              · split at h
                · obtain ⟨⟨sub, rest⟩, h1, h2⟩ := bind_ok.1 h
                  obtain ⟨c, e1, e2⟩ := hh _ _ _ _ h1 trivial hk
                  refine next sub c rest e1 ?_ ?_ h2
                  · simpa [Rel, Job.toks] using e2.1
                  · intro hc; rw [flow_type h1] at hc; simp at hc
                · obtain ⟨⟨sub, rest⟩, h1, h2⟩ := bind_ok.1 h
                  obtain ⟨c, e1, e2⟩ := hh _ _ _ _ h1 trivial hk
                  refine next sub c rest e1 ?_ ?_ h2
                  · simpa [Rel, Job.toks] using e2.1
                  · intro hc; rw [statement_type h1] at hc; simp at hc
            · split at h
              · refine next _ (t :: toksL (consumeTrailing ctx ts).1) _ ?_ ?_ ?_ h
                · rw [List.cons_append, consumeTrailing_splits]
                · simp
                · intro hc; simp [Lint.hasType, mk] at hc
              · split at h
                · rename_i hb
                  exact absurd (by simpa using hb) (hk.nobom t (by simp))
                · simp at h

/-- The lines at which the tokens start do not decrease. -/
def LinesUp (ts : List Token) : Prop := ts.Pairwise fun a b => a.begin_.line ≤ b.begin_.line

theorem lines_up {text : Str} (hbom : text.head? ≠ some BOM) : LinesUp (Props.Lex.toks text) := by
  rw [LinesUp, List.pairwise_iff_getElem]
  intro i j hi hj hij
  have ht := Props.Parse.tokenize_toks text
  obtain ⟨b1, _, _, h1, h2, _⟩ := Props.Lex.token_locations_exact text hbom _ ht i _ (List.getElem?_eq_getElem hi)
  obtain ⟨b2, _, _, h3, h4, _⟩ := Props.Lex.token_locations_exact text hbom _ ht j _ (List.getElem?_eq_getElem hj)
  rw [h2, h4, h1, h3]
  simp only [Props.Lex.trueLoc]
  have : (Props.Lex.toks text).take i <+: (Props.Lex.toks text).take j := by
    rw [List.prefix_take_iff]
    exact ⟨List.take_prefix _ _, by simp; omega⟩
  obtain ⟨s, hs⟩ := this
  rw [← hs]
  simp

theorem parse_parts {ts : List Token} {tree : Node} (h : parse ctx ts = .ok tree) (hb : ∀ t ∈ ts, t.type ≠ .bom)
    (hs : SwitchesApart ts) : ∃ cs, tree = mk .body cs ∧ Parts cs ts := by
  obtain ⟨cs, p, e1, e2, e3⟩ := body_parts (orig := ts) _ _ _ _ [] ts _ rfl ⟨by simp, hb, fun _ => Props.Parse.unglued_of hs⟩ .nil
    (Props.Parse.parse_all h)
  simp only [List.append_nil] at e2
  exact ⟨cs, e1, e2 ▸ e3⟩

theorem Parts.perm {cs : List Node} {ts : List Token} (h : Parts cs ts) : (toksL cs).Perm ts := by
  induction h with
  | nil => simp
  | snoc _ h1 _ ih => rw [toksL_append]; simpa using ih.append h1

theorem Parts.split {cs : List Node} {ts : List Token} (h : Parts cs ts) : ∀ {a b : List Node}, cs = a ++ b →
    ∃ p q, ts = p ++ q ∧ (toksL a).Perm p ∧ (toksL b).Perm q := by
  induction h with
  | nil => intro a b e; simp at e; exact ⟨[], [], rfl, by simp [e.1], by simp [e.2]⟩
  | @snoc cs ts seg n h1 h2 h3 ih =>
    intro a b e
    rcases List.eq_nil_or_concat b with rfl | ⟨b', x, rfl⟩
    · refine ⟨ts ++ seg, [], by simp, ?_, by simp⟩
      rw [List.append_nil] at e
      rw [← e]
      exact (Parts.snoc h1 h2 h3).perm
    · rw [List.concat_eq_append, ← List.append_assoc] at e
      obtain ⟨e1, e2⟩ := List.append_inj' e rfl
      simp only [List.cons.injEq, and_true] at e2
      obtain ⟨p, q, k1, k2, k3⟩ := ih e1
      refine ⟨p, q ++ seg, by simp [k1], k2, ?_⟩
      rw [List.concat_eq_append, toksL_append, ← e2]
      simpa using k3.append h2

theorem Parts.comment {cs : List Node} {ts : List Token} (h : Parts cs ts) : ∀ n ∈ cs, Lint.hasType .comment n = true →
    ∃ seg, n = mk .comment (leaves seg) ∧ seg.Sublist ts := by
  induction h with
  | nil => simp
  | @snoc cs ts seg n h1 h2 h3 ih =>
    intro m hm hc
    rcases List.mem_append.1 hm with hm | hm
    · obtain ⟨s, e1, e2⟩ := ih m hm hc
      exact ⟨s, e1, e2.trans (List.sublist_append_left _ _)⟩
    · rw [List.mem_singleton.1 hm] at hc ⊢
      exact ⟨seg, h3 hc, List.sublist_append_right _ _⟩

/-- Tokens of later parts are on the same or later lines. -/
theorem Parts.lines {ts : List Token} {a b : List Node} (h : Parts (a ++ b) ts) (hl : LinesUp ts) :
    ∀ x ∈ toksL a, ∀ y ∈ toksL b, x.begin_.line ≤ y.begin_.line := by
  obtain ⟨p, q, e, h1, h2⟩ := h.split rfl
  intro x hx y hy
  rw [LinesUp, e, List.pairwise_append] at hl
  exact hl.2.2 x (h1.mem_iff.1 hx) y (h2.mem_iff.1 hy)

end Verif.Parse

namespace Verif.Lint
open Verif Py Lex Parse

/-! ## The calls for the file itself -/

/-- The line of the first token of a node. -/
def headLine (n : Node) : Nat :=
  match n.toks with
  | [] => 0
  | t :: _ => t.begin_.line

theorem firstLine_ok {n : Node} {l : Nat} (h : firstLine n = .ok l) : l = headLine n ∧ ∃ t ∈ n.toks, t.begin_.line = l := by
  unfold firstLine at h
  unfold headLine
  split at h
  · simp at h
  · rename_i t ts e
    simp only [Except.ok.injEq] at h
    rw [e]
    exact ⟨h.symm, t, by simp, h⟩

/-- The events for the pragmas among the children of a body. -/
def adds : List Str → List Node → List Event
  | _, [] => []
  | supp, n :: ns =>
    if hasType .comment n = true ∧ (pragmas (kidsOf n)).1 ≠ [] then
      ⟨headLine n, true, (addNew supp (pragmas (kidsOf n)).1).2⟩ :: adds (supp ++ (addNew supp (pragmas (kidsOf n)).1).2) ns
    else adds supp ns

/-- A child is a comment that names the code. -/
def NamesIn (n : Node) (code : Str) : Prop := hasType .comment n = true ∧ code ∈ (pragmas (kidsOf n)).1

/-- A comment with a pragma. -/
def Loud (n : Node) : Prop := hasType .comment n = true ∧ (pragmas (kidsOf n)).1 ≠ []

theorem adds_lines : ∀ (ns : List Node) (supp : List Str), ∀ e ∈ adds supp ns, e.add = true ∧ ∃ n ∈ ns, Loud n ∧ e.line = headLine n
  | [], supp => by simp [adds]
  | n :: ns, supp => by
    intro e he
    rw [adds] at he
    split at he
    · rename_i hc
      rcases List.mem_cons.1 he with rfl | he
      · exact ⟨rfl, n, by simp, hc, rfl⟩
      · obtain ⟨h1, m, h2, h3, h4⟩ := adds_lines ns _ e he
        exact ⟨h1, m, by simp [h2], h3, h4⟩
    · obtain ⟨h1, m, h2, h3, h4⟩ := adds_lines ns _ e he
      exact ⟨h1, m, by simp [h2], h3, h4⟩

/-- The comments come in line order. -/
def CommentsUp (ns : List Node) : Prop := ns.Pairwise fun a b => Loud a → Loud b → headLine a ≤ headLine b

theorem adds_sorted : ∀ (ns : List Node) (supp : List Str), CommentsUp ns → (adds supp ns).Pairwise fun a b => a.line ≤ b.line
  | [], supp, _ => by simp [adds]
  | n :: ns, supp, h => by
    obtain ⟨h1, h2⟩ := List.pairwise_cons.1 h
    rw [adds]
    split
    · rename_i hc
      refine List.pairwise_cons.2 ⟨?_, adds_sorted ns _ h2⟩
      intro e he
      obtain ⟨_, m, hm, k1, k2⟩ := adds_lines ns _ e he
      rw [k2]
      exact h1 m hm hc k1
    · exact adds_sorted ns _ h2

theorem adds_mem (L : Nat) (code : Str) : ∀ (ns : List Node) (supp : List Str), CommentsUp ns → code ∉ supp →
    ((∃ e ∈ adds supp ns, e.line ≤ L ∧ code ∈ e.ids) ↔ ∃ n ∈ ns, NamesIn n code ∧ headLine n ≤ L)
  | [], supp, _, _ => by simp [adds]
  | n :: ns, supp, h, hn => by
    obtain ⟨h1, h2⟩ := List.pairwise_cons.1 h
    rw [adds]
    split
    · rename_i hc
      by_cases hp : code ∈ (pragmas (kidsOf n)).1
      · by_cases hl : headLine n ≤ L
        · constructor
          · intro _; exact ⟨n, by simp, ⟨hc.1, hp⟩, hl⟩
          · intro _; exact ⟨_, List.mem_cons_self, hl, (addNew_snd _ _ _).2 ⟨hn, hp⟩⟩
        · constructor
          · rintro ⟨e, he, k1, k2⟩
            exfalso
            rcases List.mem_cons.1 he with rfl | he
            · exact hl k1
            · obtain ⟨_, m, hm, k3, k4⟩ := adds_lines ns _ e he
              have := h1 m hm hc k3
              omega
          · rintro ⟨m, hm, ⟨k1, k2⟩, k3⟩
            exfalso
            rcases List.mem_cons.1 hm with rfl | hm
            · exact hl k3
            · have := h1 m hm hc ⟨k1, List.ne_nil_of_mem k2⟩
              omega
      · have ih := adds_mem L code ns (supp ++ (addNew supp (pragmas (kidsOf n)).1).2) h2 (by
          rw [List.mem_append, addNew_snd]; rintro (k | k)
          · exact hn k
          · exact hp k.2)
        constructor
        · rintro ⟨e, he, k1, k2⟩
          rcases List.mem_cons.1 he with rfl | he
          · exact absurd ((addNew_snd _ _ _).1 k2).2 hp
          · obtain ⟨m, hm, k⟩ := ih.1 ⟨e, he, k1, k2⟩
            exact ⟨m, by simp [hm], k⟩
        · rintro ⟨m, hm, k⟩
          rcases List.mem_cons.1 hm with rfl | hm
          · exact absurd k.1.2 hp
          · obtain ⟨e, he, k⟩ := ih.2 ⟨m, hm, k⟩
            exact ⟨e, by simp [he], k⟩
    · rename_i hc
      rw [adds_mem L code ns supp h2 hn]
      constructor
      · rintro ⟨m, hm, k⟩; exact ⟨m, by simp [hm], k⟩
      · rintro ⟨m, hm, k⟩
        rcases List.mem_cons.1 hm with rfl | hm
        · exact absurd ⟨k.1.1, List.ne_nil_of_mem k.1.2⟩ hc
        · exact ⟨m, hm, k⟩

theorem run_records_events (d : List Str) (rs : List Rec) : ∀ (c c' : Ctx), c.run d (rs.map .record) = some c' →
    c'.events = c.events := by
  induction rs with
  | nil => intro c c' h; simp only [List.map_nil, Ctx.run, Option.some.injEq] at h; rw [← h]
  | cons r rs ih =>
    intro c c' h
    simp only [List.map_cons, Ctx.run, Ctx.call] at h
    repeat' split at h
    all_goals first | (simp at h; done) | (have := ih _ _ (by simpa using h); simpa using this)

theorem records_events {d : List Str} {calls : List Call} (hq : only [] calls = []) {c c' : Ctx}
    (h : c.run d calls = some c') : c'.events = c.events := by
  obtain ⟨rs, rfl⟩ := records_of_quiet hq
  exact run_records_events d rs c c' h

/-- How often a record is kept when records are made. -/
theorem run_records_count (d : List Str) (r : Rec) (rs : List Rec) : ∀ (c c' : Ctx), c.run d (rs.map .record) = some c' →
    c'.lint.count r = c.lint.count r + if r.id ∈ d ∨ r.id ∈ c.supp then 0 else rs.count r := by
  induction rs with
  | nil => intro c c' h; simp only [List.map_nil, Ctx.run, Option.some.injEq] at h; rw [← h]; simp
  | cons x rs ih =>
    intro c c' h
    simp only [List.map_cons, Ctx.run, Ctx.call] at h
    split at h
    · rename_i hd
      rw [ih _ _ (by simpa using h)]
      by_cases e : x = r
      · subst e; simp [hd]
      · simp [e]
    · rename_i hd
      split at h
      · rename_i hs
        rw [ih _ _ (by simpa using h)]
        by_cases e : x = r
        · subst e; simp [hs]
        · simp [e]
      · rename_i hs
        split at h
        · rw [ih _ _ (by simpa using h)]
          simp only [List.count_append]
          by_cases e : x = r
          · subst e; simp [hs, hd]; omega
          · simp [e]
        · simp at h

theorem quiet_count {d : List Str} {calls : List Call} (hq : only [] calls = []) {c c' : Ctx} (r : Rec)
    (h : c.run d calls = some c') :
    c'.lint.count r = c.lint.count r + if r.id ∈ d ∨ r.id ∈ c.supp then 0 else calls.count (.record r) := by
  obtain ⟨rs, rfl⟩ := records_of_quiet hq
  rw [run_records_count d r rs c c' h]
  have : ∀ rs : List Rec, (rs.map Call.record).count (.record r) = rs.count r := by
    intro rs
    induction rs with
    | nil => rfl
    | cons x l ih =>
      simp only [List.map_cons, List.count_cons, ih]
      by_cases e : x = r <;> simp [e]
  rw [this]

/-- The records are at tokens of the node. -/
def At (n : Node) (calls : List Call) : Prop :=
  ∀ x, Call.record x ∈ calls → ∀ line rest, x.loc = line :: rest → line = 0 ∨ ∃ t ∈ n.toks, t.begin_.line = line

theorem at_nil (n : Node) : At n [] := by simp [At]

theorem at_one {n : Node} {x : Rec} (h : ∀ line rest, x.loc = line :: rest → line = 0 ∨ ∃ t ∈ n.toks, t.begin_.line = line) :
    At n [.record x] := by
  intro y hy
  simp only [List.mem_singleton, Call.record.injEq] at hy
  subst hy
  exact h

mutual
theorem nodeLoc_at : ∀ (n : Node) (line : Nat) (rest : List Nat), nodeLoc n = line :: rest → line = 0 ∨ ∃ t ∈ n.toks, t.begin_.line = line
  | .tok t, line, rest, h => by
    simp only [nodeLoc, tokLoc, locOf, List.cons.injEq] at h
    exact .inr ⟨t, by simp, h.1⟩
  | .node ty a [], line, rest, h => by
    simp only [nodeLoc, List.cons.injEq] at h
    exact .inl h.1.symm
  | .node ty a (c :: cs), line, rest, h => by
    simp only [nodeLoc] at h
    rcases nodeLoc_at c line rest h with h | ⟨t, h1, h2⟩
    · exact .inl h
    · exact .inr ⟨t, by simp [h1], h2⟩
end

theorem firstSem_at {n : Node} {l : List Nat} (h : firstSem n = .ok l) {line : Nat} {rest : List Nat} (e : l = line :: rest) :
    ∃ t ∈ n.toks, t.begin_.line = line := by
  unfold firstSem at h
  split at h
  · simp at h
  · rename_i t ts hs
    simp only [Except.ok.injEq] at h
    rw [e] at h
    simp only [tokLoc, locOf, List.cons.injEq] at h
    refine ⟨t, ?_, h.1⟩
    have : t ∈ semToks n := by rw [hs]; simp
    unfold semToks semantics at this
    exact (List.mem_filter.1 this).1

theorem doc_at {o : Opts} {p0 p1 : Option Node} {n : Node} {c : List Call} (h : checkDoc o p0 p1 n = .ok c) : At n c := by
  unfold checkDoc at h
  split at h
  · simp at h
  · split at h
    · split at h
      · simp only [res_bind, res_pure] at h
        obtain ⟨l, h1, rfl⟩ := h
        exact at_one fun line rest e => .inr (firstSem_at h1 e)
      · split at h
        · simp only [res_bind, res_pure] at h
          obtain ⟨l, h1, rfl⟩ := h
          exact at_one fun line rest e => .inr (firstSem_at h1 e)
        · simp only [Except.ok.injEq] at h; subst h; exact at_nil _
    · simp only [Except.ok.injEq] at h; subst h; exact at_nil _
  · simp only [Except.ok.injEq] at h; subst h; exact at_nil _

theorem spacing_at (o : Opts) (p : Option Node) (n : Node) : At n (checkSpacing o p n) := by
  unfold checkSpacing
  repeat' split
  all_goals first | exact at_nil _ | exact at_one (nodeLoc_at n)

theorem reach_at (n : Node) (ns : List Node) : At n (checkReach n ns) := by
  unfold checkReach
  repeat' split
  all_goals first | exact at_nil _ | exact at_one (nodeLoc_at n)

theorem pragmaIds_row (row col : Nat) : ∀ (ids : List Str), ∀ x ∈ (pragmaIds row col ids).2, x.loc.head? = some row
  | [] => by simp [pragmaIds]
  | i :: ids => by
    intro x hx
    simp only [pragmaIds] at hx
    split at hx
    · exact pragmaIds_row row col ids x hx
    · rcases List.mem_cons.1 hx with rfl | hx
      · rfl
      · exact pragmaIds_row row col ids x hx

theorem pragmaItems_row (row : Nat) : ∀ (items : List Str) (col : Nat), ∀ x ∈ (pragmaItems row col items).2, x.loc.head? = some row
  | [], col => by simp [pragmaItems]
  | i :: items, col => by
    intro x hx
    simp only [pragmaItems] at hx
    split at hx
    · rcases List.mem_cons.1 hx with rfl | hx
      · rfl
      · exact pragmaItems_row row items _ x hx
    · split at hx
      · rcases List.mem_append.1 hx with hx | hx
        · exact pragmaIds_row _ _ _ x hx
        · exact pragmaItems_row row items _ x hx
      · rcases List.mem_cons.1 hx with rfl | hx
        · rfl
        · exact pragmaItems_row row items _ x hx

theorem pragmas_row : ∀ (ns : List Node), ∀ x ∈ (pragmas ns).2, ∃ t ∈ toksL ns, x.loc.head? = some t.begin_.line
  | [] => by simp [pragmas]
  | .node ty a cs :: ns => by
    intro x hx
    simp only [pragmas] at hx
    obtain ⟨t, h1, h2⟩ := pragmas_row ns x hx
    exact ⟨t, by simp [h1], h2⟩
  | .tok t :: ns => by
    intro x hx
    simp only [pragmas] at hx
    split at hx
    · rcases List.mem_append.1 hx with hx | hx
      · refine ⟨t, by simp, ?_⟩
        unfold pragmaComment at hx
        split at hx
        · simp at hx
        · exact pragmaItems_row _ _ _ x hx
      · obtain ⟨t, h1, h2⟩ := pragmas_row ns x hx
        exact ⟨t, by simp [h1], h2⟩
    · obtain ⟨t, h1, h2⟩ := pragmas_row ns x hx
      exact ⟨t, by simp [h1], h2⟩

theorem pragmas_at (n : Node) : At n ((pragmas (kidsOf n)).2.map .record) := by
  intro x hx line rest e
  obtain ⟨y, hy, e2⟩ := List.mem_map.1 hx
  simp only [Call.record.injEq] at e2
  subst e2
  obtain ⟨t, h1, h2⟩ := pragmas_row _ y hy
  rw [e] at h2
  simp only [List.head?_cons, Option.some.injEq] at h2
  refine .inr ⟨t, ?_, h2.symm⟩
  cases n with
  | tok u => simp [kidsOf] at h1
  | node ty a cs => simpa [kidsOf] using h1

/-- Every comment starts no later than the tokens from it on. -/
def Ordered (ns : List Node) : Prop :=
  ∀ a n b, ns = a ++ n :: b → hasType .comment n = true → ∀ t ∈ toksL (n :: b), headLine n ≤ t.begin_.line

theorem Ordered.tail {n : Node} {ns : List Node} (h : Ordered (n :: ns)) : Ordered ns :=
  fun a m b e => h (n :: a) m b (by simp [e])

theorem items_run (o : Opts) (d : List Str) (r : Rec) (line : Nat) (hl : 0 < line) (rest : List Nat) (hr : r.loc = line :: rest) :
    ∀ (ns : List Node) (p0 p1 : Option Node) (supp supp' : List Str) (calls : List Call) (c c' : Ctx),
    checkItems o p0 p1 supp ns = .ok (calls, supp') → (∀ i, i ∈ c.supp ↔ i ∈ supp) → Ordered ns →
    (∀ n ∈ ns, NamesIn n r.id → ¬ headLine n ≤ line) → (r.id ∈ supp → ∀ t ∈ toksL ns, t.begin_.line ≠ line) →
    c.run d calls = some c' →
    c'.lint.count r = c.lint.count r + if r.id ∈ d then 0 else calls.count (.record r)
  | [], p0, p1, supp, supp', calls, c, c', h, hs, ho, hno, hH, hrun => by
    simp only [checkItems, Except.ok.injEq, Prod.mk.injEq] at h
    rw [← h.1] at hrun ⊢
    simp only [Ctx.run, Option.some.injEq] at hrun
    rw [← hrun]
    simp
  | .tok t :: ns, p0, p1, supp, supp', calls, c, c', h, hs, ho, hno, hH, hrun => by
    simp only [checkItems] at h
    exact items_run o d r line hl rest hr ns _ _ _ _ _ _ _ h hs ho.tail (fun n hn => hno n (by simp [hn]))
      (fun k u hu => hH k u (by simp [hu])) hrun
  | .node ty a cs :: ns, p0, p1, supp, supp', calls, c, c', h, hs, ho, hno, hH, hrun => by
    simp only [checkItems, res_bind, res_pure] at h
    obtain ⟨⟨c1, new⟩, h1, c2, h2, ⟨more, s⟩, h3, h4⟩ := h
    simp only [Prod.mk.injEq] at h4
    obtain ⟨rfl, rfl⟩ := h4
    have k2 := (doc_codes h2).only (code := []) (by decide)
    have k3 := (spacing_codes o p0 (.node ty a cs)).only (code := []) (by decide)
    have k4 := (reach_codes (.node ty a cs) ns).only (code := []) (by decide)
    have kq : only [] (c2 ++ checkSpacing o p0 (.node ty a cs) ++ checkReach (.node ty a cs) ns) = [] := by
      simp [only_append, k2, k3, k4]
    have kat : At (.node ty a cs) (c2 ++ checkSpacing o p0 (.node ty a cs) ++ checkReach (.node ty a cs) ns) := by
      intro x hx
      rcases List.mem_append.1 hx with hx | hx
      · rcases List.mem_append.1 hx with hx | hx
        · exact doc_at h2 x hx
        · exact spacing_at _ _ _ x hx
      · exact reach_at _ _ x hx
    rw [show c1 ++ c2 ++ checkSpacing o p0 (.node ty a cs) ++ checkReach (.node ty a cs) ns ++ more =
      c1 ++ ((c2 ++ checkSpacing o p0 (.node ty a cs) ++ checkReach (.node ty a cs) ns) ++ more) by simp] at hrun ⊢
    generalize (c2 ++ checkSpacing o p0 (.node ty a cs) ++ checkReach (.node ty a cs) ns) = mid at kq kat hrun ⊢
    rw [run_append] at hrun
    obtain ⟨d1, r1, hrun⟩ := Option.bind_eq_some_iff.1 hrun
    rw [run_append] at hrun
    obtain ⟨d2, r2, hrun⟩ := Option.bind_eq_some_iff.1 hrun
    -- a record of this node is not suppressed
    have free : ∀ (ids : List Str), (r.id ∈ ids → ∀ t ∈ toksL (Node.node ty a cs :: ns), t.begin_.line ≠ line) → ∀ (l : List Call),
        At (.node ty a cs) l → r.id ∈ ids → l.count (.record r) = 0 := by
      intro ids hi l hat hin
      rw [List.count_eq_zero]
      intro hm
      rcases hat r hm line rest hr with e | ⟨t, ht, e⟩
      · omega
      · exact hi hin t (by rw [toksL_cons]; exact List.mem_append_left _ ht) e
    have first : d1.lint.count r = c.lint.count r + (if r.id ∈ d then 0 else c1.count (.record r)) ∧
        (∀ i, i ∈ d1.supp ↔ i ∈ supp ++ new) ∧
        (r.id ∈ supp ++ new → ∀ t ∈ toksL (Node.node ty a cs :: ns), t.begin_.line ≠ line) := by
      have recs : ∀ (e1 : Ctx), c.run d ((pragmas (kidsOf (.node ty a cs))).2.map .record) = some e1 →
          e1.lint.count r = c.lint.count r + (if r.id ∈ d then 0 else ((pragmas (kidsOf (.node ty a cs))).2.map Call.record).count (.record r)) := by
        intro e1 he
        rw [quiet_count (pragma_records _ (pragmas_codes _)) r he]
        by_cases hin : r.id ∈ supp
        · rw [free supp hH _ (pragmas_at _) hin]; simp
        · have : r.id ∉ c.supp := fun e => hin ((hs _).1 e)
          simp [this]
      unfold checkBodyComment at h1
      dsimp only at h1
      split at h1
      · rename_i hcm
        split at h1
        · simp only [Except.ok.injEq, Prod.mk.injEq] at h1
          obtain ⟨rfl, rfl⟩ := h1
          refine ⟨recs _ r1, ?_, by simpa using hH⟩
          intro i
          rw [records_supp (pragma_records _ (pragmas_codes _)) r1, hs]
          simp
        · simp only [res_bind, res_pure, Prod.mk.injEq] at h1
          obtain ⟨l0, hl0, rfl, rfl⟩ := h1
          rw [run_append] at r1
          obtain ⟨d0, r0, r1⟩ := Option.bind_eq_some_iff.1 r1
          have e0 := records_supp (pragma_records _ (pragmas_codes _)) r0
          simp only [Ctx.run, Ctx.call, Option.bind_some, Option.some.injEq] at r1
          rw [← r1]
          refine ⟨?_, ?_, ?_⟩
          · simp only [List.count_append]
            rw [recs _ r0]
            simp
          · intro i
            simp only [addNew_fst, List.mem_append, addNew_snd, e0, hs]
            by_cases hi : i ∈ supp <;> simp [hi]
          · intro hin t ht
            rcases List.mem_append.1 hin with hin | hin
            · exact hH hin t ht
            · have k := hno (.node ty a cs) (by simp) ⟨hcm, ((addNew_snd _ _ _).1 hin).2⟩
              have := ho [] _ ns rfl hcm t ht
              omega
      · simp only [Except.ok.injEq, Prod.mk.injEq] at h1
        obtain ⟨rfl, rfl⟩ := h1
        simp only [Ctx.run, Option.some.injEq] at r1
        rw [← r1]
        exact ⟨by simp, by simpa using hs, by simpa using hH⟩
    obtain ⟨f1, f2, f3⟩ := first
    have second : d2.lint.count r = d1.lint.count r + if r.id ∈ d then 0 else mid.count (.record r) := by
      rw [quiet_count kq r r2]
      by_cases hin : r.id ∈ supp ++ new
      · rw [free (supp ++ new) f3 _ kat hin]; simp
      · have : r.id ∉ d1.supp := fun e => hin ((f2 _).1 e)
        simp [this]
    have third := items_run o d r line hl rest hr ns _ _ _ _ _ _ _ h3 (fun i => by rw [records_supp kq r2]; exact f2 i) ho.tail
      (fun n hn => hno n (by simp [hn])) (fun k u hu => f3 k u (by simp [hu])) hrun
    rw [third, second, f1]
    simp only [List.count_append]
    split <;> omega

theorem items_events (o : Opts) (d : List Str) : ∀ (ns : List Node) (p0 p1 : Option Node) (supp supp' : List Str)
    (calls : List Call) (c c' : Ctx), checkItems o p0 p1 supp ns = .ok (calls, supp') → (∀ i, i ∈ c.supp ↔ i ∈ supp) →
    c.run d calls = some c' → c'.events = c.events ++ adds supp ns ∧
      ∀ i, i ∈ supp' ↔ i ∈ supp ∨ ∃ n ∈ ns, NamesIn n i
  | [], p0, p1, supp, supp', calls, c, c', h, hs, hr => by
    simp only [checkItems, Except.ok.injEq, Prod.mk.injEq] at h
    rw [← h.1] at hr
    simp only [Ctx.run, Option.some.injEq] at hr
    rw [← hr, ← h.2]
    simp [adds]
  | .tok t :: ns, p0, p1, supp, supp', calls, c, c', h, hs, hr => by
    simp only [checkItems] at h
    have := items_events o d ns _ _ _ _ _ _ _ h hs hr
    rw [adds, if_neg (by simp [hasType])]
    refine ⟨this.1, fun i => (this.2 i).trans ?_⟩
    simp [NamesIn, hasType]
  | .node ty a cs :: ns, p0, p1, supp, supp', calls, c, c', h, hs, hr => by
    simp only [checkItems, res_bind, res_pure] at h
    obtain ⟨⟨c1, new⟩, h1, c2, h2, ⟨more, s⟩, h3, h4⟩ := h
    simp only [Prod.mk.injEq] at h4
    obtain ⟨rfl, rfl⟩ := h4
    have k2 := (doc_codes h2).only (code := []) (by decide)
    have k3 := (spacing_codes o p0 (.node ty a cs)).only (code := []) (by decide)
    have k4 := (reach_codes (.node ty a cs) ns).only (code := []) (by decide)
    have kq : only [] (c2 ++ checkSpacing o p0 (.node ty a cs) ++ checkReach (.node ty a cs) ns) = [] := by
      simp [only_append, k2, k3, k4]
    rw [show c1 ++ c2 ++ checkSpacing o p0 (.node ty a cs) ++ checkReach (.node ty a cs) ns ++ more =
      c1 ++ ((c2 ++ checkSpacing o p0 (.node ty a cs) ++ checkReach (.node ty a cs) ns) ++ more) by simp] at hr
    rw [run_append] at hr
    obtain ⟨d1, r1, hr⟩ := Option.bind_eq_some_iff.1 hr
    rw [run_append] at hr
    obtain ⟨d2, r2, hr⟩ := Option.bind_eq_some_iff.1 hr
    have rest : ∀ extra : List Event, d1.events = c.events ++ extra → (∀ i, i ∈ d1.supp ↔ i ∈ supp ++ new) →
        c'.events = c.events ++ (extra ++ adds (supp ++ new) ns) ∧ ∀ i, i ∈ s ↔ i ∈ supp ++ new ∨ ∃ n ∈ ns, NamesIn n i := by
      intro extra e1 e2
      have := items_events o d ns _ _ _ _ _ _ _ h3 (fun i => by rw [records_supp kq r2]; exact e2 i) hr
      rw [this.1, records_events kq r2, e1]
      exact ⟨by simp, this.2⟩
    unfold checkBodyComment at h1
    dsimp only at h1
    split at h1
    · rename_i hcm
      split at h1
      · rename_i he
        simp only [Except.ok.injEq, Prod.mk.injEq] at h1
        obtain ⟨rfl, rfl⟩ := h1
        obtain ⟨q1, q2⟩ := rest [] (by rw [records_events (pragma_records _ (pragmas_codes _)) r1]; simp) (fun i => by
          rw [records_supp (pragma_records _ (pragmas_codes _)) r1, hs]; simp)
        rw [adds, if_neg (by simp [he])]
        refine ⟨by simpa using q1, fun i => (q2 i).trans ?_⟩
        simp [NamesIn, he]
      · rename_i he
        simp only [res_bind, res_pure, Prod.mk.injEq] at h1
        obtain ⟨l0, hl0, rfl, rfl⟩ := h1
        rw [run_append] at r1
        obtain ⟨d0, r0, r1⟩ := Option.bind_eq_some_iff.1 r1
        have e0 := records_supp (pragma_records _ (pragmas_codes _)) r0
        have e1 := records_events (pragma_records _ (pragmas_codes _)) r0
        simp only [Ctx.run, Ctx.call, Option.bind_some, Option.some.injEq] at r1
        obtain ⟨q1, q2⟩ := rest [⟨headLine (.node ty a cs), true, (addNew supp (pragmas (kidsOf (.node ty a cs))).1).2⟩]
          (by rw [← r1, e1, (firstLine_ok hl0).1, addNew_congr (a := d0.supp) (b := supp) (fun i => by rw [e0]; exact hs i)]) (fun i => by
            rw [← r1]
            simp only [addNew_fst, List.mem_append, addNew_snd, e0, hs]
            by_cases hi : i ∈ supp <;> simp [hi])
        rw [adds, if_pos ⟨hcm, he⟩]
        refine ⟨by simpa using q1, fun i => (q2 i).trans ?_⟩
        simp only [List.mem_append, addNew_snd, List.mem_cons, exists_eq_or_imp, NamesIn, hcm, true_and]
        by_cases hi : i ∈ supp <;> simp [hi]
    · rename_i hcm
      simp only [Except.ok.injEq, Prod.mk.injEq] at h1
      obtain ⟨rfl, rfl⟩ := h1
      simp only [Ctx.run, Option.some.injEq] at r1
      obtain ⟨q1, q2⟩ := rest [] (by rw [← r1]; simp) (fun i => by rw [← r1, hs]; simp)
      rw [adds, if_neg (by simp [hcm])]
      refine ⟨by simpa using q1, fun i => (q2 i).trans ?_⟩
      simp [NamesIn, hcm]

/-! ## The events -/

theorem fold_adds (i : Str) : ∀ (es : List Event) (acc : List Str), (∀ e ∈ es, e.add = true) →
    (i ∈ es.foldl applyEvent acc ↔ i ∈ acc ∨ ∃ e ∈ es, i ∈ e.ids)
  | [], acc, _ => by simp
  | e :: es, acc, h => by
    rw [List.foldl_cons, fold_adds i es _ fun x hx => h x (by simp [hx])]
    simp [applyEvent, h e (by simp), or_assoc]

theorem takeWhile_sorted {L : Nat} : ∀ {es : List Event}, es.Pairwise (fun a b => a.line ≤ b.line) → ∀ e,
    (e ∈ es.takeWhile (fun e => decide (e.line ≤ L)) ↔ e ∈ es ∧ e.line ≤ L)
  | [], _, e => by simp
  | x :: es, h, e => by
    obtain ⟨h1, h2⟩ := List.pairwise_cons.1 h
    rw [List.takeWhile_cons]
    split
    · rename_i hx
      simp only [decide_eq_true_eq] at hx
      rw [List.mem_cons, takeWhile_sorted h2 e, List.mem_cons]
      constructor
      · rintro (rfl | k)
        · exact ⟨.inl rfl, hx⟩
        · exact ⟨.inr k.1, k.2⟩
      · rintro ⟨rfl | k, k2⟩
        · exact .inl rfl
        · exact .inr ⟨k, k2⟩
    · rename_i hx
      simp only [decide_eq_true_eq] at hx
      simp only [List.not_mem_nil, List.mem_cons, false_iff, not_and]
      rintro (rfl | k) k2
      · exact hx k2
      · have := h1 e k
        omega

/-- What is suppressed at a line, by the events of a body with pragmas. -/
theorem body_active {cs : List Node} {supp : List Str} {E : Nat} (hs : ∀ i, i ∈ supp ↔ ∃ n ∈ cs, NamesIn n i) (hu : CommentsUp cs)
    (hE : ∀ n ∈ cs, Loud n → headLine n ≤ E) (line : Nat) (rest : List Nat) (code : Str) :
    code ∈ (seen (adds [] cs ++ if supp = [] then [] else [⟨E, false, supp⟩]) (line :: rest)).foldl applyEvent [] ↔
      (∃ n ∈ cs, NamesIn n code ∧ headLine n ≤ line) ∧ line < E := by
  have hadd : ∀ e ∈ adds [] cs, e.add = true := fun e he => (adds_lines cs [] e he).1
  have hsort := adds_sorted cs [] hu
  have hall : ∀ (L : Nat), (∃ e ∈ (adds [] cs).takeWhile (fun e => decide (e.line ≤ L)), code ∈ e.ids) ↔
      ∃ n ∈ cs, NamesIn n code ∧ headLine n ≤ L := by
    intro L
    rw [← adds_mem L code cs [] hu (by simp)]
    constructor
    · rintro ⟨e, h1, h2⟩
      obtain ⟨h3, h4⟩ := (takeWhile_sorted hsort e).1 h1
      exact ⟨e, h3, h4, h2⟩
    · rintro ⟨e, h1, h2, h3⟩
      exact ⟨e, (takeWhile_sorted hsort e).2 ⟨h1, h2⟩, h3⟩
  have htw : ∀ e ∈ (adds [] cs).takeWhile (fun e => decide (e.line ≤ line)), e.add = true :=
    fun e he => hadd e ((List.takeWhile_prefix _).subset he)
  by_cases hn : supp = []
  · rw [if_pos hn, List.append_nil]
    simp only [seen]
    rw [fold_adds _ _ _ htw, hall line]
    have none : ¬ ∃ n ∈ cs, NamesIn n code := by rw [← hs, hn]; simp
    constructor
    · rintro (h | ⟨n, h1, h2, h3⟩)
      · simp at h
      · exact absurd ⟨n, h1, h2⟩ none
    · rintro ⟨⟨n, h1, h2, h3⟩, _⟩
      exact absurd ⟨n, h1, h2⟩ none
  · rw [if_neg hn]
    simp only [seen]
    by_cases hl : line < E
    · have : (adds [] cs ++ [(⟨E, false, supp⟩ : Event)]).takeWhile (fun e => decide (e.line ≤ line)) =
          (adds [] cs).takeWhile (fun e => decide (e.line ≤ line)) := by
        rw [List.takeWhile_append]
        split
        · rename_i hk
          rw [List.takeWhile_cons, if_neg (by simp; omega), List.append_nil]
          exact ((List.takeWhile_prefix _).eq_of_length hk).symm
        · rfl
      rw [this, fold_adds _ _ _ htw, hall line]
      simp [hl]
    · have all : (adds [] cs ++ [(⟨E, false, supp⟩ : Event)]).takeWhile (fun e => decide (e.line ≤ line)) = adds [] cs ++ [⟨E, false, supp⟩] := by
        have self : ∀ (l : List Event), (∀ e ∈ l, e.line ≤ line) → l.takeWhile (fun e => decide (e.line ≤ line)) = l := by
          intro l
          induction l with
          | nil => simp
          | cons x l ih =>
            intro h
            rw [List.takeWhile_cons, if_pos (by simpa using h x (by simp)), ih fun e he => h e (by simp [he])]
        apply self
        intro e he
        rcases List.mem_append.1 he with he | he
        · obtain ⟨_, n, h1, h2, h3⟩ := adds_lines cs [] e he
          have := hE n h1 h2
          omega
        · rw [List.mem_singleton.1 he]
          simp only
          omega
      rw [all, List.foldl_append]
      simp only [List.foldl_cons, List.foldl_nil, applyEvent, Bool.false_eq_true, if_false, List.mem_filter, decide_eq_true_eq]
      constructor
      · rintro ⟨h1, h2⟩
        exfalso
        apply h2
        rcases (fold_adds _ _ _ hadd).1 h1 with h | ⟨e, he, hc⟩
        · simp at h
        · rw [hs]
          obtain ⟨n, k1, k2, _⟩ := (adds_mem e.line code cs [] hu (by simp)).1 ⟨e, he, Nat.le_refl _, hc⟩
          exact ⟨n, k1, k2⟩
      · rintro ⟨_, h⟩
        exact absurd h hl

/-! ## Below the file itself -/

theorem visitsL_mem {anc : List Frame} {ty : NT} {a : Attr} {all : List Node} : ∀ {ns : List Node} {idx : Nat} {v : List Frame × Node},
    v ∈ visitsL anc ty a all idx ns → ∃ n ∈ ns, ∃ i, v ∈ visits (⟨ty, a, all, i⟩ :: anc) n
  | [], idx, v, h => by simp [visitsL] at h
  | n :: ns, idx, v, h => by
    simp only [visitsL, List.mem_append] at h
    rcases h with h | h
    · exact ⟨n, by simp, idx, h⟩
    · obtain ⟨m, h1, h2⟩ := visitsL_mem h
      exact ⟨m, by simp [h1], h2⟩

theorem visitsL_leaves (anc : List Frame) (ty : NT) (a : Attr) (all : List Node) : ∀ (idx : Nat) (seg : List Token),
    visitsL anc ty a all idx (leaves seg) = []
  | idx, [] => rfl
  | idx, t :: seg => by
    have := visitsL_leaves anc ty a all (idx + 1) seg
    simp only [leaves] at this
    simp only [leaves, List.map_cons, visitsL, visits, List.nil_append, this]

theorem kids_quiet {o : Opts} {a : Attr} {cs : List Node} {p p' : Option Token} {calls : List Call}
    (htop : ∀ n ∈ cs, hasType .comment n = false → NoPragma n.toks)
    (hcom : ∀ n ∈ cs, hasType .comment n = true → ∃ seg, n = mk .comment (leaves seg))
    (h : checkKids o [] .body a cs 0 p cs = .ok (calls, p')) : only [] calls = [] := by
  obtain ⟨h1, h2⟩ := kids_calls o (code := []) (by decide) _ _ _ _ _ _ _ _ _ h
  rw [h1, List.flatMap_eq_nil_iff]
  intro v hv
  obtain ⟨c, e⟩ := h2 v hv
  rw [e]
  obtain ⟨n, hn, i, hvn⟩ := visitsL_mem hv
  cases hc : hasType .comment n with
  | false => exact node_quiet (fun t ht => htop n hn hc t (sub_toks (visits_sub _ _ _ hvn) t ht)) e
  | true =>
    obtain ⟨seg, rfl⟩ := hcom n hn hc
    simp only [mk, visits, visitsL_leaves, List.mem_singleton] at hvn
    subst hvn
    simp only [checkNode] at e
    split at e
    · simp only [Except.ok.injEq] at e; subst e; rfl
    · simp only [checkComment, inStatement, List.any_cons, List.any_nil, Bool.or_false] at e
      rw [if_neg (by decide)] at e
      simp only [Except.ok.injEq] at e
      subst e
      rfl

theorem run_none {d : List Str} {r : Rec} : ∀ {calls : List Call} {c c' : Ctx}, Call.record r ∉ calls → c.run d calls = some c' →
    c'.lint.count r = c.lint.count r
  | [], c, c', _, h => by simp only [Ctx.run, Option.some.injEq] at h; rw [h]
  | x :: calls, c, c', hn, h => by
    simp only [Ctx.run] at h
    obtain ⟨d1, h1, h2⟩ := Option.bind_eq_some_iff.1 h
    rw [run_none (fun hm => hn (by simp [hm])) h2]
    cases x with
    | suppress l ids => simp only [Ctx.call, Option.some.injEq] at h1; rw [← h1]
    | unsuppress l ids => simp only [Ctx.call, Option.some.injEq] at h1; rw [← h1]
    | record y =>
      have hy : y ≠ r := fun e => hn (by simp [e])
      simp only [Ctx.call] at h1
      repeat' split at h1
      all_goals first
        | (simp at h1; done)
        | (simp only [Option.some.injEq] at h1; rw [← h1]; simp [List.count_append, hy])
        | (simp only [Option.some.injEq] at h1; rw [← h1])

end Verif.Lint
