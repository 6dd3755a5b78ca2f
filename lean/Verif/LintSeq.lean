import Verif.ParseNeat
import Verif.GroupSpec
import Verif.Props.Parse

/-!
# Bodies as sequences of statements and blocks (lemmas for the lint checks)

Which statements stand directly in a body, and which belong to blocks.
-/

namespace Verif.Parse
open Verif Py Lex

/-- Neither a statement nor a block nor a body. -/
def quietT : NT → Bool
  | .statement => false
  | .flowControl => false
  | .body => false
  | _ => true

/-- Neither a statement nor a block nor a body. -/
def quiet : Node → Bool
  | .tok _ => true
  | .node ty _ _ => quietT ty

/-- No statement, block or body anywhere in the tree. -/
def Leafy (n : Node) : Prop := ∀ m, Sub m n → quiet m = true

/-- A statement with an upper-cased name; nothing in it is a statement. -/
def Stmt (x : Str) (n : Node) : Prop :=
  ∃ a t cs, n = .node .statement a (mk .funname [.tok t] :: cs) ∧ t.type = .word ∧ x = upper t.spelling ∧
    ∀ c ∈ cs, Leafy c

/-- What ends a branch of an `if`. -/
def ifStops : List Str := [S "ELSE", S "ELSEIF", S "ENDIF"]

/-- `some stop`: the children of a body that ends before the commands in `stop`.  `none`: what follows
the `if` statement of a block.  The flag says that all blocks are closed. -/
inductive Seq : Option (List Str) → Bool → List Node → Prop
  | nil {stop : List Str} : Seq (some stop) true []
  | other {stop : List Str} {c : Bool} {n : Node} {ns : List Node} : Leafy n → Seq (some stop) c ns → Seq (some stop) c (n :: ns)
  | stmt {stop : List Str} {c : Bool} {n : Node} {ns : List Node} {x : Str} : Stmt x n → x ∉ stop → x ∉ flowNames →
      Seq (some stop) c ns → Seq (some stop) c (n :: ns)
  | loop {stop : List Str} {c : Bool} {o e : Node} {ns bs : List Node} {a b : Attr} {x : Str} :
      x ∈ [S "WHILE", S "FOREACH", S "FUNCTION", S "MACRO"] → Stmt x o → Seq (some [S "END" ++ x]) true bs →
      Stmt (S "END" ++ x) e → Seq (some stop) c ns →
      Seq (some stop) c (.node .flowControl a [o, .node .body b bs, e] :: ns)
  | ifs {stop : List Str} {c : Bool} {o : Node} {ns rest : List Node} {a : Attr} : Stmt (S "IF") o → Seq none true rest →
      Seq (some stop) c ns → Seq (some stop) c (.node .flowControl a (o :: rest) :: ns)
  | openIf {stop : List Str} {o : Node} {rest : List Node} {a : Attr} : Stmt (S "IF") o → Seq none false rest →
      Seq (some stop) false [.node .flowControl a (o :: rest)]
  | branch {c : Bool} {s : Node} {bs rest : List Node} {b : Attr} {x : Str} : Seq (some ifStops) true bs →
      x = S "ELSE" ∨ x = S "ELSEIF" → Stmt x s → Seq none c rest → Seq none c (.node .body b bs :: s :: rest)
  | fi {e : Node} {bs : List Node} {b : Attr} : Seq (some ifStops) true bs → Stmt (S "ENDIF") e →
      Seq none true [.node .body b bs, e]
  | unclosed {c : Bool} {bs : List Node} {b : Attr} : Seq (some ifStops) c bs → Seq none false [.node .body b bs]

theorem Seq.snoc {stop : List Str} {c : Bool} {n : Node} {ns : List Node} (h : Seq (some stop) true ns)
    (hn : Seq (some stop) c [n]) : Seq (some stop) c (ns ++ [n]) := by
  generalize hm : some stop = m at h
  generalize ht : true = tr at h
  induction h with
  | nil => cases hm; exact hn
  | other h1 _ ih => cases hm; exact .other h1 (ih rfl ht)
  | stmt h1 h2 h3 _ ih => cases hm; exact .stmt h1 h2 h3 (ih rfl ht)
  | loop h1 h2 h3 h4 _ _ ih => cases hm; exact .loop h1 h2 h3 h4 (ih rfl ht)
  | ifs h1 h2 _ _ ih => cases hm; exact .ifs h1 h2 (ih rfl ht)
  | openIf => cases ht
  | branch => cases hm
  | fi => cases hm
  | unclosed => cases hm

variable {ctx : Ctx}

theorem quiet_leaves (ts : List Token) : ∀ n ∈ leaves ts, quiet n = true := by
  intro n h
  simp only [leaves, List.mem_map] at h
  obtain ⟨t, _, rfl⟩ := h
  rfl

theorem quiet_trail {cs : List Node} (h : Trail cs) : ∀ n ∈ cs, quiet n = true := by
  rcases h with rfl | ⟨ws, a, ds, rfl, _⟩
  · simp
  · intro n hn
    rcases List.mem_append.1 hn with h | h
    · exact quiet_leaves _ n h
    · simp only [List.mem_singleton] at h; subst h; rfl

theorem quiet_grp {n : Node} (h : Grp n) : quiet n = true := by
  cases n with
  | tok t => rfl
  | node ty a cs => rcases h with h | h <;> subst h <;> rfl

theorem quiet_filler {n : Node} (h : Filler n) : quiet n = true := by
  cases n with
  | tok t => rfl
  | node ty a cs => simp only [Filler] at h; subst h; rfl

theorem quiet_inner {n : Node} (h : Inner n) : quiet n = true := by
  cases n with
  | tok t => rfl
  | node ty a cs => rcases h with h | h | h | h | h | h | h | h <;> subst h <;> rfl

/-- The children of a statement and of quiet nodes are quiet. -/
theorem quiet_kids {ty : NT} {a : Attr} {cs : List Node} (h : NeatHere ctx (.node ty a cs))
    (hq : quietT ty = true ∨ ty = .statement) : ∀ c ∈ cs, quiet c = true := by
  have hl := quiet_leaves
  intro c hc
  cases ty <;> simp only [NeatHere] at h <;> try (simp [quietT] at hq)
  case funname => obtain ⟨t, rfl, _⟩ := h; simp at hc; subst hc; rfl
  case atword => obtain ⟨t, rfl, _⟩ := h; simp at hc; subst hc; rfl
  case lparen => obtain ⟨t, rfl, _⟩ := h; simp at hc; subst hc; rfl
  case rparen => obtain ⟨t, rfl, _⟩ := h; simp at hc; subst hc; rfl
  case keyword => obtain ⟨t, rfl, _⟩ := h; simp at hc; subst hc; rfl
  case onoff => obtain ⟨t, rfl, _⟩ := h; simp at hc; subst hc; rfl
  case argument =>
    obtain ⟨t, tr, rfl, _, ht⟩ := h
    rcases List.mem_cons.1 hc with rfl | hc
    · rfl
    · exact quiet_trail ht _ hc
  case flag =>
    obtain ⟨t, tr, rfl, _, ht⟩ := h
    rcases List.mem_cons.1 hc with rfl | hc
    · rfl
    · exact quiet_trail ht _ hc
  case comment => obtain ⟨t, ts, rfl, _⟩ := h; exact hl _ _ hc
  case whitespace => obtain ⟨t, ts, rfl, _⟩ := h; exact hl _ _ hc
  case statement =>
    obtain ⟨f, l, r, ws, ws1, sub, mid, tr, rfl, _, _, hg, hm, ht, _⟩ := h
    simp only [List.mem_append, List.mem_singleton] at hc
    rcases hc with ((((((hc | hc) | hc) | hc) | hc) | hc) | hc) | hc
    · subst hc; rfl
    · exact hl _ _ hc
    · subst hc; rfl
    · exact hl _ _ hc
    · subst hc; exact quiet_grp hg
    · exact quiet_filler (hm _ hc)
    · subst hc; rfl
    · exact quiet_trail ht _ hc
  case atwordStatement =>
    obtain ⟨t, tr, rfl, ht⟩ := h
    rcases List.mem_cons.1 hc with rfl | hc
    · rfl
    · exact quiet_trail ht _ hc
  case kwargGroup =>
    obtain ⟨t, ws, body, rfl, _, hb⟩ := h
    simp only [List.cons_append, List.mem_cons, List.mem_append] at hc
    rcases hc with rfl | hc | hc
    · rfl
    · exact hl _ _ hc
    · rcases hb with rfl | ⟨sub, rfl, hg⟩
      · simp at hc
      · simp only [List.mem_singleton] at hc; subst hc; exact quiet_grp hg
  case parenGroup =>
    obtain ⟨l, r, sub, tr, rfl, hg, ht⟩ := h
    simp only [List.mem_append, List.mem_cons, List.not_mem_nil, or_false] at hc
    rcases hc with (rfl | rfl | rfl) | hc
    · rfl
    · exact quiet_grp hg
    · rfl
    · exact quiet_trail ht _ hc
  case argGroup => exact quiet_inner (h _ hc)
  case pargGroup => exact quiet_inner (h _ hc)

theorem leafy_of_neat {n : Node} (h : Neat ctx n) (hq : quiet n = true) : Leafy n := by
  intro m hm
  induction hm with
  | refl => exact hq
  | child hc _ ih =>
    rw [neat_node] at h
    exact ih (h.2 _ hc) (quiet_kids h.1 (Or.inl hq) _ hc)

theorem stmt_of_neat {n : Node} {x : Str} (h : Neat ctx n) (hn : stmtName n = some x) : Stmt x n := by
  have : ∃ a cs, n = .node .statement a cs := by
    unfold stmtName at hn
    split at hn
    · exact ⟨_, _, rfl⟩
    · simp at hn
  obtain ⟨a, cs, rfl⟩ := this
  rw [neat_node] at h
  have hq := quiet_kids h.1 (Or.inr rfl)
  obtain ⟨f, l, r, ws, ws1, sub, mid, tr, rfl, _⟩ := h.1
  simp only [mk, List.cons_append, List.nil_append, stmtName, Option.some.injEq] at hn
  have hf := (neat_node.1 (h.2 (mk .funname [.tok f]) (by simp))).1
  simp only [NeatHere, List.cons.injEq, Node.tok.injEq, and_true] at hf
  obtain ⟨t, rfl, ht⟩ := hf
  refine ⟨a, f, _, rfl, ht, hn.symm, fun c hc => ?_⟩
  exact leafy_of_neat (h.2 c (List.mem_cons_of_mem _ hc)) (hq c (List.mem_cons_of_mem _ hc))

theorem stmt_job {n : Nat} {up : Bool} {t : Token} {ts : List Token} {r : Node × List Token} (ht : t.type = .word)
    (h : exec ctx n .statement up (t :: ts) = .ok r) : Stmt (upper t.spelling) r.1 := by
  have h1 := exec_neat (ctx := ctx) n .statement up (t :: ts) ⟨kids_nil, ht⟩
  have h2 := exec_shape (ctx := ctx) n .statement up (t :: ts) ⟨wf_nil, ht⟩
  rw [h] at h1 h2
  obtain ⟨_, t', ts', e, h3⟩ := h2
  simp only [List.cons.injEq] at e
  obtain ⟨rfl, rfl⟩ := e
  exact stmt_of_neat h1.1 h3

/-- The children of an `if` block so far, and the tokens that come next. -/
def IfSoFar (acc : List Node) (ts : List Token) : Prop :=
  (acc = [] ∧ ∃ t rest, ts = t :: rest ∧ upper t.spelling = S "IF") ∨
  ∃ o mid b bs c, acc = o :: (mid ++ [.node .body b bs]) ∧ Stmt (S "IF") o ∧ Seq (some ifStops) c bs ∧
    (c = false → ts = []) ∧ (∀ c' rest, Seq none c' rest → Seq none c' (mid ++ rest)) ∧
    ∀ t rest, ts = t :: rest → upper t.spelling ∈ ifStops

/-- The first token is a word that ends the body. -/
def StopsAt (stop : List Str) (ts : List Token) : Prop :=
  ∀ t rest, ts = t :: rest → t.type = .word ∧ upper t.spelling ∈ stop

/-- What the block-level jobs do. -/
structure SeqUpTo (ctx : Ctx) (n : Nat) : Prop where
  body : ∀ bs acc up ts r, Seq (some bs) true acc → exec ctx n (.body bs acc) up ts = .ok r →
    ∃ a cs c, r.1 = .node .body a cs ∧ Seq (some bs) c cs ∧ (c = false → r.2 = []) ∧ StopsAt bs r.2
  flow : ∀ up t ts r, t.type = .word → upper t.spelling ∈ flowNames → exec ctx n .flow up (t :: ts) = .ok r →
    ∃ c, (∀ stop, Seq (some stop) c [r.1]) ∧ (c = false → r.2 = [])
  ifs : ∀ acc up ts r, HeadWord ts → IfSoFar acc ts → exec ctx n (.ifLoop acc) up ts = .ok r →
    ∃ c, (∀ stop, Seq (some stop) c [r.1]) ∧ (c = false → r.2 = [])

theorem exec_seq (n : Nat) : SeqUpTo ctx n := by
  induction n with
  | zero => constructor <;> intros <;> rename_i h <;> simp [exec] at h
  | succ n ih =>
    refine ⟨?_, ?_, ?_⟩
    · intro bs acc up ts r hs h
      simp only [exec, step] at h
      cases ts with
      | nil =>
        simp only [bodyIter, Except.ok.injEq] at h
        subst h
        exact ⟨_, _, true, rfl, hs, by simp, by intro t rest e; simp at e⟩
      | cons t ts =>
        have next : ∀ (m : Node) (c : Bool) (rest : List Token), Seq (some bs) c [m] → (c = false → rest = []) →
            exec ctx n (.body bs (acc ++ [m])) false rest = .ok r →
            ∃ a cs c, r.1 = .node .body a cs ∧ Seq (some bs) c cs ∧ (c = false → r.2 = []) ∧ StopsAt bs r.2 := by
          intro m c rest hm hc h
          cases c with
          | true => exact ih.body _ _ _ _ _ (hs.snoc hm) h
          | false =>
            rw [hc rfl] at h
            cases n with
            | zero => simp [exec] at h
            | succ n =>
              simp only [exec, step, bodyIter, Except.ok.injEq] at h
              subst h
              exact ⟨_, _, false, rfl, hs.snoc hm, by simp, by intro t rest e; simp at e⟩
        have quietly : ∀ m : Node, Neat ctx m → quiet m = true → Seq (some bs) true [m] := fun m h1 h2 =>
          .other (leafy_of_neat h1 h2) .nil
        simp only [bodyIter] at h
        split at h
        · refine next _ true _ ?_ (by simp) h
          refine .other ?_ .nil
          intro m hm
          cases hm with
          | refl => rfl
          | child hc hm =>
            simp only [leaves, List.mem_map] at hc
            obtain ⟨u, _, rfl⟩ := hc
            cases hm
            rfl
        · split at h
          · rename_i hc
            have := comment_neat (ctx := ctx) ts hc
            exact next _ true _ (quietly _ this.1 (quiet_filler this.2)) (by simp) h
          · split at h
            · rename_i hc
              exact next _ true _ (quietly _ (neat_onoff hc) rfl) (by simp) h
            · split at h
              · rename_i hw
                have hw : t.type = .word := by simpa using hw
                split at h
                · rename_i hb
                  simp only [Except.ok.injEq] at h
                  subst h
                  refine ⟨_, _, true, rfl, hs, by simp, ?_⟩
                  intro u us e
                  simp only [List.cons.injEq] at e
                  obtain ⟨rfl, rfl⟩ := e
                  exact ⟨hw, by simpa using hb⟩
                · rename_i hb
                  split at h
                  · rename_i hf
                    obtain ⟨⟨sub, rest⟩, h1, h2⟩ := Parse.bind_ok.1 h
                    obtain ⟨c, h3, h4⟩ := ih.flow _ _ _ _ hw (by simpa using hf) h1
                    exact next _ c _ (h3 _) h4 h2
                  · rename_i hf
                    obtain ⟨⟨sub, rest⟩, h1, h2⟩ := Parse.bind_ok.1 h
                    have := stmt_job hw h1
                    exact next _ true _ (.stmt this (by simpa using hb) (by simpa using hf) .nil) (by simp) h2
              · split at h
                · rename_i hat
                  refine next _ true _ ?_ (by simp) h
                  refine .other ?_ .nil
                  have ht := trailing_neat ctx ts
                  intro m hm
                  cases hm with
                  | refl => rfl
                  | child hc hm =>
                    rcases List.mem_cons.1 hc with rfl | hc
                    · cases hm with
                      | refl => rfl
                      | child hc hm =>
                        simp only [List.mem_singleton] at hc
                        subst hc
                        cases hm
                        rfl
                    · exact leafy_of_neat (ht.2 _ hc) (quiet_trail ht.1 _ hc) _ hm
                · split at h
                  · exact ih.body _ _ _ _ _ hs h
                  · simp at h
    · intro up t ts r hw hf h
      simp only [exec, step, flowIter] at h
      split at h
      · rename_i hif
        exact ih.ifs _ _ (t :: ts) _ hw (Or.inl ⟨rfl, t, ts, rfl, hif⟩) h
      · rename_i hif
        obtain ⟨⟨o, r1⟩, h1, h⟩ := Parse.bind_ok.1 h
        obtain ⟨⟨b, r2⟩, h2, h⟩ := Parse.bind_ok.1 h
        obtain ⟨⟨c, r3⟩, h3, h⟩ := Parse.bind_ok.1 h
        simp only [pure, Except.pure, Except.ok.injEq] at h
        subst h
        have ho := stmt_job hw h1
        obtain ⟨a, cs, cl, e, hseq, hcl, hstop⟩ := ih.body _ _ _ _ _ .nil h2
        simp only at e hcl hstop ho h3
        subst e
        cases r2 with
        | nil => cases n <;> simp [exec, step, stmtIter] at h3
        | cons u us =>
          have : cl = true := by
            cases cl with
            | true => rfl
            | false => simpa using hcl rfl
          subst this
          obtain ⟨hu, hm⟩ := hstop u us rfl
          simp only [List.mem_singleton] at hm
          have hc := stmt_job hu h3
          rw [hm] at hc
          refine ⟨true, fun stop => .loop ?_ ho hseq hc .nil, by simp⟩
          simp only [flowNames, List.mem_cons, List.not_mem_nil, or_false] at hf ⊢
          rcases hf with hf | hf
          · exact absurd hf hif
          · exact hf
    · intro acc up ts r hw hacc h
      simp only [exec, step] at h
      cases ts with
      | nil =>
        simp only [ifIter, Except.ok.injEq] at h
        subst h
        rcases hacc with ⟨_, t, rest, e, _⟩ | ⟨o, mid, b, bs, c, rfl, ho, hb, _, hmid, _⟩
        · simp at e
        · exact ⟨false, fun stop => .openIf ho (hmid _ _ (.unclosed hb)), by simp⟩
      | cons t ts =>
        have hw : t.type = .word := hw
        simp only [ifIter] at h
        split at h
        · rename_i hend
          obtain ⟨⟨e, r1⟩, h1, h⟩ := Parse.bind_ok.1 h
          simp only [pure, Except.pure, Except.ok.injEq] at h
          subst h
          have he := stmt_job hw h1
          rw [hend] at he
          rcases hacc with ⟨_, t', rest, e', hif⟩ | ⟨o, mid, b, bs, c, rfl, ho, hb, hc, hmid, _⟩
          · simp only [List.cons.injEq] at e'
            obtain ⟨rfl, rfl⟩ := e'
            rw [hend] at hif
            exact absurd hif (by decide)
          · have : c = true := by
              cases c with
              | true => rfl
              | false => simpa using hc rfl
            subst this
            refine ⟨true, fun stop => ?_, by simp⟩
            simp only [List.cons_append, List.append_assoc, List.nil_append]
            exact .ifs ho (hmid _ _ (.fi hb he)) .nil
        · rename_i hend
          obtain ⟨⟨o, r1⟩, h1, h⟩ := Parse.bind_ok.1 h
          obtain ⟨⟨b, r2⟩, h2, h⟩ := Parse.bind_ok.1 h
          have ho := stmt_job hw h1
          obtain ⟨a, cs, cl, e, hseq, hcl, hstop⟩ := ih.body _ _ _ _ _ .nil h2
          simp only at e hcl hstop ho h
          subst e
          have hhead : HeadWord r2 := by
            cases r2 with
            | nil => trivial
            | cons u us => exact (hstop u us rfl).1
          refine ih.ifs _ _ _ _ hhead (Or.inr ?_) h
          rcases hacc with ⟨rfl, t', rest, e', hif⟩ | ⟨o', mid, b, bs, c, rfl, ho', hb, hc, hmid, hst⟩
          · simp only [List.cons.injEq] at e'
            obtain ⟨rfl, rfl⟩ := e'
            rw [hif] at ho
            exact ⟨o, [], a, cs, cl, rfl, ho, hseq, hcl, fun _ _ h => h, fun u us e => (hstop u us e).2⟩
          · have : c = true := by
              cases c with
              | true => rfl
              | false => simpa using hc rfl
            subst this
            have hx := hst t ts rfl
            simp only [ifStops, List.mem_cons, List.not_mem_nil, or_false] at hx
            have hx : upper t.spelling = S "ELSE" ∨ upper t.spelling = S "ELSEIF" := by
              rcases hx with hx | hx | hx
              · exact Or.inl hx
              · exact Or.inr hx
              · exact absurd hx hend
            refine ⟨o', mid ++ [.node .body b bs, o], a, cs, cl, by simp, ho', hseq, hcl, ?_, fun u us e => (hstop u us e).2⟩
            intro c' rest hr
            simp only [List.append_assoc, List.cons_append, List.nil_append]
            exact hmid _ _ (.branch hb hx ho hr)

/-- The children of a parsed file. -/
theorem parse_seq {m : Nat} {ts : List Token} {tree : Node} (h : parseN ctx m ts = .ok tree) :
    ∃ a cs c, tree = .node .body a cs ∧ Seq (some []) c cs := by
  simp only [parseN] at h
  split at h
  · simp at h
  · rename_i tree' rest he
    simp only [Except.ok.injEq] at h
    subst h
    obtain ⟨a, cs, c, e, hs, _⟩ := (exec_seq m).body _ _ _ _ _ .nil he
    exact ⟨a, cs, c, e, hs⟩

end Verif.Parse
