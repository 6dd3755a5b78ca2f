import Verif.NotesSeg
import Verif.TwinRoot
import Verif.Stack

/-!
# Comments between the commands: the text that was written (lemmas for C60 and C61)
-/

namespace Verif.Layout
open Verif Py Lex Parse

/-! ## The tokens of the blocks of a text -/

/-- A statement or a comment. -/
def unitNode : Node → Bool
  | .tok _ => false
  | .node ty _ _ => isUnit ty

/-- The tokens of blocks, with blanks between them. -/
def Splits : List Event → List Token → Prop
  | [], ts => ∀ t ∈ ts, isWs t = true
  | .blank :: es, ts => Splits es ts
  | .block _ n :: es, ts => ∃ ws X rest, ts = ws ++ (X ++ rest) ∧ (∀ t ∈ ws, isWs t = true) ∧ unitNode n = true ∧
      SegC n X rest ∧ Splits es rest

theorem splits_ws {ws : List Token} (h : ∀ t ∈ ws, isWs t = true) : ∀ {es : List Event} {ts : List Token}, Splits es ts →
    Splits es (ws ++ ts)
  | [], ts, hs => by
    intro t ht
    rcases List.mem_append.1 ht with ht | ht
    · exact h t ht
    · exact hs t ht
  | .blank :: es, ts, hs => splits_ws (es := es) h hs
  | .block d n :: es, ts, hs => by
    obtain ⟨w, X, rest, rfl, hw, h0, h1, h2⟩ := hs
    refine ⟨ws ++ w, X, rest, by simp, ?_, h0, h1, h2⟩
    intro t ht
    rcases List.mem_append.1 ht with ht | ht
    · exact h t ht
    · exact hw t ht

mutual
theorem splits_node : ∀ (n : Node) (d : Nat) (X rest : List Token) (es : List Event), SegC n X rest → Splits es rest →
    Splits (outline d n ++ es) (X ++ rest)
  | .tok t, d, X, rest, es, h, _ => by simp only [SegC] at h
  | .node ty a cs, d, X, rest, es, h, hs => by
    have h0 := h
    have unit : isUnit ty = true → outline d (.node ty a cs) = [.block d (.node ty a cs)] →
        Splits (outline d (.node ty a cs) ++ es) (X ++ rest) := by
      intro hu e
      rw [e]
      exact ⟨[], X, rest, rfl, by simp, hu, h0, hs⟩
    cases ty <;> simp only [SegC] at h <;> first | exact h.elim | skip
    case body =>
      have := splits_body cs d X rest es h hs
      simp only [outline]
      split
      · rename_i he
        rw [List.isEmpty_iff] at he
        rw [he] at this
        exact this
      · exact this
    case whitespace =>
      have := splits_ws h.2 hs
      simp only [outline]
      split
      · exact this
      · exact this
    case comment => exact unit rfl rfl
    case statement => exact unit rfl rfl
    case atwordStatement => exact unit rfl rfl
    case flowControl =>
      simp only [outline]
      exact splits_flow cs d X rest es h hs
theorem splits_body : ∀ (ns : List Node) (d : Nat) (X rest : List Token) (es : List Event), SegCL ns X rest → Splits es rest →
    Splits (outlineBody d ns ++ es) (X ++ rest)
  | [], d, X, rest, es, h, hs => by
    simp only [SegCL] at h
    subst h
    exact hs
  | n :: ns, d, X, rest, es, h, hs => by
    simp only [SegCL] at h
    obtain ⟨a, b, rfl, h1, h2⟩ := h
    simp only [outlineBody, List.append_assoc]
    exact splits_node n d a (b ++ rest) _ h1 (splits_body ns d b rest es h2 hs)
theorem splits_flow : ∀ (ns : List Node) (d : Nat) (X rest : List Token) (es : List Event), SegCL ns X rest → Splits es rest →
    Splits (outlineFlow d ns ++ es) (X ++ rest)
  | [], d, X, rest, es, h, hs => by
    simp only [SegCL] at h
    subst h
    exact hs
  | n :: ns, d, X, rest, es, h, hs => by
    simp only [SegCL] at h
    obtain ⟨a, b, rfl, h1, h2⟩ := h
    simp only [outlineFlow, List.append_assoc]
    exact splits_node n _ a (b ++ rest) _ h1 (splits_flow ns d b rest es h2 hs)
end

/-- The tokens of a tree. -/
theorem splits_of {n : Node} {ts : List Token} (d : Nat) (h : SegC n ts []) : Splits (outline d n) ts := by
  have := splits_node n d ts [] [] h (by simp [Splits])
  simpa using this

/-! ## Trees without comments -/

mutual
/-- No comment among the boxes. -/
def silent : Box → Bool
  | .mk ty _ _ ks => ty != .comment && silentL ks
/-- Of a list. -/
def silentL : List Box → Bool
  | [] => true
  | b :: bs => silent b && silentL bs
end

theorem silentL_append (a b : List Box) : silentL (a ++ b) = (silentL a && silentL b) := by
  induction a with
  | nil => rfl
  | cons x a ih => simp [silentL, ih, Bool.and_assoc]

mutual
theorem silent_node {ctx : Ctx} : ∀ n : Node, Quiet ctx n → silentL (boxOf n) = true
  | .tok _, _ => rfl
  | .node ty a cs, h => by
    have ih := silent_list cs (quiet_child h)
    simp only [boxOf]
    split
    · rfl
    · simp only [silentL, silent, ih, Bool.and_true, bne_iff_ne]
      rintro rfl
      exact quiet_nocomment h
theorem silent_list {ctx : Ctx} : ∀ cs : List Node, (∀ c ∈ cs, Quiet ctx c) → silentL (boxesOf cs) = true
  | [], _ => rfl
  | c :: cs, h => by
    rw [boxesOf, silentL_append, silent_node c (h c (by simp)), silent_list cs (fun x hx => h x (by simp [hx]))]
    rfl
end

mutual
/-- Without comments, only words are written. -/
theorem program_node {cfg : Cfg} : ∀ (b : Box) (c : Cur) (l : Laid) (o : Cur) (parent : Option Str) (ps : List Piece),
    silent b = true → Placed cfg b c l o → pieces cfg parent l = .ok ps → ∀ p ∈ ps, p.kind.isProgram = true
  | .mk ty a pk kids, c, .mk ty' a' pk' info lines kids', o, parent, ps, hf, hp, h => by
    simp only [silent, Bool.and_eq_true] at hf
    simp only [Placed] at hp
    obtain ⟨e1, e2, e3, e4, -, hp⟩ := hp
    subst e1; subst e2; subst e3
    have group : ∀ step prev c', PlacedL cfg step prev c' kids kids' o → ∀ q,
        piecesL cfg q kids' = .ok ps → ∀ p ∈ ps, p.kind.isProgram = true :=
      fun step prev c' hp q h => program_list step kids prev c' kids' o q ps hf.2 hp h
    have scalar :
        (∃ t, headTok pk' = .ok t ∧ (flow c (Text.normalizeLineEndings t.spelling)).2 ≤ info.colext ∧
          kids.length ≤ 1 ∧ (∀ k ∈ kids, k.ty = .comment) ∧ (∀ k ∈ kids', k.colext ≤ info.colext) ∧
          PlacedL cfg Step (some (.mk ty' a' pk' [])) (flow c (Text.normalizeLineEndings t.spelling)).1 kids kids' o) →
        (headTok pk' >>= fun t => scalarText cfg ty' parent t >>= fun text =>
          check (decide (kids'.length ≤ 1) && kids'.all (fun k => k.ty == .comment)) >>= fun _ =>
          piecesL cfg none kids' >>= fun ps => Except.ok (⟨kindOf ty', info.pos, text⟩ :: ps)) = Except.ok ps →
        ∀ p ∈ ps, p.kind.isProgram = true := by
      intro hp h
      simp only [bind_ok, check_ok, Except.ok.injEq] at h
      obtain ⟨t, ht', text, hx, -, -, p2, hp2, rfl⟩ := h
      obtain ⟨t', _, _, _, hc, _, hpl⟩ := hp
      intro p hm
      rcases List.mem_cons.1 hm with rfl | hm
      · simp only [kindOf]; split <;> rfl
      · exact program_list _ kids _ _ kids' o none p2 hf.2 hpl hp2 p hm
    cases ty' <;> simp only [pieces] at h hp
    case lparen =>
      simp only [Except.ok.injEq] at h; subst h
      intro p hm; simp only [List.mem_singleton] at hm; subst hm; rfl
    case rparen =>
      simp only [Except.ok.injEq] at h; subst h
      intro p hm; simp only [List.mem_singleton] at hm; subst hm; rfl
    case whitespace => simp only [Except.ok.injEq] at h; subst h; simp
    case onoff => simp at h
    case comment => simp at hf
    case funname => exact scalar hp h
    case argument => exact scalar hp h
    case keyword => exact scalar hp h
    case flag => exact scalar hp h
    case atword => exact scalar hp h
    all_goals exact group _ _ _ hp.2 _ h
theorem program_list {cfg : Cfg} : ∀ (step : Option Box → Cur → Box → Cur → Prop) (bs : List Box) (prev : Option Box) (c : Cur)
    (ls : List Laid) (o : Cur) (parent : Option Str) (ps : List Piece), silentL bs = true →
    PlacedL cfg step prev c bs ls o → piecesL cfg parent ls = .ok ps → ∀ p ∈ ps, p.kind.isProgram = true
  | step, [], prev, c, ls, o, parent, ps, _, hp, h => by
    simp only [PlacedL] at hp
    obtain ⟨rfl, _⟩ := hp
    simp only [piecesL, Except.ok.injEq] at h
    subst h; simp
  | step, b :: bs, prev, c, [], o, parent, ps, _, hp, h => by simp [PlacedL] at hp
  | step, b :: bs, prev, c, l :: ls, o, parent, ps, hf, hp, h => by
    simp only [PlacedL] at hp
    simp only [silentL, Bool.and_eq_true] at hf
    obtain ⟨c', o', _, h1, h2⟩ := hp
    simp only [piecesL, bind_ok, Except.ok.injEq] at h
    obtain ⟨p1, hp1, p2, hp2, rfl⟩ := h
    intro p hm
    rcases List.mem_append.1 hm with hm | hm
    · exact program_node b c' l o' parent p1 hf.1 h1 hp1 p hm
    · exact program_list step bs (some b) o' ls o parent p2 hf.2 h2 hp2 p hm
end

/-! ## What is written for a block -/

/-- The texts of a comment. -/
def NoteText (cfg : Cfg) (c : Cur) (a : Attr) (cs : List Node) (g : List Piece) : Prop :=
  match bracketOf cs with
  | some t => g = [⟨.bracket, c, Text.normalizeLineEndings t.spelling⟩]
  | none => ∃ ts lines, commentToks cs = .ok ts ∧
      Markup.formatComment cfg.markup (a.trailing == .explicit) (isFirstToken cfg cs) (headSpelling cs)
        (cfg.linewidth - c.col) ((ts.filter isComment).map (·.spelling)) = .ok lines ∧
      lines ≠ [] ∧ (∀ l ∈ lines, '\n' ∉ l) ∧ g = linePieces c lines

/-- The texts of a block: those of a comment, or those of the words. -/
def UnitC (cfg : Cfg) (c : Cur) (n : Node) (g : List Piece) (o : Cur) : Prop :=
  Spans g c o ∧
  match n with
  | .node .comment a cs => NoteText cfg c a cs g
  | n => (∀ t ∈ n.toks, isAnyComment t = false ∧ isOnOff t = false) →
      (∀ p ∈ g, p.kind.isProgram = true) ∧ g.length = (semantics n.toks).length

theorem allWritten_length {W : Token → Piece → Prop} : ∀ {ts : List Token} {ps : List Piece}, AllWritten W ts ps → ts.length = ps.length
  | [], [], _ => rfl
  | [], _ :: _, h => by simp [AllWritten] at h
  | _ :: _, [], h => by simp [AllWritten] at h
  | _ :: _, _ :: _, h => by simp [allWritten_length h.2]

/-- What is written for statements and comments. -/
theorem unitC_rule {cfg : Cfg} {ctx : Ctx} (hcfg : Markup.CleanCfg cfg.markup) (hauto : cfg.autosort = false) :
    UnitRule cfg ctx (UnitC cfg) := by
  intro ty a cs b c l o parent ps hu hn hk hcon hbe ht hf hs hp hps
  obtain ⟨hspan, ts, hperm, hsame, hall⟩ := unit_rule (written_rule (cfg := cfg) (ctx := ctx)) hcfg hu hn hk hcon hbe ht hf hs hp hps
  refine ⟨hspan, ?_⟩
  rw [lock_id hauto] at hbe
  subst hbe
  have word : (∀ t ∈ (Node.node ty a cs).toks, isAnyComment t = false ∧ isOnOff t = false) →
      (∀ p ∈ ps, p.kind.isProgram = true) ∧ ps.length = (semantics (Node.node ty a cs).toks).length := by
    intro hq
    have hsil := silent_node _ (⟨hn, hq⟩ : Quiet ctx (.node ty a cs))
    rw [hcon] at hsil
    simp only [silentL, Bool.and_true] at hsil
    have hprog := program_node _ _ _ _ _ _ hsil hp hps
    refine ⟨hprog, ?_⟩
    have := allWritten_length hall
    rw [List.filter_eq_self.2 hprog, hsame hauto, ← Props.Parse.program_eq] at this
    exact this.symm
  cases ty <;> first | exact word | skip
  -- a comment
  cases l with
  | mk ty' a' pk' info lines kids' =>
    simp only [Placed] at hp
    obtain ⟨rfl, rfl, rfl, rfl, _, -, hpl⟩ := hp
    simp only [tidy, tidyHere, Bool.and_eq_true] at ht
    simp only [NoteText]
    cases hbr : bracketOf pk' with
    | some t =>
      simp only [pieces, hbr, Except.ok.injEq] at hps
      exact hps.symm
    | none =>
      simp only [hbr] at hpl
      simp only [pieces, hbr, Except.ok.injEq] at hps
      obtain ⟨ts, last, hts, hfc, hlast, rfl, _⟩ := hpl
      refine ⟨ts, lines, hts, hfc, ?_, comment_oneLine hcfg hbr ht.1 hts hfc, hps.symm⟩
      rintro rfl
      simp at hlast

end Verif.Layout
