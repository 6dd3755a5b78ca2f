import Verif.Cover
import Verif.Framed
import Verif.Props.Lex
import Verif.Props.Parse
import Verif.Props.Markup

/-!
# Formatting a file keeps its program (C12, C13, C14)
-/

namespace Verif.Props.Layout
open Verif Py Lex Parse Layout

/-! ## Tokens -/

theorem word_flat {s : Str} (h : Props.Lex.Shape .word s) : flatSpelling s = true := by
  obtain ⟨c, cs, rfl, h1, h2, h3⟩ := h
  have key : ∀ x : Char, x.toNat < 65 → x.isAlphanum = false → x ≠ '_' → (c :: cs).contains x = false := by
    intro x hx ha hu
    simp only [List.contains_eq_mem, decide_eq_false_iff_not, List.mem_cons, not_or]
    refine ⟨?_, ?_⟩
    · rintro rfl; omega
    · intro hm
      rcases h3 x hm with h | h
      · rw [ha] at h; simp at h
      · exact hu h
  simp only [flatSpelling, Bool.and_eq_true, Bool.not_eq_true']
  exact ⟨key '\n' (by decide) (by decide) (by decide), key '\r' (by decide) (by decide) (by decide)⟩

theorem upper_cons {x : Char} {s f : Str} (h : upper (x :: s) = f) : f.head? = some (upperChar x) := by
  rw [← h]; rfl

theorem digit_upper : ∀ n < 128, (Char.ofNat n).isDigit = true →
    upperChar (Char.ofNat n) ≠ 'V' ∧ upperChar (Char.ofNat n) ≠ 'U' ∧ upperChar (Char.ofNat n) ≠ 'C' := by decide +kernel

/-- A token spelled like a flag of a target is a word, or glued to a comment. -/
theorem flag_type {t : Token} (hsh : Props.Lex.Shape t.type t.spelling) (h : upper t.spelling ∈ targetFlags) :
    t.type = .word ∨ t.type = .unquoted := by
  have hh : ∀ x s, t.spelling = x :: s → upperChar x = 'V' ∨ upperChar x = 'U' ∨ upperChar x = 'C' := by
    intro x s e
    rw [e] at h
    have h' : upper (x :: s) = S "VERBATIM" ∨ upper (x :: s) = S "USES_TERMINAL" ∨
        upper (x :: s) = S "COMMAND_EXPAND_LISTS" := by
      simpa only [targetFlags, List.mem_cons, List.not_mem_nil, or_false] using h
    have e1 : (S "VERBATIM").head? = some 'V' := by decide
    have e2 : (S "USES_TERMINAL").head? = some 'U' := by decide
    have e3 : (S "COMMAND_EXPAND_LISTS").head? = some 'C' := by decide
    rcases h' with h | h | h
    · have := upper_cons h; rw [e1] at this; left; simpa using this.symm
    · have := upper_cons h; rw [e2] at this; right; left; simpa using this.symm
    · have := upper_cons h; rw [e3] at this; right; right; simpa using this.symm
  have no : ∀ x s, t.spelling = x :: s → upperChar x ≠ 'V' → upperChar x ≠ 'U' → upperChar x ≠ 'C' → False := by
    intro x s e h1 h2 h3
    rcases hh x s e with h | h | h
    · exact h1 h
    · exact h2 h
    · exact h3 h
  cases ht : t.type <;> rw [ht] at hsh
  case word => exact Or.inl rfl
  case unquoted => exact Or.inr rfl
  all_goals exfalso
  case quoted =>
    obtain ⟨q, body, hq, e, _⟩ := hsh
    rcases hq with rfl | rfl <;> exact no _ _ e (by decide) (by decide) (by decide)
  case lparen => exact no '(' [] hsh (by decide) (by decide) (by decide)
  case rparen => exact no ')' [] hsh (by decide) (by decide) (by decide)
  case number =>
    obtain ⟨d, ds, e, hd⟩ := hsh
    rcases e with e | e
    · have hdd := hd d (by simp)
      have hlt : d.toNat < 128 := by
        simp only [Char.isDigit, Bool.and_eq_true, decide_eq_true_eq] at hdd
        have := hdd.2
        simp only [UInt32.le_iff_toNat_le] at this
        have h2 : d.toNat ≤ 57 := this
        omega
      have := digit_upper d.toNat hlt
      rw [Char.ofNat_toNat] at this
      exact no d ds e (this hdd).1 (this hdd).2.1 (this hdd).2.2
    · exact no '-' _ e (by decide) (by decide) (by decide)
  case deref => obtain ⟨c, cs, e, _⟩ := hsh; exact no '$' _ e (by decide) (by decide) (by decide)
  case whitespace =>
    obtain ⟨hne, hw⟩ := hsh
    cases e : t.spelling with
    | nil => exact hne e
    | cons x xs =>
      rw [e] at hw
      have := hw x (by simp)
      have hl : S " \t\x0b\x0c" = [' ', '\t', '\x0b', '\x0c'] := by decide
      rw [hl] at this
      simp only [List.mem_cons, List.not_mem_nil, or_false] at this
      rcases this with rfl | rfl | rfl | rfl <;> exact no _ _ e (by decide) (by decide) (by decide)
  case newline =>
    rcases hsh with e | e | e
    · exact no '\n' [] e (by decide) (by decide) (by decide)
    · exact no '\r' ['\n'] e (by decide) (by decide) (by decide)
    · exact no '\r' [] e (by decide) (by decide) (by decide)
  case comment => obtain ⟨u, e, _⟩ := hsh; exact no '#' _ e (by decide) (by decide) (by decide)
  case formatOff => obtain ⟨ws, name, u, e, _⟩ := hsh; exact no '#' _ e (by decide) (by decide) (by decide)
  case formatOn => obtain ⟨ws, name, u, e, _⟩ := hsh; exact no '#' _ e (by decide) (by decide) (by decide)
  case bracketArg => obtain ⟨n, body, e⟩ := hsh; exact no '[' _ e (by decide) (by decide) (by decide)
  case bracketComment => obtain ⟨n, body, e, _⟩ := hsh; exact no '#' _ e (by decide) (by decide) (by decide)
  case bom => exact no BOM [] hsh (by decide +kernel) (by decide +kernel) (by decide +kernel)
  case atword => obtain ⟨c, cs, e, _⟩ := hsh; exact no '@' _ e (by decide) (by decide) (by decide)

theorem tokOk_each {content : Str} {ts : List Token} (h : tokenize content = .ok ts) :
    ∀ t ∈ ts, (isOnOff t = false → TokOk t) ∧ ParenOk t := by
  intro t ht
  have hsh := Props.Lex.token_shape content ts h t ht
  refine ⟨fun hs => ⟨hs, ?_, ?_, ?_⟩, ?_, ?_, ?_, ?_⟩
  · intro he
    rw [he] at hsh
    obtain ⟨u, e, hu⟩ := hsh
    rw [e]; simp [hu]
  · intro hc
    simp only [isAnyComment, Bool.or_eq_true, beq_iff_eq] at hc
    rcases hc with he | he <;> rw [he] at hsh
    · obtain ⟨u, e, hu⟩ := hsh
      exact ⟨u, e⟩
    · obtain ⟨n, body, e, _⟩ := hsh
      exact ⟨_, e⟩
  · intro he
    rw [he] at hsh
    exact word_flat hsh
  · intro he; rw [he] at hsh; exact hsh
  · intro he; rw [he] at hsh; exact hsh
  · intro hf
    exact flag_type hsh hf
  · intro he
    rw [he] at hsh
    exact word_flat hsh

theorem tokOk_of {content : Str} {ts : List Token} (h : tokenize content = .ok ts)
    (hs : ∀ t ∈ ts, t.type ≠ .formatOn ∧ t.type ≠ .formatOff) :
    ∀ t ∈ ts, TokOk t ∧ ParenOk t :=
  fun t ht => ⟨(tokOk_each h t ht).1 (by simp [isOnOff, hs t ht]), (tokOk_each h t ht).2⟩

/-! ## Laid out trees without switches -/

mutual
theorem noSwitch_node {cfg : Cfg} : ∀ (b : Box) (c : Cur) (l : Laid) (o : Cur), tidy b = true → Placed cfg b c l o →
    noSwitch l = true
  | .mk ty a pk kids, c, .mk ty' a' pk' info lines kids', o, ht, hp => by
    simp only [tidy, Bool.and_eq_true] at ht
    simp only [Placed] at hp
    obtain ⟨rfl, rfl, rfl, _, _, hp⟩ := hp
    have none : kids' = [] → noSwitchL kids' = true := by rintro rfl; rfl
    have list : ∀ S prev c', PlacedL cfg S prev c' kids kids' o → noSwitchL kids' = true :=
      fun S prev c' h => noSwitch_list S kids prev c' kids' o ht.2 h
    simp only [noSwitch, Bool.and_eq_true, bne_iff_ne, ne_eq]
    cases ty'
    case onoff => simp [tidyHere] at ht
    all_goals simp only at hp
    all_goals refine ⟨by simp, ?_⟩
    case lparen => exact none hp.1
    case rparen => exact none hp.1
    case whitespace => exact none hp.1
    case comment => exact none hp.1
    case funname => obtain ⟨t, _, _, _, _, _, h⟩ := hp; exact list _ _ _ h
    case argument => obtain ⟨t, _, _, _, _, _, h⟩ := hp; exact list _ _ _ h
    case keyword => obtain ⟨t, _, _, _, _, _, h⟩ := hp; exact list _ _ _ h
    case flag => obtain ⟨t, _, _, _, _, _, h⟩ := hp; exact list _ _ _ h
    case atword => obtain ⟨t, _, _, _, _, _, h⟩ := hp; exact list _ _ _ h
    all_goals exact list _ _ _ hp.2
theorem noSwitch_list {cfg : Cfg} : ∀ (S : Option Box → Cur → Box → Cur → Prop) (bs : List Box) (prev : Option Box) (c : Cur)
    (ls : List Laid) (o : Cur), tidyL bs = true → PlacedL cfg S prev c bs ls o → noSwitchL ls = true
  | S, [], prev, c, ls, o, _, hp => by
    simp only [PlacedL] at hp
    obtain ⟨rfl, _⟩ := hp; rfl
  | S, b :: bs, prev, c, [], o, _, hp => by simp [PlacedL] at hp
  | S, b :: bs, prev, c, l :: ls, o, ht, hp => by
    simp only [tidyL, Bool.and_eq_true] at ht
    simp only [PlacedL] at hp
    obtain ⟨c', o', _, h1, h2⟩ := hp
    simp only [noSwitchL, Bool.and_eq_true]
    exact ⟨noSwitch_node b c' l o' ht.1 h1, noSwitch_list S bs (some b) o' ls o ht.2 h2⟩
end

/-! ## The file as a whole -/

/-- What is assumed of a text: no byte-order mark, no format switches, and a parse tree whose
comments and keywords are settled. -/
structure Plain (ctx : Ctx) (content : Str) : Prop where
  noBom : content.head? ≠ some BOM
  noSwitch : ∀ t ∈ Props.Lex.toks content, t.type ≠ .formatOn ∧ t.type ≠ .formatOff
  settled : ∀ tree, Parse.parse ctx (Props.Lex.toks content) = .ok tree → settled tree = true

/-- The line end written for a text. -/
def lineEnd (cfg : FileCfg) (content : Str) : Str :=
  if cfg.auto then Text.endl (Text.detectLineEndings content) else cfg.layout.endl

/-- The layout of a plain text. -/
theorem layout_facts {cfg : Cfg} {ctx : Ctx} {content : Str} {tree : Node} {l : Laid}
    (hpl : Plain ctx content) (h2 : Parse.parse ctx (Props.Lex.toks content) = .ok tree)
    (h3 : layoutTree cfg tree = .ok l) :
    ∃ b o, tidy b = true ∧ Placed cfg b ⟨0, 0⟩ l o ∧ b.ty = .body ∧ Sourced ctx none b ∧
      (progB b).Perm (program (Props.Lex.toks content)) ∧
      (cfg.autosort = false → progB b = program (Props.Lex.toks content)) ∧ framed b = true ∧
      lockL cfg (boxOf tree) = [b] ∧ Neat ctx tree ∧ (∀ t ∈ tree.toks, TokOk t) := by
  have h1 := Props.Parse.tokenize_toks content
  obtain ⟨hneat, hbody⟩ := parse_neat h2
  have hcons := Props.Parse.tokens_conserved_partial ctx _ tree h2
    (Props.Parse.no_bom content _ h1 hpl.noBom) (fun a b hab hb => by
      have := hpl.noSwitch b (hab.subset (by simp))
      rcases hb with hb | hb
      · exact absurd hb this.1
      · exact absurd hb this.2)
  have htok : ∀ t ∈ tree.toks, TokOk t ∧ ParenOk t := fun t ht =>
    tokOk_of h1 hpl.noSwitch t (hcons.1.mem_iff.1 ht)
  cases tree with
  | tok t => exact hbody.elim
  | node ty a cs =>
    cases ty <;> try exact hbody.elim
    have hfine : Fine ctx (.node .body a cs) := ⟨hneat, fun t ht => (htok t ht).1, hpl.settled _ h2⟩
    have hbox : boxOf (.node .body a cs) = [.mk .body a cs (boxesOf cs)] := boxOf_mk (by simp)
    have hboth := both_node (cfg := cfg) (.node .body a cs) hfine (lock cfg (.mk .body a cs (boxesOf cs)))
      (by rw [hbox]; simp [lockL])
    have hsrc := sourced_node (cfg := cfg) (.node .body a cs) hneat (fun t ht => (htok t ht).2)
      (lock cfg (.mk .body a cs (boxesOf cs))) (by rw [hbox]; simp [lockL])
    have hprog : progB (.mk .body a cs (boxesOf cs)) = program (Props.Lex.toks content) := by
      have := prog_node (.node .body a cs) hneat (fun t ht => (htok t ht).1) (by simp)
      rw [hbox] at this
      simp only [progBL, List.append_nil] at this
      rw [this, Props.Parse.program_eq]
      exact hcons.2
    simp only [layoutTree] at h3
    split at h3
    · rename_i l' o hr
      simp only [Except.ok.injEq] at h3
      subst h3
      refine ⟨lock cfg (.mk .body a cs (boxesOf cs)), o, hboth.1, ?_, (lock_same cfg _).1, hsrc, ?_, ?_, ?_,
        by rw [hbox]; rfl, hneat, fun t ht => (htok t ht).1⟩
      · exact reflow_sound _ 0 hboth.2 _ _ _ _ _ _ hr
      · rw [← hprog]; exact progB_lock cfg _
      · intro hauto
        rw [lock_id hauto, hprog]
      · exact framed_node (cfg := cfg) (.node .body a cs) hneat _ (by rw [hbox]; simp [lockL])
    · simp at h3

/-- The parts of a successful run. -/
theorem processFile_parts {cfg : FileCfg} {content text : Str} {valid : Bool}
    (h : processFile cfg content = .ok (text, valid)) (htabs : cfg.tabs.useTabchars = false) (hbom : cfg.bom = false) :
    ∃ tree l, Parse.parse cfg.ctx (Props.Lex.toks content) = .ok tree ∧
      layoutTree (cfg.cfgFor content (Props.Lex.toks content)) tree = .ok l ∧
      writeTree (cfg.cfgFor content (Props.Lex.toks content)) content l = .ok text ∧ valid = l.valid := by
  unfold processFile at h
  rw [Props.Parse.tokenize_toks] at h
  simp only at h
  split at h
  · simp at h
  · rename_i tree h2
    split at h
    · simp at h
    · rename_i l h3
      split at h
      · simp at h
      · rename_i out h4
        simp only [hbom, Bool.false_eq_true, if_false, Text.replaceWithTabs, htabs, if_true, Except.ok.injEq,
          Prod.mk.injEq] at h
        obtain ⟨rfl, rfl⟩ := h
        exact ⟨tree, l, h2, h3, h4, rfl⟩

/-- A plain text, its boxes and what is written. -/
structure Formatted (cfg : FileCfg) (content text : Str) (b : Box) (l : Laid) (ps : List Piece) : Prop where
  body : b.ty = .body
  tidy : tidy b = true
  framed : framed b = true
  placed : ∃ o, Placed (cfg.cfgFor content (Props.Lex.toks content)) b ⟨0, 0⟩ l o
  sourced : Sourced cfg.ctx none b
  perm : (progB b).Perm (program (Props.Lex.toks content))
  same : cfg.layout.autosort = false → progB b = program (Props.Lex.toks content)
  tree : ∃ tree, Parse.parse cfg.ctx (Props.Lex.toks content) = .ok tree ∧
    lockL (cfg.cfgFor content (Props.Lex.toks content)) (boxOf tree) = [b] ∧ Neat cfg.ctx tree ∧ ∀ t ∈ tree.toks, TokOk t
  pieces : pieces (cfg.cfgFor content (Props.Lex.toks content)) none l = .ok ps
  text_eq : text = weave (lineEnd cfg content) ⟨0, 0⟩ ps ++ lineEnd cfg content
  inOrder : InOrder ⟨0, 0⟩ ps

theorem formatted_run {cfg : FileCfg} {content text : Str} {valid : Bool}
    (h : processFile cfg content = .ok (text, valid)) (hp : Plain cfg.ctx content)
    (htabs : cfg.tabs.useTabchars = false) (hbom : cfg.bom = false) :
    ∃ tree b l ps, Parse.parse cfg.ctx (Props.Lex.toks content) = .ok tree ∧
      layoutTree (cfg.cfgFor content (Props.Lex.toks content)) tree = .ok l ∧
      lockL (cfg.cfgFor content (Props.Lex.toks content)) (boxOf tree) = [b] ∧
      Formatted cfg content text b l ps ∧ l.valid = valid := by
  obtain ⟨tree, l, h2, h3, h4, hv⟩ := processFile_parts h htabs hbom
  obtain ⟨b, o, ht, hpl, hb, hs, hperm, hsame, hfr, htree⟩ := layout_facts hp h2 h3
  simp only [writeTree] at h4
  split at h4
  · simp at h4
  · rename_i w hw
    simp only [Except.ok.injEq] at h4
    subst h4
    obtain ⟨ps, hps, hwr⟩ := writeNode_ok l none _ _ (noSwitch_node b _ l o ht hpl) rfl hw
    rw [writePieces_iff] at hwr
    obtain ⟨hord, hw'⟩ := hwr
    exact ⟨tree, b, l, ps, h2, h3, htree.1,
      ⟨hb, ht, hfr, ⟨o, hpl⟩, hs, hperm, hsame, ⟨tree, h2, htree⟩, hps, by rw [hw']; rfl, hord⟩, hv.symm⟩

theorem formatted_of {cfg : FileCfg} {content text : Str} {valid : Bool}
    (h : processFile cfg content = .ok (text, valid)) (hp : Plain cfg.ctx content)
    (htabs : cfg.tabs.useTabchars = false) (hbom : cfg.bom = false) :
    ∃ b l ps, Formatted cfg content text b l ps ∧ l.valid = valid := by
  obtain ⟨_, b, l, ps, _, _, _, hf, hv⟩ := formatted_run h hp htabs hbom
  exact ⟨b, l, ps, hf, hv⟩

theorem Formatted.rendering {cfg : FileCfg} {content text : Str} {b : Box} {l : Laid} {ps : List Piece}
    (h : Formatted cfg content text b l ps) {W : Token → Piece → Prop}
    (R : Rule (cfg.cfgFor content (Props.Lex.toks content)) cfg.ctx W) :
    Rendering (lineEnd cfg content) W (progB b) text ps := by
  obtain ⟨o, hpl⟩ := h.placed
  exact ⟨h.text_eq, h.inOrder, covers_node R b _ l o none ps h.sourced hpl h.pieces⟩

theorem Formatted.linked {cfg : FileCfg} {content text : Str} {b : Box} {l : Laid} {ps : List Piece}
    (h : Formatted cfg content text b l ps) (hclean : Markup.CleanCfg cfg.layout.markup) : Linked ps := by
  obtain ⟨o, hpl⟩ := h.placed
  have hl := chain_node (cfg := cfg.cfgFor content (Props.Lex.toks content)) hclean b _ l o none ps none h.tidy hpl
    h.pieces (by simp)
  simpa using hl.1

/-- **C12, C13, C14.** A plain text is formatted to texts at positions, with nothing but line
ends and blanks between them, such that the texts that are not comments are the program
tokens of the input, in order unless arguments are sorted, up to letter case and configured
spellings; nothing is on the line of a line comment after it; and texts that must not touch
do not. -/
theorem format_keeps_program_partial (cfg : FileCfg) (content text : Str) (valid : Bool)
    (h : processFile cfg content = .ok (text, valid)) (hp : Plain cfg.ctx content)
    (hclean : Markup.CleanCfg cfg.layout.markup)
    (htabs : cfg.tabs.useTabchars = false) (hbom : cfg.bom = false) :
    ∃ ts ps, ts.Perm (program (Props.Lex.toks content)) ∧
      (cfg.layout.autosort = false → ts = program (Props.Lex.toks content)) ∧
      Rendering (lineEnd cfg content) (Written (knownSpelling cfg.layout cfg.ctx)) ts text ps ∧ Linked ps := by
  obtain ⟨b, l, ps, hf, -⟩ := formatted_of h hp htabs hbom
  exact ⟨progB b, ps, hf.perm, hf.same, hf.rendering written_rule, hf.linked hclean⟩

/-- **C23.** Each program token is written in exactly the letter case the options say. -/
theorem case_policies_partial (cfg : FileCfg) (content text : Str) (valid : Bool)
    (h : processFile cfg content = .ok (text, valid)) (hp : Plain cfg.ctx content)
    (htabs : cfg.tabs.useTabchars = false) (hbom : cfg.bom = false) :
    ∃ ts ps, ts.Perm (program (Props.Lex.toks content)) ∧
      (cfg.layout.autosort = false → ts = program (Props.Lex.toks content)) ∧
      Rendering (lineEnd cfg content) (CaseRule cfg.layout (knownSpelling cfg.layout cfg.ctx)) ts text ps := by
  obtain ⟨b, l, ps, hf, -⟩ := formatted_of h hp htabs hbom
  exact ⟨progB b, ps, hf.perm, hf.same, hf.rendering case_rule⟩

/-! ### Consequences for C13 and C14 -/

theorem inOrder_later {c : Cur} {ps : List Piece} (h : InOrder c ps) {j : Nat} {q : Piece} (hj : ps[j]? = some q) :
    c.le q.pos := by
  induction ps generalizing c j with
  | nil => simp at hj
  | cons p ps ih =>
    cases j with
    | zero => simp only [List.getElem?_cons_zero, Option.some.injEq] at hj; subst hj; exact h.1
    | succ j =>
      simp only [List.getElem?_cons_succ] at hj
      exact Cur.le_trans h.1 (Cur.le_trans (advance_le _ _) (ih h.2 hj))

theorem inOrder_two {c : Cur} {ps : List Piece} (h : InOrder c ps) {i j : Nat} {p q : Piece} (hi : ps[i]? = some p)
    (hj : ps[j]? = some q) (hij : i < j) : p.stop.le q.pos := by
  induction ps generalizing c i j with
  | nil => simp at hi
  | cons x ps ih =>
    cases j with
    | zero => omega
    | succ j =>
      simp only [List.getElem?_cons_succ] at hj
      cases i with
      | zero =>
        simp only [List.getElem?_cons_zero, Option.some.injEq] at hi
        subst hi
        exact inOrder_later h.2 hj
      | succ i =>
        simp only [List.getElem?_cons_succ] at hi
        exact ih h.2 hi hj (by omega)

theorem linked_next {ps : List Piece} (h : Linked ps) {i : Nat} {p q : Piece} (hi : ps[i]? = some p)
    (hj : ps[i + 1]? = some q) : Follows p q := by
  induction ps generalizing i with
  | nil => simp at hi
  | cons x ps ih =>
    cases ps with
    | nil => simp at hj
    | cons y ps =>
      cases i with
      | zero =>
        simp only [List.getElem?_cons_zero, Option.some.injEq, List.getElem?_cons_succ] at hi hj
        subst hi; subst hj
        exact h.1
      | succ i => exact ih h.2 hi hj

/-- The text of neighbouring pieces. -/
theorem weave_split (endl : Str) {c : Cur} {ps : List Piece} {i : Nat} {p q : Piece} (hi : ps[i]? = some p)
    (hj : ps[i + 1]? = some q) : ∃ pre post, weave endl c ps =
      pre ++ withEndings endl p.text ++ space endl p.stop q.pos ++ withEndings endl q.text ++ post := by
  induction ps generalizing c i with
  | nil => simp at hi
  | cons x ps ih =>
    cases i with
    | zero =>
      cases ps with
      | nil => simp at hj
      | cons y ps =>
        simp only [List.getElem?_cons_zero, Option.some.injEq, List.getElem?_cons_succ] at hi hj
        subst hi; subst hj
        exact ⟨space endl c x.pos, weave endl y.stop ps, by simp [weave]⟩
    | succ i =>
      simp only [List.getElem?_cons_succ] at hi hj
      obtain ⟨pre, post, e⟩ := ih (c := x.stop) hi hj
      exact ⟨space endl c x.pos ++ withEndings endl x.text ++ pre, post, by simp [weave, e]⟩

/-- **C13.** Whatever comes after a line comment is on a later line. -/
theorem comment_ends_line_partial (cfg : FileCfg) (content text : Str) (valid : Bool)
    (h : processFile cfg content = .ok (text, valid)) (hp : Plain cfg.ctx content)
    (hclean : Markup.CleanCfg cfg.layout.markup)
    (htabs : cfg.tabs.useTabchars = false) (hbom : cfg.bom = false) :
    ∃ ts ps, ts.Perm (program (Props.Lex.toks content)) ∧
      Rendering (lineEnd cfg content) (Written (knownSpelling cfg.layout cfg.ctx)) ts text ps ∧
      ∀ (i j : Nat) (p q : Piece), ps[i]? = some p → ps[j]? = some q → i < j → p.kind = .line → p.stop.row < q.pos.row := by
  obtain ⟨ts, ps, ht, -, hr, h3⟩ := format_keeps_program_partial cfg content text valid h hp hclean htabs hbom
  have h1 := hr.text_eq
  have h2 := hr.inOrder
  refine ⟨ts, ps, ht, hr, ?_⟩
  intro i j p q hi hj hij hk
  cases hn : ps[i + 1]? with
  | none =>
    have := List.getElem?_eq_none_iff.1 hn
    have := (List.getElem?_eq_some_iff.1 hj).1
    omega
  | some r =>
    have hr := (linked_next h3 hi hn).1 hk
    by_cases he : j = i + 1
    · subst he
      rw [hn] at hj
      simp only [Option.some.injEq] at hj
      subst hj; exact hr
    · have := inOrder_two h2 hn hj (by omega)
      have h4 := Cur.le_row this
      have h5 := Cur.le_row (advance_le r.text r.pos)
      simp only [Piece.stop] at h4
      omega

/-- **C14.** Between two neighbouring texts that must not touch (in particular two arguments)
there is a blank or a line end. -/
theorem neighbours_apart_partial (cfg : FileCfg) (content text : Str) (valid : Bool)
    (h : processFile cfg content = .ok (text, valid)) (hp : Plain cfg.ctx content)
    (hclean : Markup.CleanCfg cfg.layout.markup)
    (htabs : cfg.tabs.useTabchars = false) (hbom : cfg.bom = false) (hend : lineEnd cfg content ≠ []) :
    ∃ ts ps, ts.Perm (program (Props.Lex.toks content)) ∧
      Rendering (lineEnd cfg content) (Written (knownSpelling cfg.layout cfg.ctx)) ts text ps ∧
      ∀ (i : Nat) (p q : Piece), ps[i]? = some p → ps[i + 1]? = some q → mustSeparate p.kind q.kind = true →
        ∃ pre gap post, text = pre ++ withEndings (lineEnd cfg content) p.text ++ gap ++
            withEndings (lineEnd cfg content) q.text ++ post ∧
          gap = space (lineEnd cfg content) p.stop q.pos ∧ gap ≠ [] := by
  obtain ⟨ts, ps, ht, -, hr, h3⟩ := format_keeps_program_partial cfg content text valid h hp hclean htabs hbom
  have h1 := hr.text_eq
  have h2 := hr.inOrder
  refine ⟨ts, ps, ht, hr, ?_⟩
  intro i p q hi hj hm
  obtain ⟨pre, post, e⟩ := weave_split (lineEnd cfg content) (c := ⟨0, 0⟩) hi hj
  refine ⟨pre, _, post ++ lineEnd cfg content, by rw [h1, e]; simp, rfl, ?_⟩
  have hlt := (linked_next h3 hi hj).2 hm
  unfold space
  rcases hlt with hlt | ⟨hr, hlt⟩
  · rw [if_pos hlt]
    have : q.pos.row - p.stop.row = (q.pos.row - p.stop.row - 1) + 1 := by omega
    rw [this, List.replicate_succ]
    simp [hend]
  · rw [if_neg (by omega)]
    have : q.pos.col - p.stop.col = (q.pos.col - p.stop.col - 1) + 1 := by omega
    rw [this, List.replicate_succ]
    simp

/-! ### A concrete case, and cases that are not plain -/

/-- The default configuration. -/
def exampleLayout : Cfg :=
  { linewidth := 80, tabSize := 2, maxSubgroupsHwrap := 2, maxPargsHwrap := 6, maxRowsCmdline := 2,
    separateCtrl := false, separateFn := false, dangleParens := false, dangleAlign := S "prefix",
    minPrefixChars := 4, maxPrefixChars := 10, maxLinesHwrap := 2, alwaysWrap := [], autosort := false,
    layoutPasses := fun _ => none, commandCase := fun _ => S "canonical", spelling := lower,
    keywordCase := S "unchanged", endl := S "\n", markup := Props.Markup.defaultCfg, firstToken := none }

/-- With a small command database. -/
def exampleFile : FileCfg :=
  { layout := exampleLayout, ctx := Props.Parse.exampleCtx, auto := false, bom := false, tabs := ⟨false, 2, []⟩ }

/-- Output, if any. -/
def formatted (s : Str) : Str :=
  match processFile exampleFile s with
  | .ok (t, _) => t
  | .error _ => S "error"

theorem default_clean : Markup.CleanCfg exampleLayout.markup where
  bullet := (by decide : ¬ ('\n' ∈ S "*"))
  enum := (by decide : ¬ ('\n' ∈ S "."))
  trailing := (by decide : ¬ ('\n' ∈ S "#<"))
  fence := by
    intro l a b h hl
    show Markup.OneLine b
    simp only [exampleLayout, Props.Markup.defaultCfg, Markup.defaultFence] at h
    split at h
    · simp only [Option.some.injEq, Prod.mk.injEq] at h
      rw [← h.2]
      exact Markup.oneLine_of_subset (fun c hc => (List.dropWhile_suffix _).subset ((List.dropWhile_suffix _).subset hc)) hl
    · simp at h

/-- Whether a tree was found and is settled. -/
def settledText (s : Str) : Bool :=
  match Parse.parse exampleFile.ctx (Props.Lex.toks s) with
  | .ok tree => settled tree
  | .error _ => false

theorem plain_of {s : Str} (h1 : s.head? ≠ some BOM)
    (h2 : ∀ t ∈ Props.Lex.toks s, t.type ≠ .formatOn ∧ t.type ≠ .formatOff) (h3 : settledText s = true) :
    Plain exampleFile.ctx s := by
  refine ⟨h1, h2, ?_⟩
  intro tree h
  unfold settledText at h3
  rw [h] at h3
  exact h3

/-- A file with comments, a block and nested parentheses. -/
def exampleText : Str :=
  S "# hello\nSET(a   b # one\n  # two\n c)\n\n\nif(x  AND (y OR z))\nfoo( # c\n bar\n) # tail\nendif( )\n"

example : formatted exampleText =
    S "# hello\nset(a\n    b # one\n    # two\n    c)\n\nif(x AND (y OR z))\n  foo(# c\n      bar) # tail\nendif()\n" := by
  decide +kernel

example : (∃ text valid, processFile exampleFile exampleText = .ok (text, valid)) ∧ Plain exampleFile.ctx exampleText ∧
    Markup.CleanCfg exampleFile.layout.markup ∧ exampleFile.tabs.useTabchars = false ∧ exampleFile.bom = false ∧
    lineEnd exampleFile exampleText ≠ [] := by
  refine ⟨?_, plain_of (by decide +kernel) (by decide +kernel) (by decide +kernel), default_clean, rfl, rfl, by decide⟩
  have : (processFile exampleFile exampleText).isOk = true := by decide +kernel
  revert this
  cases processFile exampleFile exampleText with
  | ok r => intro _; exact ⟨r.1, r.2, rfl⟩
  | error e => intro h; simp [Except.isOk, Except.toBool] at h

/-- **C12, C13.** A bracket comment directly above a line comment, both after an argument: the
bracket comment is lost and the next argument disappears in the line comment. -/
theorem comment_swallows_argument :
    formatted (S "foo(a #[[x]]\n      #y\n b)") = S "foo(a # y b)\n" ∧
    settledText (S "foo(a #[[x]]\n      #y\n b)") = false := by decide +kernel

/-- Two line comments in different columns are written on one line. -/
theorem comments_merged :
    formatted (S "foo(a\n # one\n   # two\n b)") = S "foo(a\n    # one # two\n    b)\n" ∧
    settledText (S "foo(a\n # one\n   # two\n b)") = false := by decide +kernel

end Verif.Props.Layout
