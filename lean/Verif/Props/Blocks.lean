import Verif.Calm
import Verif.Props.Layout

/-!
# Blocks and blank lines (C28, C53)
-/

namespace Verif.Props.Blocks
open Verif Py Layout

/-! ## From stacked groups to text -/

theorem weave_from {endl : Str} {p : Piece} {ps : List Piece} {c : Cur} :
    weave endl c (p :: ps) = space endl c p.pos ++ weave endl p.pos (p :: ps) := by
  simp [weave, space]

theorem weave_append {endl : Str} : ∀ {ps qs : List Piece} {c : Cur} {q : Piece}, ps.getLast? = some q →
    weave endl c (ps ++ qs) = weave endl c ps ++ weave endl q.stop qs
  | [], qs, c, q, h => by simp at h
  | [p], qs, c, q, h => by
    simp only [List.getLast?_singleton, Option.some.injEq] at h
    subst h
    simp [weave]
  | p :: p2 :: ps, qs, c, q, h => by
    simp only [List.getLast?_cons_cons] at h
    have := weave_append (endl := endl) (qs := qs) (c := p.stop) h
    simp only [List.cons_append] at this ⊢
    have e : weave endl c (p :: p2 :: ps) = space endl c p.pos ++ withEndings endl p.text ++ weave endl p.stop (p2 :: ps) := rfl
    rw [weave, this, e]
    simp

theorem inOrder_append {ps qs : List Piece} {c : Cur} {q : Piece} (h : InOrder c (ps ++ qs)) (hq : ps.getLast? = some q) :
    InOrder c ps ∧ InOrder q.stop qs := by
  induction ps generalizing c with
  | nil => simp at hq
  | cons p ps ih =>
    cases ps with
    | nil =>
      simp only [List.getLast?_singleton, Option.some.injEq] at hq
      subst hq
      exact ⟨⟨h.1, trivial⟩, h.2⟩
    | cons p2 ps =>
      simp only [List.getLast?_cons_cons] at hq
      have := ih h.2 hq
      exact ⟨⟨h.1, this.1⟩, this.2⟩

theorem linked_split {ps qs : List Piece} (h : Linked (ps ++ qs)) : Linked ps ∧ Linked qs := by
  induction ps with
  | nil => exact ⟨trivial, h⟩
  | cons p ps ih =>
    cases ps with
    | nil =>
      refine ⟨trivial, ?_⟩
      cases qs with
      | nil => trivial
      | cons q qs => exact h.2
    | cons p2 ps => exact ⟨⟨h.1, (ih h.2).1⟩, (ih h.2).2⟩

/-- The text below a position. -/
theorem page_of {cfg : Cfg} {W : Lex.Token → Piece → Prop} (endl : Str) : ∀ (es : List Event) (gs : List (List Piece)) (r r' : Nat)
    (cur : Cur), Stacked cfg (Unit' cfg W) r es gs r' → cur.row ≤ r → (cur.row = r → cur.col = 0) → InOrder cur gs.flatten →
    Linked gs.flatten →
    ∃ ss, Shows (fun d n s => BlockText endl cfg.autosort W (d * cfg.tabSize) n s) es ss ∧
      (trimBlanks ss = [] → gs = []) ∧
      (trimBlanks ss ≠ [] → weave endl cur gs.flatten ++ endl =
        (List.replicate (r - cur.row) endl).flatten ++ page endl cfg.tabSize (trimBlanks ss))
  | [], gs, r, r', cur, h, _, _, _, _ => ⟨[], trivial, fun _ => h.1, fun h => absurd rfl h⟩
  | .blank :: es, gs, r, r', cur, h, h1, h2, ho, hl => by
    simp only [Stacked] at h
    obtain ⟨ss, s1, s2, s3⟩ := page_of endl es gs (r + 1) r' cur h (by omega) (by omega) ho hl
    refine ⟨.blank :: ss, s1, ?_, ?_⟩
    · intro he
      apply s2
      simp only [trimBlanks] at he
      cases hs : trimBlanks ss with
      | nil => rfl
      | cons x xs => rw [hs] at he; simp at he
    · intro he
      cases hs : trimBlanks ss with
      | nil => simp [trimBlanks, hs] at he
      | cons x xs =>
        rw [s3 (by simp [hs])]
        simp only [trimBlanks, hs, page]
        have : r + 1 - cur.row = (r - cur.row) + 1 := by omega
        rw [this, List.replicate_succ']
        simp
  | .block d n :: es, [], r, r', cur, h, _, _, _, _ => by simp [Stacked] at h
  | .block d n :: es, g :: gs, r, r', cur, h, h1, h2, ho, hl => by
    simp only [Stacked] at h
    obtain ⟨o, ⟨⟨⟨p, hp, hpos⟩, q, hq, hstop⟩, ts, hperm, hsame, hw⟩, h⟩ := h
    simp only [List.flatten_cons] at ho hl ⊢
    have ho' := inOrder_append ho hq
    have hl' := linked_split hl
    rw [hstop] at ho'
    obtain ⟨ss, s1, s2, s3⟩ := page_of endl es gs (o.row + 1) r' o h (by omega) (by omega) ho'.2 hl'.2
    have hord : InOrder ⟨r, d * cfg.tabSize⟩ g := by
      cases g with
      | nil => simp at hp
      | cons x g =>
        simp only [List.head?_cons, Option.some.injEq] at hp
        subst hp
        rw [← hpos]
        exact ⟨Cur.le_refl _, ho'.1.2⟩
    refine ⟨.block d (weave endl ⟨r, d * cfg.tabSize⟩ g) :: ss,
      ⟨rfl, ⟨r, ts, g, p, hp, hpos, rfl, hord, hl'.1, hperm, hsame, hw⟩, s1⟩, by simp [trimBlanks], fun _ => ?_⟩
    have hrest : weave endl o gs.flatten ++ endl = endl ++ page endl cfg.tabSize (trimBlanks ss) := by
      by_cases hs : trimBlanks ss = []
      · rw [s2 hs, hs]; simp [weave, page]
      · rw [s3 hs]
        have : o.row + 1 - o.row = 1 := by omega
        rw [this]; simp
    rw [weave_append hq, hstop]
    have hg : weave endl cur g = (List.replicate (r - cur.row) endl).flatten ++ List.replicate (d * cfg.tabSize) ' ' ++
        weave endl ⟨r, d * cfg.tabSize⟩ g := by
      cases g with
      | nil => simp at hp
      | cons x g =>
        simp only [List.head?_cons, Option.some.injEq] at hp
        subst hp
        rw [weave_from, hpos]
        congr 1
        unfold space
        split
        · rfl
        · rename_i hn
          simp only at hn
          have e : cur.row = r := by omega
          rw [h2 e, e]; simp
    rw [hg]
    simp only [trimBlanks, page, List.append_assoc]
    rw [hrest]

/-- What is printed: the blocks and blank lines, without blank lines at the end; one line
end if there is no block. -/
def printed (endl : Str) (tab : Nat) (ss : List Shown) : Str :=
  match trimBlanks ss with
  | [] => endl
  | es => page endl tab es

/-- **C28, C53.** The output of a plain text consists of its blocks (statements and comments)
in order, each on lines of its own and indented by `tab_size` blanks for each enclosing
flow-control block, with a blank line where the input has blanks with an empty line (and for
an empty body), never two in a row, and none at the end. -/
theorem blocks_stacked_partial (cfg : FileCfg) (content text : Str) (valid : Bool)
    (h : processFile cfg content = .ok (text, valid)) (hp : Props.Layout.Plain cfg.ctx content)
    (hclean : Markup.CleanCfg cfg.layout.markup)
    (htabs : cfg.tabs.useTabchars = false) (hbom : cfg.bom = false) :
    ∃ tree ss, Parse.parse cfg.ctx (Props.Lex.toks content) = .ok tree ∧
      Shows (fun d n s => BlockText (Props.Layout.lineEnd cfg content) cfg.layout.autosort
        (Written (knownSpelling cfg.layout cfg.ctx)) (d * cfg.layout.tabSize) n s) (outline 0 tree) ss ∧
      text = printed (Props.Layout.lineEnd cfg content) cfg.layout.tabSize ss ∧
      singleBlanks (outline 0 tree) = true := by
  obtain ⟨b, l, ps, hf, -⟩ := Props.Layout.formatted_of h hp htabs hbom
  obtain ⟨o, hpl⟩ := hf.placed
  obtain ⟨tree, h2, hb, hneat, htok⟩ := hf.tree
  obtain ⟨gs, e, hst⟩ := stack_node (unit_rule (written_rule (cfg := cfg.cfgFor content (Props.Lex.toks content)) (ctx := cfg.ctx)) hclean) hclean
    tree 0 b ⟨0, 0⟩ l o none ps hneat htok hb (by rw [hf.body]; rfl) hf.tidy hf.framed hf.sourced hpl hf.pieces (by simp)
  obtain ⟨ss, s1, s2, s3⟩ := page_of (Props.Layout.lineEnd cfg content) _ gs 0 _ ⟨0, 0⟩ hst (Nat.le_refl _) (fun _ => rfl)
    (by rw [← e]; exact hf.inOrder) (by rw [← e]; exact hf.linked hclean)
  refine ⟨tree, ss, h2, s1, ?_, ?_⟩
  · rw [hf.text_eq, e]
    unfold printed
    cases hs : trimBlanks ss with
    | nil => rw [s2 hs]; simp [weave]
    | cons x xs =>
      rw [s3 (by simp [hs]), hs]
      simp; rfl
  · have h1 := Props.Parse.tokenize_toks content
    have hsp := Parse.parse_spread h2 (Props.Parse.no_bom content _ h1 hp.noBom) (Props.Parse.unglued_of fun a b hab hb => by
      have := hp.noSwitch b (hab.subset (by simp))
      rcases hb with hb | hb
      · exact absurd hb this.1
      · exact absurd hb this.2)
    exact (calm_node tree 0 b _ l o hneat hb hpl hsp).1

/-! ### A concrete case, and blank lines inside a statement -/

/-- Depths of blocks, and blank lines. -/
def shape : List Event → List (Option Nat)
  | [] => []
  | .blank :: es => none :: shape es
  | .block d _ :: es => some d :: shape es

/-- The shape of a text. -/
def shapeOf (s : Str) : List (Option Nat) :=
  match Parse.parse Props.Layout.exampleFile.ctx (Props.Lex.toks s) with
  | .ok t => shape (outline 0 t)
  | .error _ => []

/-- Blank lines of all kinds. -/
def exampleText : Str := S "\n\n# a\n\n\nif(x)\n\n\nfoo(a)\nif(y)\nb()\nendif()\nelse()\nendif()\n\nset(x y) # c\n\n\n"

example : shapeOf exampleText = [none, some 0, none, some 0, none, some 1, some 1, some 2, some 1, some 0, none, some 0, none,
      some 0, none] ∧
    Props.Layout.formatted exampleText =
      S "\n# a\n\nif(x)\n\n  foo(a)\n  if(y)\n    b()\n  endif()\nelse()\n\nendif()\n\nset(x y) # c\n" := by decide +kernel

example : (∃ text valid, processFile Props.Layout.exampleFile exampleText = .ok (text, valid)) ∧
    Props.Layout.Plain Props.Layout.exampleFile.ctx exampleText ∧
    Markup.CleanCfg Props.Layout.exampleFile.layout.markup ∧ Props.Layout.exampleFile.tabs.useTabchars = false ∧
    Props.Layout.exampleFile.bom = false := by
  refine ⟨?_, Props.Layout.plain_of (by decide +kernel) (by decide +kernel) (by decide +kernel), Props.Layout.default_clean,
    rfl, rfl⟩
  have : (processFile Props.Layout.exampleFile exampleText).isOk = true := by decide +kernel
  revert this
  cases processFile Props.Layout.exampleFile exampleText with
  | ok r => intro _; exact ⟨r.1, r.2, rfl⟩
  | error e => intro h; simp [Except.isOk, Except.toBool] at h

/-- A narrow page, with and without a dangling parenthesis. -/
def narrow (dangle : Bool) : FileCfg :=
  { Props.Layout.exampleFile with layout := { Props.Layout.exampleLayout with linewidth := 10, dangleParens := dangle } }

/-- Output, if any. -/
def formattedNarrow (dangle : Bool) (s : Str) : Str :=
  match processFile (narrow dangle) s with
  | .ok (t, _) => t
  | .error _ => S "error"

/-- **C28.** Inside a statement blank lines can be inserted: between `(` and `)` of a command
with a long name, and between `)` and a wide comment. -/
theorem blank_line_in_statement :
    formattedNarrow true (S "aaaaaaaaaaaa()") = S "aaaaaaaaaaaa(\n\n)\n" ∧
    formattedNarrow false (S "aaaaaaaaaaaa(b) # cccccccccccc") = S "aaaaaaaaaaaa(\n  b)\n\n# cccccccccccc\n" := by
  decide +kernel

end Verif.Props.Blocks
