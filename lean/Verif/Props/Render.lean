import Verif.Render
import Verif.Props.Parse

/-!
# Rendering to html (C45)

Specification: what a reader of the html sees, and what well-formed markup is.
-/

namespace Verif.Props.Render
open Verif Py Lex Parse Render

/-- The text a browser shows: everything outside `<` ... `>`; `tag` says that we are inside. -/
def shown (tag : Bool) : Str → Str
  | [] => []
  | c :: cs =>
    if tag then shown (c ≠ '>') cs
    else if c = '<' then shown true cs
    else c :: shown false cs

/-- Markup made of plain text and properly nested span elements. -/
inductive WellFormed : Str → Prop
  | empty : WellFormed []
  | text (c : Char) (rest : Str) (hc : c ≠ '<') (h : WellFormed rest) : WellFormed (c :: rest)
  | span (cls body rest : Str) (hcls : ∀ c ∈ cls, isUpper c ∨ c = '_') (hb : WellFormed body)
      (h : WellFormed rest) :
      WellFormed (S "<span class=\"cmf-" ++ cls ++ S "\">" ++ body ++ S "</span>" ++ rest)

theorem WellFormed.append {a b : Str} (ha : WellFormed a) (hb : WellFormed b) : WellFormed (a ++ b) := by
  induction ha with
  | empty => exact hb
  | text c rest hc _ ih => exact .text c _ hc ih
  | span cls body rest hcls hbody _ _ ih =>
    have := WellFormed.span cls body (rest ++ b) hcls hbody ih
    simpa only [List.append_assoc] using this

theorem wellFormed_text {s : Str} (h : '<' ∉ s) : WellFormed s := by
  induction s with
  | nil => exact .empty
  | cons c s ih =>
    exact .text c s (fun e => h (by simp [e])) (ih fun hm => h (List.mem_cons_of_mem _ hm))

theorem nodeName_class (ty : NT) : ∀ c ∈ nodeName ty, isUpper c ∨ c = '_' := by
  cases ty <;> decide +kernel

theorem tokName_class (ty : TokType) : ∀ c ∈ tokName ty, isUpper c ∨ c = '_' := by
  cases ty <;> decide +kernel

/-- **C45.** Different kinds of tokens are shown in different classes, and so are different kinds
of nodes. -/
theorem classes_tell_kinds (ty ty' : TokType) (nt nt' : NT) :
    (tokName ty = tokName ty' → ty = ty') ∧ (nodeName nt = nodeName nt' → nt = nt') := by
  constructor
  · cases ty <;> cases ty' <;> decide +kernel
  · cases nt <;> cases nt' <;> decide +kernel

mutual
theorem dump_wellFormed : ∀ n : Node, (∀ t ∈ n.toks, '<' ∉ t.spelling) → WellFormed (dumpHtml n)
  | .tok t, h => by
    rw [dumpHtml, openTag, closeTag]
    have := WellFormed.span (tokName t.type) t.spelling [] (tokName_class _)
      (wellFormed_text (h t (by simp [Node.toks]))) .empty
    simpa only [List.append_nil] using this
  | .node ty _ cs, h => by
    rw [dumpHtml, openTag, closeTag]
    have := WellFormed.span (nodeName ty) (dumpAll cs) [] (nodeName_class _)
      (dumpAll_wellFormed cs (by simpa only [Node.toks] using h)) .empty
    simpa only [List.append_nil] using this
theorem dumpAll_wellFormed : ∀ ns : List Node, (∀ t ∈ toksL ns, '<' ∉ t.spelling) → WellFormed (dumpAll ns)
  | [], _ => .empty
  | n :: ns, h => by
    rw [dumpAll]
    exact (dump_wellFormed n fun t ht => h t (by simp [toksL, ht])).append
      (dumpAll_wellFormed ns fun t ht => h t (by simp [toksL, ht]))
end

theorem shown_text {s r : Str} (h : '<' ∉ s) : shown false (s ++ r) = s ++ shown false r := by
  induction s with
  | nil => rfl
  | cons c s ih =>
    have hc : c ≠ '<' := fun e => h (by simp [e])
    rw [List.cons_append, shown, if_neg (by simp), if_neg hc, ih fun hm => h (List.mem_cons_of_mem _ hm)]
    rfl

theorem shown_in {s r : Str} (h : '>' ∉ s) : shown true (s ++ '>' :: r) = shown false r := by
  induction s with
  | nil => simp [shown]
  | cons c s ih =>
    have hc : c ≠ '>' := fun e => h (by simp [e])
    rw [List.cons_append, shown, if_pos rfl]
    simp only [hc, ne_eq, not_false_eq_true, decide_true]
    exact ih fun hm => h (List.mem_cons_of_mem _ hm)

theorem shown_open {cls r : Str} (h : ∀ c ∈ cls, isUpper c ∨ c = '_') : shown false (openTag cls ++ r) = shown false r := by
  have e : openTag cls ++ r = '<' :: ((S "span class=\"cmf-" ++ cls ++ S "\"") ++ '>' :: r) := by
    rw [openTag, show S "<span class=\"cmf-" = '<' :: S "span class=\"cmf-" from by decide,
      show S "\">" = S "\"" ++ ['>'] from by decide]
    simp only [List.cons_append, List.append_assoc, List.nil_append]
  rw [e, shown, if_neg (by simp), if_pos rfl, shown_in]
  simp only [List.mem_append, not_or]
  refine ⟨⟨by decide, fun hm => ?_⟩, by decide⟩
  rcases h _ hm with h | h
  · exact absurd h (by decide)
  · exact absurd h (by decide)

theorem shown_close (r : Str) : shown false (closeTag ++ r) = shown false r := by
  have e : closeTag ++ r = '<' :: (S "/span" ++ '>' :: r) := by
    rw [closeTag, show S "</span>" = '<' :: (S "/span" ++ ['>']) from by decide]
    simp only [List.cons_append, List.append_assoc, List.nil_append]
  rw [e, shown, if_neg (by simp), if_pos rfl, shown_in (by decide)]

mutual
theorem dump_shown : ∀ (n : Node) (r : Str), (∀ t ∈ n.toks, '<' ∉ t.spelling) →
    shown false (dumpHtml n ++ r) = (n.toks.map Token.spelling).flatten ++ shown false r
  | .tok t, r, h => by
    rw [dumpHtml, List.append_assoc, List.append_assoc, shown_open (tokName_class _),
      shown_text (h t (by simp [Node.toks])), shown_close]
    simp [Node.toks]
  | .node ty _ cs, r, h => by
    rw [dumpHtml, List.append_assoc, List.append_assoc, shown_open (nodeName_class _),
      dumpAll_shown cs _ (by simpa only [Node.toks] using h), shown_close]
    simp [Node.toks]
theorem dumpAll_shown : ∀ (ns : List Node) (r : Str), (∀ t ∈ toksL ns, '<' ∉ t.spelling) →
    shown false (dumpAll ns ++ r) = ((toksL ns).map Token.spelling).flatten ++ shown false r
  | [], r, _ => by simp [dumpAll, toksL]
  | n :: ns, r, h => by
    rw [dumpAll, List.append_assoc, dump_shown n _ fun t ht => h t (by simp [toksL, ht]),
      dumpAll_shown ns _ fun t ht => h t (by simp [toksL, ht])]
    simp [toksL]
end

/-- **C45.** The html of a parse tree in whose tokens no `<` occurs is properly nested, and the
text it shows is the text of the tokens, each once and in order. -/
theorem html_shows_tokens_partial (tree : Node) (h : ∀ t ∈ tree.toks, '<' ∉ t.spelling) :
    WellFormed (getHtml tree) ∧ shown false (getHtml tree) = (tree.toks.map Token.spelling).flatten := by
  refine ⟨dump_wellFormed tree h, ?_⟩
  have := dump_shown tree [] h
  simpa [getHtml, shown] using this

/-- **C45, whole files.** The html made from a listfile without `<` shows the listfile. -/
theorem html_shows_file_partial (ctx : Ctx) (text : Str) (ts : List Token) (tree : Node)
    (ht : tokenize text = .ok ts) (hp : parse ctx ts = .ok tree) (hbom : text.head? ≠ some BOM)
    (hc : ∀ t ∈ ts, NoTuple true (registered ctx t.spelling)) (hlt : '<' ∉ text) :
    WellFormed (getHtml tree) ∧ shown false (getHtml tree) = text := by
  have e := Props.Parse.text_reproduced_partial ctx text ts tree ht hp hbom hc
  have h : ∀ t ∈ tree.toks, '<' ∉ t.spelling := by
    intro t htm hm
    apply hlt
    rw [← e]
    exact List.mem_flatten.2 ⟨t.spelling, List.mem_map.2 ⟨t, htm, rfl⟩, hm⟩
  rw [← e]
  exact html_shows_tokens_partial tree h

example : (parse Props.Parse.exampleCtx (Props.Lex.toks (S "set(a b) # c\nfoo(${x} \"y > z\")\n"))).isOk = true ∧
    '<' ∉ S "set(a b) # c\nfoo(${x} \"y > z\")\n" := ⟨by decide +kernel, by decide⟩

/-- **C45 is false** in general: text is not escaped.  The html of `a(<b>)` shows `a()`, and that
of `a(</span>)` closes an element too early. -/
theorem html_not_escaped :
    (match parse Props.Parse.exampleCtx (Props.Lex.toks (S "a(<b>)")) with
      | .ok tree => shown false (getHtml tree) | .error _ => S "?") = S "a()" ∧
    (match parse Props.Parse.exampleCtx (Props.Lex.toks (S "a(</span>)")) with
      | .ok tree => shown false (getHtml tree) | .error _ => S "?") = S "a()" := by
  decide +kernel

end Verif.Props.Render
