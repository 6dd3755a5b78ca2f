import Verif.SameSpec
import Verif.SameDb
import Verif.Props.ParseDb
import Verif.Props.Relex

/-!
# Reading does not depend on blanks and letter case (C59)
-/

namespace Verif.Props.Same
open Verif Py Verif.Lex Verif.Parse

/-! ## The lemmas in terms of the specification -/

theorem word_canon {t u : Token} : word t = word u ↔ canon t = canon u := by
  simp [word, canon]

theorem map_word_canon {ts us : List Token} : ts.map word = us.map word ↔ ts.map canon = us.map canon := by
  induction ts generalizing us with
  | nil => cases us <;> simp
  | cons t ts ih =>
    cases us with
    | nil => simp
    | cons u us => simp only [List.map_cons, List.cons.injEq, word_canon, ih]

theorem skeletons_append (a b : List Node) : skeletons (a ++ b) = skeletons a ++ skeletons b := by
  induction a with
  | nil => rfl
  | cons n a ih => simp [skeletons, ih]

mutual
theorem skeleton_bare : ∀ n : Node, skeleton n = skeletons (bareL [n])
  | .tok t => by
    simp only [skeleton, bareL_cons, blankNode, bareL_nil]
    have : isWs t = true ↔ t.type ∈ [TokType.whitespace, .newline] := by
      simp [isWs]
    split
    · rename_i h; rw [if_pos (this.2 h)]; rfl
    · rename_i h
      rw [if_neg (fun e => h (this.1 e))]
      simp only [bare_tok, skeletons, skeleton, List.append_nil]
      rw [if_neg (by simpa [canon] using h)]
      simp only [word, canon, List.cons.injEq, and_true, Skeleton.word.injEq, Prod.mk.injEq, true_and]
      exact (Layout.lower_lower _).symm
  | .node ty a cs => by
    simp only [skeleton, bareL_cons, blankNode, bareL_nil]
    by_cases h : ty = .whitespace
    · subst h; simp [skeletons]
    · rw [if_neg h, if_neg (by simpa using h)]
      simp only [bare_node, skeletons, skeleton, List.append_nil]
      rw [if_neg h, skeletons_bare cs]
theorem skeletons_bare : ∀ ns : List Node, skeletons ns = skeletons (bareL ns)
  | [] => by simp
  | n :: ns => by
    have e : bareL (n :: ns) = bareL [n] ++ bareL ns := by rw [← bareL_append]; rfl
    rw [e, skeletons_append, ← skeleton_bare n, ← skeletons_bare ns]
    rfl
end

theorem visible_of {w : Str} (h : inked w = true) : visAll [w] = true := by
  obtain ⟨c, hc, h2⟩ := List.any_eq_true.1 h
  simp only [visAll, List.all_cons, List.all_nil, Bool.and_true]
  exact List.any_eq_true.2 ⟨upperChar c, List.mem_map.2 ⟨c, hc, rfl⟩, by rw [(case_facts c).2.2.2.2]; exact h2⟩

theorem visAll_of {ws : List Str} (h : ws.all inked = true) : visAll ws = true := by
  refine List.all_eq_true.2 fun w hw => ?_
  have := visible_of (List.all_eq_true.1 h w hw)
  simpa [visAll] using this

mutual
theorem spec_named : ∀ s : Spec, s.named = true → s.vis = true
  | .mk _ _ _ pargs kwargs, h => by
    simp only [Spec.named, Bool.and_eq_true] at h
    simp only [Spec.vis, Bool.and_eq_true]
    exact ⟨List.all_eq_true.2 fun s hs => visAll_of (List.all_eq_true.1 h.1 s hs), specs_named kwargs h.2⟩
theorem specs_named : ∀ ks : List (Str × Spec), specsNamed ks = true → specsVis ks = true
  | [], _ => rfl
  | (k, s) :: ks, h => by
    simp only [specsNamed, Bool.and_eq_true] at h
    simp only [specsVis, Bool.and_eq_true]
    exact ⟨⟨visible_of h.1.1, spec_named s h.1.2⟩, specs_named ks h.2⟩
end

theorem blank_chars {text : Str} {ts : List Token} (h : tokenize text = .ok ts) :
    ∀ t ∈ ts, isWs t = true → ∀ c ∈ t.spelling, isSpace c = true := by
  intro t ht hw c hc
  have hsh := Lex.token_shape text ts h t ht
  have hty : t.type = .whitespace ∨ t.type = .newline := by simpa [isWs] using hw
  rcases hty with e | e <;> rw [e] at hsh
  · have := hsh.2 c hc
    simp [S] at this
    rcases this with rfl | rfl | rfl | rfl <;> rfl
  · rcases hsh with e | e | e <;> rw [e] at hc <;> simp [S] at hc
    · subst hc; rfl
    · rcases hc with rfl | rfl <;> rfl
    · subst hc; rfl

theorem listOk_of {text : Str} {ts : List Token} (h : tokenize text = .ok ts) (hb : text.head? ≠ some BOM)
    (hc : NoComments ts) (hf : ForeachNamed ts) : ListOk ts where
  comments t ht := by
    have := hc t ht
    simp only [isAnyComment, isOnOff]
    cases e : t.type <;> simp_all
  blanks := blank_chars h
  foreach_ := by
    intro a t l x b e h1 h2
    rw [Props.Parse.program_eq] at e
    obtain ⟨h3, h4⟩ := hf a t l x b e h1 h2
    exact ⟨h3, fun r b' e' => h4 r (by rw [e']; rfl)⟩
  nobom := Props.Parse.no_bom text ts h hb

/-- The trees have the same words. -/
theorem read_bare (user : Spec) (explicit : Str → Bool)
    (vartags : List ((Str → Bool) × List Str)) (text text' : Str) (ts ts' : List Token) (tree : Node)
    (ht : tokenize text = .ok ts) (ht' : tokenize text' = .ok ts')
    (hb : text.head? ≠ some BOM) (hb' : text'.head? ≠ some BOM)
    (hsame : SameWords ts ts') (hc : NoComments ts) (hc' : NoComments ts') (hf : ForeachNamed ts)
    (hp : PlainAndOr ts) (hu : user.named = true)
    (hv : ∀ p ∈ vartags, ∀ a b, lower a = lower b → p.1 a = p.1 b)
    (h : parse (commandCtx user explicit vartags) ts = .ok tree) :
    ∃ tree', parse (commandCtx user explicit vartags) ts' = .ok tree' ∧ bare tree = bare tree' := by
  have hcan : (program ts).map canon = (program ts').map canon := map_word_canon.1 hsame
  have hal : Alike ts ts' := by
    unfold Alike
    rw [Props.Parse.program_eq, Props.Parse.program_eq]
    exact hcan
  have hf' : ForeachNamed ts' := by
    intro a t l x b e h1 h2
    rw [e, List.map_append, List.map_cons, List.map_cons, List.map_cons] at hcan
    obtain ⟨a0, r0, e0, ea, er⟩ := List.map_eq_append_iff.1 hcan
    obtain ⟨t0, r1, rfl, e1, er⟩ := List.map_eq_cons_iff.1 er
    obtain ⟨l0, r2, rfl, e2, er⟩ := List.map_eq_cons_iff.1 er
    obtain ⟨x0, b0, rfl, e3, er⟩ := List.map_eq_cons_iff.1 er
    have := hf a0 t0 l0 x0 b0 e0 (by rw [canon_lower e1, h1]) (by rw [canon_type e2, h2])
    refine ⟨by rw [← canon_type e3]; exact this.1, ?_⟩
    intro y hy
    cases b with
    | nil => simp at hy
    | cons y' b =>
      simp only [List.head?_cons, Option.some.injEq] at hy
      subst hy
      obtain ⟨y0, b1, rfl, e4, _⟩ := List.map_eq_cons_iff.1 er
      rw [← canon_type e4]
      exact this.2 y0 rfl
  have hp' : PlainAndOr ts' := by
    intro u hu hty
    by_cases hw : isWs u = true
    · have hbl := blank_chars ht' u hu hw
      have key : ∀ w : Str, (∃ c ∈ w, isSpace c = false) → upper u.spelling ≠ w := by
        rintro w ⟨c, hc, h1⟩ rfl
        obtain ⟨d, hd, rfl⟩ := List.mem_map.1 hc
        rw [(case_facts d).2.2.2.2, hbl d hd] at h1
        exact absurd h1 (by decide)
      exact ⟨key _ ⟨'A', by decide, by decide⟩, key _ ⟨'O', by decide, by decide⟩⟩
    · have hm : u ∈ program ts' := by
        rw [← Props.Parse.program_eq, semantics, List.mem_filter]
        refine ⟨hu, ?_⟩
        have := (listOk_of ht' hb' hc' hf').comments u hu
        simp [isSemantic, hw, this.1, this.2]
      have : canon u ∈ (program ts).map canon := by rw [hcan]; exact List.mem_map_of_mem hm
      obtain ⟨t, htm, e⟩ := List.mem_map.1 this
      have htm' : t ∈ ts := (List.mem_filter.1 htm).1
      have := hp t htm' (by rw [canon_type e]; exact hty)
      rwa [canon_upper e] at this
  have hfuel := (Props.ParseDb.tool_parse_terminates_partial user explicit vartags ts' hp').2
  exact parse_alike (commandCtx_same user explicit vartags (spec_named user hu) hv)
    (listOk_of ht hb hc hf) (listOk_of ht' hb' hc' hf') hal hfuel h

/-! ## C59 -/

/-- **C59.** With the tool's own commands, whatever the user adds to them, two texts with the
same words, without comments and format switches, are read as trees with the same structure:
blanks, line ends and letter case do not matter.  Excluded are a `foreach` with a single
argument, for which this is false, and, because the parser need not come to an end on them,
texts in which something other than a word is spelled AND or OR. -/
theorem reading_ignores_blanks_and_case_partial (user : Spec) (explicit : Str → Bool)
    (vartags : List ((Str → Bool) × List Str)) (text text' : Str) (ts ts' : List Token) (tree : Node)
    (ht : tokenize text = .ok ts) (ht' : tokenize text' = .ok ts')
    (hb : text.head? ≠ some BOM) (hb' : text'.head? ≠ some BOM)
    (hsame : SameWords ts ts') (hc : NoComments ts) (hc' : NoComments ts') (hf : ForeachNamed ts)
    (hp : PlainAndOr ts) (hu : user.named = true)
    (hv : ∀ p ∈ vartags, ∀ a b, lower a = lower b → p.1 a = p.1 b)
    (h : parse (commandCtx user explicit vartags) ts = .ok tree) :
    ∃ tree', parse (commandCtx user explicit vartags) ts' = .ok tree' ∧ skeleton tree' = skeleton tree := by
  obtain ⟨tree', h1, h2⟩ := read_bare user explicit vartags text text' ts ts' tree ht ht' hb hb' hsame hc hc' hf hp hu hv h
  refine ⟨tree', h1, ?_⟩
  rw [skeleton_bare, skeleton_bare, bareL_one h2.symm]

/-! ### A concrete case -/

/-- `ForeachNamed`, as a check. -/
def foreachOk : List Token → Bool
  | t :: l :: x :: b =>
    (lower t.spelling != S "foreach" || l.type != .lparen ||
      (x.type != .lparen && (match b with | y :: _ => y.type != .rparen | [] => true))) && foreachOk (l :: x :: b)
  | _ => true

theorem foreachOk_tail {c : Token} {r : List Token} (h : foreachOk (c :: r) = true) : foreachOk r = true := by
  match r, h with
  | [], _ => rfl
  | [_], _ => rfl
  | _ :: _ :: _, h =>
    exact (Bool.and_eq_true_iff.1 (show (_ && foreachOk (_ :: _ :: _)) = true from h)).2

theorem foreachOk_all : ∀ (a : List Token) {t l x : Token} {b : List Token}, foreachOk (a ++ t :: l :: x :: b) = true →
    lower t.spelling = S "foreach" → l.type = .lparen →
    x.type ≠ .lparen ∧ ∀ y, b.head? = some y → y.type ≠ .rparen
  | [], t, l, x, b, h, h1, h2 => by
    simp only [List.nil_append, foreachOk, h1, h2, Bool.and_eq_true] at h
    have h3 := h.1
    simp only [bne_self_eq_false, Bool.false_or, Bool.and_eq_true, bne_iff_ne, ne_eq] at h3
    refine ⟨h3.1, fun y hy => ?_⟩
    cases b with
    | nil => simp at hy
    | cons y' b =>
      simp only [List.head?_cons, Option.some.injEq] at hy
      subst hy
      simpa using h3.2
  | c :: a, t, l, x, b, h, h1, h2 => by
    exact foreachOk_all a (foreachOk_tail h) h1 h2

theorem foreachNamed_of {ts : List Token} (h : foreachOk (program ts) = true) : ForeachNamed ts := by
  intro a t l x b e
  rw [e] at h
  exact foreachOk_all a h

/-- A small file. -/
def tight : Str := S "foreach(x a b)\nadd_library(a STATIC b.c)\nendforeach()\nfoo(BAR x SOURCES y)\n"

/-- The same words, with other blanks and letters. -/
def loose : Str :=
  S "\n\nFOREACH( X\n A b)\n\tAdd_Library (a\n\n  static b.c  )\n ENDforeach( )\n\n\n  foo(bar x\n sources y)"

theorem tight_parses : (parse (commandCtx ParseDb.demoSpec (startsWith (S "#<")) []) (Lex.toks tight)).isOk = true := by
  unfold commandCtx
  rw [commandDb_fast ParseDb.demoSpec_ok]
  decide +kernel

example : tokenize tight = .ok (Lex.toks tight) ∧ tokenize loose = .ok (Lex.toks loose) ∧
    tight.head? ≠ some BOM ∧ loose.head? ≠ some BOM ∧ SameWords (Lex.toks tight) (Lex.toks loose) ∧
    NoComments (Lex.toks tight) ∧ NoComments (Lex.toks loose) ∧ ForeachNamed (Lex.toks tight) ∧
    PlainAndOr (Lex.toks tight) ∧ ParseDb.demoSpec.named = true ∧
    (parse (commandCtx ParseDb.demoSpec (startsWith (S "#<")) []) (Lex.toks tight)).isOk = true :=
  ⟨by decide +kernel, by decide +kernel, by decide +kernel, by decide +kernel, by unfold SameWords; decide +kernel,
   by unfold NoComments; decide +kernel, by unfold NoComments; decide +kernel,
   foreachNamed_of (by decide +kernel), by unfold PlainAndOr; decide +kernel, by decide +kernel, tight_parses⟩

/-- **C59 is false of a `foreach` with one argument.** With a blank before the closing parenthesis
it is read, without the blank it is refused. -/
theorem foreach_depends_on_a_blank :
    (program (Lex.toks (S "foreach(x )\nendforeach()\n"))).map word =
      (program (Lex.toks (S "foreach(x)\nendforeach()\n"))).map word ∧
    (parse (commandCtx ParseDb.demoSpec (startsWith (S "#<")) []) (Lex.toks (S "foreach(x )\nendforeach()\n"))).isOk
      = true ∧
    (parse (commandCtx ParseDb.demoSpec (startsWith (S "#<")) []) (Lex.toks (S "foreach(x)\nendforeach()\n"))).isOk
      = false := by
  unfold commandCtx
  rw [commandDb_fast ParseDb.demoSpec_ok]
  refine ⟨?_, ?_, ?_⟩
  · decide +kernel
  · decide +kernel
  · decide +kernel

end Verif.Props.Same
