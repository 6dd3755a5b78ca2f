import Verif.SwitchText

/-!
# Format switches (C18)
-/

namespace Verif.Props.Switch
open Verif Py Layout

/-- What is assumed of a text with switches: no byte-order mark, switches stand apart from
other tokens, none is inside a statement, every `off` is followed by an `on` before the next
`off`, and comments and keywords are settled in the blocks that are formatted. -/
structure Switched (ctx : Parse.Ctx) (content : Str) : Prop where
  noBom : content.head? ≠ some Lex.BOM
  apart : Parse.SwitchesApart (Props.Lex.toks content)
  outside : ∀ tree, Parse.parse ctx (Props.Lex.toks content) = .ok tree → outside tree = true
  closed : closed false (switches (Props.Lex.toks content)) = true
  settled : ∀ tree, Parse.parse ctx (Props.Lex.toks content) = .ok tree →
    ∀ n ∈ formattedBlocks false (outline 0 tree), settled n = true

/-- **C18** (and C12-C14, C28, C53 with switches between statements). The output consists of
the blocks in order, each on lines of its own and indented by its depth, with single blank
lines; but an `off`, what follows up to the next `on`, and that `on` are one such block: the
two switches with the input text between them. -/
theorem regions_stacked_partial (cfg : FileCfg) (content text : Str) (valid : Bool)
    (h : processFile cfg content = .ok (text, valid)) (hp : Switched cfg.ctx content)
    (hclean : Markup.CleanCfg cfg.layout.markup)
    (htabs : cfg.tabs.useTabchars = false) (hbom : cfg.bom = false) :
    ∃ tree ss, Parse.parse cfg.ctx (Props.Lex.toks content) = .ok tree ∧
      Shows' (fun d n s => BlockText (Props.Layout.lineEnd cfg content) cfg.layout.autosort
        (Written (knownSpelling cfg.layout cfg.ctx)) (d * cfg.layout.tabSize) n s)
        (Props.Lex.toks content) (outline 0 tree) ss ∧
      text = Props.Blocks.printed (Props.Layout.lineEnd cfg content) cfg.layout.tabSize ss ∧
      singleBlanks (outline 0 tree) = true := by
  obtain ⟨tree, l, h2, h3, h4, -⟩ := Props.Layout.processFile_parts h htabs hbom
  have h1 := Props.Parse.tokenize_toks content
  have hnb := Props.Parse.no_bom content _ h1 hp.noBom
  have hout := hp.outside tree h2
  obtain ⟨hneat, hbody⟩ := Parse.parse_neat h2
  have hcons := (Props.Parse.tokens_conserved_partial cfg.ctx _ tree h2 hnb hp.apart).1
  have htok : ∀ t ∈ tree.toks, (Parse.isOnOff t = false → TokOk t) ∧ ParenOk t := fun t ht =>
    Props.Layout.tokOk_each h1 t (hcons.mem_iff.1 ht)
  have hun := Props.Parse.unglued_of hp.apart
  have hsw : (outline 0 tree).filterMap eventSwitch = Parse.sw (Props.Lex.toks content) := by
    rw [outline_switches tree 0 hneat hout]
    exact Parse.parse_switches h2 hnb hun hout
  have hset := hp.settled tree h2
  have hsp := Parse.parse_spread h2 hnb hun
  simp only [writeTree] at h4
  split at h4
  · simp at h4
  rename_i w hw
  simp only [Except.ok.injEq] at h4
  subst h4
  have htoks : ∀ d n, Event.block d n ∈ outline 0 tree → switchOf n = none →
      (∀ a cs, n ≠ .node .onoff a cs) → ∀ t ∈ n.toks, TokOk t ∧ ParenOk t := by
    intro d n hm hs hno t ht
    have := outline_toks tree 0 hout d n hm
    exact ⟨(htok t (this.1 t ht)).1 (this.2 hs hno t ht), (htok t (this.1 t ht)).2⟩
  generalize hcfg : cfg.cfgFor content (Props.Lex.toks content) = lc at *
  have hR := written_rule (cfg := lc) (ctx := cfg.ctx)
  have hend : lc.endl = Props.Layout.lineEnd cfg content := by rw [← hcfg]; rfl
  have hclean' : Markup.CleanCfg lc.markup := by rw [← hcfg]; exact hclean
  cases tree with
  | tok t => exact hbody.elim
  | node ty a cs =>
    cases ty <;> try exact hbody.elim
    have hbox : boxOf (.node .body a cs) = [.mk .body a cs (boxesOf cs)] := boxOf_mk (by simp)
    have hmem : lock lc (.mk .body a cs (boxesOf cs)) ∈ lockL lc (boxOf (.node .body a cs)) := by rw [hbox]; simp [lockL]
    have hbare := bare_node (cfg := lc) (.node .body a cs) hneat (fun t ht => (htok t ht).2.2.2.2) _ hmem
    have hfr := framed_node (cfg := lc) (.node .body a cs) hneat _ hmem
    simp only [layoutTree] at h3
    split at h3
    case h_2 => simp at h3
    rename_i l' o hr
    simp only [Except.ok.injEq] at h3
    subst h3
    have hpl : Placed lc (lock lc (.mk .body a cs (boxesOf cs))) ⟨0, 0⟩ l' o := reflow_sound _ 0 hbare _ _ _ _ _ _ hr
    have hbe : lockL lc (boxOf (.node .body a cs)) = [lock lc (.mk .body a cs (boxesOf cs))] := by rw [hbox]; rfl
    obtain ⟨hne, ks, e, hpil⟩ := piled_node (.node .body a cs) 0 _ ⟨0, 0⟩ l' o hneat hbe
      (by rw [(lock_same lc _).1]; rfl) hfr hpl (by simp)
    rw [write_units, e] at hw
    obtain ⟨ss, s1, s2, s3⟩ := shown_of hR hclean' hp.noBom h1 _ _ ks 0 _ _ _ [] _ (Nat.le_refl _) hpil
      (by
        intro d n hm hs
        refine htoks d n hm hs ?_
        rintro a' cs' rfl
        -- a block that is a switch has one token
        have := block_neat hneat hm
        obtain ⟨t, rfl, -⟩ := (Parse.neat_node.1 this).1
        simp [switchOf] at hs)
      hset (by rw [offs, hsw]; exact hp.closed) rfl hsw.symm hw rfl (Nat.le_refl _) (fun _ => rfl)
    refine ⟨_, ss, h2, ?_, ?_, (calm_node _ 0 _ _ l' o hneat hbe hpl hsp).1⟩
    · rw [← hcfg] at s1; exact s1
    · have htab : lc.tabSize = cfg.layout.tabSize := by rw [← hcfg]; rfl
      rw [hend, htab] at s3
      rw [hend]
      unfold Props.Blocks.printed
      cases hs : trimBlanks ss with
      | nil => rw [s2 hs]; simp [W.start]
      | cons x xs =>
        rw [s3 (by simp [hs]), hs]
        simp [W.start]

/-! ## The region by itself -/

theorem split_unique {a b a' b' : List Lex.Token} {x y : Lex.Token} (h : a ++ x :: b = a' ++ y :: b')
    (ha : ∀ t ∈ a, Parse.isOnOff t = false) (hy : Parse.isOnOff y = true) :
    (a' = a ∧ y = x ∧ b' = b) ∨ ∃ c, a' = a ++ x :: c ∧ b = c ++ y :: b' := by
  rw [List.append_eq_append_iff] at h
  rcases h with ⟨c, e1, e2⟩ | ⟨c, e1, e2⟩
  · cases c with
    | nil =>
      simp only [List.nil_append, List.cons.injEq] at e2
      exact Or.inl ⟨by simpa using e1, e2.1.symm, e2.2.symm⟩
    | cons z c =>
      simp only [List.cons_append, List.cons.injEq] at e2
      obtain ⟨rfl, e2⟩ := e2
      exact Or.inr ⟨c, e1, e2⟩
  · cases c with
    | nil =>
      simp only [List.nil_append, List.cons.injEq] at e2
      exact Or.inl ⟨by simpa using e1.symm, e2.1, e2.2⟩
    | cons z c =>
      simp only [List.cons_append, List.cons.injEq] at e2
      have := ha z (by rw [e1]; simp)
      rw [← e2.1, hy] at this
      simp at this

theorem region_shown {B : Nat → Parse.Node → Str → Prop} {ts : List Lex.Token} {es : List Event} {ss : List Shown}
    (h : Shows' B ts es ss) : ∀ (a between b : List Lex.Token) (t u : Lex.Token), ts = a ++ t :: between ++ u :: b →
    t.type = .formatOff → u.type = .formatOn → (∀ x ∈ between, Parse.isOnOff x = false) →
    ∃ d, Shown.block d (offText ++ between.flatMap (·.spelling) ++ onText) ∈ ss := by
  induction h with
  | nil hno =>
    intro a between b t u e ht
    have := hno t (by rw [e]; simp)
    simp [Parse.isOnOff, ht] at this
  | blank _ ih =>
    intro a between b t u e ht hu hm
    obtain ⟨d, hd⟩ := ih a between b t u e ht hu hm
    exact ⟨d, List.mem_cons_of_mem _ hd⟩
  | block _ _ _ ih =>
    intro a between b t u e ht hu hm
    obtain ⟨d, hd⟩ := ih a between b t u e ht hu hm
    exact ⟨d, List.mem_cons_of_mem _ hd⟩
  | on hs hon ha _ ih =>
    intro a between b t u e ht hu hm
    rw [List.append_assoc] at e
    rcases split_unique e ha (by simp [Parse.isOnOff, ht]) with ⟨_, e2, _⟩ | ⟨c, _, e2⟩
    · subst e2; rw [ht] at hon; simp at hon
    · obtain ⟨d, hd⟩ := ih c between b t u (by rw [e2]; simp) ht hu hm
      exact ⟨d, List.mem_cons_of_mem _ hd⟩
  | @region a0 bt0 ts0 mid0 es0 ss0 d d' n m t0 u0 hs hoff hmid hs' hon ha hb _ ih =>
    intro a between b t u e ht hu hm
    rw [List.append_assoc, List.append_assoc, List.cons_append, List.cons_append] at e
    rcases split_unique e ha (by simp [Parse.isOnOff, ht]) with ⟨_, e2, e3⟩ | ⟨c, _, e2⟩
    · rcases split_unique e3.symm hb (by simp [Parse.isOnOff, hu]) with ⟨e4, _, _⟩ | ⟨c, e4, _⟩
      · subst e4; exact ⟨d, by simp⟩
      · have := hm u0 (by rw [e4]; simp)
        simp [Parse.isOnOff, hon] at this
    · rcases split_unique e2 hb (by simp [Parse.isOnOff, ht]) with ⟨_, e4, _⟩ | ⟨c', _, e4⟩
      · subst e4; rw [ht] at hon; simp at hon
      · obtain ⟨d, hd⟩ := ih c' between b t u (by rw [e4]; simp) ht hu hm
        exact ⟨d, List.mem_cons_of_mem _ hd⟩

theorem mem_trim {d : Nat} {s : Str} {ss : List Shown} (h : Shown.block d s ∈ ss) : Shown.block d s ∈ trimBlanks ss := by
  induction ss with
  | nil => simp at h
  | cons x ss ih =>
    cases x with
    | blank =>
      simp only [List.mem_cons, reduceCtorEq, false_or] at h
      have := ih h
      simp only [trimBlanks]
      cases hs : trimBlanks ss with
      | nil => rw [hs] at this; simp at this
      | cons y ys => rw [hs] at this; simp only [List.mem_cons, reduceCtorEq, false_or]; simpa using this
    | block d' s' =>
      simp only [trimBlanks, List.mem_cons] at h ⊢
      rcases h with h | h
      · exact Or.inl h
      · exact Or.inr (ih h)

theorem page_mem {endl : Str} {tab d : Nat} {s : Str} {ss : List Shown} (h : Shown.block d s ∈ ss) :
    ∃ pre post, page endl tab ss = pre ++ s ++ endl ++ post := by
  induction ss with
  | nil => simp at h
  | cons x ss ih =>
    rcases List.mem_cons.1 h with h | h
    · subst h
      exact ⟨List.replicate (d * tab) ' ', page endl tab ss, by simp [page]⟩
    · obtain ⟨pre, post, e⟩ := ih h
      cases x with
      | blank => exact ⟨endl ++ pre, post, by simp [page, e]⟩
      | block d' s' => exact ⟨List.replicate (d' * tab) ' ' ++ s' ++ endl ++ pre, post, by simp [page, e]⟩

/-- **C18.** What stands between an `off` and the next switch, an `on`, is copied: the output
contains the two switches with exactly that text between them. -/
theorem region_copied_partial (cfg : FileCfg) (content text : Str) (valid : Bool)
    (h : processFile cfg content = .ok (text, valid)) (hp : Switched cfg.ctx content)
    (hclean : Markup.CleanCfg cfg.layout.markup)
    (htabs : cfg.tabs.useTabchars = false) (hbom : cfg.bom = false)
    (a between b : List Lex.Token) (off on : Lex.Token)
    (htoks : Props.Lex.toks content = a ++ off :: between ++ on :: b)
    (hoff : off.type = .formatOff) (hon : on.type = .formatOn)
    (hno : ∀ t ∈ between, t.type ≠ .formatOff ∧ t.type ≠ .formatOn) :
    ∃ pre post, text = pre ++ S "# cmake-format: off" ++ between.flatMap (·.spelling) ++ S "# cmake-format: on" ++
      Props.Layout.lineEnd cfg content ++ post := by
  obtain ⟨tree, ss, -, hs, rfl, -⟩ := regions_stacked_partial cfg content text valid h hp hclean htabs hbom
  obtain ⟨d, hd⟩ := region_shown hs a between b off on htoks hoff hon (fun t ht => by
    simp [Parse.isOnOff, hno t ht])
  have hd' := mem_trim hd
  obtain ⟨pre, post, e⟩ := page_mem (endl := Props.Layout.lineEnd cfg content) (tab := cfg.layout.tabSize) hd'
  refine ⟨pre, post, ?_⟩
  unfold Props.Blocks.printed
  cases ht : trimBlanks ss with
  | nil => rw [ht] at hd'; simp at hd'
  | cons x xs =>
    rw [ht] at e
    simp only [e, offText, onText]
    simp

/-! ### A concrete case -/

/-- Regions at the top, inside a block, with a statement that would be changed, and a letter of
two bytes. -/
def exampleText : Str :=
  S "a(  b )\n# cmake-format: off\nset(x   y)\n\n\n  # cmake-format: on\nif(  c)\n# cmf: off\n d(  é ) # e\n# cmf: on\nf(  g )\nendif( )\n"

/-- Decidable version of the conditions. -/
def switchedB (ctx : Parse.Ctx) (content : Str) : Bool :=
  content.head? != some Lex.BOM && Props.Parse.switchesApartB (Props.Lex.toks content) &&
    closed false (switches (Props.Lex.toks content)) &&
    match Parse.parse ctx (Props.Lex.toks content) with
    | .ok tree => outside tree && (formattedBlocks false (outline 0 tree)).all settled
    | .error _ => true

theorem switched_of {ctx : Parse.Ctx} {content : Str} (h : switchedB ctx content = true) : Switched ctx content := by
  simp only [switchedB, Bool.and_eq_true, bne_iff_ne, ne_eq] at h
  obtain ⟨⟨⟨h1, h2⟩, h3⟩, h4⟩ := h
  refine ⟨h1, Props.Parse.switchesApart_of h2, ?_, h3, ?_⟩
  · intro tree ht
    rw [ht] at h4
    simp only [Bool.and_eq_true] at h4
    exact h4.1
  · intro tree ht
    rw [ht] at h4
    simp only [Bool.and_eq_true, List.all_eq_true] at h4
    exact h4.2

example : Props.Layout.formatted exampleText =
    S "a(b)\n# cmake-format: off\nset(x   y)\n\n\n  # cmake-format: on\nif(c)\n  # cmake-format: off\n d(  é ) # e\n# cmake-format: on\n  f(g)\nendif()\n" := by
  decide +kernel

example : (∃ text valid, processFile Props.Layout.exampleFile exampleText = .ok (text, valid)) ∧
    Switched Props.Layout.exampleFile.ctx exampleText ∧
    Markup.CleanCfg Props.Layout.exampleFile.layout.markup ∧ Props.Layout.exampleFile.tabs.useTabchars = false ∧
    Props.Layout.exampleFile.bom = false := by
  refine ⟨?_, switched_of (by decide +kernel), Props.Layout.default_clean, rfl, rfl⟩
  have : (processFile Props.Layout.exampleFile exampleText).isOk = true := by decide +kernel
  revert this
  cases processFile Props.Layout.exampleFile exampleText with
  | ok r => intro _; exact ⟨r.1, r.2, rfl⟩
  | error e => intro h; simp [Except.isOk, Except.toBool] at h

example :
    let ts := Props.Lex.toks exampleText
    let off : Lex.Token := ⟨.formatOff, S "# cmf: off", 27, ⟨8, 0, 70⟩, ⟨8, 10, 80⟩⟩
    let on : Lex.Token := ⟨.formatOn, S "# cmf: on", 39, ⟨10, 0, 95⟩, ⟨10, 9, 104⟩⟩
    ts = ts.take 27 ++ off :: (ts.drop 28).take 11 ++ on :: ts.drop 40 ∧
    (∀ t ∈ (ts.drop 28).take 11, t.type ≠ .formatOff ∧ t.type ≠ .formatOn) ∧
    ((ts.drop 28).take 11).flatMap (·.spelling) = S "\n d(  é ) # e\n" := by decide +kernel

/-! ### Where it fails -/

/-- **C18.** With a byte-order mark the offsets of the region are three bytes short, so that the copied
text starts before the end of the switch and lacks its own end. -/
theorem region_after_bom :
    Props.Layout.formatted (Lex.BOM :: S "a(  b )\n# cmake-format: off\nset(x   y)\n# cmake-format: on\nb(  c )\n") =
      S "a(b)\n# cmake-format: offoff\nset(x   # cmake-format: on\nb(c)\n" := by decide +kernel

/-- **C18.** Of two `off` in a row the first region is lost. -/
theorem region_two_offs :
    Props.Layout.formatted (S "# cmake-format: off\na(  b )\n# cmake-format: off\nset(x   y)\n# cmake-format: on\n") =
      S "# cmake-format: off\n\n# cmake-format: off\nset(x   y)\n# cmake-format: on\n" := by decide +kernel

/-- **C18.** Without an `on` everything after the `off` is lost; the same if the `on` is inside a
statement. -/
theorem region_unclosed :
    Props.Layout.formatted (S "a(b)\n# cmake-format: off\nc(d)\n") = S "a(b)\n# cmake-format: off\n" ∧
    Props.Layout.formatted (S "# cmake-format: off\nc(d\n# cmake-format: on\n)\nf(x)\n") = S "# cmake-format: off\n" := by
  decide +kernel

/-- **C18.** If the region starts inside a statement and ends after it, the closing parenthesis is written
twice. -/
theorem region_from_statement :
    Props.Layout.formatted (S "a(b\n# cmake-format: off\n c\n)\n# cmake-format: on\n") =
      S "a(b # cmake-format: off\n   )\n c\n)\n# cmake-format: on\n" := by decide +kernel

end Verif.Props.Switch
