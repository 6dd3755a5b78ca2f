import Verif.Again
import Verif.NotesProse
import Verif.Props.Same

/-!
# Formatting the output again (C60, C61)

The specification is the first section: which options (`Repeatable`) and which texts (`Lasting`)
are considered.
-/

namespace Verif.Props.Again
open Verif Py Layout Props.Layout Props.Relex

/-! ## Specification -/

/-- Options without tabs, byte-order mark, detection of line ends and sorting.  The case and the
spelling of a command do not depend on the case in which it is written, and no option is about
blank lines or bodies. -/
structure Repeatable (cfg : FileCfg) : Prop where
  fixedEnd : cfg.auto = false
  noTabs : cfg.tabs.useTabchars = false
  noMark : cfg.bom = false
  unsorted : cfg.layout.autosort = false
  clean : Markup.CleanCfg cfg.layout.markup
  harmless : Harmless cfg.layout
  commandCase : ∀ a b, lower a = lower b → cfg.layout.commandCase a = cfg.layout.commandCase b
  spelling : ∀ a b, lower a = lower b → cfg.layout.spelling a = cfg.layout.spelling b

/-- The comments of a file stand between its commands, and stay what they are.
* No command contains a comment, and none has a trailing comment.
* No two comments of lines follow one another without a blank line or a command between them: the
  first would be in another column than the second, and the formatter aligns them.
* Formatting the lines of a comment again gives the same lines, and none of them is a format switch
  or a trailing comment.  A bracket comment has no blanks at the ends of its lines. -/
structure NotesLast (cfg : FileCfg) (tree : Parse.Node) : Prop where
  between : Parse.Between tree
  spaced : spacedNotes (outline 0 tree) = true
  lasting : NotesOk cfg.layout.markup cfg.ctx.explicit (outline 0 tree)

/-- A text without format switches whose words stay what they are.
* Every token is portable (`Steady`).
* Comments are between the commands (`NotesLast`).
* An unquoted argument is on one line, and in no letter case is it a word, a number, a
  variable, a string or a bracket argument.
* The configured spelling of a command has the same letters.
* Every `foreach` has at least two arguments, and only words are spelled AND or OR. -/
structure Lasting (cfg : FileCfg) (content : Str) : Prop where
  noMark : content.head? ≠ some Lex.BOM
  steady : Steady cfg content
  noSwitch : ∀ t ∈ Props.Lex.toks content, t.type ≠ .formatOn ∧ t.type ≠ .formatOff
  notes : ∀ tree, Parse.parse cfg.ctx (Props.Lex.toks content) = .ok tree → NotesLast cfg tree
  oneLine : ∀ t ∈ Props.Lex.toks content, t.type = .unquoted → '\n' ∉ t.spelling ∧ '\r' ∉ t.spelling
  unquoted : ∀ t ∈ Props.Lex.toks content, t.type = .unquoted → ∀ s, lower s = lower t.spelling →
    ∀ ty, ty ≠ .unquoted → Relex.isArgument ty = true → ¬ Lex.Shape ty s
  letters : ∀ t ∈ Parse.program (Props.Lex.toks content), t.type = .word →
    cfg.layout.commandCase t.spelling = S "canonical" →
    ∀ s, knownSpelling cfg.layout cfg.ctx t.spelling s → lower s = lower t.spelling
  foreach_ : Parse.ForeachNamed (Props.Lex.toks content)
  andOr : Parse.PlainAndOr (Props.Lex.toks content)

/-- There is no blank line at the start. -/
def NoBlankStart (content : Str) : Prop := (content.takeWhile isSpace).count '\n' < 2

/-! ## The words of the output -/

theorem bald_of {text : Str} (hb : text.head? ≠ some Lex.BOM) (hc : Parse.NoComments (Props.Lex.toks text)) :
    Bald (Props.Lex.toks text) := by
  have h1 := Props.Parse.tokenize_toks text
  have hs : ∀ t ∈ Props.Lex.toks text, Parse.isAnyComment t = false ∧ Parse.isOnOff t = false := by
    intro t ht
    have := hc t ht
    simp only [Parse.isAnyComment, Parse.isOnOff]
    cases e : t.type <;> simp_all
  refine ⟨fun t ht => ?_, Props.Parse.no_bom text _ h1 hb, hs⟩
  cases hw : Parse.isWs t with
  | true => exact Or.inl rfl
  | false => exact Or.inr (by simp [Parse.isSemantic, hw, hs t ht])

theorem quiet_of {ctx : Parse.Ctx} {text : Str} {tree : Parse.Node} (hb : text.head? ≠ some Lex.BOM)
    (hc : Parse.NoComments (Props.Lex.toks text)) (h : Parse.parse ctx (Props.Lex.toks text) = .ok tree) :
    Quiet ctx tree ∧ ∀ t ∈ tree.toks, t ∈ Props.Lex.toks text := by
  have hbald := bald_of hb hc
  have hcons := Props.Parse.tokens_conserved_partial ctx _ tree h hbald.nobom (fun a b hab h => by
      have := (hbald.switch b (hab.subset (by simp))).2
      simp only [Parse.isOnOff, Bool.or_eq_false_iff, beq_eq_false_iff_ne] at this
      rcases h with h | h
      · exact absurd h this.1
      · exact absurd h this.2)
  have hm : ∀ t ∈ tree.toks, t ∈ Props.Lex.toks text := fun t ht => hcons.1.mem_iff.1 ht
  exact ⟨⟨(Parse.parse_neat h).1, fun t ht => hbald.switch t (hm t ht)⟩, hm⟩

section
variable {cfg : FileCfg} {content text : Str} {valid : Bool}

theorem fair_of {text : Str} (hb : text.head? ≠ some Lex.BOM) (hf : Parse.ForeachNamed (Props.Lex.toks text))
    (hs : ∀ t ∈ Props.Lex.toks text, t.type ≠ .formatOn ∧ t.type ≠ .formatOff) : Parse.Fair (Props.Lex.toks text) where
  blanks := Props.Same.blank_chars (Props.Parse.tokenize_toks text)
  foreach_ := by
    intro a t l x b e h1 h2
    rw [Props.Parse.program_eq] at e
    obtain ⟨h3, h4⟩ := hf a t l x b e h1 h2
    exact ⟨h3, fun r b' e' => h4 r (by rw [e']; rfl)⟩
  nobom := Props.Parse.no_bom text _ (Props.Parse.tokenize_toks text) hb
  noswitch t ht := by
    have := hs t ht
    simp [Parse.isOnOff, this.1, this.2]

/-- The tree of a text that lasts. -/
theorem segC_of (C : Parse.CtxSame cfg.ctx) (hl : Lasting cfg content) {tree : Parse.Node}
    (h : Parse.parse cfg.ctx (Props.Lex.toks content) = .ok tree) :
    SegC tree (Props.Lex.toks content) [] ∧ Calm cfg.ctx tree ∧ ∀ t ∈ tree.toks, t ∈ Props.Lex.toks content := by
  have hfair := fair_of hl.noMark hl.foreach_ hl.noSwitch
  have hm : ∀ t ∈ tree.toks, t ∈ Props.Lex.toks content := by
    have hcons := Props.Parse.tokens_conserved_partial cfg.ctx _ tree h hfair.nobom (fun a b hab h => by
        have := hl.noSwitch b (hab.subset (by simp))
        rcases h with h | h
        · exact absurd h this.1
        · exact absurd h this.2)
    exact fun t ht => hcons.1.mem_iff.1 ht
  exact ⟨parse_segC C h hfair (hl.notes tree h).between,
    ⟨(Parse.parse_neat h).1, fun t ht => hfair.noswitch t (hm t ht), (hl.notes tree h).between⟩, hm⟩

theorem lasting_plain (C : Parse.CtxSame cfg.ctx) (hl : Lasting cfg content) : Plain cfg.ctx content := by
  refine ⟨hl.noMark, hl.noSwitch, ?_⟩
  intro tree h
  obtain ⟨hseg, -, hm⟩ := segC_of C hl h
  refine settled_segC tree _ _ hseg (Parse.parse_neat h).1 ?_ ?_
  · intro t ht
    exact (tokOk_of (Props.Parse.tokenize_toks content) hl.noSwitch t (hm t ht)).1
  · intro t ht hty
    have := hl.oneLine t (hm t ht) hty
    simp [flatSpelling, this.1, this.2]

theorem respelled_letters (hl : Lasting cfg content) {t : Lex.Token} (ht : t ∈ Parse.program (Props.Lex.toks content)) {s : Str}
    (h : Respelled cfg t s) : lower s = lower t.spelling := by
  rcases h with rfl | ⟨_, h⟩ | ⟨hw, h⟩
  · rfl
  · rcases h with ⟨_, rfl⟩ | ⟨_, rfl⟩
    · exact Layout.lower_lower _
    · exact lower_upper _
  · rcases h with ⟨_, rfl⟩ | ⟨_, rfl⟩ | ⟨hc, hk⟩
    · exact Layout.lower_lower _
    · exact lower_upper _
    · exact hl.letters t ht hw hc s hk

theorem readBack_word (hl : Lasting cfg content) {t u : Lex.Token} (ht : t ∈ Parse.program (Props.Lex.toks content))
    (hu : u ∈ Props.Lex.toks text) (h : ReadBack cfg t u) : Parse.word t = Parse.word u := by
  have he := respelled_letters hl ht h.1
  have hty : u.type = t.type := by
    by_cases e : t.type = .unquoted
    · have hsh := Lex.token_shape text _ (Props.Parse.tokenize_toks text) u hu
      have hmem : t ∈ Props.Lex.toks content := by
        simp only [Parse.program, List.mem_filter] at ht; exact ht.1
      rw [e]
      by_cases e2 : u.type = .unquoted
      · exact e2
      · exact absurd hsh (hl.unquoted t hmem e _ he u.type e2 (h.2.2 e))
    · exact h.2.1 e
  simp [Parse.word, he, hty]

theorem sameWords_of (hl : Lasting cfg content) : ∀ {ts us : List Lex.Token}, OneByOne (ReadBack cfg) ts us →
    (∀ t ∈ ts, t ∈ Parse.program (Props.Lex.toks content)) → (∀ u ∈ us, u ∈ Props.Lex.toks text) →
    ts.map Parse.word = us.map Parse.word
  | [], [], _, _, _ => rfl
  | [], _ :: _, h, _, _ => by simp [OneByOne] at h
  | _ :: _, [], h, _, _ => by simp [OneByOne] at h
  | t :: ts, u :: us, h, ht, hu => by
    simp only [OneByOne] at h
    simp only [List.map_cons]
    rw [readBack_word hl (ht t (by simp)) (hu u (by simp)) h.1,
      sameWords_of hl h.2 (fun x hx => ht x (by simp [hx])) (fun x hx => hu x (by simp [hx]))]

theorem toks_located {text : Str} (h : text.head? ≠ some Lex.BOM) :
    Props.Lex.toks text = Lex.locate 0 ⟨1, 0, 0⟩ (Lex.scan text.length none text).1 := by
  have h1 := Props.Parse.tokenize_toks text
  have : Lex.tokenize text = Lex.tokenizeBody text := by
    cases text with
    | nil => rfl
    | cons c cs =>
      simp only [List.head?_cons, ne_eq, Option.some.injEq] at h
      simp [Lex.tokenize, h]
  rw [this, Lex.tokenizeBody_ok] at h1
  injection h1 with h1
  exact h1.symm

/-- `foreach` in another text with the same words. -/
theorem foreach_same {ts ts' : List Lex.Token} (hcan : (Parse.program ts).map Parse.canon = (Parse.program ts').map Parse.canon)
    (hf : Parse.ForeachNamed ts) : Parse.ForeachNamed ts' := by
  intro a t l x b e h1 h2
  rw [e, List.map_append, List.map_cons, List.map_cons, List.map_cons] at hcan
  obtain ⟨a0, r0, e0, ea, er⟩ := List.map_eq_append_iff.1 hcan
  obtain ⟨t0, r1, rfl, e1, er⟩ := List.map_eq_cons_iff.1 er
  obtain ⟨l0, r2, rfl, e2, er⟩ := List.map_eq_cons_iff.1 er
  obtain ⟨x0, b0, rfl, e3, er⟩ := List.map_eq_cons_iff.1 er
  have := hf a0 t0 l0 x0 b0 e0 (by rw [Parse.canon_lower e1, h1]) (by rw [Parse.canon_type e2, h2])
  refine ⟨by rw [← Parse.canon_type e3]; exact this.1, ?_⟩
  intro y hy
  cases b with
  | nil => simp at hy
  | cons y' b =>
    simp only [List.head?_cons, Option.some.injEq] at hy
    subst hy
    obtain ⟨y0, b1, rfl, e4, _⟩ := List.map_eq_cons_iff.1 er
    rw [← Parse.canon_type e4]
    exact this.2 y0 rfl

theorem upper_ends : ∀ n < 128, isLower (Char.ofNat n) = true → (upperChar (Char.ofNat n) = 'A' → Char.ofNat n = 'a') ∧
    (upperChar (Char.ofNat n) = 'O' → Char.ofNat n = 'o') := by decide +kernel

/-- AND and OR in another text with the same words. -/
theorem andOr_same {ts : List Lex.Token} {text : Str}
    (hcan : (Parse.program ts).map Parse.canon = (Parse.program (Props.Lex.toks text)).map Parse.canon)
    (hp : Parse.PlainAndOr ts) : Parse.PlainAndOr (Props.Lex.toks text) := by
  have h1 := Props.Parse.tokenize_toks text
  intro u hu hty
  by_cases hm : u ∈ Parse.program (Props.Lex.toks text)
  · have : Parse.canon u ∈ (Parse.program ts).map Parse.canon := by rw [hcan]; exact List.mem_map_of_mem hm
    obtain ⟨t, htm, e⟩ := List.mem_map.1 this
    have := hp t (List.mem_filter.1 htm).1 (by rw [Parse.canon_type e]; exact hty)
    rwa [Parse.canon_upper e] at this
  · have hsh := Lex.token_shape text _ h1 u hu
    have hne : u.spelling.head? ≠ some 'a' ∧ u.spelling.head? ≠ some 'A' ∧ u.spelling.head? ≠ some 'o' ∧ u.spelling.head? ≠ some 'O' := by
      have hidle : u.type ∈ [Lex.TokType.whitespace, .newline, .comment, .bracketComment, .formatOn, .formatOff] := by
        have : ¬ (u ∈ Props.Lex.toks text ∧ (!([Lex.TokType.whitespace, .newline, .comment, .bracketComment, .formatOn, .formatOff].contains u.type)) = true) := by
          intro hx
          exact hm (List.mem_filter.2 hx)
        simp only [hu, true_and, Bool.not_eq_true', Bool.not_eq_false, List.contains_iff_mem] at this
        exact this
      simp only [List.mem_cons, List.not_mem_nil, or_false] at hidle
      rcases hidle with e | e | e | e | e | e <;> rw [e] at hsh
      · obtain ⟨h2, h3⟩ := hsh
        cases hs : u.spelling with
        | nil => simp
        | cons c cs =>
          have := h3 c (by rw [hs]; simp)
          simp [S] at this
          rcases this with rfl | rfl | rfl | rfl <;> simp
      · rcases hsh with e | e | e <;> rw [e] <;> decide
      · obtain ⟨t, e, -⟩ := hsh
        rw [e]; simp
      · obtain ⟨n, b, e, -⟩ := hsh
        rw [e]; simp
      · obtain ⟨a, b, c, e, -⟩ := hsh
        rw [e]; simp
      · obtain ⟨a, b, c, e, -⟩ := hsh
        rw [e]; simp
    have key : ∀ s : Str, s.head? ≠ some 'a' ∧ s.head? ≠ some 'A' ∧ s.head? ≠ some 'o' ∧ s.head? ≠ some 'O' →
        upper s ≠ S "AND" ∧ upper s ≠ S "OR" := by
      intro s hs
      cases s with
      | nil => exact ⟨by decide, by decide⟩
      | cons c cs =>
        simp only [List.head?_cons, ne_eq, Option.some.injEq] at hs
        have hup : upperChar c ≠ 'A' ∧ upperChar c ≠ 'O' := by
          unfold upperChar
          split
          · rename_i hl
            have hc : c.toNat < 128 := by
              simp only [isLower, Bool.and_eq_true, decide_eq_true_eq] at hl
              have h2 : 'z'.toNat = 122 := rfl
              omega
            have := upper_ends c.toNat hc
            rw [Char.ofNat_toNat] at this
            have := this hl
            unfold upperChar at this
            rw [if_pos hl] at this
            exact ⟨fun e => hs.1 (this.1 e), fun e => hs.2.2.1 (this.2 e)⟩
          · exact ⟨hs.2.1, hs.2.2.2⟩
        constructor <;> (intro e; simp only [upper, List.map_cons, S] at e; simp at e)
        · exact hup.1 e.1
        · exact hup.2 e.1
    exact key _ hne

/-- What is known of the output of a run. -/
structure Reread (cfg : FileCfg) (content text : Str) (l : Laid) (ps : List Piece) (a : Parse.Attr) (cs cs' : List Parse.Node) :
    Prop where
  parsed : Parse.parse cfg.ctx (Props.Lex.toks content) = .ok (.node .body a cs)
  laid : layoutTree (cfg.cfgFor content (Props.Lex.toks content)) (.node .body a cs) = .ok l
  formatted : Formatted cfg content text (.mk .body a cs (boxesOf cs)) l ps
  noMark : text.head? ≠ some Lex.BOM
  woven : Woven ⟨0, 0⟩ ps ((Props.Lex.toks text).map tySp)
  noSwitch : ∀ u ∈ Props.Lex.toks text, Parse.isOnOff u = false
  seg : SegC (.node .body a cs) (Props.Lex.toks content) []
  calm : Calm cfg.ctx (.node .body a cs)
  toks : ∀ t ∈ Parse.toksL cs, t ∈ Props.Lex.toks content
  parsed' : Parse.parse cfg.ctx (Props.Lex.toks text) = .ok (.node .body a cs')
  seg' : SegC (.node .body a cs') (Props.Lex.toks text) []
  calm' : Calm cfg.ctx (.node .body a cs')
  kin : Parse.KinL (NoteRel (cfg.cfgFor content (Props.Lex.toks content)) (Lex.firstNonWhitespace (Props.Lex.toks text)))
    cs (Parse.inkNodes cs')

theorem reread (user : Parse.Spec) (explicit : Str → Bool)
    (vartags : List ((Str → Bool) × List Str)) (hctx : cfg.ctx = Parse.commandCtx user explicit vartags) (hu : user.named = true)
    (hv : ∀ p ∈ vartags, ∀ a b, lower a = lower b → p.1 a = p.1 b)
    (h : processFile cfg content = .ok (text, valid)) (ho : Repeatable cfg) (hl : Lasting cfg content) :
    ∃ l ps a cs cs', Reread cfg content text l ps a cs cs' ∧ l.valid = valid := by
  have C : Parse.CtxSame cfg.ctx := by
    rw [hctx]
    exact Parse.commandCtx_same user explicit vartags (Props.Same.spec_named user hu) hv
  have hsees : Parse.Sees cfg.ctx := by
    rw [hctx]
    exact Parse.commandCtx_sees user explicit vartags
  have hp := lasting_plain C hl
  obtain ⟨tree, b, l, ps, h1, h2, hlock, hf, hv'⟩ := formatted_run h hp ho.noTabs ho.noMark
  obtain ⟨hmark, hwov, hback⟩ := read_text hf hp ho.clean hl.steady
  obtain ⟨hseg, hcalm, hm⟩ := segC_of C hl h1
  have hnotes := hl.notes tree h1
  have hfair := fair_of hl.noMark hl.foreach_ hl.noSwitch
  have hneat := (Parse.parse_neat h1).1
  obtain ⟨o, hpl⟩ := hf.placed
  generalize hcfg1 : cfg.cfgFor content (Props.Lex.toks content) = cfg1
  have hclean : Markup.CleanCfg cfg1.markup := by rw [← hcfg1]; exact ho.clean
  have hauto : cfg1.autosort = false := by rw [← hcfg1]; exact ho.unsorted
  have hpieces := hf.pieces
  rw [hcfg1] at hpl hpieces hlock
  obtain ⟨gs, egs, hst⟩ := stack_node (unitC_rule (cfg := cfg1) (ctx := cfg.ctx) hclean hauto) hclean tree 0 b ⟨0, 0⟩ l o none ps hneat
    (fun t ht => (tokOk_of (Props.Parse.tokenize_toks content) hl.noSwitch t (hm t ht)).1) hlock (by rw [hf.body]; rfl) hf.tidy hf.framed
    hf.sourced hpl hpieces (by simp)
  have hsplits := splits_of 0 hseg
  have hok : NotesOk cfg1.markup cfg.ctx.explicit (outline 0 tree) := by rw [← hcfg1]; exact hnotes.lasting
  have hgood := line_good _ gs 0 _ _ hst hsplits hok
  have hpart := stacked_parted _ gs 0 _ _ hst hsplits
  have hwov' : Woven ⟨0, 0⟩ ps ((Props.Lex.toks text).map tySp) := hwov
  have hord := hf.inOrder
  rw [← egs] at hgood hpart
  have hnobom := Props.Parse.no_bom text _ (Props.Parse.tokenize_toks text) hmark
  have hsw : ∀ u ∈ Props.Lex.toks text, u.type ≠ .formatOn ∧ u.type ≠ .formatOff := by
    intro u hu
    rcases woven_mem ps ⟨0, 0⟩ _ hwov' u hu with hw | ⟨p, hpm, hk, hsp⟩
    · simp only [Parse.isWs, Bool.or_eq_true, beq_iff_eq] at hw
      rcases hw with e | e <;> simp [e]
    · have hsh := Lex.token_shape text _ (Props.Parse.tokenize_toks text) u hu
      cases hkk : p.kind <;> rw [hkk] at hk
      case line =>
        have := hgood p hpm hkk
        rw [← hsp] at this
        constructor <;> (intro e; rw [e] at hsh)
        · exact this.1 hsh
        · exact this.2.1 hsh
      case bracket =>
        simp only [KindType] at hk
        simp [hk]
      all_goals
        simp only [KindType] at hk
        constructor <;> (intro e; rw [e] at hk; simp [isIdle] at hk)
  have honoff : ∀ u ∈ Props.Lex.toks text, Parse.isOnOff u = false := by
    intro u hu
    have := hsw u hu
    simp [Parse.isOnOff, this.1, this.2]
  have hsame : Parse.SameWords (Props.Lex.toks content) (Props.Lex.toks text) := by
    rw [hf.same ho.unsorted] at hback
    exact sameWords_of (text := text) hl hback (fun t ht => ht) (fun u hu => (List.mem_filter.1 hu).1)
  have hcan := Props.Same.map_word_canon.1 hsame
  have hal : Parse.Alike (Props.Lex.toks content) (Props.Lex.toks text) := by
    unfold Parse.Alike
    rw [Props.Parse.program_eq, Props.Parse.program_eq]
    exact hcan
  have hfair' : Parse.Fair (Props.Lex.toks text) := fair_of hmark (foreach_same hcan hl.foreach_) hsw
  have hsim : Parse.CSim (NoteRel cfg1 (Lex.firstNonWhitespace (Props.Lex.toks text))) (Props.Lex.toks content) (Props.Lex.toks text) := by
    rw [egs] at hwov' hord
    refine notes_walk _ _ gs 0 _ ⟨0, 0⟩ _ hsplits hst hwov' hord ?_ hnobom honoff hal hnotes.spaced hok ?_ ?_ (Or.inl ⟨?_, rfl⟩)
    · rw [toks_located hmark]
      exact cols_locate _ 0 ⟨1, 0, 0⟩
    · rw [toks_located hl.noMark]
      exact locate_nodup _ _ _
    · rw [toks_located hmark]
      exact locate_nodup _ _ _
    · rw [← hcfg1]
      rfl
  have htrail : Parse.NoTrail cfg.ctx (Props.Lex.toks text) :=
    woven_noTrail ps ⟨0, 0⟩ _ hwov' hpart hf.inOrder (fun q hq hk => (hgood q hq hk).2.2) honoff
  obtain ⟨k', tree', hk', hkin⟩ := Parse.parse_kin C hsees h1 hnotes.between hfair hfair' htrail hsim
  have hand := andOr_same hcan hl.andOr
  have hfuel := (Props.ParseDb.tool_parse_terminates_partial user explicit vartags (Props.Lex.toks text) hand).2
  rw [← hctx] at hfuel
  have hp2 : Parse.parse cfg.ctx (Props.Lex.toks text) = .ok tree' := by
    rw [← hfuel (max k' (12 * (Props.Lex.toks text).length + 12)) (by omega)]
    exact hk' _ (by omega)
  have hneat' := (Parse.parse_neat hp2).1
  have hbet' := kin_between _ _ hkin hnotes.between hneat'
  have hseg' := parse_segC C hp2 hfair' hbet'
  have hbody := (Parse.parse_neat h1).2
  cases tree with
  | tok t => exact hbody.elim
  | node ty a cs =>
    cases ty <;> try exact hbody.elim
    simp only [Parse.Kin] at hkin
    obtain ⟨cs', rfl, hkin⟩ := hkin
    have hbox : boxOf (.node .body a cs) = [.mk .body a cs (boxesOf cs)] := boxOf_mk (by simp)
    rw [lockL_id hauto, hbox] at hlock
    simp only [List.cons.injEq, and_true] at hlock
    subst hlock
    have hm' : ∀ t ∈ (Parse.Node.node .body a cs').toks, t ∈ Props.Lex.toks text := by
      have hcons := Props.Parse.tokens_conserved_partial cfg.ctx _ _ hp2 hfair'.nobom (fun a b hab h => by
          have := hsw b (hab.subset (by simp))
          rcases h with h | h
          · exact absurd h this.1
          · exact absurd h this.2)
      exact fun t ht => hcons.1.mem_iff.1 ht
    exact ⟨l, ps, a, cs, cs', ⟨h1, h2, hf, hmark, hwov, honoff, hseg, hcalm, fun t ht => hm t (by simpa using ht), hp2, hseg',
      ⟨hneat', fun t ht => honoff t (hm' t ht), hbet'⟩, by rw [hcfg1]; exact hkin⟩, hv'⟩

/-! ## C60 -/

theorem hushAll_append (a b : List Parse.Skeleton) : Parse.hushAll (a ++ b) = Parse.hushAll a ++ Parse.hushAll b := by
  induction a with
  | nil => rfl
  | cons s a ih => simp [Parse.hushAll, ih]

theorem skeleton_of_blank {n : Parse.Node} (h : Parse.blankNode n = true) : Parse.skeleton n = [] := by
  cases n with
  | tok t =>
    simp only [Parse.blankNode, Parse.isWs, Bool.or_eq_true, beq_iff_eq] at h
    simp [Parse.skeleton, h]
  | node ty a cs =>
    simp only [Parse.blankNode, beq_iff_eq] at h
    simp [Parse.skeleton, h]

theorem skeletons_ink : ∀ cs : List Parse.Node, Parse.skeletons (Parse.inkNodes cs) = Parse.skeletons cs
  | [] => rfl
  | n :: cs => by
    have ih := skeletons_ink cs
    cases hb : Parse.blankNode n with
    | true =>
      have e : Parse.inkNodes (n :: cs) = Parse.inkNodes cs := by simp [Parse.inkNodes, hb]
      rw [e, ih, Parse.skeletons, skeleton_of_blank hb]
      rfl
    | false =>
      have e : Parse.inkNodes (n :: cs) = n :: Parse.inkNodes cs := by simp [Parse.inkNodes, hb]
      rw [e, Parse.skeletons, ih, Parse.skeletons]

mutual
theorem kin_frame {R : List Lex.Token → List Lex.Token → Prop} : ∀ n n' : Parse.Node, Parse.Kin R n n' →
    Parse.hushAll (Parse.skeleton n) = Parse.hushAll (Parse.skeleton n')
  | .tok t, n', h => by
    simp only [Parse.Kin] at h
    rw [Props.Same.skeleton_bare, Props.Same.skeleton_bare n', Parse.bareL_cons, Parse.bareL_cons, Parse.bare_blank h, h]
  | .node ty a cs, n', h => by
    have plain : Parse.bare (.node ty a cs) = Parse.bare n' →
        Parse.hushAll (Parse.skeleton (.node ty a cs)) = Parse.hushAll (Parse.skeleton n') := by
      intro h
      rw [Props.Same.skeleton_bare, Props.Same.skeleton_bare n', Parse.bareL_cons, Parse.bareL_cons, Parse.bare_blank h, h]
    cases ty <;> simp only [Parse.Kin] at h
    case body =>
      obtain ⟨cs', rfl, h⟩ := h
      have := kin_frames cs _ h
      rw [skeletons_ink] at this
      simp [Parse.skeleton, Parse.hushAll, Parse.Skeleton.hush, this]
    case flowControl =>
      obtain ⟨cs', rfl, h⟩ := h
      have := kin_frames cs _ h
      rw [skeletons_ink] at this
      simp [Parse.skeleton, Parse.hushAll, Parse.Skeleton.hush, this]
    case comment =>
      obtain ⟨c, d, e, rfl, -⟩ := h
      simp only [Parse.mk, Parse.Node.node.injEq, true_and] at e
      obtain ⟨rfl, rfl⟩ := e
      simp [Parse.mk, Parse.skeleton, Parse.hushAll, Parse.Skeleton.hush]
    all_goals exact plain h
theorem kin_frames {R : List Lex.Token → List Lex.Token → Prop} : ∀ cs cs' : List Parse.Node, Parse.KinL R cs cs' →
    Parse.hushAll (Parse.skeletons cs) = Parse.hushAll (Parse.skeletons cs')
  | [], cs', h => by
    simp only [Parse.KinL] at h
    rw [h]
  | n :: cs, cs', h => by
    simp only [Parse.KinL] at h
    split at h
    · rename_i hb
      rw [Parse.skeletons, skeleton_of_blank hb]
      exact kin_frames cs cs' h
    · obtain ⟨n', ns', rfl, h1, h2⟩ := h
      rw [Parse.skeletons, Parse.skeletons, hushAll_append, hushAll_append, kin_frame n n' h1, kin_frames cs ns' h2]
end

/-- **C60.** The output of the formatter is read as a tree with the same structure as the input:
the same commands, with their keywords and arguments in the same groups, and comments in the same places. -/
theorem structure_kept_partial (cfg : FileCfg) (user : Parse.Spec) (explicit : Str → Bool)
    (vartags : List ((Str → Bool) × List Str)) (content text : Str) (valid : Bool)
    (hctx : cfg.ctx = Parse.commandCtx user explicit vartags) (hu : user.named = true)
    (hv : ∀ p ∈ vartags, ∀ a b, lower a = lower b → p.1 a = p.1 b)
    (ho : Repeatable cfg) (hl : Lasting cfg content) (h : processFile cfg content = .ok (text, valid)) :
    ∃ tree tree', Parse.parse cfg.ctx (Props.Lex.toks content) = .ok tree ∧
      Parse.parse cfg.ctx (Props.Lex.toks text) = .ok tree' ∧ Parse.frame tree' = Parse.frame tree := by
  obtain ⟨l, ps, a, cs, cs', hr, -⟩ := reread user explicit vartags hctx hu hv h ho hl
  refine ⟨_, _, hr.parsed, hr.parsed', ?_⟩
  have := kin_frames cs _ hr.kin
  rw [skeletons_ink] at this
  simp [Parse.frame, Parse.skeleton, Parse.hushAll, Parse.Skeleton.hush, this]

/-! ## C61 -/

theorem noLead2_of (hn : NoBlankStart content) {ctx : Parse.Ctx} {a : Parse.Attr} {cs : List Parse.Node}
    (hcalm : Calm ctx (.node .body a cs)) (hseg : SegC (.node .body a cs) (Props.Lex.toks content) []) : NoLead2 cs := by
  simp only [SegC] at hseg
  intro a' ds rest e
  subst e
  obtain ⟨t, ts, rfl, -⟩ := (Parse.neat_node.1 (calm_child (Or.inl rfl) hcalm (.node .whitespace a' ds) (by simp)).neat).1
  simp only [SegCL, SegC, Parse.toksL_leaves] at hseg
  obtain ⟨x, y, e, ⟨rfl, hws⟩, -⟩ := hseg
  rw [newlines_count]
  refine Nat.lt_of_le_of_lt (prefix_count (s := content) ?_ ?_ '\n') hn
  · obtain ⟨ts', h1, h2⟩ := Lex.tokenize_total_lossless content
    rw [Props.Parse.tokenize_toks, Except.ok.injEq] at h1
    subst h1
    rw [← h2, e]
    simp
  · intro c hc'
    simp only [List.mem_flatten, List.mem_map] at hc'
    obtain ⟨s, ⟨u, hu, rfl⟩, hcs⟩ := hc'
    exact Props.Same.blank_chars (Props.Parse.tokenize_toks content) u (by rw [e]; exact List.mem_append_left _ hu) (hws u hu) c hcs

/-- **C61.** Formatting the output again changes nothing. -/
theorem formatting_twice_partial (cfg : FileCfg) (user : Parse.Spec) (explicit : Str → Bool)
    (vartags : List ((Str → Bool) × List Str)) (content text : Str) (valid : Bool)
    (hctx : cfg.ctx = Parse.commandCtx user explicit vartags) (hu : user.named = true)
    (hv : ∀ p ∈ vartags, ∀ a b, lower a = lower b → p.1 a = p.1 b)
    (ho : Repeatable cfg) (hl : Lasting cfg content) (hn : NoBlankStart content)
    (h : processFile cfg content = .ok (text, valid)) :
    processFile cfg text = .ok (text, valid) := by
  obtain ⟨l, ps, a, cs, cs', hr, hvalid⟩ := reread user explicit vartags hctx hu hv h ho hl
  have hf := hr.formatted
  have hp := hr.parsed
  have hp2 := hr.parsed'
  have hnobom := Props.Parse.no_bom content _ (Props.Parse.tokenize_toks content) hl.noMark
  have hnobom' := Props.Parse.no_bom text _ (Props.Parse.tokenize_toks text) hr.noMark
  have hsp := Parse.parse_spread hp hnobom (Props.Parse.unglued_of fun a b hab hb => by
    have := hl.noSwitch b (hab.subset (by simp))
    rcases hb with hb | hb
    · exact absurd hb this.1
    · exact absurd hb this.2)
  have hsp' := Parse.parse_spread hp2 hnobom' (Props.Parse.unglued_of fun a b hab hb => by
    have := hr.noSwitch b (hab.subset (by simp))
    rcases hb with hb | hb <;> simp [Parse.isOnOff, hb] at this)
  have hseg' := segC_seg _ _ _ hr.seg'
  simp only [Parse.spread, Bool.and_eq_true] at hsp hsp'
  simp only [Seg] at hseg'
  have heads : ∀ ds : List Parse.Node, (∀ c ∈ ds, Parse.Block c) → headIsComment ds = false := by
    intro ds h
    refine headIsComment_block fun c hc t e => ?_
    have := h c hc
    rw [e] at this
    exact this
  -- the configurations
  generalize hcfg1 : cfg.cfgFor content (Props.Lex.toks content) = cfg1
  have hlaid := hr.laid
  have hpieces := hf.pieces
  obtain ⟨o, hpl⟩ := hf.placed
  rw [hcfg1] at hlaid hpieces hpl
  have hcfg2 : cfg.cfgFor text (Props.Lex.toks text) = cfg1.at (Lex.firstNonWhitespace (Props.Lex.toks text)) := by
    rw [← hcfg1]
    simp [FileCfg.cfgFor, ho.fixedEnd]
  have hharm : ∀ f, Harmless (cfg1.at f) := by
    intro f
    rw [← hcfg1]
    exact ⟨ho.harmless.width, ho.harmless.lines, ho.harmless.blank, ho.harmless.body, ho.harmless.wrap⟩
  have hharm1 : Harmless cfg1 := by
    rw [← hcfg1]
    exact ⟨ho.harmless.width, ho.harmless.lines, ho.harmless.blank, ho.harmless.body, ho.harmless.wrap⟩
  have hauto : cfg1.autosort = false := by rw [← hcfg1]; exact ho.unsorted
  have hclean : Markup.CleanCfg cfg1.markup := by rw [← hcfg1]; exact ho.clean
  -- twins
  have H : Leaves cfg1 (fun t => t ∈ Props.Lex.toks content) (fun _ => True) := by
    refine leaves_case ?_ ?_ ?_
    · intro t ht hw hcom
      refine (hl.steady.program t ?_).normalized
      rw [← Props.Parse.program_eq, Parse.semantics, List.mem_filter]
      have hs := hl.noSwitch t ht
      exact ⟨ht, by simp [Parse.isSemantic, hw, hcom, Parse.isOnOff, hs.1, hs.2]⟩
    · rw [← hcfg1]; exact ho.commandCase
    · rw [← hcfg1]; exact ho.spelling
  obtain ⟨hgap, hleft⟩ := woven_gaps ps ⟨0, 0⟩ _ hr.woven hf.inOrder hnobom' hr.noSwitch (by
    rw [toks_located hr.noMark]
    exact cols_locate _ 0 ⟨1, 0, 0⟩)
  have hkin := hr.kin
  rw [hcfg1] at hkin
  have htd : tidyL (boxesOf cs) = true := by
    have := hf.tidy
    simp only [tidy, Bool.and_eq_true] at this
    exact this.2
  have hfr : framedL (boxesOf cs) = true := by
    have := hf.framed
    simp only [framed, Bool.and_eq_true] at this
    exact this.2
  have hsr : SourcedL cfg.ctx none (boxesOf cs) := by
    have := hf.sourced
    simp only [Sourced] at this
    exact this.2
  cases l with
  | mk lty la lpk linfo llines lkids =>
    simp only [Placed] at hpl
    obtain ⟨rfl, hla, hlpk, hpos, -, -, hpl⟩ := hpl
    have hps : piecesL cfg1 none lkids = .ok ps := by simpa only [pieces] using hpieces
    obtain ⟨ks, ks', e, e', he, he', htw, hge, hge', hiff, -, -, -⟩ := body_list (cs.length + 1) cs cs'
      (Nat.lt_succ_self _) hkin
      ⟨calm_child (Or.inl rfl) hr.calm, (Parse.neat_node.1 hr.calm.neat).1, hsp.1, hsp.2, hr.toks⟩
      ⟨calm_child (Or.inl rfl) hr.calm', (Parse.neat_node.1 hr.calm'.neat).1, hsp'.1, hsp'.2, fun t ht => trivial⟩
      (fun x hx hb => block_twin H hclean x ((Parse.neat_node.1 hr.calm.neat).1 x hx) hb (calm_child (Or.inl rfl) hr.calm x hx))
      (Q := []) (R := []) (r := 0) (s := 0) hseg' htd hfr hsr hpl hps (by simpa using hgap) rfl (by omega)
      (fun _ => noLead2_of hn hr.calm hr.seg) (fun h => absurd rfl h)
    have he0 : e' = [] := hiff.2 (by rw [hleft]; omega)
    subst he0
    rw [List.append_nil] at he'
    -- the first layout, without the blank line at the end
    simp only [layoutTree, lock_id hauto] at hlaid
    split at hlaid
    case h_2 => simp at hlaid
    rename_i l1 o1 hrun
    simp only [Except.ok.injEq] at hlaid
    subst hlaid
    have hdrop : ∃ l1 o1, reflow cfg1 (.mk .body a cs ks) 0 [] false ⟨0, 0⟩ 0 = .ok (l1, o1) ∧
        pieces cfg1 none l1 = .ok ps ∧ l1.valid = valid := by
      rw [he] at hrun
      rcases hge with rfl | ⟨aw, pw, kw, rfl, -⟩
      · rw [List.append_nil] at hrun
        exact ⟨_, _, hrun, hpieces, hvalid⟩
      · obtain ⟨l1, o2, h1, h2, h3⟩ := drop_blank hharm1 hrun hpieces
        exact ⟨l1, o2, h1, h2, h3.trans hvalid⟩
    obtain ⟨l1, o1, hrun1, hpieces1, hvalid1⟩ := hdrop
    have htwin : Twin cfg1 (Lex.firstNonWhitespace (Props.Lex.toks text)) none (.mk .body a cs ks) (.mk .body a cs' ks') := by
      simp only [Twin, true_and]
      exact ⟨fun _ => trivial, heads _ (Parse.neat_node.1 hr.calm.neat).1, heads _ (Parse.neat_node.1 hr.calm'.neat).1, Or.inl htw⟩
    obtain ⟨l2, hrun2, ht2⟩ := reflow_twin (hharm (Lex.firstNonWhitespace (Props.Lex.toks text))) _ _ _ htwin _ _ _ _ _ _ _ hrun1
    have hlaid2 : layoutTree (cfg1.at (Lex.firstNonWhitespace (Props.Lex.toks text))) (.node .body a cs') = .ok l2 := by
      simp only [layoutTree]
      rw [lock_id (by exact hauto), he', hrun2]
    have hw := writeTree_pieces (content := text) (cfg := cfg1.at (Lex.firstNonWhitespace (Props.Lex.toks text)))
      (l := l2) (ps := ps) (by rw [pieces_at, ht2.pieces, hpieces1]) hf.inOrder
    have htext : weave (cfg1.at (Lex.firstNonWhitespace (Props.Lex.toks text))).endl ⟨0, 0⟩ ps ++
        (cfg1.at (Lex.firstNonWhitespace (Props.Lex.toks text))).endl = text := by
      rw [hf.text_eq, ← hcfg1]
      simp [Cfg.at, FileCfg.cfgFor, lineEnd]
    rw [htext] at hw
    simp only [processFile, Props.Parse.tokenize_toks, hp2, hcfg2, hlaid2, hw, ho.noMark, Bool.false_eq_true, if_false,
      Text.replaceWithTabs, ho.noTabs, ht2.valid, hvalid1]
    rfl
end

/-! ## Examples -/

theorem lower_range : ∀ n < 128, isUpper (Char.ofNat n) = true → 97 ≤ (lowerChar (Char.ofNat n)).toNat ∧
    (lowerChar (Char.ofNat n)).toNat ≤ 122 := by decide +kernel

/-- A character that is no letter is the lower case of nothing but itself. -/
theorem lowerChar_fix (x c : Char) (hx : x.toNat < 97 ∨ 122 < x.toNat) (h : lowerChar c = x) : c = x := by
  by_cases hu : isUpper c = true
  · exfalso
    have hc : c.toNat < 128 := by
      simp only [isUpper, Bool.and_eq_true, decide_eq_true_eq] at hu
      have h2 : 'Z'.toNat = 90 := rfl
      omega
    have := lower_range c.toNat hc
    rw [Char.ofNat_toNat, h] at this
    have := this hu
    omega
  · unfold lowerChar at h
    rwa [if_neg hu] at h

theorem lower_mem {x : Char} {s s' : Str} (hx : x.toNat < 65 ∨ (90 < x.toNat ∧ x.toNat < 97) ∨ 122 < x.toNat)
    (h : lower s = lower s') (hm : x ∈ s') : x ∈ s := by
  have h1 : lowerChar x = x := by
    unfold lowerChar
    rw [if_neg]
    simp only [isUpper, Bool.and_eq_true, decide_eq_true_eq]
    have h1 : 'A'.toNat = 65 := rfl
    have h2 : 'Z'.toNat = 90 := rfl
    omega
  have : x ∈ lower s := by
    rw [h]
    exact List.mem_map.2 ⟨x, hm, h1⟩
  obtain ⟨c, hc, e⟩ := List.mem_map.1 this
  rw [← lowerChar_fix x c (by omega) e]
  exact hc

theorem lower_head {x : Char} {s s' : Str} (hx : x.toNat < 65 ∨ (90 < x.toNat ∧ x.toNat < 97) ∨ 122 < x.toNat)
    (h : lower s = lower s') (hm : s.head? = some x) : s'.head? = some x := by
  cases s with
  | nil => simp at hm
  | cons c cs =>
    simp only [List.head?_cons, Option.some.injEq] at hm
    subst hm
    cases s' with
    | nil => simp [lower] at h
    | cons d ds =>
      simp only [lower, List.map_cons, List.cons.injEq] at h
      have h1 : lowerChar c = c := by
        unfold lowerChar
        rw [if_neg]
        simp only [isUpper, Bool.and_eq_true, decide_eq_true_eq]
        have h1 : 'A'.toNat = 65 := rfl
        have h2 : 'Z'.toNat = 90 := rfl
        omega
      rw [h1] at h
      rw [lowerChar_fix c d (by omega) h.1.symm]
      rfl

/-- An argument with a dot, a slash or a colon, that starts with neither a quote nor a bracket. -/
def dotted (s : Str) : Bool :=
  s.any (fun c => c == '.' || c == '/' || c == ':') && s.head? != some '"' && s.head? != some '\'' && s.head? != some '['

theorem dotted_alone {s s' : Str} (hd : dotted s = true) (h : lower s' = lower s) (ty : Lex.TokType) (hty : ty ≠ .unquoted)
    (ha : Relex.isArgument ty = true) : ¬ Lex.Shape ty s' := by
  simp only [dotted, Bool.and_eq_true, List.any_eq_true, Bool.or_eq_true, beq_iff_eq, bne_iff_ne, ne_eq] at hd
  obtain ⟨⟨⟨⟨x, hx, hx2⟩, h1⟩, h2⟩, h3⟩ := hd
  have hn : x.toNat = 46 ∨ x.toNat = 47 ∨ x.toNat = 58 := by
    rcases hx2 with (rfl | rfl) | rfl <;> decide
  have hm : x ∈ s' := lower_mem (by omega) h hx
  have hal : ∀ (c : Char) cs, (65 ≤ c.toNat ∧ c.toNat ≤ 122 ∧ ∀ d ∈ cs, d.isAlphanum = true ∨ d = '_') → x ∉ c :: cs := by
    rintro c cs ⟨a, -, b⟩ hxm
    rcases List.mem_cons.1 hxm with rfl | hxm
    · omega
    · rcases hx2 with (rfl | rfl) | rfl <;> rcases b _ hxm with b | b <;> revert b <;> decide
  intro hs
  cases ty <;> first
    | exact absurd ha (by decide)
    | (exact hty rfl)
    | skip
  · -- quoted
    obtain ⟨q, body, hq, e, -⟩ := hs
    have : s'.head? = some q := by rw [e]; rfl
    rcases hq with rfl | rfl
    · exact h1 (lower_head (by decide) h this)
    · exact h2 (lower_head (by decide) h this)
  · -- word
    obtain ⟨c, cs, rfl, hc⟩ := hs
    exact hal c cs hc hm
  · -- number
    obtain ⟨d, ds, e, hds⟩ := hs
    have : x ∈ d :: ds := by
      rcases e with rfl | rfl
      · exact hm
      · rcases List.mem_cons.1 hm with rfl | hm
        · exact absurd hn (by decide)
        · exact hm
    have := hds x this
    rcases hx2 with (rfl | rfl) | rfl <;> revert this <;> decide
  · -- deref
    obtain ⟨c, cs, rfl, hc⟩ := hs
    have := hal c cs hc
    rcases hx2 with (rfl | rfl) | rfl <;> simp_all
  · -- bracketArg
    obtain ⟨n, body, e⟩ := hs
    exact h3 (lower_head (by decide) h (by rw [e]; simp))
  · -- atword
    obtain ⟨c, cs, rfl, hc⟩ := hs
    have := hal c cs hc
    rcases hx2 with (rfl | rfl) | rfl <;> simp_all

/-- The configuration of the examples, with the command database. -/
def demoFile : FileCfg := { exampleFile with ctx := Parse.commandCtx ParseDb.demoSpec (startsWith (S "#<")) [] }

/-- The same, computed faster. -/
def fastFile : FileCfg :=
  { exampleFile with ctx := { Parse.commandCtx ParseDb.demoSpec (startsWith (S "#<")) [] with db := Parse.fastDb Parse.Tables.demo } }

theorem demo_fast : demoFile = fastFile := by
  unfold demoFile fastFile Parse.commandCtx
  rw [Parse.commandDb_fast ParseDb.demoSpec_ok]

theorem demo_repeatable : Repeatable demoFile := by
  refine ⟨rfl, rfl, rfl, rfl, default_clean, ⟨by decide, by decide, rfl, rfl, fun _ => rfl⟩, fun _ _ _ => rfl, ?_⟩
  exact fun a b h => h

mutual
/-- No command contains a comment. -/
def betweenB : Parse.Node → Bool
  | .tok _ => true
  | .node ty _ cs =>
    match ty with
    | .statement => (Parse.toksL cs).all fun t => !Parse.isAnyComment t
    | .atwordStatement => (Parse.toksL cs).all fun t => !Parse.isAnyComment t
    | .body => betweenBL cs
    | .flowControl => betweenBL cs
    | _ => true
/-- All of them. -/
def betweenBL : List Parse.Node → Bool
  | [] => true
  | n :: ns => betweenB n && betweenBL ns
end

mutual
theorem between_of : ∀ n : Parse.Node, betweenB n = true → Parse.Between n
  | .tok _, _ => by simp only [Parse.Between]
  | .node ty a cs, h => by
    cases ty <;> simp only [betweenB] at h <;> simp only [Parse.Between]
    case statement => simpa [List.all_eq_true] using h
    case atwordStatement => simpa [List.all_eq_true] using h
    case body => exact betweenL_of cs h
    case flowControl => exact betweenL_of cs h
theorem betweenL_of : ∀ ns : List Parse.Node, betweenBL ns = true → Parse.BetweenL ns
  | [], _ => by simp only [Parse.BetweenL]
  | n :: ns, h => by
    simp only [betweenBL, Bool.and_eq_true] at h
    simp only [Parse.BetweenL]
    exact ⟨between_of n h.1, betweenL_of ns h.2⟩
end

/-- What has to be checked of the comments of a tree: they are sentences. -/
def notesB (markup : Markup.Cfg) (tree : Parse.Node) : Bool :=
  betweenB tree && spacedNotes (outline 0 tree) && (outline 0 tree).all fun e =>
    match e with
    | .block _ (.node .comment _ cs) =>
      match bracketOf cs with
      | none => ((Parse.toksL cs).filter Parse.isComment).all fun t => Markup.proseLineB markup t.spelling
      | some t => Text.normalizeLineEndings t.spelling == t.spelling
    | _ => true

theorem notes_of {cfg : FileCfg} {tree : Parse.Node} (hp : Markup.PlainMarkup cfg.layout.markup) (hmin : 1 < cfg.layout.markup.hashrulerMin)
    (hex : ∀ s, cfg.ctx.explicit ('#' :: ' ' :: s) = false) (h : notesB cfg.layout.markup tree = true) : NotesLast cfg tree := by
  simp only [notesB, Bool.and_eq_true, List.all_eq_true] at h
  refine ⟨between_of tree h.1.1, h.1.2, ?_⟩
  intro d a cs hm
  have := h.2 _ hm
  simp only at this
  refine ⟨fun hb => ?_, fun t hb => ?_⟩
  · rw [hb] at this
    refine Markup.prose_lasts hp hmin hex ?_
    intro l hl
    obtain ⟨t, ht, rfl⟩ := List.mem_map.1 hl
    exact Markup.proseLine_of (List.all_eq_true.1 this t ht)
  · rw [hb] at this
    simpa using this

/-- What has to be checked of a text. -/
def lastsB (cfg : FileCfg) (content : Str) : Bool :=
  content.head? != some Lex.BOM &&
  (Parse.program (Props.Lex.toks content)).all (portableB cfg.ctx) &&
  (Props.Lex.toks content).all (fun t => t.type ∉ [.formatOff, .formatOn] &&
    (t.type != .comment || (t.spelling.dropWhile (· == '#')).head? != some '[') &&
    (t.type != .bracketComment || Text.normalizeLineEndings t.spelling == t.spelling) &&
    (t.type != .unquoted || (dotted t.spelling && !t.spelling.contains '\n' && !t.spelling.contains '\r'))) &&
  (Parse.program (Props.Lex.toks content)).all (fun t => match Parse.cmdSpelling (Parse.lookupParser cfg.ctx t.spelling) with
    | some s => lower s == lower t.spelling
    | none => true) &&
  Props.Same.foreachOk (Parse.program (Props.Lex.toks content)) &&
  (Props.Lex.toks content).all (fun t => t.type == .word || (upper t.spelling != S "AND" && upper t.spelling != S "OR")) &&
  match Parse.parse cfg.ctx (Props.Lex.toks content) with
  | .ok tree => notesB cfg.layout.markup tree
  | .error _ => true

theorem lasting_of {content : Str} (h : lastsB fastFile content = true) : Lasting demoFile content := by
  rw [demo_fast]
  simp only [lastsB, Bool.and_eq_true, bne_iff_ne, ne_eq] at h
  obtain ⟨⟨⟨⟨⟨⟨h1, h2⟩, h3⟩, h4⟩, h5⟩, h6⟩, h7⟩ := h
  simp only [List.all_eq_true, Bool.and_eq_true, decide_eq_true_eq, List.mem_cons, List.not_mem_nil, or_false, not_or] at h3
  simp only [List.all_eq_true] at h4 h6
  have hu : ∀ t ∈ Props.Lex.toks content, t.type = .unquoted → dotted t.spelling = true ∧ '\n' ∉ t.spelling ∧ '\r' ∉ t.spelling := by
    intro t ht hty
    have := (h3 t ht).2
    simp [hty] at this
    exact ⟨this.1.1, this.1.2, this.2⟩
  refine ⟨h1, steady_of h2 ?_ ?_, fun t ht => ⟨(h3 t ht).1.1.1.2, (h3 t ht).1.1.1.1⟩, ?_, fun t ht hty => (hu t ht hty).2, ?_, ?_,
    Props.Same.foreachNamed_of h5, ?_⟩
  · intro t ht hty
    have := (h3 t ht).1.1.2
    simpa [hty] using this
  · intro t ht hty
    have := (h3 t ht).1.2
    simpa [hty] using this
  · intro tree ht
    rw [ht] at h7
    exact notes_of (Markup.default_plain _ rfl rfl rfl rfl rfl rfl) (by decide) (fun s => rfl) h7
  · intro t ht hty s hs ty h1 h2
    exact dotted_alone (hu t ht hty).1 hs ty h1 h2
  · intro t ht _ _ s hs
    rcases hs with rfl | hs
    · exact Layout.lower_lower _
    · have := h4 t ht
      rw [hs] at this
      simpa using this
  · intro t ht hty
    have := h6 t ht
    simpa [hty] using this

/-- A file with a loop, a condition, blank lines, and words of all kinds. -/
def twiceText : Str :=
  S "foreach(x a ${b} \"c d\")\nAdd_Library(a\n STATIC   b.c\n  [[e]] )\n\n\n\nENDFOREACH()\nif(a AND (b OR c))\n\nfoo(BAR x SOURCES y/z.c -1 @k@)\n  endif( )   \n\n"

theorem twice_runs :
    (match processFile fastFile twiceText with | .ok r => r.1 != twiceText | .error _ => false) = true := by decide +kernel

theorem twice_lasts : lastsB fastFile twiceText = true := by decide +kernel

example : (∃ text valid, processFile demoFile twiceText = .ok (text, valid) ∧ text ≠ twiceText) ∧
    demoFile.ctx = Parse.commandCtx ParseDb.demoSpec (startsWith (S "#<")) [] ∧ ParseDb.demoSpec.named = true ∧
    Repeatable demoFile ∧ Lasting demoFile twiceText ∧ NoBlankStart twiceText := by
  refine ⟨?_, rfl, by decide +kernel, demo_repeatable, lasting_of twice_lasts, by unfold NoBlankStart; decide +kernel⟩
  rw [demo_fast]
  have := twice_runs
  generalize processFile fastFile twiceText = out at this ⊢
  cases out with
  | ok r => exact ⟨r.1, r.2, rfl, bne_iff_ne.1 this⟩
  | error e => exact absurd (show false = true from this) (by decide)

/-- The same, with comments: one is filled, one is indented, and one is a bracket comment. -/
def notedText : Str :=
  S "#  This comment has a line that is longer than the forty columns of the page   \n## and a second line.\n\n#[[ as\n it is]]\nif(A)\n# see below\nset(b   c.d)\n\n\n# at the end\nendif()\n"

theorem noted_runs :
    (match processFile fastFile notedText with | .ok r => r.1 != notedText | .error _ => false) = true := by decide +kernel

theorem noted_lasts : lastsB fastFile notedText = true := by decide +kernel

example : (∃ text valid, processFile demoFile notedText = .ok (text, valid) ∧ text ≠ notedText) ∧
    Repeatable demoFile ∧ Lasting demoFile notedText ∧ NoBlankStart notedText := by
  refine ⟨?_, demo_repeatable, lasting_of noted_lasts, by unfold NoBlankStart; decide +kernel⟩
  rw [demo_fast]
  have := noted_runs
  generalize processFile fastFile notedText = out at this ⊢
  cases out with
  | ok r => exact ⟨r.1, r.2, rfl, bne_iff_ne.1 this⟩
  | error e => exact absurd (show false = true from this) (by decide)

/-! ## Texts that are changed twice -/

/-- **C61 is false of a text with blank lines at the start.** -/
theorem blank_start_shrinks :
    formatted (S "\n\nfoo()\n") = S "\nfoo()\n" ∧ formatted (S "\nfoo()\n") = S "foo()\n" := by
  refine ⟨?_, ?_⟩
  · decide +kernel
  · decide +kernel

/-- A list of eleven items in a comment. -/
def elevenItems : Str := (List.replicate 11 (S "# 1. a\n")).flatten

/-- The list after one run. -/
def elevenAligned : Str :=
  S "#  1. a\n#  2. a\n#  3. a\n#  4. a\n#  5. a\n#  6. a\n#  7. a\n#  8. a\n#  9. a\n# 10. a\n# 11. a\n"

/-- **C61 is false of comments.** A list of eleven items is aligned by the first run, and its last items
are merged by the second. -/
theorem eleven_items_merge :
    formatted elevenItems = elevenAligned ∧
    formatted elevenAligned =
      S "# 1. a\n# 2. a\n# 3. a\n# 4. a\n# 5. a\n# 6. a\n# 7. a\n# 8. a\n# 9. a 10. a 11. a\n" := by
  refine ⟨?_, ?_⟩
  · decide +kernel
  · decide +kernel

/-- **C61 is false of comments in different columns.** Two comments below one another are two comments
if their columns differ.  The first run aligns them, and the second reads them as one. -/
theorem aligned_comments_merge :
    formatted (S "# a\n  # b\n") = S "# a\n# b\n" ∧ formatted (S "# a\n# b\n") = S "# a b\n" := by
  refine ⟨?_, ?_⟩
  · decide +kernel
  · decide +kernel

end Verif.Props.Again
