import Verif.Props.Width
import Verif.Arrange

/-!
# C84 and C85: the layout options are obeyed

The specification is `Verif/ArrangeSpec.lean`: the laid out file is a tree of parts with
positions, and the writer puts every text at exactly the position of its part (C15).
-/

namespace Verif.Props.Arrange
open Verif Py Layout Props.Layout Props.Width

theorem layout_parts {cfg : Cfg} {tree : Parse.Node} {l : Laid} (h : layoutTree cfg tree = .ok l) :
    ∀ x ∈ partsFrom [] 0 l, Arranged cfg l.valid (join ['/'] x.1) x.2 := by
  cases tree with
  | tok t => simp [layoutTree] at h
  | node ty attr cs =>
    simp only [layoutTree] at h
    split at h
    · rename_i l' o hr
      simp only [Except.ok.injEq] at h
      subst h
      intro x hx
      exact reflow_arranged _ 0 [] false _ _ _ _ hr x hx _ id
    · simp at h

/-- **C84 and C85.** What is written for a file is a laid out tree of parts, valid exactly
when the layout is reported as valid.  Every command, keyword group, list of arguments and
argument group in it is placed as the layout options demand; the options that only bind a
valid layout (`strict`) are obeyed by all parts if the layout is reported as valid. -/
theorem options_obeyed (cfg : FileCfg) (content text : Str) (valid : Bool)
    (h : processFile cfg content = .ok (text, valid)) :
    ∃ ts tree l out, Lex.tokenize content = .ok ts ∧ Parse.parse cfg.ctx ts = .ok tree ∧
      layoutTree (cfg.cfgFor content ts) tree = .ok l ∧ l.valid = valid ∧
      writeTree (cfg.cfgFor content ts) content l = .ok out ∧
      Text.replaceWithTabs (if cfg.bom then Lex.BOM :: out else out) cfg.tabs = .ok text ∧
      ∀ x ∈ partsFrom [] 0 l, Arranged (cfg.cfgFor content ts) valid (join ['/'] x.1) x.2 := by
  unfold processFile at h
  split at h
  · simp at h
  rename_i ts hts
  split at h
  · simp at h
  rename_i tree htree
  split at h
  · simp at h
  rename_i l hl
  split at h
  · simp at h
  rename_i out hout
  split at h
  · simp at h
  rename_i text' htext
  simp only [Except.ok.injEq, Prod.mk.injEq] at h
  obtain ⟨rfl, rfl⟩ := h
  exact ⟨ts, tree, l, out, hts, htree, hl, rfl, hout, htext, layout_parts hl⟩

/-! ## Single options -/

variable {cfg : Cfg} {tree : Parse.Node} {l : Laid}

/-- A command of a laid out file. -/
theorem command_placed (h : layoutTree cfg tree = .ok l) {path : List Str} {s : Laid} (hs : (path, s) ∈ partsFrom [] 0 l)
    (hty : s.ty = .statement) : CommandPlaced cfg l.valid s := by
  have := layout_parts h _ hs
  unfold Arranged at this
  rw [hty] at this
  exact this

/-- **C84**, `separate_ctrl_name_with_space` and `separate_fn_name_with_space`: the
parenthesis of every command follows its name directly, or after exactly one blank if the
option for its kind of command is set. -/
theorem paren_spacing (h : layoutTree cfg tree = .ok l) {path : List Str} {s : Laid} (hs : (path, s) ∈ partsFrom [] 0 l)
    (hty : s.ty = .statement) :
    ∃ name lp rest, s.kids = name :: lp :: rest ∧ name.pos = s.pos ∧
      lp.pos = (stopOf name).right
        (if (if upper name.word ∈ controlNames then cfg.separateCtrl else cfg.separateFn) = true then 1 else 0) := by
  obtain ⟨name, lp, args, rp, rest, dcol, h1, _, h3, h4, _⟩ := command_placed h hs hty
  refine ⟨name, lp, args :: rp :: rest, h1, h3, ?_⟩
  rw [h4]
  congr 1
  simp only [nameGap, List.contains_eq_mem, decide_eq_true_eq]
  split <;> simp

/-- **C84**, `dangle_parens` and `dangle_align`: with the option set, the closing parenthesis
of a command whose arguments end on a later line than the command starts on stands on the
line after them, in the column that `dangle_align` names. -/
theorem dangling_parens (h : layoutTree cfg tree = .ok l) {path : List Str} {s : Laid} (hs : (path, s) ∈ partsFrom [] 0 l)
    (hty : s.ty = .statement) (hd : cfg.dangleParens = true) :
    ∃ name lp args rp rest dcol, s.kids = name :: lp :: args :: rp :: rest ∧
      danglingColumn cfg s.pos.col args.pos.col = some dcol ∧
      (s.pos.row < (stopOf args).row → rp.pos = ⟨(stopOf args).row + 1, dcol⟩) := by
  obtain ⟨name, lp, args, rp, rest, dcol, h1, h2, _, _, _, _, _, h8, _⟩ := command_placed h hs hty
  exact ⟨name, lp, args, rp, rest, dcol, h1, h2, fun hr => h8 (Or.inl ⟨hd, hr⟩)⟩

/-- **C84**: otherwise the closing parenthesis follows the arguments directly, if there is
room for it on their line, they do not end in a comment and no comment follows. -/
theorem closing_paren (h : layoutTree cfg tree = .ok l) {path : List Str} {s : Laid} (hs : (path, s) ∈ partsFrom [] 0 l)
    (hty : s.ty = .statement) (hd : cfg.dangleParens = false) :
    ∃ name lp args rp rest, s.kids = name :: lp :: args :: rp :: rest ∧
      (((stopOf args).col : Int) < cfg.linewidth → endsLoud args = false → rest = [] → rp.pos = stopOf args) := by
  obtain ⟨name, lp, args, rp, rest, dcol, h1, _, _, _, _, _, _, _, h9, _⟩ := command_placed h hs hty
  refine ⟨name, lp, args, rp, rest, h1, fun hr hl he => ?_⟩
  rcases h9 (by rintro (h | h | h)
                · rw [hd] at h; simp at h
                · omega
                · rw [hl] at h; simp at h) with h | h
  · exact h
  · exact absurd he h.1

/-- **C85**, `max_pargs_hwrap`: in a valid layout a list with more arguments than allowed has
one argument per line (command lines excepted). -/
theorem long_lists_vertical (h : layoutTree cfg tree = .ok l) (hv : l.valid = true) {path : List Str} {s : Laid}
    (hs : (path, s) ∈ partsFrom [] 0 l) (hty : s.ty = .pargGroup) (hc : S "cmdline" ∉ s.attr.tags)
    (hn : ((s.kids.filter (fun k => k.ty != .comment)).length : Int) > s.attr.maxPargs.getD cfg.maxPargsHwrap) :
    Vertical s.pos.col s.kids := by
  have := layout_parts h _ hs
  unfold Arranged at this
  rw [hty] at this
  have := this.2.2 hv
  rw [if_neg (by simpa using hc)] at this
  exact this (Or.inl hn)

/-- **C85**, `max_subgroups_hwrap`: in a valid layout the groups of a command or keyword with
more groups than allowed stand on lines of their own. -/
theorem many_groups_vertical (h : layoutTree cfg tree = .ok l) (hv : l.valid = true) {path : List Str} {s : Laid}
    (hs : (path, s) ∈ partsFrom [] 0 l) (hty : s.ty = .argGroup)
    (hn : ((s.kids.filter (fun k => k.ty == .kwargGroup || k.ty == .pargGroup || k.ty == .parenGroup)).length : Int)
      > s.attr.maxSubgroups.getD cfg.maxSubgroupsHwrap) : Vertical s.pos.col s.kids := by
  have := layout_parts h _ hs
  unfold Arranged at this
  rw [hty] at this
  exact this.2.2 hv (Or.inl hn)

theorem parts_kid {path : List Str} {k : Laid} : ∀ {ls : List Laid} {n : Nat}, k ∈ ls →
    ∃ m, ∀ x ∈ partsFrom path m k, x ∈ partsFromL path n ls
  | l :: ls, n, h => by
    rcases List.mem_cons.1 h with rfl | h
    · exact ⟨n, fun x hx => by simp only [partsFromL]; exact List.mem_append_left _ hx⟩
    · obtain ⟨m, hm⟩ := parts_kid (n := if l.ty == .pargGroup || l.ty == .flagGroup then n + 1 else n) h
      exact ⟨m, fun x hx => by simp only [partsFromL]; exact List.mem_append_right _ (hm x hx)⟩

/-- **C85**, `always_wrap`: in a valid layout the groups of a listed command stand on lines
of their own.  Missing: commands inside `if()` and other blocks, for which this is not so
(`always_wrap_in_block`). -/
theorem always_wrapped_partial (h : layoutTree cfg tree = .ok l) (hv : l.valid = true) (hb : l.ty = .body) {s : Laid}
    (hs : s ∈ l.kids) (hty : s.ty = .statement) {name lp args : Laid} {rest : List Laid}
    (hk : s.kids = name :: lp :: args :: rest) (ha : args.ty = .argGroup) (hw : lower name.word ∈ cfg.alwaysWrap) :
    Vertical args.pos.col args.kids := by
  rcases l with ⟨ty, a, pk, i, ls, kids⟩
  simp only [Laid.ty] at hb
  subst hb
  simp only [Laid.kids] at hs
  obtain ⟨m, hm⟩ := parts_kid (path := []) (n := 0) hs
  rcases s with ⟨sty, sa, spk, si, sls, skids⟩
  simp only [Laid.ty, Laid.kids] at hty hk
  subst hty hk
  have hargs : ([lower name.word], args) ∈ partsFromL [lower name.word] 0 (name :: lp :: args :: rest) := by
    obtain ⟨q, hq⟩ := parts_kid (path := [lower name.word]) (k := args) (ls := name :: lp :: args :: rest) (n := 0) (by simp)
    refine hq _ ?_
    cases args
    simp only [Laid.ty] at ha
    subst ha
    simp [partsFrom, partName, Laid.ty]
  have := layout_parts h ([lower name.word], args) (by
    simp only [partsFrom, partName, Laid.ty, List.append_nil]
    refine List.mem_cons_of_mem _ (hm _ ?_)
    simp only [partsFrom, partName, Laid.ty, Laid.kids, List.nil_append]
    exact List.mem_cons_of_mem _ hargs)
  unfold Arranged at this
  rw [ha] at this
  exact this.2.2 hv (Or.inr (Or.inr (by simpa [join] using hw)))

/-! ## Cases -/

/-- Names apart from their parentheses, parentheses on lines of their own, 20 columns. -/
def spread : FileCfg :=
  { narrow with layout := { narrow.layout with dangleParens := true, separateCtrl := true } }

example : result spread (S "if(x)\nset(aaaaaaaa bbbbbbbb cccccccc)\nendif()\nadd_lib(aaaaaaaaa bbbbbbb) # ccc ccc\n") =
    (S "if (x)\n  set(aaaaaaaa\n      bbbbbbbb\n      cccccccc\n  )\nendif ()\nadd_lib(aaaaaaaaa\n        bbbbbbb\n) # ccc ccc\n", true) := by
  decide +kernel

/-- Seven arguments are more than `max_pargs_hwrap = 6`. -/
example : result exampleFile (S "foo(a1 a2 a3 a4 a5 a6 a7)\nfoo(a1 a2 a3 a4 a5 a6)\n") =
    (S "foo(a1\n    a2\n    a3\n    a4\n    a5\n    a6\n    a7)\nfoo(a1 a2 a3 a4 a5 a6)\n", true) := by
  decide +kernel

/-- `add_lib` is always to be wrapped. -/
def always : FileCfg := { exampleFile with layout := { exampleLayout with alwaysWrap := [S "add_lib"] } }

/-- A command listed in `always_wrap` is wrapped, but not inside a block: there its path
begins with the name of the block's class. -/
theorem always_wrap_in_block :
    result always (S "add_lib(a b)\nif(x)\nadd_lib(a b)\nendif()\n") =
      (S "add_lib(\n  a b)\nif(x)\n  add_lib(a b)\nendif()\n", true) := by decide +kernel

/-- The laid out file. -/
def laid (cfg : FileCfg) (s : Str) : Option Laid :=
  match Lex.tokenize s with
  | .ok ts =>
    match Parse.parse cfg.ctx ts with
    | .ok tree => (layoutTree (cfg.cfgFor s ts) tree).toOption
    | .error _ => none
  | .error _ => none

/-- The kinds of parts of a file. -/
def kinds (cfg : FileCfg) (s : Str) : List Parse.NT :=
  match laid cfg s with
  | some l => (partsFrom [] 0 l).map (fun x => x.2.ty)
  | none => []

/-- There are commands, lists, groups and keyword groups. -/
example : kinds always (S "add_lib(a b)\nset(x y CACHE STRING z)\n") =
    [.body, .statement, .funname, .lparen, .argGroup, .pargGroup, .argument, .argument, .rparen,
     .statement, .funname, .lparen, .argGroup, .pargGroup, .argument, .pargGroup, .argument,
     .kwargGroup, .keyword, .pargGroup, .argument, .argument, .rparen] := by decide +kernel

end Verif.Props.Arrange
