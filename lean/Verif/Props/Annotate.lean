import Verif.Annotate
import Verif.Props.Main
import Verif.Props.Render

/-!
# What cmake-annotate writes (C88)
-/

namespace Verif.Props.Annotate
open Verif Py Verif.Config Verif.Annotate
open Verif.Main (Bytes File FS Op Exc applyAll)
open Verif.Props.Main (OnlyTouches touches_read touches_stdout touches_open touches_append set_eq)

/-! ## Specification -/

/-- The path of the output; `none` for standard output. -/
def target (args : Args) : Option Str := if args.outfile = some (S "-") then none else args.outfile

/-- The document for the html of a file, in one of the formats. -/
inductive Document (env : Env) (html : Str) : OutFmt → Str → Prop
  | stub : Document env html .stub html
  | page {p : Str} : env.page html = some p → Document env html .page p
  | iframe {p : Str} : env.page html = some p → Document env html .iframe
      (S "\n<template id=\"renderedcontent\">\n" ++ p ++ S "</template>\n<iframe id=\"renderframe\" style=\"width:100%;\"></iframe>\n<script type=\"text/javascript\">\n  var frame = document.getElementById(\"renderframe\");\n  frame.addEventListener(\"load\", function() {\n    frame.height = frame.contentWindow.document.body.scrollHeight + 30;\n  });\n  frame.srcdoc = document.getElementById(\"renderedcontent\").innerHTML;\n</script>\n\n")

/-- The encoding works piece by piece. -/
def Piecewise (env : Env) : Prop := ∀ cfg a b x y, env.encode cfg a = .ok x → env.encode cfg b = .ok y → env.encode cfg (a ++ b) = .ok (x ++ y)

/-! ## No other file is touched -/

/-- All calls leave every file but the output alone. -/
def Only (out : Option Str) (ops : List Op) : Prop := ∀ p, some p ≠ out → ∀ op ∈ ops, ∀ fs, op.apply fs p = fs p

theorem only_append {out : Option Str} {a b : List Op} (ha : Only out a) (hb : Only out b) : Only out (a ++ b) := by
  intro p hp op ho
  rcases List.mem_append.1 ho with h | h
  · exact ha p hp op h
  · exact hb p hp op h

theorem only_open (out : Option Str) : Only out (openOps out) := by
  intro p hp op ho fs
  cases out with
  | none => simp [openOps] at ho
  | some o =>
    rw [List.mem_singleton.1 ho]
    exact touches_open o fs p (fun e => hp (by rw [e]))

theorem only_put (out : Option Str) (f : Str) (b : Bytes) : Only out [.read f, putOp out b] := by
  intro p hp op ho fs
  simp only [List.mem_cons, List.not_mem_nil, or_false] at ho
  rcases ho with rfl | rfl
  · rfl
  · cases out with
    | none => rfl
    | some o => exact touches_append o b fs p (fun e => hp (by rw [e]))

theorem onefile_only (env : Env) (args : Args) (fs : FS) (f : Str) : Only args.outfile (onefile env args fs f).1 := by
  have nil : Only args.outfile [] := fun p _ op ho => by simp at ho
  have rd : Only args.outfile [.read f] := fun p _ op ho fs => by rw [List.mem_singleton.1 ho]; rfl
  unfold onefile
  split
  · exact nil
  · split
    · exact nil
    · dsimp only
      generalize (if f = S "-" then some env.stdin else (applyAll fs (openOps args.outfile) f).map (·.content)) = c
      cases c with
      | none => exact only_open _
      | some b =>
        dsimp only
        split
        · exact only_append (only_open _) rd
        · exact only_append (only_open _) (only_put _ _ _)

theorem loop_only (env : Env) (args : Args) : ∀ (l : List Str) (fs : FS), Only args.outfile (loop env args l fs).1
  | [], fs => fun p _ op ho => by simp [loop] at ho
  | f :: rest, fs => by
    rw [loop]
    dsimp only
    split
    · exact onefile_only env args fs f
    · exact only_append (onefile_only env args fs f) (loop_only env args rest _)

theorem apply_only {out : Option Str} {p : Str} (hp : some p ≠ out) : ∀ (ops : List Op) (fs : FS), Only out ops → applyAll fs ops p = fs p
  | [], fs, _ => rfl
  | op :: ops, fs, h => by
    show applyAll (op.apply fs) ops p = fs p
    rw [apply_only hp ops _ (fun q hq o ho => h q hq o (by simp [ho]))]
    exact h p hp op (by simp) fs

/-- **C88.** Whenever cmake-annotate stops, between any two system calls, every file but the output is as it was. -/
theorem others_untouched_partial (env : Env) (args : Args) (fs : FS) (k : Nat) {p : Str} (hp : some p ≠ target args) :
    applyAll fs ((main env args fs).1.take k) p = fs p := by
  refine apply_only hp _ _ ?_
  have h : Only (target args) (main env args fs).1 := by
    unfold main
    split
    · exact loop_only env { args with outfile := target args } args.infiles fs
    · exact fun p _ op ho => by simp at ho
  exact fun q hq op ho => h q hq op (List.mem_of_mem_take ho)

/-! ## What is written -/

theorem encodeAll_ok {env : Env} (hpw : Piecewise env) (he : ∀ cfg, env.encode cfg [] = .ok []) {cfg : Obj} : ∀ {ss : List Str},
    (encodeAll env cfg ss).2 = .ok () → env.encode cfg ss.flatten = .ok (encodeAll env cfg ss).1
  | [], _ => he cfg
  | s :: ss, h => by
    rw [encodeAll] at h ⊢
    split at h
    · simp at h
    · rename_i b hb
      dsimp only at h ⊢
      exact hpw cfg s ss.flatten b _ hb (encodeAll_ok hpw he h)

theorem before_eq : (lineWrites tplBefore).flatten = S "\n<template id=\"renderedcontent\">\n" := by decide +kernel

theorem after_eq : (lineWrites tplAfter).flatten =
    S "</template>\n<iframe id=\"renderframe\" style=\"width:100%;\"></iframe>\n<script type=\"text/javascript\">\n  var frame = document.getElementById(\"renderframe\");\n  frame.addEventListener(\"load\", function() {\n    frame.height = frame.contentWindow.document.body.scrollHeight + 30;\n  });\n  frame.srcdoc = document.getElementById(\"renderedcontent\").innerHTML;\n</script>\n\n" := by decide +kernel

theorem annotate_document {env : Env} {cfg : Obj} {fmt : OutFmt} {text : Str} (h : (annotateText env cfg fmt text).2 = .ok ()) :
    ∃ html, env.html cfg text = .ok html ∧ Document env html fmt (annotateText env cfg fmt text).1.flatten := by
  unfold annotateText at h ⊢
  cases hh : env.html cfg text with
  | error e => rw [hh] at h; simp at h
  | ok html =>
    rw [hh] at h
    refine ⟨html, rfl, ?_⟩
    cases fmt with
    | stub => simpa using Document.stub
    | page =>
      dsimp only at h ⊢
      cases hp : env.page html with
      | none => rw [hp] at h; simp at h
      | some p => simpa using Document.page hp
    | iframe =>
      dsimp only at h ⊢
      cases hp : env.page html with
      | none => rw [hp] at h; simp at h
      | some p =>
        have := Document.iframe hp
        dsimp only
        rw [List.flatten_append, List.flatten_cons, ← List.append_assoc, before_eq, after_eq]
        exact this

/-- **C88.** After a run that ends well with one input and another file as output, the output file is the encoded document
for the input, whatever was there before. -/
theorem document_written_partial {env : Env} (hpw : Piecewise env) (he : ∀ cfg, env.encode cfg [] = .ok []) {args : Args} {fs : FS}
    {i o : Str} (hi : args.infiles = [i]) (ho : args.outfile = some o) (hs : o ≠ S "-") (hne : i ≠ o)
    (h : (main env args fs).2 = .ok ()) :
    ∃ f cfg text html doc b m, fs i = some f ∧ env.decode cfg f.content = .ok text ∧ env.html cfg text = .ok html ∧
      Document env html args.fmt doc ∧ env.encode cfg doc = .ok b ∧ applyAll fs (main env args fs).1 o = some ⟨b, m⟩ := by
  have hnd : i ≠ S "-" := by
    rintro rfl
    have : argsOk args = false := by simp [argsOk, hi, ho, hs]
    unfold main at h
    rw [this] at h
    simp at h
  have hout : (if args.outfile = some (S "-") then none else args.outfile) = some o := by rw [if_neg (by rw [ho]; simpa using hs), ho]
  have hok : argsOk args = true := by
    unfold main at h
    split at h
    · assumption
    · simp at h
  have hm : main env args fs = loop env { args with outfile := some o } [i] fs := by
    unfold main
    rw [if_pos hok, hout, hi]
  rw [hm] at h ⊢
  rw [loop] at h ⊢
  dsimp only at h ⊢
  cases hr : (onefile env { args with outfile := some o } fs i).2 with
  | error e => rw [hr] at h; simp at h
  | ok u =>
    rw [hr] at h
    dsimp only [loop]
    rw [List.append_nil]
    unfold onefile at hr ⊢
    dsimp only at hr ⊢
    split at hr
    · simp at hr
    · split at hr
      · simp at hr
      · rename_i d hd _ cfg hcfg
        have hopen : applyAll fs (openOps (some o)) i = fs i := touches_open o fs i hne
        rw [if_neg hnd, hopen] at hr
        cases hf : fs i with
        | none => rw [hf] at hr; simp at hr
        | some f =>
          rw [hf] at hr
          simp only [Option.map_some] at hr
          cases hdec : env.decode cfg f.content with
          | error e => rw [hdec] at hr; simp at hr
          | ok text =>
            rw [hdec] at hr
            dsimp only at hr
            unfold writeText at hr
            dsimp only at hr
            split at hr
            · simp at hr
            · rename_i he2
              obtain ⟨html, h1, h2⟩ := annotate_document hr
              refine ⟨f, cfg, text, html, _, _, (match fs o with | some f => f.mode | none => Main.newMode), rfl, hdec, h1, h2, encodeAll_ok hpw he he2, ?_⟩
              rw [if_neg hnd, hopen, hf]
              simp only [Option.map_some, hdec, openOps, putOp, writeText, applyAll, List.cons_append, List.nil_append, List.foldl_cons,
                List.foldl_nil, Op.apply, set_eq, List.nil_append]
              rfl

/-- What goes to standard output. -/
def printed : List Op → Bytes
  | [] => []
  | .stdout b :: ops => b ++ printed ops
  | _ :: ops => printed ops

/-- The bytes of an input; `-` is standard input. -/
def source (env : Env) (fs : FS) (i : Str) : Option Bytes := if i = S "-" then some env.stdin else (fs i).map (·.content)

/-- `b` is the encoded document for an input. -/
def Annotated (env : Env) (fs : FS) (fmt : OutFmt) (i : Str) (b : Bytes) : Prop :=
  ∃ c cfg text html doc, source env fs i = some c ∧ env.decode cfg c = .ok text ∧ env.html cfg text = .ok html ∧
    Document env html fmt doc ∧ env.encode cfg doc = .ok b

/-- Two lists whose members stand in a relation, one by one. -/
inductive Each {α β : Type} (R : α → β → Prop) : List α → List β → Prop
  | nil : Each R [] []
  | cons {a : α} {b : β} {l : List α} {m : List β} : R a b → Each R l m → Each R (a :: l) (b :: m)

theorem printed_append : ∀ a b : List Op, printed (a ++ b) = printed a ++ printed b
  | [], b => rfl
  | op :: a, b => by cases op <;> simp [printed, printed_append a b]

theorem onefile_printed {env : Env} (hpw : Piecewise env) (he : ∀ cfg, env.encode cfg [] = .ok []) {args : Args} {fs : FS} {i : Str}
    (ho : args.outfile = none) (h : (onefile env args fs i).2 = .ok ()) :
    Annotated env fs args.fmt i (printed (onefile env args fs i).1) := by
  unfold onefile at h ⊢
  dsimp only at h ⊢
  rw [ho] at h ⊢
  rw [show applyAll fs (openOps none) = fs from rfl] at h ⊢
  split at h
  · simp at h
  · split at h
    · simp at h
    · rename_i cfg _
      unfold Annotated
      show ∃ c cfg text html doc, (if i = S "-" then some env.stdin else (fs i).map (·.content)) = some c ∧ _
      generalize (if i = S "-" then some env.stdin else (fs i).map (·.content)) = src at h ⊢
      cases src with
      | none => simp at h
      | some c =>
        dsimp only at h ⊢
        cases hdec : env.decode cfg c with
        | error e => rw [hdec] at h; simp at h
        | ok text =>
          rw [hdec] at h
          dsimp only at h ⊢
          unfold writeText at h ⊢
          dsimp only at h ⊢
          split at h
          · simp at h
          · rename_i he2
            obtain ⟨html, h1, h2⟩ := annotate_document h
            refine ⟨c, cfg, text, html, _, rfl, hdec, h1, h2, ?_⟩
            rw [encodeAll_ok hpw he he2]
            simp [openOps, putOp, printed]

theorem loop_printed {env : Env} (hpw : Piecewise env) (he : ∀ cfg, env.encode cfg [] = .ok []) {args : Args}
    (ho : args.outfile = none) (fs : FS) : ∀ {l : List Str}, (loop env args l fs).2 = .ok () →
      ∃ bs, Each (Annotated env fs args.fmt) l bs ∧ printed (loop env args l fs).1 = bs.flatten
  | [], _ => ⟨[], .nil, rfl⟩
  | f :: rest, h => by
    rw [loop] at h ⊢
    dsimp only at h ⊢
    cases hr : (onefile env args fs f).2 with
    | error e => rw [hr] at h; simp at h
    | ok u =>
      rw [hr] at h
      dsimp only at h ⊢
      have hfs : applyAll fs (onefile env args fs f).1 = fs := by
        funext p
        exact apply_only (by rw [ho]; simp) _ _ (onefile_only env args fs f)
      rw [hfs] at h ⊢
      obtain ⟨bs, h1, h2⟩ := loop_printed hpw he ho fs h
      refine ⟨_ :: bs, .cons (onefile_printed hpw he ho hr) h1, ?_⟩
      rw [printed_append, h2, List.flatten_cons]

/-- **C88.** After a run without output file that ends well, the documents for the inputs have been printed, one after
the other, each for the content its file had at the start. -/
theorem documents_printed {env : Env} (hpw : Piecewise env) (he : ∀ cfg, env.encode cfg [] = .ok []) {args : Args} {fs : FS}
    (ho : args.outfile = none ∨ args.outfile = some (S "-")) (h : (main env args fs).2 = .ok ()) :
    ∃ bs, Each (Annotated env fs args.fmt) args.infiles bs ∧ printed (main env args fs).1 = bs.flatten := by
  have hout : (if args.outfile = some (S "-") then none else args.outfile) = none := by
    rcases ho with ho | ho <;> rw [ho] <;> simp
  unfold main at h ⊢
  rw [hout] at h ⊢
  split at h
  · rename_i hok
    obtain ⟨bs, h1, h2⟩ := loop_printed (args := { args with outfile := none }) hpw he rfl fs h
    rw [if_pos hok]; exact ⟨bs, h1, h2⟩
  · simp at h

/-- The html is that of the model's parser and renderer. -/
def FromParser (env : Env) (ctx : Parse.Ctx) : Prop := ∀ cfg text html, env.html cfg text = .ok html →
  ∃ ts tree, Lex.tokenize text = .ok ts ∧ Parse.parse ctx ts = .ok tree ∧ html = Render.getHtml tree

/-- **C88, with the parser.** In the default format, the output file holds properly nested html which shows the text of
the input file. -/
theorem output_shows_input_partial {env : Env} (hpw : Piecewise env) (he : ∀ cfg, env.encode cfg [] = .ok []) {ctx : Parse.Ctx}
    (hpar : FromParser env ctx) {args : Args} {fs : FS} {i o : Str} (hi : args.infiles = [i]) (ho : args.outfile = some o)
    (hs : o ≠ S "-") (hne : i ≠ o) (hfmt : args.fmt = .stub) (h : (main env args fs).2 = .ok ()) :
    ∃ f cfg text html b m, fs i = some f ∧ env.decode cfg f.content = .ok text ∧ env.encode cfg html = .ok b ∧
      applyAll fs (main env args fs).1 o = some ⟨b, m⟩ ∧
      (text.head? ≠ some Lex.BOM → '<' ∉ text →
        (∀ ts, Lex.tokenize text = .ok ts → ∀ t ∈ ts, Parse.NoTuple true (Parse.registered ctx t.spelling)) →
        Props.Render.WellFormed html ∧ Props.Render.shown false html = text) := by
  obtain ⟨f, cfg, text, html, doc, b, m, h1, h2, h3, h4, h5, h6⟩ := document_written_partial hpw he hi ho hs hne h
  rw [hfmt] at h4
  cases h4
  refine ⟨f, cfg, text, html, b, m, h1, h2, h5, h6, fun hb hlt hc => ?_⟩
  obtain ⟨ts, tree, ht, hp, rfl⟩ := hpar cfg text html h3
  exact Props.Render.html_shows_file_partial ctx text ts tree ht hp hb (hc ts ht) hlt

/-! ## Where it goes wrong -/

/-- If the output is the input, its content is lost before it is read: the result is the same for every content. -/
theorem same_file_lost (env : Env) {args : Args} {fs fs' : FS} {f : Str} (hi : args.infiles = [f]) (ho : args.outfile = some f) :
    main env args fs = main env args fs' := by
  unfold main
  split
  · rw [hi, ho]
    by_cases hd : f = S "-"
    · rw [if_pos (by rw [hd])]
      have : ∀ g : FS, loop env { args with outfile := none, infiles := [f] } [f] g = loop env { args with outfile := none, infiles := [f] } [f] fs := by
        intro g
        rw [loop, loop]
        have : onefile env { args with outfile := none, infiles := [f] } g f = onefile env { args with outfile := none, infiles := [f] } fs f := by
          unfold onefile
          simp only [hd, if_true]
        rw [this]
        simp only [loop]
      exact (this fs').symm
    · rw [if_neg (by simpa using hd)]
      rw [loop, loop]
      have : ∀ g : FS, (applyAll g (openOps (some f)) f).map (·.content) = some [] := by
        intro g
        simp [openOps, applyAll, Op.apply, FS.set]
      have : onefile env { args with outfile := some f, infiles := [f] } fs f = onefile env { args with outfile := some f, infiles := [f] } fs' f := by
        unfold onefile
        simp only [hd, if_false, this]
      rw [this]
      simp only [loop]
  · rfl

/-- A file that cannot be parsed leaves an empty output file, whatever was there before. -/
theorem failure_empties (env : Env) {args : Args} {fs : FS} {i o : Str} {d : Dict} {cfg : Obj} {f : File} {text : Str} {e : Exc}
    (hi : args.infiles = [i]) (ho : args.outfile = some o) (hs : o ≠ S "-") (hnd : i ≠ S "-") (hne : i ≠ o)
    (hc : getConfig env i args.configFile = .ok d) (hm : env.mkConfig d = .ok cfg) (hf : fs i = some f)
    (hdec : env.decode cfg f.content = .ok text) (hh : env.html cfg text = .error e) :
    (main env args fs).2 = .error e ∧ ∃ m, applyAll fs (main env args fs).1 o = some ⟨[], m⟩ := by
  have hout : (if args.outfile = some (S "-") then none else args.outfile) = some o := by rw [if_neg (by rw [ho]; simpa using hs), ho]
  have hok : argsOk args = true := by simp [argsOk, hi, ho, Ne.symm hnd]
  have hopen : applyAll fs (openOps (some o)) i = fs i := touches_open o fs i hne
  have h1 : onefile env { args with outfile := some o } fs i = ([.openTrunc o, .read i, .append o []], .error e) := by
    unfold onefile
    simp only [if_neg hnd, hc, hm, hopen, hf, Option.map_some, hdec, writeText, annotateText, hh, encodeAll]
    simp [openOps, putOp]
  have h2 : main env args fs = ([.openTrunc o, .read i, .append o []], .error e) := by
    unfold main
    rw [if_pos hok, hout, hi, loop]
    rw [← hi]
    simp only [h1]
  rw [h2]
  refine ⟨rfl, (match fs o with | some f => f.mode | none => Main.newMode), ?_⟩
  simp only [applyAll, List.foldl_cons, List.foldl_nil, Op.apply, set_eq]
  rfl

theorem configdict_fails {env : Env} {c : Char} {e : Exc} (h : env.readConfig (env.expand [c]) = .error e) :
    ∀ (fuel : Nat) (q : List Str) (acc d : Dict), [c] ∈ q → getConfigdict env.readConfig env.expand fuel q acc ≠ .ok d
  | _, [], acc, d, hq => by simp at hq
  | 0, x :: q, acc, d, hq => by simp [getConfigdict]
  | fuel + 1, x :: q, acc, d, hq => by
    rw [getConfigdict]
    split
    · simp
    · rename_i incs d' hr
      refine configdict_fails h fuel _ _ d ?_
      rcases List.mem_cons.1 hq with rfl | hq
      · rw [h] at hr; simp at hr
      · exact List.mem_append_left _ hq

/-- With a configuration file on the command line, cmake-annotate fails and does nothing, unless every single character of
the path is the path of a configuration file itself. -/
theorem config_option_fails (env : Env) {args : Args} {fs : FS} {path : Str} {c : Char} {e : Exc} (hp : args.configFile = some path)
    (hc : c ∈ path) (h : env.readConfig (env.expand [c]) = .error e) (hi : args.infiles ≠ []) :
    (main env args fs).1 = [] ∧ (main env args fs).2 ≠ .ok () := by
  have key : ∀ (args' : Args) (f : Str), args'.configFile = some path → (onefile env args' fs f).1 = [] ∧ (onefile env args' fs f).2 ≠ .ok () := by
    intro args' f hp'
    have : ∃ x, getConfig env (if f = S "-" then env.cwd else f) args'.configFile = .error x := by
      rw [hp']
      simp only [getConfig]
      cases hg : getConfigdict env.readConfig env.expand env.fuel (path.map fun c => [c]) [] with
      | ok d => exact absurd hg (configdict_fails h _ _ _ d (List.mem_map.2 ⟨c, hc, rfl⟩))
      | error x => cases x <;> exact ⟨_, rfl⟩
    obtain ⟨x, hx⟩ := this
    unfold onefile
    rw [hx]
    simp
  unfold main
  split
  · obtain ⟨f, rest, e2⟩ := List.exists_cons_of_ne_nil hi
    rw [e2, loop]
    have := key { args with outfile := if args.outfile = some (S "-") then none else args.outfile } f hp
    dsimp only
    split
    · rename_i x hx
      exact ⟨this.1, by simp⟩
    · rename_i hx
      exact absurd hx this.2
  · simp

/-! ## Examples -/

/-- A world in which everything is plain. -/
def demoEnv : Env where
  readConfig p := if p = S "annotate.py" then .ok ([], []) else .error .userError
  expand := id
  findConfig _ := none
  fuel := 10
  cwd := S "/"
  mkConfig _ := .ok []
  decode _ b := .ok (b.map fun x => Char.ofNat x.toNat)
  encode _ s := .ok (s.map fun c => UInt8.ofNat c.toNat)
  html _ s := .ok (S "<span>" ++ s ++ S "</span>")
  page _ := none
  stdin := []

theorem demo_piecewise : Piecewise demoEnv := by
  intro cfg a b x y h1 h2
  simp only [demoEnv, Except.ok.injEq] at h1 h2 ⊢
  rw [← h1, ← h2, List.map_append]

/-- A file system with one file. -/
def demoFs : FS := fun p => if p = S "a.cmake" then some ⟨[65, 66], 420⟩ else none

/-- The hypotheses of `document_written_partial` are met. -/
example : (main demoEnv { outfile := some (S "b.html"), infiles := [S "a.cmake"] } demoFs).2 = .ok () := by decide +kernel

/-- The output file then. -/
example : applyAll demoFs (main demoEnv { outfile := some (S "b.html"), infiles := [S "a.cmake"] } demoFs).1 (S "b.html") =
    some ⟨(S "<span>AB</span>").map fun c => UInt8.ofNat c.toNat, 420⟩ := by decide +kernel

/-- Two inputs, printed one after the other. -/
example : (main demoEnv { infiles := [S "a.cmake", S "a.cmake"] } demoFs).2 = .ok () ∧
    printed (main demoEnv { infiles := [S "a.cmake", S "a.cmake"] } demoFs).1 =
      (S "<span>AB</span><span>AB</span>").map fun c => UInt8.ofNat c.toNat := by decide +kernel

/-- The output on top of the input: the text is gone. -/
example : applyAll demoFs (main demoEnv { outfile := some (S "a.cmake"), infiles := [S "a.cmake"] } demoFs).1 (S "a.cmake") =
    some ⟨(S "<span></span>").map fun c => UInt8.ofNat c.toNat, 420⟩ := by decide +kernel

/-- The configuration file exists, and is not found. -/
example : (main demoEnv { configFile := some (S "annotate.py"), infiles := [S "a.cmake"] } demoFs).2 = .error .userError := by
  decide +kernel

/-- The same world with the model's parser. -/
def parserEnv : Env := { demoEnv with
  html := fun _ s =>
    match Lex.tokenize s with
    | .error _ => .error .other
    | .ok ts =>
      match Parse.parse Props.Parse.exampleCtx ts with
      | .error _ => .error .other
      | .ok tree => .ok (Render.getHtml tree) }

example : FromParser parserEnv Props.Parse.exampleCtx := by
  intro cfg text html h
  simp only [parserEnv] at h
  split at h
  · simp at h
  · rename_i ts ht
    split at h
    · simp at h
    · rename_i tree hp
      exact ⟨ts, tree, ht, hp, by injection h with h; exact h.symm⟩

/-- A listfile with one command. -/
def callFs : FS := fun p => if p = S "a.cmake" then some ⟨(S "a(b)\n").map fun c => UInt8.ofNat c.toNat, 420⟩ else none

/-- The hypotheses of `output_shows_input_partial` are met. -/
example : (main parserEnv { outfile := some (S "b.html"), infiles := [S "a.cmake"] } callFs).2 = .ok () := by decide +kernel

end Verif.Props.Annotate
