import Verif.Main
import Verif.Props.Config

/-!
# Properties C35-C39: the command line driver
-/

namespace Verif.Props.Main
open Verif Py Verif.Config Verif.Main
open Verif.Props.Config (DistinctNames consumeKnown_congr legacySections_congr consumeFields_names
  consumeFields_snd consumeFields_fst)

/-! ## Specification -/

/-- A system call that only reads. -/
def IsRead (op : Op) : Prop := ∃ p, op = .read p

/-- The complete versions of a file: what was there before, or the whole result of
formatting a complete version, with the same mode. -/
inductive Complete (env : Env) (orig : Option File) : Option File → Prop
  | old : Complete env orig orig
  | new (f : File) (cfg : Obj) (intext outtext : Str) (valid : Bool) (b : Bytes) :
      Complete env orig (some f) → env.decode cfg f.content = .ok intext →
      env.process cfg intext = .ok (outtext, valid) → env.encode cfg outtext = .ok b →
      Complete env orig (some ⟨b, f.mode⟩)

theorem Complete.trans {env : Env} {a b c : Option File} (h1 : Complete env a b)
    (h2 : Complete env b c) : Complete env a c := by
  induction h2 with
  | old => exact h1
  | new f cfg intext outtext valid b _ h3 h4 h5 ih => exact .new f cfg intext outtext valid b ih h3 h4 h5

/-! ## Helper lemmas -/

/-- The call changes no file but `t`. -/
def OnlyTouches (t : Str) (op : Op) : Prop := ∀ fs p, p ≠ t → op.apply fs p = fs p

theorem set_ne {fs : FS} {p q : Str} {f : Option File} (h : q ≠ p) : fs.set p f q = fs q := by
  simp [FS.set, h]

theorem set_eq {fs : FS} {p : Str} {f : Option File} : fs.set p f p = f := by simp [FS.set]

theorem touches_read (t p : Str) : OnlyTouches t (.read p) := fun _ _ _ => rfl
theorem touches_stdout (t : Str) (b : Bytes) : OnlyTouches t (.stdout b) := fun _ _ _ => rfl
theorem touches_open (t : Str) : OnlyTouches t (.openTrunc t) := fun _ _ h => set_ne h
theorem touches_append (t : Str) (b : Bytes) : OnlyTouches t (.append t b) := by
  intro fs p h
  simp only [Op.apply]
  cases fs t with
  | none => rfl
  | some f => exact set_ne h
theorem touches_copymode (s t : Str) : OnlyTouches t (.copymode s t) := by
  intro fs p h
  simp only [Op.apply]
  cases fs s with
  | none => rfl
  | some f =>
    cases fs t with
    | none => rfl
    | some g => exact set_ne h

theorem applyAll_touches {t : Str} {ops : List Op} (h : ∀ op ∈ ops, OnlyTouches t op) (fs : FS)
    {p : Str} (hp : p ≠ t) : applyAll fs ops p = fs p := by
  induction ops generalizing fs with
  | nil => rfl
  | cons op ops ih =>
    simp only [applyAll, List.foldl_cons] at ih ⊢
    rw [ih (fun o ho => h o (by simp [ho])), h op (by simp) fs p hp]

theorem applyAll_append (fs : FS) (a b : List Op) :
    applyAll fs (a ++ b) = applyAll (applyAll fs a) b := by simp [applyAll]

theorem apply_append_chunks (cs : List Bytes) (fs : FS) (p : Str) (f : File) (hf : fs p = some f) :
    applyAll fs (cs.map (Op.append p)) p = some { f with content := f.content ++ cs.flatten } := by
  induction cs generalizing fs f with
  | nil => simp [applyAll, hf]
  | cons c cs ih =>
    simp only [List.map_cons, applyAll, List.foldl_cons] at ih ⊢
    rw [ih _ { f with content := f.content ++ c }]
    · simp
    · simp [Op.apply, hf, set_eq]

theorem prefix_snoc {α : Type} {a : List α} {l : List α} {x : α} (h : a <+: l ++ [x]) :
    a <+: l ∨ a = l ++ [x] := by
  rcases List.prefix_concat_iff.1 h with h | h
  · exact Or.inr h
  · exact Or.inl h

theorem prefix_append_cases {α : Type} {a l m : List α} (h : a <+: l ++ m) :
    a <+: l ∨ ∃ m', m' <+: m ∧ a = l ++ m' := by
  obtain ⟨t, ht⟩ := h
  rcases List.append_eq_append_iff.1 ht with ⟨x, h1, h2⟩ | ⟨x, h1, h2⟩
  · exact Or.inl ⟨x, h1.symm⟩
  · exact Or.inr ⟨x, ⟨t, h2.symm⟩, h1⟩

theorem tempPath_ne (p : Str) : p ≠ tempPath p := by
  intro h
  have := congrArg List.length h
  simp [tempPath, S] at this

theorem mem_prefix {α : Type} {a l : List α} (h : a <+: l) {x : α} (hx : x ∈ a) : x ∈ l := by
  obtain ⟨t, rfl⟩ := h; simp [hx]

/-- The calls of an in-place write before the final rename only touch the temporary
file. -/
theorem writes_touch (env : Env) (tmp infile : Str) (b : Bytes) :
    ∀ op ∈ (Op.openTrunc tmp :: writeOps env tmp b ++ [.copymode infile tmp]), OnlyTouches tmp op := by
  intro op h
  simp only [List.cons_append, List.mem_cons, List.mem_append, List.not_mem_nil, or_false] at h
  rcases h with rfl | h | rfl
  · exact touches_open tmp
  · simp only [writeOps, List.mem_map] at h
    obtain ⟨c, _, rfl⟩ := h
    exact touches_append tmp c
  · exact touches_copymode infile tmp

/-- The finished in-place write leaves the complete new content with the old mode. -/
theorem write_complete (env : Env) (fs : FS) (infile : Str) (b : Bytes) (f : File)
    (hf : fs infile = some f) :
    applyAll fs (.openTrunc (tempPath infile) :: writeOps env (tempPath infile) b ++
      [.copymode infile (tempPath infile)] ++ [.rename (tempPath infile) infile]) infile =
      some ⟨b, f.mode⟩ := by
  have hne := tempPath_ne infile
  generalize tempPath infile = tmp at hne ⊢
  rw [applyAll_append, applyAll_append]
  have h1 : ∃ m, applyAll fs (.openTrunc tmp :: writeOps env tmp b) tmp = some ⟨b, m⟩ := by
    refine ⟨match fs tmp with | some f => f.mode | none => newMode, ?_⟩
    have := apply_append_chunks (env.chunks b) (Op.apply fs (.openTrunc tmp)) tmp
      ⟨[], match fs tmp with | some f => f.mode | none => newMode⟩ (by simp only [Op.apply, set_eq]; rfl)
    simp only [List.nil_append, env.chunks_flatten] at this
    exact this
  obtain ⟨m, h1⟩ := h1
  have h2 : applyAll fs (.openTrunc tmp :: writeOps env tmp b) infile = some f := by
    rw [applyAll_touches (fun op hop => writes_touch env tmp infile b op (by simp at hop ⊢; grind)) fs hne, hf]
  generalize applyAll fs (.openTrunc tmp :: writeOps env tmp b) = fs1 at h1 h2 ⊢
  simp only [applyAll, List.foldl_cons, List.foldl_nil, Op.apply, h1, h2]
  rw [set_ne hne, set_eq, set_eq]

theorem onefile_complete (env : Env) (args : Args) (fs : FS) (infile : Str) (argdict : Dict)
    (hin : args.inPlace = true) (hren : env.renameWorks = true) (hdash : infile ≠ S "-")
    (ops : List Op) (h : ops <+: (onefile env args fs infile argdict).ops) (p : Str) (hp : p ≠ tempPath infile) :
    Complete env (fs p) (applyAll fs ops p) ∧ (p ≠ infile → applyAll fs ops p = fs p) := by
  have triv : (∀ op ∈ (onefile env args fs infile argdict).ops, OnlyTouches (tempPath infile) op) →
      Complete env (fs p) (applyAll fs ops p) ∧ (p ≠ infile → applyAll fs ops p = fs p) := by
    intro ht
    have e : applyAll fs ops p = fs p :=
      applyAll_touches (fun op hop => ht op (mem_prefix h hop)) fs hp
    rw [e]
    exact ⟨.old, fun _ => rfl⟩
  simp only [onefile] at h triv
  cases hc : fileConfig env infile argdict with
  | error e => rw [hc] at triv; exact triv (by simp)
  | ok r =>
    obtain ⟨cfg, argdict'⟩ := r
    rw [hc] at h triv
    simp only at h triv
    split at h
    · rename_i hd; simp only [hd, if_true] at triv; exact triv (by simp)
    · rename_i hd
      simp only [hd, if_neg hdash] at triv
      cases hcont : (fs infile).map (·.content) with
      | none =>
        rw [hcont] at triv
        exact triv (by intro op hop; simp at hop; subst hop; exact touches_read _ _)
      | some b0 =>
        rw [hcont] at h triv
        simp only at h triv
        cases hdec : env.decode cfg b0 with
        | error e =>
          rw [hdec] at triv
          exact triv (by intro op hop; simp at hop; subst hop; exact touches_read _ _)
        | ok intext =>
          rw [hdec] at h triv
          simp only at h triv
          have triv' : (∀ op ∈ (handleText env args cfg (fs infile).isSome infile intext).1,
              OnlyTouches (tempPath infile) op) →
              Complete env (fs p) (applyAll fs ops p) ∧ (p ≠ infile → applyAll fs ops p = fs p) := by
            intro ht
            apply triv
            intro op hop
            simp only [Bool.false_eq_true, if_false, List.mem_cons] at hop
            rcases hop with rfl | hop
            · exact touches_read _ _
            · exact ht op hop
          clear triv
          simp only [handleText] at h triv'
          cases hproc : env.process cfg intext with
          | error e => rw [hproc] at triv'; exact triv' (by simp)
          | ok r =>
            obtain ⟨outtext, valid⟩ := r
            rw [hproc] at h triv'
            simp only at h triv'
            split at h
            · rename_i hv; simp only [hv, if_true] at triv'; exact triv' (by simp)
            · rename_i hv
              simp only [hv] at triv'
              split at h
              · rename_i hch
                simp only [hch, Bool.false_eq_true, if_false, if_true] at triv'
                apply triv'
                intro op hop
                split at hop <;> simp at hop
              · rename_i hch
                simp only [hch, Bool.false_eq_true, if_false] at triv'
                simp only [writeResult, hin, if_true] at h triv'
                split at h
                · rename_i he; simp only [he, if_true] at triv'; exact triv' (by simp)
                · rename_i he
                  simp only [he, if_false] at triv'
                  cases henc : env.encode cfg outtext with
                  | error e =>
                    rw [henc] at triv'
                    exact triv' (by intro op hop; simp at hop; subst hop; exact touches_open _)
                  | ok b =>
                    rw [henc] at h triv'
                    simp only at h triv'
                    cases hex : (fs infile).isSome with
                    | false =>
                      rw [hex] at triv'
                      simp only [Bool.false_eq_true, if_false] at triv'
                      apply triv'
                      intro op hop
                      exact writes_touch env _ infile b op (by simp at hop ⊢; grind)
                    | true =>
                      rw [hex] at h
                      simp only [if_true, moveOps, hren] at h
                      obtain ⟨f, hf⟩ := Option.isSome_iff_exists.1 hex
                      rw [← List.cons_append] at h
                      rcases prefix_snoc h with h' | h'
                      · have e : applyAll fs ops p = fs p := by
                          apply applyAll_touches _ fs hp
                          intro op hop
                          have := mem_prefix h' hop
                          rcases List.mem_cons.1 this with rfl | this
                          · exact touches_read _ _
                          · exact writes_touch env _ infile b op this
                        rw [e]
                        exact ⟨.old, fun _ => rfl⟩
                      · have e : applyAll fs ops = applyAll fs
                            ((.openTrunc (tempPath infile) :: writeOps env (tempPath infile) b ++
                              [.copymode infile (tempPath infile)]) ++
                              [.rename (tempPath infile) infile]) := by
                          rw [h']; simp [applyAll, Op.apply]
                        by_cases hpi : p = infile
                        · subst hpi
                          refine ⟨?_, fun hne => absurd rfl hne⟩
                          rw [e, write_complete env fs p b f hf, hf]
                          rw [hf] at hcont
                          simp only [Option.map_some, Option.some.injEq] at hcont
                          exact .new f cfg intext outtext valid b .old (by rw [hcont]; exact hdec)
                            hproc henc
                        · have e2 : applyAll fs ops p = fs p := by
                            rw [e, applyAll_append]
                            simp only [applyAll, List.foldl_cons, List.foldl_nil, Op.apply]
                            rw [set_ne hp, set_ne hpi]
                            exact applyAll_touches (writes_touch env _ infile b) fs hp
                          rw [e2]
                          exact ⟨.old, fun _ => rfl⟩

theorem loop_complete (env : Env) (args : Args) (hin : args.inPlace = true)
    (hren : env.renameWorks = true) (files : List Str) (hdash : S "-" ∉ files) (fs : FS)
    (argdict : Dict) (rc : Nat) (ops : List Op) (h : ops <+: (loop env args files fs argdict rc).ops)
    (p : Str) (hp : ∀ i ∈ files, p ≠ tempPath i) :
    Complete env (fs p) (applyAll fs ops p) ∧ (p ∉ files → applyAll fs ops p = fs p) := by
  induction files generalizing fs argdict rc ops with
  | nil =>
    have : ops = [] := by simpa [loop] using h
    subst this
    exact ⟨.old, fun _ => rfl⟩
  | cons f rest ih =>
    have hf : f ≠ S "-" := fun e => hdash (by simp [e])
    have one := fun ops h => onefile_complete env args fs f argdict hin hren hf ops h p (hp f (by simp))
    have step : ∀ rc', ops <+: (onefile env args fs f argdict).ops ++
          (loop env args rest (applyAll fs (onefile env args fs f argdict).ops)
            (onefile env args fs f argdict).argdict rc').ops →
        Complete env (fs p) (applyAll fs ops p) ∧ (p ∉ f :: rest → applyAll fs ops p = fs p) := by
      intro rc' h'
      rcases prefix_append_cases h' with h' | ⟨m, hm, rfl⟩
      · obtain ⟨a, b⟩ := one ops h'
        exact ⟨a, fun hn => b (fun e => hn (by simp [e]))⟩
      · obtain ⟨a, b⟩ := one _ (List.prefix_refl _)
        obtain ⟨c, d⟩ := ih (fun hm => hdash (by simp [hm])) _ _ _ m hm (fun i hi => hp i (by simp [hi]))
        rw [applyAll_append]
        refine ⟨a.trans c, fun hn => ?_⟩
        rw [d (fun hm => hn (by simp [hm])), b (fun e => hn (by simp [e]))]
    simp only [loop] at h
    split at h
    · exact step _ h
    · exact step _ h
    · obtain ⟨a, b⟩ := one ops h
      exact ⟨a, fun hn => b (fun e => hn (by simp [e]))⟩

/-! ## C36 -/

/-- **C36.**  Stop an in-place run after any number of system calls: every path other
than the temporary files `<input>.cmf-temp` holds a complete version — its original
content and mode, or the complete formatted text of a complete version with the
original mode — and paths that are not inputs are untouched.  (Assumes that renaming
within a directory works; see `move_fallback_torn`.) -/
theorem in_place_crash_safe (env : Env) (args : Args) (fs : FS) (argdict : Dict)
    (hin : args.inPlace = true) (hren : env.renameWorks = true) (hdash : S "-" ∉ args.infiles)
    (ops : List Op) (h : ops <+: (innerMain env args fs argdict).ops)
    (p : Str) (hp : ∀ i ∈ args.infiles, p ≠ tempPath i) :
    Complete env (fs p) (applyAll fs ops p) ∧ (p ∉ args.infiles → applyAll fs ops p = fs p) := by
  simp only [innerMain] at h
  split at h
  · refine loop_complete env _ ?_ hren args.infiles hdash fs argdict 0 ops h p hp
    exact hin
  · have : ops = [] := by simpa using h
    subst this
    exact ⟨.old, fun _ => rfl⟩

/-- An environment for examples: bytes are characters, formatting appends `!` unless the
text already ends in it. -/
def exampleEnv (ren : Bool) : Env where
  getConfig _ := .ok []
  cwd := S "/w"
  process _ t := .ok (if t.getLast? = some '!' then t else t ++ S "!", true)
  decode _ b := .ok (b.map (fun u => Char.ofNat u.toNat))
  encode _ t := .ok (t.map (fun c => UInt8.ofNat c.toNat))
  stdin := []
  chunks b := b.map (fun u => [u])
  chunks_flatten b := by induction b with
    | nil => rfl
    | cons a b ih => simpa using ih
  renameWorks := ren
  cls := []

def exampleFS : FS := fun p =>
  if p = S "a" then some ⟨[104, 105], 493⟩
  else if p = S "a.cmf-temp" then some ⟨[120], 420⟩
  else none

/-- The hypotheses of C36 are met by a run that does write, and the new content and the
old mode arrive. -/
example : (innerMain (exampleEnv true) { inPlace := true, infiles := [S "a"] } exampleFS []).ops =
      [.read (S "a"), .openTrunc (S "a.cmf-temp"), .append (S "a.cmf-temp") [104],
       .append (S "a.cmf-temp") [105], .append (S "a.cmf-temp") [33],
       .copymode (S "a") (S "a.cmf-temp"), .rename (S "a.cmf-temp") (S "a")] ∧
    applyAll exampleFS
      (innerMain (exampleEnv true) { inPlace := true, infiles := [S "a"] } exampleFS []).ops (S "a") =
      some ⟨[104, 105, 33], 493⟩ := by decide +kernel

/-- The exception in C36 is needed: a file that happens to be called `<input>.cmf-temp`
is destroyed. -/
theorem temp_file_destroyed :
    exampleFS (S "a.cmf-temp") = some ⟨[120], 420⟩ ∧
    applyAll exampleFS
      (innerMain (exampleEnv true) { inPlace := true, infiles := [S "a"] } exampleFS []).ops
      (S "a.cmf-temp") = none := by decide +kernel

/-- Where `os.rename` fails (the input is a mount point, say), `shutil.move` copies, and a
crash during the copy leaves a truncated file: C36 is false there. -/
theorem move_fallback_torn :
    ∃ ops, ops <+: (innerMain (exampleEnv false) { inPlace := true, infiles := [S "a"] } exampleFS []).ops ∧
      applyAll exampleFS ops (S "a") = some ⟨[104], 493⟩ := by
  refine ⟨((innerMain (exampleEnv false) { inPlace := true, infiles := [S "a"] } exampleFS []).ops).take 8,
    List.take_prefix _ _, ?_⟩
  decide +kernel

/-! ## C37 -/

theorem onefile_check (env : Env) (args : Args) (fs : FS) (f : Str) (argdict : Dict)
    (hc : args.check = true) : ∀ op ∈ (onefile env args fs f argdict).ops, IsRead op := by
  intro op hop
  simp only [onefile] at hop
  split at hop
  · simp at hop
  · split at hop
    · simp at hop
    · split at hop
      · simp at hop; exact ⟨f, hop⟩
      · split at hop
        · simp at hop; exact ⟨f, hop⟩
        · simp only [List.mem_cons] at hop
          rcases hop with h | hop
          · exact ⟨f, h⟩
          · simp only [handleText, hc, if_true] at hop
            split at hop
            · simp at hop
            · split at hop
              · simp at hop
              · split at hop <;> simp at hop

theorem loop_ops (env : Env) (args : Args) (files : List Str) (fs : FS) (argdict : Dict) (rc : Nat)
    (P : Op → Prop)
    (h : ∀ fs f argdict, f ∈ files → ∀ op ∈ (onefile env args fs f argdict).ops, P op) :
    ∀ op ∈ (loop env args files fs argdict rc).ops, P op := by
  induction files generalizing fs argdict rc with
  | nil => intro op hop; simp [loop] at hop
  | cons f rest ih =>
    intro op hop
    have ih' := fun fs a rc => ih fs a rc (fun fs f a hf => h fs f a (by simp [hf]))
    simp only [loop] at hop
    split at hop
    · rcases List.mem_append.1 hop with hop | hop
      · exact h _ _ _ (by simp) _ hop
      · exact ih' _ _ _ _ hop
    · rcases List.mem_append.1 hop with hop | hop
      · exact h _ _ _ (by simp) _ hop
      · exact ih' _ _ _ _ hop
    · exact h _ _ _ (by simp) _ hop

/-- **C37 (`--check` never writes).**  Neither to a file nor to standard output, whatever
other options are given. -/
theorem check_never_writes (env : Env) (args : Args) (fs : FS) (argdict : Dict)
    (hc : args.check = true) : ∀ op ∈ (innerMain env args fs argdict).ops, IsRead op := by
  intro op hop
  simp only [innerMain] at hop
  split at hop
  · refine loop_ops env _ _ fs argdict 0 IsRead ?_ op hop
    exact fun fs f a _ => onefile_check env _ fs f a hc
  · simp at hop

/-- **C37 (in place, nothing to do).**  If an in-place call for a file makes any system
call other than reading it, then the formatter returned a text different from the one
that was read. -/
theorem in_place_write_means_change (env : Env) (args : Args) (fs : FS) (f : Str) (argdict : Dict)
    (hin : args.inPlace = true) (op : Op) (hop : op ∈ (onefile env args fs f argdict).ops)
    (hw : ¬ IsRead op) :
    ∃ cfg rest bytes intext outtext valid, fileConfig env f argdict = .ok (cfg, rest) ∧
      (if f = S "-" then some env.stdin else (fs f).map (·.content)) = some bytes ∧
      env.decode cfg bytes = .ok intext ∧ env.process cfg intext = .ok (outtext, valid) ∧
      intext ≠ outtext := by
  simp only [onefile] at hop
  split at hop
  · simp at hop
  · rename_i cfg rest hcfg
    split at hop
    · simp at hop
    · split at hop
      · simp at hop; exact absurd ⟨f, hop⟩ hw
      · rename_i b hb
        split at hop
        · simp at hop; exact absurd ⟨f, hop⟩ hw
        · rename_i intext hdec
          simp only [List.mem_cons] at hop
          rcases hop with h | hop
          · exact absurd ⟨f, h⟩ hw
          · simp only [handleText] at hop
            split at hop
            · simp at hop
            · rename_i outtext valid hproc
              refine ⟨cfg, rest, b, intext, outtext, valid, hcfg, hb, hdec, hproc, ?_⟩
              intro e
              subst e
              split at hop
              · simp at hop
              · split at hop
                · simp at hop
                · simp [writeResult, hin] at hop

/-- The premises are met: the first run writes, the second finds nothing to do. -/
example : (innerMain (exampleEnv true) { inPlace := true, infiles := [S "a", S "a"] } exampleFS []).ops.length = 8
    ∧ ¬ IsRead (.openTrunc (S "a.cmf-temp")) := by
  refine ⟨by decide +kernel, ?_⟩
  rintro ⟨p, h⟩
  cases h

/-! ## C38 -/

/-- **C36/C37 (what in-place formatting leaves).**  For an existing file whose text is
formatted successfully, the file holds afterwards exactly the encoded result with the old
mode if the result differs from the text that was read, and what it held before if it does
not. -/
theorem in_place_result (env : Env) (args : Args) (fs : FS) (f : Str) (argdict rest : Dict)
    (cfg : Obj) (file : File) (intext outtext : Str) (valid : Bool) (b : Bytes)
    (hin : args.inPlace = true) (hch : args.check = false) (hren : env.renameWorks = true)
    (hdash : f ≠ S "-") (hfile : fs f = some file)
    (hc : fileConfig env f argdict = .ok (cfg, rest))
    (hdis : truthy (getOption cfg (S "format") (S "disable")) = false)
    (hdec : env.decode cfg file.content = .ok intext)
    (hproc : env.process cfg intext = .ok (outtext, valid))
    (hval : valid = true ∨ truthy (getOption cfg (S "format") (S "require_valid_layout")) = false)
    (henc : env.encode cfg outtext = .ok b) :
    applyAll fs (onefile env args fs f argdict).ops f =
      (if intext = outtext then some file else some ⟨b, file.mode⟩) ∧
    (onefile env args fs f argdict).outcome = .ok () := by
  have hv : (truthy (getOption cfg (S "format") (S "require_valid_layout")) && !valid) = false := by
    rcases hval with h | h <;> simp [h]
  simp only [onefile, hc, hdis, Bool.false_eq_true, if_false, if_neg hdash, hfile, Option.map_some, hdec,
    handleText, hproc, hv, hch, writeResult, hin, if_true, henc, Option.isSome_some, moveOps, hren]
  split
  · exact ⟨by simp [applyAll, Op.apply, hfile], rfl⟩
  · refine ⟨?_, rfl⟩
    have := write_complete env fs f b file hfile
    simpa [applyAll, Op.apply] using this

/-- Two files of the same length before and after: still written. -/
example : applyAll exampleFS (onefile
      { exampleEnv true with process := fun _ t => .ok (t.reverse, true), cls := configuration }
      { inPlace := true, infiles := [S "a"] } exampleFS (S "a") []).ops (S "a") =
      some ⟨[105, 104], 493⟩ := by decide +kernel

/-- **C38 (when a file fails).**  A file ends with a `FormatError` of the driver exactly if
it could be read and formatted, and its layout is invalid although a valid one is
required, or it differs from its formatted text under `--check`; such a file is only
read. -/
theorem format_error_iff (env : Env) (args : Args) (fs : FS) (f : Str) (argdict : Dict)
    (hproc : ∀ cfg t, env.process cfg t ≠ .error .formatError)
    (hcfg : ∀ p, env.getConfig p ≠ .error .formatError)
    (hdec : ∀ cfg b, env.decode cfg b ≠ .error .formatError)
    (henc : ∀ cfg b, env.encode cfg b ≠ .error .formatError) :
    (onefile env args fs f argdict).outcome = .error .formatError ↔
    ∃ cfg rest bytes intext outtext valid, fileConfig env f argdict = .ok (cfg, rest) ∧
      truthy (getOption cfg (S "format") (S "disable")) = false ∧
      (if f = S "-" then some env.stdin else (fs f).map (·.content)) = some bytes ∧
      env.decode cfg bytes = .ok intext ∧ env.process cfg intext = .ok (outtext, valid) ∧
      ((truthy (getOption cfg (S "format") (S "require_valid_layout")) = true ∧ valid = false) ∨
       (args.check = true ∧ intext ≠ outtext)) := by
  constructor
  · intro h
    simp only [onefile] at h
    split at h
    · rename_i e he
      exfalso
      simp only [Except.error.injEq] at h
      subst h
      simp only [fileConfig] at he
      split at he
      · rename_i e' he'; simp only [Except.error.injEq] at he; subst he; exact hcfg _ he'
      · split at he
        · simp at he
        · split at he <;> simp at he
    · rename_i cfg rest hc
      split at h
      · simp at h
      · rename_i hdis
        split at h
        · simp at h
        · rename_i b hb
          split at h
          · rename_i e he; simp only [Except.error.injEq] at h; subst h; exact absurd he (hdec _ _)
          · rename_i intext hd
            simp only [handleText] at h
            split at h
            · rename_i e he; simp only [Except.error.injEq] at h; subst h; exact absurd he (hproc _ _)
            · rename_i outtext valid hp
              refine ⟨cfg, rest, b, intext, outtext, valid, hc, by simpa using hdis, hb, hd, hp, ?_⟩
              split at h
              · rename_i hv; simp only [Bool.and_eq_true, Bool.not_eq_true'] at hv; exact Or.inl hv
              · split at h
                · rename_i hch
                  split at h
                  · rename_i hne; exact Or.inr ⟨hch, hne⟩
                  · simp at h
                · exfalso
                  simp only [writeResult] at h
                  split at h
                  · split at h
                    · simp at h
                    · split at h
                      · rename_i e he; simp only [Except.error.injEq] at h; subst h; exact henc _ _ he
                      · split at h <;> simp at h
                  · split at h
                    · split at h
                      · rename_i e he; simp only [Except.error.injEq] at h; subst h; exact henc _ _ he
                      · simp at h
                    · split at h
                      · rename_i e he; simp only [Except.error.injEq] at h; subst h; exact henc _ _ he
                      · simp at h
  · rintro ⟨cfg, rest, b, intext, outtext, valid, hc, hdis, hb, hd, hp, hor⟩
    simp only [onefile, hc, hdis, hb, hd, handleText, hp, Bool.false_eq_true, if_false]
    rcases hor with ⟨h1, h2⟩ | ⟨h1, h2⟩
    · simp [h1, h2]
    · simp only [h1, if_true, if_pos h2]
      split <;> rfl

/-- **C38 (a failing file is not written).**  A file that ends with a `FormatError` raised
by the driver has only been read. -/
theorem format_error_not_written (env : Env) (args : Args) (fs : FS) (f : Str) (argdict : Dict)
    (henc : ∀ cfg b, env.encode cfg b ≠ .error .formatError)
    (h : (onefile env args fs f argdict).outcome = .error .formatError) :
    ∀ op ∈ (onefile env args fs f argdict).ops, IsRead op := by
  intro op hop
  simp only [onefile] at h hop
  split at hop
  · simp at hop
  · rename_i cfg rest hc
    rw [hc] at h
    simp only at h
    split at hop
    · simp at hop
    · rename_i hdis
      rw [if_neg hdis] at h
      split at hop
      · simp at hop; exact ⟨f, hop⟩
      · rename_i b hb
        rw [hb] at h
        simp only at h
        split at hop
        · simp at hop; exact ⟨f, hop⟩
        · rename_i intext hd
          rw [hd] at h
          simp only [List.mem_cons] at h hop
          rcases hop with hop | hop
          · exact ⟨f, hop⟩
          · exfalso
            simp only [handleText] at h hop
            split at hop
            · simp at hop
            · rename_i outtext valid hp
              rw [hp] at h
              simp only at h
              split at hop
              · simp at hop
              · rename_i hv
                rw [if_neg hv] at h
                split at hop
                · split at hop <;> simp at hop
                · rename_i hch
                  rw [if_neg hch] at h
                  simp only [writeResult] at h
                  split at h
                  · split at h
                    · simp at h
                    · split at h
                      · rename_i e he; simp only [Except.error.injEq] at h; subst h; exact henc _ _ he
                      · split at h <;> simp at h
                  · split at h
                    · split at h
                      · rename_i e he; simp only [Except.error.injEq] at h; subst h; exact henc _ _ he
                      · simp at h
                    · split at h
                      · rename_i e he; simp only [Except.error.injEq] at h; subst h; exact henc _ _ he
                      · simp at h

theorem loop_ok {env : Env} {args : Args} {f : Str} {rest : List Str} {fs : FS} {argdict : Dict}
    {rc : Nat} {u : Unit} (h : (onefile env args fs f argdict).outcome = .ok u) :
    loop env args (f :: rest) fs argdict rc =
      ⟨(onefile env args fs f argdict).ops ++
        (loop env args rest (applyAll fs (onefile env args fs f argdict).ops)
          (onefile env args fs f argdict).argdict rc).ops,
       (f, .ok ()) :: (loop env args rest (applyAll fs (onefile env args fs f argdict).ops)
          (onefile env args fs f argdict).argdict rc).log,
       (loop env args rest (applyAll fs (onefile env args fs f argdict).ops)
          (onefile env args fs f argdict).argdict rc).result⟩ := by
  simp only [loop, h]

theorem loop_fmt {env : Env} {args : Args} {f : Str} {rest : List Str} {fs : FS} {argdict : Dict}
    {rc : Nat} (h : (onefile env args fs f argdict).outcome = .error .formatError) :
    loop env args (f :: rest) fs argdict rc =
      ⟨(onefile env args fs f argdict).ops ++
        (loop env args rest (applyAll fs (onefile env args fs f argdict).ops)
          (onefile env args fs f argdict).argdict 1).ops,
       (f, .error .formatError) :: (loop env args rest (applyAll fs (onefile env args fs f argdict).ops)
          (onefile env args fs f argdict).argdict 1).log,
       (loop env args rest (applyAll fs (onefile env args fs f argdict).ops)
          (onefile env args fs f argdict).argdict 1).result⟩ := by
  simp only [loop, h]

theorem loop_err {env : Env} {args : Args} {f : Str} {rest : List Str} {fs : FS} {argdict : Dict}
    {rc : Nat} {e : Exc} (h : (onefile env args fs f argdict).outcome = .error e)
    (he : e ≠ .formatError) :
    loop env args (f :: rest) fs argdict rc =
      ⟨(onefile env args fs f argdict).ops, [(f, .error e)], .error e⟩ := by
  simp only [loop, h]

theorem loop_log (env : Env) (args : Args) (files : List Str) (fs : FS) (argdict : Dict) (rc : Nat) :
    (loop env args files fs argdict rc).log.map (·.1) <+: files ∧
    ((∀ x ∈ (loop env args files fs argdict rc).log, x.2 = .ok () ∨ x.2 = .error .formatError) →
      (loop env args files fs argdict rc).log.map (·.1) = files ∧
      (loop env args files fs argdict rc).result =
        .ok (if ∀ x ∈ (loop env args files fs argdict rc).log, x.2 = .ok () then rc else 1)) ∧
    ((∃ x ∈ (loop env args files fs argdict rc).log, x.2 ≠ .ok () ∧ x.2 ≠ .error .formatError) →
      ∃ e, (loop env args files fs argdict rc).result = .error e) := by
  induction files generalizing fs argdict rc with
  | nil => simp [loop]
  | cons f rest ih =>
    cases ho : (onefile env args fs f argdict).outcome with
    | ok u =>
      rw [loop_ok ho]
      obtain ⟨h1, h2, h3⟩ := ih (applyAll fs (onefile env args fs f argdict).ops)
        (onefile env args fs f argdict).argdict rc
      refine ⟨?_, ?_, ?_⟩
      · simpa using h1
      · intro hall
        obtain ⟨h2a, h2b⟩ := h2 (fun x hx => hall x (by simp [hx]))
        refine ⟨by simp only [List.map_cons, h2a], ?_⟩
        rw [h2b]
        simp only [List.forall_mem_cons, true_and]
      · rintro ⟨x, hx, hx1, hx2⟩
        apply h3
        rcases List.mem_cons.1 hx with rfl | hx
        · simp at hx1
        · exact ⟨x, hx, hx1, hx2⟩
    | error e =>
     by_cases he : e = .formatError
     · subst he
       rw [loop_fmt ho]
       obtain ⟨h1, h2, h3⟩ := ih (applyAll fs (onefile env args fs f argdict).ops)
         (onefile env args fs f argdict).argdict 1
       refine ⟨?_, ?_, ?_⟩
       · simpa using h1
       · intro hall
         obtain ⟨h2a, h2b⟩ := h2 (fun x hx => hall x (by simp [hx]))
         refine ⟨by simp only [List.map_cons, h2a], ?_⟩
         rw [h2b]
         simp
       · rintro ⟨x, hx, hx1, hx2⟩
         apply h3
         rcases List.mem_cons.1 hx with rfl | hx
         · simp at hx2
         · exact ⟨x, hx, hx1, hx2⟩
     · rw [loop_err ho he]
       refine ⟨by simp, ?_, fun _ => ⟨e, rfl⟩⟩
       intro hall
       have := hall (f, .error e) (by simp)
       simp at this
       exact absurd this he

/-- Consistent arguments: `--dump` and `-o` exclude `-i`, an output file takes
one input, and standard input is the only input and is not combined with an output file. -/
structure Consistent (args : Args) : Prop where
  dump : args.dump = true → args.inPlace = false
  outfile : args.outfile ≠ none → args.inPlace = false ∧ args.infiles.length = 1
  stdin : S "-" ∈ args.infiles →
    args.infiles = [S "-"] ∧ (args.outfile = none ∨ args.outfile = some (S "-"))

theorem argsOk_iff (args : Args) : argsOk args = true ↔ Consistent args := by
  have hlen : ∀ l : List Str, S "-" ∈ l → (l.length = 1 ↔ l = [S "-"]) := by
    intro l hl
    constructor
    · intro h
      obtain ⟨x, rfl⟩ := List.length_eq_one_iff.1 h
      simp at hl; rw [hl]
    · rintro rfl; rfl
  have h1 := hlen args.infiles
  constructor
  · intro h
    simp only [argsOk, Bool.and_eq_true, Bool.or_eq_true, Bool.not_eq_true', Bool.and_eq_false_iff,
      decide_eq_false_iff_not, beq_iff_eq, Option.isNone_iff_eq_none] at h
    obtain ⟨⟨⟨ha, hb⟩, hc⟩, hd⟩ := h
    refine ⟨by grind, by grind, by grind⟩
  · rintro ⟨ha, hb, hc⟩
    simp only [argsOk, Bool.and_eq_true, Bool.or_eq_true, Bool.not_eq_true', Bool.and_eq_false_iff,
      decide_eq_false_iff_not, beq_iff_eq, Option.isNone_iff_eq_none]
    grind

/-- Inconsistent arguments: nothing is read or written. -/
theorem inconsistent_noop (env : Env) (args : Args) (fs : FS) (argdict : Dict)
    (h : ¬ Consistent args) :
    (innerMain env args fs argdict).ops = [] ∧
    (innerMain env args fs argdict).result = .error .assertionError := by
  rw [← argsOk_iff] at h
  simp [innerMain, h]

example : ¬ Consistent { inPlace := true, outfile := some (S "x"), infiles := [S "a"] } ∧
    Consistent { inPlace := true, infiles := [S "a", S "b"] } :=
  ⟨fun h => by simpa using h.outfile, ⟨by simp, by simp, by decide⟩⟩

/-- **C38 (exit status).**  The exit status is 0 exactly if the arguments are consistent,
every input was attempted and every one succeeded. -/
theorem exit_zero_iff (env : Env) (args : Args) (fs : FS) (argdict : Dict) :
    exitStatus (innerMain env args fs argdict) = 0 ↔
      Consistent args ∧
      (innerMain env args fs argdict).log.map (·.1) = args.infiles ∧
      ∀ x ∈ (innerMain env args fs argdict).log, x.2 = .ok () := by
  rw [← argsOk_iff]
  simp only [innerMain]
  split
  · rename_i hok
    generalize ({ args with outfile := if args.outfile = some (S "-") then none else args.outfile } :
      Args) = args'
    obtain ⟨h1, h2, h3⟩ := loop_log env args' args.infiles fs argdict 0
    generalize loop env args' args.infiles fs argdict 0 = r at h1 h2 h3 ⊢
    constructor
    · intro h
      by_cases hall : ∀ x ∈ r.log, x.2 = .ok () ∨ x.2 = .error .formatError
      · obtain ⟨h2a, h2b⟩ := h2 hall
        refine ⟨hok, h2a, ?_⟩
        simp only [exitStatus, h2b] at h
        split at h
        · assumption
        · simp at h
      · exfalso
        have : ∃ x ∈ r.log, x.2 ≠ .ok () ∧ x.2 ≠ .error .formatError := by grind
        obtain ⟨e, he⟩ := h3 this
        simp [exitStatus, he] at h
    · rintro ⟨_, _, hall⟩
      obtain ⟨h2a, h2b⟩ := h2 (fun x hx => Or.inl (hall x hx))
      simp only [exitStatus, h2b]
      rw [if_pos hall]
  · rename_i hok
    simp [exitStatus, hok]

/-- **C38 (a failing file does not stop the others).**  If every attempted file succeeded
or failed with a `FormatError`, all inputs were attempted. -/
theorem format_error_continues (env : Env) (args : Args) (fs : FS) (argdict : Dict)
    (hok : Consistent args)
    (h : ∀ x ∈ (innerMain env args fs argdict).log, x.2 = .ok () ∨ x.2 = .error .formatError) :
    (innerMain env args fs argdict).log.map (·.1) = args.infiles := by
  rw [← argsOk_iff] at hok
  simp only [innerMain, hok, if_true] at h ⊢
  exact ((loop_log env _ args.infiles fs argdict 0).2.1 h).1

/-- Two files, the first fails the check, the second passes. -/
example : (innerMain (exampleEnv true) { check := true, infiles := [S "a", S "b"] }
      (fun p => if p = S "b" then some ⟨[33], 420⟩ else exampleFS p) []).log =
      [(S "a", .error .formatError), (S "b", .ok ())] ∧
    exitStatus (innerMain (exampleEnv true) { check := true, infiles := [S "a", S "b"] }
      (fun p => if p = S "b" then some ⟨[33], 420⟩ else exampleFS p) []) = 1 := by
  decide +kernel

/-! ## C39 -/

/-- **C39.**  With `disable` in force nothing is read, written or printed and the file
counts as a success. -/
theorem disabled_noop (env : Env) (args : Args) (fs : FS) (f : Str) (argdict : Dict) (cfg : Obj)
    (rest : Dict) (h : fileConfig env f argdict = .ok (cfg, rest))
    (hd : truthy (getOption cfg (S "format") (S "disable")) = true) :
    (onefile env args fs f argdict).ops = [] ∧ (onefile env args fs f argdict).outcome = .ok () := by
  simp [onefile, h, hd]

/-- The same run with and without `disable`. -/
example :
    let env : Env := { exampleEnv true with cls := configuration }
    let args : Args := { inPlace := true, infiles := [S "a"] }
    (onefile env args exampleFS (S "a") [(S "disable", .bool true)]).ops = [] ∧
    (onefile env args exampleFS (S "a") []).ops.length = 7 := by decide +kernel

/-! ## C35 -/

theorem consumeKnown_rest {o o' : Obj} {kw r : Dict} (h : consumeKnown o kw = .ok (o', r)) (k : Str)
    (hk : k ∈ o.map (·.name)) : lookup k r = none := by
  induction o generalizing kw o' r with
  | nil => simp at hk
  | cons s ss ih =>
    have mono : ∀ (o : Obj) (kw : Dict) (o' : Obj) (r : Dict), consumeKnown o kw = .ok (o', r) →
        lookup k kw = none → lookup k r = none := by
      intro o
      induction o with
      | nil => intro kw o' r h hn; simp only [consumeKnown, Except.ok.injEq, Prod.mk.injEq] at h; rw [← h.2]; exact hn
      | cons t ts iht =>
        intro kw o' r h hn
        simp only [consumeKnown] at h
        split at h
        · split at h
          · simp at h
          · rename_i hh
            simp only [Except.ok.injEq, Prod.mk.injEq] at h
            rw [← h.2]; exact iht _ _ _ hh hn
        · split at h
          · simp at h
          · split at h
            · simp at h
            · rename_i hh
              simp only [Except.ok.injEq, Prod.mk.injEq] at h
              rw [← h.2]
              refine iht _ _ _ hh ?_
              by_cases e : t.name = k
              · subst e; exact lookup_delKey_self _ _
              · rw [lookup_delKey_ne e]; exact hn
    simp only [consumeKnown] at h
    split at h
    · rename_i hl
      split at h
      · simp at h
      · rename_i hh
        simp only [Except.ok.injEq, Prod.mk.injEq] at h
        rw [← h.2]
        rcases List.mem_cons.1 hk with e | hk
        · subst e; exact mono _ _ _ _ hh hl
        · exact ih hh hk
    · split at h
      · simp at h
      · split at h
        · simp at h
        · rename_i hh
          simp only [Except.ok.injEq, Prod.mk.injEq] at h
          rw [← h.2]
          rcases List.mem_cons.1 hk with e | hk
          · subst e; exact mono _ _ _ _ hh (lookup_delKey_self _ _)
          · exact ih hh hk

theorem legacySections_rest (o : Obj) (kw : Dict) (k : Str) :
    lookup k (legacySections o kw).2 =
      if k ∈ o.flatMap (fun s => s.fields.map (·.name)) then none else lookup k kw := by
  induction o generalizing kw with
  | nil => simp [legacySections]
  | cons s ss ih =>
    simp only [legacySections, ih, consumeFields_snd, List.flatMap_cons, List.mem_append]
    by_cases h1 : k ∈ s.fields.map (·.name) <;>
      by_cases h2 : k ∈ ss.flatMap (fun s => s.fields.map (·.name)) <;> simp [h1, h2]

theorem consumeKnown_names {o o' : Obj} {kw r : Dict} (h : consumeKnown o kw = .ok (o', r)) :
    o'.map (·.name) = o.map (·.name) ∧
    o'.map (fun s => s.fields.map (·.name)) = o.map (fun s => s.fields.map (·.name)) := by
  rcases consumeKnown_congr o kw kw (fun _ _ => rfl) with ⟨e, h1, _⟩ | ⟨o1, r1, _, h1, _, h3, h4, _⟩
  · rw [h] at h1; simp at h1
  · rw [h] at h1
    simp only [Except.ok.injEq, Prod.mk.injEq] at h1
    obtain ⟨rfl, _⟩ := h1
    exact ⟨h3, h4⟩

theorem legacySections_names (o : Obj) (kw : Dict) :
    (legacySections o kw).1.map (·.name) = o.map (·.name) ∧
    (legacySections o kw).1.map (fun s => s.fields.map (·.name)) =
      o.map (fun s => s.fields.map (·.name)) := by
  induction o generalizing kw with
  | nil => simp [legacySections]
  | cons s ss ih =>
    obtain ⟨a, b⟩ := ih (consumeFields s.fields kw).2
    simp only [legacySections, List.map_cons, a, b, consumeFields_names]
    exact ⟨trivial, trivial⟩

theorem construct_names {cls o : Obj} {kw : Dict} (h : construct cls kw = .ok o) :
    o.map (·.name) = cls.map (·.name) ∧
    o.map (fun s => s.fields.map (·.name)) = cls.map (fun s => s.fields.map (·.name)) := by
  simp only [construct] at h
  split at h
  · simp at h
  · rename_i o1 r1 h1
    split at h
    · simp at h
    · rename_i o2 r2 h2
      simp only [Except.ok.injEq] at h
      subst h
      simp only [legacyConsume] at h2
      split at h2
      · simp at h2
      · rename_i o3 r3 h3
        simp only [Except.ok.injEq] at h2
        have e : o2 = (legacySections o3 r3).1 := by rw [h2]
        subst e
        obtain ⟨a, b⟩ := consumeKnown_names h1
        obtain ⟨c, d⟩ := consumeKnown_names h3
        obtain ⟨x, y⟩ := legacySections_names o3 r3
        refine ⟨?_, ?_⟩
        · rw [x, c, a]; simp [fresh]
        · rw [y, d, b]; simp [fresh, freshFields]

theorem flatMap_names (o o' : Obj)
    (h : o.map (fun s => s.fields.map (·.name)) = o'.map (fun s => s.fields.map (·.name))) :
    o.flatMap (fun s => s.fields.map (·.name)) = o'.flatMap (fun s => s.fields.map (·.name)) := by
  rw [List.flatMap_def, List.flatMap_def, h]

theorem legacyConsume_rest {cfg cfg' : Obj} {kw rest : Dict}
    (h : legacyConsume cfg kw = .ok (cfg', rest)) (k : Str)
    (hk : k ∈ cfg.map (·.name) ∨ k ∈ cfg.flatMap (fun s => s.fields.map (·.name))) :
    lookup k rest = none := by
  simp only [legacyConsume] at h
  split at h
  · simp at h
  · rename_i o1 r1 h1
    simp only [Except.ok.injEq] at h
    have e : rest = (legacySections o1 r1).2 := by rw [h]
    rw [e, legacySections_rest]
    split
    · rfl
    · rename_i hn
      rcases hk with hk | hk
      · exact consumeKnown_rest h1 k hk
      · rw [flatMap_names o1 cfg (consumeKnown_names h1).2] at hn
        exact absurd hk hn

theorem legacyConsume_unknown (cfg : Obj) (kw : Dict)
    (h : ∀ k, k ∈ cfg.map (·.name) ∨ k ∈ cfg.flatMap (fun s => s.fields.map (·.name)) →
      lookup k kw = none) :
    (legacyConsume cfg kw).map (·.1) = (legacyConsume cfg []).map (·.1) := by
  simp only [legacyConsume]
  rcases consumeKnown_congr cfg kw [] (fun k hk => by rw [h k (Or.inl hk)]; rfl) with
    ⟨e, h1, h2⟩ | ⟨o1, r1, r1', h1, h2, h3, h4, h5⟩
  · rw [h1, h2]
  · rw [h1, h2]
    simp only [Except.map]
    congr 1
    apply legacySections_congr
    intro s hs k hk
    apply h5
    rw [h k]
    · rfl
    · right
      rw [← flatMap_names o1 cfg h4]
      exact List.mem_flatMap.2 ⟨s, hs, hk⟩

/-- **C35 is false of the code (general form).**  Whatever options are on the command
line, once one file's configuration has been built every later file gets the
configuration of its configuration files alone, as if no option had been given. -/
theorem cli_dropped_for_later_files (env : Env) (f1 f2 : Str) (argdict rest : Dict) (cfg : Obj)
    (h : fileConfig env f1 argdict = .ok (cfg, rest)) :
    (fileConfig env f2 rest).map (·.1) = (fileConfig env f2 []).map (·.1) := by
  simp only [fileConfig] at h
  split at h
  · simp at h
  · split at h
    · simp at h
    · rename_i cfg0 hcfg0
      split at h
      · simp at h
      · rename_i r hr
        simp only [Except.ok.injEq] at h
        subst h
        obtain ⟨n1, n2⟩ := construct_names hcfg0
        simp only [fileConfig]
        cases env.getConfig (if f2 = S "-" then env.cwd else f2) with
        | error e => rfl
        | ok d =>
          simp only
          cases hc : construct env.cls d with
          | error e => rfl
          | ok cfg2 =>
            simp only
            obtain ⟨m1, m2⟩ := construct_names hc
            have := legacyConsume_unknown cfg2 rest (by
              intro k hk
              apply legacyConsume_rest hr k
              rw [n1, flatMap_names _ _ n2, ← m1, ← flatMap_names _ _ m2]
              exact hk)
            cases h1 : legacyConsume cfg2 rest with
            | error e =>
              cases h2 : legacyConsume cfg2 [] with
              | error e' => rfl
              | ok r' => rw [h1, h2] at this; simp [Except.map] at this
            | ok r =>
              cases h2 : legacyConsume cfg2 [] with
              | error e' => rw [h1, h2] at this; simp [Except.map] at this
              | ok r' =>
                rw [h1, h2] at this
                simpa [Except.map] using this

/-- An environment whose formatter prints whether the line width in force is 100. -/
def widthEnv : Env :=
  { exampleEnv true with
    cls := configuration
    process := fun cfg _ => .ok (match getOption cfg (S "format") (S "line_width") with
      | some (.int n) => if n = 100 then S "A" else if n = 80 then S "B" else S "?"
      | _ => S "?", true) }

/-- **C35 is false of the code (witness).**  `--line-width 100` with two inputs: the
second is formatted with the default 80. -/
theorem cli_second_file_witness :
    (innerMain widthEnv { infiles := [S "a", S "a"] } exampleFS [(S "line_width", .int 100)]).ops =
      [.read (S "a"), .stdout [65], .read (S "a"), .stdout [66]] := by
  decide +kernel

/-- The class names no option in two sections and no section like an option. -/
def Unambiguous (o : Obj) : Prop :=
  (o.map (·.name) ++ o.flatMap (fun s => s.fields.map (·.name))).Nodup

theorem getOption_legacySections (o : Obj) (kw : Dict) (s : Section) (f : Field) (v : Val)
    (hs : s ∈ o) (hf : f ∈ s.fields) (hn : (o.map (·.name)).Nodup)
    (hu : (o.flatMap (fun s => s.fields.map (·.name))).Nodup) (hv : lookup f.name kw = some v) :
    getOption (legacySections o kw).1 s.name f.name = some v := by
  induction o generalizing kw with
  | nil => simp at hs
  | cons t ts ih =>
    simp only [List.map_cons, List.nodup_cons] at hn
    simp only [List.flatMap_cons, List.nodup_append] at hu
    rcases List.mem_cons.1 hs with e | hs'
    · subst e
      simp only [legacySections, getOption, List.find?_cons, decide_true]
      rw [consumeFields_fst _ _ hu.1]
      clear ih hs
      have hnd := hu.1
      generalize s.fields = fs at hf hnd
      have : (fs.map (fun f => match lookup f.name kw with
          | some v => { f with override := some v } | none => f)).find? (fun g => decide (g.name = f.name)) =
          some { f with override := some v } := by
        induction fs with
        | nil => simp at hf
        | cons g gs ihg =>
          simp only [List.map_cons, List.nodup_cons] at hnd
          rcases List.mem_cons.1 hf with e | hf'
          · subst e
            simp [hv]
          · have hne : g.name ≠ f.name := fun e => hnd.1 (e ▸ List.mem_map_of_mem hf')
            have hgn : ∀ w : Option Val, (match w with
              | some v => { g with override := some v } | none => g : Field).name = g.name := by
              intro w; cases w <;> rfl
            simp only [List.map_cons, List.find?_cons, hgn, hne, decide_false]
            exact ihg hf' hnd.2
      erw [this]
      simp [Field.value]
    · have hne : t.name ≠ s.name := fun e => hn.1 (e ▸ List.mem_map_of_mem hs')
      have hnot : f.name ∉ t.fields.map (·.name) := by
        intro hm
        exact hu.2.2 _ hm _ (List.mem_flatMap.2 ⟨s, hs', List.mem_map_of_mem hf⟩) rfl
      have := ih (consumeFields t.fields kw).2 hs' hn.2 hu.2.1 (by
        rw [consumeFields_snd, if_neg hnot]; exact hv)
      simp only [legacySections, getOption, List.find?_cons, hne, decide_false] at this ⊢
      exact this

/-- **C35, the part that holds.**  An option given on the command line is in force for
the first input, over its configuration files.  Missing: the same for the other inputs,
which is false. -/
theorem cli_first_file_partial (env : Env) (f : Str) (argdict rest : Dict) (cfg : Obj)
    (hcls : Unambiguous env.cls)
    (hsec : ∀ s ∈ env.cls, lookup s.name argdict = none)
    (h : fileConfig env f argdict = .ok (cfg, rest))
    (s : Section) (hs : s ∈ env.cls) (fd : Field) (hf : fd ∈ s.fields) (v : Val)
    (hv : lookup fd.name argdict = some v) :
    getOption cfg s.name fd.name = some v := by
  simp only [fileConfig] at h
  split at h
  · simp at h
  · split at h
    · simp at h
    · rename_i cfg0 hcfg0
      split at h
      · simp at h
      · rename_i r hr
        simp only [Except.ok.injEq] at h
        subst h
        obtain ⟨n1, n2⟩ := construct_names hcfg0
        have hck : ∀ (o : Obj), (∀ s ∈ o, lookup s.name argdict = none) →
            consumeKnown o argdict = .ok (o, argdict) := by
          intro o
          induction o with
          | nil => intro _; rfl
          | cons t ts ih =>
            intro ho
            simp only [consumeKnown, ho t (by simp)]
            rw [ih (fun s hs => ho s (by simp [hs]))]
        have hsec0 : ∀ s ∈ cfg0, lookup s.name argdict = none := by
          intro s hs
          have : s.name ∈ env.cls.map (·.name) := n1 ▸ List.mem_map_of_mem hs
          obtain ⟨t, ht, e⟩ := List.mem_map.1 this
          rw [← e]; exact hsec t ht
        simp only [legacyConsume, hck cfg0 hsec0, Except.ok.injEq] at hr
        have e : cfg = (legacySections cfg0 argdict).1 := by rw [hr]
        subst e
        simp only [Unambiguous, List.nodup_append] at hcls
        -- the section and field of the same names in the constructed object
        obtain ⟨i, hi, hsi⟩ := List.getElem_of_mem hs
        have hl : cfg0.length = env.cls.length := by simpa using congrArg List.length n1
        have hi0 : i < cfg0.length := by omega
        have hname : (cfg0[i]).name = s.name := by
          have := congrArg (fun l => l[i]?) n1
          simp [hi0, hi, hsi] at this
          exact this
        have hfields : (cfg0[i]).fields.map (·.name) = s.fields.map (·.name) := by
          have := congrArg (fun l => l[i]?) n2
          simp [hi0, hi, hsi] at this
          exact this
        have hfm : fd.name ∈ (cfg0[i]).fields.map (·.name) := by
          rw [hfields]; exact List.mem_map_of_mem hf
        obtain ⟨g, hg, hgn⟩ := List.mem_map.1 hfm
        rw [← hname, ← hgn]
        apply getOption_legacySections cfg0 argdict cfg0[i] g v (List.getElem_mem hi0) hg
        · rw [n1]; exact hcls.1
        · rw [flatMap_names _ _ n2]; exact hcls.2.1
        · rw [hgn]; exact hv

example : Unambiguous configuration := Verif.Props.Config.configuration_unambiguous

end Verif.Props.Main
