import Verif.GenMain
import Verif.Props.Gen
import Verif.Props.Main

/-!
# What cmake-genparsers writes for its files (C95)
-/

namespace Verif.Props.GenMain
open Verif Py Verif.Gen
open Verif.Main (Bytes File FS Op applyAll)
open Verif.Props.Gen (generate Generates ctx0 words)
open Verif.Props.LintParams (definitions)
open Verif.Props.LintTree (commands)

/-! ## Specification -/

/-- The path of the output; `none` for standard output. -/
def target (args : MainArgs) : Option Str := if args.outfile = some (S "-") then none else args.outfile

/-- The text of an input, if it can be opened and decoded. -/
def textOf (env : MainEnv) (fs : FS) (path : Str) : Option Str :=
  (if path = S "-" then some env.stdin else (fs path).map (·.content)).bind env.decode

/-- What is in a table that puts together the tables of several files: for every name the declaration of
the last file that has one; the names are in the order in which they are first declared. -/
structure Merged (tables : List Table) (m : Table) : Prop where
  last : ∀ name, m.lookup name = tables.reverse.findSome? fun t => t.lookup name
  order : m.map (·.1) = (tables.flatMap fun t => t.map (·.1)).eraseDups

/-- What goes to standard output. -/
def printed : List Op → Bytes
  | [] => []
  | .stdout b :: ops => b ++ printed ops
  | _ :: ops => printed ops

/-- Two lists whose members stand in a relation, one by one. -/
inductive Each {α β : Type} (R : α → β → Prop) : List α → List β → Prop
  | nil : Each R [] []
  | cons {a : α} {b : β} {l : List α} {m : List β} : R a b → Each R l m → Each R (a :: l) (b :: m)

/-- The file has this table. -/
def Declares (env : MainEnv) (fs : FS) (path : Str) (table : Table) : Prop :=
  ∃ text, textOf env fs path = some text ∧ generate env.ctx env.fuel text = some table

/-! ## Tables -/

theorem update_lookup (name : Str) : ∀ (t out : Table), (t.map (·.1)).Nodup →
    (update out t).lookup name = (t.lookup name).or (out.lookup name)
  | [], out, _ => by simp [update]
  | p :: t, out, hn => by
    obtain ⟨k, v⟩ := p
    rw [List.map_cons, List.nodup_cons] at hn
    have ih := update_lookup name t (Parse.setKey k v out) hn.2
    rw [show update out ((k, v) :: t) = update (Parse.setKey k v out) t from rfl, ih, Parse.setKey_lookup, List.lookup_cons]
    by_cases e : name = k
    · subst e
      have : t.lookup name = none := by
        rw [List.lookup_eq_none_iff]
        intro p hp
        simp only [bne_iff_ne, ne_eq]
        intro e'
        exact hn.1 (List.mem_map.2 ⟨p, hp, e'.symm⟩)
      simp [this]
    · have : (name == k) = false := by simpa using e
      simp [this, e]

theorem update_keys : ∀ (t out : Table), (update out t).map (·.1) = (t.map (·.1)).foldl (fun ks k => if k ∈ ks then ks else ks ++ [k]) (out.map (·.1))
  | [], out => rfl
  | p :: t, out => by
    rw [show update out (p :: t) = update (Parse.setKey p.1 p.2 out) t from rfl, update_keys t, Gen.setKey_keys]
    rfl

theorem eraseDups_step (A : List Str) (k : Str) : (A ++ [k]).eraseDups = if k ∈ A.eraseDups then A.eraseDups else A.eraseDups ++ [k] := by
  rw [List.eraseDups_append]
  by_cases h : k ∈ A
  · rw [if_pos (List.mem_eraseDups.2 h)]
    simp [List.removeAll, h]
  · rw [if_neg (fun e => h (List.mem_eraseDups.1 e))]
    simp [List.removeAll, h, List.eraseDups_cons]

theorem foldl_keys : ∀ (ks A : List Str),
    ks.foldl (fun ks k => if k ∈ ks then ks else ks ++ [k]) A.eraseDups = (A ++ ks).eraseDups
  | [], A => by simp
  | k :: ks, A => by
    rw [List.foldl_cons, ← eraseDups_step, foldl_keys ks, List.append_assoc]
    rfl

theorem merged_nil : Merged [] [] := ⟨fun _ => rfl, rfl⟩

theorem merged_update {tables : List Table} {m t : Table} (h : Merged tables m) (hn : (t.map (·.1)).Nodup) :
    Merged (tables ++ [t]) (update m t) where
  last name := by
    rw [update_lookup name t m hn, h.last, List.reverse_append]
    simp only [List.reverse_cons, List.reverse_nil, List.nil_append, List.cons_append, List.findSome?_cons]
    cases t.lookup name <;> rfl
  order := by
    rw [update_keys, h.order, foldl_keys, List.flatMap_append]
    simp

/-- Putting in the same table twice changes nothing. -/
theorem setKey_same {k : Str} {v : Entry} : ∀ {l : Table}, l.lookup k = some v → Parse.setKey k v l = l
  | [], h => by simp at h
  | (k', v') :: l, h => by
    rw [List.lookup_cons] at h
    by_cases e : k' = k
    · subst e
      simp only [beq_self_eq_true, Option.some.injEq] at h
      simp [Parse.setKey, h]
    · have : (k == k') = false := by simpa using Ne.symm e
      simp only [this] at h
      simp only [Parse.setKey, e, if_false, setKey_same h]

theorem update_same : ∀ (t m : Table), (∀ p ∈ t, m.lookup p.1 = some p.2) → update m t = m
  | [], _, _ => rfl
  | p :: t, m, h => by
    rw [show update m (p :: t) = update (Parse.setKey p.1 p.2 m) t from rfl, setKey_same (h p (by simp))]
    exact update_same t m fun q hq => h q (List.mem_cons_of_mem _ hq)

theorem update_twice (t m : Table) (hn : (t.map (·.1)).Nodup) : update (update m t) t = update m t := by
  refine update_same t _ fun p hp => ?_
  rw [update_lookup _ _ _ hn, Props.Gen.lookup_nodup hn (by exact hp)]
  rfl

/-! ## One file -/

theorem tableFor_ok {env : MainEnv} {text : Str} {table : Table} :
    tableFor env text = .ok table ↔ generate env.ctx env.fuel text = some table := by
  unfold tableFor generate
  rw [Props.Parse.tokenize_toks]
  simp only
  cases Parse.parse env.ctx (Props.Lex.toks text) with
  | error e => simp
  | ok tree =>
    simp only
    cases processTree env.fuel tree with
    | error e => cases e <;> simp [Except.toOption]
    | ok t => simp [Except.toOption]

theorem generate_nodup {ctx : Parse.Ctx} {fuel : Nat} {text : Str} {table : Table} (h : generate ctx fuel text = some table) :
    (table.map (·.1)).Nodup := by
  obtain ⟨tree, fuel, _, ht⟩ := Props.Gen.generate_generates h
  exact (Gen.tableOf_spec fuel (defnsOf tree) [] table ht (by simp)).1

/-- A round of the loop reads at most its file. -/
theorem oneFile_reads (env : MainEnv) (fs : FS) (st : Loop) (p : Str) : ∀ op ∈ (oneFile env fs st p).1, op = .read p := by
  unfold oneFile
  cases source env fs p with
  | none => simp
  | some b =>
    cases h : (env.decode b).or st.text with
    | none => simp [h]
    | some t =>
      simp only [h]
      cases tableFor env t <;> simp

theorem files_reads (env : MainEnv) (fs : FS) : ∀ (ps : List Str) (st : Loop), ∀ op ∈ (files env fs ps st).1, ∃ p ∈ ps, op = .read p
  | [], _ => by simp [files]
  | p :: ps, st => by
    intro op hop
    unfold files at hop
    cases e : (oneFile env fs st p).2 with
    | error x =>
      simp only [e] at hop
      exact ⟨p, by simp, oneFile_reads env fs st p op hop⟩
    | ok st' =>
      simp only [e, List.mem_append] at hop
      rcases hop with hop | hop
      · exact ⟨p, by simp, oneFile_reads env fs st p op hop⟩
      · obtain ⟨q, hq, e'⟩ := files_reads env fs ps st' op hop
        exact ⟨q, List.mem_cons_of_mem _ hq, e'⟩

theorem oneFile_declares {env : MainEnv} {fs : FS} {st : Loop} {p : Str} {text : Str} {table : Table}
    (h1 : textOf env fs p = some text) (h2 : generate env.ctx env.fuel text = some table) :
    oneFile env fs st p = ([.read p], .ok ⟨update st.out table, some text⟩) := by
  unfold textOf at h1
  unfold oneFile source
  cases hs : (if p = S "-" then some env.stdin else (fs p).map (·.content)) with
  | none => rw [hs] at h1; simp at h1
  | some b =>
    rw [hs] at h1
    simp only [Option.bind_some] at h1
    simp only [h1, Option.some_or, tableFor_ok.2 h2]

theorem files_declares {env : MainEnv} {fs : FS} {ps : List Str} {tables : List Table} (h : Each (Declares env fs) ps tables) :
    ∀ {before : List Table} {st : Loop}, Merged before st.out → ∃ st', files env fs ps st = (ps.map .read, .ok st') ∧ Merged (before ++ tables) st'.out := by
  induction h with
  | nil => intro before st hm; exact ⟨st, rfl, by simpa using hm⟩
  | @cons p t ps ts hp _ ih =>
    intro before st hm
    obtain ⟨text, h1, h2⟩ := hp
    have hm' := merged_update hm (generate_nodup h2)
    obtain ⟨st', k1, k2⟩ := ih (st := ⟨update st.out t, some text⟩) hm'
    refine ⟨st', ?_, by simpa using k2⟩
    rw [files, oneFile_declares h1 h2]
    simp only [k1]
    rfl

/-! ## C95 -/

theorem apply_reads {fs : FS} : ∀ {ops : List Op}, (∀ op ∈ ops, ∃ p, op = .read p) → applyAll fs ops = fs
  | [], _ => rfl
  | op :: ops, h => by
    obtain ⟨p, rfl⟩ := h op (by simp)
    exact apply_reads (fs := fs) (ops := ops) fun o ho => h o (List.mem_cons_of_mem _ ho)

theorem printed_reads : ∀ {ops : List Op}, (∀ op ∈ ops, ∃ p, op = .read p) → printed ops = []
  | [], _ => rfl
  | op :: ops, h => by
    obtain ⟨p, rfl⟩ := h op (by simp)
    exact printed_reads (ops := ops) fun o ho => h o (List.mem_cons_of_mem _ ho)

theorem printed_append : ∀ a b : List Op, printed (a ++ b) = printed a ++ printed b
  | [], b => rfl
  | op :: a, b => by cases op <;> simp [printed, printed_append a b]

theorem apply_chunks (p : Str) : ∀ (bs : List Bytes) (fs : FS) (f : File), fs p = some f →
    applyAll fs (bs.map (putTo (some p))) p = some { f with content := f.content ++ bs.flatten }
  | [], fs, f, h => by simp [applyAll, h]
  | b :: bs, fs, f, h => by
    have := apply_chunks p bs (Op.apply fs (.append p b)) { f with content := f.content ++ b }
      (by simp [Op.apply, h, Verif.Main.FS.set])
    simpa [applyAll, putTo] using this

theorem printed_chunks : ∀ bs : List Bytes, printed (bs.map (putTo none)) = bs.flatten
  | [] => rfl
  | b :: bs => by simp [putTo, printed, printed_chunks bs]

/-- The calls that write the output. -/
theorem main_done {env : MainEnv} {args : MainArgs} {fs : FS} (hm : S "-" ∈ args.infiles → args.infiles.length = 1)
    {reads : List Op} {st : Loop} (h : files env fs args.infiles {} = (reads, .ok st)) (hd : (env.dump args.fmt st.out).2 = true) :
    main env args fs = (reads ++ (openTo (target args) ++ ((env.dump args.fmt st.out).1 ++ [[10]]).map (putTo (target args))), .exit 0) := by
  unfold main
  rw [if_neg (fun e => e.2 (hm e.1)), h]
  simp only [hd, if_true, target, List.map_append, List.map_cons, List.map_nil, List.append_assoc]

/-- **C95.** If every input can be read, decoded and processed, the output is what the serialiser writes
for the declarations of all of them, put together, and a line feed; the exit status is 0. -/
theorem declarations_merged {env : MainEnv} {args : MainArgs} {fs : FS} (hm : S "-" ∈ args.infiles → args.infiles.length = 1)
    {tables : List Table} (h : Each (Declares env fs) args.infiles tables) :
    ∃ m, Merged tables m ∧ ((env.dump args.fmt m).2 = true →
      (main env args fs).2 = .exit 0 ∧
      match target args with
      | none => printed (main env args fs).1 = (env.dump args.fmt m).1.flatten ++ [10]
      | some p => ((applyAll fs (main env args fs).1) p).map (·.content) = some ((env.dump args.fmt m).1.flatten ++ [10])) := by
  obtain ⟨st, h1, h2⟩ := files_declares h (st := {}) merged_nil
  refine ⟨st.out, h2, fun hd => ?_⟩
  have hr : ∀ op ∈ args.infiles.map Op.read, ∃ p, op = .read p := by
    intro op ho
    obtain ⟨p, _, e⟩ := List.mem_map.1 ho
    exact ⟨p, e.symm⟩
  rw [main_done hm h1 hd]
  refine ⟨rfl, ?_⟩
  cases ht : target args with
  | none =>
    simp only [openTo, List.nil_append]
    rw [printed_append, printed_reads hr, printed_chunks]
    simp
  | some p =>
    simp only [openTo]
    have e : applyAll fs (args.infiles.map Op.read ++ ([.openTrunc p] ++
        ((env.dump args.fmt st.out).1 ++ [[10]]).map (putTo (some p)))) =
        applyAll (Op.apply fs (.openTrunc p)) (((env.dump args.fmt st.out).1 ++ [[10]]).map (putTo (some p))) := by
      have := apply_reads (fs := fs) hr
      simp only [applyAll] at this ⊢
      rw [List.foldl_append, this]
      rfl
    obtain ⟨md, hmd⟩ : ∃ md, Op.apply fs (.openTrunc p) p = some ⟨[], md⟩ := ⟨_, by simp only [Op.apply, Props.Main.set_eq]; rfl⟩
    rw [e, apply_chunks p _ _ _ hmd]
    simp

/-- **C95.** The names in the output are those of the functions and macros that are defined in any of the
files and do not begin with an underscore. -/
theorem all_names {env : MainEnv} {explicit : Str → Bool} {vartags : List ((Str → Bool) × List Str)}
    (hctx : env.ctx = ctx0 explicit vartags) {fs : FS} {ps : List Str} {tables : List Table} (h : Each (Declares env fs) ps tables)
    {m : Table} (hm : Merged tables m) (name : Str) : name ∈ m.map (·.1) ↔ name.head? ≠ some '_' ∧
      ∃ p ∈ ps, ∃ text, textOf env fs p = some text ∧
        ∃ s ∈ definitions (commands (ctx0 explicit vartags) text), ((words s).map lower).head? = some name := by
  rw [hm.order, List.mem_eraseDups]
  clear hm
  induction h with
  | nil => simp
  | @cons p t ps ts hp _ ih =>
    obtain ⟨text, h1, h2⟩ := hp
    rw [hctx] at h2
    have hn := (Props.Gen.generated_names (Props.Gen.generate_generates h2)).2 name
    rw [List.flatMap_cons, List.mem_append, ih, hn]
    constructor
    · rintro (⟨k1, s, k2⟩ | ⟨k1, q, k2, k3⟩)
      · exact ⟨k1, p, by simp, text, h1, s, k2⟩
      · exact ⟨k1, q, List.mem_cons_of_mem _ k2, k3⟩
    · rintro ⟨k1, q, k2, text', k3, k4⟩
      rcases List.mem_cons.1 k2 with rfl | k2
      · rw [h1] at k3
        injection k3 with k3
        subst k3
        exact .inl ⟨k1, k4⟩
      · exact .inr ⟨k1, q, k2, text', k3, k4⟩

/-- All calls leave every file but the output alone. -/
theorem main_only (env : MainEnv) (args : MainArgs) (fs : FS) {q : Str} (hq : some q ≠ target args) :
    ∀ op ∈ (main env args fs).1, ∀ fs' : FS, op.apply fs' q = fs' q := by
  have hr : ∀ op ∈ (files env fs args.infiles {}).1, ∀ fs' : FS, op.apply fs' q = fs' q := by
    intro op ho fs'
    obtain ⟨p, _, rfl⟩ := files_reads env fs _ _ op ho
    rfl
  have ho : ∀ op ∈ openTo (target args), ∀ fs' : FS, op.apply fs' q = fs' q := by
    intro op ho fs'
    cases ht : target args with
    | none => rw [ht] at ho; simp [openTo] at ho
    | some o =>
      rw [ht] at ho
      rw [List.mem_singleton.1 ho]
      exact Props.Main.touches_open o fs' q (fun e => hq (by rw [e, ht]))
  have hp : ∀ b : Bytes, ∀ fs' : FS, (putTo (target args) b).apply fs' q = fs' q := by
    intro b fs'
    cases ht : target args with
    | none => rfl
    | some o => exact Props.Main.touches_append o b fs' q (fun e => hq (by rw [e, ht]))
  have hc : ∀ bs : List Bytes, ∀ op ∈ bs.map (putTo (target args)), ∀ fs' : FS, op.apply fs' q = fs' q := by
    intro bs op ho fs'
    obtain ⟨b, _, rfl⟩ := List.mem_map.1 ho
    exact hp b fs'
  intro op hop
  unfold main at hop
  split at hop
  · simp at hop
  · simp only at hop
    split at hop
    · exact hr op hop
    · rename_i st _
      split at hop <;> simp only [List.mem_append, List.mem_singleton] at hop
      · rcases hop with hop | (hop | hop) | hop
        · exact hr op hop
        · exact ho op hop
        · exact hc _ op hop
        · rw [hop]; exact hp _
      · rcases hop with hop | hop | hop
        · exact hr op hop
        · exact ho op hop
        · exact hc _ op hop

/-- **C95.** At every moment, no file but the output has changed. -/
theorem others_untouched (env : MainEnv) (args : MainArgs) (fs : FS) (k : Nat) {q : Str} (hq : some q ≠ target args) :
    applyAll fs ((main env args fs).1.take k) q = fs q := by
  have h := main_only env args fs hq
  have : ∀ (ops : List Op) (fs' : FS), (∀ op ∈ ops, ∀ fs' : FS, op.apply fs' q = fs' q) → applyAll fs' ops q = fs' q := by
    intro ops
    induction ops with
    | nil => intro fs' _; rfl
    | cons op ops ih =>
      intro fs' h
      have h1 := ih (op.apply fs') fun o ho => h o (List.mem_cons_of_mem _ ho)
      rw [h op (by simp) fs'] at h1
      exact h1
  exact this _ fs fun op ho => h op (List.mem_of_mem_take ho)

/-- The file stops the program: it cannot be opened, or its text cannot be processed. -/
def Stops (env : MainEnv) (fs : FS) (path : Str) : Prop :=
  (path ≠ S "-" ∧ fs path = none) ∨ ∃ text, textOf env fs path = some text ∧ generate env.ctx env.fuel text = none

theorem oneFile_stops {env : MainEnv} {fs : FS} {p : Str} (h : Stops env fs p) (st : Loop) : ∃ e, (oneFile env fs st p).2 = .error e := by
  rcases h with ⟨h1, h2⟩ | ⟨text, h1, h2⟩
  · exact ⟨.raised, by simp [oneFile, source, h1, h2]⟩
  · unfold textOf at h1
    unfold oneFile source
    cases hs : (if p = S "-" then some env.stdin else (fs p).map (·.content)) with
    | none => exact ⟨_, rfl⟩
    | some b =>
      rw [hs] at h1
      simp only [Option.bind_some] at h1
      simp only [h1, Option.some_or]
      cases ht : tableFor env text with
      | error e => exact ⟨e, rfl⟩
      | ok t => rw [tableFor_ok, h2] at ht; simp at ht

theorem files_stops {env : MainEnv} {fs : FS} {p : Str} (h : Stops env fs p) : ∀ {ps : List Str}, p ∈ ps → ∀ st : Loop,
    ∃ e, (files env fs ps st).2 = .error e
  | [], hp, _ => by simp at hp
  | q :: ps, hp, st => by
    unfold files
    cases e : (oneFile env fs st q).2 with
    | error x => exact ⟨x, by simp only [e]⟩
    | ok st' =>
      simp only [e]
      rcases List.mem_cons.1 hp with rfl | hp
      · obtain ⟨x, hx⟩ := oneFile_stops h st
        rw [e] at hx
        simp at hx
      · exact files_stops h hp st'

theorem tableFor_end {env : MainEnv} {text : Str} {e : End} (h : tableFor env text = .error e) : e ≠ .exit 0 := by
  unfold tableFor at h
  repeat' split at h
  all_goals first
    | (injection h with h; subst h; simp; done)
    | simp at h

theorem files_end {env : MainEnv} {fs : FS} : ∀ {ps : List Str} {st : Loop} {e : End}, (files env fs ps st).2 = .error e → e ≠ .exit 0
  | [], _, _, h => by simp [files] at h
  | p :: ps, st, e, h => by
    unfold files at h
    cases k : (oneFile env fs st p).2 with
    | error x =>
      simp only [k, Except.error.injEq] at h
      subst h
      unfold oneFile at k
      cases hs : source env fs p with
      | none =>
        simp only [hs, Except.error.injEq] at k
        subst k
        simp
      | some b =>
        simp only [hs] at k
        cases ht : (env.decode b).or st.text with
        | none =>
          simp only [ht, Except.error.injEq] at k
          subst k
          simp
        | some t =>
          simp only [ht] at k
          cases hu : tableFor env t with
          | error e =>
            simp only [hu, Except.error.injEq] at k
            subst k
            exact tableFor_end hu
          | ok table => simp [hu] at k
    | ok st' =>
      simp only [k] at h
      exact files_end h

/-- **C95.** If one of the inputs cannot be opened, or its text cannot be processed, the program does not
return exit status 0; it has only read files: nothing was written to any file or to standard output. -/
theorem nothing_written {env : MainEnv} {args : MainArgs} {fs : FS} {p : Str} (hp : p ∈ args.infiles) (h : Stops env fs p) :
    (main env args fs).2 ≠ .exit 0 ∧ ∀ op ∈ (main env args fs).1, ∃ q ∈ args.infiles, op = .read q := by
  unfold main
  split
  · exact ⟨by simp, by simp⟩
  · obtain ⟨e, he⟩ := files_stops h hp {}
    simp only [he]
    exact ⟨files_end he, files_reads env fs args.infiles {}⟩

/-- The same if the first input cannot be decoded. -/
theorem first_undecodable {env : MainEnv} {args : MainArgs} {fs : FS} {p : Str} {ps : List Str} (hp : args.infiles = p :: ps)
    (h : textOf env fs p = none) :
    (main env args fs).2 ≠ .exit 0 ∧ ∀ op ∈ (main env args fs).1, ∃ q ∈ args.infiles, op = .read q := by
  unfold main
  split
  · exact ⟨by simp, by simp⟩
  · have he : ∃ e, (files env fs args.infiles {}).2 = .error e := by
      rw [hp]
      unfold files
      have : (oneFile env fs {} p).2 = .error .raised := by
        unfold textOf at h
        unfold oneFile source
        cases hs : (if p = S "-" then some env.stdin else (fs p).map (·.content)) with
        | none => rfl
        | some b =>
          rw [hs] at h
          simp only [Option.bind_some] at h
          simp [h]
      exact ⟨.raised, by simp only [this]⟩
    obtain ⟨e, he⟩ := he
    simp only [he]
    exact ⟨files_end he, files_reads env fs args.infiles {}⟩

/-- **C95, finding.** A file that cannot be decoded, after one that can, is passed over: the text of the
file before is processed again, and the program goes on as if the file were not there.  The output and
the exit status are the same. -/
theorem undecodable_passed_over {env : MainEnv} {fs : FS} {f u : Str} {table : Table} (hf : Declares env fs f table)
    (hu : u = S "-" ∨ (fs u).isSome = true) (hd : textOf env fs u = none) (rest : List Str) (st : Loop) :
    (files env fs (f :: u :: rest) st).2 = (files env fs (f :: rest) st).2 := by
  obtain ⟨text, h1, h2⟩ := hf
  have hu' : ∀ out : Table, oneFile env fs ⟨out, some text⟩ u = ([.read u], .ok ⟨update out table, some text⟩) := by
    intro out
    unfold textOf at hd
    unfold oneFile source
    cases hs : (if u = S "-" then some env.stdin else (fs u).map (·.content)) with
    | none =>
      rcases hu with rfl | hu
      · simp at hs
      · split at hs
        · simp at hs
        · rw [Option.map_eq_none_iff] at hs
          rw [hs] at hu
          simp at hu
    | some b =>
      rw [hs] at hd
      simp only [Option.bind_some] at hd
      simp only [hd, Option.none_or, tableFor_ok.2 h2]
  have step : ∀ {p : Str} {ps : List Str} {st st' : Loop}, oneFile env fs st p = ([.read p], .ok st') →
      (files env fs (p :: ps) st).2 = (files env fs ps st').2 := by
    intro p ps st st' h
    rw [files, h]
  rw [step (oneFile_declares h1 h2), step (oneFile_declares h1 h2), step (hu' _), update_twice _ _ (generate_nodup h2)]

/-! ## Examples -/

/-- ASCII. -/
def demoDecode (b : Bytes) : Option Str := if b.all (· < 128) then some (b.map fun x => Char.ofNat x.toNat) else none

def demoBytes (s : Str) : Bytes := s.map fun c => UInt8.ofNat c.toNat

/-- The names of the table, one after the other. -/
def demoEnv : MainEnv where
  decode := demoDecode
  stdin := []
  ctx := Props.Gen.demoCtx
  fuel := 3
  dump _ t := (t.map fun p => demoBytes p.1, true)

def demoA : Str := S "function(f a)\nendfunction()\nfunction(h)\nendfunction()\n"
def demoB : Str := S "macro(g)\nendmacro()\nfunction(F x y)\nendfunction()\n"

/-- Two files, and one that cannot be decoded. -/
def demoFs : FS := fun p =>
  if p = S "a" then some ⟨demoBytes demoA, 420⟩
  else if p = S "b" then some ⟨demoBytes demoB, 420⟩
  else if p = S "u" then some ⟨[255], 420⟩
  else none

def demoTables : List Table :=
  [[(S "f", { nargs := .int 1 }), (S "h", { nargs := .int 0 })], [(S "g", { nargs := .int 0 }), (S "f", { nargs := .int 2 })]]

theorem demo_a : generate Props.Gen.demoCtx 3 demoA = some [(S "f", { nargs := .int 1 }), (S "h", { nargs := .int 0 })] := by
  unfold Props.Gen.demoCtx ctx0 Parse.commandCtx
  rw [Props.Gen.root_fast]
  decide +kernel

theorem demo_b : generate Props.Gen.demoCtx 3 demoB = some [(S "g", { nargs := .int 0 }), (S "f", { nargs := .int 2 })] := by
  unfold Props.Gen.demoCtx ctx0 Parse.commandCtx
  rw [Props.Gen.root_fast]
  decide +kernel

theorem demo_declares : Each (Declares demoEnv demoFs) [S "a", S "b"] demoTables :=
  .cons ⟨demoA, by decide +kernel, demo_a⟩ (.cons ⟨demoB, by decide +kernel, demo_b⟩ .nil)

/-- The hypotheses are met; the declaration of `f` is that of the second file, at the place of the first. -/
example : ∃ m : Table, m.lookup (S "f") = some ({ nargs := .int 2 } : Entry) ∧ m.map (·.1) = [S "f", S "h", S "g"] ∧
    ((applyAll demoFs (main demoEnv { outfile := some (S "o"), infiles := [S "a", S "b"] } demoFs).1) (S "o")).map (·.content) =
      some ((m.map fun p => demoBytes p.1).flatten ++ [10]) := by
  obtain ⟨m, h1, h2⟩ := declarations_merged (env := demoEnv) (fs := demoFs) (args := { outfile := some (S "o"), infiles := [S "a", S "b"] })
    (by decide +kernel) demo_declares
  refine ⟨m, ?_, ?_, (h2 rfl).2⟩
  · rw [h1.last]; decide +kernel
  · rw [h1.order]; decide +kernel

/-- A file that is not there. -/
example : Stops demoEnv demoFs (S "c") := .inl (by decide +kernel)

/-- The hypotheses of the finding are met: the second file is not read, and nobody is told. -/
example : (files demoEnv demoFs [S "a", S "u", S "b"] {}).2 = (files demoEnv demoFs [S "a", S "b"] {}).2 :=
  have h1 : textOf demoEnv demoFs (S "a") = some demoA := by decide +kernel
  have h2 : (demoFs (S "u")).isSome = true := by decide +kernel
  have h3 : textOf demoEnv demoFs (S "u") = none := by decide +kernel
  undecodable_passed_over (f := S "a") (u := S "u") ⟨demoA, h1, demo_a⟩ (.inr h2) h3 [S "b"] {}

end Verif.Props.GenMain
