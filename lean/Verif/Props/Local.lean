import Verif.LocalDb
import Verif.Props.ParseDb

/-!
# A file is read from front to back: reading composes (C68)
-/

namespace Verif.Props.Local
open Verif Py Verif.Lex Verif.Parse

theorem text_semantic {t : Token} (h : program [t] = [t]) : isSemantic t = true := by
  rw [← Props.Parse.program_eq] at h
  cases e : isSemantic t with
  | true => rfl
  | false => simp [semantics, e] at h

theorem tool_flat (user : Spec) (explicit : Str → Bool) (vartags : List ((Str → Bool) × List Str)) (name : Str) :
    Flat (lookupParser (commandCtx user explicit vartags) name) :=
  lookup_registered _ _ ▸ (registered_entry user explicit vartags name).1.flat

theorem tree_body {ctx : Ctx} {ts : List Token} {tree : Node} (h : parse ctx ts = .ok tree) : ∃ cs, tree = mk .body cs := by
  unfold parse parseN at h
  split at h
  · simp at h
  · rename_i n r e
    simp only [Except.ok.injEq] at h
    obtain ⟨⟨cs, hcs⟩, _⟩ := body_out _ e
    exact ⟨[] ++ cs, by rw [← h, hcs]⟩

/-- **C68.** If one file is followed by another, the result is what the first and the second give
by themselves, one after the other; and if the second is rejected, so is the whole, for the same
reason.  The first file leaves no block open, the second begins with program text, and the
commands of the first that look ahead find what they look for within it. -/
theorem files_compose (user : Spec) (explicit : Str → Bool) (vartags : List ((Str → Bool) × List Str))
    (ts us : List Token) (first : Node)
    (h1 : parse (commandCtx user explicit vartags) ts = .ok first)
    (h2 : parse (commandCtx user explicit vartags) us ≠ .error .fuel)
    (hopen : NothingOpen first) (hlook : Decided ts) (htext : BeginsWithText us) :
    parse (commandCtx user explicit vartags) (ts ++ us) =
      match parse (commandCtx user explicit vartags) us with
      | .ok second => .ok (joined first second)
      | .error e => .error e := by
  obtain ⟨cs, rfl⟩ := tree_body h1
  have h := parse_concat (tool_flat user explicit vartags) (us := us)
    (fun t r e => text_semantic (htext t r e)) (looks_of (x := ts) ?_) h1 h2 ?_
  · rw [h]
    cases e : parse (commandCtx user explicit vartags) us with
    | error e => rfl
    | ok second =>
      obtain ⟨ds, rfl⟩ := tree_body e
      rfl
  · intro c t w l y e hw hl k hk
    rw [Props.Parse.program_eq]
    refine hlook c t w l y e (fun b hb => ?_) hl k hk
    simpa [isWs] using hw b hb
  · intro c hc a ks e
    obtain ⟨i, b, k, hi⟩ := hopen a ks (by rw [← e]; exact hc)
    exact ⟨_, _, i, b, k, by rw [e, hi]⟩

/-- **C68.** What follows in a file does not change how its beginning is read. -/
theorem later_commands_do_not_matter (user : Spec) (explicit : Str → Bool) (vartags : List ((Str → Bool) × List Str))
    (ts us us' : List Token) (first tree tree' : Node)
    (h1 : parse (commandCtx user explicit vartags) ts = .ok first)
    (h2 : parse (commandCtx user explicit vartags) (ts ++ us) = .ok tree)
    (h3 : parse (commandCtx user explicit vartags) (ts ++ us') = .ok tree')
    (ht : PlainAndOr us) (ht' : PlainAndOr us')
    (hopen : NothingOpen first) (hlook : Decided ts) (htext : BeginsWithText us) (htext' : BeginsWithText us') :
    (parts tree).take (parts first).length = parts first ∧ (parts tree').take (parts first).length = parts first := by
  have one : ∀ us tree, PlainAndOr us → BeginsWithText us → parse (commandCtx user explicit vartags) (ts ++ us) = .ok tree →
      (parts tree).take (parts first).length = parts first := by
    intro us tree hp hb h
    rw [files_compose user explicit vartags ts us first h1 (Props.ParseDb.tool_parse_terminates_partial user explicit vartags us hp).1
      hopen hlook hb] at h
    split at h
    · simp only [Except.ok.injEq] at h
      rw [← h]
      simp [joined, parts]
    · simp at h
  exact ⟨one us tree ht htext h2, one us' tree' ht' htext' h3⟩

/-! ## The hypotheses can be met -/

/-- The tool without commands of the user. -/
def demoCtx : Ctx := commandCtx ParseDb.demoSpec (startsWith (S "#<")) []

/-- A file: two commands, a block, a comment. -/
def demoFirst : List Token := Props.Lex.toks (S "add_library(a STATIC b.c) # x\nif(a)\n  # note\n  foreach(i IN LISTS l)\n  endforeach()\nendif()\n\n")

/-- Another. -/
def demoSecond : List Token := Props.Lex.toks (S "install(TARGETS a RUNTIME DESTINATION bin)\nset(b c)\n")

mutual
/-- The types, numbers of parts and words of a tree, in preorder. -/
def outline : Node → List (Option NT × Nat × Str)
  | .tok t => [(none, 0, t.spelling)]
  | .node ty _ cs => (some ty, cs.length, []) :: outlines cs
/-- Of several. -/
def outlines : List Node → List (Option NT × Nat × Str)
  | [] => []
  | n :: ns => outline n ++ outlines ns
end

/-- No block is left open. -/
def nothingOpen (tree : Node) : Bool :=
  (parts tree).all fun c =>
    match c with
    | .node .flowControl _ cs =>
      match cs.getLast? with
      | some (.node .statement _ _) => true
      | _ => false
    | _ => true

theorem nothingOpen_iff {tree : Node} (h : nothingOpen tree = true) : NothingOpen tree := by
  intro a cs hm
  have := List.all_eq_true.1 h _ hm
  simp only at this
  split at this
  · rename_i b k e
    obtain ⟨i, hi⟩ := List.getLast?_eq_some_iff.1 e
    exact ⟨i, b, k, hi⟩
  · simp at this

/-- All the places where a command that looks ahead may begin. -/
def decided : List Token → Bool
  | [] => true
  | t :: ts =>
    (match ts.dropWhile isWs with
      | l :: y => !(l.type == .lparen) || looksAt.all fun nk => !(nk.1 == lower t.spelling) || decide (nk.2 ≤ (program y).length)
      | [] => true) && decided ts

theorem decided_iff : ∀ {ts : List Token}, decided ts = true → Decided ts
  | [], _ => by intro c t w l y e; simp at e
  | t :: ts, h => by
    simp only [decided, Bool.and_eq_true] at h
    intro c t' w l y e hw hl k hk
    cases c with
    | cons a c =>
      simp only [List.cons_append, List.cons.injEq] at e
      exact decided_iff h.2 c t' w l y e.2 hw hl k hk
    | nil =>
      simp only [List.nil_append, List.cons.injEq] at e
      obtain ⟨rfl, rfl⟩ := e
      have hd : (w ++ l :: y).dropWhile isWs = l :: y := by
        rw [List.dropWhile_append_of_pos (fun a ha => by have := hw a ha; simpa [isWs] using this)]
        exact List.dropWhile_cons_of_neg (by simp [isWs, hl])
      have h1 := h.1
      rw [hd] at h1
      simp only [hl, beq_self_eq_true, Bool.not_true, Bool.false_or] at h1
      have := List.all_eq_true.1 h1 _ hk
      simpa using this

theorem demo_ok :
    nothingOpen ((parse demoCtx demoFirst).toOption.getD (.tok ⟨.word, [], 0, ⟨0, 0, 0⟩, ⟨0, 0, 0⟩⟩)) = true ∧
    (parse demoCtx demoFirst).isOk = true ∧ (parse demoCtx demoSecond).isOk = true := by
  unfold demoCtx commandCtx
  rw [commandDb_fast ParseDb.demoSpec_ok]
  decide +kernel

example : ∃ first second, parse demoCtx demoFirst = .ok first ∧ parse demoCtx demoSecond = .ok second ∧
    NothingOpen first ∧ Decided demoFirst ∧ BeginsWithText demoSecond ∧
    parse demoCtx (demoFirst ++ demoSecond) = .ok (joined first second) := by
  obtain ⟨h1, h2, h3⟩ := demo_ok
  cases e1 : parse demoCtx demoFirst with
  | error _ => rw [e1] at h2; simp [Except.isOk, Except.toBool] at h2
  | ok first =>
    cases e2 : parse demoCtx demoSecond with
    | error _ => rw [e2] at h3; simp [Except.isOk, Except.toBool] at h3
    | ok second =>
      rw [e1] at h1
      have hn := nothingOpen_iff h1
      have hd : Decided demoFirst := decided_iff (by decide +kernel)
      have hb : BeginsWithText demoSecond := by
        intro t r e
        have : demoSecond.head?.all (fun t => decide (program [t] = [t])) = true := by decide +kernel
        rw [e] at this
        simpa using this
      refine ⟨first, second, rfl, rfl, hn, hd, hb, ?_⟩
      have := files_compose ParseDb.demoSpec (startsWith (S "#<")) [] demoFirst demoSecond first e1 (by
        show parse demoCtx demoSecond ≠ _
        rw [e2]; simp) hn hd hb
      rw [show parse (commandCtx ParseDb.demoSpec (startsWith (S "#<")) []) demoSecond = .ok second from e2] at this
      exact this

/-! ## None of the hypotheses can be left out -/

/-- The tokens of `a` and of `b` in the text `a ++ b` are read alone and together; the trees are
compared. -/
def composes (a b : Str) : Option Bool :=
  let all := Props.Lex.toks (a ++ b)
  let n := (Props.Lex.toks a).length
  match parse demoCtx (all.take n), parse demoCtx (all.drop n), parse demoCtx all with
  | .ok t, .ok u, .ok v => some (outline v == outline (joined t u))
  | _, _, _ => none

/-- A finding: whether `add_library()` is accepted is decided by the name of the *next command*. -/
theorem next_command_matters :
    (parse demoCtx (Props.Lex.toks (S "add_library()\nobject(y)\n"))).isOk = false ∧
    (parse demoCtx (Props.Lex.toks (S "add_library()\nsubject(y)\n"))).isOk = true := by
  unfold demoCtx commandCtx
  rw [commandDb_fast ParseDb.demoSpec_ok]
  decide +kernel

/-- An `if` without `endif` is accepted, so the rest may belong to it. -/
theorem open_block_matters : composes (S "if(a)\n") (S "endif()\n") = some false := by
  unfold composes demoCtx commandCtx
  rw [commandDb_fast ParseDb.demoSpec_ok]
  decide +kernel

/-- Comments on adjacent lines are one comment. -/
theorem comments_join : composes (S "foo()\n# a\n") (S "# b\nbar()\n") = some false := by
  unfold composes demoCtx commandCtx
  rw [commandDb_fast ParseDb.demoSpec_ok]
  decide +kernel

end Verif.Props.Local
