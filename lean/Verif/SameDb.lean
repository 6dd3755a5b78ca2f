import Verif.ParseSameAll
import Verif.DbLemmas

/-!
# The tool's commands do not depend on blanks and letter case (lemmas for C59)
-/

namespace Verif.Parse
open Verif Py Lex Parse.Funs

mutual
/-- Every keyword and flag has a character that is no blank. -/
def ArgP.vis : ArgP → Bool
  | .standard _ specs kwargs => specs.all (fun s => visAll s.flags) && visL kwargs
  | .foreachStandard => false
  | .choose _ => false
  | _ => true
/-- The keywords. -/
def visL : List (Str × ArgP) → Bool
  | [] => true
  | (k, p) :: kps => visAll [k] && p.vis && visL kps
end

mutual
/-- The same for a specification. -/
def Spec.vis : Spec → Bool
  | .mk _ _ _ pargs kwargs => pargs.all (fun s => visAll s.flags) && specsVis kwargs
/-- The keywords. -/
def specsVis : List (Str × Spec) → Bool
  | [] => true
  | (k, s) :: ks => visAll [k] && s.vis && specsVis ks
end

theorem visL_mem {kps : List (Str × ArgP)} (h : visL kps = true) : ∀ kp ∈ kps, Visible kp.1 ∧ kp.2.vis = true := by
  induction kps with
  | nil => simp
  | cons kp kps ih =>
    obtain ⟨k, p⟩ := kp
    simp only [visL, Bool.and_eq_true] at h
    intro kp hkp
    rcases List.mem_cons.1 hkp with rfl | hkp
    · exact ⟨visAll_mem h.1.1 _ (by simp), h.1.2⟩
    · exact ih h.2 kp hkp

theorem good_of_vis : ∀ p : ArgP, p.vis = true → ∀ b, GoodP b p := by
  intro p
  refine ArgP.rec (motive_1 := fun p => p.vis = true → ∀ b, GoodP b p)
    (motive_2 := fun l => ∀ kp ∈ l, kp.2.vis = true → ∀ b, GoodP b kp.2)
    (motive_3 := fun _ => True)
    (motive_4 := fun kp => kp.2.vis = true → ∀ b, GoodP b kp.2)
    ?_ ?_ ?_ ?_ ?_ ?_ ?_ ?_ ?_ ?_ ?_ ?_ ?_ ?_ ?_ ?_ ?_ ?_ ?_ ?_ ?_ p
  · intro cmd specs kwargs ih h b
    simp only [ArgP.vis, Bool.and_eq_true, List.all_eq_true] at h
    exact .standard _ _ _ (fun kp hkp => (visL_mem h.2 kp hkp).1) (fun kp hkp => ih kp hkp (visL_mem h.2 kp hkp).2 false)
      (fun s hs => visAll_mem (h.1 s hs))
  · exact fun s _ top => .positional s
  · exact fun _ top => .conditional
  · exact fun n k f _ top => .tuple n k f
  · exact fun _ top => .shell
  · exact fun _ top => .null
  · exact fun _ top => .setFn
  · exact fun _ top => .emptyFn
  · intro h; simp [ArgP.vis] at h
  · exact fun _ top => .foreachIn
  · exact fun l s _ _ => .addSources l s
  · exact fun _ top => .addLibraryObject
  · exact fun _ top => .customTarget
  · exact fun _ top => .fileWrite
  · exact fun _ top => .installTargets
  · intro f ih h; simp [ArgP.vis] at h
  · simp
  · intro kp l ih1 ih2 kp' hkp'
    rcases List.mem_cons.1 hkp' with rfl | h
    · exact ih1
    · exact ih2 kp' h
  · simp
  · simp
  · intro k p ih; exact ih

theorem argOk_of_good {b : Bool} {p : ArgP} (h : GoodP b p) : ∀ top, ArgOk false top p := by
  induction h with
  | standard cmd specs kwargs _ _ _ ih => exact fun top => .standard _ _ _ fun kp hkp => ih kp hkp false
  | tuple n k f => exact fun _ => .tuple _ _ _ rfl
  | addSources l s => exact fun _ => .addSources _ _ (by simp)
  | choose f _ _ ih => exact fun top => .choose f fun ts q e => ih ts q e top
  | positional s => exact fun _ => .positional s
  | _ => intro _; constructor

mutual
theorem parser_vis (k : Str) : ∀ s : Spec, s.vis = true → (Spec.parser k s).vis = true
  | .mk _ _ _ pargs kwargs, h => by
    unfold Spec.parser
    split
    · rfl
    · split
      · rfl
      · simp only [Spec.vis, Bool.and_eq_true] at h
        simp only [ArgP.vis, Bool.and_eq_true]
        exact ⟨h.1, funtree_vis kwargs h.2⟩
theorem funtree_vis : ∀ ks : List (Str × Spec), specsVis ks = true → visL (funtree ks) = true
  | [], _ => rfl
  | (k, s) :: ks, h => by
    simp only [specsVis, Bool.and_eq_true] at h
    unfold funtree visL
    simp only [Bool.and_eq_true]
    exact ⟨⟨h.1.1, parser_vis k s h.1.2⟩, funtree_vis ks h.2⟩
end

/-! ## Choices -/

theorem nth_alike {ts us : List Token} (h : Alike ts us) (n : Nat) :
    (nthSem n ts = none ∧ nthSem n us = none) ∨ ∃ a b, nthSem n ts = some a ∧ nthSem n us = some b ∧ canon a = canon b := by
  have := congrArg (fun l => l[n]?) h
  simp only [List.getElem?_map] at this
  unfold nthSem
  cases ha : (semantics ts)[n]? with
  | none => rw [ha] at this; cases hb : (semantics us)[n]? with
    | none => exact Or.inl ⟨rfl, rfl⟩
    | some b => rw [hb] at this; simp at this
  | some a => rw [ha] at this; cases hb : (semantics us)[n]? with
    | none => rw [hb] at this; simp at this
    | some b => rw [hb] at this; exact Or.inr ⟨a, b, rfl, rfl, by simpa using this⟩

theorem nthWord_alike {ts us : List Token} (h : Alike ts us) (n : Nat) : nthWord n ts = nthWord n us := by
  unfold nthWord
  rcases nth_alike h n with ⟨h1, h2⟩ | ⟨a, b, h1, h2, h3⟩
  · rw [h1, h2]
  · rw [h1, h2]; simp [canon_upper h3]

theorem anyLogged_alike {ts us : List Token} (h : Alike ts us) (hs : HasSem ts) : anyLogged ts = anyLogged us := by
  have h1 : ts ≠ [] := by rintro rfl; exact hs rfl
  have h2 : us ≠ [] := by rintro rfl; exact (hs.alike h) rfl
  simp [anyLogged, h1, h2]

theorem deref_lower (s : Str) : hasDeref s = hasDeref (lower s) := by
  unfold hasDeref
  induction s with
  | nil => rfl
  | cons c s ih =>
    have e : lower (c :: s) = lowerChar c :: lower s := rfl
    rw [e]
    unfold hasSub
    rw [ih]
    congr 1
    have h1 := (case_facts c).2.2.1
    have hS : S "${" = ['$', '{'] := rfl
    rw [hS]
    simp only [startsWith, stripPrefix?]
    by_cases hc : '$' = c
    · rw [if_pos hc, if_pos (h1.1 hc)]
      cases s with
      | nil => rfl
      | cons d s =>
        have h2 := (case_facts d).2.2.2.1
        have e : lower (d :: s) = lowerChar d :: lower s := rfl
        rw [e]
        simp only [stripPrefix?]
        by_cases hd : '{' = d
        · rw [if_pos hd, if_pos (h2.1 hd)]; rfl
        · rw [if_neg hd, if_neg (fun e => hd (h2.2 e))]
    · rw [if_neg hc, if_neg (fun e => hc (h1.2 e))]

theorem canon_deref {t u : Token} (h : canon t = canon u) : hasDeref t.spelling = hasDeref u.spelling := by
  rw [deref_lower, deref_lower u.spelling, canon_lower h]

theorem vis_good {b : Bool} {p : ArgP} (h : p.vis = true) : GoodP b p := good_of_vis p h b

theorem foreachFn_good : GoodP true foreachFn := by
  refine .choose _ ?_ ?_
  · intro ts us h hs
    rw [nthWord_alike h 1, anyLogged_alike h hs]
  · intro ts q h
    split at h
    · rw [anyLogged_ok h]; exact vis_good rfl
    · split at h
      · rw [← Except.ok.inj h]; exact vis_good (by decide)
      · split at h <;> (rw [← Except.ok.inj h]; constructor)

theorem addExecutable_good (b : Bool) : GoodP b addExecutable := by
  refine .choose _ ?_ ?_
  · intro ts us h hs
    rw [anyLogged_alike h hs]
    rcases nth_alike h 1 with ⟨h1, h2⟩ | ⟨a, b, h1, h2, h3⟩
    · rw [h1, h2]
    · rw [h1, h2]; simp only [canon_upper h3, canon_deref h3]
  · intro ts q h
    split at h
    · rw [anyLogged_ok h]; exact vis_good rfl
    · repeat' split at h
      all_goals (rw [← Except.ok.inj h]; first | exact vis_good rfl | exact vis_good (by decide))

theorem addLibrary_good (b : Bool) : GoodP b addLibrary := by
  refine .choose _ ?_ ?_
  · intro ts us h hs
    rw [anyLogged_alike h hs]
    rcases nth_alike h 1 with ⟨h1, h2⟩ | ⟨a, b, h1, h2, h3⟩
    · rw [h1, h2]
    · rw [h1, h2]
      rcases nth_alike h 2 with ⟨h4, h5⟩ | ⟨c, d, h4, h5, h6⟩
      · rw [h4, h5]; simp only [canon_upper h3, canon_deref h3]
      · rw [h4, h5]; simp only [canon_upper h3, canon_deref h3, canon_upper h6, canon_deref h6]
  · intro ts q h
    split at h
    · rw [anyLogged_ok h]; exact vis_good rfl
    · repeat' split at h
      all_goals first
        | (rw [← Except.ok.inj h]; exact vis_good (by decide))
        | (rw [← Except.ok.inj h]; exact vis_good rfl)
        | simp at h

theorem addCustomCommand_good (b : Bool) : GoodP b addCustomCommand := by
  refine .choose _ ?_ ?_
  · intro ts us h hs
    rcases nth_alike h 0 with ⟨h1, h2⟩ | ⟨a, b, h1, h2, h3⟩
    · rw [h1, h2]
    · rw [h1, h2]; simp only [canon_type h3, canon_normKwarg h3]
  · intro ts q h
    split at h
    · rw [← Except.ok.inj h]; exact vis_good rfl
    · repeat' split at h
      all_goals (rw [← Except.ok.inj h]; exact vis_good (by decide))

theorem table_good {b : Bool} {table : List (Str × ArgP)} (h : visL table = true) (w : Str) :
    GoodP b ((table.lookup w).getD anyArgs) := by
  cases e : table.lookup w with
  | none => exact vis_good rfl
  | some p => exact vis_good (visL_mem h _ (lookup_pair_mem e)).2

theorem byFirst_good {b : Bool} {table : List (Str × ArgP)} (h : visL table = true) : GoodP b (byFirst table) := by
  refine .choose _ ?_ ?_
  · intro ts us h hs
    rcases nth_alike h 0 with ⟨h1, h2⟩ | ⟨a, b, h1, h2, h3⟩
    · rw [h1, h2]
    · rw [h1, h2]; simp only [canon_type h3, canon_upper h3]
  · intro ts q hq
    split at hq
    · rw [← Except.ok.inj hq]; exact vis_good rfl
    · split at hq
      · rw [← Except.ok.inj hq]; exact vis_good rfl
      · rw [← Except.ok.inj hq]; exact table_good h _

theorem installFn_good (b : Bool) : GoodP b installFn := by
  refine .choose _ ?_ ?_
  · intro ts us h hs
    rw [nthWord_alike h 0, anyLogged_alike h hs]
  · intro ts q hq
    split at hq
    · rw [anyLogged_ok hq]; exact vis_good rfl
    · rw [← Except.ok.inj hq]; exact table_good (by decide +kernel) _

theorem buildCommand_good (b : Bool) : GoodP b buildCommand := by
  refine .choose _ ?_ ?_
  · intro ts us h hs
    rcases nth_alike h 1 with ⟨h1, h2⟩ | ⟨a, b, h1, h2, h3⟩ <;> rw [h1, h2]
  · intro ts q h
    split at h <;> (rw [← Except.ok.inj h]; exact vis_good (by decide))

theorem cmakePolicy_good (b : Bool) : GoodP b cmakePolicy := by
  refine .choose _ ?_ ?_
  · intro ts us h hs
    rcases nth_alike h 0 with ⟨h1, h2⟩ | ⟨a, b, h1, h2, h3⟩
    · rw [h1, h2]
    · rw [h1, h2]; simp only [canon_type h3, canon_upper h3]
  · intro ts q h
    split at h
    · rw [← Except.ok.inj h]; exact vis_good rfl
    · repeat' split at h
      all_goals (rw [← Except.ok.inj h]; exact vis_good (by decide))

theorem getFilenameComponent_good (b : Bool) : GoodP b getFilenameComponent := by
  refine .choose _ ?_ ?_
  · intro ts us h hs
    rw [nthWord_alike h 2]
  · intro ts q h
    split at h <;> (rw [← Except.ok.inj h]; exact vis_good (by decide))

theorem sourceGroup_good (b : Bool) : GoodP b sourceGroup := by
  refine .choose _ ?_ ?_
  · intro ts us h hs
    rw [nthWord_alike h 0, nthWord_alike h 1]
  · intro ts q h
    repeat' split at h
    all_goals (rw [← Except.ok.inj h]; exact vis_good (by decide))

theorem ctestSleep_good (b : Bool) : GoodP b ctestSleep := by
  refine .choose _ ?_ ?_
  · intro ts us h hs
    rw [h.length]
  · intro ts q h
    split at h <;> (rw [← Except.ok.inj h]; exact vis_good (by decide))

theorem oldInstallFiles_good (b : Bool) : GoodP b oldInstallFiles := by
  refine .choose _ ?_ ?_
  · intro ts us h hs
    rw [nthWord_alike h 1]
    rcases nth_alike h 2 with ⟨h1, h2⟩ | ⟨a, b, h1, h2, h3⟩ <;> rw [h1, h2] <;> rfl
  · intro ts q h
    repeat' split at h
    all_goals (rw [← Except.ok.inj h]; exact vis_good (by decide))

/-- Every entry of the table of parse functions. -/
theorem funTable_good : ∀ kp ∈ funTable, GoodP (kp.1 == S "foreach") kp.2 := by
  unfold funTable
  repeat' refine List.forall_mem_cons.2 ⟨?_, ?_⟩
  all_goals
    first
    | exact fun _ h => absurd h (List.not_mem_nil)
    | exact foreachFn_good
    | exact addExecutable_good _
    | exact addLibrary_good _
    | exact addCustomCommand_good _
    | exact oldInstallFiles_good _
    | exact byFirst_good (by decide +kernel)
    | exact installFn_good _
    | exact buildCommand_good _
    | exact cmakePolicy_good _
    | exact getFilenameComponent_good _
    | exact sourceGroup_good _
    | exact ctestSleep_good _
    | exact vis_good (by decide +kernel)

theorem flowTable_good : ∀ kp ∈ flowTable, ∀ b, GoodP b kp.2 := by
  have : visL flowTable = true := by decide +kernel
  exact fun kp hkp b => vis_good (visL_mem this kp hkp).2

/-- The tool's own commands. -/
theorem std_vis : ∀ nd ∈ Tables.builtins ++ Tables.modules,
    ∀ s, (Decl.spec nd.1 nd.2).toOption = some s → s.vis = true := by
  have : (Tables.builtins ++ Tables.modules).all (fun nd =>
      match (Decl.spec nd.1 nd.2).toOption with | some s => s.vis | none => true) = true := by decide +kernel
  intro nd hnd s hs
  have := List.all_eq_true.1 this nd hnd
  rw [hs] at this
  exact this

theorem builtinDb_good {name : Str} {p : ArgP} (h : builtinDb name = some p) : GoodP (name == S "foreach") p := by
  rw [builtinDb, builtinOf_eq] at h
  split at h
  · rename_i q e
    simp only [Option.some.injEq] at h; subst h
    obtain ⟨s, hs, rfl⟩ := Option.map_eq_some_iff.1 e
    rw [stdSpec_lookup] at hs
    split at hs
    · rename_i n d hd
      exact vis_good (parser_vis _ _ (std_vis (n, d) (List.mem_reverse.1 (List.mem_of_find?_eq_some hd)) _ hs))
    · simp at hs
  · split at h
    · rename_i q e
      simp only [Option.some.injEq] at h; subst h
      exact flowTable_good _ (lookup_pair_mem e) _
    · exact funTable_good _ (lookup_pair_mem h)

theorem specsVis_mem {ks : List (Str × Spec)} (h : specsVis ks = true) : ∀ k s, (k, s) ∈ ks → s.vis = true := by
  induction ks with
  | nil => simp
  | cons x ks ih =>
    obtain ⟨k, s⟩ := x
    simp only [specsVis, Bool.and_eq_true] at h
    intro k' s' hm
    rcases List.mem_cons.1 hm with he | hm
    · simp only [Prod.mk.injEq] at he; rw [he.2]; exact h.1.2
    · exact ih h.2 k' s' hm

theorem commandDb_good {user : Spec} (hu : user.vis = true) {name : Str} {p : ArgP} (h : commandDb user name = some p) :
    GoodP (name == S "foreach") p := by
  rw [commandDb_eq] at h
  split at h
  · rename_i q e
    simp only [Option.some.injEq] at h; subst h
    obtain ⟨s, hs, rfl⟩ := Option.map_eq_some_iff.1 e
    refine vis_good (parser_vis _ _ ?_)
    cases user with
    | mk a b c d ks =>
      simp only [Spec.vis, Bool.and_eq_true] at hu
      exact specsVis_mem hu.2 _ _ (lookup_pair_mem hs)
  · exact builtinDb_good h

theorem newline_table : ∀ n < 128, ((upperChar (Char.ofNat n) ≠ '\n') = (Char.ofNat n ≠ '\n')) := by
  have : ∀ n < 128, (upperChar (Char.ofNat n) ≠ '\n') ↔ (Char.ofNat n ≠ '\n') := by decide +kernel
  exact fun n h => propext (this n h)

theorem upper_newline (c : Char) : (upperChar c ≠ '\n') = (c ≠ '\n') := by
  by_cases h : c.toNat < 128
  · have := newline_table c.toNat h
    rwa [Char.ofNat_toNat] at this
  · have : upperChar c = c := by
      unfold upperChar
      rw [if_neg]
      simp [isLower] at *
      intro _
      show 122 < c.toNat
      omega
    rw [this]

theorem commandVar_upper {a b : Str} (h : lower a = lower b) : commandVar a = commandVar b := by
  have key : ∀ s : Str, upper (s.takeWhile (· ≠ '\n')) = (upper s).takeWhile (· ≠ '\n') := by
    intro s
    unfold upper
    rw [List.takeWhile_map]
    congr 2
    funext c
    simp only [Function.comp]
    exact decide_eq_decide.2 (by rw [upper_newline])
  unfold commandVar
  rw [key, key, upper_of_lower h]

/-- The tool's database with the user's commands. -/
theorem commandCtx_same (user : Spec) (explicit : Str → Bool) (vartags : List ((Str → Bool) × List Str))
    (hu : user.vis = true) (hv : ∀ p ∈ vartags, ∀ a b, lower a = lower b → p.1 a = p.1 b) :
    CtxSame (commandCtx user explicit vartags) := by
  have good : ∀ name, GoodP (lower name == S "foreach") (lookupParser (commandCtx user explicit vartags) name) := by
    intro name
    unfold lookupParser
    have hd : (commandCtx user explicit vartags).db = commandDb user := rfl
    rw [hd]
    cases e : commandDb user (lower name) with
    | some p => exact commandDb_good hu e
    | none =>
      simp only
      cases e2 : commandDb user (S "_default") with
      | none => exact vis_good rfl
      | some p =>
        have : builtinDb (S "_default") = none := by
          rw [builtinDb, builtinOf_eq, stdSpec_lookup]
          have h1 : declared (Tables.builtins ++ Tables.modules) (S "_default") = none := by decide +kernel
          rw [h1]
          decide +kernel
        rw [commandDb_eq] at e2
        split at e2
        · rename_i q e'
          simp only [Option.some.injEq] at e2; subst e2
          obtain ⟨s, hs, rfl⟩ := Option.map_eq_some_iff.1 e'
          refine vis_good (parser_vis _ _ ?_)
          cases user with
          | mk a b c d ks =>
            simp only [Spec.vis, Bool.and_eq_true] at hu
            exact specsVis_mem hu.2 _ _ (lookup_pair_mem hs)
        · rw [this] at e2; simp at e2
  refine ⟨?_, fun name => argOk_of_good (good name) true, good, ?_⟩
  · intro name
    have e : lookupParser (commandCtx user explicit vartags) name = registered (commandCtx user explicit vartags) name := by
      simp only [lookupParser, registered]
      cases (commandCtx user explicit vartags).db (lower name) with
      | some p => rfl
      | none => cases (commandCtx user explicit vartags).db (S "_default") <;> rfl
    rw [e]
    exact (registered_entry user explicit vartags name).1.flat
  · intro p hp a b hab
    rcases List.mem_cons.1 hp with rfl | hp
    · exact commandVar_upper hab
    · exact hv p hp a b hab

end Verif.Parse
