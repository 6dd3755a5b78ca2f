import Verif.LintSet

/-!
# The arguments of a `list` (lemmas for the naming checks)
-/

namespace Verif.Lint
open Verif Py Lex Parse

variable {ctx : Parse.Ctx}

/-- No argument comes next. -/
def Ended (ts : List Token) : Prop := ∀ t, (semantics ts).head? = some t → t.type = .rparen

/-- What a loop of arguments has stays there. -/
theorem stdLoop_keeps {cmd : Option CmdInfo} {dflt : PSpec} {kwargs : List (Str × ArgP)} {brk kbrk : List Breaker} :
    ∀ (n : Nat) (specs : List PSpec) (acc : List Node) (up : Bool) (ts : List Token) (r : Node × List Token),
    exec ctx n (.stdLoop cmd specs dflt kwargs brk kbrk acc) up ts = .ok r → ∃ cs, r.1 = stdNode cmd (acc ++ cs) := by
  intro n
  induction n with
  | zero => intro specs acc up ts r h; simp [exec] at h
  | succ n ih =>
    intro specs acc up ts r h
    change stdIter (exec ctx n) cmd specs dflt kwargs brk kbrk acc up ts = _ at h
    have next : ∀ {specs' : List PSpec} {c : Node} {rest : List Token},
        exec ctx n (.stdLoop cmd specs' dflt kwargs brk kbrk (acc ++ [c])) up rest = .ok r → ∃ cs, r.1 = stdNode cmd (acc ++ cs) := by
      intro specs' c rest h
      obtain ⟨cs, e⟩ := ih _ _ _ _ _ h
      exact ⟨c :: cs, by rw [e]; simp⟩
    have fin : ∀ {rest : List Token}, (.ok (stdNode cmd acc, rest) : R) = .ok r → ∃ cs, r.1 = stdNode cmd (acc ++ cs) := by
      intro rest h
      simp only [Except.ok.injEq] at h
      subst h
      exact ⟨[], by simp⟩
    cases ts with
    | nil => exact fin h
    | cons t ts =>
      simp only [stdIter] at h
      repeat' split at h
      all_goals first
        | exact fin h
        | exact next h
        | (obtain ⟨⟨sub, rest⟩, h1, h2⟩ := Parse.bind_ok.1 h
           dsimp only at h2
           split at h2
           · simp at h2
           · exact next h2)

theorem Ended.skip {t : Token} {ts : List Token} (h : Ended (t :: ts)) (ht : isSemantic t = false) : Ended ts := by
  unfold Ended at h ⊢
  rwa [sem_skip ht] at h

theorem paren_break {t : Token} (h : shouldBreak t [.paren] = true) : t.type = .rparen := by
  simpa [shouldBreak, Breaker.fires] using h

/-- No argument comes after the end. -/
theorem std_ended {dflt : PSpec} {kwargs : List (Str × ArgP)} {kbrk : List Breaker} (hd : dflt.nargs.exact = false) {up : Bool} :
    ∀ {n : Nat} {acc : List Node} {ts : List Token} {r : Node × List Token}, Ended ts →
    exec ctx n (.stdLoop none [] dflt kwargs [.paren] kbrk acc) up ts = .ok r →
    ∃ cs, r.1 = stdNode none (acc ++ cs) ∧ semantics (toksL cs) = [] := by
  intro n
  induction n with
  | zero => intro acc ts r _ h; simp [exec] at h
  | succ n ih =>
    intro acc ts r he h
    change stdIter (exec ctx n) none [] dflt kwargs [.paren] kbrk acc up ts = _ at h
    have next : ∀ {c : Node} {rest : List Token}, exec ctx n (.stdLoop none [] dflt kwargs [.paren] kbrk (acc ++ [c])) up rest = .ok r →
        Ended rest → semantics c.toks = [] → ∃ cs, r.1 = stdNode none (acc ++ cs) ∧ semantics (toksL cs) = [] := by
      intro c rest h he hc
      obtain ⟨cs, e, hs⟩ := ih he h
      exact ⟨c :: cs, by rw [e]; simp, by rw [toksL_cons, Parse.semantics_append, hs, hc]; rfl⟩
    have fin : ∀ {rest : List Token}, (.ok (stdNode none acc, rest) : R) = .ok r → ∃ cs, r.1 = stdNode none (acc ++ cs) ∧ semantics (toksL cs) = [] := by
      intro rest h
      simp only [Except.ok.injEq] at h
      exact ⟨[], by rw [← h]; simp, by simp [toksL, semantics]⟩
    cases ts with
    | nil => exact fin h
    | cons t ts =>
      simp only [stdIter, List.headD_nil, List.tail_nil] at h
      split at h
      · rename_i hw
        exact next h (he.skip (not_sem (Or.inl hw))) (by simp [Node.toks, semantics, isSemantic, hw])
      · rename_i hw
        split at h
        · rename_i hc
          split at h
          · exact fin h
          · refine next h ?_ (Gen.idle_comment ts hc).2
            unfold Ended
            rw [consumeComment_sem t ts hc]
            exact he.skip (not_sem (Or.inr (Or.inl hc)))
        · rename_i hc
          split at h
          · rename_i ho
            exact next h (he.skip (not_sem (Or.inr (Or.inr ho)))) (by simp [mk, Node.toks, toksL, semantics, isSemantic, ho])
          · rename_i ho
            have hs : isSemantic t = true := sem_of (by simpa using hw) (by simpa using hc) (by simpa using ho)
            have e := he t (by rw [semantics_word hs]; rfl)
            have h4 : shouldBreak t [.paren] = true := by simp [shouldBreak, Breaker.fires, e]
            simp only [h4, hd, Bool.not_false, Bool.true_or, Bool.and_true, if_true] at h
            exact fin h

/-- The first group of a standard command that has one. -/
theorem std_head {spec : PSpec} {specs : List PSpec} {dflt : PSpec} {kwargs : List (Str × ArgP)} {kbrk : List Breaker} {up : Bool}
    (hh1 : specs.headD dflt = spec) (hh2 : specs.tail = []) (hh3 : dflt.nargs.exact = false) :
    ∀ (n : Nat) (acc : List Node) (ts : List Token) (r : Node × List Token), (∀ c ∈ acc, Gen.Idle c) →
    exec ctx n (.stdLoop none specs dflt kwargs [.paren] kbrk acc) up ts = .ok r →
    (∀ u ∈ r.1.toks, TameTok u) → (((kidsOf r.1).find? (hasType .pargGroup)).isSome = true ∨ semToks r.1 ≠ []) →
    ∃ t, nthSem 0 ts = some t ∧ (TameTok t ∧ isWs t = false ∨ kwargs ≠ []) ∧
      ((∀ w, normKwarg t = some w → kwargs.lookup w = none) →
      ∃ pre g ks vs, r.1 = stdNode none (pre ++ g :: ks) ∧ (∀ c ∈ pre, Gen.Idle c) ∧ hasType .pargGroup g = true ∧
        semToks g = t :: vs ∧ (∀ lim, kwargs = [] ∨ spec.nargs.exact = true → (∀ k, pargsFull spec.nargs k = .ok (fullAt lim k)) →
          (∀ m, lim = some m → (semToks g).length ≤ m) ∧
          ((semantics (toksL ks) = [] ∨ ∃ m, lim = some m ∧ (semToks g).length = m) ∨
            kwargs ≠ [] ∧ ∃ u ∈ r.1.toks, isAnyComment u = true))) := by
  intro n
  induction n with
  | zero => intro acc ts r _ h; simp [exec] at h
  | succ n ih =>
    intro acc ts r idle h hc hp
    change stdIter (exec ctx n) none specs dflt kwargs [.paren] kbrk acc up ts = _ at h
    have none_of : r.1 = stdNode none acc → False := by
      intro e
      rw [e] at hp
      replace hp := hp.resolve_right (by
        rw [stdNode, semToks, Node.toks, Gen.semToks_idle idle]
        simp)
      have : (kidsOf (stdNode none acc)).find? (hasType .pargGroup) = none := by
        rw [List.find?_eq_none]
        intro c hcm
        have := (idle c hcm).1
        simp [this]
      rw [this] at hp
      cases hp
    have again : ∀ {c : Node} {rest : List Token}, exec ctx n (.stdLoop none specs dflt kwargs [.paren] kbrk (acc ++ [c])) up rest = .ok r →
        Gen.Idle c → ∀ {l : List Token}, semantics rest = semantics l → _ := fun {c rest} h hi {l} hl => by
      have := ih (acc ++ [c]) rest r (by
        intro d hd
        rcases List.mem_append.1 hd with hd | hd
        · exact idle d hd
        · rw [List.mem_singleton.1 hd]; exact hi) h hc hp
      rw [show nthSem 0 rest = nthSem 0 l by rw [nthSem, nthSem, hl]] at this
      exact this
    cases ts with
    | nil =>
      simp only [stdIter, Except.ok.injEq] at h
      exact (none_of (by rw [← h])).elim
    | cons t us =>
      have kept : ∀ {specs : List PSpec} {acc : List Node} {c : Node} {rest : List Token},
          exec ctx n (.stdLoop none specs dflt kwargs [.paren] kbrk (acc ++ [c])) up rest = .ok r → ∀ u ∈ c.toks, u ∈ r.1.toks := by
        intro specs acc c rest h u hu
        obtain ⟨cs, e⟩ := stdLoop_keeps n _ _ _ _ _ h
        rw [e, stdNode, Node.toks]
        exact Gen.mem_toks_kid (c := c) (by simp) hu
      simp only [stdIter, hh1, hh2] at h
      split at h
      · rename_i hw
        exact again h (Gen.idle_ws hw) (sem_skip (not_sem (Or.inl hw))).symm
      · rename_i hw
        simp only [Bool.not_eq_true] at hw
        split at h
        · rename_i hcm
          split at h
          · simp only [Except.ok.injEq] at h
            exact (none_of (by rw [← h])).elim
          · refine again h (Gen.idle_comment us hcm) ?_
            rw [consumeComment_sem t us hcm, sem_skip (not_sem (Or.inr (Or.inl hcm)))]
        · rename_i hcm
          split at h
          · rename_i ho
            exact again h ⟨rfl, by simp [semToks, mk, Node.toks, toksL, semantics, isSemantic, ho]⟩ (sem_skip (not_sem (Or.inr (Or.inr ho)))).symm
          · rename_i ho
            have hsem : isSemantic t = true := by simp [isSemantic, hw, hcm, ho]
            have hn : nthSem 0 (t :: us) = some t := by
              rw [nthSem, semantics_word hsem]
              rfl
            split at h
            · simp only [Except.ok.injEq] at h
              exact (none_of (by rw [← h])).elim
            · refine ⟨t, hn, ?_, ?_⟩
              · by_cases hk : kwargs = []
                · left
                  subst hk
                  simp only [List.lookup, Option.map_none, Option.bind_fun_none] at h
                  obtain ⟨⟨sub, rest⟩, h1, h2⟩ := Parse.bind_ok.1 h
                  dsimp only at h2
                  split at h2
                  · simp at h2
                  · rename_i hlt
                    exact ⟨hc _ (kept h2 t (Gen.pos_first hw h1 (by simpa using hlt))), hw⟩
                · exact Or.inr hk
              · intro hkw
                have hnone : (normKwarg t).bind (fun w => (kwargs.lookup w).map (fun p => (w, p))) = none := by
                  cases hq : normKwarg t with
                  | none => rfl
                  | some w => simp [hkw w hq]
                rw [hnone] at h
                obtain ⟨⟨sub, rest⟩, h1, h2⟩ := Parse.bind_ok.1 h
                dsimp only at h2
                split at h2
                · simp at h2
                · rename_i hlt
                  have hin : ∀ u ∈ sub.toks, TameTok u := fun u hu => hc u (kept h2 u hu)
                  obtain ⟨vs, hvs⟩ := pos_tame_head hsem h1 (by simpa using hlt) hin
                  obtain ⟨cs, e⟩ := stdLoop_keeps n _ _ _ _ _ h2
                  have hgr : hasType .pargGroup sub = true := by
                    cases n with
                    | zero => simp [exec] at h1
                    | succ n =>
                      change posStart (exec ctx n) _ _ _ _ = _ at h1
                      obtain ⟨a, more, e⟩ := posLoop_prefix _ _ _ _ _ _ h1
                      dsimp only at e
                      rw [e]
                      rfl
                  refine ⟨acc, sub, cs, vs, by rw [e]; simp, idle, hgr, hvs, ?_⟩
                  intro lim hk hf
                  obtain ⟨_, _, _, hle, hor⟩ := pos_reads hf h1 fun u hu => (hin u hu).lparen
                  refine ⟨hle, ?_⟩
                  have ended : Ended rest → semantics (toksL cs) = [] := by
                    intro he
                    obtain ⟨cs', e2, hs⟩ := std_ended hh3 he h2
                    rw [e, stdNode, stdNode] at e2
                    simp only [Node.node.injEq, true_and] at e2
                    rw [List.append_cancel_left e2]
                    exact hs
                  have flat : kwargs = [] → ∀ u, shouldBreak u ([.paren] ++ [kwBreaker (keys kwargs ++ List.flatMap
                      (fun o : PSpec => o.flags.filter (fun f => !spec.flags.contains f)) [])]) = true → u.type = .rparen := by
                    rintro rfl u hu
                    simpa [shouldBreak, Breaker.fires, kwBreaker, keys] using hu
                  rcases hor with (he | ⟨_, ⟨c, vs', e1, hcc⟩, he⟩) | he
                  · refine Or.inl (Or.inl (ended ?_))
                    intro u hu
                    cases rest with
                    | nil => simp [semantics] at hu
                    | cons x xs =>
                      have hx : x.type = .rparen := by
                        rcases hk with hk | hk
                        · exact flat hk x (he x rfl).1
                        · exact (he x rfl).2 hk
                      have : isSemantic x = true := by simp [isSemantic, isWs, isAnyComment, isOnOff, hx]
                      rw [semantics_word this] at hu
                      simp only [List.head?_cons, Option.some.injEq] at hu
                      rw [← hu]
                      exact hx
                  · by_cases hkn : kwargs = []
                    · exact Or.inl (Or.inl (ended fun u hu => flat hkn u (he u hu)))
                    · dsimp only at e1
                      subst e1
                      cases n with
                      | zero => simp [exec] at h2
                      | succ n =>
                        change stdIter (exec ctx n) none _ _ kwargs [.paren] kbrk _ up (c :: vs') = _ at h2
                        have hcw : isWs c = false := by
                          revert hcc
                          unfold isWs isAnyComment
                          cases c.type <;> decide
                        simp only [stdIter, hcw, hcc, Bool.false_eq_true, if_false, if_true] at h2
                        split at h2
                        · rename_i hup
                          simp only [Except.ok.injEq] at h2
                          refine Or.inl (Or.inl ?_)
                          rw [← h2] at e
                          simp only [stdNode, Node.node.injEq, true_and] at e
                          have : cs = [] := by simpa using e
                          rw [this]
                          rfl
                        · refine Or.inr ⟨hkn, c, ?_, hcc⟩
                          obtain ⟨cs', e'⟩ := stdLoop_keeps n _ _ _ _ _ h2
                          rw [e', stdNode, Node.toks]
                          exact Gen.mem_toks_kid (c := (consumeComment c vs').1) (by simp) (Gen.comment_head c vs' hcc)
                  · exact Or.inl (Or.inr he)

theorem std_first {nargs : Nargs} {kwargs : List (Str × ArgP)} {flags : List Str} {n : Nat} {up : Bool} {ts : List Token}
    {r : Node × List Token} (h : exec ctx n (.arg (std nargs kwargs flags) [.paren]) up ts = .ok r)
    (hc : ∀ u ∈ r.1.toks, TameTok u) (hp : ((kidsOf r.1).find? (hasType .pargGroup)).isSome = true ∨ semToks r.1 ≠ []) :
    ∃ t, nthSem 0 ts = some t ∧ (TameTok t ∧ isWs t = false ∨ kwargs ≠ []) ∧
      ((∀ w, normKwarg t = some w → kwargs.lookup w = none) →
      ∃ pre g ks vs, r.1 = stdNode none (pre ++ g :: ks) ∧ (∀ c ∈ pre, Gen.Idle c) ∧ hasType .pargGroup g = true ∧
        semToks g = t :: vs ∧ (∀ lim, kwargs = [] ∨ nargs.exact = true → (∀ k, pargsFull nargs k = .ok (fullAt lim k)) →
          (∀ m, lim = some m → (semToks g).length ≤ m) ∧
          ((semantics (toksL ks) = [] ∨ ∃ m, lim = some m ∧ (semToks g).length = m) ∨
            kwargs ≠ [] ∧ ∃ u ∈ r.1.toks, isAnyComment u = true))) := by
  cases n with
  | zero => simp [exec] at h
  | succ n =>
    change stdStart (exec ctx n) none _ kwargs [.paren] up ts = _ at h
    simp only [stdStart] at h
    generalize hds : splitSpecs [{ nargs := nargs, flags := flags, legacy := true }] = ds at h
    have hhead : ds.2.headD ds.1 = { nargs := nargs, flags := flags, legacy := true } ∧ ds.2.tail = [] ∧ ds.1.nargs.exact = false := by
      rw [← hds]
      unfold splitSpecs
      simp only [Bool.true_and]
      by_cases hx : nargs.exact = true
      · have hs : (Nargs.str (S "*")).exact = false := by decide
        simp [hx, defaultSpec, hs]
      · simp [hx]
    obtain ⟨hh1, hh2, hh3⟩ := hhead
    have := std_head hh1 hh2 hh3 n _ _ _ (Gen.idle_leaves ts) h hc hp
    have e : nthSem 0 (ts.dropWhile isWs) = nthSem 0 ts := by
      have : semantics ts = semantics (ts.dropWhile isWs) := by
        calc semantics ts = semantics (ts.takeWhile isWs ++ ts.dropWhile isWs) := by rw [List.takeWhile_append_dropWhile]
          _ = _ := by rw [Parse.semantics_append, semantics_take, List.nil_append]
      rw [nthSem, nthSem, this]
    rw [e] at this
    exact this

/-! ## The variable of a `list` -/

theorem getLast_take {ts : List Token} {g ks : List Token} {m : Nat} (e : ts = g ++ ks) (hg : g ≠ [])
    (h : ks = [] ∨ g.length = m) (hm : ks = [] → g.length ≤ m) : (ts.take m).getLast? = g.getLast? := by
  rcases h with h | h
  · subst h
    rw [e, List.append_nil, List.take_of_length_le (hm rfl)]
  · rw [e, ← h, List.take_left]

/-- The forms of `list` are standard commands. -/
theorem list_forms {k : Str} {p : ArgP} (h : (k, p) ∈ listTable) :
    k.head? ≠ some '-' ∧ ∃ nargs kwargs flags, p = std nargs kwargs flags ∧ kwargs.lookup k = none := by
  simp only [listTable, List.mem_cons, List.not_mem_nil, or_false, Prod.mk.injEq] at h
  rcases h with ⟨rfl, rfl⟩ | ⟨rfl, rfl⟩ | ⟨rfl, rfl⟩ | ⟨rfl, rfl⟩ | ⟨rfl, rfl⟩ | ⟨rfl, rfl⟩ | ⟨rfl, rfl⟩ | ⟨rfl, rfl⟩ | ⟨rfl, rfl⟩ |
    ⟨rfl, rfl⟩ | ⟨rfl, rfl⟩ | ⟨rfl, rfl⟩ | ⟨rfl, rfl⟩ | ⟨rfl, rfl⟩ | ⟨rfl, rfl⟩ | ⟨rfl, rfl⟩ | ⟨rfl, rfl⟩
  all_goals exact ⟨by decide, _, _, _, rfl, by rfl⟩

theorem norm_upper {t : Token} {w : Str} (h : normKwarg t = some w) : w = upper t.spelling ∨ (upper t.spelling).head? = some '-' := by
  unfold normKwarg at h
  split at h
  · rename_i hs
    right
    cases e : t.spelling with
    | nil => rw [e] at hs; simp [startsWith, stripPrefix?] at hs
    | cons c cs =>
      rw [e] at hs
      have : c = '-' := by
        simp [startsWith, stripPrefix?] at hs
        by_cases e : '-' = c
        · exact e.symm
        · simp [e] at hs
      subst this
      rfl
  · split at h
    · simp at h
    · simp only [Option.some.injEq] at h
      exact Or.inl h.symm

/-- What the table says for the forms with a result. -/
theorem list_results : listTable.lookup (S "LENGTH") = some (std (.int 3) [] [S "LENGTH"]) ∧
    listTable.lookup (S "GET") = some (std (.str (S "4+")) [] [S "GET"]) ∧
    listTable.lookup (S "JOIN") = some (std (.int 4) [] [S "JOIN"]) ∧
    listTable.lookup (S "SUBLIST") = some (std (.int 5) [] [S "SUBLIST"]) := ⟨rfl, rfl, rfl, rfl⟩

theorem full_get : ∀ k, pargsFull (.str (S "4+")) k = .ok (fullAt none k) := fun _ => rfl

/-- **The result of a `list`.** -/
theorem list_outvar {s : Node} {n : Nat} {up : Bool} {ts : List Token} {rest : List Token}
    (h : exec ctx n (.arg listFn [.paren]) up ts = .ok (argTree s, rest)) (hc : ∀ u ∈ (argTree s).toks, TameTok u)
    {v : Option Token} (hv : listOutvar s = .ok v) : v = listResult (semToks (argTree s)) := by
  simp only [listOutvar, res_bind] at hv
  obtain ⟨ws, hg, hv⟩ := hv
  have hp : ((kidsOf (argTree s)).find? (hasType .pargGroup)).isSome = true := by
    unfold firstGroup at hg
    split at hg
    · split at hg
      · simp at hg
      · rename_i g e
        rw [e]
        rfl
    · simp at hg
  -- the group, whichever form it is
  have key : ∀ {nargs : Nargs} {kwargs : List (Str × ArgP)} {flags : List Str} {m : Nat} {t : Token},
      exec ctx m (.arg (std nargs kwargs flags) [.paren]) up ts = .ok (argTree s, rest) → nthSem 0 ts = some t →
      (∀ w, normKwarg t = some w → kwargs.lookup w = none) →
      ∃ vs ks, ws = t :: vs ∧ semToks (argTree s) = ws ++ ks ∧
        (∀ lim, kwargs = [] → (∀ k, pargsFull nargs k = .ok (fullAt lim k)) →
          (∀ m, lim = some m → ws.length ≤ m) ∧ (ks = [] ∨ ∃ m, lim = some m ∧ ws.length = m)) := by
    intro nargs kwargs flags m t h hn hk
    obtain ⟨t', h1, _, h2⟩ := std_first h hc (Or.inl hp)
    rw [hn] at h1
    simp only [Option.some.injEq] at h1
    subst h1
    obtain ⟨pre, g, ks, vs, e, hi, hgr, hs, hl⟩ := h2 hk
    dsimp only at e
    have hw : ws = semToks g := by
      unfold firstGroup at hg
      split at hg
      · rw [show kidsOf (argTree s) = pre ++ g :: ks by rw [e]; rfl, Gen.find_group hi hgr] at hg
        simpa using hg.symm
      · simp at hg
    refine ⟨vs, semantics (toksL ks), by rw [hw, hs], ?_, ?_⟩
    · rw [hw, e, semToks, stdNode, Node.toks, toksL_append, toksL_cons, Parse.semantics_append, Parse.semantics_append,
        Gen.semToks_idle hi, List.nil_append]
      rfl
    · intro lim h1 h2
      rw [hw]
      obtain ⟨k1, k2⟩ := hl lim (Or.inl h1) h2
      exact ⟨k1, k2.resolve_right fun h => h.1 h1⟩
  have fixed : ∀ {m i : Nat} {t : Token} {flags : List Str}, exec ctx i (.arg (std (.int m) [] flags) [.paren]) up ts = .ok (argTree s, rest) →
      nthSem 0 ts = some t → ∃ vs ks, ws = t :: vs ∧ semToks (argTree s) = t :: ks ∧ ((semToks (argTree s)).take m).getLast? = ws.getLast? := by
    intro m i t flags h hn
    obtain ⟨vs, ks, e1, e2, e3⟩ := key h hn (by simp)
    obtain ⟨hl, ho⟩ := e3 (some m) rfl (full_int m)
    refine ⟨vs, vs ++ ks, e1, by rw [e2, e1]; rfl, getLast_take e2 (by rw [e1]; simp) ?_ fun _ => hl m rfl⟩
    rcases ho with ho | ⟨m', hm, ho⟩
    · exact Or.inl ho
    · simp only [Option.some.injEq] at hm
      exact Or.inr (hm ▸ ho)
  cases n with
  | zero => simp [exec] at h
  | succ n =>
    change argStart (exec ctx n) listFn [.paren] up ts = _ at h
    simp only [argStart, listFn, byFirst] at h
    cases hn : nthSem 0 ts with
    | none =>
      rw [hn] at h
      obtain ⟨t, h1, _⟩ := std_first h hc (Or.inl hp)
      rw [hn] at h1
      cases h1
    | some t =>
      rw [hn] at h
      have other : ∀ {nargs : Nargs} {kwargs : List (Str × ArgP)} {flags : List Str} {m : Nat},
          exec ctx m (.arg (std nargs kwargs flags) [.paren]) up ts = .ok (argTree s, rest) →
          (∀ w, normKwarg t = some w → kwargs.lookup w = none) →
          [S "LENGTH", S "GET", S "JOIN", S "SUBLIST"].contains (upper t.spelling) = false → v = listResult (semToks (argTree s)) := by
        intro nargs kwargs flags m h hk hno
        obtain ⟨vs, ks, e1, e2, _⟩ := key h hn hk
        subst e1
        simp only [hno, res_pure, Bool.false_eq_true, if_false] at hv
        rw [e2, List.cons_append, listResult, ← hv]
        simp only [List.contains_eq_mem, List.mem_cons, List.not_mem_nil, or_false, decide_eq_false_iff_not, not_or] at hno
        obtain ⟨n1, n2, n3, n4⟩ := hno
        have w : ∀ {x : Str}, upper t.spelling ≠ x → wordIs x t = false := fun h => by simpa [wordIs] using h
        rw [w (x := c! "LENGTH") n1, w (x := c! "GET") n2, w (x := c! "JOIN") n3, w (x := c! "SUBLIST") n4]
        rfl
      dsimp only at h
      by_cases hty : t.type = .rparen ∨ t.type = .deref
      · rw [if_pos hty] at h
        refine other (nargs := .str (S "*")) (kwargs := []) (flags := []) h (by simp) ?_
        obtain ⟨t', h1, h2, _⟩ := std_first h hc (Or.inl hp)
        rw [hn] at h1
        simp only [Option.some.injEq] at h1
        subst h1
        rcases h2 with ⟨h2, _⟩ | h2
        · rcases hty with hty | hty
          · exact absurd hty h2.rparen
          · have := h2.deref hty
            cases e : t.spelling with
            | nil => rw [e] at this; simp at this
            | cons c cs =>
              rw [e] at this
              simp only [List.head?_cons, Option.some.injEq] at this
              subst this
              have hh : (upper ('$' :: cs)).head? = some '$' := rfl
              simp only [List.contains_eq_mem, List.mem_cons, List.not_mem_nil, or_false, decide_eq_false_iff_not, not_or]
              refine ⟨?_, ?_, ?_, ?_⟩ <;> intro e <;> rw [e] at hh <;> revert hh <;> decide
        · exact absurd rfl h2
      · rw [if_neg hty] at h
        cases hlk : listTable.lookup (upper t.spelling) with
        | none =>
          rw [hlk] at h
          refine other (nargs := .str (S "*")) (kwargs := []) (flags := []) h (by simp) ?_
          simp only [List.contains_eq_mem, List.mem_cons, List.not_mem_nil, or_false, decide_eq_false_iff_not, not_or]
          refine ⟨?_, ?_, ?_, ?_⟩ <;> intro e <;> rw [e] at hlk
          · rw [list_results.1] at hlk; cases hlk
          · rw [list_results.2.1] at hlk; cases hlk
          · rw [list_results.2.2.1] at hlk; cases hlk
          · rw [list_results.2.2.2] at hlk; cases hlk
        | some p =>
          rw [hlk] at h
          simp only [Option.getD_some] at h
          obtain ⟨hhd, nargs, kwargs, flags, rfl, hk⟩ := list_forms (lookup_pair_mem hlk)
          have hk' : ∀ w, normKwarg t = some w → kwargs.lookup w = none := by
            intro w hw
            rcases norm_upper hw with rfl | e
            · exact hk
            · exact absurd e hhd
          have four : ∀ {vs : List Token}, ws = t :: vs →
              [S "LENGTH", S "GET", S "JOIN", S "SUBLIST"].contains (upper t.spelling) = true → v = ws.getLast? := by
            intro vs e hx
            subst e
            simp only [hx, res_pure, if_true] at hv
            exact hv.symm
          by_cases n1 : upper t.spelling = S "LENGTH"
          · rw [n1, list_results.1] at hlk
            simp only [Option.some.injEq] at hlk
            rw [← hlk] at h
            obtain ⟨vs, ks, e1, e2, e3⟩ := fixed (m := 3) h hn
            rw [four e1 (by rw [n1]; decide), ← e3, e2, listResult, if_pos (by simp only [wordIs, n1]; decide)]
          by_cases n2 : upper t.spelling = S "GET"
          · rw [n2, list_results.2.1] at hlk
            simp only [Option.some.injEq] at hlk
            rw [← hlk] at h
            obtain ⟨vs, ks, e1, e2, e3⟩ := key h hn (by simp)
            obtain ⟨_, ho⟩ := e3 none rfl full_get
            have : ks = [] := by simpa using ho
            rw [this, List.append_nil] at e2
            rw [four e1 (by rw [n2]; decide), e2, e1, listResult, if_neg (by simp only [wordIs, n2]; decide),
              if_pos (by simp only [wordIs, n2]; decide)]
          by_cases n3 : upper t.spelling = S "JOIN"
          · rw [n3, list_results.2.2.1] at hlk
            simp only [Option.some.injEq] at hlk
            rw [← hlk] at h
            obtain ⟨vs, ks, e1, e2, e3⟩ := fixed (m := 4) h hn
            rw [four e1 (by rw [n3]; decide), ← e3, e2, listResult, if_neg (by simp only [wordIs, n3]; decide),
              if_neg (by simp only [wordIs, n3]; decide), if_pos (by simp only [wordIs, n3]; decide)]
          by_cases n4 : upper t.spelling = S "SUBLIST"
          · rw [n4, list_results.2.2.2] at hlk
            simp only [Option.some.injEq] at hlk
            rw [← hlk] at h
            obtain ⟨vs, ks, e1, e2, e3⟩ := fixed (m := 5) h hn
            rw [four e1 (by rw [n4]; decide), ← e3, e2, listResult, if_neg (by simp only [wordIs, n4]; decide),
              if_neg (by simp only [wordIs, n4]; decide), if_neg (by simp only [wordIs, n4]; decide),
              if_pos (by simp only [wordIs, n4]; decide)]
          exact other h hk' (by simp [n1, n2, n3, n4])

end Verif.Lint
