import Verif.Switch
import Verif.ParseSwitch
import Verif.Props.Blocks

/-!
# The text of a file with format switches between statements
-/

namespace Verif.Layout
open Verif Py Lex Parse

section
variable {cfg : Cfg} {ctx : Ctx}

/-! ## Single blocks -/

theorem node_of_box {k : Blk} (h : k.Ok cfg ctx) : ∃ a cs, k.node = .node k.box.ty a cs := by
  have hb := h.boxes
  rcases boxOf_cases k.node with he | ⟨ty, a, cs, e, he⟩
  · rw [he] at hb; simp [lockL] at hb
  · rw [he] at hb
    simp only [lockL, List.cons.injEq, and_true] at hb
    refine ⟨a, cs, ?_⟩
    rw [← hb, (lock_same cfg _).1, e]; rfl

theorem unit_of_block {k : Blk} (h : k.Ok cfg ctx) (hs : switchOf k.node = none) : isUnit k.box.ty = true := by
  have hu := h.unit
  simp only [isUnit', Bool.or_eq_true, beq_iff_eq] at hu
  rcases hu with hu | hu
  · exact hu
  · obtain ⟨a, cs, e⟩ := node_of_box h
    rw [hu] at e
    have hn := h.neat
    rw [e] at hn hs
    obtain ⟨t, rfl, -⟩ := (neat_node.1 hn).1
    simp [switchOf] at hs

theorem switchOf_some {n : Node} {t : Token} (h : switchOf n = some t) : ∃ a, n = .node .onoff a [.tok t] := by
  unfold switchOf at h
  split at h
  · simp only [Option.some.injEq] at h; subst h; exact ⟨_, rfl⟩
  · simp at h

theorem right_len (c : Cur) (s : Str) (h : '\n' ∉ s) : advance c s = c.right s.length := by
  induction s generalizing c with
  | nil => rfl
  | cons x s ih =>
    simp only [List.mem_cons, not_or] at h
    rw [advance, if_neg (Ne.symm h.1), ih _ h.2]
    simp [Cur.right]; omega

theorem withEndings_flat (endl s : Str) (h : '\n' ∉ s) : withEndings endl s = s := by
  induction s with
  | nil => rfl
  | cons x s ih =>
    simp only [List.mem_cons, not_or] at h
    rw [withEndings, if_neg (Ne.symm h.1), ih h.2]; rfl

theorem switch_block {k : Blk} {t : Token} (h : k.Ok cfg ctx) (hs : switchOf k.node = some t) :
    isOnOff t = true ∧ k.stop = k.start.right (switchText t).length ∧
    ∀ content w, writeNode cfg content none k.laid w = writeSwitch cfg content k.start t w := by
  obtain ⟨a, e⟩ := switchOf_some hs
  have hb := h.boxes
  have hn := h.neat
  have hp := h.placed
  rw [e] at hb hn
  obtain ⟨t', e', ht⟩ := (neat_node.1 hn).1
  simp only [List.cons.injEq, Node.tok.injEq, and_true] at e'
  subst e'
  have : lockL cfg (boxOf (.node .onoff a [.tok t])) = [.mk .onoff a [.tok t] []] := by
    simp [boxOf, boxesOf, lockL, lock]
  rw [this] at hb
  simp only [List.cons.injEq, and_true] at hb
  rw [← hb] at hp
  generalize k.laid = l at *
  cases l with
  | mk ty' a' pk' info lines kids' =>
    simp only [Placed] at hp
    obtain ⟨rfl, rfl, rfl, hpos, _, _, t', h1, h2, _⟩ := hp
    have : headTok [Node.tok t] = .ok t := rfl
    rw [this] at h1
    simp only [Except.ok.injEq] at h1
    subst h1
    refine ⟨ht, h2, fun content w => ?_⟩
    simp only [writeNode, this, hpos]

/-- The blank space before a block. -/
def lead (endl : Str) (cur : Cur) (r col : Nat) : Str :=
  (List.replicate (r - cur.row) endl).flatten ++ List.replicate col ' '

theorem space_lead {endl : Str} {cur : Cur} {r col : Nat} (h1 : cur.row ≤ r) (h2 : cur.row = r → cur.col = 0) :
    space endl cur ⟨r, col⟩ = lead endl cur r col := by
  unfold space lead
  split
  · rfl
  · rename_i hn
    simp only at hn
    have e : cur.row = r := by omega
    rw [h2 e, e]; simp

theorem lastStop_of {ps : List Piece} {c : Cur} {q : Piece} (h : ps.getLast? = some q) : lastStop c ps = q.stop := by
  induction ps generalizing c with
  | nil => simp at h
  | cons p ps ih =>
    cases ps with
    | nil =>
      simp only [List.getLast?_singleton, Option.some.injEq] at h
      subst h; rfl
    | cons p2 ps =>
      simp only [List.getLast?_cons_cons] at h
      exact ih (c := p.stop) h

/-- Writing a text without line feed. -/
theorem writeAt_flat {w w' : W} {c : Cur} {s : Str} (h : writeAt cfg w c s = .ok w') (hs : '\n' ∉ s) :
    w' = { out := w.out ++ space cfg.endl w.cur c ++ s, cur := c.right s.length, off := w.off } := by
  have : writePieces cfg [⟨.word, c, s⟩] w = .ok w' := by
    simp only [writePieces, h]; rfl
  rw [writePieces_iff] at this
  rw [this.2]
  simp [weave, lastStop, Piece.stop, right_len _ _ hs, withEndings_flat _ _ hs]

/-- A block that is formatted. -/
theorem active_block {W' : Token → Piece → Prop} (R : Rule cfg ctx W') (hcfg : Markup.CleanCfg cfg.markup) {content : Str}
    {k : Blk} {w w' : W}
    (h : k.Ok cfg ctx) (hs : switchOf k.node = none) (ht : ∀ t ∈ k.node.toks, TokOk t ∧ ParenOk t)
    (hset : settled k.node = true) (hw : w.off = none) (hwr : writeNode cfg content none k.laid w = .ok w') :
    ∃ ps, w' = { out := w.out ++ weave cfg.endl w.cur ps, cur := k.stop, off := none } ∧ InOrder w.cur ps ∧ Linked ps ∧
      Unit' cfg W' k.start k.node ps k.stop := by
  have hu := unit_of_block h hs
  obtain ⟨a, cs, e⟩ := node_of_box h
  have hn := h.neat
  have hb := h.boxes
  have hp := h.placed
  rw [e] at hn hb ht hset
  have hfine : Fine ctx (.node k.box.ty a cs) := ⟨hn, fun t h => (ht t h).1, hset⟩
  have hmem : k.box ∈ lockL cfg (boxOf (.node k.box.ty a cs)) := by rw [hb]; simp
  have htidy := (both_node (cfg := cfg) _ hfine _ hmem).1
  have hfr := framed_node (cfg := cfg) _ hn _ hmem
  have hsrc := sourced_node (cfg := cfg) _ hn (fun t h => (ht t h).2) _ hmem
  obtain ⟨ps, hps, hwp⟩ := writeNode_ok k.laid none _ _ (Props.Layout.noSwitch_node k.box _ _ _ htidy hp) hw hwr
  have hcon : boxOf (.node k.box.ty a cs) = [.mk k.box.ty a cs (boxesOf cs)] := by
    rcases boxOf_cases (.node k.box.ty a cs) with h | ⟨ty', a', cs', e, h⟩
    · rw [h] at hb; simp [lockL] at hb
    · simp only [Node.node.injEq] at e
      obtain ⟨e1, rfl, rfl⟩ := e
      rw [← e1] at h
      exact h
  have hbe : k.box = lock cfg (.mk k.box.ty a cs (boxesOf cs)) := by
    rw [hcon] at hb
    simp only [lockL, List.cons.injEq, and_true] at hb
    exact hb.symm
  obtain ⟨gs, e1, hst⟩ := stack_unit (unit_rule R hcfg) hcfg (d := k.depth) hu hn (fun t h => (ht t (by simpa using h)).1) hcon hbe htidy hfr hsrc hp
    hps h.col
  have hunit : Unit' cfg W' k.start k.node ps k.stop := by
    match gs, e1, hst with
    | [], _, hst => simp [Stacked] at hst
    | g :: gs, e1, hst =>
      simp only [Stacked] at hst
      obtain ⟨o, h1, h2, -⟩ := hst
      subst h2
      simp only [List.flatten_cons, List.flatten_nil, List.append_nil] at e1
      subst e1
      have hspan := unit_spans hcfg hu htidy hfr hsrc hp hps
      exact ⟨hspan, by rw [e]; exact h1.2⟩
  rw [writePieces_iff] at hwp
  obtain ⟨hord, hw'⟩ := hwp
  obtain ⟨q, hq, hstop⟩ := hunit.1.2
  have hl := (chain_node (cfg := cfg) hcfg k.box _ k.laid _ none ps none htidy hp hps (by simp)).1
  refine ⟨ps, ?_, hord, by simpa using hl, hunit⟩
  rw [hw', lastStop_of hq, hstop, hw]

/-! ## From one switch to the next -/

/-- Whether the switches of events are `off`. -/
def offs (es : List Event) : List Bool := (es.filterMap eventSwitch).map fun t => t.type == .formatOff

theorem find_on : ∀ {es : List Event} {ks : List Blk} {r r' : Nat}, Piled cfg ctx r es ks r' → closed true (offs es) = true →
    ∃ mid d m es' u kmid k ks', es = mid ++ .block d m :: es' ∧ (∀ e ∈ mid, eventSwitch e = none) ∧
      switchOf m = some u ∧ u.type ≠ .formatOff ∧ ks = kmid ++ k :: ks' ∧ k.node = m ∧ k.Ok cfg ctx ∧
      Piled cfg ctx (k.stop.row + 1) es' ks' r' ∧ (∀ x ∈ kmid, x.Ok cfg ctx ∧ switchOf x.node = none) ∧
      formattedBlocks true es = formattedBlocks false es' ∧ closed false (offs es') = true ∧
      es.filterMap eventSwitch = u :: es'.filterMap eventSwitch
  | [], _, _, _, _, hc => by simp [offs, closed] at hc
  | .blank :: es, ks, r, r', h, hc => by
    simp only [Piled] at h
    obtain ⟨mid, d, m, es', u, kmid, k, ks', h1, h2, h3, h4, h5, h6, h7, h8, h9, h10, h11, h12⟩ := find_on h hc
    refine ⟨.blank :: mid, d, m, es', u, kmid, k, ks', by rw [h1]; rfl, ?_, h3, h4, h5, h6, h7, h8, h9, ?_, h11, ?_⟩
    · intro e he
      rcases List.mem_cons.1 he with rfl | he
      · rfl
      · exact h2 e he
    · simpa [formattedBlocks] using h10
    · exact h12
  | .block d n :: es, [], r, r', h, hc => by simp [Piled] at h
  | .block d n :: es, k :: ks, r, r', h, hc => by
    simp only [Piled] at h
    obtain ⟨rfl, hn, hr, hok, h⟩ := h
    cases hsw : switchOf n with
    | some u =>
      have hf : (Event.block k.depth n :: es).filterMap eventSwitch = u :: es.filterMap eventSwitch := by
        simp [eventSwitch, hsw]
      simp only [offs, hf, List.map_cons, closed, Bool.true_and, Bool.and_eq_true, Bool.not_eq_true'] at hc
      refine ⟨[], k.depth, n, es, u, [], k, ks, rfl, by simp, hsw, by simpa using hc.1, rfl, hn, hok, h, by simp, ?_, ?_, hf⟩
      · simp only [formattedBlocks, hsw, hc.1]
      · have h2 := hc.2
        rw [hc.1] at h2
        exact h2
    | none =>
      have hf : (Event.block k.depth n :: es).filterMap eventSwitch = es.filterMap eventSwitch := by
        simp [eventSwitch, hsw]
      obtain ⟨mid, d, m, es', u, kmid, k2, ks', h1, h2, h3, h4, h5, h6, h7, h8, h9, h10, h11, h12⟩ := find_on h (by
        simpa only [offs, hf] using hc)
      refine ⟨.block k.depth n :: mid, d, m, es', u, k :: kmid, k2, ks', by rw [h1]; rfl, ?_, h3, h4, by rw [h5]; rfl, h6, h7, h8, ?_,
        ?_, h11, by rw [hf]; exact h12⟩
      · intro e he
        rcases List.mem_cons.1 he with rfl | he
        · exact hsw
        · exact h2 e he
      · intro x hx
        rcases List.mem_cons.1 hx with rfl | hx
        · exact ⟨hok, by rw [hn]; exact hsw⟩
        · exact h9 x hx
      · simp only [formattedBlocks, hsw, if_true]
        exact h10

theorem skip_blocks {content : Str} {ks : List Blk} {w : W} (h : ∀ x ∈ ks, x.Ok cfg ctx ∧ switchOf x.node = none)
    (hw : w.off.isSome = true) : writeUnits cfg content (ks.map (·.laid)) w = .ok w := by
  induction ks with
  | nil => rfl
  | cons k ks ih =>
    obtain ⟨hok, hs⟩ := h k (by simp)
    simp only [List.map_cons, writeUnits]
    rw [skip_unit (by rw [placed_ty hok.placed]; exact unit_of_block hok hs) hw]
    exact ih fun x hx => h x (by simp [hx])

theorem filter_split {α : Type} {p : α → Bool} {l : List α} {a : α} {as : List α} (h : l.filter p = a :: as) :
    ∃ l1 l2, l = l1 ++ a :: l2 ∧ (∀ x ∈ l1, p x = false) ∧ l2.filter p = as := by
  rw [List.filter_eq_cons_iff] at h
  obtain ⟨l1, l2, h1, h2, h3, h4⟩ := h
  exact ⟨l1, l2, h1, fun x hx => by simpa using h2 x hx, h4⟩

/-- Adding a block to a page. -/
theorem add_block {endl out out1 out' : Str} {cur : Cur} {r d tab : Nat} {s : Str} {ss : List Shown} {row next : Nat}
    (h1 : out1 = out ++ lead endl cur r (d * tab) ++ s)
    (hn : next = row + 1)
    (h2 : trimBlanks ss = [] → out' = out1)
    (h3 : trimBlanks ss ≠ [] → out' ++ endl = out1 ++ (List.replicate (next - row) endl).flatten ++ page endl tab (trimBlanks ss)) :
    out' ++ endl = out ++ (List.replicate (r - cur.row) endl).flatten ++ page endl tab (trimBlanks (.block d s :: ss)) := by
  have e : out' ++ endl = out1 ++ endl ++ page endl tab (trimBlanks ss) := by
    by_cases hs : trimBlanks ss = []
    · rw [h2 hs, hs]; simp [page]
    · rw [h3 hs]
      have : next - row = 1 := by omega
      rw [this]; simp
  rw [e, h1]
  simp [trimBlanks, page, lead]

/-- The text below a position, with switches. -/
theorem shown_of {W' : Token → Piece → Prop} (R : Rule cfg ctx W') (hcfg : Markup.CleanCfg cfg.markup) {content : Str}
    {ts : List Token} (hbom : content.head? ≠ some BOM) (hts : tokenize content = .ok ts) :
    ∀ (fuel : Nat) (es : List Event) (ks : List Blk) (r r' : Nat) (w w' : W) (front rest : List Token), es.length ≤ fuel →
    Piled cfg ctx r es ks r' →
    (∀ d n, Event.block d n ∈ es → switchOf n = none → ∀ t ∈ n.toks, TokOk t ∧ ParenOk t) →
    (∀ n ∈ formattedBlocks false es, settled n = true) → closed false (offs es) = true →
    ts = front ++ rest → rest.filter isOnOff = es.filterMap eventSwitch →
    writeUnits cfg content (ks.map (·.laid)) w = .ok w' → w.off = none → w.cur.row ≤ r → (w.cur.row = r → w.cur.col = 0) →
    ∃ ss, Shows' (fun d n s => BlockText cfg.endl cfg.autosort W' (d * cfg.tabSize) n s) rest es ss ∧
      (trimBlanks ss = [] → w'.out = w.out) ∧
      (trimBlanks ss ≠ [] → w'.out ++ cfg.endl =
        w.out ++ (List.replicate (r - w.cur.row) cfg.endl).flatten ++ page cfg.endl cfg.tabSize (trimBlanks ss))
  | _, [], ks, r, r', w, w', front, rest, _, h, _, _, _, _, hsw, hw, _, _, _ => by
    obtain ⟨rfl, rfl⟩ := h
    simp only [List.map_nil, writeUnits, Except.ok.injEq] at hw
    subst hw
    refine ⟨[], .nil ?_, fun _ => rfl, fun h => absurd rfl h⟩
    simp only [List.filterMap_nil, List.filter_eq_nil_iff] at hsw
    exact fun x hx => by simpa using hsw x hx
  | 0, _ :: _, _, _, _, _, _, _, _, hlen, _, _, _, _, _, _, _, _, _, _ => by simp at hlen
  | fuel + 1, .blank :: es, ks, r, r', w, w', front, rest, hlen, h, ht, hset, hcl, hfr, hsw, hw, hoff, h1, h2 => by
    simp only [Piled] at h
    simp only [List.length_cons] at hlen
    obtain ⟨ss, s1, s2, s3⟩ := shown_of R hcfg hbom hts fuel es ks (r + 1) r' w w' front rest (by omega) h
      (fun d n hm => ht d n (by simp [hm])) (by simpa [formattedBlocks] using hset) hcl hfr
      hsw hw hoff (by omega) (by omega)
    refine ⟨.blank :: ss, .blank s1, ?_, ?_⟩
    · intro he
      apply s2
      simp only [trimBlanks] at he
      cases hs : trimBlanks ss with
      | nil => rfl
      | cons x xs => rw [hs] at he; simp at he
    · intro he
      cases hs : trimBlanks ss with
      | nil => simp [trimBlanks, hs] at he
      | cons x xs =>
        rw [s3 (by simp [hs])]
        simp only [trimBlanks, hs, page]
        have : r + 1 - w.cur.row = (r - w.cur.row) + 1 := by omega
        rw [this, List.replicate_succ']
        simp
  | fuel + 1, .block d n :: es, [], r, r', w, w', front, rest, _, h, _, _, _, _, _, _, _, _, _ => by simp [Piled] at h
  | fuel + 1, .block d n :: es, k :: ks, r, r', w, w', front, rest, hlen, h, ht, hset, hcl, hfr, hsw, hw, hoff, h1, h2 => by
    simp only [Piled] at h
    obtain ⟨rfl, rfl, hr, hok, h⟩ := h
    simp only [List.length_cons] at hlen
    have hpos : k.start = ⟨r, k.depth * cfg.tabSize⟩ := by
      have := hok.col
      cases hc : k.start with
      | mk a b => rw [hc] at hr this; simp only at hr this; rw [hr, this]
    simp only [List.map_cons, writeUnits] at hw
    cases hwk : writeNode cfg content none k.laid w with
    | error e => rw [hwk] at hw; simp at hw
    | ok w1 =>
    rw [hwk] at hw
    simp only at hw
    cases hs : switchOf k.node with
    | none =>
      have hf : (Event.block k.depth k.node :: es).filterMap eventSwitch = es.filterMap eventSwitch := by
        simp [eventSwitch, hs]
      simp only [formattedBlocks, hs, Bool.false_eq_true, if_false, List.mem_cons] at hset
      obtain ⟨ps, rfl, hord, hlink, ⟨⟨⟨p, hp, hpp⟩, q, hq, hstop⟩, ts', hperm, hsame, hwr⟩⟩ := active_block R hcfg hok hs
        (ht k.depth k.node (by simp) hs) (hset _ (Or.inl rfl)) hoff hwk
      obtain ⟨ss, s1, s2, s3⟩ := shown_of R hcfg hbom hts fuel es ks (k.stop.row + 1) r' _ w' front rest (by omega) h
        (fun d n hm => ht d n (by simp [hm])) (fun n hn => hset n (Or.inr hn)) (by simpa only [offs, hf] using hcl) hfr
        (by rw [hsw, hf]) hw rfl (by simp) (by simp)
      have hord' : InOrder ⟨r, k.depth * cfg.tabSize⟩ ps := by
        cases ps with
        | nil => simp at hp
        | cons x ps =>
          simp only [List.head?_cons, Option.some.injEq] at hp
          subst hp
          rw [← hpos, ← hpp]
          exact ⟨Cur.le_refl _, hord.2⟩
      refine ⟨.block k.depth (weave cfg.endl ⟨r, k.depth * cfg.tabSize⟩ ps) :: ss,
        .block hs ⟨r, ts', ps, p, hp, by rw [hpp, hpos], rfl, hord', hlink, hperm, hsame, hwr⟩ s1, by simp [trimBlanks], fun _ => ?_⟩
      refine add_block (row := k.stop.row) (next := k.stop.row + 1) ?_ rfl s2 s3
      cases ps with
      | nil => simp at hp
      | cons x ps =>
        simp only [List.head?_cons, Option.some.injEq] at hp
        subst hp
        simp only
        rw [Props.Blocks.weave_from, hpp, hpos, space_lead h1 h2]
        simp
    | some t =>
      obtain ⟨hon, hstop, hwsw⟩ := switch_block hok hs
      have hnl : '\n' ∉ switchText t := by
        unfold switchText; split <;> decide
      rw [hwsw] at hwk
      have hf : (Event.block k.depth k.node :: es).filterMap eventSwitch = t :: es.filterMap eventSwitch := by
        simp [eventSwitch, hs]
      rw [hf] at hsw
      obtain ⟨l1, l2, e1, e2, e3⟩ := filter_split hsw
      by_cases hty : t.type = .formatOn
      · simp only [writeSwitch, hty, if_true, hoff] at hwk
        have hst : switchText t = onText := by simp [switchText, hty, onText]
        have hw1 := writeAt_flat hwk hnl
        rw [hst] at hw1 hstop
        rw [← hstop] at hw1
        subst hw1
        obtain ⟨ss, s1, s2, s3⟩ := shown_of R hcfg hbom hts fuel es ks (k.stop.row + 1) r' _ w' (front ++ l1 ++ [t]) l2 (by omega) h
          (fun d n hm => ht d n (by simp [hm])) (by
            simp only [formattedBlocks, hs, hty] at hset
            exact hset)
          (by
            simp only [offs, hf, List.map_cons, closed, hty, Bool.and_eq_true] at hcl
            exact hcl.2) (by rw [hfr, e1]; simp) e3 hw hoff (by simp) (by simp)
        refine ⟨.block k.depth onText :: ss, by rw [e1]; exact .on hs hty e2 s1, by simp [trimBlanks], fun _ => ?_⟩
        refine add_block (row := k.stop.row) (next := k.stop.row + 1) ?_ rfl s2 s3
        simp only
        rw [hpos, space_lead h1 h2]
      · have hoffT : t.type = .formatOff := by
          simp only [isOnOff, Bool.or_eq_true, beq_iff_eq] at hon
          exact hon.resolve_left hty
        simp only [writeSwitch, hty, if_false] at hwk
        have hst : switchText t = offText := by simp [switchText, hty, offText]
        have hw1 := writeAt_flat hwk hnl
        rw [hst] at hw1 hstop
        rw [← hstop] at hw1
        simp only at hw1
        simp only [offs, hf, List.map_cons, closed, hoffT, Bool.and_eq_true] at hcl
        obtain ⟨mid, d', m, es', u, kmid, k2, ks', g1, g2, g3, g4, g5, g6, g7, g8, g9, g10, g11, g12⟩ := find_on h hcl.2
        subst g6
        obtain ⟨hon2, hstop2, hwsw2⟩ := switch_block g7 g3
        have hu : u.type = .formatOn := by
          simp only [isOnOff, Bool.or_eq_true, beq_iff_eq] at hon2
          exact hon2.resolve_right g4
        rw [g12] at e3
        obtain ⟨l3, l4, e4, e5, e6⟩ := filter_split e3
        have hts' : ts = (front ++ l1) ++ t :: l3 ++ u :: l4 := by rw [hfr, e1, e4]; simp
        have hcopy := copy_between hbom hts hts'
        rw [g5, List.map_append, writeUnits_append, skip_blocks g9 (by rw [hw1]; rfl)] at hw
        simp only [List.map_cons, writeUnits, hwsw2] at hw
        have hst2 : switchText u = onText := by simp [switchText, hu, onText]
        cases hwu : writeSwitch cfg content k2.start u w1 with
        | error e => rw [hwu] at hw; simp at hw
        | ok w2 =>
        rw [hwu] at hw
        simp only at hw
        rw [hw1] at hwu
        simp only [writeSwitch, hu, if_true, hcopy] at hwu
        have hw2 := writeAt_flat hwu (by rw [hst2]; decide)
        rw [hst2] at hw2 hstop2
        rw [← hstop2] at hw2
        have hsp : ∀ c : Cur, space cfg.endl c c = [] := by
          intro c; simp [space]
        simp only [hsp, List.append_nil] at hw2
        subst hw2
        have hlen' : es'.length ≤ fuel := by
          rw [g1] at hlen
          simp only [List.length_append, List.length_cons] at hlen
          omega
        obtain ⟨ss, s1, s2, s3⟩ := shown_of R hcfg hbom hts fuel es' ks' (k2.stop.row + 1) r' _ w'
          (front ++ l1 ++ t :: l3 ++ [u]) l4 hlen' g8
          (fun d n hm => ht d n (by rw [g1]; simp [hm]))
          (by
            simp only [formattedBlocks, hs, hoffT, beq_self_eq_true] at hset
            rw [g10] at hset
            exact hset) g11 (by rw [hts']; simp) e6 hw rfl (by simp) (by simp)
        rw [g1]
        refine ⟨.block k.depth (offText ++ l3.flatMap (·.spelling) ++ onText) :: ss,
          by
            rw [e1, e4]
            have := Shows'.region (a := l1) (between := l3) (d := k.depth) (d' := d') hs hoffT g2 g3 hu e2 e5 s1
            simpa using this, by simp [trimBlanks], fun _ => ?_⟩
        refine add_block (row := k2.stop.row) (next := k2.stop.row + 1) ?_ rfl s2 s3
        simp only
        rw [hpos, space_lead h1 h2]
        simp

end

/-! ## Where the blocks of a tree come from -/

mutual
/-- The switches of the outline are those of the tree. -/
theorem outline_switches {ctx : Ctx} : ∀ (n : Node) (d : Nat), Neat ctx n → outside n = true →
    (outline d n).filterMap eventSwitch = sw n.toks
  | .tok t, d, _, ho => by
    simp only [outside, Bool.not_eq_true'] at ho
    simp [outline, sw, ho]
  | .node ty a cs, d, hn, ho => by
    have hc := (neat_node.1 hn).2
    have here := (neat_node.1 hn).1
    have plain : ((toksL cs).all fun t => !isOnOff t) = true → sw (toksL cs) = [] := by
      intro h
      simp only [sw, List.filter_eq_nil_iff]
      intro t ht
      have := List.all_eq_true.1 h t ht
      simpa using this
    have block : ty ≠ .onoff → ((toksL cs).all fun t => !isOnOff t) = true →
        ([Event.block d (.node ty a cs)].filterMap eventSwitch) = sw (toksL cs) := by
      intro hty h
      rw [plain h]
      have : switchOf (.node ty a cs) = none := by
        unfold switchOf
        split
        · rename_i he
          simp only [Node.node.injEq] at he
          exact absurd he.1 hty
        · rfl
      simp [eventSwitch, this]
    rw [toks_node]
    cases ty
    case onoff =>
      obtain ⟨t, rfl, ht⟩ := here
      simp [outline, eventSwitch, switchOf, sw, ht]
    case body =>
      simp only [outside] at ho
      have := outlineKids_switches cs false d hc ho
      simp only [outline]
      rw [outlineBody_eq]
      split
      · rename_i he
        rw [List.isEmpty_iff] at he
        rw [he] at this
        rw [← this]; rfl
      · exact this
    case flowControl =>
      simp only [outside] at ho
      simp only [outline]
      rw [outlineFlow_eq]
      exact outlineKids_switches cs true d hc ho
    case whitespace =>
      simp only [outside] at ho
      rw [plain ho]
      simp only [outline]
      split <;> rfl
    all_goals
      simp only [outside] at ho
      exact block (by simp) ho
theorem outlineKids_switches {ctx : Ctx} : ∀ (cs : List Node) (flow : Bool) (d : Nat), (∀ c ∈ cs, Neat ctx c) → outsideL cs = true →
    (outlineKids flow d cs).filterMap eventSwitch = sw (toksL cs)
  | [], flow, d, _, _ => rfl
  | c :: cs, flow, d, hn, ho => by
    simp only [outsideL, Bool.and_eq_true] at ho
    have h1 := outline_switches c (deeper flow d c) (hn c (by simp)) ho.1
    have h2 := outlineKids_switches cs flow d (fun x hx => hn x (by simp [hx])) ho.2
    simp only [outlineKids, List.flatMap_cons, List.filterMap_append] at h2 ⊢
    rw [h1, h2]
    simp [sw]
end

mutual
/-- Tokens of blocks that are not switches. -/
theorem outline_toks : ∀ (n : Node) (d : Nat), outside n = true →
    ∀ d' m, Event.block d' m ∈ outline d n → (∀ t ∈ m.toks, t ∈ n.toks) ∧
      (switchOf m = none → (∀ a cs, m ≠ .node .onoff a cs) → ∀ t ∈ m.toks, isOnOff t = false)
  | .tok t, d, _, d', m, hm => by simp [outline] at hm
  | .node ty a cs, d, ho, d', m, hm => by
    have block : ((toksL cs).all fun t => !isOnOff t) = true → Event.block d' m ∈ [Event.block d (.node ty a cs)] →
        (∀ t ∈ m.toks, t ∈ (Node.node ty a cs).toks) ∧
        (switchOf m = none → (∀ a cs, m ≠ .node .onoff a cs) → ∀ t ∈ m.toks, isOnOff t = false) := by
      intro h hm
      simp only [List.mem_singleton, Event.block.injEq] at hm
      obtain ⟨rfl, rfl⟩ := hm
      refine ⟨fun t h => h, fun _ _ t ht => ?_⟩
      have := List.all_eq_true.1 h t (by simpa using ht)
      simpa using this
    cases ty
    case onoff =>
      simp only [outline, List.mem_singleton, Event.block.injEq] at hm
      obtain ⟨rfl, rfl⟩ := hm
      exact ⟨fun t h => h, fun _ h => absurd rfl (h a cs)⟩
    case body =>
      simp only [outside] at ho
      simp only [outline] at hm
      rw [outlineBody_eq] at hm
      split at hm
      · simp at hm
      · simpa using outlineKids_toks cs false d ho d' m hm
    case flowControl =>
      simp only [outside] at ho
      simp only [outline] at hm
      rw [outlineFlow_eq] at hm
      simpa using outlineKids_toks cs true d ho d' m hm
    case whitespace =>
      simp only [outline] at hm
      split at hm <;> simp at hm
    all_goals
      simp only [outside] at ho
      exact block ho hm
theorem outlineKids_toks : ∀ (cs : List Node) (flow : Bool) (d : Nat), outsideL cs = true →
    ∀ d' m, Event.block d' m ∈ outlineKids flow d cs → (∀ t ∈ m.toks, t ∈ toksL cs) ∧
      (switchOf m = none → (∀ a cs, m ≠ .node .onoff a cs) → ∀ t ∈ m.toks, isOnOff t = false)
  | [], flow, d, _, d', m, hm => by simp [outlineKids] at hm
  | c :: cs, flow, d, ho, d', m, hm => by
    simp only [outsideL, Bool.and_eq_true] at ho
    simp only [outlineKids, List.flatMap_cons, List.mem_append] at hm
    rcases hm with hm | hm
    · have := outline_toks c _ ho.1 d' m hm
      exact ⟨fun t h => by simp [this.1 t h], this.2⟩
    · have := outlineKids_toks cs flow d ho.2 d' m hm
      exact ⟨fun t h => by simp [this.1 t h], this.2⟩
end

mutual
/-- Blocks are neat. -/
theorem block_neat {ctx : Ctx} : ∀ {n : Node} {d d' : Nat} {m : Node}, Neat ctx n → Event.block d' m ∈ outline d n → Neat ctx m
  | .tok t, d, d', m, _, hm => by simp [outline] at hm
  | .node ty a cs, d, d', m, hn, hm => by
    have hc := (neat_node.1 hn).2
    have block : Event.block d' m ∈ [Event.block d (.node ty a cs)] → Neat ctx m := by
      intro hm
      simp only [List.mem_singleton, Event.block.injEq] at hm
      rw [hm.2]; exact hn
    cases ty
    case body =>
      simp only [outline] at hm
      rw [outlineBody_eq] at hm
      split at hm
      · simp at hm
      · exact blocks_neat hc hm
    case flowControl =>
      simp only [outline] at hm
      rw [outlineFlow_eq] at hm
      exact blocks_neat hc hm
    case whitespace =>
      simp only [outline] at hm
      split at hm <;> simp at hm
    all_goals exact block hm
theorem blocks_neat {ctx : Ctx} : ∀ {cs : List Node} {flow : Bool} {d d' : Nat} {m : Node}, (∀ c ∈ cs, Neat ctx c) →
    Event.block d' m ∈ outlineKids flow d cs → Neat ctx m
  | [], flow, d, d', m, _, hm => by simp [outlineKids] at hm
  | c :: cs, flow, d, d', m, hn, hm => by
    simp only [outlineKids, List.flatMap_cons, List.mem_append] at hm
    rcases hm with hm | hm
    · exact block_neat (hn c (by simp)) hm
    · exact blocks_neat (fun x hx => hn x (by simp [hx])) hm
end

end Verif.Layout
