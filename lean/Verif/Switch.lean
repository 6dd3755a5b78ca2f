import Verif.SwitchSpec
import Verif.Calm
import Verif.Props.Layout

/-!
# Blocks with format switches between them: how they are placed and written
-/

namespace Verif.Layout
open Verif Py Lex Parse

/-! ## Copying bytes -/

/-- Number of utf-8 bytes. -/
def bytes (s : Str) : Nat := (s.map Char.utf8Size).sum

theorem bytes_append (a b : Str) : bytes (a ++ b) = bytes a + bytes b := by simp [bytes]

theorem bytes_cons (c : Char) (s : Str) : bytes (c :: s) = c.utf8Size + bytes s := by simp [bytes]

theorem dropBytes_append (x y : Str) : dropBytes (bytes x) (x ++ y) = some y := by
  induction x with
  | nil => simp [bytes, dropBytes]
  | cons c x ih =>
    have hp := Char.utf8Size_pos c
    obtain ⟨n, hn⟩ : ∃ n, bytes (c :: x) = n + 1 := ⟨bytes (c :: x) - 1, by rw [bytes_cons]; omega⟩
    rw [hn, List.cons_append, dropBytes]
    rw [bytes_cons] at hn
    rw [if_pos (by omega)]
    have : n + 1 - c.utf8Size = bytes x := by omega
    rw [this, ih]

theorem takeBytes_append (x y : Str) : takeBytes (bytes x) (x ++ y) = some x := by
  induction x with
  | nil => simp [bytes, takeBytes]
  | cons c x ih =>
    have hp := Char.utf8Size_pos c
    obtain ⟨n, hn⟩ : ∃ n, bytes (c :: x) = n + 1 := ⟨bytes (c :: x) - 1, by rw [bytes_cons]; omega⟩
    rw [hn, List.cons_append, takeBytes]
    rw [bytes_cons] at hn
    rw [if_pos (by omega)]
    have : n + 1 - c.utf8Size = bytes x := by omega
    rw [this, ih]; rfl

theorem copyBytes_mid (a m b : Str) : copyBytes (a ++ m ++ b) (bytes a) (bytes (a ++ m)) = some m := by
  unfold copyBytes
  rw [bytes_append]
  split
  · rename_i h
    cases m with
    | nil => rfl
    | cons c m =>
      have hp := Char.utf8Size_pos c
      rw [bytes_cons] at h; omega
  · rw [List.append_assoc, dropBytes_append]
    simp only
    rw [if_neg (by omega)]
    have : bytes a + bytes m - bytes a = bytes m := by omega
    rw [this, takeBytes_append]

theorem flatten_spelling (ts : List Token) : (ts.map Token.spelling).flatten = ts.flatMap (·.spelling) := by
  simp [List.flatMap]

/-- The bytes between two tokens are the text of the tokens between them. -/
theorem copy_between {content : Str} {ts a mid b : List Token} {t u : Token} (hbom : content.head? ≠ some BOM)
    (h : tokenize content = .ok ts) (e : ts = a ++ t :: mid ++ u :: b) :
    copyBytes content t.end_.offset u.begin_.offset = some (mid.flatMap (·.spelling)) := by
  obtain ⟨x, y, ex, hx, -, he⟩ := Props.Lex.token_locations_exact content hbom ts h a.length t (by rw [e]; simp)
  obtain ⟨x', y', ex', hx', hb, -⟩ := Props.Lex.token_locations_exact content hbom ts h (a.length + (mid.length + 1)) u (by
    rw [e, List.append_assoc, List.getElem?_append_right (by omega)]
    simp)
  have e1 : ts.take a.length = a := by rw [e]; simp
  have e2 : ts.take (a.length + (mid.length + 1)) = a ++ t :: mid := by
    rw [e]
    exact List.take_left' (by simp)
  rw [e1] at hx
  rw [e2] at hx'
  have h3 : x' = (x ++ t.spelling) ++ mid.flatMap (·.spelling) := by
    rw [hx', hx]; simp [List.flatMap]
  rw [he, hb]
  show copyBytes content (bytes (x ++ t.spelling)) (bytes x') = _
  rw [ex', h3]
  have := copyBytes_mid (x ++ t.spelling) (mid.flatMap (·.spelling)) (u.spelling ++ y')
  simp only [List.append_assoc] at this ⊢
  exact this

section
variable {cfg : Cfg} {ctx : Ctx}

/-! ## Bareness without anything about comments -/

theorem bare_mk {ty : NT} {a : Attr} {cs : List Node} {kids : List Box} (hk : ∀ k ∈ kids, bare k = true)
    (h2 : bareHere ty kids = true) : bare (.mk ty a cs kids) = true := by
  simp only [bare, Bool.and_eq_true]
  exact ⟨h2, bareL_iff.2 fun k hk' => hk k hk'⟩

mutual
/-- The boxes of a tree are bare. -/
theorem bare_node : ∀ (n : Node), Neat ctx n → (∀ t ∈ n.toks, t.type = .word → flatSpelling t.spelling = true) →
    ∀ k ∈ lockL cfg (boxOf n), bare k = true
  | .tok t, _, _, k, hk => by simp [boxOf, lockL] at hk
  | .node ty a cs, hn, ht, k, hk => by
    have hc := (neat_node.1 hn).2
    have hneat := (neat_node.1 hn).1
    simp only [toks_node] at ht
    have hkids := bare_list cs hc ht
    simp only [boxOf] at hk
    split at hk
    · simp [lockL] at hk
    · simp only [lockL, List.mem_singleton] at hk
      subst hk
      by_cases hty : ty = .statement ∨ ty = .atwordStatement ∨ ty = .kwargGroup
      · have hpl : lock cfg (.mk ty a cs (boxesOf cs)) = .mk ty a cs (lockL cfg (boxesOf cs)) := by
          refine lock_plain ⟨?_, ?_⟩ <;> (rintro rfl; simp at hty)
        rw [hpl]
        refine bare_mk hkids ?_
        rcases hty with rfl | rfl | rfl
        · obtain ⟨f, l, r, ws, ws1, sub, mid, trail, e, -⟩ := hneat
          have hfn : Neat ctx (mk .funname [.tok f]) := hc _ (by rw [e]; simp)
          obtain ⟨f', e', hword⟩ := (neat_node.1 hfn).1
          simp only [List.cons.injEq, Node.tok.injEq, and_true] at e'
          subst e'
          have hflat := ht f (by rw [e]; simp) hword
          have hbox : boxesOf cs = .mk .funname {} [.tok f] [] :: .mk .lparen {} [.tok l] [] :: (boxOf sub ++ boxesOf mid ++
              (.mk .rparen {} [.tok r] [] :: boxesOf trail)) := by
            rw [e]
            simp only [boxesOf_append, boxesOf_leaves, boxesOf, boxOf, mk]
            simp
          rw [hbox]
          simp only [lockL, lock]
          show flatWord _ = true
          rw [if_neg (by simp)]
          simp only [flatWord, plainWord, Box.kids, Box.pkids, headSpelling, List.isEmpty_nil, Bool.true_and]
          rw [normalize_flat hflat]
          simp only [flatSpelling, Bool.and_eq_true] at hflat
          exact hflat.1
        · obtain ⟨t, trail, e, htr⟩ := hneat
          have hbox : boxesOf cs = .mk .atword {} [.tok t] [] :: boxesOf trail := by
            rw [e]; simp [boxesOf, boxOf, mk]
          rw [hbox]
          simp only [lockL, lock]
          simp [bareHere, plainWord, Box.kids]
        · obtain ⟨t, ws, body, e, hw, hb⟩ := hneat
          have hbox : boxesOf cs = .mk .keyword {} [.tok t] [] :: boxesOf body := by
            rw [e]
            simp only [List.cons_append, boxesOf, boxesOf_append, boxesOf_leaves, boxOf, mk]
            simp
          rw [hbox]
          simp only [lockL, lock]
          simp [bareHere, plainWord, Box.kids]
      · have fin : ∀ kids : List Box, kids.Perm (lockL cfg (boxesOf cs)) → bare (.mk ty a cs kids) = true := by
          intro kids hp
          refine bare_mk (fun k hk => hkids k (hp.mem_iff.1 hk)) ?_
          cases ty <;> first | rfl | simp at hty
        simp only [lock]
        split
        · exact fin _ (Props.ArgSort.sort_perm _ _ _)
        · exact fin _ (List.Perm.refl _)
theorem bare_list : ∀ cs : List Node, (∀ c ∈ cs, Neat ctx c) →
    (∀ t ∈ toksL cs, t.type = .word → flatSpelling t.spelling = true) → ∀ k ∈ lockL cfg (boxesOf cs), bare k = true
  | [], _, _, k, hk => by simp [boxesOf, lockL] at hk
  | c :: cs, hn, ht, k, hk => by
    simp only [boxesOf, lockL_append, List.mem_append] at hk
    rcases hk with hk | hk
    · exact bare_node c (hn c (by simp)) (fun t h => ht t (by simp [h])) k hk
    · exact bare_list cs (fun x h => hn x (by simp [h])) (fun t h => ht t (by simp [h])) k hk
end

/-! ## Blocks and where they are -/

mutual
/-- The blocks of a laid out tree. -/
def units : Laid → List Laid
  | .mk ty a pk info lines kids =>
    match ty with
    | .whitespace => []
    | .body | .flowControl => unitsL kids
    | _ => [.mk ty a pk info lines kids]
/-- Of a list. -/
def unitsL : List Laid → List Laid
  | [] => []
  | l :: ls => units l ++ unitsL ls
end

/-- A block, its box, and where it is. -/
structure Blk where
  depth : Nat
  node : Node
  box : Box
  laid : Laid
  start : Cur
  stop : Cur

/-- Statement, comment or switch. -/
def isUnit' (ty : NT) : Bool := isUnit ty || ty == .onoff

/-- What is known of a block. -/
structure Blk.Ok (cfg : Cfg) (ctx : Ctx) (k : Blk) : Prop where
  unit : isUnit' k.box.ty = true
  boxes : lockL cfg (boxOf k.node) = [k.box]
  placed : Placed cfg k.box k.start k.laid k.stop
  col : k.start.col = k.depth * cfg.tabSize
  neat : Neat ctx k.node

/-- Blocks for events, from a row on and up to a row. -/
def Piled (cfg : Cfg) (ctx : Ctx) : Nat → List Event → List Blk → Nat → Prop
  | r, [], ks, r' => ks = [] ∧ r' = r
  | r, .blank :: es, ks, r' => Piled cfg ctx (r + 1) es ks r'
  | r, .block d n :: es, ks, r' =>
    match ks with
    | [] => False
    | k :: ks' => k.depth = d ∧ k.node = n ∧ k.start.row = r ∧ k.Ok cfg ctx ∧ Piled cfg ctx (k.stop.row + 1) es ks' r'

theorem piled_append : ∀ {es es' : List Event} {ks ks' : List Blk} {r r' r'' : Nat},
    Piled cfg ctx r es ks r' → Piled cfg ctx r' es' ks' r'' → Piled cfg ctx r (es ++ es') (ks ++ ks') r''
  | [], es', ks, ks', r, r', r'', h, h' => by
    obtain ⟨rfl, rfl⟩ := h
    exact h'
  | .blank :: es, es', ks, ks', r, r', r'', h, h' => by
    simp only [Piled, List.cons_append] at *
    exact piled_append h h'
  | .block d n :: es, es', [], ks', r, r', r'', h, h' => by simp [Piled] at h
  | .block d n :: es, es', k :: ks, ks', r, r', r'', h, h' => by
    simp only [Piled, List.cons_append] at *
    obtain ⟨h1, h2, h3, h4, h5⟩ := h
    exact ⟨h1, h2, h3, h4, piled_append h5 h'⟩

/-- Blocks, switches, and what contains them. -/
def isLevel' (ty : NT) : Bool := isLevel ty || ty == .onoff

theorem level_cases' {ty : NT} (h : isLevel' ty = true) :
    isUnit' ty = true ∨ ty = .whitespace ∨ ty = .body ∨ ty = .flowControl := by
  cases ty <;> simp [isLevel', isLevel, isUnit', isUnit] at h ⊢

theorem outline_unit' {ty : NT} (h : isUnit' ty = true) (d : Nat) (a : Attr) (cs : List Node) :
    outline d (.node ty a cs) = [.block d (.node ty a cs)] := by
  cases ty <;> first | rfl | simp [isUnit', isUnit] at h

theorem units_unit {l : Laid} (h : isUnit' l.ty = true) : units l = [l] := by
  cases l with
  | mk ty a pk info lines kids => cases ty <;> first | rfl | simp [isUnit', isUnit, Laid.ty] at h

set_option maxHeartbeats 1000000 in
mutual
/-- The blocks of a node at a column that belongs to its depth. -/
theorem piled_node : ∀ (n : Node) (d : Nat) (b : Box) (c : Cur) (l : Laid) (o : Cur),
    Neat ctx n → lockL cfg (boxOf n) = [b] → isLevel' b.ty = true → framed b = true → Placed cfg b c l o →
    c.col = d * cfg.tabSize →
    outline d n ≠ [] ∧ ∃ ks, units l = ks.map (·.laid) ∧ Piled cfg ctx c.row (outline d n) ks (o.row + 1)
  | .tok t, d, b, c, l, o, _, hb, _, _, _, _ => by simp [boxOf, lockL] at hb
  | .node ty a cs, d, b, c, l, o, hn, hb, hlev, hf, hp, hcol => by
    have hb0 := hb
    have hp0 := hp
    have hcon : boxOf (.node ty a cs) = [.mk ty a cs (boxesOf cs)] := by
      rcases boxOf_cases (.node ty a cs) with h | ⟨ty', a', cs', e, h⟩
      · rw [h] at hb; simp [lockL] at hb
      · simp only [Node.node.injEq] at e
        obtain ⟨rfl, rfl, rfl⟩ := e
        exact h
    have hbe : b = lock cfg (.mk ty a cs (boxesOf cs)) := by
      rw [hcon] at hb
      simp only [lockL, List.cons.injEq, and_true] at hb
      exact hb.symm
    have hty : b.ty = ty := by rw [hbe, (lock_same cfg _).1]; rfl
    have hlev0 := hlev
    rw [hty] at hlev
    have hkidsN := (neat_node.1 hn).2
    rcases level_cases' hlev with hu | hu
    · rw [outline_unit' hu]
      refine ⟨by simp, [⟨d, .node ty a cs, b, l, c, o⟩], ?_, rfl, rfl, rfl, ⟨by rw [hty]; exact hu, hb0, hp0, hcol, hn⟩, rfl, rfl⟩
      exact units_unit (by rw [placed_ty hp0, hty]; exact hu)
    · have hpl : lock cfg (.mk ty a cs (boxesOf cs)) = .mk ty a cs (lockL cfg (boxesOf cs)) := by
        refine lock_plain ⟨?_, ?_⟩ <;> (rintro rfl; simp at hu)
      rw [hpl] at hbe
      subst hbe
      cases l with
      | mk ty' a' pk' info lines kids' =>
        simp only [framed, Bool.and_eq_true] at hf
        simp only [Placed] at hp
        obtain ⟨rfl, rfl, rfl, rfl, hal, hp⟩ := hp
        rcases hu with rfl | rfl | rfl
        · have : outline d (.node .whitespace a' pk') = [.blank] := by
            simp only [boxOf] at hcon
            split at hcon
            · simp at hcon
            · rename_i hc
              simp only [true_and] at hc
              simp only [outline]
              rw [← newlinesL_source, if_neg hc]
          rw [this, hp.2]
          exact ⟨by simp, [], rfl, rfl, rfl⟩
        · have hlv : ∀ k ∈ lockL cfg (boxesOf pk'), isLevel' k.ty = true := by
            intro k hk
            have := List.all_eq_true.1 hf.1 k hk
            revert this
            cases k with
            | mk kt _ _ _ => cases kt <;> simp [isBodyPart, isLevel', isLevel, isUnit, Box.ty]
          obtain ⟨ks, r', e, h1, h2, h3, h4⟩ := piled_list pk' false d none info.pos kids' o info.pos.col 0
            hkidsN hlv hf.2 hp.2 hcol (by simp)
            (fun k hk he => by
              have := List.all_eq_true.1 hf.1 k hk
              rw [he] at this; simp [isBodyPart] at this)
          simp only [outline]
          rw [outlineBody_eq]
          by_cases hnil : boxesOf pk' = []
          · have hz : outlineKids false d pk' = [] := outlineKids_nil hnil
            rw [hz] at h1 ⊢
            simp only [Piled] at h1
            refine ⟨by simp, ks, e, ?_⟩
            rw [h1.1, h3 hnil rfl]
            exact ⟨rfl, rfl⟩
          · have hr := h2 (Or.inl hnil)
            have hne : (outlineKids false d pk').isEmpty = false := by
              cases hz : outlineKids false d pk' with
              | cons x xs => rfl
              | nil => exact absurd hz (h4 hnil)
            rw [hne, ← hr]
            exact ⟨h4 hnil, ks, e, h1⟩
        · have hlv : ∀ k ∈ lockL cfg (boxesOf pk'), isLevel' k.ty = true := by
            intro k hk
            have := List.all_eq_true.1 hf.1 k hk
            simp only [Bool.or_eq_true, beq_iff_eq] at this
            rcases this with e | e <;> rw [e] <;> rfl
          obtain ⟨ks, r', e, h1, h2, h3, h4⟩ := piled_list pk' true d none info.pos kids' o info.pos.col cfg.tabSize
            hkidsN hlv hf.2 hp.2 hcol (by simp) (fun k hk he => Or.inl rfl)
          simp only [outline]
          rw [outlineFlow_eq]
          have hne : boxesOf pk' ≠ [] := by
            intro hz
            have := hal.2 rfl
            rw [hz] at this
            simp [lockL, alternates] at this
          rw [← h2 (Or.inl hne)]
          exact ⟨h4 hne, ks, e, h1⟩
/-- The children of a body or of a flow-control block. -/
theorem piled_list : ∀ (cs : List Node) (flow : Bool) (d : Nat) (prev : Option Box) (c : Cur) (ls : List Laid) (o : Cur)
    (col tab : Nat),
    (∀ c ∈ cs, Neat ctx c) → (∀ k ∈ lockL cfg (boxesOf cs), isLevel' k.ty = true) →
    framedL (lockL cfg (boxesOf cs)) = true → PlacedL cfg (Blocks col tab) prev c (lockL cfg (boxesOf cs)) ls o →
    col = d * cfg.tabSize → (flow = true → tab = cfg.tabSize) →
    (∀ k ∈ lockL cfg (boxesOf cs), k.ty = .body → flow = true ∨ False) →
    ∃ ks e, unitsL ls = ks.map (·.laid) ∧ Piled cfg ctx (nextRow prev c) (outlineKids flow d cs) ks e ∧
      (boxesOf cs ≠ [] ∨ prev ≠ none → e = o.row + 1) ∧ (boxesOf cs = [] → prev = none → o = c) ∧
      (boxesOf cs ≠ [] → outlineKids flow d cs ≠ [])
  | [], flow, d, prev, c, ls, o, col, tab, _, _, _, hp, _, _, _ => by
    simp only [boxesOf, lockL, PlacedL] at hp
    obtain ⟨rfl, rfl⟩ := hp
    refine ⟨[], nextRow prev o, rfl, ⟨rfl, rfl⟩, ?_, fun _ _ => rfl, fun h => absurd rfl h⟩
    cases prev <;> simp [boxesOf, nextRow]
  | n :: ns, flow, d, prev, c, ls, o, col, tab, hn, hlv, hf, hp, hcol, htab, hbody => by
    rcases boxOf_cases n with he | ⟨ty, a, cs, rfl, he⟩
    · have e : boxesOf (n :: ns) = boxesOf ns := by simp [boxesOf, he]
      have e2 : outlineKids flow d (n :: ns) = outlineKids flow d ns := by
        simp [outlineKids, outline_nil he]
      rw [e] at hp hf hlv hbody ⊢
      rw [e2]
      exact piled_list ns flow d prev c ls o col tab (fun x hx => hn x (by simp [hx])) hlv hf hp hcol htab hbody
    · generalize hbe : lock cfg (.mk ty a cs (boxesOf cs)) = b
      have e : lockL cfg (boxesOf (.node ty a cs :: ns)) = b :: lockL cfg (boxesOf ns) := by
        rw [boxesOf, he]
        simp [lockL, hbe]
      have e0 : boxesOf (.node ty a cs :: ns) ≠ [] := by
        rw [boxesOf, he]; simp
      have hty : b.ty = ty := by rw [← hbe, (lock_same cfg _).1]; rfl
      rw [e] at hp hf hlv hbody
      simp only [framedL, Bool.and_eq_true] at hf
      match ls, hp with
      | [], hp => simp [PlacedL] at hp
      | l :: ls, hp =>
        simp only [PlacedL] at hp
        obtain ⟨c', o', hb, h1, hp⟩ := hp
        have hrow : c'.row = nextRow prev c := by
          have := hb.2
          cases prev <;> exact this
        have hcol' : c'.col = deeper flow d (.node ty a cs) * cfg.tabSize := by
          rw [hb.1, hty]
          by_cases hB : ty = .body
          · subst hB
            have hfl : flow = true := (hbody b (by simp) hty).resolve_right id
            rw [if_pos rfl, hcol, htab hfl, hfl]
            simp [deeper, isBody, Nat.add_mul]
          · rw [if_neg hB, hcol]
            simp [deeper, isBody_false hB]
        obtain ⟨hne, g1, e1, s1⟩ := piled_node (.node ty a cs) (deeper flow d (.node ty a cs)) b c' l o'
          (hn _ (by simp)) (by rw [he]; simp [lockL, hbe]) (hlv b (by simp)) hf.1 h1 hcol'
        obtain ⟨g2, r', e2, s2, s3, s4, s5⟩ := piled_list ns flow d (some b) o' ls o col tab
          (fun x hx => hn x (by simp [hx])) (fun k hk => hlv k (by simp [hk])) hf.2 hp hcol htab
          (fun k hk => hbody k (by simp [hk]))
        refine ⟨g1 ++ g2, r', by rw [unitsL, e1, e2]; simp, ?_, fun _ => s3 (Or.inr (by simp)), fun h => absurd h e0, fun _ => ?_⟩
        · rw [hrow] at s1
          exact piled_append s1 s2
        · simp only [outlineKids, List.flatMap_cons]
          intro h
          exact hne (List.append_eq_nil_iff.1 h).1
end

/-! ## Writing the blocks -/

/-- Blocks one after the other. -/
def writeUnits (cfg : Cfg) (content : Str) : List Laid → W → Except Err W
  | [], w => .ok w
  | l :: ls, w =>
    match writeNode cfg content none l w with
    | .error e => .error e
    | .ok w' => writeUnits cfg content ls w'

theorem writeUnits_append {content : Str} {as bs : List Laid} {w : W} :
    writeUnits cfg content (as ++ bs) w =
      match writeUnits cfg content as w with
      | .error e => .error e
      | .ok w' => writeUnits cfg content bs w' := by
  induction as generalizing w with
  | nil => simp [writeUnits]
  | cons a as ih =>
    simp only [List.cons_append, writeUnits]
    cases writeNode cfg content none a w with
    | error e => rfl
    | ok w' => exact ih

mutual
/-- A tree is written by writing its blocks. -/
theorem write_units {content : Str} : ∀ (l : Laid) (w : W), writeNode cfg content none l w = writeUnits cfg content (units l) w
  | .mk ty a pk info lines kids, w => by
    by_cases h : ty = .whitespace ∨ ty = .body ∨ ty = .flowControl
    · rcases h with rfl | rfl | rfl
      · simp [writeNode, units, writeUnits]
      · simp only [writeNode, units]; exact write_unitsL kids w
      · simp only [writeNode, units]; exact write_unitsL kids w
    · have : units (.mk ty a pk info lines kids) = [.mk ty a pk info lines kids] := by
        cases ty <;> first | rfl | simp at h
      rw [this]
      simp only [writeUnits]
      cases writeNode cfg content none (.mk ty a pk info lines kids) w <;> rfl
theorem write_unitsL {content : Str} : ∀ (ls : List Laid) (w : W), writeL cfg content none ls w = writeUnits cfg content (unitsL ls) w
  | [], w => by simp [writeL, unitsL, writeUnits]
  | l :: ls, w => by
    simp only [writeL, unitsL, writeUnits_append, ← write_units l w]
    cases writeNode cfg content none l w with
    | error e => rfl
    | ok w' => exact write_unitsL ls w'
end

/-- A switched off block is not written. -/
theorem skip_unit {content : Str} {l : Laid} {w : W} (hu : isUnit l.ty = true) (hw : w.off.isSome = true) :
    writeNode cfg content none l w = .ok w := by
  cases l with
  | mk ty a pk info lines kids =>
    simp only [Laid.ty] at hu
    cases ty <;> first
      | (simp [isUnit] at hu; done)
      | simp [writeNode, hw]

end

end Verif.Layout
