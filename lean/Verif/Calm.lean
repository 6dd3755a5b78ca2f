import Verif.Stack
import Verif.ParseSpread

/-!
# At most one blank line between blocks
-/

namespace Verif.Layout
open Verif Py Lex Parse

section
variable {cfg : Cfg} {ctx : Ctx}

/-- Starts with a blank line. -/
def startsBlank : List Event → Bool
  | .blank :: _ => true
  | _ => false

/-- Ends with a blank line. -/
def endsBlankE (es : List Event) : Bool :=
  match es.getLast? with
  | some .blank => true
  | _ => false

theorem single_append {a b : List Event} (ha : singleBlanks a = true) (hb : singleBlanks b = true)
    (h : endsBlankE a = true → startsBlank b = false) : singleBlanks (a ++ b) = true := by
  induction a with
  | nil => exact hb
  | cons x xs ih =>
    cases xs with
    | nil =>
      cases x with
      | block d n => exact hb
      | blank =>
        have := h rfl
        cases b with
        | nil => rfl
        | cons y ys =>
          cases y with
          | blank => simp [startsBlank] at this
          | block d n => exact hb
    | cons y ys =>
      have h' : endsBlankE (y :: ys) = true → startsBlank b = false := by
        intro he; apply h
        simpa only [endsBlankE, List.getLast?_cons_cons] using he
      cases x with
      | block d n => exact ih ha h'
      | blank =>
        cases y with
        | blank => simp [singleBlanks] at ha
        | block d n => exact ih ha h'

theorem startsBlank_append {a b : List Event} (h : a ≠ []) : startsBlank (a ++ b) = startsBlank a := by
  cases a with
  | nil => exact absurd rfl h
  | cons x xs => cases x <;> rfl

theorem endsBlank_append {a b : List Event} (h : b ≠ []) : endsBlankE (a ++ b) = endsBlankE b := by
  simp only [endsBlankE, List.getLast?_append]
  cases hb : b.getLast? with
  | none => exact absurd (List.getLast?_eq_none_iff.1 hb) h
  | some x => rfl

/-- Starts and ends with a block. -/
def Solid (es : List Event) : Prop := es ≠ [] ∧ startsBlank es = false ∧ endsBlankE es = false

theorem lockL_boxesOf_cons {n : Node} {ns : List Node} :
    lockL cfg (boxesOf (n :: ns)) = lockL cfg (boxOf n) ++ lockL cfg (boxesOf ns) := by
  rw [boxesOf, lockL_append]

theorem lock_one {ty : NT} {a : Attr} {cs : List Node} (h : ty ≠ .whitespace) :
    lockL cfg (boxOf (.node ty a cs)) = [lock cfg (.mk ty a cs (boxesOf cs))] := by
  rw [boxOf_mk h]; rfl

theorem other_cases (ty : NT) : (ty ≠ .whitespace ∧ ty ≠ .body ∧ ty ≠ .flowControl) ∨
    (ty = .whitespace ∨ ty = .body ∨ ty = .flowControl) := by
  cases ty <;> simp

theorem outline_other {ty : NT} (h : ty ≠ .whitespace ∧ ty ≠ .body ∧ ty ≠ .flowControl) (d : Nat) (a : Attr) (cs : List Node) :
    outline d (.node ty a cs) = [.block d (.node ty a cs)] := by
  cases ty <;> first | rfl | (exfalso; simp at h)

theorem kids_cons_eq (flow : Bool) (d : Nat) (n : Node) (ns : List Node) :
    outlineKids flow d (n :: ns) = outline (deeper flow d n) n ++ outlineKids flow d ns := by
  simp [outlineKids]

mutual
/-- No two neighbouring blank lines. -/
theorem calm_node : ∀ (n : Node) (d : Nat) (b : Box) (c : Cur) (l : Laid) (o : Cur),
    Neat ctx n → lockL cfg (boxOf n) = [b] → Placed cfg b c l o → spread n = true →
    singleBlanks (outline d n) = true ∧ (b.ty ≠ .whitespace → b.ty ≠ .body → Solid (outline d n))
  | .tok t, d, b, c, l, o, _, hb, _, _ => by simp [boxOf, lockL] at hb
  | .node ty a cs, d, b, c, l, o, hn, hb, hp, hsp => by
    have hcon : boxOf (.node ty a cs) = [.mk ty a cs (boxesOf cs)] := by
      rcases boxOf_cases (.node ty a cs) with h | ⟨ty', a', cs', e, h⟩
      · rw [h] at hb; simp [lockL] at hb
      · simp only [Node.node.injEq] at e
        obtain ⟨rfl, rfl, rfl⟩ := e
        exact h
    have hbe : b = lock cfg (.mk ty a cs (boxesOf cs)) := by
      rw [hcon] at hb
      simp only [lockL, List.cons.injEq, and_true] at hb
      exact hb.symm
    have hty : b.ty = ty := by rw [hbe, (lock_same cfg _).1]; rfl
    rw [hty]
    rcases other_cases ty with hu | hu
    · rw [outline_other hu]
      exact ⟨rfl, fun _ _ => ⟨by simp, rfl, rfl⟩⟩
    · have hpl : lock cfg (.mk ty a cs (boxesOf cs)) = .mk ty a cs (lockL cfg (boxesOf cs)) := by
        refine lock_plain ⟨?_, ?_⟩ <;> (rintro rfl; simp at hu)
      rw [hpl] at hbe
      subst hbe
      have hneat := neat_node.1 hn
      cases l with
      | mk ty' a' pk' info lines kids' =>
        simp only [Placed] at hp
        obtain ⟨rfl, rfl, rfl, rfl, hal, hp⟩ := hp
        rcases hu with rfl | rfl | rfl
        · refine ⟨?_, fun h => absurd rfl h⟩
          simp only [outline]
          split <;> rfl
        · refine ⟨?_, fun _ h => absurd rfl h⟩
          simp only [spread, Bool.and_eq_true] at hsp
          have := calm_body pk' d (Blocks info.pos.col 0) none info.pos kids' o hneat.2 hneat.1 hp.2 hsp.1 hsp.2
          simp only [outline]
          rw [outlineBody_eq]
          split
          · rfl
          · exact this.1
        · simp only [spread] at hsp
          have := calm_flow pk' true d (Blocks info.pos.col cfg.tabSize) none info.pos kids' o hneat.2 hneat.1 hp.2 hsp
            (hal.2 rfl)
          simp only [outline]
          rw [outlineFlow_eq]
          refine ⟨this.1, fun _ _ => ?_⟩
          cases pk' with
          | nil => have := hal.2 rfl; simp [boxesOf, lockL, alternates] at this
          | cons x xs =>
            obtain ⟨_, h2, h3⟩ := this
            exact ⟨(h2 (by simp)).2, h3 rfl, (h2 (by simp)).1⟩
/-- In a body. -/
theorem calm_body : ∀ (cs : List Node) (d : Nat) (S : Option Box → Cur → Box → Cur → Prop) (prev : Option Box) (c : Cur)
    (ls : List Laid) (o : Cur), (∀ c ∈ cs, Neat ctx c) → (∀ c ∈ cs, Block c) → PlacedL cfg S prev c (lockL cfg (boxesOf cs)) ls o →
    apart cs = true → spreadL cs = true →
    singleBlanks (outlineKids false d cs) = true ∧
      (startsBlank (outlineKids false d cs) = true → ∃ m rest, cs = m :: rest ∧ isBlankNode m = true)
  | [], d, S, prev, c, ls, o, _, _, _, _, _ => ⟨rfl, by simp [outlineKids, startsBlank]⟩
  | n :: ns, d, S, prev, c, ls, o, hn, hbl, hp, ha, hs => by
    rw [kids_cons_eq]
    simp only [spreadL, Bool.and_eq_true] at hs
    have hns : apart ns = true ∧ (isBlankNode n = true → ∀ m rest, ns = m :: rest → isBlankNode m = false) := by
      cases ns with
      | nil => exact ⟨rfl, by simp⟩
      | cons m rest =>
        simp only [apart, Bool.and_eq_true, Bool.not_eq_true', Bool.and_eq_false_iff] at ha
        refine ⟨ha.2, ?_⟩
        intro hb m' rest' e
        simp only [List.cons.injEq] at e
        rw [← e.1]
        exact ha.1.resolve_left (by simp [hb])
    have hn1 : ∀ x ∈ ns, Neat ctx x := fun x hx => hn x (by simp [hx])
    have hb1 : ∀ x ∈ ns, Block x := fun x hx => hbl x (by simp [hx])
    rcases boxOf_cases n with he | ⟨ty, a, cs, rfl, he⟩
    · rw [outline_nil he, List.nil_append]
      have e : boxesOf (n :: ns) = boxesOf ns := by simp [boxesOf, he]
      rw [e] at hp
      obtain ⟨r1, r2⟩ := calm_body ns d S prev c ls o hn1 hb1 hp hns.1 hs.2
      refine ⟨r1, fun h => ⟨n, ns, rfl, ?_⟩⟩
      have hbn := hbl n (by simp)
      cases n with
      | tok t => exact hbn.elim
      | node ty a cs =>
        simp only [boxOf] at he
        split at he
        · rename_i hc; rw [hc.1]; rfl
        · simp at he
    · generalize hbe : lock cfg (.mk ty a cs (boxesOf cs)) = b
      have e : lockL cfg (boxesOf (.node ty a cs :: ns)) = b :: lockL cfg (boxesOf ns) := by
        rw [boxesOf, he]
        simp [lockL, hbe]
      have hty : b.ty = ty := by rw [← hbe, (lock_same cfg _).1]; rfl
      rw [e] at hp
      match ls, hp with
      | [], hp => simp [PlacedL] at hp
      | l :: ls, hp =>
        rw [PlacedL] at hp
        obtain ⟨c', o', _, h1, hp⟩ := hp
        obtain ⟨r1, r2⟩ := calm_body ns d S (some b) o' ls o hn1 hb1 hp hns.1 hs.2
        obtain ⟨q1, q2⟩ := calm_node (.node ty a cs) (deeper false d (.node ty a cs)) b c' l o' (hn _ (by simp))
          (by rw [he]; simp [lockL, hbe]) h1 hs.1
        have hnb : ty ≠ .body := by
          intro e2; subst e2
          have := hbl _ (List.mem_cons_self ..)
          simp [Block] at this
        by_cases hw : ty = .whitespace
        · subst hw
          refine ⟨single_append q1 r1 (fun _ => ?_), fun _ => ⟨_, _, rfl, rfl⟩⟩
          cases hh : startsBlank (outlineKids false d ns) with
          | false => rfl
          | true =>
            obtain ⟨m, rest, e1, e2⟩ := r2 hh
            rw [hns.2 rfl m rest e1] at e2
            simp at e2
        · obtain ⟨z1, z2, z3⟩ := q2 (by rw [hty]; exact hw) (by rw [hty]; exact hnb)
          refine ⟨single_append q1 r1 (fun h => by rw [z3] at h; simp at h), ?_⟩
          rw [startsBlank_append z1, z2]
          simp
/-- In a flow-control block. -/
theorem calm_flow : ∀ (cs : List Node) (stmt : Bool) (d : Nat) (S : Option Box → Cur → Box → Cur → Prop) (prev : Option Box)
    (c : Cur) (ls : List Laid) (o : Cur), (∀ c ∈ cs, Neat ctx c) → (∀ c ∈ cs, FlowPart c) →
    PlacedL cfg S prev c (lockL cfg (boxesOf cs)) ls o → spreadL cs = true →
    alternates stmt (lockL cfg (boxesOf cs)) = true →
    singleBlanks (outlineKids true d cs) = true ∧ (cs ≠ [] → endsBlankE (outlineKids true d cs) = false ∧ outlineKids true d cs ≠ []) ∧
      (stmt = true → startsBlank (outlineKids true d cs) = false)
  | [], stmt, d, S, prev, c, ls, o, _, _, _, _, ha => by
    refine ⟨rfl, by simp, fun _ => rfl⟩
  | .tok t :: ns, stmt, d, S, prev, c, ls, o, hn, hfl, hp, hs, ha => (hfl _ (List.mem_cons_self ..)).elim
  | .node ty a cs :: ns, stmt, d, S, prev, c, ls, o, hn, hfl, hp, hs, ha => by
    have hfp : ty = .statement ∨ ty = .body := hfl _ (List.mem_cons_self ..)
    have hne : ty ≠ .whitespace := by rcases hfp with rfl | rfl <;> simp
    rw [kids_cons_eq]
    simp only [spreadL, Bool.and_eq_true] at hs
    generalize hbe : lock cfg (.mk ty a cs (boxesOf cs)) = b
    have e : lockL cfg (boxesOf (.node ty a cs :: ns)) = b :: lockL cfg (boxesOf ns) := by
      rw [boxesOf, boxOf_mk hne]
      simp [lockL, hbe]
    have hty : b.ty = ty := by rw [← hbe, (lock_same cfg _).1]; rfl
    rw [e] at hp ha
    simp only [alternates, Bool.and_eq_true, beq_iff_eq, hty] at ha
    match ls, hp with
    | [], hp => simp [PlacedL] at hp
    | l :: ls, hp =>
      rw [PlacedL] at hp
      obtain ⟨c', o', _, h1, hp⟩ := hp
      obtain ⟨r1, r2, r3⟩ := calm_flow ns (!stmt) d S (some b) o' ls o (fun x hx => hn x (by simp [hx]))
        (fun x hx => hfl x (by simp [hx])) hp hs.2 ha.2
      obtain ⟨q1, q2⟩ := calm_node (.node ty a cs) (deeper true d (.node ty a cs)) b c' l o' (hn _ (by simp))
        (by rw [boxOf_mk hne]; simp [lockL, hbe]) h1 hs.1
      rw [hty] at q2
      cases stmt with
      | true =>
        simp only [if_true] at ha
        rw [ha.1] at q2
        obtain ⟨z1, z2, z3⟩ := q2 (by simp) (by simp)
        rw [ha.1]
        rw [ha.1] at q1
        refine ⟨single_append q1 r1 (fun h => by rw [z3] at h; simp at h), fun _ => ⟨?_, by simp [z1]⟩, fun _ => ?_⟩
        · cases hz : ns with
          | nil => simp only [outlineKids, List.flatMap_nil, List.append_nil]; exact z3
          | cons x xs =>
            rw [← hz, endsBlank_append (r2 (by simp [hz])).2]
            exact (r2 (by simp [hz])).1
        · rw [startsBlank_append z1, z2]
      | false =>
        have hz : ns ≠ [] := by
          rintro rfl
          simp [boxesOf, lockL, alternates] at ha
        obtain ⟨y1, y2⟩ := r2 hz
        refine ⟨single_append q1 r1 (fun _ => r3 rfl), fun _ => ⟨by rw [endsBlank_append y2]; exact y1, by simp [y2]⟩, by simp⟩
end

end

end Verif.Layout
