import Verif.Dump
import Verif.Props.Lex
import Verif.Props.Render

/-!
# The dumps tell everything (C87)
-/

namespace Verif.Props.Dump
open Verif Py Verif.Lex Verif.Dump
open Verif.Parse hiding Rec Ctx

/-! ## `repr` -/

theorem hex_length : ∀ (w n : Nat), (hex w n).length = w
  | 0, _ => rfl
  | w + 1, n => by simp [hex, hex_length w]

theorem hexDigit_inj : ∀ a, a < 16 → ∀ b, b < 16 → hexDigit a = hexDigit b → a = b := by decide

theorem hex_inj : ∀ (w a b : Nat), a < 16 ^ w → b < 16 ^ w → hex w a = hex w b → a = b
  | 0, a, b, ha, hb, _ => by simp at ha hb; omega
  | w + 1, a, b, ha, hb, h => by
    simp only [hex] at h
    obtain ⟨h1, h2⟩ := List.append_inj' h rfl
    have e1 := hex_inj w (a / 16) (b / 16) (by rw [Nat.pow_succ] at ha; omega) (by rw [Nat.pow_succ] at hb; omega) h1
    have e2 := hexDigit_inj _ (Nat.mod_lt a (by decide)) _ (Nat.mod_lt b (by decide)) (by simpa using h2)
    omega

/-- The forms an escape can have. -/
inductive Form (q c : Char) : Str → Prop
  | plain : c ≠ '\\' → c ≠ q → Form q c [c]
  | pair (k : Char) : (k, c) ∈ [(q, q), ('\\', '\\'), ('t', '\t'), ('n', '\n'), ('r', '\r')] → Form q c ['\\', k]
  | hex (k : Char) (w : Nat) : (k, w) ∈ [('x', 2), ('u', 4), ('U', 8)] → c.toNat < 16 ^ w → Form q c ('\\' :: k :: hex w c.toNat)

theorem char_lt (c : Char) : c.toNat < 16 ^ 8 := by
  have := c.val.toNat_lt
  have e : c.toNat = c.val.toNat := rfl
  omega

theorem escape_form (p : Char → Bool) (q c : Char) : Form q c (escape p q c) := by
  unfold escape
  split
  · rename_i h; subst h; exact .pair c (by simp)
  split
  · rename_i h; subst h; exact .pair '\\' (by simp)
  split
  · rename_i h; subst h; exact .pair 't' (by simp)
  split
  · rename_i h; subst h; exact .pair 'n' (by simp)
  split
  · rename_i h; subst h; exact .pair 'r' (by simp)
  split
  · exact .hex 'x' 2 (by simp) (by omega)
  split
  · exact .plain (by assumption) (by assumption)
  split
  · exact .hex 'x' 2 (by simp) (by omega)
  split
  · exact .hex 'u' 4 (by simp) (by omega)
  · exact .hex 'U' 8 (by simp) (char_lt c)

theorem form_inj {q c d : Char} (hq : q = '\'' ∨ q = '"') {s t x y : Str} (h1 : Form q c s) (h2 : Form q d t)
    (h : s ++ x = t ++ y) : c = d ∧ x = y := by
  cases h1 with
  | plain a1 a2 =>
    cases h2 with
    | plain b1 b2 => simpa using h
    | pair k hk => simp only [List.cons_append, List.nil_append, List.cons.injEq] at h; exact absurd h.1 a1
    | hex k w hk hw => simp only [List.cons_append, List.nil_append, List.cons.injEq] at h; exact absurd h.1 a1
  | pair k hk =>
    cases h2 with
    | plain b1 b2 => simp only [List.cons_append, List.nil_append, List.cons.injEq] at h; exact absurd h.1.symm b1
    | pair k' hk' =>
      simp only [List.cons_append, List.nil_append, List.cons.injEq, true_and] at h
      obtain ⟨rfl, rfl⟩ := h
      refine ⟨?_, rfl⟩
      simp only [List.mem_cons, Prod.mk.injEq, List.not_mem_nil, or_false] at hk hk'
      rcases hq with rfl | rfl <;>
        rcases hk with ⟨rfl, rfl⟩ | ⟨rfl, rfl⟩ | ⟨rfl, rfl⟩ | ⟨rfl, rfl⟩ | ⟨rfl, rfl⟩ <;> simpa [eq_comm] using hk'
    | hex k' w hk' hw =>
      simp only [List.cons_append, List.nil_append, List.cons.injEq, true_and] at h
      obtain ⟨rfl, rfl⟩ := h
      exfalso
      simp only [List.mem_cons, Prod.mk.injEq, List.not_mem_nil, or_false] at hk hk'
      rcases hq with rfl | rfl <;> rcases hk' with ⟨rfl, rfl⟩ | ⟨rfl, rfl⟩ | ⟨rfl, rfl⟩ <;> simp at hk
  | hex k w hk hw =>
    cases h2 with
    | plain b1 b2 => simp only [List.cons_append, List.nil_append, List.cons.injEq] at h; exact absurd h.1.symm b1
    | pair k' hk' =>
      simp only [List.cons_append, List.nil_append, List.cons.injEq, true_and] at h
      obtain ⟨rfl, h⟩ := h
      exfalso
      simp only [List.mem_cons, Prod.mk.injEq, List.not_mem_nil, or_false] at hk hk'
      rcases hq with rfl | rfl <;> rcases hk with ⟨rfl, rfl⟩ | ⟨rfl, rfl⟩ | ⟨rfl, rfl⟩ <;> simp at hk'
    | hex k' w' hk' hw' =>
      simp only [List.cons_append, List.cons.injEq, true_and] at h
      obtain ⟨rfl, h⟩ := h
      have : w = w' := by
        simp only [List.mem_cons, Prod.mk.injEq, List.not_mem_nil, or_false] at hk hk'
        rcases hk with ⟨rfl, rfl⟩ | ⟨rfl, rfl⟩ | ⟨rfl, rfl⟩ <;> simpa [eq_comm] using hk'
      subst this
      obtain ⟨e1, e2⟩ := List.append_inj h (by rw [hex_length, hex_length])
      exact ⟨Char.toNat_inj.1 (hex_inj w _ _ hw hw' e1), e2⟩

theorem form_head {q c : Char} (hq : q = '\'' ∨ q = '"') {s : Str} (h : Form q c s) : ∃ d r, s = d :: r ∧ d ≠ q := by
  cases h with
  | plain a1 a2 => exact ⟨c, [], rfl, a2⟩
  | pair k hk => exact ⟨'\\', [k], rfl, by rcases hq with rfl | rfl <;> decide⟩
  | hex k w hk hw => exact ⟨'\\', _, rfl, by rcases hq with rfl | rfl <;> decide⟩

theorem body_inj (p : Char → Bool) {q : Char} (hq : q = '\'' ∨ q = '"') : ∀ (a b x y : Str),
    a.flatMap (escape p q) ++ q :: x = b.flatMap (escape p q) ++ q :: y → a = b ∧ x = y
  | [], [], x, y, h => by simpa using h
  | [], d :: b, x, y, h => by
    obtain ⟨e, r, he, hne⟩ := form_head hq (escape_form p q d)
    simp only [List.flatMap_nil, List.nil_append, List.flatMap_cons, he, List.cons_append, List.cons.injEq] at h
    exact absurd h.1.symm hne
  | c :: a, [], x, y, h => by
    obtain ⟨e, r, he, hne⟩ := form_head hq (escape_form p q c)
    simp only [List.flatMap_nil, List.nil_append, List.flatMap_cons, he, List.cons_append, List.cons.injEq] at h
    exact absurd h.1 hne
  | c :: a, d :: b, x, y, h => by
    simp only [List.flatMap_cons, List.append_assoc] at h
    obtain ⟨rfl, h'⟩ := form_inj hq (escape_form p q c) (escape_form p q d) h
    obtain ⟨rfl, rfl⟩ := body_inj p hq a b x y h'
    exact ⟨rfl, rfl⟩

theorem quote_cases (s : Str) : quoteOf s = '\'' ∨ quoteOf s = '"' := by
  unfold quoteOf
  split
  · right; rfl
  · left; rfl

/-- `repr` can be read back, whatever follows. -/
theorem repr_inj (p : Char → Bool) {a b x y : Str} (h : pyRepr p a ++ x = pyRepr p b ++ y) : a = b ∧ x = y := by
  simp only [pyRepr, List.cons_append, List.cons.injEq, List.append_assoc, List.nil_append] at h
  obtain ⟨hq, h⟩ := h
  rw [← hq] at h
  exact body_inj p (quote_cases a) a b x y h

theorem hexDigit_line : ∀ n, n < 16 → hexDigit n ≠ '\n' := by decide

theorem hex_line : ∀ (w n : Nat), '\n' ∉ hex w n
  | 0, _ => by simp [hex]
  | w + 1, n => by
    simp only [hex, List.mem_append, List.mem_singleton, not_or]
    exact ⟨hex_line w _, fun e => hexDigit_line _ (Nat.mod_lt n (by decide)) e.symm⟩

theorem escape_line (p : Char → Bool) {q : Char} (hq : q = '\'' ∨ q = '"') (c : Char) : '\n' ∉ escape p q c := by
  have hq' : q ≠ '\n' := by rcases hq with rfl | rfl <;> decide
  have h32 : ¬ (('\n' : Char).toNat < 127 ∨ p '\n' = true) ∨ True := Or.inr trivial
  unfold escape
  repeat' split
  all_goals simp only [List.mem_cons, List.not_mem_nil, or_false, not_or]
  all_goals first
    | exact ⟨by decide, hq'.symm⟩
    | decide
    | exact ⟨by decide, by decide, hex_line _ _⟩
    | (intro e; subst e; contradiction)

theorem repr_line (p : Char → Bool) (s : Str) : '\n' ∉ pyRepr p s := by
  have hq := quote_cases s
  have hq' : quoteOf s ≠ '\n' := by rcases hq with e | e <;> rw [e] <;> decide
  simp only [pyRepr, List.mem_cons, List.mem_append, List.mem_flatMap, List.not_mem_nil, or_false, not_or, not_exists, not_and]
  exact ⟨hq'.symm, fun c _ => escape_line p hq c, hq'.symm⟩

/-! ## Labels -/

theorem nat_line (n : Nat) : '\n' ∉ Lint.natStr n := by
  intro h
  have := Nat.isDigit_of_mem_toDigits (b := 10) (n := n) (by decide) (by decide) (c := '\n') (by simpa [Lint.natStr, Nat.repr] using h)
  exact absurd this (by decide)

theorem split_at {k : Char} : ∀ {a b x y : Str}, k ∉ a → k ∉ b → a ++ k :: x = b ++ k :: y → a = b ∧ x = y
  | [], [], x, y, _, _, h => by simpa using h
  | [], d :: b, x, y, _, hb, h => by
    simp only [List.nil_append, List.cons_append, List.cons.injEq] at h
    simp [h.1] at hb
  | c :: a, [], x, y, ha, _, h => by
    simp only [List.nil_append, List.cons_append, List.cons.injEq] at h
    simp [h.1] at ha
  | c :: a, d :: b, x, y, ha, hb, h => by
    simp only [List.cons_append, List.cons.injEq] at h
    obtain ⟨rfl, h⟩ := h
    obtain ⟨rfl, rfl⟩ := split_at (fun e => ha (by simp [e])) (fun e => hb (by simp [e])) h
    exact ⟨rfl, rfl⟩

theorem tok_line (p : Char → Bool) (t : Token) : '\n' ∉ tokLabel p t := by
  have h : '\n' ∉ Render.tokName t.type := by cases t.type <;> decide
  simp only [tokLabel, List.mem_append, not_or]
  exact ⟨⟨⟨⟨⟨⟨⟨⟨by decide, h⟩, by decide⟩, repr_line p _⟩, by decide⟩, nat_line _⟩, by decide⟩, nat_line _⟩, by decide⟩

/-- The label of a token tells its type and its text. -/
theorem tok_inj (p : Char → Bool) {t u : Token} (h : tokLabel p t = tokLabel p u) : t.type = u.type ∧ t.spelling = u.spelling := by
  unfold tokLabel at h
  simp only [List.append_assoc] at h
  have h1 := List.append_cancel_left h
  have comma : ∀ ty : TokType, ',' ∉ Render.tokName ty := by intro ty; cases ty <;> decide
  have e : ∀ r : Str, S ", content=" ++ r = ',' :: (S " content=" ++ r) := fun r => rfl
  rw [e, e] at h1
  obtain ⟨h2, h3⟩ := split_at (comma _) (comma _) h1
  have h4 := List.append_cancel_left h3
  refine ⟨?_, (repr_inj p h4).1⟩
  revert h2
  cases t.type <;> cases u.type <;> decide

/-! ## Drawings -/

mutual
/-- The labels take one line each. -/
def OneLine : Drawn → Prop
  | .node label kids => '\n' ∉ label ∧ OneLineL kids
/-- The same for several trees. -/
def OneLineL : List Drawn → Prop
  | [] => True
  | n :: ns => OneLine n ∧ OneLineL ns
end

theorem dump_nil (ind : Str) : dumpTree ind [] = [] := rfl

theorem dump_one (ind label : Str) (kids : List Drawn) :
    dumpTree ind [.node label kids] = ind ++ S "└─ " ++ label ++ '\n' :: dumpTree (ind ++ S "    ") kids := by
  simp [dumpTree, dumpNode]

theorem dump_more (ind label : Str) (kids : List Drawn) (n : Drawn) (ns : List Drawn) :
    dumpTree ind (.node label kids :: n :: ns) =
      ind ++ S "├─ " ++ label ++ '\n' :: (dumpTree (ind ++ S "│   ") kids ++ dumpTree ind (n :: ns)) := by
  rw [dumpTree, dumpNode]
  simp

theorem dump_starts (ind : Str) {ns : List Drawn} (h : ns ≠ []) :
    ∃ r, dumpTree ind ns = ind ++ '└' :: r ∨ dumpTree ind ns = ind ++ '├' :: r := by
  match ns, h with
  | [.node label kids], _ => exact ⟨_, Or.inl (by simp only [dump_one, List.append_assoc]; rfl)⟩
  | .node label kids :: n :: ns, _ => exact ⟨_, Or.inr (by simp only [dump_more, List.append_assoc]; rfl)⟩

theorem no_deeper {ind : Str} {k : Char} {ext r : Str} (hk : k = '└' ∨ k = '├') (e : ext = S "    " ∨ ext = S "│   ") :
    ¬ (ind ++ ext) <+: (ind ++ k :: r) := by
  rw [List.prefix_append_right_inj]
  rcases e with rfl | rfl <;> rcases hk with rfl | rfl <;> rintro ⟨s, h⟩ <;>
    (have := congrArg List.head? h; revert this; simp [S])

/-- A drawing can be read back, up to something that is not indented as deep. -/
theorem dump_inj : ∀ (ns ms : List Drawn) (ind r r' : Str), OneLineL ns → OneLineL ms → ¬ ind <+: r → ¬ ind <+: r' →
    dumpTree ind ns ++ r = dumpTree ind ms ++ r' → ns = ms ∧ r = r'
  | [], [], ind, r, r', _, _, _, _, h => by simpa [dumpTree] using h
  | [], m :: ms, ind, r, r', _, _, hr, _, h => by
    obtain ⟨x, hx | hx⟩ := dump_starts ind (ns := m :: ms) (by simp) <;> rw [hx] at h <;>
      exact absurd ⟨_, by rw [show dumpTree ind [] = [] by simp [dumpTree], List.nil_append] at h; rw [h, List.append_assoc]⟩ hr
  | n :: ns, [], ind, r, r', _, _, _, hr', h => by
    obtain ⟨x, hx | hx⟩ := dump_starts ind (ns := n :: ns) (by simp) <;> rw [hx] at h <;>
      exact absurd ⟨_, by rw [show dumpTree ind [] = [] by simp [dumpTree], List.nil_append] at h; rw [← h, List.append_assoc]⟩ hr'
  | [.node l k], [.node l' k'], ind, r, r', h1, h2, hr, hr', h => by
    simp only [dump_one, dump_more, List.append_assoc, List.cons_append] at h
    obtain ⟨rfl, g⟩ := split_at h1.1.1 h2.1.1 (List.append_cancel_left (List.append_cancel_left h))
    have deep : ∀ x : Str, ¬ ind <+: x → ¬ (ind ++ S "    ") <+: x := fun x hx e => hx ((List.prefix_append _ _).trans e)
    obtain ⟨rfl, rfl⟩ := dump_inj k k' (ind ++ S "    ") r r' h1.1.2 h2.1.2 (deep _ hr) (deep _ hr') g
    exact ⟨rfl, rfl⟩
  | [.node l k], .node l' k' :: m :: ms, ind, r, r', h1, h2, hr, hr', h => by
    simp only [dump_one, dump_more, List.append_assoc, List.cons_append] at h
    have := congrArg List.head? (List.append_cancel_left h)
    revert this
    simp [S]
  | .node l k :: n :: ns, [.node l' k'], ind, r, r', h1, h2, hr, hr', h => by
    simp only [dump_one, dump_more, List.append_assoc, List.cons_append] at h
    have := congrArg List.head? (List.append_cancel_left h)
    revert this
    simp [S]
  | .node l k :: n :: ns, .node l' k' :: m :: ms, ind, r, r', h1, h2, hr, hr', h => by
    simp only [dump_one, dump_more, List.append_assoc, List.cons_append] at h
    obtain ⟨rfl, g⟩ := split_at h1.1.1 h2.1.1 (List.append_cancel_left (List.append_cancel_left h))
    have deep : ∀ (xs : List Drawn) (x : Str), xs ≠ [] → ¬ (ind ++ S "│   ") <+: (dumpTree ind xs ++ x) := by
      intro xs x hxs
      obtain ⟨y, hy | hy⟩ := dump_starts ind hxs <;> rw [hy, List.append_assoc]
      · exact no_deeper (Or.inl rfl) (Or.inr rfl)
      · exact no_deeper (Or.inr rfl) (Or.inr rfl)
    obtain ⟨rfl, h'⟩ := dump_inj k k' (ind ++ S "│   ") _ _ h1.1.2 h2.1.2 (deep (n :: ns) _ (by simp)) (deep (m :: ms) _ (by simp)) g
    obtain ⟨e, rfl⟩ := dump_inj (n :: ns) (m :: ms) ind r r' h1.2 h2.2 hr hr' h'
    rw [e]
    exact ⟨rfl, rfl⟩

/-- The names of the classes are words. -/
def WordClass (cls : Node → Str) : Prop := ∀ n, ∀ c ∈ cls n, c ≠ '\n' ∧ c ≠ '(' ∧ c ≠ ':'

theorem loc_line (l : List Nat) : '\n' ∉ locLabel l := by
  unfold locLabel
  split
  · simp only [List.mem_append, not_or]
    exact ⟨⟨nat_line _, by decide⟩, nat_line _⟩
  · simp

theorem node_line {cls : Node → Str} (hc : WordClass cls) (n : Node) : '\n' ∉ nodeLabel cls n := by
  unfold nodeLabel
  simp only [List.mem_append, not_or]
  refine ⟨⟨⟨fun h => (hc n _ h).1 rfl, by decide⟩, loc_line _⟩, ?_⟩
  repeat' split
  all_goals decide

mutual
theorem drawn_line (p : Char → Bool) {cls : Node → Str} (hc : WordClass cls) : ∀ n, OneLine (drawn p cls n)
  | .tok t => ⟨tok_line p t, trivial⟩
  | .node ty a cs => ⟨node_line hc _, drawnL_line p hc cs⟩
theorem drawnL_line (p : Char → Bool) {cls : Node → Str} (hc : WordClass cls) : ∀ ns, OneLineL (drawnL p cls ns)
  | [] => trivial
  | n :: ns => ⟨drawn_line p hc n, drawnL_line p hc ns⟩
end

theorem first_mark {cls : Node → Str} (hc : WordClass cls) (n : Node) : (nodeLabel cls n).find? (fun c => c == '(' || c == ':') = some ':' := by
  unfold nodeLabel
  simp only [List.append_assoc]
  rw [List.find?_append, List.find?_eq_none.2 (fun c h => by have := hc n c h; simp [this])]
  rfl

theorem label_apart (p : Char → Bool) {cls : Node → Str} (hc : WordClass cls) (n : Node) (t : Token) : nodeLabel cls n ≠ tokLabel p t := by
  intro e
  have h1 := first_mark hc n
  rw [e] at h1
  have h2 : (tokLabel p t).find? (fun c => c == '(' || c == ':') = some '(' := by
    unfold tokLabel
    simp only [List.append_assoc]
    rfl
  rw [h2] at h1
  exact absurd h1 (by decide)

/-- What is told about a token. -/
def told (t : Token) : TokType × Str := (t.type, t.spelling)

mutual
theorem drawn_toks (p : Char → Bool) {cls : Node → Str} (hc : WordClass cls) : ∀ n m, drawn p cls n = drawn p cls m →
    n.toks.map told = m.toks.map told
  | .tok t, .tok u, h => by
    simp only [drawn, Drawn.node.injEq, and_true] at h
    have := tok_inj p h
    simp [Node.toks, told, this]
  | .tok t, .node ty a cs, h => by
    simp only [drawn, Drawn.node.injEq] at h
    exact absurd h.1.symm (label_apart p hc _ t)
  | .node ty a cs, .tok u, h => by
    simp only [drawn, Drawn.node.injEq] at h
    exact absurd h.1 (label_apart p hc _ u)
  | .node ty a cs, .node ty' a' cs', h => by
    simp only [drawn, Drawn.node.injEq] at h
    simpa [Node.toks] using drawnL_toks p hc cs cs' h.2
theorem drawnL_toks (p : Char → Bool) {cls : Node → Str} (hc : WordClass cls) : ∀ ns ms, drawnL p cls ns = drawnL p cls ms →
    (toksL ns).map told = (toksL ms).map told
  | [], [], _ => rfl
  | [], m :: ms, h => by simp [drawnL] at h
  | n :: ns, [], h => by simp [drawnL] at h
  | n :: ns, m :: ms, h => by
    simp only [drawnL, List.cons.injEq] at h
    simp [toksL, drawn_toks p hc n m h.1, drawnL_toks p hc ns ms h.2]
end

/-! ## C87 -/

/-- **C87.** A drawing tells the whole tree below one root: two trees of one-line labels with the same drawing are
the same (`--dump parse` and `--dump layout`). -/
theorem drawing_tells_tree {t u : Drawn} (ht : OneLine t) (hu : OneLine u) (h : dumpTree [] [t] = dumpTree [] [u]) : t = u := by
  cases t with
  | node l k =>
    cases u with
    | node l' k' =>
      simp only [dump_one, List.nil_append] at h
      simp only [List.append_assoc] at h
      obtain ⟨rfl, g⟩ := split_at ht.1 hu.1 (List.append_cancel_left h)
      have hr : ¬ S "    " <+: ([] : Str) := by decide
      obtain ⟨rfl, _⟩ := dump_inj k k' (S "    ") [] [] ht.2 hu.2 hr hr (by rw [List.append_nil, List.append_nil]; exact g)
      rfl

/-- **C87.** `--dump parse` tells the structure of the tree and the type and text of every token in it. -/
theorem parse_dump_tells (p : Char → Bool) {cls : Node → Str} (hc : WordClass cls) {n m : Node}
    (h : dumpParse p cls n = dumpParse p cls m) :
    drawn p cls n = drawn p cls m ∧ n.toks.map (fun t => (t.type, t.spelling)) = m.toks.map (fun t => (t.type, t.spelling)) := by
  have := drawing_tells_tree (drawn_line p hc n) (drawn_line p hc m) h
  exact ⟨this, drawn_toks p hc n m this⟩

theorem lex_inj (p : Char → Bool) : ∀ ts us : List Token, dumpLex p ts = dumpLex p us → ts.map told = us.map told
  | [], [], _ => rfl
  | [], u :: us, h => by simp [dumpLex] at h
  | t :: ts, [], h => by simp [dumpLex] at h
  | t :: ts, u :: us, h => by
    simp only [dumpLex] at h
    obtain ⟨h1, h2⟩ := split_at (tok_line p t) (tok_line p u) h
    have := tok_inj p h1
    simp [told, this, lex_inj p ts us h2]

/-- **C87.** `--dump lex` tells the file: two files with the same dump have the same text. -/
theorem lex_dump_tells (p : Char → Bool) {a b : Str} {ts us : List Token} (ha : tokenize a = .ok ts) (hb : tokenize b = .ok us)
    (h : dumpLex p ts = dumpLex p us) : a = b := by
  obtain ⟨ts', e1, h1⟩ := Props.Lex.tokenize_total_lossless a
  obtain ⟨us', e2, h2⟩ := Props.Lex.tokenize_total_lossless b
  rw [ha] at e1
  rw [hb] at e2
  injection e1 with e1
  injection e2 with e2
  subst e1 e2
  rw [← h1, ← h2]
  have := congrArg (List.map Prod.snd) (lex_inj p ts us h)
  simp only [List.map_map, Function.comp_def, told] at this
  exact congrArg List.flatten this

/-! ## Examples -/

/-- A class name for every node. -/
def demoCls (_ : Node) : Str := S "Node"

theorem demo_cls : WordClass demoCls := by
  intro n
  unfold demoCls
  decide

/-- A small tree. -/
def demoTree : Node := .node .body {} [.node .comment {} [.tok ⟨.comment, S "# it's", 0, ⟨1, 0, 0⟩, ⟨1, 6, 6⟩⟩],
  .node .whitespace {} [.tok ⟨.newline, S "\n", 1, ⟨1, 6, 6⟩, ⟨2, 0, 7⟩⟩]]

/-- Its dump. -/
example : dumpParse (fun _ => true) demoCls demoTree =
    S "└─ Node: 1:0\n    ├─ Node: 1:0\n    │   └─ Token(type=COMMENT, content=\"# it's\", line=1, col=0)\n    └─ Node: 1:6\n        └─ Token(type=NEWLINE, content='\\n', line=1, col=6)\n" := by
  decide +kernel

/-- The hypotheses are met. -/
example : OneLine (drawn (fun _ => true) demoCls demoTree) := drawn_line _ demo_cls _

end Verif.Props.Dump
