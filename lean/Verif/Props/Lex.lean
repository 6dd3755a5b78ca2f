import Verif.LexLemmas

/-!
# Properties of the lexer (C01 - C06)
-/

namespace Verif.Props.Lex
open Verif Py Verif.Lex

/-! ## Specification vocabulary

These definitions describe texts and positions only; they do not mention the
lexer's rules. -/

/-- The location of the position just after the text `before`: the line is one
plus the number of newlines before it, the column is the number of characters
since the last newline, the offset is the number of utf-8 bytes before it. -/
def trueLoc (before : Str) : Loc :=
  { line := 1 + before.count '\n'
    col := (before.reverse.takeWhile (· != '\n')).length
    offset := (before.map Char.utf8Size).sum }

/-- The inside of a string quoted with `q`: ordinary characters and
backslash-escaped characters; a bare `q` cannot occur. -/
inductive QuotedBody (q : Char) : Str → Prop
  | nil : QuotedBody q []
  | char (c : Char) (s : Str) : c ≠ q → c ≠ '\\' → QuotedBody q s → QuotedBody q (c :: s)
  | esc (d : Char) (s : Str) : QuotedBody q s → QuotedBody q ('\\' :: d :: s)

/-- Pieces an unquoted argument is made of: `$(...)`, a quoted substring, an
escape sequence, or a plain character that is not a blank or one of `()#"\`. -/
inductive Unquoted : Str → Prop
  | nil : Unquoted []
  | makeVar (body s : Str) : body ≠ [] → (∀ c ∈ body, c ≠ '$' ∧ c ≠ '(' ∧ c ≠ ')') →
      Unquoted s → Unquoted (['$', '('] ++ body ++ [')'] ++ s)
  | quoted (body s : Str) : QuotedBody '"' body → Unquoted s →
      Unquoted (['"'] ++ body ++ ['"'] ++ s)
  | esc (d : Char) (s : Str) : d ∈ S "()#\" \\$@^trn;" → Unquoted s → Unquoted ('\\' :: d :: s)
  | char (c : Char) (s : Str) : c ∉ S " \t\n\r\x0b\x0c()#\"\\" → Unquoted s → Unquoted (c :: s)

/-- `close` occurs in `t`. -/
def Occurs (close t : Str) : Prop := ∃ u v, t = u ++ close ++ v

/-- The shape promised by each kind of token. -/
def Shape : TokType → Str → Prop
  | .lparen, s => s = S "("
  | .rparen, s => s = S ")"
  | .newline, s => s = S "\n" ∨ s = S "\r\n" ∨ s = S "\r"
  | .whitespace, s => s ≠ [] ∧ ∀ c ∈ s, c ∈ S " \t\x0b\x0c"
  | .word, s => ∃ c cs, s = c :: cs ∧ 65 ≤ c.toNat ∧ c.toNat ≤ 122 ∧
      ∀ d ∈ cs, d.isAlphanum ∨ d = '_'
  | .number, s => ∃ d ds, (s = d :: ds ∨ s = '-' :: d :: ds) ∧ ∀ c ∈ d :: ds, c.isDigit
  | .atword, s => ∃ c cs, s = ['@'] ++ (c :: cs) ++ ['@'] ∧ 65 ≤ c.toNat ∧ c.toNat ≤ 122 ∧
      ∀ d ∈ cs, d.isAlphanum ∨ d = '_'
  | .deref, s => ∃ c cs, s = ['$', '{'] ++ (c :: cs) ++ ['}'] ∧ 65 ≤ c.toNat ∧ c.toNat ≤ 122 ∧
      ∀ d ∈ cs, d.isAlphanum ∨ d = '_'
  | .comment, s => ∃ t, s = '#' :: t ∧ '\n' ∉ t
  | .formatOff, s => ∃ ws name t, s = ['#'] ++ ws ++ name ++ S ": off" ++ t ∧
      (∀ c ∈ ws, c ∈ S " \t\n\r\x0b\x0c") ∧ (name = S "cmake-format" ∨ name = S "cmf") ∧ '\n' ∉ t
  | .formatOn, s => ∃ ws name t, s = ['#'] ++ ws ++ name ++ S ": on" ++ t ∧
      (∀ c ∈ ws, c ∈ S " \t\n\r\x0b\x0c") ∧ (name = S "cmake-format" ∨ name = S "cmf") ∧ '\n' ∉ t
  | .bracketComment, s => ∃ n body, s = ['#', '['] ++ List.replicate n '=' ++ ['['] ++ body ++
      [']'] ++ List.replicate n '=' ++ [']'] ∧
      ¬ ∃ u v, body ++ [']'] ++ List.replicate n '=' = u ++ ([']'] ++ List.replicate n '=' ++ [']']) ++ v
  | .bracketArg, s => ∃ n body, s = ['['] ++ List.replicate n '=' ++ ['['] ++ body ++
      [']'] ++ List.replicate n '=' ++ [']']
  | .quoted, s => ∃ q body, (q = '"' ∨ q = '\'') ∧ s = [q] ++ body ++ [q] ∧ QuotedBody q body
  | .unquoted, s => s ≠ [] ∧ (Unquoted s ∨ ∀ c ∈ s, c ∉ S " \t\n\r\x0b\x0c()")
  | .bom, s => s = [BOM]

/-! ## C01 -/

/-- **C01.** `tokenize` never raises, and the spellings of its tokens
concatenate to the input, for every input. -/
theorem tokenize_total_lossless (text : Str) :
    ∃ ts, tokenize text = .ok ts ∧ (ts.map Token.spelling).flatten = text := by
  have body : ∀ s : Str, ∃ ts, tokenizeBody s = .ok ts ∧ (ts.map Token.spelling).flatten = s := by
    intro s
    refine ⟨_, tokenizeBody_ok s, ?_⟩
    have h1 := scan_spellings s.length none s
    rw [scan_complete s.length none s (Nat.le_refl _), List.append_nil] at h1
    have h2 := locate_spellings 0 ⟨1, 0, 0⟩ (scan s.length none s).1
    conv => rhs; rw [← h1, ← h2]
    simp [List.map_map, Function.comp_def]
  unfold tokenize
  split
  · rename_i c cs
    split
    · rename_i hc
      obtain ⟨ts, h1, h2⟩ := body cs
      rw [h1]
      exact ⟨_, rfl, by simp [bomToken, h2, hc]⟩
    · exact body _
  · exact body _

/-- The token list, for concrete examples. -/
def toks (text : Str) : List Token := (tokenize text).toOption.getD []

example : (toks (S "set(a \"x\ny\") # é\n")).map Token.type =
    [.word, .lparen, .word, .whitespace, .quoted, .rparen, .whitespace, .comment, .newline] := by
  decide +kernel

/-! ## C02 -/

theorem advance_trueLoc (p sp : Str) : advance (trueLoc p) sp = trueLoc (p ++ sp) := by
  simp only [advance, trueLoc, Loc.mk.injEq, List.count_append]
  refine ⟨by omega, ?_, ?_⟩
  · have key : ∀ (x y : Str), (∀ c ∈ x, c ≠ '\n') →
        ((x ++ y).takeWhile (· != '\n')).length = x.length + (y.takeWhile (· != '\n')).length := by
      intro x y hx
      rw [List.takeWhile_append_of_pos (by simpa using hx)]; simp
    split
    · rename_i h0
      rw [List.reverse_append, key]
      · simp; omega
      · intro c hc e; subst e
        have := List.count_pos_iff.mpr (List.mem_reverse.mp hc); omega
    · rename_i h0
      rw [List.reverse_append]
      have hm : '\n' ∈ sp.reverse := by
        rw [List.mem_reverse]; exact List.count_pos_iff.mp (by omega)
      have : ∀ (x y : Str), '\n' ∈ x → (x ++ y).takeWhile (· != '\n') = x.takeWhile (· != '\n') := by
        intro x y hx
        induction x with
        | nil => simp at hx
        | cons c cs ih =>
          by_cases hc : c = '\n'
          · simp [hc]
          · simp only [List.mem_cons] at hx
            rcases hx with hx | hx
            · exact absurd hx.symm hc
            · simp [hc, ih hx]
      rw [this _ _ hm]
  · have : ∀ s : Str, utf8Len s = (s.map Char.utf8Size).sum := by
      intro s; induction s with
      | nil => rfl
      | cons c cs ih => simp [utf8Len, ih]
    simp [this]

theorem foldl_advance (xs : List (TokType × Str)) (p : Str) :
    xs.foldl (fun l x => advance l x.2) (trueLoc p) = trueLoc (p ++ (xs.map Prod.snd).flatten) := by
  induction xs generalizing p with
  | nil => simp
  | cons x xs ih => simp [advance_trueLoc, ih]

/-- **C02.** For every text without a leading byte-order mark and every token
position `k`, the text splits as `before ++ spelling ++ after` where `before` is
the text of the earlier tokens, and the token's locations are the true locations
of the two ends of its spelling. -/
theorem token_locations_exact (text : Str) (hbom : text.head? ≠ some (BOM))
    (ts : List Token) (hts : tokenize text = .ok ts) (k : Nat) (t : Token) (hk : ts[k]? = some t) :
    ∃ before after, text = before ++ t.spelling ++ after ∧
      before = ((ts.take k).map Token.spelling).flatten ∧
      t.begin_ = trueLoc before ∧ t.end_ = trueLoc (before ++ t.spelling) := by
  have hb : tokenize text = tokenizeBody text := by
    cases text with
    | nil => rfl
    | cons c cs =>
      have : ¬ c = BOM := by intro e; subst e; exact hbom rfl
      simp [tokenize, this]
  rw [hb, tokenizeBody_ok] at hts
  injection hts with hts
  subst hts
  obtain ⟨_, h1, h2, h3⟩ := locate_getElem? _ _ _ _ _ hk
  generalize hx : (scan text.length none text).1 = xs at *
  have hflat : (xs.map Prod.snd).flatten = text := by
    have := scan_spellings text.length none text
    rwa [scan_complete text.length none text (Nat.le_refl _), List.append_nil, hx] at this
  have h0 : (⟨1, 0, 0⟩ : Loc) = trueLoc [] := by decide
  rw [h0, foldl_advance] at h1 h2
  have hlt : k < xs.length := (List.getElem?_eq_some_iff.mp h3).1
  have hxk : xs[k] = (t.type, t.spelling) := (List.getElem?_eq_some_iff.mp h3).2
  refine ⟨((xs.take k).map Prod.snd).flatten, ((xs.drop (k + 1)).map Prod.snd).flatten, ?_, ?_, ?_, ?_⟩
  · conv => lhs; rw [← hflat, ← List.take_append_drop k xs, List.drop_eq_getElem_cons hlt]
    simp [hxk]
  · have := locate_spellings 0 ⟨1, 0, 0⟩ xs
    conv => lhs; rw [← this, ← List.map_take]
    simp [List.map_map, Function.comp_def]
  · simpa using h1
  · rw [List.take_succ_eq_append_getElem hlt] at h2
    simpa [hxk] using h2

/-- **C02, adjacency.** Each token begins where the previous one ends. -/
theorem tokens_abut (text : Str) (hbom : text.head? ≠ some (BOM))
    (ts : List Token) (hts : tokenize text = .ok ts) (k : Nat) (t u : Token)
    (hk : ts[k]? = some t) (hk1 : ts[k + 1]? = some u) : u.begin_ = t.end_ := by
  obtain ⟨b1, _, _, hb1, _, he⟩ := token_locations_exact text hbom ts hts k t hk
  obtain ⟨b2, _, _, hb2, hb, _⟩ := token_locations_exact text hbom ts hts (k + 1) u hk1
  rw [hb, he, hb1, hb2]
  congr 1
  have hlt : k < ts.length := (List.getElem?_eq_some_iff.mp hk).1
  have hxk : ts[k] = t := (List.getElem?_eq_some_iff.mp hk).2
  rw [List.take_succ_eq_append_getElem hlt]
  simp [hxk]

example : (toks (S "é\n  foo("))[3]?.map (fun t => (t.spelling, t.begin_, t.end_)) =
    some (S "foo", ⟨2, 2, 5⟩, ⟨2, 5, 8⟩) := by decide +kernel

/-- **C02, byte-order mark.** With a byte-order mark every other token's
locations are those of the text after the mark, so offsets are three bytes short
of the position in the file. -/
theorem bom_tokens (text : Str) (ts : List Token) (h : tokenizeBody text = .ok ts) :
    tokenize (BOM :: text) = .ok (bomToken :: ts) := by
  simp [tokenize, h]

/-! ## C03 -/

/-- **C03.** Every token other than the byte-order mark is non-empty. -/
theorem tokens_nonempty (text : Str) (ts : List Token) (h : tokenize text = .ok ts) :
    ∀ t ∈ ts, t.spelling ≠ [] := by
  have body : ∀ (s : Str) (ts : List Token), tokenizeBody s = .ok ts → ∀ t ∈ ts, t.spelling ≠ [] := by
    intro s ts h t ht
    rw [tokenizeBody_ok] at h
    injection h with h; subst h
    have : (t.type, t.spelling) ∈ (scan s.length none s).1 := by
      rw [← locate_spellings 0 ⟨1, 0, 0⟩ (scan s.length none s).1]
      exact List.mem_map.mpr ⟨t, ht, rfl⟩
    obtain ⟨p, s', b, hl⟩ := scan_mem this
    exact lexOne_nonEmpty hl
  unfold tokenize at h
  split at h
  · split at h
    · split at h
      · rename_i ts' h'
        injection h with h; subst h
        intro t ht
        rcases List.mem_cons.mp ht with rfl | ht
        · simp [bomToken]
        · exact body _ _ h' t ht
      · simp at h
    · exact body _ _ h
  · exact body _ _ h

/-- **C03.** Tokens are numbered consecutively from zero (a byte-order mark has
index -1 and shifts nothing). -/
theorem token_indices (text : Str) (ts : List Token) (h : tokenize text = .ok ts) :
    ∀ (k : Nat) (t : Token), ts[k]? = some t →
      t.index = (k : Int) - (if text.head? = some (BOM) then 1 else 0) := by
  have body : ∀ (s : Str) (ts : List Token), tokenizeBody s = .ok ts →
      ∀ (k : Nat) (t : Token), ts[k]? = some t → t.index = (k : Int) := by
    intro s ts h k t hk
    rw [tokenizeBody_ok] at h
    injection h with h; subst h
    simpa using (locate_getElem? _ _ _ _ _ hk).1
  intro k t hk
  unfold tokenize at h
  split at h
  · split at h
    · rename_i hc
      split at h
      · rename_i ts' h'
        injection h with h; subst h
        simp only [List.head?_cons, hc, if_true]
        cases k with
        | zero => simp at hk; subst hk; rfl
        | succ k => simp at hk; rw [body _ _ h' k t hk]; omega
      · simp at h
    · rename_i hc
      rw [body _ _ h k t hk]; simp [hc]
  · rw [body _ _ h k t hk]; simp

example : (toks (BOM :: S "a b")).map Token.index = [-1, 0, 1, 2] := by
  decide +kernel

/-! ## C04 -/

theorem mem_of_isBlank {c : Char} (h : isBlank c = true) : c ∈ S " \t\x0b\x0c" := by
  simp [isBlank] at h
  have e : S " \t\x0b\x0c" = [' ', '\t', '\x0b', '\x0c'] := by decide
  rw [e]; simp; grind

theorem space_list : S " \t\n\r\x0b\x0c" = [' ', '\t', '\n', '\r', '\x0b', '\x0c'] := by decide

theorem mem_of_isSpace {c : Char} (h : isSpace c = true) : c ∈ S " \t\n\r\x0b\x0c" := by
  simp [isSpace] at h
  rw [space_list]; simp; grind

theorem wordChar_iff {c : Char} (h : isWordChar c = true) : c.isAlphanum ∨ c = '_' := by
  simp [isWordChar, isLower, isUpper, isDigit] at h
  simp [Char.isAlphanum, Char.isAlpha, Char.isUpper, Char.isLower, Char.isDigit, UInt32.le_iff_toNat_le]
  grind

theorem wordHead_range {c : Char} (h : isWordHead c = true) : 65 ≤ c.toNat ∧ c.toNat ≤ 122 := by
  simp [isWordHead, isLower] at h
  omega

theorem digit_iff {c : Char} (h : isDigit c = true) : c.isDigit = true := by
  simp [isDigit] at h
  simp [Char.isDigit, UInt32.le_iff_toNat_le]
  exact h

theorem mem_takeWhile_pos {p : Char → Bool} {l : Str} {c : Char} (h : c ∈ l.takeWhile p) :
    p c = true := by
  induction l with
  | nil => simp at h
  | cons a l ih =>
    simp only [List.takeWhile_cons] at h
    split at h
    · rename_i hp
      rcases List.mem_cons.mp h with rfl | h
      · exact hp
      · exact ih h
    · simp at h

theorem quotedRest_shape {q : Char} {s a b : Str} (h : quotedRest q s = some (a, b)) : ∃ body, a = body ++ [q] ∧ QuotedBody q body := by
  fun_induction quotedRest q s generalizing a b with
  | case1 => simp at h
  | case2 cs => simp at h; exact ⟨[], by simp [h.1], .nil⟩
  | case3 => simp at h
  | case4 d ds hne ih =>
    obtain ⟨a', h1, h2⟩ := pre_eq_some h
    obtain ⟨body, h3, h4⟩ := ih h1
    exact ⟨'\\' :: d :: body, by simp [h2, h3], .esc d _ h4⟩
  | case5 c cs hne hne2 ih =>
    obtain ⟨a', h1, h2⟩ := pre_eq_some h
    obtain ⟨body, h3, h4⟩ := ih h1
    exact ⟨c :: body, by simp [h2, h3], .char c _ hne hne2 h4⟩

theorem quotedStr_shape {q : Char} {s a b : Str} (h : quotedStr q s = some (a, b)) : ∃ body, a = [q] ++ body ++ [q] ∧ QuotedBody q body := by
  unfold quotedStr at h
  split at h
  · simp at h
  · split at h
    · rename_i hc
      obtain ⟨a', h1, h2⟩ := pre_eq_some h
      obtain ⟨body, h3, h4⟩ := quotedRest_shape h1
      exact ⟨body, by simp [h2, h3, hc], h4⟩
    · simp at h

theorem wordBody_shape {s a b : Str} (h : wordBody s = some (a, b)) :
    ∃ c cs, a = c :: cs ∧ isWordHead c = true ∧ ∀ d ∈ cs, isWordChar d = true := by
  unfold wordBody at h
  split at h
  · simp at h
  · split at h
    · rename_i hw; simp at h
      exact ⟨_, _, h.1.symm, hw, fun d hd => mem_takeWhile_pos hd⟩
    · simp at h

theorem digits_shape {s a b : Str} (h : digits s = some (a, b)) :
    ∃ d ds, a = d :: ds ∧ ∀ c ∈ d :: ds, isDigit c = true := by
  unfold digits at h
  split at h
  · simp at h
  · rename_i d ds hd
    simp at h
    exact ⟨d, ds, h.1.symm, fun c hc => mem_takeWhile_pos (hd ▸ hc)⟩

theorem takeWhile_eq_replicate (s : Str) :
    s.takeWhile (· == '=') = List.replicate (s.takeWhile (· == '=')).length '=' := by
  rw [List.eq_replicate_iff]
  refine ⟨rfl, fun c hc => ?_⟩
  simpa using mem_takeWhile_pos hc

theorem findClose_shape {close : Str} {ok : Str → Bool} {s a b : Str}
    (h : findClose close ok s = some (a, b)) : ∃ body, a = body ++ close := by
  induction s generalizing a b with
  | nil => simp [findClose] at h
  | cons c cs ih =>
    have hp : pre [c] (findClose close ok cs) = some (a, b) → ∃ body, a = body ++ close := by
      intro h
      obtain ⟨a', h1, h2⟩ := pre_eq_some h
      obtain ⟨body, h3⟩ := ih h1
      exact ⟨c :: body, by simp [h2, h3]⟩
    simp only [findClose] at h
    split at h
    · split at h
      · simp at h; exact ⟨[], by simp [h.1]⟩
      · exact hp h
    · exact hp h

/-- The first closing bracket wins when there is no look-ahead. -/
theorem findClose_first {close : Str} (hc : close ≠ []) {s a b : Str}
    (h : findClose close (fun _ => true) s = some (a, b)) :
    ¬ ∃ u v, a.dropLast = u ++ close ++ v := by
  induction s generalizing a b with
  | nil => simp [findClose] at h
  | cons c cs ih =>
    have hp : stripPrefix? close (c :: cs) = none →
        pre [c] (findClose close (fun _ => true) cs) = some (a, b) →
        ¬ ∃ u v, a.dropLast = u ++ close ++ v := by
      intro hn h
      obtain ⟨a', h1, h2⟩ := pre_eq_some h
      have hsp := findClose_splits _ _ _ _ _ h1
      have ih' := ih h1
      have ha' : a' ≠ [] := by
        obtain ⟨body, hb⟩ := findClose_shape h1
        rw [hb]; simp [hc]
      rintro ⟨u, v, huv⟩
      have hd : a.dropLast = c :: a'.dropLast := by
        rw [h2]; simp [List.dropLast_cons_of_ne_nil ha']
      rw [hd] at huv
      cases u with
      | cons x u =>
        simp only [List.cons_append, List.cons.injEq] at huv
        exact ih' ⟨u, v, huv.2⟩
      | nil =>
        -- the close would start here
        simp only [List.nil_append] at huv
        have : c :: cs = close ++ (v ++ [a'.getLast ha'] ++ b) := by
          rw [← hsp]
          conv => lhs; rw [← List.dropLast_concat_getLast ha']
          rw [← List.append_assoc, ← List.append_assoc, ← huv]; simp
        rw [this, stripPrefix?_append] at hn
        simp at hn
    simp only [findClose] at h
    split at h
    · simp at h
      obtain ⟨h1, _⟩ := h
      subst h1
      rintro ⟨u, v, huv⟩
      have := congrArg List.length huv
      simp at this
      have : 0 < close.length := List.length_pos_iff.mpr hc
      omega
    · exact hp (by assumption) h

theorem bracketStr_shape {ok : Str → Bool} {s a b : Str} (h : bracketStr ok s = some (a, b)) :
    ∃ n body, a = ['['] ++ List.replicate n '=' ++ ['['] ++ body ++ [']'] ++
      List.replicate n '=' ++ [']'] := by
  unfold bracketStr at h
  split at h
  · rename_i cs
    simp only at h
    split at h
    · rename_i bd hbd
      obtain ⟨a', h1, h2⟩ := pre_eq_some h
      obtain ⟨body, h3⟩ := findClose_shape h1
      refine ⟨(cs.takeWhile (· == '=')).length, body, ?_⟩
      rw [h2, h3, ← takeWhile_eq_replicate]; simp
    · simp at h
  · simp at h

theorem bracketStr_first {s a b : Str} (h : bracketStr (fun _ => true) s = some (a, b)) :
    ∃ n body, a = ['['] ++ List.replicate n '=' ++ ['['] ++ body ++ [']'] ++
      List.replicate n '=' ++ [']'] ∧
      ¬ ∃ u v, body ++ [']'] ++ List.replicate n '=' =
        u ++ ([']'] ++ List.replicate n '=' ++ [']']) ++ v := by
  unfold bracketStr at h
  split at h
  · rename_i cs
    simp only at h
    split at h
    · rename_i bd hbd
      obtain ⟨a', h1, h2⟩ := pre_eq_some h
      obtain ⟨body, h3⟩ := findClose_shape h1
      have h4 := findClose_first (by simp) h1
      refine ⟨(cs.takeWhile (· == '=')).length, body, ?_, ?_⟩
      · rw [h2, h3, ← takeWhile_eq_replicate]; simp
      · rw [← takeWhile_eq_replicate]
        rintro ⟨u, v, huv⟩
        refine h4 ⟨u, v, ?_⟩
        rw [h3]
        have : body ++ (']' :: cs.takeWhile (· == '=') ++ [']']) =
          (body ++ ']' :: cs.takeWhile (· == '=')) ++ [']'] := by simp
        rw [this, List.dropLast_concat]
        simpa using huv
    · simp at h
  · simp at h

theorem sentinelTail_shape {w s a b : Str} (h : sentinelTail w s = some (a, b)) :
    a = S "cmake-format" ++ (S ": " ++ w) ∨ a = S "cmf" ++ (S ": " ++ w) := by
  have e1 : S "cmake-format: " = S "cmake-format" ++ S ": " := by decide
  have e2 : S "cmf: " = S "cmf" ++ S ": " := by decide
  unfold sentinelTail at h
  split at h
  · simp at h; left; rw [← h.1, e1]; simp
  · split at h
    · simp at h; right; rw [← h.1, e2]; simp
    · simp at h

theorem ruleSentinel_shape {w s a b : Str} (h : ruleSentinel w s = some (a, b)) :
    ∃ ws name t, a = ['#'] ++ ws ++ name ++ (S ": " ++ w) ++ t ∧
      (∀ c ∈ ws, c ∈ S " \t\n\r\x0b\x0c") ∧ (name = S "cmake-format" ∨ name = S "cmf") ∧ '\n' ∉ t := by
  unfold ruleSentinel at h
  split at h
  · rename_i cs
    split at h
    · rename_i x r hx
      simp [restOfLine] at h
      have hn : '\n' ∉ r.takeWhile (· != '\n') := by
        intro hm; simpa using mem_takeWhile_pos hm
      rcases sentinelTail_shape hx with hx | hx
      · refine ⟨cs.takeWhile isSpace, _, r.takeWhile (· != '\n'), ?_, fun c hc => mem_of_isSpace (mem_takeWhile_pos hc), .inl rfl, hn⟩
        rw [← h.1, hx]; simp
      · refine ⟨cs.takeWhile isSpace, _, r.takeWhile (· != '\n'), ?_, fun c hc => mem_of_isSpace (mem_takeWhile_pos hc), .inr rfl, hn⟩
        rw [← h.1, hx]; simp
    · simp at h
  · simp at h

theorem makeVar_shape {s a b : Str} (h : makeVar s = some (a, b)) :
    ∃ body, a = ['$', '('] ++ body ++ [')'] ∧ body ≠ [] ∧
      ∀ c ∈ body, c ≠ '$' ∧ c ≠ '(' ∧ c ≠ ')' := by
  unfold makeVar at h
  split at h
  · rename_i cs
    simp only at h
    split at h
    · rename_i d ds rest h1 h2
      simp at h
      refine ⟨d :: ds, by rw [← h.1]; simp, by simp, fun c hc => ?_⟩
      have := mem_takeWhile_pos (h1 ▸ hc)
      simp at this; grind
    · simp at h
  · simp at h

theorem isEscapable_mem {d : Char} (h : isEscapable d = true) : d ∈ S "()#\" \\$@^trn;" := by
  have e : S "()#\" \\$@^trn;" =
    ['(', ')', '#', '"', ' ', '\\', '$', '@', '^', 't', 'r', 'n', ';'] := by decide
  simp [isEscapable] at h
  rw [e]; simp; grind

theorem isUnquotedChar_not_mem {c : Char} (h : isUnquotedChar c = true) :
    c ∉ S " \t\n\r\x0b\x0c()#\"\\" := by
  have e : S " \t\n\r\x0b\x0c()#\"\\" =
    [' ', '\t', '\n', '\r', '\x0b', '\x0c', '(', ')', '#', '"', '\\'] := by decide
  simp [isUnquotedChar, isSpace] at h
  rw [e]; simp; grind

theorem legacyOne_shape {s a b : Str} (h : legacyOne s = some (a, b)) {t : Str} (ht : Unquoted t) :
    Unquoted (a ++ t) := by
  unfold legacyOne at h
  split at h
  · rename_i m hm
    rw [h] at hm
    obtain ⟨body, h1, h2, h3⟩ := makeVar_shape hm
    rw [h1]; exact .makeVar body t h2 h3 ht
  · split at h
    · rename_i m hm
      rw [h] at hm
      obtain ⟨body, h1, h2⟩ := quotedStr_shape hm
      rw [h1]; exact .quoted body t h2 ht
    · split at h
      · simp at h
      · split at h
        · rename_i hc; simp at h; rw [← h.1]; exact .char _ _ (isUnquotedChar_not_mem hc) ht
        · split at h
          · split at h
            · rename_i hd; simp at h; rw [← h.1]; exact .esc _ _ (isEscapable_mem hd) ht
            · simp at h
          · simp at h

theorem legacyMany_shape (n : Nat) (s : Str) : Unquoted (legacyMany n s).1 := by
  induction n generalizing s with
  | zero => exact .nil
  | succ n ih =>
    simp only [legacyMany]
    split
    · exact .nil
    · rename_i a b h; exact legacyOne_shape h (ih b)

theorem isCatchChar_not_mem {c : Char} (h : isCatchChar c = true) : c ∉ S " \t\n\r\x0b\x0c()" := by
  have e : S " \t\n\r\x0b\x0c()" = [' ', '\t', '\n', '\r', '\x0b', '\x0c', '(', ')'] := by decide
  simp [isCatchChar, isSpace] at h
  rw [e]; simp; grind

theorem ite_some {c : Prop} [Decidable c] {m : Match} {x : Str × Str}
    (h : (if c then m else none) = some x) : m = some x := by
  split at h
  · exact h
  · simp at h

theorem lexOne_shape {prev : Option Char} {s : Str} {t : TokType} {a b : Str}
    (h : lexOne prev s = some (t, a, b)) : Shape t a := by
  have h' := lexOne_cases h
  clear h
  rcases h' with ⟨rfl, h⟩ | ⟨rfl, h⟩ | ⟨rfl, h⟩ | ⟨rfl, h⟩ | ⟨rfl, h⟩ | ⟨rfl, h⟩ |
    ⟨rfl, h⟩ | ⟨rfl, h⟩ | ⟨rfl, h⟩ | ⟨rfl, h⟩ | ⟨rfl, h⟩ | ⟨rfl, h⟩ | ⟨rfl, h⟩ | ⟨rfl, h⟩ |
    ⟨rfl, h⟩ | ⟨rfl, h⟩ | ⟨rfl, h⟩
  · obtain ⟨body, h1, h2⟩ := quotedStr_shape (lookahead_eq_some (ite_some h)).1
    exact ⟨_, body, .inl rfl, h1, h2⟩
  · obtain ⟨body, h1, h2⟩ := quotedStr_shape (lookahead_eq_some (ite_some h)).1
    exact ⟨_, body, .inr rfl, h1, h2⟩
  · exact bracketStr_shape (ite_some h)
  · have h := (lookahead_eq_some (ite_some h)).1
    unfold numberBody at h
    split at h
    · obtain ⟨a', h1, h2⟩ := pre_eq_some h
      obtain ⟨d, ds, h3, h4⟩ := digits_shape h1
      exact ⟨d, ds, .inr (by simp [h2, h3]), fun c hc => digit_iff (h4 c hc)⟩
    · obtain ⟨d, ds, h3, h4⟩ := digits_shape h
      exact ⟨d, ds, .inl h3, fun c hc => digit_iff (h4 c hc)⟩
  · obtain ⟨c, cs, h1, h2, h3⟩ := wordBody_shape (lookahead_eq_some (ite_some h)).1
    have := wordHead_range h2
    exact ⟨c, cs, h1, this.1, this.2, fun d hd => wordChar_iff (h3 d hd)⟩
  · unfold ruleAtWord at h
    have h := ite_some h
    split at h
    · have h := (lookahead_eq_some h).1
      obtain ⟨a', h1, h2⟩ := pre_eq_some h
      obtain ⟨w, hw, h3⟩ := wordThen_eq h1
      obtain ⟨c, cs, h4, h5, h6⟩ := wordBody_shape hw
      have := wordHead_range h5
      exact ⟨c, cs, by simp [h2, h3, h4], this.1, this.2, fun d hd => wordChar_iff (h6 d hd)⟩
    · simp at h
  · unfold ruleDeref at h
    have h := ite_some h
    split at h
    · have h := (lookahead_eq_some h).1
      obtain ⟨a', h1, h2⟩ := pre_eq_some h
      obtain ⟨w, hw, h3⟩ := wordThen_eq h1
      obtain ⟨c, cs, h4, h5, h6⟩ := wordBody_shape hw
      have := wordHead_range h5
      exact ⟨c, cs, by simp [h2, h3, h4], this.1, this.2, fun d hd => wordChar_iff (h6 d hd)⟩
    · simp at h
  · refine ⟨ruleLegacy_nonEmpty _ _ _ h, .inl ?_⟩
    have := legacyMany_shape s.length s
    unfold ruleLegacy at h
    split at h
    · simp at h
    · rename_i hm; simp at h; rw [hm] at this; rw [← h.1]; exact this
  · exact (ruleChar_eq h).1
  · exact (ruleChar_eq h).1
  · rcases (ruleNewline_eq h).2 with h | h | h
    · left; rw [h]; decide
    · right; left; rw [h]; decide
    · right; right; rw [h]; decide
  · obtain ⟨h1, _, h3⟩ := ruleBlank_eq h
    exact ⟨h3, fun c hc => mem_of_isBlank (mem_takeWhile_pos (h1 ▸ hc))⟩
  · have e : S ": off" = S ": " ++ S "off" := by decide
    simp only [Shape, e]; exact ruleSentinel_shape h
  · have e : S ": on" = S ": " ++ S "on" := by decide
    simp only [Shape, e]; exact ruleSentinel_shape h
  · unfold ruleBracketComment at h
    split at h
    · obtain ⟨a', h1, h2⟩ := pre_eq_some h
      obtain ⟨n, body, h3, h4⟩ := bracketStr_first h1
      exact ⟨n, body, by rw [h2, h3]; simp, h4⟩
    · simp at h
  · obtain ⟨cs, _, h1, _⟩ := ruleComment_eq h
    exact ⟨_, h1, fun hm => by simpa using mem_takeWhile_pos hm⟩
  · obtain ⟨h1, _, h3⟩ := ruleCatchAll_eq h
    exact ⟨h3, .inr fun c hc => isCatchChar_not_mem (mem_takeWhile_pos (h1 ▸ hc))⟩

theorem mem_tokens {text : Str} {ts : List Token} (h : tokenize text = .ok ts) {t : Token}
    (ht : t ∈ ts) : t = bomToken ∨ ∃ prev s b, lexOne prev s = some (t.type, t.spelling, b) := by
  have body : ∀ (s : Str) (ts : List Token), tokenizeBody s = .ok ts → ∀ t ∈ ts,
      ∃ prev s b, lexOne prev s = some (t.type, t.spelling, b) := by
    intro s ts h t ht
    rw [tokenizeBody_ok] at h
    injection h with h; subst h
    have : (t.type, t.spelling) ∈ (scan s.length none s).1 := by
      rw [← locate_spellings 0 ⟨1, 0, 0⟩ (scan s.length none s).1]
      exact List.mem_map.mpr ⟨t, ht, rfl⟩
    exact scan_mem this
  unfold tokenize at h
  split at h
  · split at h
    · split at h
      · rename_i ts' h'
        injection h with h; subst h
        rcases List.mem_cons.mp ht with rfl | ht
        · exact .inl rfl
        · exact .inr (body _ _ h' t ht)
      · simp at h
    · exact .inr (body _ _ h t ht)
  · exact .inr (body _ _ h t ht)

/-- **C04.** Every token of every text has the shape its kind promises. -/
theorem token_shape (text : Str) (ts : List Token) (h : tokenize text = .ok ts) :
    ∀ t ∈ ts, Shape t.type t.spelling := by
  intro t ht
  rcases mem_tokens h ht with rfl | ⟨p, s, b, hl⟩
  · rfl
  · exact lexOne_shape hl

/-- The shape of a word is weaker than "identifier" because of the `A-z` range in
the lexer: a backslash can start a word. -/
theorem word_need_not_be_identifier :
    (toks (S "message(\\n)"))[2]?.map (fun t => (t.type, t.spelling)) = some (.word, S "\\n") := by
  decide +kernel

/-! ## C05 -/

/-- The characters that structure a listfile. -/
def structural : Str := ['(', ')', '#', '"']

/-- **C05.** No word, number, reference, blank or newline token hides a
parenthesis, a comment sign or a double quote. -/
theorem plain_tokens_hide_nothing (text : Str) (ts : List Token) (h : tokenize text = .ok ts)
    (t : Token) (ht : t ∈ ts)
    (hty : t.type ∈ [TokType.word, .number, .atword, .deref, .whitespace, .newline]) :
    ∀ c ∈ t.spelling, c ∉ structural := by
  have hs := token_shape text ts h t ht
  have al : ∀ d : Char, (d.isAlphanum = true ∨ d = '_') → d ∉ structural := by
    intro d hd hm
    simp [structural] at hm
    rcases hm with rfl | rfl | rfl | rfl <;> revert hd <;> decide
  have hd65 : ∀ c : Char, 65 ≤ c.toNat → c ∉ structural := by
    intro c hc hm
    simp [structural] at hm
    rcases hm with rfl | rfl | rfl | rfl <;> revert hc <;> decide
  intro c hc
  simp at hty
  rcases hty with e | e | e | e | e | e <;> rw [e] at hs
  · obtain ⟨x, xs, h1, h2, _, h3⟩ := hs
    rw [h1] at hc
    rcases List.mem_cons.mp hc with rfl | hc
    · exact hd65 _ h2
    · exact al _ (h3 _ hc)
  · obtain ⟨x, xs, h1, h2⟩ := hs
    have dg : ∀ d : Char, d.isDigit = true → d ∉ structural := by
      intro d hd hm
      simp [structural] at hm
      rcases hm with rfl | rfl | rfl | rfl <;> revert hd <;> decide
    rcases h1 with h1 | h1 <;> rw [h1] at hc
    · exact dg _ (h2 _ hc)
    · rcases List.mem_cons.mp hc with rfl | hc
      · decide
      · exact dg _ (h2 _ hc)
  · obtain ⟨x, xs, h1, h2, _, h3⟩ := hs
    rw [h1] at hc
    simp at hc
    rcases hc with rfl | rfl | hc | rfl
    · decide
    · exact hd65 _ h2
    · exact al _ (h3 _ hc)
    · decide
  · obtain ⟨x, xs, h1, h2, _, h3⟩ := hs
    rw [h1] at hc
    simp at hc
    rcases hc with rfl | rfl | rfl | hc | rfl
    · decide
    · decide
    · exact hd65 _ h2
    · exact al _ (h3 _ hc)
    · decide
  · have := hs.2 c hc
    rw [show S " \t\x0b\x0c" = [' ', '\t', '\x0b', '\x0c'] by decide] at this
    simp at this
    rcases this with rfl | rfl | rfl | rfl <;> decide
  · rcases hs with h1 | h1 | h1
    · rw [h1, show S "\n" = ['\n'] by decide] at hc; simp at hc; subst hc; decide
    · rw [h1, show S "\r\n" = ['\r', '\n'] by decide] at hc; simp at hc
      rcases hc with rfl | rfl <;> decide
    · rw [h1, show S "\r" = ['\r'] by decide] at hc; simp at hc; subst hc; decide

/-- **C05, lines.** Only newline tokens, quoted, bracket and legacy unquoted
arguments, bracket comments and format sentinels may contain a newline. -/
theorem multiline_tokens (text : Str) (ts : List Token) (h : tokenize text = .ok ts)
    (t : Token) (ht : t ∈ ts) (hn : '\n' ∈ t.spelling) :
    t.type ∈ [TokType.newline, .quoted, .bracketArg, .bracketComment, .unquoted,
      .formatOff, .formatOn] := by
  have hs := token_shape text ts h t ht
  have al : ¬ (('\n').isAlphanum = true ∨ '\n' = '_') := by decide
  cases hty : t.type <;> rw [hty] at hs <;> first | (simp; done) | (exfalso; skip)
  · rw [show t.spelling = S "(" from hs] at hn; revert hn; decide
  · rw [show t.spelling = S ")" from hs] at hn; revert hn; decide
  · obtain ⟨x, xs, h1, h2, _, h3⟩ := hs
    rw [h1] at hn
    rcases List.mem_cons.mp hn with rfl | hn
    · revert h2; decide
    · exact al (h3 _ hn)
  · obtain ⟨x, xs, h1, h2⟩ := hs
    rcases h1 with h1 | h1 <;> rw [h1] at hn
    · exact absurd (h2 _ hn) (by decide)
    · rcases List.mem_cons.mp hn with e | hn
      · exact absurd e (by decide)
      · exact absurd (h2 _ hn) (by decide)
  · obtain ⟨x, xs, h1, h2, _, h3⟩ := hs
    rw [h1] at hn
    simp at hn
    rcases hn with rfl | hn
    · revert h2; decide
    · exact al (h3 _ hn)
  · have := hs.2 _ hn; revert this; decide
  · obtain ⟨x, h1, h2⟩ := hs
    rw [h1] at hn
    rcases List.mem_cons.mp hn with e | hn
    · exact absurd e (by decide)
    · exact h2 hn
  · rw [show t.spelling = [BOM] from hs] at hn; revert hn; decide
  · obtain ⟨x, xs, h1, h2, _, h3⟩ := hs
    rw [h1] at hn
    simp at hn
    rcases hn with rfl | hn
    · revert h2; decide
    · exact al (h3 _ hn)

/-- A sentinel really can span lines: `#` on one line and `cmf: off` on the next
are one token. -/
theorem sentinel_spans_lines :
    (toks (S "#\ncmf: off\n")).map (fun t => (t.type, t.spelling)) =
      [(.formatOff, S "#\ncmf: off"), (.newline, S "\n")] := by decide +kernel

theorem tryRule_none {t : TokType} {k : Option (TokType × Str × Str)} : tryRule t none k = k := rfl

theorem tryRule_some {t : TokType} {a b : Str} {k : Option (TokType × Str × Str)} :
    tryRule t (some (a, b)) k = some (t, a, b) := rfl

/-- A text that starts with `#` is lexed as some kind of comment. -/
theorem lexOne_hash (prev : Option Char) (cs : Str) (t : TokType) (a b : Str)
    (h : lexOne prev ('#' :: cs) = some (t, a, b)) :
    t ∈ [TokType.formatOff, .formatOn, .bracketComment, .comment] := by
  have hone : legacyOne ('#' :: cs) = none := by
    have hm : makeVar ('#' :: cs) = none := rfl
    have hq : quotedStr '"' ('#' :: cs) = none := rfl
    unfold legacyOne
    rw [hm, hq]
    rfl
  have r8 : ruleLegacy ('#' :: cs) = none := by simp [ruleLegacy, legacyMany, hone]
  have r3 : bracketStr nextOkClose ('#' :: cs) = none := by simp [bracketStr]
  have r4 : numberBody ('#' :: cs) = none := by simp [numberBody, digits, isDigit]
  have r5 : wordBody ('#' :: cs) = none := by simp [wordBody, isWordHead, isLower]
  have r6 : ruleAtWord prev ('#' :: cs) = none := by simp [ruleAtWord]
  have r7 : ruleDeref prev ('#' :: cs) = none := by simp [ruleDeref]
  have r12 : ruleNewline ('#' :: cs) = none := by simp [ruleNewline]
  have r14 : ruleBlank ('#' :: cs) = none := by simp [ruleBlank, isBlank]
  have hq : ∀ q, q ≠ '#' → quotedStr q ('#' :: cs) = none := by
    intro q hq; simp [quotedStr, Ne.symm hq]
  have hch : ∀ c, c ≠ '#' → ruleChar c ('#' :: cs) = none := by
    intro q hq; simp [ruleChar, Ne.symm hq]
  unfold lexOne at h
  rw [ruleDQuoted, ruleSQuoted, ruleBracketArg, ruleNumber, ruleWord, r3, r4, r5, r6, r7, r8, r12, r14,
    hq _ (by decide), hq _ (by decide), hch _ (by decide), hch _ (by decide)] at h
  simp only [lookahead, ite_self, tryRule_none, ruleComment, tryRule_some] at h
  unfold tryRule at h
  split at h
  · simp at h; simp [← h.1]
  · split at h
    · simp at h; simp [← h.1]
    · split at h
      · simp at h; simp [← h.1]
      · simp at h; simp [← h.1]

/-- **C05, comments.** A token whose text starts with `#` is a comment or a
format sentinel, never an argument. -/
theorem hash_starts_comment (text : Str) (ts : List Token) (h : tokenize text = .ok ts)
    (t : Token) (ht : t ∈ ts) (hh : t.spelling.head? = some '#') :
    t.type ∈ [TokType.formatOff, .formatOn, .bracketComment, .comment] := by
  rcases mem_tokens h ht with rfl | ⟨p, s, b, hl⟩
  · exact absurd hh (by decide)
  · have hsp := lexOne_splits hl
    cases hsp' : t.spelling with
    | nil => rw [hsp'] at hh; simp at hh
    | cons c cs =>
      rw [hsp'] at hh hsp hl
      simp at hh; subst hh
      rw [← hsp] at hl
      exact lexOne_hash _ _ _ _ _ hl

example : (toks (S "a(b) # c (d)")).map (fun t => (t.type, t.spelling)) =
    [(.word, S "a"), (.lparen, S "("), (.word, S "b"), (.rparen, S ")"), (.whitespace, S " "),
     (.comment, S "# c (d)")] := by decide +kernel

/-! ## C06 -/

theorem lexOne_nil (prev : Option Char) : lexOne prev [] = none := by
  cases h : lexOne prev [] with
  | none => rfl
  | some x =>
    obtain ⟨t, a, b⟩ := x
    have h1 := lexOne_splits h
    have h2 := lexOne_nonEmpty h
    simp at h1; exact absurd h1.1 h2

theorem scan_nil (n : Nat) (prev : Option Char) : scan n prev [] = ([], []) := by
  cases n <;> simp [scan, lexOne_nil]

/-- If the first rule application eats the whole text, the text is one token. -/
theorem tokenize_single {s : Str} {t : TokType} (hs : s ≠ []) (hb : s.head? ≠ some BOM)
    (h : lexOne none s = some (t, s, [])) :
    (toks s).map (fun t => (t.type, t.spelling)) = [(t, s)] := by
  have hb' : tokenize s = tokenizeBody s := by
    cases s with
    | nil => rfl
    | cons c cs =>
      have : ¬ c = BOM := by intro e; subst e; exact hb rfl
      simp [tokenize, this]
  have hsc : (scan s.length none s).1 = [(t, s)] := by
    cases hl : s.length with
    | zero => exact absurd (List.length_eq_zero_iff.mp hl) hs
    | succ n => simp [scan, h, scan_nil]
  rw [toks, hb', tokenizeBody_ok, Except.toOption, Option.getD_some, locate_spellings, hsc]

theorem takeWhile_all {p : Char → Bool} {l : Str} (h : ∀ c ∈ l, p c = true) : l.takeWhile p = l := by
  induction l with
  | nil => rfl
  | cons a l ih => simp [h a (by simp), ih fun c hc => h c (by simp [hc])]

theorem dropWhile_all {p : Char → Bool} {l : Str} (h : ∀ c ∈ l, p c = true) : l.dropWhile p = [] := by
  induction l with
  | nil => rfl
  | cons a l ih => simp [h a (by simp), ih fun c hc => h c (by simp [hc])]

theorem wordChar_of {c : Char} (h : c.isAlphanum ∨ c = '_') : isWordChar c = true := by
  simp [Char.isAlphanum, Char.isAlpha, Char.isUpper, Char.isLower, Char.isDigit,
    UInt32.le_iff_toNat_le] at h
  simp [isWordChar, isLower, isUpper, isDigit]
  grind

theorem digit_of {c : Char} (h : c.isDigit = true) : isDigit c = true := by
  simp [Char.isDigit, UInt32.le_iff_toNat_le] at h
  simpa [isDigit] using h

theorem word_isolated {c : Char} {cs : Str} (h1 : 65 ≤ c.toNat) (h2 : c.toNat ≤ 122)
    (h3 : ∀ d ∈ cs, isWordChar d = true) :
    lexOne none (c :: cs) = some (.word, c :: cs, []) := by
  have ne : ∀ x : Char, x.toNat < 65 → c ≠ x := by intro x hx e; subst e; omega
  have d1 : ¬ c = '"' := ne _ (by decide)
  have d2 : ¬ c = '\'' := ne _ (by decide)
  have d3 : ¬ c = '-' := ne _ (by decide)
  have d4 : isDigit c = false := by simp [isDigit]; omega
  have hb : bracketStr nextOkClose (c :: cs) = none := by
    unfold bracketStr
    split
    · rename_i x heq
      simp at heq
      obtain ⟨_, rfl⟩ := heq
      cases cs with
      | nil => rfl
      | cons d ds =>
        have hd := h3 d (by simp)
        have e1 : ¬ d = '=' := by rintro rfl; revert hd; decide
        have e2 : ¬ d = '[' := by rintro rfl; revert hd; decide
        simp [e1]
        split
        · rename_i heq; simp at heq; exact absurd heq.1 e2
        · rfl
    · rfl
  have hn : numberBody (c :: cs) = none := by
    unfold numberBody
    split
    · rename_i heq; simp at heq; exact absurd heq.1 d3
    · simp [digits, d4]
  have hw : isWordHead c = true := by simp [isWordHead]; omega
  unfold lexOne
  simp only [ruleDQuoted, ruleSQuoted, ruleBracketArg, ruleNumber, ruleWord, prevOk, if_true,
    quotedStr, d1, d2, if_false, lookahead, hb, hn, wordBody, hw, takeWhile_all h3,
    dropWhile_all h3, nextOkParen, tryRule]

theorem number_isolated {d : Char} {ds : Str} (h : ∀ c ∈ d :: ds, isDigit c = true) :
    lexOne none (d :: ds) = some (.number, d :: ds, []) ∧
    lexOne none ('-' :: d :: ds) = some (.number, '-' :: d :: ds, []) := by
  have hd := h d (by simp)
  have ne : ∀ x : Char, isDigit x = false → ¬ d = x := by
    intro x hx e; subst e; rw [hd] at hx; exact absurd hx (by simp)
  have d1 := ne '"' (by decide)
  have d2 := ne '\'' (by decide)
  have d3 := ne '-' (by decide)
  have d4 := ne '[' (by decide)
  have hdg : digits (d :: ds) = some (d :: ds, []) := by
    simp [digits, takeWhile_all h, dropWhile_all h]
  have hn : numberBody (d :: ds) = some (d :: ds, []) := by
    unfold numberBody
    split
    · rename_i heq; simp at heq; exact absurd heq.1 d3
    · exact hdg
  have hb : bracketStr nextOkClose (d :: ds) = none := by
    unfold bracketStr
    split
    · rename_i heq; simp at heq; exact absurd heq.1 d4
    · rfl
  constructor
  · unfold lexOne
    simp only [ruleDQuoted, ruleSQuoted, ruleBracketArg, ruleNumber, prevOk, if_true,
      quotedStr, d1, d2, if_false, lookahead, hb, hn, nextOkParen, tryRule]
  · have hn' : numberBody ('-' :: d :: ds) = some ('-' :: d :: ds, []) := by
      simp [numberBody, hdg, pre]
    have hb' : bracketStr nextOkClose ('-' :: d :: ds) = none := by simp [bracketStr]
    unfold lexOne
    simp only [ruleDQuoted, ruleSQuoted, ruleBracketArg, ruleNumber, prevOk, if_true,
      quotedStr, lookahead, hb', hn', nextOkParen, tryRule]
    simp

theorem blank_isolated {d : Char} {ds : Str} (h : ∀ c ∈ d :: ds, isBlank c = true) :
    lexOne none (d :: ds) = some (.whitespace, d :: ds, []) := by
  have hd := h d (by simp)
  have ne : ∀ x : Char, isBlank x = false → ¬ d = x := by
    intro x hx e; subst e; rw [hd] at hx; exact absurd hx (by simp)
  have d1 := ne '"' (by decide)
  have d2 := ne '\'' (by decide)
  have d3 := ne '-' (by decide)
  have d4 := ne '[' (by decide)
  have d5 := ne '@' (by decide)
  have d6 := ne '$' (by decide)
  have d7 := ne '(' (by decide)
  have d8 := ne ')' (by decide)
  have d9 := ne '\n' (by decide)
  have d10 := ne '\r' (by decide)
  have d11 := ne '\\' (by decide)
  have hdig : isDigit d = false := by
    simp [isBlank] at hd; rcases hd with ((rfl | rfl) | rfl) | rfl <;> decide
  have hwh : isWordHead d = false := by
    simp [isBlank] at hd; rcases hd with ((rfl | rfl) | rfl) | rfl <;> decide
  have huq : isUnquotedChar d = false := by
    simp [isBlank] at hd; rcases hd with ((rfl | rfl) | rfl) | rfl <;> decide
  have r3 : ruleBracketArg none (d :: ds) = none := by
    simp only [ruleBracketArg, prevOk, if_true]
    unfold bracketStr
    split
    · rename_i heq; simp at heq; exact absurd heq.1 d4
    · rfl
  have r4 : ruleNumber none (d :: ds) = none := by
    simp only [ruleNumber, prevOk, if_true]
    unfold numberBody
    split
    · rename_i heq; simp at heq; exact absurd heq.1 d3
    · simp [digits, hdig, lookahead]
  have r5 : ruleWord none (d :: ds) = none := by simp [ruleWord, prevOk, wordBody, hwh, lookahead]
  have r6 : ruleAtWord none (d :: ds) = none := by
    simp only [ruleAtWord, prevOk, if_true]
    split
    · rename_i heq; simp at heq; exact absurd heq.1 d5
    · rfl
  have r7 : ruleDeref none (d :: ds) = none := by
    simp only [ruleDeref, prevOk, if_true]
    split
    · rename_i heq; simp at heq; exact absurd heq.1 d6
    · rfl
  have r8 : ruleLegacy (d :: ds) = none := by
    have hm : makeVar (d :: ds) = none := by
      unfold makeVar
      split
      · rename_i heq; simp at heq; exact absurd heq.1 d6
      · rfl
    have : legacyOne (d :: ds) = none := by
      unfold legacyOne
      rw [hm]
      simp only [quotedStr, d1, if_false, huq]
      simp
      split
      · exact absurd rfl d11
      · rfl
    simp [ruleLegacy, legacyMany, this]
  have r12 : ruleNewline (d :: ds) = none := by
    unfold ruleNewline
    split <;> rename_i heq <;> simp at heq
    · exact absurd heq.1 d9
    · exact absurd heq.1 d10
    · exact absurd heq.1 d10
    · rfl
  have r14 : ruleBlank (d :: ds) = some (d :: ds, []) := by
    simp [ruleBlank, hd, takeWhile_all fun c hc => h c (List.mem_cons_of_mem _ hc),
      dropWhile_all fun c hc => h c (List.mem_cons_of_mem _ hc)]
  unfold lexOne
  rw [r3, r4, r5, r6, r7, r8, r12, r14]
  simp only [ruleDQuoted, ruleSQuoted, quotedStr, prevOk, lookahead, d1, d2, d7, d8, if_true,
    if_false, ruleChar, tryRule]

/-- **C06.** The spelling of a word, number, parenthesis, newline or blank token,
lexed on its own, is again exactly one token of the same kind. -/
theorem token_isolated (text : Str) (ts : List Token) (h : tokenize text = .ok ts)
    (t : Token) (ht : t ∈ ts)
    (hty : t.type ∈ [TokType.word, .number, .lparen, .rparen, .newline, .whitespace]) :
    (toks t.spelling).map (fun u => (u.type, u.spelling)) = [(t.type, t.spelling)] := by
  have hs := token_shape text ts h t ht
  simp at hty
  rcases hty with e | e | e | e | e | e <;> rw [e] at hs ⊢
  · obtain ⟨c, cs, h1, h2, h3, h4⟩ := hs
    rw [h1]
    refine tokenize_single (by simp) ?_ (word_isolated h2 h3 fun d hd => wordChar_of (h4 d hd))
    intro e; simp at e; subst e; revert h3; decide
  · obtain ⟨d, ds, h1, h2⟩ := hs
    have hd : ∀ c ∈ d :: ds, isDigit c = true := fun c hc => digit_of (h2 c hc)
    have hb : d ≠ BOM := by rintro rfl; exact absurd (h2 BOM (by simp)) (by decide)
    rcases h1 with h1 | h1 <;> rw [h1]
    · exact tokenize_single (by simp) (by simp [hb]) (number_isolated hd).1
    · exact tokenize_single (by simp) (by simp; decide) (number_isolated hd).2
  · rw [show t.spelling = S "(" from hs]; decide +kernel
  · rw [show t.spelling = S ")" from hs]; decide +kernel
  · rcases hs with h1 | h1 | h1 <;> rw [h1] <;> decide +kernel
  · obtain ⟨h1, h2⟩ := hs
    have hbl : ∀ c ∈ t.spelling, isBlank c = true := by
      intro c hc
      have := h2 c hc
      rw [show S " \t\x0b\x0c" = [' ', '\t', '\x0b', '\x0c'] by decide] at this
      simp at this; simp [isBlank]; grind
    cases hsp : t.spelling with
    | nil => exact absurd hsp h1
    | cons d ds =>
      rw [hsp] at hbl
      refine tokenize_single (by simp) ?_ (blank_isolated hbl)
      intro e; simp at e; subst e; exact absurd (hbl BOM (by simp)) (by decide)

example : (toks (S "foo  (-12)")).map (fun t => t.type) =
    [.word, .whitespace, .lparen, .number, .rparen] := by decide +kernel

end Verif.Props.Lex
