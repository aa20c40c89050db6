import Verif.Spec.CLex

namespace Shecc.Lex
open CLex

set_option maxRecDepth 8000 in
theorem isAlnum_iff (c : Char) : isAlnum c = true ↔ c ∈ wordChars := by
  constructor
  · intro h
    have hv : c.val.toNat = c.toNat := rfl
    simp only [isAlnum, Bool.or_eq_true, Bool.and_eq_true, decide_eq_true_eq] at h
    have key : ∀ n : Nat, n < 128 → ((97 ≤ n ∧ n ≤ 122) ∨ (65 ≤ n ∧ n ≤ 90) ∨ (48 ≤ n ∧ n ≤ 57) ∨ n = 95) →
        Char.ofNat n ∈ wordChars := by decide
    have hc : c = Char.ofNat c.toNat := (Char.ofNat_toNat c).symm
    rw [hc]
    have hle : ∀ a b : Char, a ≤ b ↔ a.toNat ≤ b.toNat := fun a b => Iff.rfl
    simp only [hle] at h
    have e : ('a'.toNat = 97) ∧ ('z'.toNat = 122) ∧ ('A'.toNat = 65) ∧ ('Z'.toNat = 90) ∧ ('0'.toNat = 48) ∧
      ('9'.toNat = 57) := by decide
    rcases h with ((h | h) | h) | h
    · exact key _ (by omega) (by omega)
    · exact key _ (by omega) (by omega)
    · exact key _ (by omega) (by omega)
    · subst h; exact key _ (by decide) (by decide)
  · have : ∀ c ∈ wordChars, isAlnum c = true := by decide
    exact this c

theorem isDigit_iff (c : Char) : isDigit c = true ↔ c ∈ digits := by
  constructor
  · intro h
    simp only [isDigit, Bool.and_eq_true, decide_eq_true_eq] at h
    have key : ∀ n : Nat, n < 128 → (48 ≤ n ∧ n ≤ 57) → Char.ofNat n ∈ digits := by decide
    have hc : c = Char.ofNat c.toNat := (Char.ofNat_toNat c).symm
    rw [hc]
    have hle : ∀ a b : Char, a ≤ b ↔ a.toNat ≤ b.toNat := fun a b => Iff.rfl
    simp only [hle] at h
    have e : ('0'.toNat = 48) ∧ ('9'.toNat = 57) := by decide
    exact key _ (by omega) (by omega)
  · have : ∀ c ∈ digits, isDigit c = true := by decide
    exact this c

theorem isHex_iff (c : Char) : isHex c = true ↔ c ∈ numChars := by
  constructor
  · intro h
    simp only [isHex, Bool.or_eq_true, Bool.and_eq_true, decide_eq_true_eq] at h
    have key : ∀ n : Nat, n < 128 → ((97 ≤ n ∧ n ≤ 102) ∨ (65 ≤ n ∧ n ≤ 70) ∨ (48 ≤ n ∧ n ≤ 57) ∨ n = 120) →
        Char.ofNat n ∈ numChars := by decide
    have hc : c = Char.ofNat c.toNat := (Char.ofNat_toNat c).symm
    rw [hc]
    have hle : ∀ a b : Char, a ≤ b ↔ a.toNat ≤ b.toNat := fun a b => Iff.rfl
    simp only [hle] at h
    have e : ('a'.toNat = 97) ∧ ('f'.toNat = 102) ∧ ('A'.toNat = 65) ∧ ('F'.toNat = 70) ∧ ('0'.toNat = 48) ∧
      ('9'.toNat = 57) := by decide
    rcases h with ((h | h) | h) | h
    · exact key _ (by omega) (by omega)
    · exact key _ (by omega) (by omega)
    · subst h; exact key _ (by decide) (by decide)
    · exact key _ (by omega) (by omega)
  · have : ∀ c ∈ numChars, isHex c = true := by decide
    exact this c

theorem blank_iff (c : Char) : (isWhitespace c || (true && isNewline c)) = true ↔ c ∈ blanks := by
  simp only [isWhitespace, isNewline, blanks, Bool.true_and, Bool.or_eq_true, decide_eq_true_eq, List.mem_cons,
    List.not_mem_nil, or_false]
  constructor
  · rintro ((h | h) | (h | h)) <;> simp [h]
  · rintro (h | h | h | h) <;> simp [h]

theorem skipWs_eq (s : Src) : skipWs true s = dropBlanks s := by
  induction s using dropBlanks.induct with
  | case1 => rfl
  | case2 r ih => rw [skipWs, dropBlanks, ih]
  | case3 c r h hc ih =>
    rw [skipWs, dropBlanks, if_pos ((blank_iff c).2 hc), if_pos hc, ih]
    all_goals exact h
  | case4 c r h hc =>
    rw [skipWs, dropBlanks, if_neg (fun k => hc ((blank_iff c).1 k)), if_neg hc]
    all_goals exact h

theorem takeWhile_append {p : Char → Bool} {w : List Char} (hw : ∀ c ∈ w, p c = true) {rest : Src}
    (hr : ∀ c, rest.head? = some c → p c = false) :
    (w ++ rest).takeWhile p = w ∧ (w ++ rest).dropWhile p = rest := by
  induction w with
  | nil =>
    cases rest with
    | nil => simp
    | cons c r => have := hr c rfl; simp [List.takeWhile, List.dropWhile, this]
  | cons c w ih =>
    have h1 := hw c (by simp)
    obtain ⟨a, b⟩ := ih (fun c hc => hw c (by simp [hc]))
    simp [List.takeWhile, List.dropWhile, h1, a, b]

theorem skipWs_idem (s : Src) : skipWs true (skipWs true s) = skipWs true s := by
  rw [skipWs_eq, skipWs_eq]
  induction s using dropBlanks.induct with
  | case1 => rfl
  | case2 r ih => rw [dropBlanks, ih]
  | case3 c r h hc ih =>
    rw [dropBlanks, if_pos hc, ih]
    all_goals exact h
  | case4 c r h hc =>
    have e : dropBlanks (c :: r) = c :: r := by
      rw [dropBlanks, if_neg hc]
      exact h
    rw [e, e]

/-- Tokens that run together with what follows even across blanks. -/
def stickyB (t : Tok) : Bool :=
  t = .divide ∨ t = .bit_xor ∨ t = .asterisk ∨ t = .mod ∨ t = .lshift ∨ t = .rshift ∨ t = .minus

def gluesB (t : Tok) (sp : String) (c : Char) : Bool :=
  puncts.any (fun p => (sp.toList ++ [c]).isPrefixOf p.2.toList) || (t = .divide ∧ (c = '/' ∨ c = '*'))

theorem gluesB_iff (t : Tok) (sp : String) (c : Char) : gluesB t sp c = true ↔ Token.Glues (.punct t sp) c := by
  simp [gluesB, Token.Glues, List.any_eq_true, List.isPrefixOf_iff_prefix]

set_option maxHeartbeats 4000000 in
theorem lex_punct (E : Env) (hE : E.nl = true) (n : Nat) (t : Tok) (sp : String) (h : (t, sp) ∈ puncts) (rest : Src)
    (h1 : ∀ c, gluesB t sp c = true → ¬ hd rest = c)
    (h2 : stickyB t = true → ∀ c, gluesB t sp c = true → ¬ hd (skipWs true rest) = c) :
    lex E (n + 1) (sp.toList ++ rest) = .tok t [] (skipWs true rest) := by
  have dg : ∀ c, c ∉ digits → isDigit c = false := fun c hc => by
    cases hd : isDigit c
    · rfl
    · exact absurd ((isDigit_iff c).1 hd) hc
  have sk : ∀ c r, c ∉ blanks → c ≠ '\\' → skipWs true (c :: r) = c :: r := fun c r hc hb => by
    rw [skipWs_eq, dropBlanks, if_neg hc]
    intro r' h; exact absurd h hb
  have hdc : ∀ (c : Char) (r : Src), hd (c :: r) = c := fun _ _ => rfl
  simp only [puncts, List.mem_cons, Prod.mk.injEq, List.not_mem_nil, or_false] at h
  repeat' (rcases h with ⟨rfl, rfl⟩ | h)
  all_goals (try obtain ⟨rfl, rfl⟩ := h)
  all_goals try have a0 := h1 '=' (by decide)
  all_goals try have b0 := h2 (by decide) '=' (by decide)
  all_goals try have a1 := h1 '+' (by decide)
  all_goals try have b1 := h2 (by decide) '+' (by decide)
  all_goals try have a2 := h1 '-' (by decide)
  all_goals try have b2 := h2 (by decide) '-' (by decide)
  all_goals try have a3 := h1 '>' (by decide)
  all_goals try have b3 := h2 (by decide) '>' (by decide)
  all_goals try have a4 := h1 '<' (by decide)
  all_goals try have b4 := h2 (by decide) '<' (by decide)
  all_goals try have a5 := h1 '&' (by decide)
  all_goals try have b5 := h2 (by decide) '&' (by decide)
  all_goals try have a6 := h1 '|' (by decide)
  all_goals try have b6 := h2 (by decide) '|' (by decide)
  all_goals try have a7 := h1 '.' (by decide)
  all_goals try have b7 := h2 (by decide) '.' (by decide)
  all_goals try have a8 := h1 '*' (by decide)
  all_goals try have b8 := h2 (by decide) '*' (by decide)
  all_goals try have a9 := h1 '/' (by decide)
  all_goals try have b9 := h2 (by decide) '/' (by decide)
  all_goals clear h1 h2
  all_goals have k1 := sk '=' rest (by decide) (by decide)
  all_goals have k2 := sk '>' rest (by decide) (by decide)
  all_goals have k3 := sk '-' rest (by decide) (by decide)
  all_goals have k4 := sk '<' rest (by decide) (by decide)
  all_goals have k5 := sk '<' ('=' :: rest) (by decide) (by decide)
  all_goals have k6 := sk '>' ('=' :: rest) (by decide) (by decide)
  all_goals simp_all (config := { decide := true }) [lex, readChar, skipWs_idem]

theorem skipWs_cons {c : Char} (r : Src) (hc : c ∉ blanks) (hb : c ≠ '\\') : skipWs true (c :: r) = c :: r := by
  rw [skipWs_eq, dropBlanks, if_neg hc]
  intro r' h; exact absurd h hb

theorem skipWs_blank {c : Char} (r : Src) (hc : c ∈ blanks) : skipWs true (c :: r) = skipWs true r := by
  rw [skipWs_eq, dropBlanks, if_pos hc, skipWs_eq]
  intro r' h; subst h; exact absurd hc (by decide)

theorem skipWs_splice (r : Src) : skipWs true ('\\' :: '\n' :: r) = skipWs true r := by
  rw [skipWs]

theorem skipWs_length (s : Src) : (skipWs true s).length ≤ s.length := by
  rw [skipWs_eq]
  induction s using dropBlanks.induct with
  | case1 => exact Nat.le_refl _
  | case2 r ih => rw [dropBlanks]; simp; omega
  | case3 c r h hc ih =>
    rw [dropBlanks, if_pos hc]
    · simp; omega
    · exact h
  | case4 c r h hc =>
    rw [dropBlanks, if_neg hc]
    · simp
    · exact h

theorem isDigit_false {c : Char} (h : c ∉ digits) : isDigit c = false := by
  cases hd : isDigit c
  · rfl
  · exact absurd ((isDigit_iff c).1 hd) h

theorem isAlnum_false {c : Char} (h : c ∉ wordChars) : isAlnum c = false := by
  cases hd : isAlnum c
  · rfl
  · exact absurd ((isAlnum_iff c).1 hd) h

theorem isHex_false {c : Char} (h : c ∉ numChars) : isHex c = false := by
  cases hd : isHex c
  · rfl
  · exact absurd ((isHex_iff c).1 hd) h

/-! ### Words, numbers, directives -/

theorem lex_word (E : Env) (hE : E.nl = true) (n : Nat) (c : Char) (w : List Char) (hc : c ∈ wordChars)
    (hd : c ∉ digits) (hw : ∀ x ∈ w, x ∈ wordChars) (rest : Src) (hr : ∀ x, rest.head? = some x → x ∉ wordChars) :
    lex E (n + 1) (c :: w ++ rest) = lexWord E (c :: w) (skipWs true rest) := by
  obtain ⟨t1, t2⟩ := takeWhile_append (p := isAlnum) (w := w) (fun x hx => (isAlnum_iff x).2 (hw x hx))
    (rest := rest) (fun x hx => isAlnum_false (hr x hx))
  have h1 : ∀ d : Char, d ∉ wordChars → c ≠ d := fun d hd e => hd (e ▸ hc)
  have a : isAlnum c = true := (isAlnum_iff c).2 hc
  have b : isDigit c = false := isDigit_false hd
  have q1 := h1 '#' (by decide)
  have q2 := h1 '/' (by decide)
  have q3 := h1 '(' (by decide)
  have q4 := h1 ')' (by decide)
  have q5 := h1 '{' (by decide)
  have q6 := h1 '}' (by decide)
  have q7 := h1 '[' (by decide)
  have q8 := h1 ']' (by decide)
  have q9 := h1 ',' (by decide)
  have q10 := h1 '^' (by decide)
  have q11 := h1 '~' (by decide)
  have q12 := h1 '"' (by decide)
  have q13 := h1 '\'' (by decide)
  have q14 := h1 '*' (by decide)
  have q15 := h1 '&' (by decide)
  have q16 := h1 '|' (by decide)
  have q17 := h1 '<' (by decide)
  have q18 := h1 '%' (by decide)
  have q19 := h1 '>' (by decide)
  have q20 := h1 '!' (by decide)
  have q21 := h1 '.' (by decide)
  have q22 := h1 '-' (by decide)
  have q23 := h1 '+' (by decide)
  have q24 := h1 ';' (by decide)
  have q25 := h1 '?' (by decide)
  have q26 := h1 ':' (by decide)
  have q27 := h1 '=' (by decide)
  simp only [lex, List.cons_append, if_neg q1, if_neg q2, b, Bool.false_eq_true, if_false, if_neg q3, if_neg q4, if_neg q5,
    if_neg q6, if_neg q7, if_neg q8, if_neg q9, if_neg q10, if_neg q11, if_neg q12, if_neg q13, if_neg q14, if_neg q15,
    if_neg q16, if_neg q17, if_neg q18, if_neg q19, if_neg q20, if_neg q21, if_neg q22, if_neg q23, if_neg q24, if_neg q25,
    if_neg q26, if_neg q27, a, if_true, t1, t2, hE]

theorem lex_num (E : Env) (hE : E.nl = true) (n : Nat) (c : Char) (w : List Char) (hc : c ∈ digits)
    (hw : ∀ x ∈ w, x ∈ numChars) (rest : Src) (hr : ∀ x, rest.head? = some x → x ∉ numChars) :
    lex E (n + 1) (c :: w ++ rest) = .tok .numeric (c :: w) (skipWs true rest) := by
  obtain ⟨t1, t2⟩ := takeWhile_append (p := isHex) (w := w) (fun x hx => (isHex_iff x).2 (hw x hx))
    (rest := rest) (fun x hx => isHex_false (hr x hx))
  have h1 : ∀ d : Char, d ∉ digits → c ≠ d := fun d hd e => hd (e ▸ hc)
  have b : isDigit c = true := (isDigit_iff c).2 hc
  have q1 := h1 '#' (by decide)
  have q2 := h1 '/' (by decide)
  simp only [lex, List.cons_append, if_neg q1, if_neg q2, b, if_true, t1, t2, hE]

theorem lex_directive (E : Env) (hE : E.nl = true) (n : Nat) (t : Tok) (w : List Char)
    (hw : ∀ x ∈ w, x ∈ wordChars) (ht : directive (String.ofList ('#' :: w)) = some t)
    (rest : Src) (hr : ∀ x, rest.head? = some x → x ∉ wordChars) :
    lex E (n + 1) ('#' :: w ++ rest) = .tok t ('#' :: w) (skipWs true rest) := by
  obtain ⟨t1, t2⟩ := takeWhile_append (p := isAlnum) (w := w) (fun x hx => (isAlnum_iff x).2 (hw x hx))
    (rest := rest) (fun x hx => isAlnum_false (hr x hx))
  simp only [lex, List.cons_append, if_true, t1, t2, hE, ht]

/-! ### Strings and characters -/

theorem strLoop_esc (s : List Char) (hs : '\\' ∉ s) (rest : Src) : ∀ (buf : List Char), buf.head? ≠ some '\\' →
    strLoop buf false (s.flatMap escChar ++ '"' :: rest) = some (buf.reverse ++ s, rest) := by
  induction s with
  | nil => intro buf _; simp [strLoop]
  | cons c s ih =>
    intro buf hb
    have hc : c ≠ '\\' := fun e => hs (by simp [e])
    have ih' := fun b hb => ih (fun h => hs (by simp [h])) b hb
    have hbb : ∀ b, buf = '\\' :: b → False := fun b e => hb (by rw [e]; rfl)
    have step : ∀ (d : Char) (r : Src), d ≠ '"' → d ≠ '\\' → strLoop buf false (d :: r) = strLoop (d :: buf) false r := by
      intro d r h1 h2
      rw [strLoop, if_neg (by simp [h1]), decide_eq_false h2]
      exact hbb
    have step2 : ∀ (d e : Char) (r : Src), escape d = some e → d ≠ '\\' →
        strLoop buf false ('\\' :: d :: r) = strLoop (e :: buf) false r := by
      intro d e r h1 h2
      rw [strLoop, if_neg (by decide), strLoop, if_neg (by simp)]
      · simp only [h1, decide_eq_false h2]
      · exact hbb
    rw [List.flatMap_cons]
    generalize he : escChar c = l
    unfold escChar at he
    split at he
    all_goals subst he
    · rw [List.append_assoc]; simp only [List.cons_append, List.nil_append]
      rw [step2 'n' '\n' _ rfl (by decide), ih' _ (by simp)]; simp
    · rw [List.append_assoc]; simp only [List.cons_append, List.nil_append]
      rw [step2 '"' '"' _ rfl (by decide), ih' _ (by simp)]; simp
    · rw [List.append_assoc]; simp only [List.cons_append, List.nil_append]
      rw [step2 'r' '\r' _ rfl (by decide), ih' _ (by simp)]; simp
    · rw [List.append_assoc]; simp only [List.cons_append, List.nil_append]
      rw [step2 '\'' '\'' _ rfl (by decide), ih' _ (by simp)]; simp
    · rw [List.append_assoc]; simp only [List.cons_append, List.nil_append]
      rw [step2 't' '\t' _ rfl (by decide), ih' _ (by simp)]; simp
    · exact absurd rfl hc
    · rw [List.append_assoc]; simp only [List.cons_append, List.nil_append]
      rw [step2 '0' '\x00' _ rfl (by decide), ih' _ (by simp)]; simp
    · rename_i h1 h2 h3 h4 h5 h6 h7
      rw [List.append_assoc]; simp only [List.cons_append, List.nil_append]
      rw [step c _ h2 hc, ih' _ (by simpa using hc)]; simp

theorem lex_str (E : Env) (hE : E.nl = true) (n : Nat) (s : List Char) (hs : '\\' ∉ s) (rest : Src) :
    lex E (n + 1) (('"' :: s.flatMap escChar ++ ['"']) ++ rest) = .tok .string s (skipWs true rest) := by
  have := strLoop_esc s hs rest [] (by simp)
  rw [show ('"' :: s.flatMap escChar ++ ['"']) ++ rest = '"' :: (s.flatMap escChar ++ '"' :: rest) by simp]
  simp only [lex, this, hE]
  rw [isDigit_false (by decide)]
  simp

theorem lex_chr (E : Env) (hE : E.nl = true) (n : Nat) (c : Char) (rest : Src) :
    lex E (n + 1) (('\'' :: escChar c ++ ['\'']) ++ rest) = .tok .char [c] (skipWs true rest) := by
  have k := skipWs_cons (c := '\'') rest (by decide) (by decide)
  have d := isDigit_false (c := '\'') (by decide)
  unfold escChar
  split
  all_goals simp (config := { decide := true }) only [List.cons_append, List.nil_append, lex, hE, if_false, if_true, d, k, hd,
    escape, readChar, List.tail, reduceIte, Bool.false_eq_true]

/-! ### Comments -/

theorem takeWhile_snoc (l : List Char) (x : Char) :
    ((l ++ [x]).takeWhile (· = '*')).length =
      if (∀ c ∈ l, c = '*') then (if x = '*' then l.length + 1 else l.length) else (l.takeWhile (· = '*')).length := by
  induction l with
  | nil => by_cases h : x = '*' <;> simp [List.takeWhile, h]
  | cons c l ih =>
    by_cases h : c = '*'
    · subst h
      rw [List.cons_append, List.takeWhile_cons_of_pos (by simp), List.takeWhile_cons_of_pos (by simp), List.length_cons, ih]
      simp only [List.mem_cons, forall_eq_or_imp, true_and, List.length_cons]
      split
      · split <;> rfl
      · rfl
    · simp [List.takeWhile, h]

theorem trailingStars_cons (c : Char) (t : List Char) :
    trailingStars (c :: t) = if (∀ x ∈ t, x = '*') then (if c = '*' then t.length + 1 else t.length) else trailingStars t := by
  unfold trailingStars
  rw [List.reverse_cons, takeWhile_snoc]
  simp

theorem trailingStars_all {t : List Char} (h : ∀ x ∈ t, x = '*') : trailingStars t = t.length := by
  unfold trailingStars
  have := (takeWhile_append (p := fun x => decide (x = '*')) (w := t.reverse)
    (fun x hx => by simpa using h x (List.mem_reverse.1 hx)) (rest := []) (by simp)).1
  rw [List.append_nil] at this
  rw [this, List.length_reverse]

theorem commentLoop_text (rest : Src) : ∀ (n : Nat) (t : List Char), t.length ≤ n → NoClose t →
    commentLoop (t ++ '*' :: '/' :: rest) = if trailingStars t % 2 = 0 then some rest else commentLoop ('/' :: rest) := by
  intro n
  induction n with
  | zero =>
    intro t ht _
    have : t = [] := List.length_eq_zero_iff.1 (by omega)
    subst this
    simp [commentLoop, trailingStars]
  | succ n ih =>
    intro t ht hn
    match t with
    | [] => simp [commentLoop, trailingStars]
    | [c] =>
      by_cases hc : c = '*'
      · subst hc; simp [commentLoop, trailingStars]
      · simp [commentLoop, trailingStars, hc]
    | c :: d :: t =>
      have sub1 : NoClose (d :: t) := fun a b h => hn (c :: a) b (by rw [h]; rfl)
      have sub2 : NoClose t := fun a b h => hn (c :: d :: a) b (by rw [h]; rfl)
      by_cases hc : c = '*'
      · subst hc
        have hd : d ≠ '/' := fun e => hn [] t (by rw [e]; rfl)
        have e : commentLoop ('*' :: d :: t ++ '*' :: '/' :: rest) = commentLoop (t ++ '*' :: '/' :: rest) := by
          simp [commentLoop, hd]
        rw [e, ih t (by simp at ht; omega) sub2]
        have : trailingStars ('*' :: d :: t) % 2 = trailingStars t % 2 := by
          rw [trailingStars_cons, trailingStars_cons]
          by_cases hall : ∀ x ∈ t, x = '*'
          · rw [trailingStars_all hall]
            by_cases hdd : d = '*'
            · rw [if_pos (by simpa [hdd] using hall), if_pos rfl, List.length_cons]; omega
            · rw [if_neg (fun k => hdd (k d (by simp))), if_pos hall, if_neg hdd]
          · have : ¬ ∀ x ∈ d :: t, x = '*' := fun k => hall (fun x hx => k x (by simp [hx]))
            rw [if_neg this, if_neg hall]
        rw [this]
      · have e : commentLoop (c :: d :: t ++ '*' :: '/' :: rest) = commentLoop ((d :: t) ++ '*' :: '/' :: rest) := by
          simp [commentLoop, hc]
        rw [e, ih (d :: t) (by simp at ht; simp; omega) sub1]
        have : trailingStars (c :: d :: t) = trailingStars (d :: t) := by
          rw [trailingStars_cons]
          by_cases hall : ∀ x ∈ d :: t, x = '*'
          · rw [if_pos hall, if_neg hc, trailingStars_all hall]
          · rw [if_neg hall]
        rw [this]

/-! ### Fuel -/

theorem lex_mono (E : Env) : ∀ (n m : Nat) (s : Src), n ≤ m → lex E n s ≠ .limit → lex E m s = lex E n s := by
  intro n
  induction n with
  | zero => intro m s _ h; exact absurd rfl h
  | succ n ih =>
    intro m s hm h
    obtain ⟨m, rfl⟩ : ∃ k, m = k + 1 := ⟨m - 1, by omega⟩
    have ih' := fun s => ih m s (by omega)
    cases s with
    | nil => rfl
    | cons c r =>
      by_cases h1 : c = '/'
      · subst h1
        simp only [lex] at h ⊢
        by_cases k1 : hd (readChar true E.nl ('/' :: r)) = '*'
        · simp only [k1] at h ⊢
          cases hcl : commentLoop (readChar true E.nl ('/' :: r)).tail with
          | none => rfl
          | some r' =>
            simp only [hcl] at h ⊢
            simp (config := {decide := true}) only [if_false, if_true] at h ⊢
            exact ih' _ h
        · simp only [k1] at h ⊢
          by_cases k2 : hd (readChar true E.nl ('/' :: r)) = '/'
          · simp only [k2] at h ⊢
            simp (config := {decide := true}) only [if_false, if_true] at h ⊢
            exact ih' _ h
          · simp only [k2]
            rfl
      · by_cases h2 : c = '\n'
        · subst h2
          have e : ∀ k, lex E (k + 1) ('\n' :: r) = match E.ret with
              | some m => lex E k m
              | none => lex E k (readChar true E.nl ('\n' :: r)) := by
            intro k
            simp (config := {decide := true}) only [lex, isDigit_false (c := '\n') (by decide),
              isAlnum_false (c := '\n') (by decide), if_false, if_true]
            cases E.ret <;> rfl
          rw [e] at h ⊢
          rw [e]
          cases hr : E.ret with
          | none => simp only [hr] at h ⊢; exact ih' _ h
          | some m' => simp only [hr] at h ⊢; exact ih' _ h
        · simp only [lex, if_neg h1, if_neg h2]

/-- Lexing `s` gives `r`, within the step limit `lexAll` uses. -/
def Lexes (E : Env) (s : Src) (r : Res) : Prop := r ≠ .limit ∧ ∃ n, n ≤ s.length + 1 ∧ lex E n s = r

theorem Lexes.eq {E : Env} {s : Src} {r : Res} (h : Lexes E s r) : lex E (s.length + 1) s = r := by
  obtain ⟨h1, n, h2, h3⟩ := h
  rw [lex_mono E n _ s h2 (by rw [h3]; exact h1), h3]

theorem dropWhile_append {p : Char → Bool} {w : List Char} (hw : ∀ c ∈ w, p c = true) {c : Char} {rest : Src}
    (hc : p c = false) : (w ++ c :: rest).dropWhile p = c :: rest := by
  induction w with
  | nil => simp [List.dropWhile, hc]
  | cons d w ih => simp [List.dropWhile, hw d (by simp), ih (fun c h => hw c (by simp [h]))]

/-- The separators this lexer skips. -/
def PieceOk (p : Piece) : Prop := p.Valid ∧ ∀ t, p = .block t → trailingStars t % 2 = 0

theorem lexes_piece (E : Env) (hE : E.nl = true) (hR : E.ret = none) (p : Piece) (hp : PieceOk p) (s : Src) (r : Res)
    (h : Lexes E (skipWs true s) r) : Lexes E (skipWs true (p.text ++ s)) r := by
  obtain ⟨hv, hst⟩ := hp
  obtain ⟨h1, n, h2, h3⟩ := h
  have hl := skipWs_length s
  cases p with
  | blank c =>
    simp only [Piece.text, List.cons_append, List.nil_append]
    rw [skipWs_blank s hv]
    exact ⟨h1, n, h2, h3⟩
  | splice =>
    simp only [Piece.text, List.cons_append, List.nil_append]
    rw [skipWs_splice]
    exact ⟨h1, n, h2, h3⟩
  | block t =>
    have he := hst t rfl
    simp only [Piece.text, List.cons_append, List.append_assoc, List.nil_append]
    rw [skipWs_cons _ (by decide) (by decide)]
    refine ⟨h1, n + 1, by simp; omega, ?_⟩
    have k := skipWs_cons (c := '*') (t ++ '*' :: '/' :: s) (by decide) (by decide)
    have cl := commentLoop_text s t.length t (Nat.le_refl _)
      (fun a b e => hv.1 a (b ++ ['*']) (by rw [e]; simp))
    rw [if_pos he] at cl
    simp (config := {decide := true}) only [lex, hE, readChar, List.tail_cons, k, hd, if_true, if_false, cl, h3]
  | line t =>
    simp only [Piece.text, List.cons_append, List.append_assoc, List.nil_append]
    rw [skipWs_cons _ (by decide) (by decide)]
    refine ⟨h1, n + 2, by simp; omega, ?_⟩
    have k := skipWs_cons (c := '/') (t ++ '\n' :: s) (by decide) (by decide)
    obtain ⟨h0, hn, hr, _⟩ := hv
    have dr : (t ++ '\n' :: s).dropWhile (fun c => !isNewline c) = '\n' :: s := by
      refine dropWhile_append ?_ (by decide)
      intro c hc
      have : c ≠ '\n' := fun e => hn (e ▸ hc)
      have : c ≠ '\r' := fun e => hr (e ▸ hc)
      simp [isNewline, *]
    have e : ∀ k, lex E (k + 1) ('\n' :: s) = lex E k (skipWs true s) := by
      intro k
      simp (config := {decide := true}) only [lex, isDigit_false (c := '\n') (by decide),
        isAlnum_false (c := '\n') (by decide), if_false, if_true, hR, readChar, hE, List.tail_cons]
    have step : lex E (n + 1 + 1) ('/' :: '/' :: (t ++ '\n' :: s)) = lex E (n + 1) ('\n' :: s) := by
      rw [lex]
      · simp (config := {decide := true}) only [hE, readChar, List.tail_cons, k, hd, if_true, if_false, dr]
      · decide
    rw [step, e, h3]

theorem lexes_sep (E : Env) (hE : E.nl = true) (hR : E.ret = none) (ps : List Piece) (hp : ∀ p ∈ ps, PieceOk p) (s : Src)
    (r : Res) (h : Lexes E (skipWs true s) r) : Lexes E (skipWs true (sepText ps ++ s)) r := by
  induction ps with
  | nil => simpa [sepText] using h
  | cons p ps ih =>
    have := lexes_piece E hE hR p (hp p (by simp)) _ r (ih (fun q hq => hp q (by simp [hq])))
    simpa [sepText, List.append_assoc] using this

end Shecc.Lex
