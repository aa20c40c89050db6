import Verif.Model.Lexer

/-!
# The lexer ends
-/

namespace Shecc.Lex

theorem skipWs_le (nl : Bool) (s : Src) : (skipWs nl s).length ≤ s.length := by
  fun_induction skipWs nl s
  · exact Nat.le_refl _
  · rename_i ih; simp only [List.length_cons]; omega
  · rename_i ih; simp only [List.length_cons]; omega
  · exact Nat.le_refl _

theorem readChar_le (nl : Bool) (s : Src) : (readChar true nl s).length ≤ s.length - 1 := by
  have := skipWs_le nl s.tail
  rw [List.length_tail] at this
  exact this

theorem commentLoop_le (s : Src) : ∀ r, commentLoop s = some r → r.length < s.length := by
  fun_induction commentLoop s <;> intro r h
  · cases h
  · cases h
  · cases h; simp only [List.length_cons]; omega
  · rename_i ih; have := ih _ h; simp only [List.length_cons]; omega
  · rename_i ih; have := ih _ h; simp only [List.length_cons]; omega

theorem strLoop_le (buf : List Char) (sp : Bool) (s : Src) : ∀ x, strLoop buf sp s = some x → x.2.length < s.length := by
  fun_induction strLoop buf sp s <;> intro x h
  · cases h
  · cases h; simp only [List.length_cons]; omega
  · cases h
  · rename_i ih; have := ih _ h; simp only [List.length_cons]; omega
  · rename_i ih; have := ih _ h; simp only [List.length_cons]; omega

theorem dropWhile_le {α : Type} (p : α → Bool) (l : List α) : (l.dropWhile p).length ≤ l.length := (List.dropWhile_suffix p).length_le

theorem ite_ne {α : Type} {p : Prop} {_ : Decidable p} {a b x : α} (h : a ≠ x) (h' : b ≠ x) : (if p then a else b) ≠ x := by
  split
  · exact h
  · exact h'

theorem keyword_ne (s : String) : keyword s ≠ some .eof := by
  unfold keyword
  repeat' first
    | with_reducible refine ite_ne ?_ ?_
    | (intro h; cases h; done)

theorem directive_ne (s : String) : directive s ≠ some .eof := by
  unfold directive
  repeat' first
    | with_reducible refine ite_ne ?_ ?_
    | (intro h; cases h; done)

/-- What a call may do with a text of length `k`: fail, reach the end of the text, or read a token. -/
def Good (k : Nat) : Res → Prop
  | .tok t _ rest => (t = .eof ∧ (rest = [] ∨ ∃ r, rest = '\x00' :: r)) ∨ (t ≠ .eof ∧ rest.length < k)
  | .err => True
  | .limit => False

theorem Good.mono {k k' : Nat} {r : Res} (h : Good k r) (hk : k ≤ k') : Good k' r := by
  cases r with
  | tok t s rest => exact h.imp id fun h => ⟨h.1, Nat.lt_of_lt_of_le h.2 hk⟩
  | err => trivial
  | limit => exact h

theorem good_tok {k : Nat} {t : Tok} {s : List Char} {rest : Src} (h : t ≠ .eof) (hk : rest.length < k) : Good k (.tok t s rest) := .inr ⟨h, hk⟩

theorem good_ite {k : Nat} {p : Prop} {_ : Decidable p} {a b : Res} (h : Good k a) (h' : Good k b) : Good k (if p then a else b) := by
  split
  · exact h
  · exact h'

theorem lexWord_good (E : Env) (w : List Char) (rest : Src) (k : Nat) (h : rest.length < k) : Good k (lexWord E w rest) := by
  unfold lexWord
  split
  · rename_i t e
    exact good_tok (fun he => keyword_ne _ (he ▸ e)) h
  · repeat' split
    all_goals exact good_tok (by decide) h

theorem lex_good (E : Env) (hr : E.ret = none) (n : Nat) : ∀ s, s.length < n → Good s.length (lex E n s) := by
  induction n with
  | zero => intro s h; omega
  | succ n ih =>
    intro s hn
    match s with
    | [] => exact .inl ⟨rfl, .inl rfl⟩
    | c :: r =>
      simp only [List.length_cons] at hn
      have hrd : ∀ s : Src, (readChar true E.nl s).length ≤ s.length - 1 := readChar_le E.nl
      have hsk : ∀ s : Src, (skipWs E.nl s).length ≤ s.length := skipWs_le E.nl
      have htl : ∀ s : Src, s.tail.length = s.length - 1 := fun s => List.length_tail
      have h1 := hrd (c :: r)
      have h2 := hrd (readChar true E.nl (c :: r))
      have h2' := hrd (readChar true E.nl (readChar true E.nl (c :: r)))
      have h3 := hrd r
      have h4 := hsk r
      have h5 := hrd r.tail
      have h5' := hrd (readChar true E.nl r)
      have h6 := htl r
      have h7 := hsk (readChar true E.nl (c :: r))
      have h8 := hsk (r.dropWhile isAlnum)
      have h9 := hsk (r.dropWhile isHex)
      have h10 := dropWhile_le isAlnum r
      have h11 := dropWhile_le isHex r
      simp only [List.length_cons] at h1
      rw [lex.eq_def]
      dsimp only
      rw [hr]
      dsimp only [List.tail_cons]
      by_cases c0 : c = '#'
      · rw [if_pos c0]
        split
        · rename_i t e
          exact good_tok (fun he => directive_ne _ (he ▸ e)) (by simp only [List.length_cons]; omega)
        · trivial
      rw [if_neg c0]
      by_cases c1 : c = '/'
      · rw [if_pos c1]
        by_cases d1 : hd (readChar true E.nl (c :: r)) = '*'
        · rw [if_pos d1]
          split
          · rename_i r' e
            have := commentLoop_le _ _ e
            rw [htl] at this
            have h := hsk r'
            exact (ih _ (by omega)).mono (by simp only [List.length_cons]; omega)
          · trivial
        rw [if_neg d1]
        by_cases d2 : hd (readChar true E.nl (c :: r)) = '/'
        · rw [if_pos d2]
          have h := dropWhile_le (fun c => !isNewline c) (readChar true E.nl (c :: r)).tail
          rw [htl] at h
          exact (ih _ (by omega)).mono (by simp only [List.length_cons]; omega)
        rw [if_neg d2]
        split <;> exact good_tok (by decide) (by simp only [List.length_cons]; omega)
      rw [if_neg c1]
      by_cases c2 : isDigit c = true
      · rw [if_pos c2]
        exact good_tok (by decide) (by simp only [List.length_cons]; omega)
      rw [if_neg c2]
      by_cases cs : c = '"'
      · subst cs
        simp only [reduceIte, Char.reduceEq]
        split
        · rename_i str r' e
          have : r'.length < _ := strLoop_le _ _ _ _ e
          have h := hsk r'
          exact good_tok (by decide) (by simp only [List.length_cons]; omega)
        · trivial
      by_cases cq : c = '\''
      · subst cq
        simp only [reduceIte, Char.reduceEq]
        split
        · trivial
        · split
          · trivial
          · rename_i c' r'
            have h := hsk r'
            have h' := hrd (skipWs E.nl r')
            split
            · trivial
            · split
              · exact good_tok (by decide) (by simp only [List.length_cons]; omega)
              · trivial
        · rename_i c' r' _
          have h := hsk r'
          have h' := hrd (skipWs E.nl r')
          split
          · exact good_tok (by decide) (by simp only [List.length_cons]; omega)
          · trivial
      by_cases cn : c = '\n'
      · subst cn
        have : isAlnum '\n' = false := by decide
        simp only [reduceIte, Char.reduceEq, this, Bool.false_eq_true]
        exact (ih _ (by omega)).mono (by simp only [List.length_cons]; omega)
      by_cases cz : c = '\x00'
      · subst cz
        have : isAlnum '\x00' = false := by decide
        simp only [reduceIte, Char.reduceEq, this, Bool.false_eq_true]
        exact .inl ⟨rfl, .inr ⟨_, rfl⟩⟩
      rw [if_neg cs, if_neg cq, if_neg cn, if_neg cz]
      repeat' first
        | with_reducible exact good_tok (by decide) (by simp only [List.length_cons]; omega)
        | exact lexWord_good _ _ _ _ (by simp only [List.length_cons]; omega)
        | refine good_ite ?_ ?_
        | exact True.intro

/-- The end of the text is read again and again. -/
theorem lex_eof (E : Env) (n : Nat) (rest : Src) (h : rest = [] ∨ ∃ r, rest = '\x00' :: r) : lex E (n + 1) rest = .tok .eof [] rest := by
  rcases h with rfl | ⟨r, rfl⟩
  · rfl
  · rw [lex.eq_def]
    have : isAlnum '\x00' = false := by decide
    have : isDigit '\x00' = false := by decide
    simp only [*, reduceIte, Char.reduceEq, Bool.false_eq_true]

end Shecc.Lex
