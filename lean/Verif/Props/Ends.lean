import Verif.Lemmas.TopEnds
import Verif.Lemmas.LexEnds
import Verif.Model.Skip
import Verif.Spec.CEnds
import Verif.Props.Top

/-!
# Reading a program ends (C102)
-/

namespace Shecc.Props
open Shecc.Lex CEnds
open Shecc.Calls (Calls runs step)

/-! ### Tokens -/

/-- No text keeps a call of the lexer from ending: with more steps than the text has characters the limit is not reached; and every token except the end
of the text takes at least one character.  Not for a text that is the body of a macro (`macro_return_idx`). -/
theorem C102_token (E : Env) (hr : E.ret = none) (n : Nat) (s : Src) (h : s.length < n) :
    lex E n s ≠ .limit ∧ ∀ t str r, lex E n s = .tok t str r → t = .eof ∨ r.length < s.length := by
  have := lex_good E hr n s h
  refine ⟨fun e => by rw [e] at this; exact this, fun t str r e => ?_⟩
  rw [e] at this
  exact this.imp (·.1) (·.2)

/-- Every text is read to its end or to a failure, in at most as many calls as it has characters, and one more. -/
theorem C102_text (E : Env) (hr : E.ret = none) (s : Src) : ∃ l e, Scan E s l e ∧ l.length ≤ s.length := by
  generalize hk : s.length = k
  induction k using Nat.strongRecOn generalizing s with
  | ind k ih =>
    have hg := lex_good E hr (s.length + 1) s (Nat.lt_succ_self _)
    cases e : lex E (s.length + 1) s with
    | limit => rw [e] at hg; exact hg.elim
    | err => exact ⟨[], .err, .err e, Nat.zero_le _⟩
    | tok t str r =>
      rw [e] at hg
      rcases hg with ⟨rfl, h⟩ | ⟨h1, h2⟩
      · exact ⟨[], .eof r, .eof e, Nat.zero_le _⟩
      · obtain ⟨l, e', h3, h4⟩ := ih r.length (by omega) r rfl
        exact ⟨(t, r) :: l, e', .tok h1 e h3, by simp only [List.length_cons]; omega⟩

/-- Behind the end of a text is its end. -/
theorem scan_eof {E : Env} (hr : E.ret = none) {s : Src} {l : List (Tok × Src)} {r : Src} (h : Scan E s l (.eof r)) : token E r = .tok .eof [] r := by
  generalize he : End.eof r = e at h
  induction h with
  | @eof s r str h =>
    cases he
    have hg := lex_good E hr (s.length + 1) s (Nat.lt_succ_self _)
    have h : lex E (s.length + 1) s = _ := h
    rw [h] at hg
    rcases hg with ⟨_, h⟩ | ⟨h, _⟩
    · exact lex_eof E _ _ h
    · exact absurd rfl h
  | err h => cases he
  | tok _ _ _ ih => exact ih he

/-! ### Loops that skip tokens -/

/-- A loop that skips tokens ends at the first token it looks for, if there is one before the end of the text. -/
theorem C102_skip_found {E : Env} {stop : Tok → Src → Bool} {t : Tok} {s : Src} {l : List (Tok × Src)} {e : End} (h : Scan E s l e) {p : Tok × Src}
    {rest : List (Tok × Src)} (hp : ((t, s) :: l).dropWhile (fun p => !stop p.1 p.2) = p :: rest) (n : Nat) (hn : l.length < n) :
    skip E stop n t s = .done p.1 p.2 := by
  induction h generalizing t n with
  | @eof s r str h =>
    obtain ⟨n, rfl⟩ : ∃ m, n = m + 1 := ⟨n - 1, by omega⟩
    rw [List.dropWhile_cons] at hp
    rw [skip]
    split at hp
    · simp at hp
    · rename_i hs
      cases hp
      rw [if_pos (by simpa using hs)]
  | @err s h =>
    obtain ⟨n, rfl⟩ : ∃ m, n = m + 1 := ⟨n - 1, by omega⟩
    rw [List.dropWhile_cons] at hp
    rw [skip]
    split at hp
    · simp at hp
    · rename_i hs
      cases hp
      rw [if_pos (by simpa using hs)]
  | @tok s r t' str l e h1 h2 h3 ih =>
    obtain ⟨n, rfl⟩ : ∃ m, n = m + 1 := ⟨n - 1, by omega⟩
    rw [List.dropWhile_cons] at hp
    rw [skip]
    split at hp
    · rename_i hs
      rw [if_neg (by simpa using hs)]
      have h2 : lex E (s.length + 1) s = _ := h2
      rw [h2]
      exact ih hp n (by simp only [List.length_cons] at hn; omega)
    · rename_i hs
      cases hp
      rw [if_pos (by simpa using hs)]

/-- If no token is one it looks for, it fails where reading tokens fails; and if reading tokens does not fail, the loop never ends. -/
theorem C102_skip_not_found {E : Env} (hr : E.ret = none) {stop : Tok → Src → Bool} {t : Tok} {s : Src} {l : List (Tok × Src)} {e : End} (h : Scan E s l e)
    (hp : ∀ p ∈ (t, s) :: l, stop p.1 p.2 = false) :
    (e = .err → ∀ n, l.length < n → skip E stop n t s = .err) ∧ (∀ r, e = .eof r → stop .eof r = false → ∀ n, skip E stop n t s = .more) := by
  induction h generalizing t with
  | @eof s r str h =>
    refine ⟨fun h => (by cases h), fun r' he hs n => ?_⟩
    cases he
    have ht := scan_eof hr (.eof h)
    have hx : ∀ n, skip E stop n .eof r = .more := by
      intro n
      induction n with
      | zero => rfl
      | succ n ih =>
        rw [skip, hs]
        have ht : lex E (r.length + 1) r = _ := ht
        rw [ht]
        exact ih
    cases n with
    | zero => rfl
    | succ n =>
      rw [skip, hp (t, s) (List.mem_cons_self ..)]
      have h : lex E (s.length + 1) s = _ := h
      rw [h]
      exact hx n
  | @err s h =>
    refine ⟨fun _ n hn => ?_, fun r he => (by cases he)⟩
    cases n with
    | zero => cases hn
    | succ n =>
      rw [skip, hp (t, s) (List.mem_cons_self ..)]
      have h : lex E (s.length + 1) s = _ := h
      rw [h]
      rfl
  | @tok s r t' str l e h1 h2 h3 ih =>
    have h2 : lex E (s.length + 1) s = _ := h2
    have hi := ih (t := t') fun p hp' => hp p (List.mem_cons_of_mem _ hp')
    refine ⟨fun he n hn => ?_, fun r' he hs n => ?_⟩
    · cases n with
      | zero => cases hn
      | succ n =>
        rw [skip, hp (t, s) (List.mem_cons_self ..), h2]
        exact hi.1 he n (by simp only [List.length_cons] at hn; omega)
    · cases n with
      | zero => rfl
      | succ n =>
        rw [skip, hp (t, s) (List.mem_cons_self ..), h2]
        exact hi.2 r' he hs n

/-- At the end of the text there is no token that these loops look for. -/
theorem C102_stops (r : Src) : stopIf .eof r = false ∧ stopEndif .eof r = false ∧ stopGt .eof r = false ∧ stopColon .eof r = false ∧
    stopSemicolon .eof r = false ∧ stopArg .eof r = false := ⟨rfl, rfl, rfl, rfl, rfl, rfl⟩

/-- `#if 0` without `#endif`: the compiler never ends. -/
theorem C102_if_wrong (n : Nat) : skip plainEnv stopIf n .identifier "x;\n".toList = .more := by
  have h : Scan plainEnv "x;\n".toList [(.identifier, ";\n".toList), (.semicolon, [])] (.eof []) :=
    .tok (by decide) (str := ['x']) (by decide) (.tok (by decide) (str := []) (by decide) (.eof (str := []) (by decide)))
  exact (C102_skip_not_found rfl h (by decide)).2 _ rfl rfl n

/-- `int g = 1 ? 2 : 3` without a semicolon, behind the colon: the compiler never ends. -/
theorem C102_ternary_wrong (n : Nat) : skip plainEnv stopSemicolon n .numeric "\n".toList = .more := by
  have h : Scan plainEnv "\n".toList [] (.eof []) := .eof (str := []) (by decide)
  exact (C102_skip_not_found rfl h (by decide)).2 _ rfl rfl n

/-- `#define F(x) x` in the last line, without a newline behind it, behind the parenthesis: the compiler never ends.  With a newline it does. -/
theorem C102_define_wrong : (∀ n, skip { plainEnv with nl := false } stopLine n .identifier [] = .more) ∧
    skip { plainEnv with nl := false } stopLine 1 .identifier "\n".toList = .done .identifier "\n".toList := by
  refine ⟨fun n => ?_, by decide⟩
  have h : Scan { plainEnv with nl := false } [] [] (.eof []) := .eof (str := []) rfl
  exact (C102_skip_not_found rfl h (by decide)).2 _ rfl rfl n

/-! ### The parser -/

/-- Every call fails. -/
def failing : Calls where
  operand := fun _ _ _ => none
  operandBody := fun _ _ _ _ => none
  xnamed := fun _ _ _ _ => none
  args := fun _ _ _ _ => none
  expr := fun _ _ _ => none
  exprLoop := fun _ _ _ _ _ => none
  lvalue := fun _ _ _ _ _ _ => none
  access := fun _ _ _ _ => none
  lvEnd := fun _ _ _ _ => none
  sums := fun _ _ _ _ => none
  ands := fun _ _ _ _ => none
  ors := fun _ _ _ _ => none
  decls := fun _ _ _ _ _ => none
  stmt := fun _ _ _ => none
  items := fun _ _ _ => none
  cases := fun _ _ _ => none
  group := fun _ _ _ => none
  inner := fun _ _ _ => none
  params := fun _ _ => none
  members := fun _ => none
  enumItems := fun _ => none
  primary := fun _ => none
  operands := fun _ => none
  initializer := fun _ => none
  loop := fun _ _ _ => none

/-- The models with the bound `n` on the depth of recursion. -/
def models (n : Nat) : Calls where
  operand := fun N => ExprGen.operand N n
  operandBody := fun N => ExprGen.operandBody N n
  xnamed := fun N => ExprGen.named N n
  args := fun N => ExprGen.args N n
  expr := fun N => ExprGen.expr N n
  exprLoop := fun N => ExprGen.exprLoop N n
  lvalue := fun N => ExprGen.lvalue N n
  access := fun N => ExprGen.access N n
  lvEnd := fun N => ExprGen.lvEnd N n
  sums := fun N => ExprGen.sums N n
  ands := fun G => Body.ands G n
  ors := fun G => Body.ors G n
  decls := fun G => Body.decls G n
  stmt := fun G => Body.stmt G n
  items := fun G => Body.items G n
  cases := fun G => Body.cases G n
  group := fun G => Body.group G n
  inner := Top.inner n
  params := Top.params n
  members := Top.members n
  enumItems := Top.enumItems n
  primary := Top.primary n
  operands := Top.operands n
  initializer := Top.initializer n
  loop := fun base => Top.loop base n

theorem models_zero : models 0 = failing := by
  unfold models failing
  congr 1

theorem models_succ (n : Nat) : models (n + 1) = step (models n) := by
  have h1 : ∀ N, ExprGen.operand N (n + 1) = Calls.operandF N (models n) := by
    intro N
    funext ts g
    match ts with
    | [] => rfl
    | (t, s) :: ts =>
      cases t
      case minus =>
        match ts with
        | [] => rfl
        | (t, s) :: ts => cases t <;> rfl
      all_goals rfl
  unfold step
  conv => lhs; unfold models
  congr 1
  · funext N; exact h1 N

/-- The models are the parser with its calls at depth `n` failing. -/
theorem C102_models (n : Nat) : models n = runs n failing := by
  induction n with
  | zero => exact models_zero
  | succ n ih => rw [models_succ, ih]; rfl

/-- Calls of the parser nest at most ten times as deep as there are tokens, and four more: for every sequence of tokens, it makes no difference what calls
at that depth or deeper would do. -/
theorem C102_parser (base : Nat) (ts : List Parser.T) (n : Nat) (hn : 10 * ts.length + 4 ≤ n) (S : Calls) :
    (runs n S).loop base ts Top.init = Top.program base (10 * ts.length + 4) ts := by
  have h : ∀ S' : Calls, (runs (10 * ts.length + 4) S').loop base ts Top.init = Top.program base (10 * ts.length + 4) ts := by
    intro S'
    refine ((TopEnds.loop S' failing base _ ts Top.init (Nat.le_refl _)).eq).trans ?_
    rw [← C102_models]
    rfl
  have hr : ∀ k m (S : Calls), runs (k + m) S = runs k (runs m S) := by
    intro k m S
    induction k with
    | zero => rw [Nat.zero_add]; rfl
    | succ k ih => rw [Nat.succ_add, runs, ih]; rfl
  obtain ⟨m, rfl⟩ : ∃ m, n = (10 * ts.length + 4) + m := ⟨n - (10 * ts.length + 4), by omega⟩
  rw [hr]
  exact h _

/-- So the bound in the models only bounds. -/
theorem C102_program (base : Nat) (ts : List Parser.T) (n : Nat) (hn : 10 * ts.length + 4 ≤ n) :
    Top.program base n ts = Top.program base (10 * ts.length + 4) ts := by
  rw [← C102_parser base ts n hn failing, ← C102_models]
  rfl

/-- The tokens of a program (C99) are read with this bound. -/
theorem C102_unit_partial {base : Nat} {tops : List CUnit.Top} {ts : List CSyntax.Tk} {D : CUnit.Decls} (h : CUnit.WProgram base tops ts D) (ha : D.E.Apart)
    (hs : CTypes.NoStructAlias D.types D.E) : ∃ tab, ∀ n, 10 * (ts.length + 1) + 4 ≤ n → Top.program base n (ts ++ [(.eof, [])]) = some tab := by
  obtain ⟨tab, ⟨⟨m, hm⟩, _⟩, _⟩ := program_ok h ha hs
  refine ⟨tab, fun n hn => ?_⟩
  have hl : (ts ++ [((.eof : Tok), ([] : List Char))]).length = ts.length + 1 := by simp
  have h1 := TopFuel.program base (Nat.le_max_left m n) _ _ hm
  rw [C102_program base _ n (by rw [hl]; exact hn), ← C102_program base _ (max m n) (by rw [hl]; exact Nat.le_trans hn (Nat.le_max_right _ _))]
  exact h1

end Shecc.Props
