import Verif.Lemmas.StmtSwitch

/-!
# C73, C74, C75: translation of statements and expressions into a control-flow graph
-/

namespace Shecc.Props
open Shecc.Stmt
open CRename (Ins Mach Home run Word)
open CStmt

section
variable {M : Mach} {H : Home Nat}

/-! ### Executions of a graph are determined by their start -/

theorem steps_prefix {F : Prog} {j : Nat} {c d : Conf M} (h : F.Steps M H j c d) : ∀ {k e}, F.Steps M H k c e → j ≤ k →
    F.Steps M H (k - j) d e := by
  induction h with
  | refl c => intro k e h' _; exact h'
  | @step n c d e hs _ ih =>
    intro k e' h' hk
    cases h' with
    | refl => omega
    | @step m _ d' _ hs' t' =>
      rw [hs] at hs'
      cases hs'
      have := ih t' (by omega)
      rwa [show m + 1 - (n + 1) = m - n by omega]

theorem steps_stuck {F : Prog} {k : Nat} {c d : Conf M} (hc : F.step M H c = none) (h : F.Steps M H k c d) : k = 0 ∧ d = c := by
  cases h with
  | refl => exact ⟨rfl, rfl⟩
  | step hs _ => rw [hc] at hs; cases hs

/-- Two executions that both end where no step is possible end in the same place. -/
theorem steps_end {F : Prog} {j k : Nat} {c d e : Conf M} (h : F.Steps M H j c d) (h' : F.Steps M H k c e)
    (hd : F.step M H d = none) (he : F.step M H e = none) : d = e := by
  rcases Nat.le_total j k with hjk | hjk
  · exact (steps_stuck hd (steps_prefix h h' hjk)).2.symm
  · exact (steps_stuck he (steps_prefix h' h hjk)).2

/-! ### A function -/

/-- What is known of the graph of a function. -/
theorem lowerFn_ok (B : Basic M) {body : Stmts} (hb : body.Ok H) {P : PS} (hP : lowerFn body = some P) :
    (P.code 1 = [] ∧ Open P 1) ∧ Sym P ∧ ((Ends P ∧ P.exit = 1) ∧ Fresh P) ∧ ∀ n (σ : S M), match execs M H n body σ with
      | .undef => True
      | .timeout => GoN M H P n ⟨0, 0, σ⟩
      | .ok o σ' => (o = .normal ∨ o = .ret) ∧ Go M H P ⟨0, 0, σ⟩ ⟨1, 0, σ'⟩ := by
  obtain ⟨s0, hs0⟩ : ∃ s0 : PS, s0 = { n := 2, block := fun _ => {}, code := fun _ => [], brk := [], cont := [], se := [], exit := 1 } :=
    ⟨_, rfl⟩
  unfold lowerFn at hP
  simp only [← hs0, Option.map_eq_some_iff] at hP
  obtain ⟨⟨s1, q⟩, h1, h2⟩ := hP
  have r0 : Ready s0 0 := by
    rw [hs0]
    exact ⟨fun b _ => ⟨rfl, ⟨rfl, rfl, rfl, Clean.nil⟩⟩, by decide, ⟨rfl, rfl, rfl, Clean.nil⟩⟩
  have y0 : Sym s0 := by
    intro a b
    rw [hs0]
    constructor
    · rintro ⟨k, hk⟩; cases k <;> cases hk
    · intro h; cases h
  have en0 : Ends s0 := by
    intro b xs i ys e
    rw [hs0] at e
    cases xs <;> cases e
  have se0 : s0.se = [] := by rw [hs0]
  obtain ⟨k1, k2⟩ := body_ok (M := M) B body hb
  have h1 := k2 s0 (some 0) _ (fun b hb => by cases hb; exact r0) se0 h1
  obtain ⟨p1, _, e1⟩ := k1 s0 0 s1 q r0 se0 h1
  have n0 : s0.n = 2 := by rw [hs0]
  have nn := p1.post.n
  have x1 := p1.post.same 1 (by omega) (by simp)
  have c0 : s0.code 1 = [] := by rw [hs0]
  have o0 : Open s0 1 := by rw [hs0]; exact ⟨rfl, rfl, rfl, Clean.nil⟩
  have brk1 : s1.brk = [] := by rw [p1.post.brk, hs0]
  have cont1 : s1.cont = [] := by rw [p1.post.cont, hs0]
  have exit1 : s1.exit = 1 := by rw [p1.post.exit, hs0]
  have H5 : Post [0] s0 P ∧ Same s1 P 1 ∧ (∃ V, Post V s1 P) ∧ (∀ z, q = some z → ∀ F, Le P F → ∀ σ : S M,
      Go M H F ⟨z, (s1.code z).length, σ⟩ ⟨1, 0, σ⟩) := by
    cases q with
    | none =>
      simp only at h2
      subst h2
      exact ⟨p1.post, Same.refl _ _, ⟨[], Post.nil _⟩, fun z hz => by cases hz⟩
    | some z =>
      simp only at h2
      subst h2
      obtain ⟨lz, nz, oz⟩ := p1.end_ z rfl
      have pl := post_link s1 z 1 .next lz (oz.ptr _) (fun _ => oz.clean)
      refine ⟨p1.post.trans pl (by simpa using nz), link_same _ _ _ (by omega), ⟨_, pl⟩, ?_⟩
      intro z' hz' F hF σ
      cases hz'
      exact hF.jump (link_next _ _ _) σ
  obtain ⟨p0P, x2, ⟨V, p1P⟩, T⟩ := H5
  refine ⟨⟨x2.code.trans (x1.code.trans c0), (o0.same x1).same x2⟩, p0P.sym y0, ⟨⟨p0P.ends en0, by rw [p0P.exit, hs0]⟩, p0P.fresh r0.fresh⟩, ?_⟩
  intro n σ
  have := e1 n P p1P.le σ
  have cc : s0.code 0 = [] := by rw [hs0]
  rw [cc] at this
  cases hx : execs M H n body σ with
  | undef => trivial
  | timeout => rw [hx] at this; exact this
  | ok o σ' =>
    rw [hx] at this
    cases o with
    | normal =>
      obtain ⟨z, hz, g⟩ := this
      exact ⟨.inl rfl, g.trans (T z hz P (Le.refl _) σ')⟩
    | brk =>
      obtain ⟨y, hy, _⟩ := this
      rw [brk1] at hy
      cases hy
    | cont =>
      obtain ⟨y, hy, _⟩ := this
      rw [cont1] at hy
      cases hy
    | ret =>
      have g : Go M H P _ ⟨s1.exit, 0, σ'⟩ := this
      rw [exit1] at g
      exact ⟨.inr rfl, g⟩

theorem exit_stuck {P : PS} (h : P.code 1 = [] ∧ Open P 1) (σ : S M) : P.prog.step M H ⟨1, 0, σ⟩ = none := by
  have hc : (P.prog.code 1)[0]? = none := by
    show (P.code 1)[0]? = none
    rw [h.1]; rfl
  have hn : P.prog.next 1 = none := h.2.next
  unfold Prog.step
  simp only [hc, hn, Option.map_none]

/-- **C73** (partial: for bodies within `Stmts.Ok`).  If the body of a function, executed as C prescribes, ends in the state `σ'`
(by `return` or at its end), then execution of the control-flow graph from the entry block leads to the exit block in the same
state.  In particular no `break` or `continue` leaves the function. -/
theorem C73_body_translated_partial (B : Basic M) {body : Stmts} (hb : body.Ok H) {P : PS} (hP : lowerFn body = some P) {n : Nat}
    {σ σ' : S M} {o : Out} (h : execs M H n body σ = .ok o σ') :
    (o = .normal ∨ o = .ret) ∧ ∃ k, P.prog.Steps M H k ⟨0, 0, σ⟩ ⟨1, 0, σ'⟩ := by
  have := (lowerFn_ok B hb hP).2.2.2 n σ
  rw [h] at this
  exact this

/-- **C73** (partial, as above).  If the body runs on without an end, so does the graph. -/
theorem C73_divergence_translated_partial (B : Basic M) {body : Stmts} (hb : body.Ok H) {P : PS} (hP : lowerFn body = some P)
    {σ : S M} (h : ∀ n, execs M H n body σ = .timeout) :
    (∀ n, ∃ d, P.prog.Steps M H n ⟨0, 0, σ⟩ d) ∧ ∀ k σ', ¬ P.prog.Steps M H k ⟨0, 0, σ⟩ ⟨1, 0, σ'⟩ := by
  obtain ⟨he, _, _, hx⟩ := lowerFn_ok B hb hP
  have hlong : ∀ n, GoN M H P n ⟨0, 0, σ⟩ := by
    intro n
    have := hx n σ
    rw [h n] at this
    exact this
  have cut : ∀ (k n : Nat) (c d : Conf M), n ≤ k → P.prog.Steps M H k c d → ∃ e, P.prog.Steps M H n c e := by
    intro k n
    induction n generalizing k with
    | zero => intro c d _ _; exact ⟨c, .refl c⟩
    | succ n ih =>
      intro c d hk hst
      cases hst with
      | refl => omega
      | @step m _ e _ hs t =>
        obtain ⟨e', he'⟩ := ih m e d (by omega) t
        exact ⟨e', .step hs he'⟩
  refine ⟨?_, ?_⟩
  · intro n
    obtain ⟨k, d, hk, hst⟩ := hlong n
    exact cut k n _ d hk hst
  · intro k σ' hst
    obtain ⟨j, d, hj, hst'⟩ := hlong (k + 1)
    have := steps_stuck (exit_stuck he σ') (steps_prefix hst hst' (by omega))
    omega

/-- **C73** (partial, as above).  For a body without undefined behaviour, the graph reaches the exit in a state exactly if the body
ends in that state. -/
theorem C73_exit_iff_partial (B : Basic M) {body : Stmts} (hb : body.Ok H) {P : PS} (hP : lowerFn body = some P) {σ : S M}
    (hu : ∀ n, execs M H n body σ ≠ .undef) (σ' : S M) :
    (∃ k, P.prog.Steps M H k ⟨0, 0, σ⟩ ⟨1, 0, σ'⟩) ↔ ∃ n o, execs M H n body σ = .ok o σ' := by
  obtain ⟨he, _, _, hx⟩ := lowerFn_ok B hb hP
  constructor
  · rintro ⟨k, hst⟩
    have := hx (k + 1) σ
    cases hr : execs M H (k + 1) body σ with
    | undef => exact absurd hr (hu _)
    | timeout =>
      rw [hr] at this
      obtain ⟨j, d, hj, hst'⟩ := this
      have := steps_stuck (exit_stuck he σ') (steps_prefix hst hst' (by omega))
      omega
    | ok o σ1 =>
      rw [hr] at this
      obtain ⟨_, j, hst'⟩ := this
      have := steps_end hst hst' (exit_stuck he _) (exit_stuck he _)
      cases this
      exact ⟨k + 1, o, hr⟩
  · rintro ⟨n, o, h⟩
    exact (C73_body_translated_partial B hb hP h).2

/-! ### Expressions -/

/-- **C74** (partial: no postfix `++`, `--`; the last operands of `?:` without control flow).  The graph of `return e;` ends in the
state after evaluation of `e` and the return of its value. -/
theorem C74_expression_partial (B : Basic M) {e : Expr} (he : e.Plain H) {P : PS} (hP : lowerFn (.cons (.ret (some e)) .nil) = some P)
    {σ σ1 σ2 : S M} {p : List (Ins Nat)} (h1 : eval M H e σ = some (σ1, p)) (h2 : run M H [retIns (some e.res)] σ1 = some σ2) :
    ∃ k, P.prog.Steps M H k ⟨0, 0, σ⟩ ⟨1, 0, σ2⟩ := by
  refine (C73_body_translated_partial (n := 0) (o := .ret) B (body := .cons (.ret (some e)) .nil) ⟨?_, trivial⟩ hP ?_).2
  · intro e' h
    cases h
    exact he
  · have hp := eval_noSe e he.2 σ σ1 p h1
    subst hp
    simp only [execs, exec, h1, Option.bind_some, h2]
    rfl

/-- **C74** `a && b` with `a` zero: `b` is not evaluated, whatever it is, and the value is 0. -/
theorem C74_and_stops_partial (B : Basic M) {a b : Expr} {tmp : Nat → Tmp} (he : (Expr.logic (.one (.more a (.one b))) tmp).Plain H)
    {P : PS} (hP : lowerFn (.cons (.ret (some (.logic (.one (.more a (.one b))) tmp))) .nil) = some P) {σ σ1 σ2 : S M}
    (h1 : eval M H a σ = some (σ1, [])) (hz : CRename.rd M H σ1 a.res = 0)
    (h2 : run M H [constIns (tmp 0).zero 0, moveIns (tmp 0).res (tmp 0).zero, retIns (some (tmp 0).res)] σ1 = some σ2) :
    ∃ k, P.prog.Steps M H k ⟨0, 0, σ⟩ ⟨1, 0, σ2⟩ := by
  rw [show [constIns (tmp 0).zero 0, moveIns (tmp 0).res (tmp 0).zero, retIns (some (tmp 0).res)] =
    setBool (tmp 0) false ++ [retIns (some (tmp 0).res)] from rfl, run_append] at h2
  obtain ⟨σ3, h3, h4⟩ := Option.bind_eq_some_iff.mp h2
  refine C74_expression_partial B he hP (σ1 := σ3) (p := []) ?_ h4
  have ht : truth M H σ1 a.res = false := by simp [truth, hz]
  simp only [eval, evalAnds, h1, Option.bind_some, run, ht, Bool.false_eq_true, if_false, h3, Option.map_some]

/-- **C74** `a && b` with `a` not zero: then `b` is evaluated, and the value is 1 if it is not zero, else 0. -/
theorem C74_and_goes_on_partial (B : Basic M) {a b : Expr} {tmp : Nat → Tmp} (he : (Expr.logic (.one (.more a (.one b))) tmp).Plain H)
    {P : PS} (hP : lowerFn (.cons (.ret (some (.logic (.one (.more a (.one b))) tmp))) .nil) = some P) {σ σ1 σ2 σ3 : S M}
    (h1 : eval M H a σ = some (σ1, [])) (hz : CRename.rd M H σ1 a.res ≠ 0) (h2 : eval M H b σ1 = some (σ2, []))
    (h3 : run M H (setBool (tmp 0) (CRename.rd M H σ2 b.res ≠ 0) ++ [retIns (some (tmp 0).res)]) σ2 = some σ3) :
    ∃ k, P.prog.Steps M H k ⟨0, 0, σ⟩ ⟨1, 0, σ3⟩ := by
  rw [run_append] at h3
  obtain ⟨σ4, h4, h5⟩ := Option.bind_eq_some_iff.mp h3
  refine C74_expression_partial B he hP (σ1 := σ4) (p := []) ?_ h5
  have ht : truth M H σ1 a.res = true := decide_eq_true hz
  simp only [eval, evalAnds, h1, Option.bind_some, run, ht, if_true, h2, Option.map_some]
  rw [show truth M H σ2 b.res = decide (CRename.rd M H σ2 b.res ≠ 0) from rfl, h4]
  rfl

/-- **C74** `a || b` with `a` not zero: `b` is not evaluated, whatever it is, and the value is 1. -/
theorem C74_or_stops_partial (B : Basic M) {a b : Expr} {tmp : Nat → Tmp}
    (he : (Expr.logic (.more (.one a) (.one (.one b))) tmp).Plain H) {P : PS}
    (hP : lowerFn (.cons (.ret (some (.logic (.more (.one a) (.one (.one b))) tmp))) .nil) = some P) {σ σ1 σ2 : S M}
    (h1 : eval M H a σ = some (σ1, [])) (hz : CRename.rd M H σ1 a.res ≠ 0)
    (h2 : run M H [constIns (tmp 0).one 1, moveIns (tmp 0).res (tmp 0).one, retIns (some (tmp 0).res)] σ1 = some σ2) :
    ∃ k, P.prog.Steps M H k ⟨0, 0, σ⟩ ⟨1, 0, σ2⟩ := by
  rw [show [constIns (tmp 0).one 1, moveIns (tmp 0).res (tmp 0).one, retIns (some (tmp 0).res)] =
    setBool (tmp 0) true ++ [retIns (some (tmp 0).res)] from rfl, run_append] at h2
  obtain ⟨σ3, h3, h4⟩ := Option.bind_eq_some_iff.mp h2
  refine C74_expression_partial B he hP (σ1 := σ3) (p := []) ?_ h4
  have ht : truth M H σ1 a.res = true := decide_eq_true hz
  simp [eval, evalOrs, evalAnds, h1, run, ht, Ors.multis, Ands.multi, h3]

/-- **C74** `c ? a : b`: the condition, and then only one of the other operands, is evaluated. -/
theorem C74_ternary_partial (B : Basic M) {c a b : Expr} {t : Nat} (he : (Expr.tern c a b t).Plain H) {P : PS}
    (hP : lowerFn (.cons (.ret (some (.tern c a b t))) .nil) = some P) {σ σ1 σ2 σ3 : S M}
    (h1 : eval M H c σ = some (σ1, [])) (h2 : eval M H (if CRename.rd M H σ1 c.res ≠ 0 then a else b) σ1 = some (σ2, []))
    (h3 : run M H [moveIns t (if CRename.rd M H σ1 c.res ≠ 0 then a.res else b.res), retIns (some t)] σ2 = some σ3) :
    ∃ k, P.prog.Steps M H k ⟨0, 0, σ⟩ ⟨1, 0, σ3⟩ := by
  rw [show ∀ x, [moveIns t x, retIns (some t)] = [moveIns t x] ++ [retIns (some t)] from fun _ => rfl, run_append] at h3
  obtain ⟨σ4, h4, h5⟩ := Option.bind_eq_some_iff.mp h3
  refine C74_expression_partial B he hP (σ1 := σ4) (p := []) ?_ h5
  by_cases hz : CRename.rd M H σ1 c.res ≠ 0
  · have ht : truth M H σ1 c.res = true := decide_eq_true hz
    rw [if_pos hz] at h2 h4
    simp only [eval, h1, Option.bind_some, run, ht, if_true, h2]
    simp only [run] at h4
    rw [h4]
    rfl
  · have ht : truth M H σ1 c.res = false := decide_eq_false hz
    rw [if_neg hz] at h2 h4
    simp only [eval, h1, Option.bind_some, run, ht, Bool.false_eq_true, if_false, h2]
    simp only [run] at h4
    rw [h4]
    rfl

/-! ### The graph -/

/-- **C75** (partial: for bodies within `Stmts.Ok`).  Every edge is recorded in the block it leaves and in the block it enters, and
the exit block is empty and without successors. -/
theorem C75_edges_recorded_partial (B : Basic M) {body : Stmts} (hb : body.Ok H) {P : PS} (hP : lowerFn body = some P) :
    (∀ a b, ((P.block a).next = some b ∨ (P.block a).then_ = some b ∨ (P.block a).else_ = some b) ↔ a ∈ (P.block b).prev) ∧
      P.code 1 = [] ∧ (P.block 1).next = none ∧ (P.block 1).then_ = none ∧ (P.block 1).else_ = none := by
  obtain ⟨⟨h1, h2⟩, h3, _⟩ := lowerFn_ok B hb hP
  refine ⟨?_, h1, h2.next, h2.then_, h2.else_⟩
  intro a b
  rw [← h3 a b]
  constructor
  · rintro (h | h | h)
    · exact ⟨.next, h⟩
    · exact ⟨.then_, h⟩
    · exact ⟨.else_, h⟩
  · rintro ⟨k, hk⟩
    cases k
    · exact .inl hk
    · exact .inr (.inl hk)
    · exact .inr (.inr hk)

end

end Shecc.Props
