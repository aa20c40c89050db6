import Verif.Lemmas.Body3

/-!
# Function bodies: what the statement trees do
-/

namespace Shecc.Body
open CEval CSyntax CBody CArith
open Shecc.ExprGen (Conv Keeps TOk)
open Shecc.Ssa (Insn Op1)
open CRename (Ins Home)
open CStmt (Expr Exprs eval evals Out Res Turn exec execs execFrom iter)

variable {T : Types.Table} {U : CBody.Unit} {base nv0 : Nat}

/-- Same world, same variables below `base`. -/
def Rel (base : Nat) {W : Type} (s t : W × (Nat → Word)) : Prop := t.1 = s.1 ∧ Keeps base s.2 t.2

theorem Rel.mk' {W : Type} {w : W} {ρ e : Nat → Word} (h : Keeps base ρ e) : Rel base (w, ρ) (w, e) := ⟨rfl, h⟩

/-- `run`, with a large enough bound, does what `P` says. -/
def Does (base : Nat) {W : Type} (run : Nat → W × (Nat → Word) → Res (W × (Nat → Word))) (P : W × (Nat → Word) → Out → W × (Nat → Word) → Prop) : Prop :=
  ∀ s o s' t, P s o s' → Rel base s t → ∃ t' k, Rel base s' t' ∧ ∀ n, k ≤ n → run n t = .ok o t'

def SimS (base : Nat) (U : CBody.Unit) (S : CStmt.Stmt) (a : CBody.Stmt) : Prop :=
  ∀ X : Mc nv0, S.Ok X.H ∧ Does base (fun n => exec X.M X.H n S) (Exec X.C U.E U.decl a)

def SimSs (base : Nat) (U : CBody.Unit) (S : CStmt.Stmts) (a : CBody.Stmts) : Prop :=
  ∀ X : Mc nv0, S.Ok X.H ∧ Does base (fun n => execs X.M X.H n S) (ExecAll X.C U.E U.decl a)

def SimCs (base next : Nat) (U : CBody.Unit) (S : CStmt.Cases) (a : CBody.Cases) : Prop :=
  ∀ X : Mc nv0, (∀ v, v < next → S.Ok X.H v) ∧ (∀ x, CStmt.pick x S = CBody.pick x a) ∧
    (∀ v x (s t : CStmt.S X.M), Rel base s t → ∃ t', CStmt.compares X.M X.H v x S t = some t' ∧ Rel base s t') ∧
    ∀ i, Does base (fun n => execFrom X.M X.H n S i) (fun s o s' => ExecFrom X.C U.E U.decl a i s o s')

theorem keeps_up {e : Nat → Word} {x : Nat} {v : Word} (h : base ≤ x) : Keeps base e (ExprGen.upd e x v) := by
  intro y hy
  simp only [ExprGen.upd]
  rw [if_neg (by omega)]

/-! ### Expressions -/

theorem SimX.full {E : Expr} {P : Change nv0} (h : SimX (nv0 := nv0) base E P) (X : Mc nv0) {s s' t : CStmt.S X.M} (hp : P X s s') (hr : Rel base s t) :
    ∃ t', CStmt.full X.M X.H E t = some t' ∧ Rel base s' t' := by
  obtain ⟨w, e⟩ := t
  obtain ⟨rfl, hk⟩ := hr
  obtain ⟨e', h1, h2⟩ := (h X).2 s s' e hp hk
  refine ⟨(s'.1, e'), ?_, rfl, h2⟩
  simp only [CStmt.full]
  rw [h1]
  rfl

theorem sim_expr {E : Expr} {P : Change nv0} (h : SimX (nv0 := nv0) base E P) {a : CBody.Stmt}
    (ha : ∀ (X : Mc nv0) s o s', Exec X.C U.E U.decl a s o s' → o = .normal ∧ P X s s') : SimS (nv0 := nv0) base U (.expr E) a := by
  intro X
  refine ⟨⟨(h X).1.1, .inl (h X).1.2⟩, fun s o s' t he hr => ?_⟩
  obtain ⟨rfl, hp⟩ := ha X s o s' he
  obtain ⟨t', h1, h2⟩ := h.full X hp hr
  refine ⟨t', 0, h2, fun n _ => ?_⟩
  simp only [exec, h1]
  rfl

theorem SimV.value {E : Expr} {c : CBody.Ors} (h : SimV (nv0 := nv0) base E (valCond U c)) (X : Mc nv0) {s t : CStmt.S X.M} {w : X.M.World} {v : Word}
    (hp : EvCond X.C U.E U.decl s.2 c s.1 w v) (hr : Rel base s t) :
    ∃ e', eval X.M X.H E t = some ((w, e'), []) ∧ Keeps base s.2 e' ∧ CRename.rd X.M X.H (w, e') E.res = v := by
  obtain ⟨w0, e⟩ := t
  obtain ⟨rfl, hk⟩ := hr
  exact (h X).2 _ _ _ _ e hp hk

theorem SimV.test {E : Expr} {c : CBody.Ors} (h : SimV (nv0 := nv0) base E (valCond U c)) (X : Mc nv0) {s s' t : CStmt.S X.M} {b : Bool}
    (hp : Test X.C U.E U.decl c s s' b) (hr : Rel base s t) : ∃ t', CStmt.test X.M X.H E t = some (t', b) ∧ Rel base s' t' := by
  obtain ⟨w, v, h1, rfl, rfl⟩ := hp
  obtain ⟨e', h2, h3, h4⟩ := h.value X h1 hr
  refine ⟨(w, e'), ?_, rfl, h3⟩
  simp only [CStmt.test]
  rw [h2]
  simp only [Option.bind_some, CRename.run, Option.map_some, CStmt.truth, h4]

/-! ### Statements without loops -/

theorem sim_empty : SimS (nv0 := nv0) base U .empty .empty := by
  intro X
  refine ⟨trivial, fun s o s' t he hr => ?_⟩
  obtain ⟨rfl, rfl⟩ := he
  exact ⟨t, 0, hr, fun n _ => rfl⟩

theorem sim_brk : SimS (nv0 := nv0) base U .brk .brk := by
  intro X
  refine ⟨trivial, fun s o s' t he hr => ?_⟩
  obtain ⟨rfl, rfl⟩ := he
  exact ⟨t, 0, hr, fun n _ => rfl⟩

theorem sim_cont : SimS (nv0 := nv0) base U .cont .cont := by
  intro X
  refine ⟨trivial, fun s o s' t he hr => ?_⟩
  obtain ⟨rfl, rfl⟩ := he
  exact ⟨t, 0, hr, fun n _ => rfl⟩

theorem sim_block {S : CStmt.Stmts} {ss : CBody.Stmts} (h : SimSs (nv0 := nv0) base U S ss) : SimS (nv0 := nv0) base U (.block S) (.block ss) := by
  intro X
  refine ⟨(h X).1, fun s o s' t he hr => ?_⟩
  exact (h X).2 s o s' t he hr

theorem sim_ret0 : SimS (nv0 := nv0) base U (.ret none) (.ret none) := by
  intro X
  refine ⟨(fun e h => by cases h), fun s o s' t he hr => ?_⟩
  obtain ⟨rfl, rfl⟩ := he
  obtain ⟨w, e⟩ := t
  obtain ⟨rfl, hk⟩ := hr
  obtain ⟨u, hu⟩ := X.K.ret none s.1
  refine ⟨(X.C.ret none s.1, e), 0, ⟨rfl, hk⟩, fun n _ => ?_⟩
  have h1 : CRename.run X.M X.H [CStmt.retIns none] (s.1, e) = some (X.C.ret none s.1, e) := by
    simp only [CRename.run, CRename.step, CStmt.retIns, CRename.Ins.tag, CRename.arg1, Option.map_none, reduceCtorEq, if_false]
    exact (congrArg (fun o => Option.bind (o.map fun r : X.M.World × Word => ((r.1, e) : CStmt.S X.M)) fun x => some x) hu).trans rfl
  simp only [exec]
  rw [h1]
  rfl

theorem SimV.full {E : Expr} {c : CBody.Value} (h : SimV (nv0 := nv0) base E (valVal U c)) (X : Mc nv0) {s t : CStmt.S X.M} {w : X.M.World} {v : Word}
    (hp : EvVal X.C U.E U.decl s.2 c s.1 w v) (hr : Rel base s t) :
    ∃ e', eval X.M X.H E t = some ((w, e'), []) ∧ Keeps base s.2 e' ∧ CRename.rd X.M X.H (w, e') E.res = v := by
  obtain ⟨w0, e⟩ := t
  obtain ⟨rfl, hk⟩ := hr
  exact (h X).2 _ _ _ _ e hp hk

theorem sim_ret {E : Expr} {c : CBody.Value} (h : SimV (nv0 := nv0) base E (valVal U c)) : SimS (nv0 := nv0) base U (.ret (some E)) (.ret (some c)) := by
  intro X
  refine ⟨(fun e h' => by cases h'; exact (h X).1), fun s o s' t he hr => ?_⟩
  obtain ⟨rfl, w, v, h1, rfl⟩ := he
  obtain ⟨e', h2, h3, h4⟩ := h.full X h1 hr
  obtain ⟨u, hu⟩ := X.K.ret (some v) w
  refine ⟨(X.C.ret (some v) w, e'), 0, ⟨rfl, h3⟩, fun n _ => ?_⟩
  have h5 : CRename.run X.M X.H [CStmt.retIns (some E.res)] (w, e') = some (X.C.ret (some v) w, e') := by
    simp only [CRename.run, CRename.step, CStmt.retIns, CRename.Ins.tag, CRename.arg1, Option.map_none, Option.map_some, reduceCtorEq, if_false, h4]
    exact (congrArg (fun o => Option.bind (o.map fun r : X.M.World × Word => ((r.1, e') : CStmt.S X.M)) fun x => some x) hu).trans rfl
  simp only [exec]
  rw [h2, Option.bind_some, h5]
  rfl

theorem sim_ite {E : Expr} {c : CBody.Ors} {S : CStmt.Stmt} {a : CBody.Stmt} (h : SimV (nv0 := nv0) base E (valCond U c))
    (hs : SimS (nv0 := nv0) base U S a) : SimS (nv0 := nv0) base U (.ite E S) (.ite c a) := by
  intro X
  refine ⟨⟨(h X).1, (hs X).1⟩, fun s o s' t he hr => ?_⟩
  obtain ⟨s1, b, ht, hb⟩ := he
  obtain ⟨t1, h1, h2⟩ := h.test X ht hr
  rcases hb with ⟨rfl, hb⟩ | ⟨rfl, rfl, rfl⟩
  · obtain ⟨t', k, h3, h4⟩ := (hs X).2 _ _ _ _ hb h2
    refine ⟨t', k, h3, fun n hn => ?_⟩
    simp only [exec]
    rw [h1]
    exact h4 n hn
  · refine ⟨t1, 0, h2, fun n hn => ?_⟩
    simp only [exec]
    rw [h1]
    rfl

theorem sim_iteElse {E : Expr} {c : CBody.Ors} {S S' : CStmt.Stmt} {a a' : CBody.Stmt} (h : SimV (nv0 := nv0) base E (valCond U c))
    (hs : SimS (nv0 := nv0) base U S a) (hs' : SimS (nv0 := nv0) base U S' a') : SimS (nv0 := nv0) base U (.iteElse E S S') (.iteElse c a a') := by
  intro X
  refine ⟨⟨(h X).1, (hs X).1, (hs' X).1⟩, fun s o s' t he hr => ?_⟩
  obtain ⟨s1, b, ht, hb⟩ := he
  obtain ⟨t1, h1, h2⟩ := h.test X ht hr
  rcases hb with ⟨rfl, hb⟩ | ⟨rfl, hb⟩
  · obtain ⟨t', k, h3, h4⟩ := (hs X).2 _ _ _ _ hb h2
    refine ⟨t', k, h3, fun n hn => ?_⟩
    simp only [exec]
    rw [h1]
    exact h4 n hn
  · obtain ⟨t', k, h3, h4⟩ := (hs' X).2 _ _ _ _ hb h2
    refine ⟨t', k, h3, fun n hn => ?_⟩
    simp only [exec]
    rw [h1]
    exact h4 n hn

/-! ### Lists of statements -/

theorem sim_nil : SimSs (nv0 := nv0) base U .nil .nil := by
  intro X
  refine ⟨trivial, fun s o s' t he hr => ?_⟩
  obtain ⟨rfl, rfl⟩ := he
  exact ⟨t, 0, hr, fun n _ => rfl⟩

theorem seq_does {W : Type} {run1 run2 : Nat → W × (Nat → Word) → Res (W × (Nat → Word))} {P1 P2 : W × (Nat → Word) → Out → W × (Nat → Word) → Prop}
    (h1 : Does base run1 P1) (h2 : Does base run2 P2) : Does base (fun n t => (run1 n t).andThen (run2 n))
      (fun s o s' => ∃ s1 o1, P1 s o1 s1 ∧ ((o1 = .normal ∧ P2 s1 o s') ∨ (o1 ≠ .normal ∧ o = o1 ∧ s' = s1))) := by
  rintro s o s' t ⟨s1, o1, hp, hq⟩ hr
  obtain ⟨t1, k1, h3, h4⟩ := h1 _ _ _ _ hp hr
  rcases hq with ⟨rfl, hq⟩ | ⟨hne, rfl, rfl⟩
  · obtain ⟨t2, k2, h5, h6⟩ := h2 _ _ _ _ hq h3
    refine ⟨t2, max k1 k2, h5, fun n hn => ?_⟩
    simp only [h4 n (by omega), Res.andThen, h6 n (by omega)]
  · refine ⟨t1, k1, h3, fun n hn => ?_⟩
    simp only [h4 n hn]
    cases o <;> first | rfl | exact absurd rfl hne

theorem sim_cons {S : CStmt.Stmt} {SS : CStmt.Stmts} {a : CBody.Stmt} {ss : CBody.Stmts} (h : SimS (nv0 := nv0) base U S a)
    (hs : SimSs (nv0 := nv0) base U SS ss) : SimSs (nv0 := nv0) base U (.cons S SS) (.cons a ss) := by
  intro X
  refine ⟨⟨(h X).1, (hs X).1⟩, fun s o s' t he hr => ?_⟩
  exact seq_does (h X).2 (hs X).2 s o s' t he hr

/-! ### Loops -/

theorem loop_does {M : SsaSem.Mach} {test : SsaSem.State M → SsaSem.State M → Bool → Prop} {body : SsaSem.State M → Out → SsaSem.State M → Prop}
    {step : SsaSem.State M → SsaSem.State M → Prop} {turn : Nat → SsaSem.State M → Turn (SsaSem.State M)}
    (hstop : ∀ s s' t, test s s' false → Rel base s t → ∃ t' k, Rel base s' t' ∧ ∀ n, k ≤ n → turn n t = .done (.ok .normal t'))
    (hagain : ∀ s s1 o s2 s3 t, test s s1 true → body s1 o s2 → (o = .normal ∨ o = .cont) → step s2 s3 → Rel base s t →
      ∃ t' k, Rel base s3 t' ∧ ∀ n, k ≤ n → turn n t = .again t')
    (hbrk : ∀ s s1 s2 t, test s s1 true → body s1 .brk s2 → Rel base s t → ∃ t' k, Rel base s2 t' ∧ ∀ n, k ≤ n → turn n t = .done (.ok .normal t'))
    (hret : ∀ s s1 s2 t, test s s1 true → body s1 .ret s2 → Rel base s t → ∃ t' k, Rel base s2 t' ∧ ∀ n, k ≤ n → turn n t = .done (.ok .ret t'))
    {s s' : SsaSem.State M} {o : Out} (h : Loop test body step s o s') :
    ∀ t, Rel base s t → ∃ t' k, Rel base s' t' ∧ ∀ n m, k ≤ n → k ≤ m → iter (turn n) m t = .ok o t' := by
  have fin : ∀ {s' : SsaSem.State M} {o : Out} {t : SsaSem.State M}, (∃ t' k, Rel base s' t' ∧ ∀ n, k ≤ n → turn n t = .done (.ok o t')) →
      ∃ t' k, Rel base s' t' ∧ ∀ n m, k ≤ n → k ≤ m → iter (turn n) m t = .ok o t' := by
    rintro s' o t ⟨t', k, h1, h2⟩
    refine ⟨t', k + 1, h1, fun n m hn hm => ?_⟩
    obtain ⟨m, rfl⟩ : ∃ m', m = m' + 1 := ⟨m - 1, by omega⟩
    simp only [iter, h2 n (by omega)]
  induction h with
  | stop ht => exact fun t hr => fin (hstop _ _ t ht hr)
  | brk ht hb => exact fun t hr => fin (hbrk _ _ _ t ht hb hr)
  | ret ht hb => exact fun t hr => fin (hret _ _ _ t ht hb hr)
  | again ht hb ho hs _ ih =>
    intro t hr
    obtain ⟨t1, k1, h1, h2⟩ := hagain _ _ _ _ _ t ht hb ho hs hr
    obtain ⟨t', k2, h3, h4⟩ := ih t1 h1
    refine ⟨t', max k1 k2 + 1, h3, fun n m hn hm => ?_⟩
    obtain ⟨m, rfl⟩ : ∃ m', m = m' + 1 := ⟨m - 1, by omega⟩
    simp only [iter, h2 n (by omega), h4 n m (by omega) (by omega)]

/-- A turn of a loop with the condition before the body. -/
theorem turn_does {M : SsaSem.Mach} {test : SsaSem.State M → SsaSem.State M → Bool → Prop} {body : SsaSem.State M → Out → SsaSem.State M → Prop}
    {step : SsaSem.State M → SsaSem.State M → Prop} {turn : Nat → SsaSem.State M → Turn (SsaSem.State M)}
    {test' : SsaSem.State M → Option (SsaSem.State M × Bool)} {body' : Nat → SsaSem.State M → Res (SsaSem.State M)}
    {step' : SsaSem.State M → Option (SsaSem.State M)} {more : SsaSem.State M → Turn (SsaSem.State M)}
    (hf : ∀ n t t', test' t = some (t', false) → turn n t = .done (.ok .normal t'))
    (htt : ∀ n t t', test' t = some (t', true) → turn n t = CStmt.bodyTurn more (body' n t'))
    (hm : ∀ t t', step' t = some t' → more t = .again t')
    (ht : ∀ s s' b t, test s s' b → Rel base s t → ∃ t', test' t = some (t', b) ∧ Rel base s' t')
    (hb : Does base body' body) (hs : ∀ s s' t, step s s' → Rel base s t → ∃ t', step' t = some t' ∧ Rel base s' t') :
    Does base (fun n t => iter (turn n) n t) (Loop test body step) := by
  intro s o s' t hl hr
  have key := loop_does (base := base) (turn := turn) (test := test) (body := body) (step := step) ?_ ?_ ?_ ?_ hl t hr
  · obtain ⟨t', k, h1, h2⟩ := key
    exact ⟨t', k, h1, fun n hn => h2 n n hn hn⟩
  · intro s s' t h hr
    obtain ⟨t', h1, h2⟩ := ht _ _ _ _ h hr
    exact ⟨t', 0, h2, fun n _ => hf _ _ _ h1⟩
  · intro s s1 o s2 s3 t h hb' ho hs' hr
    obtain ⟨t1, h1, h2⟩ := ht _ _ _ _ h hr
    obtain ⟨t2, k, h3, h4⟩ := hb _ _ _ _ hb' h2
    obtain ⟨t3, h5, h6⟩ := hs _ _ _ hs' h3
    refine ⟨t3, k, h6, fun n hn => ?_⟩
    rw [htt _ _ _ h1, h4 n hn]
    rcases ho with rfl | rfl <;> exact hm _ _ h5
  · intro s s1 s2 t h hb' hr
    obtain ⟨t1, h1, h2⟩ := ht _ _ _ _ h hr
    obtain ⟨t2, k, h3, h4⟩ := hb _ _ _ _ hb' h2
    exact ⟨t2, k, h3, fun n hn => by rw [htt _ _ _ h1, h4 n hn]; rfl⟩
  · intro s s1 s2 t h hb' hr
    obtain ⟨t1, h1, h2⟩ := ht _ _ _ _ h hr
    obtain ⟨t2, k, h3, h4⟩ := hb _ _ _ _ hb' h2
    exact ⟨t2, k, h3, fun n hn => by rw [htt _ _ _ h1, h4 n hn]; rfl⟩

section
variable {M : CRename.Mach} {H : Home Nat} {E : Expr} {s s' : CStmt.S M} {body : CStmt.S M → Res (CStmt.S M)} {C J : Option Expr} {one : Nat}

theorem while_f (h : CStmt.test M H E s = some (s', false)) : CStmt.whileTurn M H E body s = .done (.ok .normal s') := by simp [CStmt.whileTurn, h]

theorem while_t (h : CStmt.test M H E s = some (s', true)) : CStmt.whileTurn M H E body s = CStmt.bodyTurn .again (body s') := by simp [CStmt.whileTurn, h]

/-- What follows the body of a `for`. -/
def forMore (M : CRename.Mach) (H : Home Nat) (J : Option Expr) (s : CStmt.S M) : Turn (CStmt.S M) :=
  match CStmt.fullOpt M H J s with
  | none => .done .undef
  | some s' => .again s'

theorem forMore_some (h : CStmt.fullOpt M H J s = some s') : forMore M H J s = .again s' := by simp [forMore, h]

theorem for_f (h : CStmt.forTest M H C one s = some (s', false)) : CStmt.forTurn M H C one J body s = .done (.ok .normal s') := by simp [CStmt.forTurn, h]

theorem for_t (h : CStmt.forTest M H C one s = some (s', true)) : CStmt.forTurn M H C one J body s = CStmt.bodyTurn (forMore M H J) (body s') := by
  simp only [CStmt.forTurn, h]
  rfl

/-- What follows the body of a `do`. -/
def doMore (M : CRename.Mach) (H : Home Nat) (E : Expr) (s' : CStmt.S M) : Turn (CStmt.S M) :=
  match CStmt.test M H E s' with
  | none => .done .undef
  | some (s'', true) => .again s''
  | some (s'', false) => .done (.ok .normal s'')

theorem doMore_t (h : CStmt.test M H E s = some (s', true)) : doMore M H E s = .again s' := by simp [doMore, h]

theorem doMore_f (h : CStmt.test M H E s = some (s', false)) : doMore M H E s = .done (.ok .normal s') := by simp [doMore, h]
end

theorem sim_while {E : Expr} {c : CBody.Ors} {S : CStmt.Stmt} {a : CBody.Stmt} (h : SimV (nv0 := nv0) base E (valCond U c))
    (hs : SimS (nv0 := nv0) base U S a) : SimS (nv0 := nv0) base U (.while_ E S) (.while_ c a) := by
  intro X
  refine ⟨⟨(h X).1, (hs X).1⟩, fun s o s' t he hr => ?_⟩
  exact turn_does (M := machOf X.M X.H X.da X.load) (turn := fun n => CStmt.whileTurn X.M X.H E (exec X.M X.H n S)) (test' := CStmt.test X.M X.H E)
    (body' := fun n => exec X.M X.H n S) (step' := some) (more := .again)
    (fun n t t' h => while_f h) (fun n t t' h => while_t h) (fun t t' h => by cases h; rfl) (fun s s' b t ht hr => h.test X ht hr) (hs X).2
    (fun s s' t hq hr => by subst hq; exact ⟨t, rfl, hr⟩) s o s' t he hr

/-- The condition of a `for`. -/
theorem for_sim {c : Option CBody.Ors} {C : Option Expr} {one : Nat} (hn : nv0 ≤ one) (hb : base ≤ one) (h : InitOk (valCond (nv0 := nv0) U) base c C) (X : Mc nv0)
    {s s' t : CStmt.S X.M} {b : Bool} (ht : (match c with
        | some c => Test X.C U.E U.decl c
        | none => fun x y t => y = x ∧ t = true) s s' b) (hr : Rel base s t) : ∃ t', CStmt.forTest X.M X.H C one t = some (t', b) ∧ Rel base s' t' := by
  cases c with
  | some c =>
    cases C with
    | none => exact h.elim
    | some E => exact SimV.test h X ht hr
  | none =>
    cases C with
    | some E => exact h.elim
    | none =>
      obtain ⟨rfl, rfl⟩ := ht
      obtain ⟨w, e⟩ := t
      obtain ⟨rfl, hk⟩ := hr
      refine ⟨(s'.1, ExprGen.upd e one 1), ?_, rfl, hk.trans (keeps_up hb) (Nat.le_refl _)⟩
      have hm := X.K.outside one hn
      have hc := X.K.std.const 1 "" none none s'.1
      have h1 : CRename.run X.M X.H [CStmt.constIns one 1] (s'.1, e) = some (s'.1, ExprGen.upd e one 1) := by
        simp only [CRename.run, CRename.step, CStmt.constIns, CRename.Ins.tag, CRename.arg1, Option.map_none, reduceCtorEq, if_false,
            false_and, CRename.wr, hm, Bool.false_eq_true]
        have hmv' := congrArg (Option.map fun r : X.M.World × Word => ((r.1, fun y => if y = one then r.2 else e y) : CStmt.S X.M)) hc
        exact (congrArg (fun o => Option.bind o fun x => some x) hmv').trans rfl
      simp only [CStmt.forTest]
      rw [h1]
      rfl

/-- The increment or the beginning of a `for`. -/
def OptX (base : Nat) (E : Option Expr) (P : Change nv0) : Prop :=
  ∀ X : Mc nv0, (∀ e, E = some e → e.Plain X.H) ∧ ∀ s s' t, P X s s' → Rel base s t → ∃ t', CStmt.fullOpt X.M X.H E t = some t' ∧ Rel base s' t'

theorem optX_none : OptX (nv0 := nv0) base none fun _ x y => y = x := by
  intro X
  refine ⟨(fun e h => by cases h), ?_⟩
  rintro s s' t rfl hr
  exact ⟨t, rfl, hr⟩

theorem optX_some {E : Expr} {P : Change nv0} (h : SimX (nv0 := nv0) base E P) : OptX (nv0 := nv0) base (some E) P := by
  intro X
  refine ⟨(fun e h' => by cases h'; exact (h X).1), fun s s' t hp hr => h.full X hp hr⟩

def chInit (U : CBody.Unit) (i : Init) : Change nv0 := fun X s s' => ExecInit X.C U.E U.decl i s s'
def chInc (U : CBody.Unit) : Option Asg → Change nv0
  | some a => chAsg U a
  | none => fun _ x y => y = x

theorem sim_for {i : Init} {c : Option CBody.Ors} {inc : Option Asg} {I C J : Option Expr} {one : Nat} {S : CStmt.Stmt} {a : CBody.Stmt} (hn : nv0 ≤ one)
    (hb : base ≤ one) (hi : OptX (nv0 := nv0) base I (chInit U i)) (hc : InitOk (valCond (nv0 := nv0) U) base c C) (hj : OptX (nv0 := nv0) base J (chInc U inc))
    (hJ : (∀ e, J = some e → e.straight = true) ∧ (CStmt.optCode J ≠ [] ∨ S.conts = false)) (hs : SimS (nv0 := nv0) base U S a) :
    SimS (nv0 := nv0) base U (.for_ I C one J S) (.for_ i c inc a) := by
  intro X
  have hc' : ∀ e, C = some e → e.Plain X.H := by
    rintro e rfl
    cases c with
    | none => exact hc.elim
    | some c => exact (hc X).1
  refine ⟨⟨(hi X).1, hc', X.K.outside one hn, fun e he => ⟨(hj X).1 e he, hJ.1 e he⟩, (hs X).1, ?_⟩, fun s o s' t he hr => ?_⟩
  · rcases hJ.2 with h | h
    · exact .inl h
    · exact .inr (.inl h)
  obtain ⟨s1, h1, h2⟩ := he
  obtain ⟨t1, h3, h4⟩ := (hi X).2 _ _ _ h1 hr
  have main : ∀ (test : SsaSem.State (machOf X.M X.H X.da X.load) → SsaSem.State (machOf X.M X.H X.da X.load) → Bool → Prop)
      (step : SsaSem.State (machOf X.M X.H X.da X.load) → SsaSem.State (machOf X.M X.H X.da X.load) → Prop),
      (∀ s s' b t, test s s' b → Rel base s t → ∃ t', CStmt.forTest X.M X.H C one t = some (t', b) ∧ Rel base s' t') →
      (∀ s s' t, step s s' → Rel base s t → ∃ t', CStmt.fullOpt X.M X.H J t = some t' ∧ Rel base s' t') →
      Loop test (Exec X.C U.E U.decl a) step s1 o s' → ∃ t' k, Rel base s' t' ∧ ∀ n, k ≤ n → iter (CStmt.forTurn X.M X.H C one J (exec X.M X.H n S)) n t1 = .ok o t' := by
    intro test step ht hs' hl
    exact turn_does (base := base) (M := machOf X.M X.H X.da X.load) (turn := fun n => CStmt.forTurn X.M X.H C one J (exec X.M X.H n S))
      (test' := CStmt.forTest X.M X.H C one) (body' := fun n => exec X.M X.H n S) (step' := CStmt.fullOpt X.M X.H J)
      (more := forMore X.M X.H J) (fun n t t' h => for_f h) (fun n t t' h => for_t h) (fun t t' h => forMore_some h) ht (hs X).2 hs' s1 o s' t1 hl h4
  have h5 := by
    cases c with
    | none =>
      cases inc with
      | none => exact main _ _ (fun s s' b t ht hr => for_sim hn hb hc X ht hr) (fun s s' t hq hr => (hj X).2 s s' t hq hr) h2
      | some a => exact main _ _ (fun s s' b t ht hr => for_sim hn hb hc X ht hr) (fun s s' t hq hr => (hj X).2 s s' t hq hr) h2
    | some c =>
      cases inc with
      | none => exact main _ _ (fun s s' b t ht hr => for_sim (c := some c) hn hb hc X ht hr) (fun s s' t hq hr => (hj X).2 s s' t hq hr) h2
      | some a => exact main _ _ (fun s s' b t ht hr => for_sim (c := some c) hn hb hc X ht hr) (fun s s' t hq hr => (hj X).2 s s' t hq hr) h2
  obtain ⟨t', k, h6, h7⟩ := h5
  refine ⟨t', k, h6, fun n hn => ?_⟩
  simp only [exec]
  rw [h3]
  exact h7 n hn

theorem do_does {M : SsaSem.Mach} {test : SsaSem.State M → SsaSem.State M → Bool → Prop} {body : SsaSem.State M → Out → SsaSem.State M → Prop}
    {test' : SsaSem.State M → Option (SsaSem.State M × Bool)} {body' : Nat → SsaSem.State M → Res (SsaSem.State M)} {turn : Nat → SsaSem.State M → Turn (SsaSem.State M)}
    {more : SsaSem.State M → Turn (SsaSem.State M)} (hturn : ∀ n t, turn n t = CStmt.bodyTurn more (body' n t))
    (hm1 : ∀ t t', test' t = some (t', true) → more t = .again t') (hm0 : ∀ t t', test' t = some (t', false) → more t = .done (.ok .normal t'))
    (ht : ∀ s s' b t, test s s' b → Rel base s t → ∃ t', test' t = some (t', b) ∧ Rel base s' t')
    (hb : Does base body' body) : Does base (fun n t => iter (turn n) n t) (DoLoop body test) := by
  intro s o s' t hl hr
  suffices h : ∃ t' k, Rel base s' t' ∧ ∀ n m, k ≤ n → k ≤ m → iter (turn n) m t = .ok o t' by
    obtain ⟨t', k, h1, h2⟩ := h
    exact ⟨t', k, h1, fun n hn => h2 n n hn hn⟩
  have fin : ∀ {s' : SsaSem.State M} {o : Out} {t : SsaSem.State M}, (∃ t' k, Rel base s' t' ∧ ∀ n, k ≤ n → turn n t = .done (.ok o t')) →
      ∃ t' k, Rel base s' t' ∧ ∀ n m, k ≤ n → k ≤ m → iter (turn n) m t = .ok o t' := by
    rintro s' o t ⟨t', k, h1, h2⟩
    refine ⟨t', k + 1, h1, fun n m hn hm => ?_⟩
    obtain ⟨m, rfl⟩ : ∃ m', m = m' + 1 := ⟨m - 1, by omega⟩
    simp only [iter, h2 n (by omega)]
  induction hl generalizing t with
  | stop hb' ho ht' =>
    obtain ⟨t1, k, h1, h2⟩ := hb _ _ _ _ hb' hr
    obtain ⟨t2, h3, h4⟩ := ht _ _ _ _ ht' h1
    refine fin ⟨t2, k, h4, fun n hn => ?_⟩
    rcases ho with rfl | rfl <;> (rw [hturn, h2 n hn]; exact hm0 _ _ h3)
  | brk hb' =>
    obtain ⟨t1, k, h1, h2⟩ := hb _ _ _ _ hb' hr
    exact fin ⟨t1, k, h1, fun n hn => by rw [hturn, h2 n hn]; rfl⟩
  | ret hb' =>
    obtain ⟨t1, k, h1, h2⟩ := hb _ _ _ _ hb' hr
    exact fin ⟨t1, k, h1, fun n hn => by rw [hturn, h2 n hn]; rfl⟩
  | again hb' ho ht' _ ih =>
    obtain ⟨t1, k1, h1, h2⟩ := hb _ _ _ _ hb' hr
    obtain ⟨t2, h3, h4⟩ := ht _ _ _ _ ht' h1
    obtain ⟨t', k2, h5, h6⟩ := ih t2 h4
    refine ⟨t', max k1 k2 + 1, h5, fun n m hn hm => ?_⟩
    obtain ⟨m, rfl⟩ : ∃ m', m = m' + 1 := ⟨m - 1, by omega⟩
    have h7 : turn n t = .again t2 := by
      rcases ho with rfl | rfl <;> (rw [hturn, h2 n (by omega)]; exact hm1 _ _ h3)
    simp only [iter, h7, h6 n m (by omega) (by omega)]

theorem sim_do {E : Expr} {c : CBody.Ors} {S : CStmt.Stmt} {a : CBody.Stmt} (h : SimV (nv0 := nv0) base E (valCond U c))
    (hs : SimS (nv0 := nv0) base U S a) : SimS (nv0 := nv0) base U (.doWhile S E) (.doWhile a c) := by
  intro X
  refine ⟨⟨(h X).1, (hs X).1⟩, fun s o s' t he hr => ?_⟩
  exact do_does (M := machOf X.M X.H X.da X.load) (turn := fun n => CStmt.doTurn X.M X.H (exec X.M X.H n S) E) (test' := CStmt.test X.M X.H E)
    (body' := fun n => exec X.M X.H n S) (more := doMore X.M X.H E) (fun n t => rfl) (fun t t' h => doMore_t h) (fun t t' h => doMore_f h) (fun s s' b t ht hr => h.test X ht hr) (hs X).2 s o s' t he hr

/-! ### `switch` -/

theorem simCs_nil {next : Nat} : SimCs (nv0 := nv0) base next U .nil .nil := by
  intro X
  refine ⟨fun v _ => trivial, fun x => rfl, fun v x s t hr => ⟨t, rfl, hr⟩, fun i s o s' t he hr => ?_⟩
  obtain ⟨rfl, rfl⟩ := he
  exact ⟨t, 0, hr, fun n _ => rfl⟩

theorem simCs_default {next : Nat} {B : CStmt.Stmts} {b : CBody.Stmts} (h : SimSs (nv0 := nv0) base U B b) :
    SimCs (nv0 := nv0) base next U (.cons none B .nil) (.cons none b .nil) := by
  intro X
  refine ⟨fun v _ => ⟨(fun k h' => by cases h'), (h X).1, trivial⟩, fun x => rfl, fun v x s t hr => ⟨t, rfl, hr⟩, fun i s o s' t he hr => ?_⟩
  cases i with
  | zero =>
    exact seq_does (h X).2 ((simCs_nil (U := U) (next := next) X).2.2.2 0) s o s' t he hr
  | succ i =>
    exact (simCs_nil (U := U) (next := next) X).2.2.2 i s o s' t he hr

theorem label_run (X : Mc nv0) (hn : nv0 ≤ base) {l : CStmt.Label} (hk : base ≤ l.k) (ht : base ≤ l.t) (v : Nat) {s t : CStmt.S X.M} (hr : Rel base s t) :
    ∃ t', CRename.run X.M X.H (l.code v) t = some t' ∧ Rel base s t' := by
  obtain ⟨w, e⟩ := t
  obtain ⟨rfl, hkp⟩ := hr
  have h1 := X.K.outside l.k (by omega)
  have h2 := X.K.outside l.t (by omega)
  have hc := X.K.std.const l.val "" none none s.1
  have s1 : CRename.step X.M X.H (CStmt.constIns l.k l.val) (s.1, e) = some (s.1, ExprGen.upd e l.k (BitVec.ofNat 32 l.val)) := by
    simp only [CRename.step, CStmt.constIns, CRename.Ins.tag, CRename.arg1, Option.map_none, reduceCtorEq, if_false, false_and, CRename.wr, h1, Bool.false_eq_true]
    exact congrArg (Option.map fun r : X.M.World × Word => ((r.1, fun y => if y = l.k then r.2 else e y) : CStmt.S X.M)) hc
  obtain ⟨x, hx⟩ : ∃ x, x = CRename.rd X.M X.H (s.1, ExprGen.upd e l.k (BitVec.ofNat 32 l.val)) l.k := ⟨_, rfl⟩
  obtain ⟨y, hy⟩ : ∃ y, y = CRename.rd X.M X.H (s.1, ExprGen.upd e l.k (BitVec.ofNat 32 l.val)) v := ⟨_, rfl⟩
  obtain ⟨u, hu⟩ : ∃ u, CArith.bin .eq x y = some u := ⟨_, rfl⟩
  have hb := X.K.std.bin .eq .eq 0 "" x y s.1 rfl
  rw [hu] at hb
  have s2 : CRename.step X.M X.H { op := .alu .eq, rd := some l.t, rs1 := some l.k, rs2 := some v } (s.1, ExprGen.upd e l.k (BitVec.ofNat 32 l.val)) =
      some (s.1, ExprGen.upd (ExprGen.upd e l.k (BitVec.ofNat 32 l.val)) l.t u) := by
    simp only [CRename.step, CRename.Ins.tag, CRename.arg1, Option.map_some, reduceCtorEq, if_false, false_and, CRename.wr, h2, Bool.false_eq_true, ← hx, ← hy]
    exact congrArg (Option.map fun r : X.M.World × Word => ((r.1, fun y => if y = l.t then r.2 else ExprGen.upd e l.k (BitVec.ofNat 32 l.val) y) : CStmt.S X.M)) hb
  refine ⟨(s.1, ExprGen.upd (ExprGen.upd e l.k (BitVec.ofNat 32 l.val)) l.t u), ?_, rfl, ?_⟩
  · simp only [CStmt.Label.code, CRename.run]
    rw [s1, Option.bind_some, s2]
    rfl
  · have k1 : Keeps base s.2 (ExprGen.upd e l.k (BitVec.ofNat 32 l.val)) := Keeps.trans hkp (keeps_up hk) (Nat.le_refl _)
    exact k1.trans (keeps_up ht) (Nat.le_refl _)

theorem simCs_case {next : Nat} {v : Word} {k t : Nat} {B : CStmt.Stmts} {b : CBody.Stmts} {R : CStmt.Cases} {r : CBody.Cases} (hn : nv0 ≤ base) (hb : base ≤ next)
    (hk : next ≤ k) (ht : next ≤ t) (h : SimSs (nv0 := nv0) base U B b) (hr : SimCs (nv0 := nv0) base next U R r) :
    SimCs (nv0 := nv0) base next U (.cons (some ⟨v.toNat, k, t⟩) B R) (.cons (some v) b r) := by
  intro X
  obtain ⟨h1, h2, h3, h4⟩ := hr X
  have hval : BitVec.ofNat 32 v.toNat = v := by simp
  refine ⟨fun x hx => ⟨?_, (h X).1, h1 x hx⟩, fun x => ?_, fun x y s q hq => ?_, fun i s o s' q he hq => ?_⟩
  · intro l hl
    cases hl
    exact ⟨X.K.outside k (by omega), X.K.outside t (by omega), by show k ≠ x; omega, by show t ≠ x; omega⟩
  · simp only [CStmt.pick, CBody.pick, hval, h2 x]
  · obtain ⟨q1, h5, h6⟩ := label_run X hn (l := ⟨v.toNat, k, t⟩) (by show base ≤ k; omega) (by show base ≤ t; omega) x hq
    simp only [CStmt.compares]
    rw [h5]
    simp only [Option.bind_some]
    by_cases hx : BitVec.ofNat 32 v.toNat = y
    · rw [if_pos hx]; exact ⟨q1, rfl, h6⟩
    · rw [if_neg hx]; exact h3 x y s q1 h6
  · cases i with
    | zero =>
      exact seq_does (h X).2 (h4 0) s o s' q he hq
    | succ i =>
      exact h4 i s o s' q he hq

section
variable {M : CRename.Mach} {H : Home Nat} {E : Expr} {CS : CStmt.Cases} {t t1 t2 : CStmt.S M} {v : Word} {n : Nat}

theorem switch_none (h1 : eval M H E t = some (t1, [])) (h2 : CRename.rd M H t1 E.res = v) (h3 : CStmt.compares M H E.res v CS t1 = some t2)
    (h4 : CStmt.pick v CS = none) : exec M H n (.switch_ E CS) t = .ok .normal t2 := by
  simp only [exec, h1, CRename.run, Option.bind_some, h2, h3, h4]

theorem switch_some (h1 : eval M H E t = some (t1, [])) (h2 : CRename.rd M H t1 E.res = v) (h3 : CStmt.compares M H E.res v CS t1 = some t2) {i : Nat}
    (h4 : CStmt.pick v CS = some i) {o : Out} {t' : CStmt.S M} (h5 : execFrom M H n CS i t2 = .ok o t') :
    exec M H n (.switch_ E CS) t = .ok (if o = .brk then .normal else o) t' := by
  simp only [exec, h1, CRename.run, Option.bind_some, h2, h3, h4, h5]
  cases o <;> rfl
end

theorem sim_switch {E : Expr} {c : CBody.Ors} {CS : CStmt.Cases} {cs : CBody.Cases} {next : Nat} (h : SimV (nv0 := nv0) base E (valCond U c)) (hE : E.res < next)
    (hs : SimCs (nv0 := nv0) base next U CS cs) (hne : CS ≠ .nil) : SimS (nv0 := nv0) base U (.switch_ E CS) (.switch_ c cs) := by
  intro X
  obtain ⟨h1, h2, h3, h4⟩ := hs X
  refine ⟨⟨(h X).1, hne, h1 _ hE⟩, fun s o s' t he hr => ?_⟩
  obtain ⟨w, v, hev, hp⟩ := he
  obtain ⟨e', h5, h6, h7⟩ := h.value X hev hr
  obtain ⟨t2, h8, h9⟩ := h3 E.res v (w, s.2) (w, e') ⟨rfl, h6⟩
  cases hpk : CBody.pick v cs with
  | none =>
    rw [hpk] at hp
    obtain ⟨rfl, rfl⟩ := hp
    exact ⟨t2, 0, h9, fun n _ => switch_none h5 h7 h8 (by rw [h2, hpk])⟩
  | some i =>
    rw [hpk] at hp
    obtain ⟨o1, hx, rfl⟩ := hp
    obtain ⟨t', k, h10, h11⟩ := h4 i _ _ _ _ hx h9
    exact ⟨t', k, h10, fun n hn => switch_some h5 h7 h8 (by rw [h2, hpk]) (h11 n hn)⟩

end Shecc.Body
