import Verif.Model.Body

/-!
# The bound on the depth of recursion only bounds

If the parser's functions read their input with some bound, they read it in the same way with any greater bound.
-/

namespace Shecc.Fuel
open Shecc.Parser (T)
open Shecc.ExprGen Shecc.Body

/-- If `a` is a result, `b` is the same. -/
def Le {α : Type} (a b : Option α) : Prop := ∀ r, a = some r → b = some r

theorem Le.refl {α : Type} (a : Option α) : Le a a := fun _ h => h
theorem Le.none {α : Type} (b : Option α) : Le none b := fun _ h => by cases h
theorem Le.trans {α : Type} {a b c : Option α} (h : Le a b) (h' : Le b c) : Le a c := fun r hr => h' r (h r hr)
theorem Le.bind {α β : Type} {a b : Option α} {f g : α → Option β} (h : Le a b) (hf : ∀ x, Le (f x) (g x)) : Le (a.bind f) (b.bind g) := by
  intro r hr
  obtain ⟨x, h1, h2⟩ := Option.bind_eq_some_iff.1 hr
  exact Option.bind_eq_some_iff.2 ⟨x, h x h1, hf x r h2⟩
theorem Le.map {α β : Type} {a b : Option α} (f : α → β) (h : Le a b) : Le (a.map f) (b.map f) := by
  intro r hr
  obtain ⟨x, h1, h2⟩ := Option.map_eq_some_iff.1 hr
  exact Option.map_eq_some_iff.2 ⟨x, h x h1, h2⟩

section
variable (N : Names)

structure Exprs (n : Nat) : Prop where
  operand : ∀ ts g, Le (operand N n ts g) (operand N (n + 1) ts g)
  operandBody : ∀ b ts g, Le (operandBody N n b ts g) (operandBody N (n + 1) b ts g)
  named : ∀ s ts g, Le (ExprGen.named N n s ts g) (ExprGen.named N (n + 1) s ts g)
  args : ∀ ts g k, Le (args N n ts g k) (args N (n + 1) ts g k)
  expr : ∀ ts g, Le (expr N n ts g) (expr N (n + 1) ts g)
  exprLoop : ∀ lg os ts g, Le (exprLoop N n lg os ts g) (exprLoop N (n + 1) lg os ts g)
  lvalue : ∀ e x v ts g, Le (lvalue N n e x v ts g) (lvalue N (n + 1) e x v ts g)
  access : ∀ st g ts, Le (access N n st g ts) (access N (n + 1) st g ts)
  lvEnd : ∀ st g ts, Le (lvEnd N n st g ts) (lvEnd N (n + 1) st g ts)
  sums : ∀ st g ts, Le (sums N n st g ts) (sums N (n + 1) st g ts)

theorem exprs (n : Nat) : Exprs N n := by
  induction n with
  | zero => constructor <;> intros <;> intro r h <;> cases h
  | succ n ih =>
    obtain ⟨i1, i2, i3, i4, i5, i6, i7, i8, i9, i10⟩ := ih
    constructor
    · intro ts g
      match ts with
      | [] => exact i2 _ _ _
      | (t, s) :: ts =>
        cases t
        case minus =>
          match ts with
          | [] => exact Le.none _
          | (t, s) :: ts => cases t <;> first | exact i2 _ _ _ | exact Le.none _
        all_goals exact i2 _ _ _
    · intro b ts g
      rw [ExprGen.operandBody.eq_def, ExprGen.operandBody.eq_def N (n + 1 + 1)]
      dsimp only
      split <;> repeat' first | with_reducible exact Le.refl _ | apply i1 | apply i3 | apply i5 | apply i7 | (refine Le.bind ?_ fun _ => ?_) | refine Le.map _ ?_ | split
    · intro s ts g
      rw [ExprGen.named.eq_def, ExprGen.named.eq_def N (n + 1 + 1)]
      dsimp only
      repeat' first | with_reducible exact Le.refl _ | apply i4 | apply i7 | (refine Le.bind ?_ fun _ => ?_) | refine Le.map _ ?_ | split
    · intro ts g k
      rw [ExprGen.args.eq_def, ExprGen.args.eq_def N (n + 1 + 1)]
      dsimp only
      repeat' first | with_reducible exact Le.refl _ | apply i4 | apply i5 | (refine Le.bind ?_ fun _ => ?_) | refine Le.map _ ?_ | split
    · intro ts g
      rw [ExprGen.expr.eq_def, ExprGen.expr.eq_def N (n + 1 + 1)]
      dsimp only
      repeat' first | with_reducible exact Le.refl _ | apply i1 | apply i6 | (refine Le.bind ?_ fun _ => ?_) | refine Le.map _ ?_ | split
    · intro lg os ts g
      rw [ExprGen.exprLoop.eq_def, ExprGen.exprLoop.eq_def N (n + 1 + 1)]
      dsimp only
      repeat' first | with_reducible exact Le.refl _ | apply i1 | apply i6 | (refine Le.bind ?_ fun _ => ?_) | refine Le.map _ ?_ | split
    · intro e x v ts g
      rw [ExprGen.lvalue.eq_def, ExprGen.lvalue.eq_def N (n + 1 + 1)]
      dsimp only
      repeat' first | with_reducible exact Le.refl _ | apply i8 | apply i9 | (refine Le.bind ?_ fun _ => ?_) | refine Le.map _ ?_ | split
    · intro st g ts
      rw [ExprGen.access.eq_def, ExprGen.access.eq_def N (n + 1 + 1)]
      dsimp only
      repeat' first | with_reducible exact Le.refl _ | apply i8 | apply i5 | (refine Le.bind ?_ fun _ => ?_) | refine Le.map _ ?_ | split
    · intro st g ts
      rw [ExprGen.lvEnd.eq_def, ExprGen.lvEnd.eq_def N (n + 1 + 1)]
      dsimp only
      repeat' first | with_reducible exact Le.refl _ | apply i10 | (refine Le.bind ?_ fun _ => ?_) | refine Le.map _ ?_ | split
    · intro st g ts
      rw [ExprGen.sums.eq_def, ExprGen.sums.eq_def N (n + 1 + 1)]
      dsimp only
      repeat' first | with_reducible exact Le.refl _ | apply i10 | apply i1 | (refine Le.bind ?_ fun _ => ?_) | refine Le.map _ ?_ | split

theorem assignment (n : Nat) (s : List Char) (ts : List T) (g : G) : Le (ExprGen.assignment N n s ts g) (ExprGen.assignment N (n + 1) s ts g) := by
  have i := exprs N n
  unfold ExprGen.assignment
  repeat' first | with_reducible exact Le.refl _ | apply i.lvalue | apply i.expr | (refine Le.bind ?_ fun _ => ?_) | refine Le.map _ ?_ | split

theorem prefixed (o : Op2) (n : Nat) (s : List Char) (ts : List T) (g : G) : Le (ExprGen.prefixed N o n s ts g) (ExprGen.prefixed N o (n + 1) s ts g) := by
  have i := exprs N n
  unfold ExprGen.prefixed
  refine Le.bind (Le.refl _) fun x => Le.bind (i.lvalue _ _ _ _ _) fun r => ?_
  dsimp only
  split
  · exact Le.refl _
  · split
    · exact Le.refl _
    · split
      · exact assignment N n s ts g
      · exact Le.refl _

end

section
variable (G : Glob)

theorem segment (n : Nat) (lg : Bool) (ts : List T) (st : St) : Le (Body.segment G n lg ts st) (Body.segment G (n + 1) lg ts st) := by
  have i := exprs (names G st) n
  unfold Body.segment
  repeat' first | with_reducible exact Le.refl _ | apply i.operand | apply i.exprLoop | (refine Le.bind ?_ fun _ => ?_) | refine Le.map _ ?_ | split

theorem ands (n : Nat) : ∀ (lg : Bool) (ts : List T) (st : St), Le (Body.ands G n lg ts st) (Body.ands G (n + 1) lg ts st) := by
  induction n with
  | zero => intros; exact Le.none _
  | succ n ih =>
    intro lg ts st
    rw [Body.ands.eq_def, Body.ands.eq_def G (n + 1 + 1)]
    dsimp only
    repeat' first | with_reducible exact Le.refl _ | apply ih | apply segment | (refine Le.bind ?_ fun _ => ?_) | refine Le.map _ ?_ | split

theorem ors (n : Nat) : ∀ (lg : Bool) (ts : List T) (st : St), Le (Body.ors G n lg ts st) (Body.ors G (n + 1) lg ts st) := by
  induction n with
  | zero => intros; exact Le.none _
  | succ n ih =>
    intro lg ts st
    rw [Body.ors.eq_def, Body.ors.eq_def G (n + 1 + 1)]
    dsimp only
    repeat' first | with_reducible exact Le.refl _ | apply ih | apply ands | (refine Le.bind ?_ fun _ => ?_) | refine Le.map _ ?_ | split

theorem rexpr (n : Nat) (ts : List T) (st : St) : Le (Body.rexpr G n ts st) (Body.rexpr G (n + 1) ts st) := by
  unfold Body.rexpr
  exact Le.map _ (ors G n _ _ _)

theorem expect {α : Type} (t : Lex.Tok) (ts : List T) {k k' : List T → Option α} (h : ∀ ts, Le (k ts) (k' ts)) : Le (Body.expect t ts k) (Body.expect t ts k') := by
  unfold Body.expect
  split
  · exact Le.refl _
  · split
    · exact h _
    · exact Le.refl _

theorem value (n : Nat) (ts : List T) (st : St) : Le (Body.value G n ts st) (Body.value G (n + 1) ts st) := by
  unfold Body.value
  refine Le.bind (rexpr G n _ _) fun c => ?_
  split
  · exact Le.bind (rexpr G n _ _) fun a => expect _ _ fun _ => Le.map _ (rexpr G n _ _)
  · exact Le.refl _

theorem initDecl (n : Nat) (first : Bool) (ty : List Char) (ts : List T) (st : St) : Le (Body.initDecl G n first ty ts st) (Body.initDecl G (n + 1) first ty ts st) := by
  unfold Body.initDecl
  refine Le.bind (Le.refl _) fun d => ?_
  simp only
  split
  · refine Le.map _ ?_
    split
    · exact value G n _ _
    · exact rexpr G n _ _
  · exact Le.refl _

theorem decls (n : Nat) : ∀ (first : Bool) (ty : List Char) (ts : List T) (st : St), Le (Body.decls G n first ty ts st) (Body.decls G (n + 1) first ty ts st) := by
  induction n with
  | zero => intros; exact Le.none _
  | succ n ih =>
    intro first ty ts st
    rw [Body.decls.eq_def, Body.decls.eq_def G (n + 1 + 1)]
    dsimp only
    repeat' first | with_reducible exact Le.refl _ | apply ih | apply initDecl | (refine Le.bind ?_ fun _ => ?_) | refine Le.map _ ?_ | split

theorem assign (n : Nat) (pre : Option Op2) (s : List Char) (ts : List T) (st : St) : Le (Body.assign G n pre s ts st) (Body.assign G (n + 1) pre s ts st) := by
  unfold Body.assign
  split
  · exact Le.bind (prefixed _ _ n s ts _) fun _ => Le.refl _
  · refine Le.bind (Le.refl _) fun x => Le.bind ((exprs _ n).lvalue _ _ _ _ _) fun r => ?_
    split
    · split
      · exact Le.map _ (value G n _ _)
      · exact Le.refl _
    · exact Le.bind (assignment _ n s ts _) fun _ => Le.refl _

theorem callStmt (n : Nat) (s : List Char) (ts : List T) (st : St) : Le (Body.callStmt G n s ts st) (Body.callStmt G (n + 1) s ts st) := by
  unfold Body.callStmt
  split
  · exact Le.bind ((exprs _ n).args _ _ _) fun _ => Le.refl _
  · exact Le.refl _

theorem forInit (n : Nat) (ts : List T) (st : St) : Le (Body.forInit G n ts st) (Body.forInit G (n + 1) ts st) := by
  unfold Body.forInit
  split
  · exact Le.refl _
  · refine Le.bind ?_ fun _ => Le.refl _
    split
    · exact Le.map _ (decls G n _ _ _ _)
    · exact assign G n _ _ _ _
  · exact Le.refl _

theorem forCond (n : Nat) (ts : List T) (st : St) : Le (Body.forCond G n ts st) (Body.forCond G (n + 1) ts st) := by
  unfold Body.forCond
  split
  · exact Le.refl _
  · exact Le.bind (rexpr G n _ _) fun _ => Le.refl _

theorem forInc (n : Nat) (ts : List T) (st : St) : Le (Body.forInc G n ts st) (Body.forInc G (n + 1) ts st) := by
  unfold Body.forInc
  split
  · exact Le.refl _
  · exact Le.bind (assign G n _ _ _ _) fun _ => Le.refl _
  · exact Le.bind (assign G n _ _ _ _) fun _ => Le.refl _
  · exact Le.bind (assign G n _ _ _ _) fun _ => Le.refl _
  · exact Le.refl _

theorem cond (n : Nat) (ts : List T) (st : St) : Le (Body.cond G n ts st) (Body.cond G (n + 1) ts st) := by
  unfold Body.cond
  exact expect _ _ fun _ => Le.bind (rexpr G n _ _) fun _ => Le.refl _

theorem named (n : Nat) (pre : Option Op2) (s : List Char) (ts : List T) (st : St) : Le (Body.named G n pre s ts st) (Body.named G (n + 1) pre s ts st) := by
  unfold Body.named
  refine Le.bind ?_ fun _ => Le.refl _
  split
  · exact Le.map _ (decls G n _ _ _ _)
  · split
    · exact Le.refl _
    · split
      · exact callStmt G n _ _ _
      · exact assign G n _ _ _ _

structure Stmts (n : Nat) : Prop where
  stmt : ∀ ts st, Le (stmt G n ts st) (stmt G (n + 1) ts st)
  items : ∀ ts st, Le (items G n ts st) (items G (n + 1) ts st)
  cases : ∀ ts st, Le (cases G n ts st) (cases G (n + 1) ts st)
  group : ∀ ts st, Le (group G n ts st) (group G (n + 1) ts st)

theorem stmts (n : Nat) : Stmts G n := by
  induction n with
  | zero => constructor <;> intros <;> intro r h <;> cases h
  | succ n ih =>
    obtain ⟨i1, i2, i3, i4⟩ := ih
    constructor
    · intro ts st
      rw [Body.stmt.eq_def, Body.stmt.eq_def G (n + 1 + 1)]
      dsimp only
      split <;> repeat' first | with_reducible exact Le.refl _ | apply i1 | apply i2 | apply i3 | apply cond | apply value | apply forInit | apply forCond | apply forInc | apply named | (refine Le.bind ?_ fun _ => ?_) | refine Le.map _ ?_ | (refine expect _ _ fun _ => ?_) | split
    · intro ts st
      rw [Body.items.eq_def, Body.items.eq_def G (n + 1 + 1)]
      dsimp only
      split <;> repeat' first | with_reducible exact Le.refl _ | apply i1 | apply i2 | (refine Le.bind ?_ fun _ => ?_) | refine Le.map _ ?_ | split
    · intro ts st
      rw [Body.cases.eq_def, Body.cases.eq_def G (n + 1 + 1)]
      dsimp only
      split <;> repeat' first | with_reducible exact Le.refl _ | apply i3 | apply i4 | (refine Le.bind ?_ fun _ => ?_) | refine Le.map _ ?_ | (refine expect _ _ fun _ => ?_) | split
    · intro ts st
      rw [Body.group.eq_def, Body.group.eq_def G (n + 1 + 1)]
      dsimp only
      split <;> repeat' first | with_reducible exact Le.refl _ | apply i1 | apply i4 | (refine Le.bind ?_ fun _ => ?_) | refine Le.map _ ?_ | split

/-- What is read with some bound is read in the same way with a greater one. -/
theorem funcBody {n m : Nat} (h : n ≤ m) (base nv : Nat) (d : List Char) (ts : List T) : Le (Body.funcBody G n base nv d ts) (Body.funcBody G m base nv d ts) := by
  induction h with
  | refl => exact Le.refl _
  | step _ ih =>
    refine ih.trans ?_
    unfold Body.funcBody
    exact expect _ _ fun _ => (stmts G _).items _ _

end

end Shecc.Fuel
