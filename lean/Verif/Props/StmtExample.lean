import Verif.Props.Stmt

/-!
# C73, C74: an example, and what the translation does outside the part of the language proved correct
-/

namespace Shecc.Props
open Shecc.Stmt
open CRename (Ins Mach Home run Word)
open CStmt

/-- A machine that calculates; the world is the value returned. -/
def calcMach : Mach where
  World := Option Word
  get := fun _ _ => 0
  set := fun w _ _ => w
  act := fun t a b w =>
    match t.op, a, b with
    | .load_constant, _, _ => some (w, BitVec.ofNat 32 t.sz)
    | .assign, some x, _ => some (w, x)
    | .alu .eq, some x, some y => some (w, if x = y then 1 else 0)
    | .alu .lt, some x, some y => some (w, if x.slt y then 1 else 0)
    | .alu .add, some x, some y => some (w, x + y)
    | .alu .sub, some x, some y => some (w, x - y)
    | .ret, x, _ => some (x, 0)
    | _, _, _ => none

def calcHome : Home Nat := ⟨fun _ => false, fun _ => 0⟩

theorem calc_basic : Basic calcMach :=
  ⟨fun _ _ _ _ _ => rfl, fun _ _ _ _ _ => rfl, fun _ _ _ _ _ => rfl⟩

/-! Abbreviations for the source: variables are numbers. -/

def vE (x : Nat) : Expr := .comp .nil [] x []
def kE (k r : Nat) : Expr := .comp .nil [constIns r k] r []
def binE (op : Shecc.Op2) (a b : Expr) (r : Nat) : Expr :=
  .comp (.cons a (.cons b .nil)) [{ op := .alu op, rd := some r, rs1 := some a.res, rs2 := some b.res }] r []
def setE (x : Nat) (e : Expr) : Expr := .comp (.cons e .nil) [moveIns x e.res] x []
/-- `x++` as `read_lvalue` reads it (src/parser.c:1511-1546): the value is the variable, the increment is left pending. -/
def incE (x one new : Nat) : Expr :=
  .comp .nil [] x [constIns one 1, { op := .alu .add, rd := some new, rs1 := some x, rs2 := some one }, moveIns x new]
def tmps (k : Nat) : Nat → Tmp := fun i => ⟨k + 3 * i, k + 3 * i + 1, k + 3 * i + 2⟩
def seqS : List Stmt → Stmts
  | [] => .nil
  | s :: ss => .cons s (seqS ss)

/-- `s = 0; for (i = 0; i < n; i = i + 1) { switch (i) { case 1: continue; case 3: break; case 4: default: s = s + i; }
if (i == 5 || s && i == 7) break; else ; s = s + (i < 2 ? 10 : 20); } do { s = s - 1; } while (100 < s); return s;`
with `n`, `s`, `i` the variables 0, 1, 2. -/
def sample : Stmts := seqS [
  .expr (setE 1 (kE 0 10)),
  .for_ (some (setE 2 (kE 0 11))) (some (binE .lt (vE 2) (vE 0) 12)) 13 (some (setE 2 (binE .add (vE 2) (kE 1 14) 15))) (.block (seqS [
    .switch_ (vE 2) (.cons (some ⟨1, 16, 17⟩) (seqS [.cont]) (.cons (some ⟨3, 18, 19⟩) (seqS [.brk]) (.cons (some ⟨4, 20, 21⟩) .nil
      (.cons none (seqS [.expr (setE 1 (binE .add (vE 1) (vE 2) 22))]) .nil)))),
    .iteElse (.logic (.more (.one (binE .eq (vE 2) (kE 5 23) 24)) (.one (.more (vE 1) (.one (binE .eq (vE 2) (kE 7 25) 26))))) (tmps 30))
      .brk .empty,
    .expr (setE 1 (binE .add (vE 1) (.tern (binE .lt (vE 2) (kE 2 40) 41) (kE 10 42) (kE 20 43) 44) 45))])),
  .doWhile (.block (seqS [.expr (setE 1 (binE .sub (vE 1) (kE 1 46) 47))])) (binE .lt (kE 100 48) (vE 1) 49),
  .ret (some (vE 1))]

def start (f : Nat → Nat) : S calcMach := (none, fun v => BitVec.ofNat 32 (f v))

/-- The value a body returns, as C prescribes. -/
def returned (n : Nat) (b : Stmts) (σ : S calcMach) : Option Word :=
  match execs calcMach calcHome n b σ with
  | .ok _ σ' => σ'.1
  | _ => none

/-- Steps of a graph, as far as they are possible. -/
def after (F : Prog) : Nat → Conf calcMach → Conf calcMach
  | 0, c => c
  | n + 1, c =>
    match F.step calcMach calcHome c with
    | none => c
    | some d => after F n d

theorem after_steps (F : Prog) : ∀ n c, ∃ k, F.Steps calcMach calcHome k c (after F n c) := by
  intro n
  induction n with
  | zero => intro c; exact ⟨0, .refl c⟩
  | succ n ih =>
    intro c
    simp only [after]
    split
    · exact ⟨0, .refl c⟩
    · rename_i d hd
      obtain ⟨k, hk⟩ := ih d
      exact ⟨k + 1, .step hd hk⟩

/-- The value the graph of a body returns: the one at the exit block. -/
def graphReturned (n : Nat) (b : Stmts) (σ : S calcMach) : Option (Option Word) :=
  (lowerFn b).bind fun P =>
    let c := after P.prog n ⟨0, 0, σ⟩
    if c.b = 1 then some c.s.1 else none

/-- Where execution of the graph stops, and whether it does. -/
def stopped (n : Nat) (b : Stmts) (σ : S calcMach) : Option (Nat × Bool) :=
  (lowerFn b).map fun P =>
    let c := after P.prog n ⟨0, 0, σ⟩
    (c.b, (P.prog.step calcMach calcHome c).isNone && (P.code 1).isEmpty && (P.block 1).next.isNone)

/-- An execution that stops elsewhere never reaches the exit. -/
theorem stopped_never {n : Nat} {b : Stmts} {σ : S calcMach} {q : Nat} (h : stopped n b σ = some (q, true)) (hq : q ≠ 1) :
    ∃ P, lowerFn b = some P ∧ ∀ k σ', ¬ P.prog.Steps calcMach calcHome k ⟨0, 0, σ⟩ ⟨1, 0, σ'⟩ := by
  unfold stopped at h
  rw [Option.map_eq_some_iff] at h
  obtain ⟨P, hP, h⟩ := h
  simp only [Prod.mk.injEq, Bool.and_eq_true, Option.isNone_iff_eq_none, List.isEmpty_iff] at h
  obtain ⟨h1, ⟨h2, h3⟩, h4⟩ := h
  refine ⟨P, hP, ?_⟩
  intro k σ' hst
  obtain ⟨j, hj⟩ := after_steps P.prog n ⟨0, 0, σ⟩
  have he : P.prog.step calcMach calcHome ⟨1, 0, σ'⟩ = none := by
    have hc : (P.prog.code 1)[0]? = none := by
      show (P.code 1)[0]? = none
      rw [h3]; rfl
    have hn : P.prog.next 1 = none := h4
    unfold Prog.step
    simp only [hc, hn, Option.map_none]
  have := steps_end hst hj he h2
  rw [← this] at h1
  exact hq h1.symm

/-- The graph reaches the exit, having returned this value. -/
theorem graphReturned_steps {n : Nat} {b : Stmts} {σ : S calcMach} {w : Option Word} (h : graphReturned n b σ = some w) :
    ∃ P c k, lowerFn b = some P ∧ P.prog.Steps calcMach calcHome k ⟨0, 0, σ⟩ c ∧ c.b = 1 ∧ c.s.1 = w := by
  unfold graphReturned at h
  rw [Option.bind_eq_some_iff] at h
  obtain ⟨P, hP, h⟩ := h
  simp only at h
  split at h
  · rename_i hb
    obtain ⟨k, hk⟩ := after_steps P.prog n ⟨0, 0, σ⟩
    exact ⟨P, _, k, hP, hk, hb, Option.some.inj h⟩
  · cases h

/-- The hypotheses of C73 hold of this body, which ends, and the graph returns the same value. -/
example : sample.Ok calcHome ∧ (∀ i, (tmps 30 i).Ok calcHome) ∧ (lowerFn sample).map (·.n) = some 34 ∧
    returned 200 sample (start fun v => if v = 0 then 12 else 0) = some 80 ∧
    graphReturned 1000 sample (start fun v => if v = 0 then 12 else 0) = some (some 80) := by
  refine ⟨?_, fun _ => ⟨rfl, rfl, rfl⟩, by decide +kernel, by decide +kernel, by decide +kernel⟩
  simp [sample, seqS, Stmts.Ok, Stmt.Ok, Cases.Ok, Label.Ok, Expr.Plain, Expr.Good, CStmt.Simple, CStmt.simple, Exprs.Good, Ors.Good, Ands.Good, Expr.noSe,
    Exprs.noSe, Ors.noSe, Ands.noSe, setE, vE, kE, binE, constIns, moveIns, calcHome, Tmp.Ok, Expr.straight, Exprs.straight, optCode,
    Expr.code, Exprs.code, Expr.res]

/-! ### What is missing -/

/-- **C73**, what is missing: `return x++;` returns the new value (C: the old one). -/
theorem C73_return_increment_wrong :
    let b := seqS [.ret (some (incE 0 1 2))]
    returned 9 b (start fun _ => 5) = some 5 ∧ graphReturned 9 b (start fun _ => 5) = some (some 6) := by
  refine ⟨?_, ?_⟩ <;> decide +kernel

/-- **C73**, what is missing: in `if (x++) y = x; return y;` the condition's side effect happens after the assignment (C: before it). -/
theorem C73_condition_increment_wrong :
    let b := seqS [.ite (incE 0 2 3) (.expr (setE 1 (vE 0))), .ret (some (vE 1))]
    returned 9 b (start fun _ => 5) = some 6 ∧ graphReturned 30 b (start fun _ => 5) = some (some 5) := by
  refine ⟨?_, ?_⟩ <;> decide +kernel

/-- **C74**, what is missing: in `y = x && z++; return z;` the increment happens although `x` is zero. -/
theorem C74_operand_increment_wrong :
    let b := seqS [.expr (setE 1 (.logic (.one (.more (vE 0) (.one (incE 2 3 4)))) (tmps 10))), .ret (some (vE 2))]
    returned 9 b (start fun v => if v = 2 then 7 else 0) = some 7 ∧
      graphReturned 30 b (start fun v => if v = 2 then 7 else 0) = some (some 8) := by
  refine ⟨?_, ?_⟩ <;> decide +kernel

/-- **C74**, what is missing: `return c ? (a && b) : d;` with `c`, `a` and `b` 1 is stuck in a block without successor (C: 1). -/
theorem C74_nested_ternary_wrong :
    let b := seqS [.ret (some (.tern (vE 0) (.logic (.one (.more (vE 1) (.one (vE 2)))) (tmps 10)) (vE 3) 4))]
    returned 9 b (start fun _ => 1) = some 1 ∧
      ∃ P, lowerFn b = some P ∧ ∀ k σ', ¬ P.prog.Steps calcMach calcHome k ⟨0, 0, start fun _ => 1⟩ ⟨1, 0, σ'⟩ := by
  refine ⟨by decide +kernel, stopped_never (n := 30) (q := 8) (by decide +kernel) (by decide)⟩

/-- **C73**, what is missing: `for (; x < 9; x = (x && 1) + 9) ; return x;`: the increment is not executed up to its end (C: returns 9
or 10). -/
theorem C73_for_increment_wrong :
    let b := seqS [.for_ none (some (binE .lt (vE 0) (kE 9 1) 2)) 3
      (some (setE 0 (binE .add (.logic (.one (.more (vE 0) (.one (kE 1 4)))) (tmps 10)) (kE 9 5) 6))) .empty, .ret (some (vE 0))]
    returned 9 b (start fun v => if v = 0 then 5 else 0) = some 10 ∧ graphReturned 99 b (start fun v => if v = 0 then 5 else 0) = some (some 9) := by
  refine ⟨?_, ?_⟩ <;> decide +kernel

/-- **C73**, what is missing: `for (; x < 9; ) { if (x < 3) { x = 9; continue; } break; } return x;` is stuck (C: returns 9). -/
theorem C73_for_continue_wrong :
    let b := seqS [.for_ none (some (binE .lt (vE 0) (kE 9 1) 2)) 3 none (.block (seqS [
      .ite (binE .lt (vE 0) (kE 3 4) 5) (.block (seqS [.expr (setE 0 (kE 9 6)), .cont])), .brk])), .ret (some (vE 0))]
    returned 9 b (start fun _ => 1) = some 9 ∧
      ∃ P, lowerFn b = some P ∧ ∀ k σ', ¬ P.prog.Steps calcMach calcHome k ⟨0, 0, start fun _ => 1⟩ ⟨1, 0, σ'⟩ := by
  refine ⟨by decide +kernel, stopped_never (n := 60) (q := 5) (by decide +kernel) (by decide)⟩

/-- **C73**, what is missing: `switch (x) { } return x;` is stuck or crashes the compiler (C: returns `x`). -/
theorem C73_empty_switch_wrong :
    let b := seqS [.switch_ (vE 0) .nil, .ret (some (vE 0))]
    returned 9 b (start fun _ => 1) = some 1 ∧ graphReturned 30 b (start fun _ => 1) = none := by
  refine ⟨?_, ?_⟩ <;> decide +kernel

/-- **C73**, what is missing: a control statement after a `return` makes the compiler abort. -/
theorem C73_dead_code_aborts :
    let b := seqS [.ret (some (vE 0)), .while_ (vE 0) .empty]
    returned 9 b (start fun _ => 1) = some 1 ∧ (lowerFn b).isNone = true := by
  refine ⟨?_, ?_⟩ <;> decide +kernel

end Shecc.Props
