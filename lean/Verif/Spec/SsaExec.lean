import Verif.Spec.CStmt
import Verif.Model.Stmt
import Verif.Spec.SsaSource

/-!
# Specification: executing a control-flow graph over any kind of names

As `Spec/CStmt` does for the variables of the source, for functions in SSA form.
-/

namespace CExec
open CRename

/-- The successors and the code of the blocks. -/
structure Prog (X : Type) where
  next : Nat → Option Nat
  then_ : Nat → Option Nat
  else_ : Nat → Option Nat
  code : Nat → List (Ins X)

variable (M : Mach) {X : Type} [DecidableEq X] (H : Home X)

/-- Block, position in it, state. -/
structure Conf (M : Mach) (X : Type) where
  b : Nat
  i : Nat
  s : State M X

/-- One step: an instruction, a branch on whether its operand is zero, or the way from the end of a block to the next one. -/
def Prog.step (F : Prog X) (c : Conf M X) : Option (Conf M X) :=
  match (F.code c.b)[c.i]? with
  | none => (F.next c.b).map fun b => ⟨b, 0, c.s⟩
  | some i =>
    if i.op = .branch then
      match i.rs1 with
      | none => none
      | some v => (if rd M H c.s v ≠ 0 then F.then_ c.b else F.else_ c.b).map fun b => ⟨b, 0, c.s⟩
    else (CRename.step M H i c.s).map fun s => ⟨c.b, c.i + 1, s⟩

/-- `n` steps. -/
inductive Prog.Steps (F : Prog X) : Nat → Conf M X → Conf M X → Prop
  | refl (c : Conf M X) : Prog.Steps F 0 c c
  | step {n : Nat} {c d e : Conf M X} (h : F.step M H c = some d) (t : Prog.Steps F n d e) : Prog.Steps F (n + 1) c e

end CExec

namespace Shecc.SsaBuild
open CRename

/-- A function with the given code for its blocks. -/
def Fn.prog (f : Fn) {X : Type} (code : Nat → List (Ins X)) : CExec.Prog X where
  next := fun b => (f.g.block b).next
  then_ := fun b => (f.g.block b).then_
  else_ := fun b => (f.g.block b).else_
  code := code

/-- A branch can only be the last instruction of a block. -/
def Fn.BranchLast (f : Fn) : Prop := ∀ b xs i ys, f.code b = xs ++ i :: ys → i.op = .branch → ys = []

/-- The function has the graph and the code that the translation of its body built. -/
structure Fn.Holds (f : Fn) (P : Stmt.PS) : Prop where
  entry : f.g.entry = 0
  exit : f.g.exit = 1
  block : f.g.block = P.block
  code : f.code = P.code

end Shecc.SsaBuild
