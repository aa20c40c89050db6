import Verif.Spec.IrMachine

/-!
# Specification: meaning of the instructions of one block

Instructions that transfer control (calls, branches, jumps, returns, frame set-up) are events: the state in which they
are reached is recorded, and execution continues in any state whatever (the callee may do anything).
-/

namespace IrM
open Shecc

/-- Instructions that do not transfer control. -/
def Plain (ir : Ph2Ir) : Prop :=
  ir.op ≠ .call ∧ ir.op ≠ .indirect ∧ ir.op ≠ .branch ∧ ir.op ≠ .jump ∧ ir.op ≠ .ret ∧
    ir.op ≠ .define

instance (ir : Ph2Ir) : Decidable (Plain ir) := by unfold Plain; infer_instance

/-- A control transfer: the instruction, the state before, the state in which execution of the block goes on. -/
structure Event where
  ir : Ph2Ir
  before : State
  after : State

/-- Running the instructions of a block from `s` to `u`, with the given events. -/
inductive Exec (A : Abi) : List Ph2Ir → State → List Event → State → Prop
  | nil (s) : Exec A [] s [] s
  | plain {ir is s t es u} (nxt : Word) (hp : Plain ir) (h : Step A ir nxt s t) (r : Exec A is t es u) :
      Exec A (ir :: is) s es u
  | ctrl {ir is s t es u} (hp : ¬ Plain ir) (r : Exec A is t es u) : Exec A (ir :: is) s (⟨ir, s, t⟩ :: es) u

/-- Same stack, frame pointers, memory, and same value in every register outside `D`; a call target that is set up in
the first is set up in the second (the program counter is not compared: fused code has other addresses). -/
def SameBut (D : BitVec 3 → Prop) (s t : State) : Prop :=
  (∀ q, ¬ D q → s.reg q = t.reg q) ∧ s.sp = t.sp ∧ s.gp = t.gp ∧ s.ra = t.ra ∧ s.mem = t.mem ∧
    (s.callee = none ∨ s.callee = t.callee)

/-- Same control transfers, reached in states that differ at most in registers not live there, and continuing in the
same states. -/
def SameEvents (live : Ph2Ir → BitVec 3 → Prop) : List Event → List Event → Prop
  | [], [] => True
  | e :: es, f :: fs =>
    e.ir = f.ir ∧ SameBut (fun q => ¬ live e.ir q) e.before f.before ∧ e.after = f.after ∧ SameEvents live es fs
  | _, _ => False

/-- `live ir q`: register `q` matters to the control transfer `ir`; `out q`: it matters at the end of the block.
Two instruction lists mean the same from two states if each run of the first is matched by one of the second. -/
def Simulates (A : Abi) (live : Ph2Ir → BitVec 3 → Prop) (out : BitVec 3 → Prop) (is : List Ph2Ir) (s : State)
    (is' : List Ph2Ir) (s' : State) : Prop :=
  ∀ es u, Exec A is s es u →
    ∃ es' u', Exec A is' s' es' u' ∧ SameEvents live es es' ∧ SameBut (fun q => ¬ out q) u u'

/-- Register `r` is dead before `is`: changing it changes nothing that matters. -/
def DeadBefore (A : Abi) (live : Ph2Ir → BitVec 3 → Prop) (out : BitVec 3 → Prop) (r : BitVec 3)
    (is : List Ph2Ir) : Prop :=
  ∀ s s', SameBut (fun q => q = r) s s' → Simulates A live out is s is s'

/-- The registers an instruction that does not transfer control reads. -/
def Reads (ir : Ph2Ir) (q : BitVec 3) : Prop :=
  match ir.op with
  | .load_constant | .load_data_address | .address_of | .global_address_of | .load | .global_load => False
  | .assign | .negate | .bit_not | .log_not | .read | .store | .global_store | .address_of_func | .load_func =>
    isReg ir.src0 q
  | _ => isReg ir.src0 q ∨ isReg ir.src1 q

/-- The registers it writes. -/
def Writes (ir : Ph2Ir) (q : BitVec 3) : Prop :=
  match ir.op with
  | .store | .global_store | .write | .address_of_func | .load_func => False
  | _ => isReg ir.dest q

/-- The memory left by a division, and whether it is possible, depend on the two operands, the stack pointer and memory
only (true of both targets). -/
def Abi.DivLocal (A : Abi) : Prop :=
  ∀ s t : State, ∀ a b, s.reg a = t.reg a → s.reg b = t.reg b → s.sp = t.sp → s.mem = t.mem →
    A.divMem s a b = A.divMem t a b ∧ ∀ o, A.divOk o s a b → A.divOk o t a b

end IrM
