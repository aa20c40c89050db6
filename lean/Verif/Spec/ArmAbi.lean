import Verif.Spec.Arm
import Verif.Spec.IrMachine
import Verif.Model.Layout

/-!
# Specification vocabulary for the ARM back end
-/

namespace ARM

/-- The architectural register that holds IR register `k` (0..7): r0 .. r7. -/
def irReg (k : BitVec 3) : Reg := k.setWidth 4

/-- r8, r9, r10: never hold a program value across IR instructions. -/
def scratch (r : Reg) : Bool := r == 8 || r == 9 || r == 10

/-- Executing the words `ws`, placed at the current pc, in any machine state in which `f` is defined, terminates at
the end of `ws` with the value of `f` in register `rd`, every other non-scratch register r0..r14 unchanged and the
memory `g` says.  Flags are not preserved. -/
def ComputesMem (ws : List Word) (rd : Reg) (f : State → Option Word) (g : State → IrM.Mem) : Prop :=
  ∀ (c : Code) (s : State) (v : Word), CodeAt c s.pc ws → f s = some v →
    ∃ t, Reaches c s t ∧ t.pc = s.pc + BitVec.ofNat 32 (4 * ws.length) ∧ t.get rd = v ∧
      (∀ q, q ≠ rd → q ≠ 15#4 → scratch q = false → t.get q = s.get q) ∧ t.mem = g s

/-- `ComputesMem` with memory unchanged. -/
def Computes (ws : List Word) (rd : Reg) (f : State → Option Word) : Prop := ComputesMem ws rd f (·.mem)

/-- Memory after the two operand registers `a`, `b` with values `x`, `y` have been spilled below `sp` (lower-numbered
register at the lower address; once if they are the same register). -/
def spill (m : IrM.Mem) (sp : Word) (a b : BitVec 3) (x y : Word) : IrM.Mem :=
  if a < b then IrM.store32 (IrM.store32 m (sp - 8#32) x) (sp - 4#32) y
  else if b < a then IrM.store32 (IrM.store32 m (sp - 8#32) y) (sp - 4#32) x
  else IrM.store32 m (sp - 4#32) x

open Shecc in
/-- The ABI of the ARM target as seen by the IR machine.  Without the hardware divider, a division spills its operand
registers below the stack pointer, needs a word-aligned stack pointer, and does not support dividing a register by
itself (see `C14_same_register_wrong`). -/
def armAbi (env : EmitEnv) : IrM.Abi where
  blockAddr b := env.codeStart + env.bbOfs b
  funcAddr n := (env.funcOfs n).map (env.codeStart + ·)
  dataAddr := env.dataStart
  byteVal b := b.setWidth 32
  raSlot stack := stack
  divMem s a b := if env.hardMulDiv then s.mem else spill s.mem s.sp a b (s.reg a) (s.reg b)
  divOk o s a b := env.hardMulDiv = true ∨ (s.sp.toNat % 4 = 0 ∧ (o = .div → a ≠ b))
  retRa _ nxt := nxt

/-- A machine state represents an IR state. -/
structure Sim (s : IrM.State) (m : State) : Prop where
  reg : ∀ k, m.get (irReg k) = s.reg k
  sp : m.get 13#4 = s.sp
  gp : m.get 12#4 = s.gp
  ra : m.get 14#4 = s.ra
  callee : ∀ v, s.callee = some v → m.get 8#4 = v
  mem : m.mem = s.mem
  pc : m.pc = s.pc

end ARM

namespace Shecc

/-- What the ARM back end silently assumes of the instructions of a block whose successor in the code is `next`:
no register is assigned to itself; a branch is the last instruction, not marked detached before code generation, and
one of its two targets is the next block. -/
def Block.ArmOk (b : Block) (next : Option Nat) : Prop :=
  ∀ xs ir zs, b.insns = xs ++ ir :: zs →
    (ir.op = .assign → ir.dest ≠ ir.src0) ∧
    (ir.op = .branch → zs = [] ∧ ir.is_branch_detached = false ∧ (next = some ir.else_bb ∨ next = some ir.then_bb))

/-- The same for a whole program; the global initialisers do not branch. -/
structure Prog.ArmOk (P : Prog) : Prop where
  globals : ∀ ir ∈ P.globalInsns, ir.op ≠ .branch ∧ (ir.op = .assign → ir.dest ≠ ir.src0)
  blocks : ∀ f ∈ P.fns, ∀ pre b post, f.blocks = pre ++ b :: post → b.ArmOk (post.head?.map (·.id))

end Shecc
