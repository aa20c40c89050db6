import Verif.Spec.RV32
import Verif.Spec.IrMachine

/-!
# Specification vocabulary for the RISC-V back end
-/

namespace RV32

/-- A register number as the C `int` handed to an encoder. -/
abbrev r32 (r : Reg) : BitVec 32 := r.setWidth 32

/-- The architectural register that holds IR register `k` (0..7): a0 .. a7. -/
def irReg (k : BitVec 3) : Reg := 10 + k.setWidth 5

/-- The temporaries t0,t1,t2,t3,t4,t5 (x5,x6,x7,x28,x29,x30): never hold a program value across IR instructions. -/
def scratch (r : Reg) : Bool := r == 5 || r == 6 || r == 7 || r == 28 || r == 29 || r == 30

/-- Executing the words `ws`, placed at the current pc, in any machine state in which `f` is defined, terminates at
the end of `ws` with the value of `f` in register `rd`, every other non-scratch register unchanged and memory
unchanged. -/
def Computes (ws : List Word) (rd : Reg) (f : State → Option Word) : Prop :=
  ∀ (c : Code) (s : State) (v : Word), CodeAt c s.pc ws → f s = some v →
    ∃ t, Reaches c s t ∧ t.pc = s.pc + BitVec.ofNat 32 (4 * ws.length) ∧ t.get rd = v ∧
      (∀ q, q ≠ rd → scratch q = false → t.get q = s.get q) ∧ t.mem = s.mem

open Shecc in
/-- The ABI of the RISC-V target as seen by the IR machine. -/
def rvAbi (env : EmitEnv) : IrM.Abi where
  blockAddr b := env.codeStart + env.bbOfs b
  funcAddr n := (env.funcOfs n).map (env.codeStart + ·)
  dataAddr := env.dataStart
  byteVal b := b.signExtend 32
  raSlot _ := 0
  divMem s _ _ := s.mem
  divOk _ _ _ _ := True
  retRa t _ := t

/-- A machine state represents an IR state. -/
structure Sim (s : IrM.State) (m : State) : Prop where
  reg : ∀ k, m.get (irReg k) = s.reg k
  sp : m.get 2#5 = s.sp
  gp : m.get 3#5 = s.gp
  ra : m.get 1#5 = s.ra
  callee : ∀ v, s.callee = some v → m.get 5#5 = v
  mem : m.mem = s.mem
  pc : m.pc = s.pc

end RV32
