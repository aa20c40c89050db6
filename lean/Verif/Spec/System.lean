import Verif.Spec.IrMachine
import Verif.Spec.RV32
import Verif.Spec.Arm

/-!
# Specification: system calls and whole executions

`Os n args mem r mem'`: the operating system may answer system call `n` with arguments `args` in memory `mem` with
result `r`, leaving memory `mem'`.  It is an arbitrary relation.
-/

namespace IrM

abbrev Os := Word → (Fin 6 → Word) → Mem → Word → Mem → Prop

/-- A call of `__syscall(n, a1, .., a6)`, entered at address `sys`: the number is in register 0 and the arguments in
registers 1..6; it returns to the caller with the result in register 0 (and leaves the shifted arguments in the
caller-saved registers). -/
def SysStep (os : Os) (sys : Word) (s t : State) : Prop :=
  s.pc = sys ∧ s.ra.toNat % 4 = 0 ∧ ∃ r mem',
    os (s.reg 0) (fun i => s.reg (BitVec.ofNat 3 (i.val + 1))) s.mem r mem' ∧
    t = { s with
          reg := fun k => if k = 0 then r else if k = 7 then s.reg 0 else if k = 6 then s.reg 6 else s.reg (k + 1)
          mem := mem'
          callee := none
          pc := s.ra }

/-- Executions with system calls. -/
inductive XRun (A : Abi) (P : Program) (os : Os) (sys : Word) : State → State → Prop
  | refl (s) : XRun A P os sys s s
  | tail {s t u} : XRun A P os sys s t → PStep A P t u → XRun A P os sys s u
  | sys {s t u} : XRun A P os sys s t → SysStep os sys t u → XRun A P os sys s u

/-- Entering `main(argc, argv)`: the loader put `argc` at the initial stack pointer (`G` bytes above the global frame)
and the `argv` array after it. -/
def enterMain (G main : Word) (s : State) : State :=
  { s with
    reg := fun k => if k = 0 then load32 s.mem (s.gp + G) else if k = 1 then s.gp + G + 4 else s.reg k
    callee := none
    pc := main }

/-- A terminating execution of a program: global initialisers, then `main`, whose result is `v`. -/
def Execution (A : Abi) (P : Program) (os : Os) (sys G jump main exit : Word) (s : State) (v : Word) (mem : Mem) :
    Prop :=
  ∃ s1 s2, XRun A P os sys s s1 ∧ s1.pc = jump ∧ XRun A P os sys (enterMain G main s1) s2 ∧ s2.pc = exit ∧
    v = s2.reg 0 ∧ mem = s2.mem

/-- An execution up to a state in the middle of `main`. -/
def Reached (A : Abi) (P : Program) (os : Os) (sys G jump main : Word) (s t : State) : Prop :=
  XRun A P os sys s t ∨
    ∃ s1, XRun A P os sys s s1 ∧ s1.pc = jump ∧ XRun A P os sys (enterMain G main s1) t

end IrM

namespace RV32

/-- Executions with environment calls (Linux: number in a7, arguments in a0..a5, result in a0, all other registers
preserved). -/
inductive SysReaches (c : Code) (os : IrM.Os) : State → State → Prop
  | refl (s) : SysReaches c os s s
  | next {s t u} : SysReaches c os s t → step c t = .next u → SysReaches c os s u
  | call {s t t' r mem'} : SysReaches c os s t → step c t = .ecall t' →
      os (t'.get 17#5) (fun i => t'.get (BitVec.ofNat 5 (i.val + 10))) t'.mem r mem' →
      SysReaches c os s { t'.set 10#5 r with mem := mem', pc := t'.pc + 4 }

end RV32

namespace ARM

/-- Executions with supervisor calls (Linux EABI: number in r7, arguments in r0..r5, result in r0, all other registers
and the flags preserved). -/
inductive SysReaches (c : Code) (os : IrM.Os) : State → State → Prop
  | refl (s) : SysReaches c os s s
  | next {s t u} : SysReaches c os s t → step c t = .next u → SysReaches c os s u
  | call {s t t' r mem'} : SysReaches c os s t → step c t = .svc t' →
      os (t'.get 7#4) (fun i => t'.get (BitVec.ofNat 4 i.val)) t'.mem r mem' →
      SysReaches c os s { t'.set 0#4 r with mem := mem', pc := t'.pc + 4 }

end ARM
