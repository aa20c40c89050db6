import Verif.Model.Ph2
import Verif.Spec.CArith

/-!
# Specification: meaning of second-phase IR

An abstract machine for the register-allocated IR, independent of any instruction encoding: eight registers, a stack
pointer, a global-frame pointer, a return-address register, a pending call target, and byte-addressed memory.
Instructions live at addresses; `Abi` says where blocks, functions and data are, and fixes the points in which the
two targets differ.

`Step` is a relation: an instruction may have no successor (undefined behaviour, e.g. division by zero).
-/

namespace IrM
open Shecc

abbrev Word := BitVec 32
abbrev Mem := Word → BitVec 8

def load32 (m : Mem) (a : Word) : Word := m (a + 3) ++ m (a + 2) ++ m (a + 1) ++ m a
def store8 (m : Mem) (a : Word) (v : BitVec 8) : Mem := fun b => if b = a then v else m b
/-- little-endian word store -/
def store32 (m : Mem) (a v : Word) : Mem :=
  store8 (store8 (store8 (store8 m a (v.extractLsb' 0 8)) (a + 1) (v.extractLsb' 8 8)) (a + 2) (v.extractLsb' 16 8))
    (a + 3) (v.extractLsb' 24 8)

structure State where
  reg : BitVec 3 → Word
  sp : Word
  gp : Word
  ra : Word
  /-- call target set up by `load_func`, consumed by the `indirect` that follows it -/
  callee : Option Word
  mem : Mem
  pc : Word

inductive DivMod | div | mod
  deriving DecidableEq

structure Abi where
  /-- address of a basic block -/
  blockAddr : Nat → Word
  /-- address of a function -/
  funcAddr : String → Option Word
  /-- address of the data section -/
  dataAddr : Word
  /-- value of a byte load (plain `char` is signed or unsigned depending on the target) -/
  byteVal : BitVec 8 → Word
  /-- where in a frame of the given stack size the return address is kept, relative to the new stack pointer -/
  raSlot : Word → Word
  /-- memory after a division or modulo of two registers: software division may spill below the stack pointer -/
  divMem : State → BitVec 3 → BitVec 3 → Mem
  /-- when the target can divide (modulo) these two registers in this state -/
  divOk : DivMod → State → BitVec 3 → BitVec 3 → Prop
  /-- what a return leaves in the return-address register, given the address returned to and the address after the
  return instruction -/
  retRa : Word → Word → Word

def setReg (s : State) (d : BitVec 3) (v : Word) : State :=
  { s with reg := fun q => if q = d then v else s.reg q }

/-- IR register number carried by an instruction field. -/
def isReg (x : Word) (k : BitVec 3) : Prop := x = k.setWidth 32

def binOf : Op2 → Option CArith.BinOp
  | .add => some .add | .sub => some .sub | .mul => some .mul | .div => some .div | .mod => some .mod
  | .lshift => some .shl | .rshift => some .shr | .eq => some .eq | .neq => some .ne | .lt => some .lt
  | .leq => some .le | .gt => some .gt | .geq => some .ge | .bit_or => some .or | .bit_and => some .and
  | .bit_xor => some .xor | _ => none

def unOf : Op2 → Option CArith.UnOp
  | .negate => some .neg | .bit_not => some .bnot | .log_not => some .lnot | _ => none

def divModOf : CArith.BinOp → Option DivMod
  | .div => some .div | .mod => some .mod | _ => none

/-- `m'` is `m` except possibly in the `n` bytes below `sp`. -/
def SameAbove (n : Nat) (sp : Word) (m m' : Mem) : Prop :=
  ∀ a : Word, m' a ≠ m a → (sp - 1 - a).toNat < n

/-- The effect of one instruction; `nxt` is the address of the following instruction. -/
inductive Step (A : Abi) (ir : Ph2Ir) (nxt : Word) : State → State → Prop
  | bin {s op d a b v} (hop : binOf ir.op = some op) (hd : isReg ir.dest d) (ha : isReg ir.src0 a)
      (hb : isReg ir.src1 b) (hv : CArith.bin op (s.reg a) (s.reg b) = some v)
      (hdm : ∀ o, divModOf op = some o → A.divOk o s a b) :
      Step A ir nxt s
        { setReg s d v with
          callee := none
          mem := if (divModOf op).isSome then A.divMem s a b else s.mem
          pc := nxt }
  | un {s op d a} (hop : unOf ir.op = some op) (hd : isReg ir.dest d) (ha : isReg ir.src0 a) :
      Step A ir nxt s { setReg s d (CArith.un op (s.reg a)) with callee := none, pc := nxt }
  | assign {s d a} (hop : ir.op = .assign) (hd : isReg ir.dest d) (ha : isReg ir.src0 a) :
      Step A ir nxt s { setReg s d (s.reg a) with callee := none, pc := nxt }
  | const {s d} (hop : ir.op = .load_constant) (hd : isReg ir.dest d) :
      Step A ir nxt s { setReg s d ir.src0 with callee := none, pc := nxt }
  | data {s d} (hop : ir.op = .load_data_address) (hd : isReg ir.dest d) :
      Step A ir nxt s { setReg s d (A.dataAddr + ir.src0) with callee := none, pc := nxt }
  | addr {s d} (hop : ir.op = .address_of) (hd : isReg ir.dest d) :
      Step A ir nxt s { setReg s d (s.sp + ir.src0) with callee := none, pc := nxt }
  | gaddr {s d} (hop : ir.op = .global_address_of) (hd : isReg ir.dest d) :
      Step A ir nxt s { setReg s d (s.gp + ir.src0) with callee := none, pc := nxt }
  | load {s d} (hop : ir.op = .load) (hd : isReg ir.dest d) :
      Step A ir nxt s { setReg s d (load32 s.mem (s.sp + ir.src0)) with callee := none, pc := nxt }
  | gload {s d} (hop : ir.op = .global_load) (hd : isReg ir.dest d) :
      Step A ir nxt s { setReg s d (load32 s.mem (s.gp + ir.src0)) with callee := none, pc := nxt }
  | store {s a} (hop : ir.op = .store) (ha : isReg ir.src0 a) :
      Step A ir nxt s { s with mem := store32 s.mem (s.sp + ir.src1) (s.reg a), callee := none, pc := nxt }
  | gstore {s a} (hop : ir.op = .global_store) (ha : isReg ir.src0 a) :
      Step A ir nxt s { s with mem := store32 s.mem (s.gp + ir.src1) (s.reg a), callee := none, pc := nxt }
  | read4 {s d a} (hop : ir.op = .read) (hs : ir.src1 = 4#32) (hd : isReg ir.dest d) (ha : isReg ir.src0 a) :
      Step A ir nxt s { setReg s d (load32 s.mem (s.reg a)) with callee := none, pc := nxt }
  | read1 {s d a} (hop : ir.op = .read) (hs : ir.src1 = 1#32) (hd : isReg ir.dest d) (ha : isReg ir.src0 a) :
      Step A ir nxt s { setReg s d (A.byteVal (s.mem (s.reg a))) with callee := none, pc := nxt }
  | write4 {s a b} (hop : ir.op = .write) (hs : ir.dest = 4#32) (ha : isReg ir.src0 a) (hb : isReg ir.src1 b) :
      Step A ir nxt s { s with mem := store32 s.mem (s.reg a) (s.reg b), callee := none, pc := nxt }
  | write1 {s a b} (hop : ir.op = .write) (hs : ir.dest = 1#32) (ha : isReg ir.src0 a) (hb : isReg ir.src1 b) :
      Step A ir nxt s { s with mem := store8 s.mem (s.reg a) ((s.reg b).setWidth 8), callee := none, pc := nxt }
  | branch {s a} (hop : ir.op = .branch) (ha : isReg ir.src0 a) :
      Step A ir nxt s
        { s with callee := none, pc := if s.reg a ≠ 0#32 then A.blockAddr ir.then_bb else A.blockAddr ir.else_bb }
  | jump {s} (hop : ir.op = .jump) :
      Step A ir nxt s { s with callee := none, pc := A.blockAddr ir.next_bb }
  | call {s t} (hop : ir.op = .call) (ht : A.funcAddr ir.func_name = some t) :
      Step A ir nxt s { s with callee := none, ra := nxt, pc := t }
  | addrFunc {s a t} (hop : ir.op = .address_of_func) (ht : A.funcAddr ir.func_name = some t)
      (ha : isReg ir.src0 a) :
      Step A ir nxt s { s with callee := none, mem := store32 s.mem (s.reg a) t, pc := nxt }
  | loadFunc {s a} (hop : ir.op = .load_func) (ha : isReg ir.src0 a) :
      Step A ir nxt s { s with callee := some (s.reg a), pc := nxt }
  -- only defined for word-aligned targets
  | indirect {s t} (hop : ir.op = .indirect) (ht : s.callee = some t) (hal : t.toNat % 4 = 0) :
      Step A ir nxt s { s with callee := none, ra := nxt, pc := t }
  -- allocate a frame of `src0` bytes plus the saved return address
  | define {s} (hop : ir.op = .define) :
      Step A ir nxt s
        { s with
          callee := none
          sp := s.sp - (ir.src0 + 4)
          mem := store32 s.mem (s.sp - (ir.src0 + 4) + A.raSlot ir.src0) s.ra
          pc := nxt }
  -- return value in register 0, release the frame of `src1` bytes, go back (word-aligned address)
  | ret {s v t} (hop : ir.op = .ret)
      (hv : (ir.src0 = -1#32 ∧ v = s.reg 0) ∨ ∃ a, isReg ir.src0 a ∧ v = s.reg a)
      (ht : t = load32 s.mem (s.sp + A.raSlot ir.src1)) (hal : t.toNat % 4 = 0) :
      Step A ir nxt s { setReg s 0 v with callee := none, sp := s.sp + (ir.src1 + 4), ra := A.retRa t nxt, pc := t }

/-- A located program: at an address, an instruction and the address of the next one. -/
abbrev Program := Word → Ph2Ir → Word → Prop

/-- One step of a located program. -/
def PStep (A : Abi) (P : Program) (s t : State) : Prop := ∃ ir nxt, P s.pc ir nxt ∧ Step A ir nxt s t

inductive Run (A : Abi) (P : Program) : State → State → Prop
  | refl (s) : Run A P s s
  | tail {s t u} : Run A P s t → PStep A P t u → Run A P s u

end IrM
