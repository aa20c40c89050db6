import Verif.Model.Ssa
import Verif.Spec.IrMachine

/-!
# Specification: meaning of first-phase instructions over byte memory, and of straight-line second-phase code

Global variables live in memory; other variables have values of their own.  `hidden` are the bytes the compiler keeps for
itself (spill slots of the frame, memory below the stack pointer): the source program neither reads nor writes them.
-/

namespace SrcBlock
open Shecc Shecc.Ssa IrM

structure Ctx where
  isGlobal : Nat → Bool
  /-- constant attached to a variable -/
  initVal : Nat → Word
  /-- address of a global -/
  gaddr : Nat → Word
  /-- no storage of its own in memory (an `int`, `char`, ... that is not an array) -/
  basic : Nat → Bool
  /-- address of the storage of a local array or structure -/
  objAddr : Nat → Word
  dataAddr : Word
  byteVal : BitVec 8 → Word
  hidden : Word → Prop
  /-- what a call does: callee, arguments, memory before, memory after, result (`none`: no value is returned) -/
  call : String → List Word → Mem → Mem → Option Word → Prop

structure St where
  mem : Mem
  val : Nat → Word
  /-- arguments pushed so far -/
  args : List Word := []
  /-- result of the last call -/
  ret : Option Word := none

variable (C : Ctx)

def rd (s : St) (v : Nat) : Word := if C.isGlobal v then load32 s.mem (C.gaddr v) else s.val v

def wr (s : St) (v : Nat) (x : Word) : St :=
  if C.isGlobal v then { s with mem := store32 s.mem (C.gaddr v) x }
  else { s with val := fun u => if u = v then x else s.val u }

/-- The `n` bytes at `a` are not hidden. -/
def Vis (a : Word) (n : Nat) : Prop := ∀ k, k < n → ¬ C.hidden (a + BitVec.ofNat 32 k)

/-- A write at the address held in a global variable, or of the value of one, does not change that variable itself. -/
def Apart (m m' : Mem) (v : Nat) : Prop := C.isGlobal v = true → load32 m' (C.gaddr v) = load32 m (C.gaddr v)

inductive Step : Insn → St → St → Prop
  | const {i s d} (ho : i.op = .load_constant) (hd : i.rd = some d) : Step i s (wr C s d (C.initVal d))
  | data {i s d} (ho : i.op = .load_data_address) (hd : i.rd = some d) : Step i s (wr C s d (C.dataAddr + C.initVal d))
  | assign {i s d a} (ho : i.op = .assign) (hd : i.rd = some d) (ha : i.rs1 = some a) : Step i s (wr C s d (rd C s a))
  | phi {i s d a} (ho : i.op = .unwound_phi) (hd : i.rd = some d) (ha : i.rs1 = some a) : Step i s (wr C s d (rd C s a))
  | bin {i s o op d a b v} (ho : i.op = .alu o) (hop : binOf o = some op) (hd : i.rd = some d) (ha : i.rs1 = some a)
      (hb : i.rs2 = some b) (hv : CArith.bin op (rd C s a) (rd C s b) = some v) : Step i s (wr C s d v)
  | un {i s o op d a} (ho : i.op = .alu o) (hop : unOf o = some op) (hd : i.rd = some d) (ha : i.rs1 = some a) :
      Step i s (wr C s d (CArith.un op (rd C s a)))
  | read4 {i s d a} (ho : i.op = .read) (hs : i.sz = 4) (hd : i.rd = some d) (ha : i.rs1 = some a)
      (hv : Vis C (rd C s a) 4) : Step i s (wr C s d (load32 s.mem (rd C s a)))
  | read1 {i s d a} (ho : i.op = .read) (hs : i.sz = 1) (hd : i.rd = some d) (ha : i.rs1 = some a)
      (hv : Vis C (rd C s a) 1) : Step i s (wr C s d (C.byteVal (s.mem (rd C s a))))
  | write4 {i s a b m} (ho : i.op = .write) (hs : i.sz = 4) (ha : i.rs1 = some a) (hb : i.rs2 = some b)
      (hv : Vis C (rd C s a) 4) (hm : m = store32 s.mem (rd C s a) (rd C s b)) (h1 : Apart C s.mem m a)
      (h2 : Apart C s.mem m b) : Step i s { s with mem := m }
  | write1 {i s a b m} (ho : i.op = .write) (hs : i.sz = 1) (ha : i.rs1 = some a) (hb : i.rs2 = some b)
      (hv : Vis C (rd C s a) 1) (hm : m = store8 s.mem (rd C s a) ((rd C s b).setWidth 8)) (h1 : Apart C s.mem m a)
      (h2 : Apart C s.mem m b) : Step i s { s with mem := m }
  | gaddr {i s d a} (ho : i.op = .address_of) (hd : i.rd = some d) (ha : i.rs1 = some a) (hg : C.isGlobal a = true) :
      Step i s (wr C s d (C.gaddr a))
  | declare {i s d} (ho : i.op = .allocat) (hd : i.rd = some d) (hb : C.basic d = true) : Step i s s
  | object {i s d} (ho : i.op = .allocat) (hd : i.rd = some d) (hb : C.basic d = false) : Step i s (wr C s d (C.objAddr d))
  | push {i s a} (ho : i.op = .push) (ha : i.rs1 = some a) : Step i s { s with args := s.args ++ [rd C s a] }
  | call {i s m r} (ho : i.op = .call) (hc : C.call i.str s.args s.mem m r) :
      Step i s { s with mem := m, args := [], ret := r }
  | funcRet {i s d x} (ho : i.op = .func_ret) (hd : i.rd = some d) (hx : s.ret = some x) : Step i s (wr C s d x)

/-- A sequence of instructions. -/
inductive Run : List Insn → St → St → Prop
  | nil (s) : Run [] s s
  | cons {i is s t u} (h : Step C i s t) (hr : Run is t u) : Run (i :: is) s u

/-- Instructions after which the next one is executed. -/
def straight : Op2 → Bool
  | .define | .call | .indirect | .ret | .branch | .jump | .load_func => false
  | _ => true

/-- Straight-line second-phase code, numbered from `n`; a call is given by what it does to the machine (`tcall n f`: the call of
`f` that is instruction `n`), every other instruction by the machine itself. -/
inductive TRun (A : Abi) (tcall : Nat → String → State → State → Prop) : Nat → List Ph2Ir → State → State → Prop
  | nil {n} (t) : TRun A tcall n [] t t
  | step {n ir irs nxt t u v} (hc : straight ir.op = true) (h : IrM.Step A ir nxt t u) (hr : TRun A tcall (n + 1) irs u v) :
      TRun A tcall n (ir :: irs) t v
  | call {n ir irs t u v} (hc : ir.op = .call) (h : tcall n ir.func_name t u) (hr : TRun A tcall (n + 1) irs u v) :
      TRun A tcall n (ir :: irs) t v

end SrcBlock
