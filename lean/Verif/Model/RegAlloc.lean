import Verif.Model.Ssa

/-!
# Model of register allocation (src/reg-alloc.c)

Variables (`var_t *`) are numbers.  The allocator's mutable data are the register file `REGS`, the `offset` and `consumed`
fields of variables, the frame size, the two counters of a block and the emitted instructions.
Frame sizes and offsets are natural numbers; the theorems about them assume that they fit an `int`.
-/

namespace Shecc.RegAlloc
open Shecc.Ssa

/-- `REG_CNT` (src/defs.h:52). -/
def regCnt : Nat := 8

/-- `align_size` (src/reg-alloc.c:22-25), on C `int`. -/
def alignSize (i : BitVec 32) : BitVec 32 := if i.sle 4#32 then 4#32 else (i + 3#32) &&& ~~~ 3#32

/-- The fields of variables that allocation only reads (src/defs.h:186-210): `is_global`, `is_func`, `init_val`,
`var_name`; `basic` is "type `void`, `int`, `char` or `_Bool`, and not an array" (src/reg-alloc.c:361-366) and `objSize` the
argument of `align_size` in the `OP_allocat` case (src/reg-alloc.c:372-384). -/
structure Vars where
  isGlobal : Nat → Bool := fun _ => false
  isFunc : Nat → Bool := fun _ => false
  initVal : Nat → BitVec 32 := fun _ => 0
  name : Nat → String := fun _ => ""
  basic : Nat → Bool := fun _ => true
  objSize : Nat → Nat := fun _ => 0
  /-- `find_func(name)->num_params`; `none`: unknown function -/
  numParams : String → Option Nat := fun _ => none

/-- The fields of a block that allocation reads. -/
structure Block where
  liveOut : List Nat := []
  killed : List Nat := []
  next : Option Nat := none
  then_ : Nat := 0
  else_ : Nat := 0

structure RA where
  /-- `REGS[i].var` -/
  var : Nat → Option Nat := fun _ => none
  /-- `REGS[i].polluted` -/
  pol : Nat → Bool := fun _ => false
  /-- `offset`; 0 = none yet -/
  offset : Nat → Nat := fun _ => 0
  consumed : Nat → Int := fun _ => -1
  stack : Nat := 4
  pushing : Bool := false
  args : Nat := 0
  out : List Ph2Ir := []

def upd {α : Type} (f : Nat → α) (i : Nat) (x : α) : Nat → α := fun j => if j = i then x else f j

def num (n : Nat) : BitVec 32 := BitVec.ofNat 32 n

/-- `bb_add_ph2_ir` (src/reg-alloc.c:50-62). -/
def RA.emit (st : RA) (ir : Ph2Ir) : RA := { st with out := st.out ++ [ir] }

/-- Assigning `REGS[i].var` and `REGS[i].polluted`. -/
def RA.setReg (st : RA) (i : Nat) (v : Option Nat) (p : Bool) : RA := { st with var := upd st.var i v, pol := upd st.pol i p }

/-- `REGS[i].var = NULL` alone. -/
def RA.clear (st : RA) (i : Nat) : RA := { st with var := upd st.var i none }

/-- A frame slot for a variable that has none (src/reg-alloc.c:75-78, 352-355, 410-413). -/
def RA.ensureSlot (st : RA) (v : Nat) : RA :=
  if st.offset v = 0 then { st with offset := upd st.offset v st.stack, stack := st.stack + 4 } else st

/-- First register satisfying a test (the `for` loops over `REG_CNT`). -/
def firstReg (p : Nat → Bool) : Option Nat := (List.range regCnt).find? p

/-- `refresh` (src/reg-alloc.c:36-48) for one register. -/
def refresh1 (B : Block) (idx : Int) (st : RA) (i : Nat) : RA :=
  match st.var i with
  | none => st
  | some v => if v ∈ B.liveOut then st else if st.consumed v < idx then st.setReg i none false else st

/-- `refresh` (src/reg-alloc.c:36-48). -/
def refresh (B : Block) (idx : Int) (st : RA) : RA := (List.range regCnt).foldl (refresh1 B idx) st

/-- The store emitted by `spill_var` (src/reg-alloc.c:79-82). -/
def storeIr (V : Vars) (ofs : Nat) (v i : Nat) : Ph2Ir :=
  { op := if V.isGlobal v then .global_store else .store
    src0 := num i
    src1 := num ofs }

/-- `spill_var` (src/reg-alloc.c:68-85). -/
def spillVar (V : Vars) (v i : Nat) (st : RA) : RA :=
  if st.pol i then
    let st := st.ensureSlot v
    (st.emit (storeIr V (st.offset v) v i)).setReg i none false
  else st.clear i

/-- `find_in_regs` (src/reg-alloc.c:88-95). -/
def findReg (st : RA) (v : Nat) : Option Nat := firstReg fun i => st.var i == some v

/-- A register without a variable (src/reg-alloc.c:113-118, 153-159). -/
def freeReg (st : RA) : Option Nat := firstReg fun i => st.var i == none

/-- The load emitted by `load_var` (src/reg-alloc.c:99-102). -/
def loadIr (V : Vars) (ofs : Nat) (v i : Nat) : Ph2Ir :=
  { op := if V.isGlobal v then .global_load else .load
    src0 := num ofs
    dest := num i }

/-- `load_var` (src/reg-alloc.c:97-105). -/
def loadVar (V : Vars) (v i : Nat) (st : RA) : RA := (st.emit (loadIr V (st.offset v) v i)).setReg i (some v) false

/-- A register holding a live-out variable, other than the given ones (src/reg-alloc.c:120-128, 161-172). -/
def liveOutReg (B : Block) (st : RA) (a b : Option Nat) : Option Nat :=
  firstReg fun i => some i != a && some i != b &&
    match st.var i with
    | none => false
    | some v => decide (v ∈ B.liveOut)

/-- `REGS[i].var->consumed`; only called when every register holds a variable. -/
def consumedAt (st : RA) (i : Nat) : Int :=
  match st.var i with
  | none => 0
  | some v => st.consumed v

/-- The farthest-use search (src/reg-alloc.c:131-138, 175-186). -/
def farthest (st : RA) (a b : Option Nat) : Nat :=
  (List.range regCnt).foldl
    (fun sp i => if some i = a ∨ some i = b then sp else if consumedAt st i > consumedAt st sp then i else sp) 0

/-- `spill_var(bb, REGS[i].var, i)`. -/
def spillReg (V : Vars) (i : Nat) (st : RA) : RA :=
  match st.var i with
  | none => st
  | some v => spillVar V v i st

/-- `prepare_operand` (src/reg-alloc.c:107-143). -/
def prepareOperand (V : Vars) (B : Block) (v : Nat) (op0 : Option Nat) (st : RA) : RA × Nat :=
  match findReg st v with
  | some i => (st, i)
  | none =>
    match freeReg st with
    | some i => (loadVar V v i st, i)
    | none =>
      match liveOutReg B st op0 none with
      | some i => (loadVar V v i (spillReg V i st), i)
      | none =>
        let i := farthest st none none
        (loadVar V v i (spillReg V i st), i)

/-- `prepare_dest` (src/reg-alloc.c:145-193). -/
def prepareDest (V : Vars) (B : Block) (v : Nat) (op0 op1 : Option Nat) (st : RA) : RA × Nat :=
  match findReg st v with
  | some i => ({ st with pol := upd st.pol i true }, i)
  | none =>
    match freeReg st with
    | some i => (st.setReg i (some v) true, i)
    | none =>
      match liveOutReg B st op0 op1 with
      | some i => ((spillReg V i st).setReg i (some v) true, i)
      | none =>
        let i := farthest st op0 op1
        ((spillReg V i st).setReg i (some v) true, i)

/-- `spill_alive` (src/reg-alloc.c:195-209) for one register. -/
def spillAlive1 (V : Vars) (B : Block) (idx : Int) (st : RA) (i : Nat) : RA :=
  match st.var i with
  | none => st
  | some v => if v ∈ B.liveOut then spillVar V v i st else if st.consumed v > idx then spillVar V v i st else st

/-- `spill_alive` (src/reg-alloc.c:195-209). -/
def spillAlive (V : Vars) (B : Block) (idx : Int) (st : RA) : RA := (List.range regCnt).foldl (spillAlive1 V B idx) st

/-- `spill_live_out` (src/reg-alloc.c:211-228) for one register. -/
def spillLiveOut1 (V : Vars) (B : Block) (st : RA) (i : Nat) : RA :=
  match st.var i with
  | none => st
  | some v =>
    if v ∈ B.liveOut then if v ∈ B.killed then spillVar V v i st else st.setReg i none false else st.setReg i none false

/-- `spill_live_out` (src/reg-alloc.c:211-228). -/
def spillLiveOut (V : Vars) (B : Block) (st : RA) : RA := (List.range regCnt).foldl (spillLiveOut1 V B) st

/-- `extend_liveness` (src/reg-alloc.c:231-237). -/
def extendLiveness (B : Block) (idx : Int) (v : Nat) (ofs : Nat) (st : RA) : RA :=
  if v ∈ B.liveOut then st
  else if idx + ofs > st.consumed v then { st with consumed := upd st.consumed v (idx + ofs) } else st

/-- The immediate store of a global after an assignment (src/reg-alloc.c:401-406, 449-454). -/
def storeGlobal (V : Vars) (v d : Nat) (st : RA) : RA :=
  if V.isGlobal v then
    { st.emit { op := .global_store, src0 := num d, src1 := num (st.offset v) } with pol := upd st.pol d false }
  else st

/-- The stores of a variable that gets its slot when its address is taken (src/reg-alloc.c:414-419). -/
def storeEach (st : RA) (v : Nat) : List Nat → RA → RA
  | [], acc => acc
  | i :: is, acc =>
    storeEach st v is
      (if st.var i = some v then acc.emit { op := .store, src0 := num i, src1 := num (st.offset v) } else acc)

def isBinOp : Op2 → Bool
  | .add | .sub | .mul | .div | .mod | .lshift | .rshift | .eq | .neq | .gt | .geq | .lt | .leq
  | .bit_and | .bit_or | .bit_xor => true
  | _ => false

def isUnOp : Op2 → Bool
  | .negate | .bit_not | .log_not => true
  | _ => false

/-- `OP_unwound_phi` (src/reg-alloc.c:348-360). -/
def allocPhi (V : Vars) (B : Block) (d a : Nat) (st : RA) : RA :=
  let r := prepareOperand V B a none st
  let st := r.1.ensureSlot d
  st.emit { op := .store, src0 := num r.2, src1 := num (st.offset d) }

/-- `OP_allocat` (src/reg-alloc.c:361-389). -/
def allocAllocat (V : Vars) (B : Block) (d : Nat) (st : RA) : RA :=
  if V.basic d then st
  else
    let obj := st.stack + 4
    let r := prepareDest V B d none none
      { st with offset := upd st.offset d st.stack, stack := obj + (alignSize (num (V.objSize d))).toNat }
    r.1.emit { op := .address_of, src0 := num obj, dest := num r.2 }

/-- `OP_load_constant` and `OP_load_data_address` (src/reg-alloc.c:390-408). -/
def allocConst (V : Vars) (B : Block) (op : Op2) (d : Nat) (st : RA) : RA :=
  if st.consumed d = -1 then st
  else
    let r := prepareDest V B d none none st
    storeGlobal V d r.2 (r.1.emit { op := op, src0 := V.initVal d, dest := num r.2 })

/-- `OP_address_of` (src/reg-alloc.c:409-430). -/
def allocAddressOf (V : Vars) (B : Block) (d a : Nat) (st : RA) : RA :=
  let st := if st.offset a = 0 then storeEach (st.ensureSlot a) a (List.range regCnt) (st.ensureSlot a) else st
  let r := prepareDest V B d none none st
  r.1.emit
    { op := if V.isGlobal a then .global_address_of else .address_of
      src0 := num (r.1.offset a)
      dest := num r.2 }

/-- `OP_assign` (src/reg-alloc.c:431-459). -/
def allocAssign (V : Vars) (B : Block) (d a : Nat) (st : RA) : RA :=
  if st.consumed d = -1 then st
  else
    let clearReg := (findReg st a).isNone
    let r := prepareOperand V B a none st
    let q := prepareDest V B d (some r.2) none r.1
    let st := storeGlobal V d q.2 (q.1.emit { op := .assign, src0 := num r.2, dest := num q.2 })
    if clearReg then st.clear r.2 else st

/-- `OP_read` (src/reg-alloc.c:460-467). -/
def allocRead (V : Vars) (B : Block) (sz d a : Nat) (st : RA) : RA :=
  let r := prepareOperand V B a none st
  let q := prepareDest V B d (some r.2) none r.1
  q.1.emit { op := .read, src0 := num r.2, src1 := num sz, dest := num q.2 }

/-- `OP_write` (src/reg-alloc.c:468-486). -/
def allocWrite (V : Vars) (B : Block) (idx : Int) (sz a b : Nat) (st : RA) : RA :=
  if V.isFunc b then
    let r := prepareOperand V B a none st
    r.1.emit { op := .address_of_func, src0 := num r.2, func_name := V.name b }
  else
    let r := prepareOperand V B a none (spillAlive V B idx st)
    let q := prepareOperand V B b (some r.2) r.1
    q.1.emit { op := .write, src0 := num r.2, src1 := num q.2, dest := num sz }

/-- `OP_branch` (src/reg-alloc.c:487-498). -/
def allocBranch (V : Vars) (B : Block) (a : Nat) (st : RA) : RA :=
  let r := prepareOperand V B a none st
  (spillLiveOut V B r.1).emit { op := .branch, src0 := num r.2, then_bb := B.then_, else_bb := B.else_ }

/-- `OP_push` (src/reg-alloc.c:499-513). -/
def allocPush (V : Vars) (B : Block) (idx : Int) (sz a : Nat) (st : RA) : RA :=
  let st := extendLiveness B idx a sz st
  let st := if st.pushing then st else { spillAlive V B idx st with pushing := true }
  let r := prepareOperand V B a none st
  let st := r.1.emit { op := .assign, src0 := num r.2, dest := num r.1.args }
  { st.setReg st.args (some a) false with args := st.args + 1 }

/-- `for (i < REG_CNT) REGS[i].var = NULL` (src/reg-alloc.c:524-525, 312-313). -/
def clearAll (st : RA) : RA := { st with var := fun i => if i < regCnt then none else st.var i }

/-- `OP_call` (src/reg-alloc.c:514-527); `none`: unknown function (null dereference). -/
def allocCall (V : Vars) (B : Block) (idx : Int) (f : String) (st : RA) : Option RA :=
  match V.numParams f with
  | none => none
  | some n =>
    let st := if n = 0 then spillAlive V B idx st else st
    some (clearAll { st.emit { op := .call, func_name := f } with pushing := false, args := 0 })

/-- `OP_indirect` (src/reg-alloc.c:528-540). -/
def allocIndirect (V : Vars) (B : Block) (idx : Int) (a : Nat) (st : RA) : RA :=
  let st := if st.args = 0 then spillAlive V B idx st else st
  let r := prepareOperand V B a none st
  { (r.1.emit { op := .load_func, src0 := num r.2 }).emit { op := .indirect } with pushing := false, args := 0 }

/-- `OP_func_ret` (src/reg-alloc.c:541-546). -/
def allocFuncRet (V : Vars) (B : Block) (d : Nat) (st : RA) : RA :=
  let r := prepareDest V B d none none st
  r.1.emit { op := .assign, src0 := num 0, dest := num r.2 }

/-- `OP_return` (src/reg-alloc.c:547-555). -/
def allocRet (V : Vars) (B : Block) (a : Option Nat) (st : RA) : RA :=
  match a with
  | none => st.emit { op := .ret, src0 := -1#32 }
  | some a =>
    let r := prepareOperand V B a none st
    r.1.emit { op := .ret, src0 := num r.2 }

/-- The binary operators (src/reg-alloc.c:556-579). -/
def allocBin (V : Vars) (B : Block) (o : Op2) (d a b : Nat) (st : RA) : RA :=
  let r := prepareOperand V B a none st
  let q := prepareOperand V B b (some r.2) r.1
  let p := prepareDest V B d (some r.2) (some q.2) q.1
  p.1.emit { op := o, src0 := num r.2, src1 := num q.2, dest := num p.2 }

/-- The unary operators (src/reg-alloc.c:580-588). -/
def allocUn (V : Vars) (B : Block) (o : Op2) (d a : Nat) (st : RA) : RA :=
  let r := prepareOperand V B a none st
  let q := prepareDest V B d (some r.2) none r.1
  q.1.emit { op := o, src0 := num r.2, dest := num q.2 }

/-- One instruction without `refresh` (the `switch`, src/reg-alloc.c:347-592); `none`: an operand is missing, the function is
unknown, or "Unknown opcode". -/
def allocOp (V : Vars) (B : Block) (idx : Int) (i : Insn) (st : RA) : Option RA :=
  match i.op, i.rd, i.rs1, i.rs2 with
  | .unwound_phi, some d, some a, _ => some (allocPhi V B d a st)
  | .allocat, some d, _, _ => some (allocAllocat V B d st)
  | .load_constant, some d, _, _ => some (allocConst V B .load_constant d st)
  | .load_data_address, some d, _, _ => some (allocConst V B .load_data_address d st)
  | .address_of, some d, some a, _ => some (allocAddressOf V B d a st)
  | .assign, some d, some a, _ => some (allocAssign V B d a st)
  | .read, some d, some a, _ => some (allocRead V B i.sz d a st)
  | .write, _, some a, some b => some (allocWrite V B idx i.sz a b st)
  | .branch, _, some a, _ => some (allocBranch V B a st)
  | .push, _, some a, _ => some (allocPush V B idx i.sz a st)
  | .call, _, _, _ => allocCall V B idx i.str st
  | .indirect, _, some a, _ => some (allocIndirect V B idx a st)
  | .func_ret, some d, _, _ => some (allocFuncRet V B d st)
  | .ret, _, a, _ => some (allocRet V B a st)
  | .alu o, some d, some a, some b =>
    if isBinOp o then some (allocBin V B o d a b st) else if isUnOp o then some (allocUn V B o d a st) else none
  | .alu o, some d, some a, none => if isUnOp o then some (allocUn V B o d a st) else none
  | _, _, _, _ => none

/-- One instruction (src/reg-alloc.c:339-593). -/
def allocInsn (V : Vars) (B : Block) (idx : Int) (i : Insn) (st : RA) : Option RA := allocOp V B idx i (refresh B idx st)

/-- The instructions of a block, numbered from `idx` as `bb_solve_locals` numbers them (src/ssa.c:1644-1646). -/
def allocInsns (V : Vars) (B : Block) (idx : Nat) : List Insn → RA → Option RA
  | [], st => some st
  | i :: is, st =>
    match allocInsn V B idx i st with
    | none => none
    | some st => allocInsns V B (idx + 1) is st

/-- The end of a block (src/reg-alloc.c:596-614); `jump` is the condition for the explicit jump. -/
def allocEnd (V : Vars) (B : Block) (jump : Bool) (st : RA) : RA :=
  match B.next with
  | none => st
  | some n =>
    let st := spillLiveOut V B st
    if jump then st.emit { op := .jump, next_bb := n } else st

/-- A block (src/reg-alloc.c:334-614), with `ph2_ir_list` initially empty. -/
def allocBlock (V : Vars) (B : Block) (jump : Bool) (insns : List Insn) (st : RA) : Option RA :=
  match allocInsns V B 0 insns { st with pushing := false, args := 0, out := [] } with
  | none => none
  | some st => some (allocEnd V B jump st)

/-- A function's blocks, in layout order. `fnExit` is the exit block and `rpo` the reverse post-order numbers. -/
structure Fn where
  block : Nat → Block
  insns : Nat → List Insn
  rpo : Nat → Nat
  fnExit : Nat

/-- The condition for the jump at the end of block `b` (src/reg-alloc.c:599-611); `seen` are the blocks already visited,
including `b`. -/
def wantJump (F : Fn) (seen : List Nat) (b : Nat) : Bool :=
  match (F.block b).next with
  | none => false
  | some n => b != F.fnExit && n != F.fnExit && (decide (n ∈ seen) || F.rpo n != F.rpo b + 1)

/-- The loop over the blocks (src/reg-alloc.c:334-614): the code of each block and the final state. -/
def allocBlocks (V : Vars) (F : Fn) : List Nat → List Nat → RA → Option (List (Nat × List Ph2Ir) × RA)
  | _, [], st => some ([], st)
  | seen, b :: bs, st =>
    match allocBlock V (F.block b) (wantJump F (b :: seen) b) (F.insns b) st with
    | none => none
    | some st' =>
      match allocBlocks V F (b :: seen) bs st' with
      | none => none
      | some (rest, fin) => some ((b, st'.out) :: rest, fin)

/-- The registers on entry (src/reg-alloc.c:312-319). -/
def setParams : Nat → List Nat → RA → RA
  | _, [], st => st
  | i, p :: ps, st => setParams (i + 1) ps (st.setReg i (some p) true)

/-- The stores of a variadic function (src/reg-alloc.c:322-332), from register `i` on. -/
def storeVariadic (params : List Nat) : Nat → Nat → RA → RA
  | 0, _, st => st
  | n + 1, i, st =>
    let ofs := st.stack
    let st := { st.emit { op := .store, src0 := num i, src1 := num ofs } with stack := ofs + 4 }
    storeVariadic params n (i + 1)
      (match params[i]? with
       | none => st
       | some p => { st with offset := upd st.offset p ofs })

/-- The state before the first block (src/reg-alloc.c:308-332); `MAX_PARAMS` is 8 (src/defs.h:19). The code stored for the
variadic case is the beginning of the entry block's. -/
def fnStart (params : List Nat) (variadic : Bool) (st : RA) : RA :=
  let st := setParams 0 params (clearAll st)
  if variadic then storeVariadic params 8 0 st else st

/-- The returns added at the end of block `b` (src/reg-alloc.c:616-632): if the function is `void` and the block does not end with
a return, one for each occurrence of the block among the predecessors of the exit block. -/
def implicitReturns (F : Fn) (void : Bool) (exitPrev : List Nat) (b : Nat) : List Ph2Ir :=
  if void && !((F.insns b).getLast?.any fun i => i.op == .ret) then
    (exitPrev.filter (· == b)).map fun _ => { op := .ret, src0 := -1#32 }
  else []

/-- The code of the blocks of a function, with the implicit returns (src/reg-alloc.c:616-632). -/
def withReturns (F : Fn) (void : Bool) (exitPrev : List Nat) (codes : List (Nat × List Ph2Ir)) : List (Nat × List Ph2Ir) :=
  codes.map fun p => (p.1, p.2 ++ implicitReturns F void exitPrev p.1)

end Shecc.RegAlloc
