import Verif.Model.Ssa

/-!
# Model of constant folding (src/ssa.c:1298-1378) and of the pass that applies it
-/

namespace Shecc.ConstFold
open Shecc.Ssa

/-- `is_const` and `init_val` of every variable. -/
structure CF where
  isConst : Nat → Bool
  initVal : Nat → BitVec 32

def CF.set (st : CF) (v : Nat) (x : BitVec 32) : CF :=
  ⟨fun u => if u = v then true else st.isConst u, fun u => if u = v then x else st.initVal u⟩

def CF.mark (st : CF) (v : Nat) : CF := { st with isConst := fun u => if u = v then true else st.isConst u }

/-- Result of a pass on one instruction: `crash` is undefined behaviour of the compiler itself. -/
inductive Res (α : Type)
  | crash
  | ok (a : α)

/-- The previous instruction is a constant load into `a` (src/ssa.c:1312-1318). -/
def prevLoads (prev : Option Insn) (a : Nat) : Bool :=
  match prev with
  | none => false
  | some p => decide (p.op = .load_constant) && decide (p.rd = some a)

/-- `mark_const` (src/ssa.c:1298-1326): new instruction, new constants, and the returned flag. A missing `rd` or `rs1`
would be a null dereference. -/
def mark_const (isGlobal : Nat → Bool) (prev : Option Insn) (i : Insn) (st : CF) : Res (Insn × CF × Bool) :=
  match i.op with
  | .load_constant =>
    match i.rd with
    | none => .crash
    | some d => .ok (i, st.mark d, false)
  | .assign =>
    match i.rd, i.rs1 with
    | some d, some a =>
      if isGlobal d then .ok (i, st, false)
      else if st.isConst a || prevLoads prev a then
        .ok ({ i with op := .load_constant, rs1 := none }, st.set d (st.initVal a), true)
      else .ok (i, st, false)
    | _, _ => .crash
  | _ => .ok (i, st, false)

/-- C `int` division as the host executes it: `none` where it is undefined (division by zero, overflow). -/
def hostDiv (l r : BitVec 32) : Option (BitVec 32) :=
  if r = 0#32 then none else if l = 0x80000000#32 ∧ r = 0xffffffff#32 then none
  else some (BitVec.ofInt 32 (l.toInt.tdiv r.toInt))

def hostMod (l r : BitVec 32) : Option (BitVec 32) :=
  if r = 0#32 then none else if l = 0x80000000#32 ∧ r = 0xffffffff#32 then none
  else some (BitVec.ofInt 32 (l.toInt.tmod r.toInt))

/-- The `switch` of `eval_const_arithmetic` (src/ssa.c:1342-1360). The outer option: the opcode has a case. Addition,
subtraction and multiplication wrap (the compiler relies on it). -/
def evalOp (op : Op1) (l r : BitVec 32) : Option (Option (BitVec 32)) :=
  match op with
  | .alu .add => some (some (l + r))
  | .alu .sub => some (some (l - r))
  | .alu .mul => some (some (l * r))
  | .alu .div => some (hostDiv l r)
  | .alu .mod => some (hostMod l r)
  | _ => none

/-- `eval_const_arithmetic` (src/ssa.c:1328-1368). -/
def eval_const_arithmetic (i : Insn) (st : CF) : Res (Insn × CF) :=
  match i.rs1, i.rs2 with
  | some a, some b =>
    if st.isConst a && st.isConst b then
      match evalOp i.op (st.initVal a) (st.initVal b) with
      | none => .ok (i, st)
      | some none => .crash
      | some (some x) =>
        match i.rd with
        | none => .crash
        | some d => .ok ({ i with op := .load_constant, rs1 := none, rs2 := none }, st.set d x)
    else .ok (i, st)
  | _, _ => .ok (i, st)

/-- `const_folding` (src/ssa.c:1370-1377). -/
def const_folding (isGlobal : Nat → Bool) (prev : Option Insn) (i : Insn) (st : CF) : Res (Insn × CF) :=
  match mark_const isGlobal prev i st with
  | .crash => .crash
  | .ok (i', st', true) => .ok (i', st')
  | .ok (i', st', false) => eval_const_arithmetic i' st'

/-- The innermost loop of `optimize` (src/ssa.c:1541-1551) for one block, without `cse` (Model/Cse). -/
def foldBlock (isGlobal : Nat → Bool) : Option Insn → List Insn → CF → Res (List Insn × CF)
  | _, [], st => .ok ([], st)
  | prev, i :: is, st =>
    match const_folding isGlobal prev i st with
    | .crash => .crash
    | .ok (i', st') =>
      match foldBlock isGlobal (some i') is st' with
      | .crash => .crash
      | .ok (is', st'') => .ok (i' :: is', st'')

/-- The loop over the blocks of a function in reverse post-order (src/ssa.c:1539-1552). -/
def foldBlocks (isGlobal : Nat → Bool) : List (List Insn) → CF → Res (List (List Insn) × CF)
  | [], st => .ok ([], st)
  | b :: bs, st =>
    match foldBlock isGlobal none b st with
    | .crash => .crash
    | .ok (b', st') =>
      match foldBlocks isGlobal bs st' with
      | .crash => .crash
      | .ok (bs', st'') => .ok (b' :: bs', st'')

end Shecc.ConstFold
