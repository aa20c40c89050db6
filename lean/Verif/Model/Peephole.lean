import Verif.Model.Layout

/-!
# Model of src/peephole.c

`ph2_ir->next` is list position.  The C functions update the first instruction in place and unlink the second; here the
updated instruction is returned.
-/

namespace Shecc.Peep
open Shecc

/-- `is_fusible_insn` (src/peephole.c:8-32).  `OP_log_and` and `OP_log_or`, listed there, never occur in second-phase
IR (`reg_alloc` aborts on them, src/reg-alloc.c:558-592) and are not distinguished from other opcodes in the model. -/
def isFusible (ir : Ph2Ir) : Bool :=
  match ir.op with
  | .add | .sub | .mul | .div | .mod | .lshift | .rshift | .bit_and | .bit_or | .bit_xor | .log_not | .negate
  | .load | .global_load | .load_data_address => true
  | _ => false

/-- `insn_fusion` (src/peephole.c:34-139): `some c` when `a` and its successor `b` are replaced by `c`. -/
def fuse (a b : Ph2Ir) : Option Ph2Ir :=
  if b.op = .assign ∧ isFusible a = true ∧ a.dest = b.src0 then
    some { a with dest := b.dest }
  else if a.op = .load_constant ∧ a.src0 = 0#32 ∧ b.op = .add ∧ (a.dest = b.src0 ∨ a.dest = b.src1) then
    some { a with op := .assign, src0 := if a.dest = b.src0 then b.src1 else b.src0, dest := b.dest }
  else if a.op = .load_constant ∧ a.src0 = 0#32 ∧ b.op = .sub ∧ a.dest = b.src1 then
    some { a with op := .assign, src0 := b.src0, dest := b.dest }
  else if a.op = .load_constant ∧ a.src0 = 0#32 ∧ b.op = .sub ∧ a.dest = b.src0 then
    some { a with op := .negate, src0 := b.src1, dest := b.dest }
  else if a.op = .load_constant ∧ a.src0 = 0#32 ∧ b.op = .mul ∧ (a.dest = b.src0 ∨ a.dest = b.src1) then
    some { a with op := .load_constant, src0 := 0#32, dest := b.dest }
  else if a.op = .load_constant ∧ a.src0 = 1#32 ∧ b.op = .mul ∧ (a.dest = b.src0 ∨ a.dest = b.src1) then
    some { a with op := .assign, src0 := if a.dest = b.src0 then b.src1 else b.src0, dest := b.dest }
  else none

/-- The loop over one block's instructions in `peephole` (src/peephole.c:146-158): the loop variable always advances to
the current successor, so a fused instruction is not considered again. -/
def block : List Ph2Ir → List Ph2Ir
  | [] => []
  | [a] => [a]
  | a :: b :: rest =>
    if b.op = .assign ∧ b.dest = b.src0 then a :: block rest
    else
      match fuse a b with
      | some c => c :: block rest
      | none => a :: block (b :: rest)
termination_by l => l.length

/-- `peephole` (src/peephole.c:142-161): every block of every function in `FUNC_LIST`; the block of the global
initialisers is not in that list. -/
def prog (P : Prog) : Prog :=
  { P with fns := P.fns.map fun f =>
      { f with
        entry := { f.entry with insns := block f.entry.insns }
        rest := f.rest.map fun b => { b with insns := block b.insns } } }

end Shecc.Peep
