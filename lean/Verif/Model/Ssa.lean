import Verif.Model.Ph2

/-!
# First-phase instructions (`insn_t`), as the optimiser and the register allocator see them
-/

namespace Shecc.Ssa

/-- The opcodes of `opcode_t` (src/defs.h:91-159) that `insn_t` carries after `unwind_phi`; `alu` stands for the opcodes that
register allocation copies unchanged to the second phase (src/reg-alloc.c:556-590). -/
inductive Op1
  | unwound_phi | allocat | load_constant | load_data_address | address_of | assign | read | write | branch | push
  | call | indirect | func_ret | ret
  | alu (op : Op2)
  deriving DecidableEq, Repr

/-- `struct insn` (src/defs.h:324-337). Variables are numbers; `next`, `prev` and `belong_to` are positions in lists.
Not modelled: `phi_ops` (emptied by `unwind_phi`). -/
structure Insn where
  op : Op1
  rd : Option Nat := none
  rs1 : Option Nat := none
  rs2 : Option Nat := none
  sz : Nat := 0
  str : String := ""
  deriving DecidableEq, Repr

end Shecc.Ssa
