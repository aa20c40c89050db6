/-!
# Second-phase IR (`ph2_ir_t`), shared by register allocation, peephole, and both back ends
-/

namespace Shecc

/-- C `int`: 32-bit two's complement. -/
abbrev CInt := BitVec 32

/-- The opcodes of `opcode_t` (src/defs.h:91-159) that can occur in second-phase IR or are tested for in the
back ends.  `other` stands for every opcode without a case in the back ends (`OP_phi`, `OP_log_and`, ...). -/
inductive Op2
  | define | call | indirect | ret | assign | load_constant | load_data_address
  | branch | jump | address_of_func | load_func
  | address_of | global_address_of | load | global_load | store | global_store | read | write
  | add | sub | mul | div | mod | lshift | rshift
  | log_not | eq | neq | lt | leq | gt | geq | bit_or | bit_and | bit_xor | bit_not | negate
  | other
  deriving DecidableEq, Repr

/-- `struct ph2_ir` (src/defs.h:285-296).  Pointers to basic blocks are block numbers; the linked-list `next`
field is represented by list position. -/
structure Ph2Ir where
  op : Op2
  src0 : BitVec 32 := 0
  src1 : BitVec 32 := 0
  dest : BitVec 32 := 0
  func_name : String := ""
  next_bb : Nat := 0
  then_bb : Nat := 0
  else_bb : Nat := 0
  is_branch_detached : Bool := false
  deriving Repr, DecidableEq

/-- What the back ends read from global state while emitting: `bb->elf_offset`, `find_func(name)->fn->bbs->elf_offset`
(`none`: unknown function, a NULL dereference in the code), `elf_code_start`, `elf_data_start`, `hard_mul_div`. -/
structure EmitEnv where
  bbOfs : Nat → BitVec 32
  funcOfs : String → Option (BitVec 32)
  codeStart : BitVec 32
  dataStart : BitVec 32
  hardMulDiv : Bool

end Shecc
