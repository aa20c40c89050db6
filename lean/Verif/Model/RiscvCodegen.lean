import Verif.Model.Riscv
import Verif.Model.Layout

/-!
# Model of `src/riscv-codegen.c`

`emit` appends one word to the code section (src/riscv-codegen.c:144-147, src/elf.c `elf_write_code_int`); a
sequence of `emit` calls is modelled by the list of words.  `none` = the compiler stops (`abort`, `error`, or a NULL
dereference on an unknown function).
-/

namespace Shecc.Riscv

/-- A sequence of `emit(...)` calls some of which may stop the compiler. -/
def emits : List (Option CInt) → Option (List CInt)
  | [] => some []
  | none :: _ => none
  | some w :: rest => (emits rest).map (w :: ·)

/-- The test `v < -2048 || v > 2047` used for sizes and emission, src/riscv-codegen.c:16,23,33,40,173,183,196,207. -/
def big (v : CInt) : Bool := v.slt (-2048) || (2047 : CInt).slt v

/-- `update_elf_offset`, src/riscv-codegen.c:12-98: number of bytes reserved. -/
def sizeOf (hardMulDiv : Bool) (ir : Ph2Ir) : Option Nat :=
  match ir.op with
  | .load_constant => some (if big ir.src0 then 8 else 4)                       -- 15-20
  | .address_of | .global_address_of => some (if big ir.src0 then 12 else 4)    -- 21-27
  | .assign => some 4                                                           -- 28-30
  | .load | .global_load => some (if big ir.src0 then 16 else 4)                -- 31-37
  | .store | .global_store => some (if big ir.src1 then 16 else 4)              -- 38-44
  | .read | .write | .jump | .call | .load_func | .indirect | .add | .sub | .lshift | .rshift | .gt | .lt
  | .bit_and | .bit_or | .bit_xor | .negate | .bit_not => some 4                -- 45-63
  | .mul => some (if hardMulDiv then 4 else 52)                                 -- 64-69
  | .div | .mod => some (if hardMulDiv then 4 else 108)                         -- 70-76
  | .load_data_address | .neq | .geq | .leq | .log_not => some 8                -- 77-83
  | .address_of_func | .eq => some 12                                           -- 84-87
  | .branch => some 20                                                          -- 88-90
  | .ret => some 24                                                             -- 91-93
  | .define | .other => none                                                    -- 94-96: abort()

/-- Software multiplication, src/riscv-codegen.c:284-296. -/
def softMul (rd rs1 rs2 : CInt) : List (Option CInt) :=
  [ addi t0 zero 0,
    addi t1 zero 0,
    addi t3 rs1 0,
    addi t4 rs2 0,
    beq t3 zero 32,
    beq t4 zero 28,
    andi t1 t4 1,
    beq t1 zero 8,
    some (add t0 t0 t3),
    slli t3 t3 1,
    srli t4 t4 1,
    some (jal zero (-28)),
    addi rd t0 0 ]

/-- Software division / modulo, src/riscv-codegen.c:308-347. -/
def softDiv (isMod : Bool) (rd rs1 rs2 : CInt) : List (Option CInt) :=
  let interm := if isMod then t2 else t0
  let divisor_mask := if isMod then zero else t1
  [ addi t2 rs1 0,
    addi t3 rs2 0,
    srai t0 t2 31,
    some (add t2 t2 t0),
    some (xor t2 t2 t0),
    srai t1 t3 31,
    some (add t3 t3 t1),
    some (xor t3 t3 t1),
    some (xor t5 t0 divisor_mask),
    addi t0 zero 0,
    addi t1 zero 1,
    beq t3 zero 52,
    beq t2 zero 48,
    beq t2 t3 20,
    bltu t2 t3 16,
    slli t3 t3 1,
    slli t1 t1 1,
    some (jal zero (-16)),
    bltu t2 t3 12,
    some (sub t2 t2 t3),
    some (add t0 t0 t1),
    srli t1 t1 1,
    srli t3 t3 1,
    bne t1 zero (-20),
    addi rd interm 0,
    beq t5 zero 8,
    some (sub rd zero rd) ]

/-- `emit_ph2_ir`, src/riscv-codegen.c:149-401.  `idx` is `elf_code_idx` when the instruction starts; each `emit`
advances it by 4, hence `idx + 16` for the last word of a branch. -/
def emit_ph2_ir (env : EmitEnv) (idx : CInt) (ir : Ph2Ir) : Option (List CInt) :=
  let rd := ir.dest + 10
  let rs1 := ir.src0 + 10
  let rs2 := ir.src1 + 10
  match ir.op with
  | .define => emits                                                            -- 166-171
      [some (lui t0 (rv_hi (ir.src0 + 4))), addi t0 t0 (rv_lo (ir.src0 + 4)), some (sub sp sp t0), sw ra sp 0]
  | .load_constant =>                                                           -- 172-179
    if big ir.src0 then emits [some (lui rd (rv_hi ir.src0)), addi rd rd (rv_lo ir.src0)]
    else emits [addi rd zero ir.src0]
  | .address_of | .global_address_of =>                                         -- 180-189
    let interm := if ir.op = .address_of then sp else gp
    if big ir.src0 then
      emits [some (lui t0 (rv_hi ir.src0)), addi t0 t0 (rv_lo ir.src0), some (add rd interm t0)]
    else emits [addi rd interm ir.src0]
  | .assign => emits [addi rd rs1 0]                                            -- 190-192
  | .load | .global_load =>                                                     -- 193-203
    let interm := if ir.op = .load then sp else gp
    if big ir.src0 then
      emits [some (lui t0 (rv_hi ir.src0)), addi t0 t0 (rv_lo ir.src0), some (add t0 interm t0), lw rd t0 0]
    else emits [lw rd interm ir.src0]
  | .store | .global_store =>                                                   -- 204-214
    let interm := if ir.op = .store then sp else gp
    if big ir.src1 then
      emits [some (lui t0 (rv_hi ir.src1)), addi t0 t0 (rv_lo ir.src1), some (add t0 interm t0), sw rs1 t0 0]
    else emits [sw rs1 interm ir.src1]
  | .read =>                                                                    -- 215-222
    if ir.src1 = 1 then emits [lb rd rs1 0] else if ir.src1 = 4 then emits [lw rd rs1 0] else none
  | .write =>                                                                   -- 223-230
    if ir.dest = 1 then emits [sb rs2 rs1 0] else if ir.dest = 4 then emits [sw rs2 rs1 0] else none
  | .branch =>                                                                  -- 231-238
    let ofs := env.codeStart + env.bbOfs ir.then_bb
    emits [some (lui t0 (rv_hi ofs)), addi t0 t0 (rv_lo ofs), beq rs1 zero 8, jalr zero t0 0,
      some (jal zero (env.bbOfs ir.else_bb - (idx + 16)))]
  | .jump => emits [some (jal zero (env.bbOfs ir.next_bb - idx))]               -- 239-241
  | .call =>                                                                    -- 242-245
    match env.funcOfs ir.func_name with
    | none => none
    | some o => emits [some (jal ra (o - idx))]
  | .load_data_address => emits                                                 -- 246-249
      [some (lui rd (rv_hi (env.dataStart + ir.src0))), addi rd rd (rv_lo (env.dataStart + ir.src0))]
  | .address_of_func =>                                                         -- 250-256
    match env.funcOfs ir.func_name with
    | none => none
    | some o =>
      let ofs := env.codeStart + o
      emits [some (lui t0 (rv_hi ofs)), addi t0 t0 (rv_lo ofs), sw t0 rs1 0]
  | .load_func => emits [addi t0 rs1 0]                                         -- 257-259
  | .indirect => emits [jalr ra t0 0]                                           -- 260-262
  | .ret => emits                                                               -- 263-273
      [if ir.src0 = -1 then addi zero zero 0 else addi a0 rs1 0,
       lw ra sp 0, some (lui t0 (rv_hi (ir.src1 + 4))), addi t0 t0 (rv_lo (ir.src1 + 4)), some (add sp sp t0),
       jalr zero ra 0]
  | .add => emits [some (add rd rs1 rs2)]                                       -- 274-276
  | .sub => emits [some (sub rd rs1 rs2)]                                       -- 277-279
  | .mul => if env.hardMulDiv then emits [some (mul rd rs1 rs2)] else emits (softMul rd rs1 rs2) -- 280-298
  | .div =>                                                                     -- 299-348
    if env.hardMulDiv then emits [some (div rd rs1 rs2)] else emits (softDiv false rd rs1 rs2)
  | .mod =>                                                                     -- 299-348
    if env.hardMulDiv then emits [some (mod rd rs1 rs2)] else emits (softDiv true rd rs1 rs2)
  | .lshift => emits [some (sll rd rs1 rs2)]                                    -- 349-351
  | .rshift => emits [some (sra rd rs1 rs2)]                                    -- 352-354
  | .eq => emits [some (sub rd rs1 rs2), some (sltu rd zero rd), xori rd rd 1]  -- 355-359
  | .neq => emits [some (sub rd rs1 rs2), some (sltu rd zero rd)]               -- 360-363
  | .gt => emits [some (slt rd rs2 rs1)]                                        -- 364-366
  | .geq => emits [some (slt rd rs1 rs2), xori rd rd 1]                         -- 367-370
  | .lt => emits [some (slt rd rs1 rs2)]                                        -- 371-373
  | .leq => emits [some (slt rd rs2 rs1), xori rd rd 1]                         -- 374-377
  | .negate => emits [some (sub rd zero rs1)]                                   -- 378-380
  | .bit_not => emits [xori rd rs1 (-1)]                                        -- 381-383
  | .bit_and => emits [some (and rd rs1 rs2)]                                   -- 384-386
  | .bit_or => emits [some (or rd rs1 rs2)]                                     -- 387-389
  | .bit_xor => emits [some (xor rd rs1 rs2)]                                   -- 390-392
  | .log_not => emits [some (sltu rd zero rs1), xori rd rd 1]                   -- 393-396
  | .other => none                                                              -- 397-399: abort()

/-- Start, exit and syscall stubs, src/riscv-codegen.c:407-433.  `gofs` is the offset of the global block;
`elf_code_idx` is 16 at the `jal`. -/
def stubs (gstack gofs : CInt) : Option (List CInt) := emits
  [ some (lui t0 (rv_hi gstack)), addi t0 t0 (rv_lo gstack), some (sub sp sp t0), addi gp sp 0,
    some (jal ra (gofs - 16)),
    some (lui t0 (rv_hi gstack)), addi t0 t0 (rv_lo gstack), some (add gp gp t0), addi sp gp 0, addi a0 a0 0,
    addi a7 zero 93, ecall,
    addi a7 a0 0, addi a0 a1 0, addi a1 a2 0, addi a2 a3 0, addi a3 a4 0, addi a4 a5 0, addi a5 a6 0, ecall,
    jalr zero ra 0 ]

/-- Code after the global initialisers, src/riscv-codegen.c:440-446. -/
def toMain (gstack mainOfs idx : CInt) : Option (List CInt) := emits
  [ some (lui t0 (rv_hi gstack)), addi t0 t0 (rv_lo gstack), some (add t0 gp t0), lw a0 t0 0, addi a1 t0 4,
    some (jal zero (mainOfs - (idx + 20))) ]

/-- The RISC-V back end, src/riscv-codegen.c. -/
def target : Target where
  sizeOf := sizeOf
  emit := emit_ph2_ir
  syscallOfs := 48
  globalOfs := 84
  detaches := false
  stubs := stubs
  toMain := toMain

end Shecc.Riscv
