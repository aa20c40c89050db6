import Verif.Model.Arm
import Verif.Model.Layout

/-!
# Model of `src/arm-codegen.c`

`emit` appends one word to the code section (src/arm-codegen.c:178-181, src/elf.c `elf_write_code_int`); a sequence of
`emit` calls is modelled by the list of words.  `none` = the compiler stops (`abort`, `error`, or a NULL dereference on
an unknown function).
-/

namespace Shecc.Arm

/-- A sequence of `emit(...)` calls some of which may stop the compiler. -/
def emits : List (Option CInt) → Option (List CInt)
  | [] => some []
  | none :: _ => none
  | some w :: rest => (emits rest).map (w :: ·)

/-- `update_elf_offset`, src/arm-codegen.c:12-124: number of bytes reserved; `none` = abort. -/
def sizeOf (hardMulDiv : Bool) (ir : Ph2Ir) : Option Nat :=
  match ir.op with
  | .load_constant =>                                                           -- 15-26
    some (if ir.src0.slt 0 then 12 else if (255 : CInt).slt ir.src0 then 8 else 4)
  | .address_of | .global_address_of =>                                         -- 27-39
    if (255 : CInt).slt ir.src0 then some 12 else if (0 : CInt).sle ir.src0 then some 4 else none
  | .assign => some (if ir.dest ≠ ir.src0 then 4 else 0)                        -- 40-43
  | .load | .global_load =>                                                     -- 44-55
    if (4095 : CInt).slt ir.src0 then some 16 else if (0 : CInt).sle ir.src0 then some 4 else none
  | .store | .global_store =>                                                   -- 56-67
    if (4095 : CInt).slt ir.src1 then some 16 else if (0 : CInt).sle ir.src1 then some 4 else none
  | .read | .write | .jump | .call | .load_func | .indirect | .add | .sub | .mul | .lshift | .rshift
  | .bit_and | .bit_or | .bit_xor | .negate | .bit_not => some 4                -- 68-85
  | .div => some (if hardMulDiv then 4 else 116)                                -- 86-97
  | .mod => some (if hardMulDiv then 12 else 116)                               -- 86-97
  | .load_data_address => some 8                                                -- 98-100
  | .address_of_func | .eq | .neq | .gt | .lt | .geq | .leq | .log_not => some 12 -- 101-110
  | .branch => some (if ir.is_branch_detached then 12 else 8)                   -- 111-116
  | .ret => some 24                                                             -- 117-119
  | .define | .other => none                                                    -- 120-122: abort()

/-- Software division / modulo, src/arm-codegen.c:332-384. -/
def softDiv (isMod : Bool) (rd rn rm : CInt) : List (Option CInt) :=
  let interm := if isMod then r9 else r8
  [ some (stmdb AL 1 sp (((1 : CInt) <<< rn) ||| ((1 : CInt) <<< rm))),
    some (srl_amt AL 0 arith_rs r8 rn 31),
    add_r AL rn rn r8,
    eor_r AL rn rn r8,
    some (srl_amt AL 0 arith_rs r9 rm 31),
    add_r AL rm rm r9,
    eor_r AL rm rm r9,
    (if isMod then mov_r AL r10 r8 else eor_r AL r10 r8 r9),
    zero r8,
    mov_i AL r9 1,
    cmp_i AL rm 0,
    some (b EQ 52),
    cmp_i AL rn 0,
    some (b EQ 44),
    cmp_r AL rm rn,
    some (sll_amt CC 0 logic_ls rm rm 1),
    some (sll_amt CC 0 logic_ls r9 r9 1),
    some (b CC (-12)),
    cmp_r AL rn rm,
    sub_r CS rn rn rm,
    add_r CS r8 r8 r9,
    some (srl_amt AL 1 logic_rs r9 r9 1),
    some (srl_amt CC 0 logic_rs rm rm 1),
    some (b CC (-20)),
    mov_r AL r9 rn,
    some (ldm AL 1 sp (((1 : CInt) <<< rn) ||| ((1 : CInt) <<< rm))),
    mov_r AL rd interm,
    cmp_i AL r10 0,
    rsb_i NE rd 0 rd ]

/-- Comparisons, src/arm-codegen.c:392-401: the condition comes from `arm_get_cond`. -/
def emitCmp (op : Op2) (rd rn rm : CInt) : Option (List CInt) :=
  match arm_get_cond op with
  | none => none
  | some cond => emits [cmp_r AL rn rm, zero rd, mov_i cond rd 1]

/-- `emit_ph2_ir`, src/arm-codegen.c:183-426.  `idx` is `elf_code_idx` when the instruction starts; each `emit`
advances it by 4. -/
def emit_ph2_ir (env : EmitEnv) (idx : CInt) (ir : Ph2Ir) : Option (List CInt) :=
  let rd := ir.dest
  let rn := ir.src0
  let rm := ir.src1
  match ir.op with
  | .define => emits                                                            -- 200-205
      [some (sw AL lr sp (-4)), some (movw AL r8 (ir.src0 + 4)), some (movt AL r8 (ir.src0 + 4)), sub_r AL sp sp r8]
  | .load_constant =>                                                           -- 206-216
    if ir.src0.slt 0 then emits [some (movw AL r8 (-ir.src0)), some (movt AL r8 (-ir.src0)), rsb_i AL rd 0 r8]
    else if (255 : CInt).slt ir.src0 then emits [some (movw AL rd ir.src0), some (movt AL rd ir.src0)]
    else emits [mov_i AL rd ir.src0]
  | .address_of | .global_address_of =>                                         -- 217-226
    let interm := if ir.op = .address_of then sp else r12
    if (255 : CInt).slt ir.src0 then
      emits [some (movw AL r8 ir.src0), some (movt AL r8 ir.src0), add_r AL rd interm r8]
    else emits [add_i AL rd interm ir.src0]
  | .assign => emits [mov_r AL rd rn]                                           -- 227-229
  | .load | .global_load =>                                                     -- 230-240
    let interm := if ir.op = .load then sp else r12
    if (4095 : CInt).slt ir.src0 then
      emits [some (movw AL r8 ir.src0), some (movt AL r8 ir.src0), add_r AL r8 interm r8, some (lw AL rd r8 0)]
    else emits [some (lw AL rd interm ir.src0)]
  | .store | .global_store =>                                                   -- 241-251
    let interm := if ir.op = .store then sp else r12
    if (4095 : CInt).slt ir.src1 then
      emits [some (movw AL r8 ir.src1), some (movt AL r8 ir.src1), add_r AL r8 interm r8, some (sw AL rn r8 0)]
    else emits [some (sw AL rn interm ir.src1)]
  | .read =>                                                                    -- 252-259
    if ir.src1 = 1 then emits [some (lb AL rd rn 0)] else if ir.src1 = 4 then emits [some (lw AL rd rn 0)] else none
  | .write =>                                                                   -- 260-267
    if ir.dest = 1 then emits [some (sb AL rm rn 0)] else if ir.dest = 4 then emits [some (sw AL rm rn 0)] else none
  | .branch =>                                                                  -- 268-275
    if ir.is_branch_detached then
      emits [teq rn, some (b NE 8), some (b AL (env.bbOfs ir.else_bb - (idx + 8)))]
    else emits [teq rn, some (b NE (env.bbOfs ir.then_bb - (idx + 4)))]
  | .jump => emits [some (b AL (env.bbOfs ir.next_bb - idx))]                   -- 276-278
  | .call =>                                                                    -- 279-282
    match env.funcOfs ir.func_name with
    | none => none
    | some o => emits [some (bl AL (o - idx))]
  | .load_data_address => emits                                                 -- 283-286
      [some (movw AL rd (ir.src0 + env.dataStart)), some (movt AL rd (ir.src0 + env.dataStart))]
  | .address_of_func =>                                                         -- 287-293
    match env.funcOfs ir.func_name with
    | none => none
    | some o =>
      let ofs := env.codeStart + o
      emits [some (movw AL r8 ofs), some (movt AL r8 ofs), some (sw AL r8 rn 0)]
  | .load_func => emits [mov_r AL r8 rn]                                        -- 294-296
  | .indirect => emits [some (blx AL r8)]                                       -- 297-299
  | .ret => emits                                                               -- 300-310
      [if ir.src0 = -1 then mov_r AL r0 r0 else mov_r AL r0 rn,
       some (movw AL r8 (ir.src1 + 4)), some (movt AL r8 (ir.src1 + 4)), add_r AL sp sp r8,
       some (lw AL lr sp (-4)), some (blx AL lr)]
  | .add => emits [add_r AL rd rn rm]                                           -- 311-313
  | .sub => emits [sub_r AL rd rn rm]                                           -- 314-316
  | .mul => emits [some (mul AL rd rn rm)]                                      -- 317-319
  | .div =>                                                                     -- 320-385
    if env.hardMulDiv then emits [some (div AL rd rm rn)] else emits (softDiv false rd rn rm)
  | .mod =>                                                                     -- 320-385
    if env.hardMulDiv then emits [some (div AL r8 rm rn), some (mul AL r8 rm r8), sub_r AL rd rn r8]
    else emits (softDiv true rd rn rm)
  | .lshift => emits [some (sll AL rd rn rm)]                                   -- 386-388
  | .rshift => emits [some (sra AL rd rn rm)]                                   -- 389-391
  | .eq | .neq | .gt | .lt | .geq | .leq => emitCmp ir.op rd rn rm              -- 392-401
  | .negate => emits [rsb_i AL rd 0 rn]                                         -- 402-404
  | .bit_not => emits [mvn_r AL rd rn]                                          -- 405-407
  | .bit_and => emits [and_r AL rd rn rm]                                       -- 408-410
  | .bit_or => emits [or_r AL rd rn rm]                                         -- 411-413
  | .bit_xor => emits [eor_r AL rd rn rm]                                       -- 414-416
  | .log_not => emits [teq rn, mov_i NE rd 0, mov_i EQ rd 1]                    -- 417-421
  | .other => none                                                              -- 422-424: abort()

/-- Start, exit and syscall stubs, src/arm-codegen.c:432-457.  `gofs` is the offset of the global block;
`elf_code_idx` is 16 at the `bl`. -/
def stubs (gstack gofs : CInt) : Option (List CInt) := emits
  [ some (movw AL r8 gstack), some (movt AL r8 gstack), sub_r AL sp sp r8, mov_r AL r12 sp, some (bl AL (gofs - 16)),
    some (movw AL r8 gstack), some (movt AL r8 gstack), add_r AL sp sp r8, mov_r AL r0 r0, mov_i AL r7 1, some svc,
    mov_r AL r7 r0, mov_r AL r0 r1, mov_r AL r1 r2, mov_r AL r2 r3, mov_r AL r3 r4, mov_r AL r4 r5, mov_r AL r5 r6,
    some svc, mov_r AL pc lr ]

/-- Code after the global initialisers, src/arm-codegen.c:463-469. -/
def toMain (gstack mainOfs idx : CInt) : Option (List CInt) := emits
  [ some (movw AL r8 gstack), some (movt AL r8 gstack), add_r AL r8 r12 r8, some (lw AL r0 r8 0), add_i AL r1 r8 4,
    some (b AL (mainOfs - (idx + 20))) ]

/-- The ARM back end, src/arm-codegen.c. -/
def target : Target where
  sizeOf := sizeOf
  emit := emit_ph2_ir
  syscallOfs := 44
  globalOfs := 80
  detaches := true
  stubs := stubs
  toMain := toMain

end Shecc.Arm
