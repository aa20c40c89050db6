import Verif.Model.Ph2

/-!
# Model of `src/riscv.c`: RISC-V instruction encoding

A C `int` is a `BitVec 32`.  `error(...)` (which terminates the compiler) is `none`.
-/

namespace Shecc.Riscv

/-! ## opcode constants: `typedef enum {...} rv_op`, src/riscv.c:11-61 -/

def rv_add : CInt := 51        -- src/riscv.c:13
def rv_sub : CInt := 1073741875 -- src/riscv.c:14
def rv_xor : CInt := 16435     -- src/riscv.c:15
def rv_or : CInt := 24627      -- src/riscv.c:16
def rv_and : CInt := 28723     -- src/riscv.c:17
def rv_sll : CInt := 4147      -- src/riscv.c:18
def rv_srl : CInt := 20531     -- src/riscv.c:19
def rv_sra : CInt := 1073762355 -- src/riscv.c:20
def rv_slt : CInt := 8243      -- src/riscv.c:21
def rv_sltu : CInt := 12339    -- src/riscv.c:22
def rv_addi : CInt := 19       -- src/riscv.c:24
def rv_xori : CInt := 16403    -- src/riscv.c:25
def rv_ori : CInt := 24595     -- src/riscv.c:26
def rv_andi : CInt := 28691    -- src/riscv.c:27
def rv_slli : CInt := 4115     -- src/riscv.c:28
def rv_srli : CInt := 20499    -- src/riscv.c:29
def rv_srai : CInt := 1073762323 -- src/riscv.c:30
def rv_slti : CInt := 8211     -- src/riscv.c:31
def rv_sltiu : CInt := 12307   -- src/riscv.c:32
def rv_lb : CInt := 3          -- src/riscv.c:34
def rv_lh : CInt := 4099       -- src/riscv.c:35
def rv_lw : CInt := 8195       -- src/riscv.c:36
def rv_lbu : CInt := 16387     -- src/riscv.c:37
def rv_lhu : CInt := 20483     -- src/riscv.c:38
def rv_sb : CInt := 35         -- src/riscv.c:39
def rv_sh : CInt := 4131       -- src/riscv.c:40
def rv_sw : CInt := 8227       -- src/riscv.c:41
def rv_beq : CInt := 99        -- src/riscv.c:43
def rv_bne : CInt := 4195      -- src/riscv.c:44
def rv_blt : CInt := 16483     -- src/riscv.c:45
def rv_bge : CInt := 20579     -- src/riscv.c:46
def rv_bltu : CInt := 24675    -- src/riscv.c:47
def rv_bgeu : CInt := 28771    -- src/riscv.c:48
def rv_jal : CInt := 111       -- src/riscv.c:50
def rv_jalr : CInt := 103      -- src/riscv.c:51
def rv_lui : CInt := 55        -- src/riscv.c:53
def rv_auipc : CInt := 23      -- src/riscv.c:54
def rv_ecall : CInt := 115     -- src/riscv.c:55
def rv_ebreak : CInt := 1048691 -- src/riscv.c:56
def rv_mul : CInt := 33554483  -- src/riscv.c:58
def rv_div : CInt := 33570867  -- src/riscv.c:59
def rv_mod : CInt := 33579059  -- src/riscv.c:60

/-! ## registers: `typedef enum {...} rv_reg`, src/riscv.c:64-97 (those used) -/

def zero : CInt := 0 -- src/riscv.c:65
def ra : CInt := 1   -- src/riscv.c:66
def sp : CInt := 2   -- src/riscv.c:67
def gp : CInt := 3   -- src/riscv.c:68
def t0 : CInt := 5   -- src/riscv.c:70
def t1 : CInt := 6   -- src/riscv.c:71
def t2 : CInt := 7   -- src/riscv.c:72
def a0 : CInt := 10  -- src/riscv.c:75
def a1 : CInt := 11  -- src/riscv.c:76
def a2 : CInt := 12  -- src/riscv.c:77
def a3 : CInt := 13  -- src/riscv.c:78
def a4 : CInt := 14  -- src/riscv.c:79
def a5 : CInt := 15  -- src/riscv.c:80
def a6 : CInt := 16  -- src/riscv.c:81
def a7 : CInt := 17  -- src/riscv.c:82
def t3 : CInt := 28  -- src/riscv.c:93
def t4 : CInt := 29  -- src/riscv.c:94
def t5 : CInt := 30  -- src/riscv.c:95

/-- `rv_extract_bits`, src/riscv.c:99-111.  The `error("Invalid bit copy")` check (103-105) is on the four
constant bit positions, which satisfy it at every call site; it is omitted.  `imm >> i_start` is the
arithmetic shift of a C `int`. -/
def rv_extract_bits (imm : CInt) (i_start i_end d_start _d_end : Nat) : CInt :=
  ((imm.sshiftRight i_start) &&& (((2 : CInt) <<< (i_end - i_start)) - 1)) <<< d_start

/-- `rv_hi`, src/riscv.c:113-116. -/
def rv_hi (val : CInt) : CInt := val + ((val &&& ((1 : CInt) <<< 11)) <<< 1)

/-- `rv_lo`, src/riscv.c:118-121. -/
def rv_lo (val : CInt) : CInt := (val &&& 0xFFF#32) - ((val &&& ((1 : CInt) <<< 11)) <<< 1)

/-- `rv_encode_R`, src/riscv.c:123-126. -/
def rv_encode_R (op rd rs1 rs2 : CInt) : CInt := op + (rd <<< 7) + (rs1 <<< 15) + (rs2 <<< 20)

/-- `rv_encode_I`, src/riscv.c:128-138.  The range check stops the compiler (`none`). -/
def rv_encode_I (op rd rs1 imm : CInt) : Option CInt :=
  if (2047 : CInt).slt imm || imm.slt (-2048) then none
  else
    let imm := if imm.slt 0 then (imm + 4096) &&& (((1 : CInt) <<< 13) - 1) else imm
    some (op + (rd <<< 7) + (rs1 <<< 15) + (imm <<< 20))

/-- `rv_encode_S`, src/riscv.c:140-151. -/
def rv_encode_S (op rs1 rs2 imm : CInt) : Option CInt :=
  if (2047 : CInt).slt imm || imm.slt (-2048) then none
  else
    let imm := if imm.slt 0 then (imm + 4096) &&& (((1 : CInt) <<< 13) - 1) else imm
    some (op + (rs1 <<< 15) + (rs2 <<< 20) + rv_extract_bits imm 0 4 7 11 + rv_extract_bits imm 5 11 25 31)

/-- `rv_encode_B`, src/riscv.c:153-167. -/
def rv_encode_B (op rs1 rs2 imm : CInt) : Option CInt :=
  if (4095 : CInt).slt imm || imm.slt (-4096) then none
  else
    let sign : CInt := if imm.slt 0 then 1 else 0
    some (op + (rs1 <<< 15) + (rs2 <<< 20) + rv_extract_bits imm 11 11 7 7 + rv_extract_bits imm 1 4 8 11 +
      rv_extract_bits imm 5 10 25 30 + (sign <<< 31))

/-- `rv_encode_J`, src/riscv.c:169-181.  There is no range check. -/
def rv_encode_J (op rd imm : CInt) : CInt :=
  let sign : CInt := if imm.slt 0 then 1 else 0
  let imm := if imm.slt 0 then ((1 : CInt) <<< 21) - (-imm) else imm
  op + (rd <<< 7) + rv_extract_bits imm 1 10 21 30 + rv_extract_bits imm 11 11 20 20 +
    rv_extract_bits imm 12 19 12 19 + (sign <<< 31)

/-- `rv_encode_U`, src/riscv.c:183-186. -/
def rv_encode_U (op rd imm : CInt) : CInt := op + (rd <<< 7) + rv_extract_bits imm 12 31 12 31

/-! ## wrappers, src/riscv.c:188-401 -/

def add (rd rs1 rs2 : CInt) : CInt := rv_encode_R rv_add rd rs1 rs2   -- src/riscv.c:188-191
def sub (rd rs1 rs2 : CInt) : CInt := rv_encode_R rv_sub rd rs1 rs2   -- src/riscv.c:193-196
def xor (rd rs1 rs2 : CInt) : CInt := rv_encode_R rv_xor rd rs1 rs2   -- src/riscv.c:198-201
def or (rd rs1 rs2 : CInt) : CInt := rv_encode_R rv_or rd rs1 rs2     -- src/riscv.c:203-206
def and (rd rs1 rs2 : CInt) : CInt := rv_encode_R rv_and rd rs1 rs2   -- src/riscv.c:208-211
def sll (rd rs1 rs2 : CInt) : CInt := rv_encode_R rv_sll rd rs1 rs2   -- src/riscv.c:213-216
def srl (rd rs1 rs2 : CInt) : CInt := rv_encode_R rv_srl rd rs1 rs2   -- src/riscv.c:218-221
def sra (rd rs1 rs2 : CInt) : CInt := rv_encode_R rv_sra rd rs1 rs2   -- src/riscv.c:223-226
def slt (rd rs1 rs2 : CInt) : CInt := rv_encode_R rv_slt rd rs1 rs2   -- src/riscv.c:228-231
def sltu (rd rs1 rs2 : CInt) : CInt := rv_encode_R rv_sltu rd rs1 rs2 -- src/riscv.c:233-236
def addi (rd rs1 imm : CInt) : Option CInt := rv_encode_I rv_addi rd rs1 imm   -- src/riscv.c:238-241
def xori (rd rs1 imm : CInt) : Option CInt := rv_encode_I rv_xori rd rs1 imm   -- src/riscv.c:243-246
def ori (rd rs1 imm : CInt) : Option CInt := rv_encode_I rv_ori rd rs1 imm     -- src/riscv.c:248-251
def andi (rd rs1 imm : CInt) : Option CInt := rv_encode_I rv_andi rd rs1 imm   -- src/riscv.c:253-256
def slli (rd rs1 imm : CInt) : Option CInt := rv_encode_I rv_slli rd rs1 imm   -- src/riscv.c:258-261
def srli (rd rs1 imm : CInt) : Option CInt := rv_encode_I rv_srli rd rs1 imm   -- src/riscv.c:263-266
def srai (rd rs1 imm : CInt) : Option CInt := rv_encode_I rv_srai rd rs1 imm   -- src/riscv.c:268-271
def slti (rd rs1 imm : CInt) : Option CInt := rv_encode_I rv_slti rd rs1 imm   -- src/riscv.c:273-276
def sltiu (rd rs1 imm : CInt) : Option CInt := rv_encode_I rv_sltiu rd rs1 imm -- src/riscv.c:278-281
def lb (rd rs1 imm : CInt) : Option CInt := rv_encode_I rv_lb rd rs1 imm       -- src/riscv.c:283-286
def lh (rd rs1 imm : CInt) : Option CInt := rv_encode_I rv_lh rd rs1 imm       -- src/riscv.c:288-291
def lw (rd rs1 imm : CInt) : Option CInt := rv_encode_I rv_lw rd rs1 imm       -- src/riscv.c:293-296
def lbu (rd rs1 imm : CInt) : Option CInt := rv_encode_I rv_lbu rd rs1 imm     -- src/riscv.c:298-301
def lhu (rd rs1 imm : CInt) : Option CInt := rv_encode_I rv_lhu rd rs1 imm     -- src/riscv.c:303-306
def sb (rd rs1 imm : CInt) : Option CInt := rv_encode_S rv_sb rs1 rd imm       -- src/riscv.c:308-311
def sh (rd rs1 imm : CInt) : Option CInt := rv_encode_S rv_sh rs1 rd imm       -- src/riscv.c:313-316
def sw (rd rs1 imm : CInt) : Option CInt := rv_encode_S rv_sw rs1 rd imm       -- src/riscv.c:318-321
def beq (rs1 rs2 imm : CInt) : Option CInt := rv_encode_B rv_beq rs1 rs2 imm   -- src/riscv.c:323-326
def bne (rs1 rs2 imm : CInt) : Option CInt := rv_encode_B rv_bne rs1 rs2 imm   -- src/riscv.c:328-331
def blt (rs1 rs2 imm : CInt) : Option CInt := rv_encode_B rv_blt rs1 rs2 imm   -- src/riscv.c:333-336
def bge (rs1 rs2 imm : CInt) : Option CInt := rv_encode_B rv_bge rs1 rs2 imm   -- src/riscv.c:338-341
def bltu (rs1 rs2 imm : CInt) : Option CInt := rv_encode_B rv_bltu rs1 rs2 imm -- src/riscv.c:343-346
def bgeu (rs1 rs2 imm : CInt) : Option CInt := rv_encode_B rv_bgeu rs1 rs2 imm -- src/riscv.c:348-351
def jal (rd imm : CInt) : CInt := rv_encode_J rv_jal rd imm                    -- src/riscv.c:353-356
def jalr (rd rs1 imm : CInt) : Option CInt := rv_encode_I rv_jalr rd rs1 imm   -- src/riscv.c:358-361
def lui (rd imm : CInt) : CInt := rv_encode_U rv_lui rd imm                    -- src/riscv.c:363-366
def auipc (rd imm : CInt) : CInt := rv_encode_U rv_auipc rd imm                -- src/riscv.c:368-371
def ecall : Option CInt := rv_encode_I rv_ecall zero zero 0                    -- src/riscv.c:373-376
def ebreak : Option CInt := rv_encode_I rv_ebreak zero zero 1                  -- src/riscv.c:378-381
def nop : Option CInt := addi zero zero 0                                      -- src/riscv.c:383-386
def mul (rd rs1 rs2 : CInt) : CInt := rv_encode_R rv_mul rd rs1 rs2            -- src/riscv.c:388-391
def div (rd rs1 rs2 : CInt) : CInt := rv_encode_R rv_div rd rs1 rs2            -- src/riscv.c:393-396
def mod (rd rs1 rs2 : CInt) : CInt := rv_encode_R rv_mod rd rs1 rs2            -- src/riscv.c:398-401

end Shecc.Riscv
