import Verif.Model.Ph2

/-!
# Model of `src/arm.c`: ARMv7-A instruction encoding

A C `int` (and the unsigned enum types mixed with it) is a `BitVec 32`.  `error(...)` (which terminates the compiler)
is `none`.
-/

namespace Shecc.Arm

/-! ## `arm_op_t`, src/arm.c:31-44 -/
def arm_and : CInt := 0   -- src/arm.c:32
def arm_eor : CInt := 1   -- src/arm.c:33
def arm_sub : CInt := 2   -- src/arm.c:34
def arm_rsb : CInt := 3   -- src/arm.c:35
def arm_add : CInt := 4   -- src/arm.c:36
def arm_ldm : CInt := 9   -- src/arm.c:37
def arm_teq : CInt := 9   -- src/arm.c:38
def arm_cmp : CInt := 10  -- src/arm.c:39
def arm_orr : CInt := 12  -- src/arm.c:40
def arm_mov : CInt := 13  -- src/arm.c:41
def arm_mvn : CInt := 15  -- src/arm.c:42
def arm_stmdb : CInt := 16 -- src/arm.c:43

/-! ## `arm_cond_t`, src/arm.c:50-61 -/
def EQ : CInt := 0  -- src/arm.c:51
def NE : CInt := 1  -- src/arm.c:52
def CS : CInt := 2  -- src/arm.c:53
def CC : CInt := 3  -- src/arm.c:54
def LS : CInt := 9  -- src/arm.c:55
def GE : CInt := 10 -- src/arm.c:56
def LT : CInt := 11 -- src/arm.c:57
def GT : CInt := 12 -- src/arm.c:58
def LE : CInt := 13 -- src/arm.c:59
def AL : CInt := 14 -- src/arm.c:60

/-! ## `arm_reg`, src/arm.c:64-81 -/
def r0 : CInt := 0
def r1 : CInt := 1
def r2 : CInt := 2
def r3 : CInt := 3
def r4 : CInt := 4
def r5 : CInt := 5
def r6 : CInt := 6
def r7 : CInt := 7
def r8 : CInt := 8
def r9 : CInt := 9
def r10 : CInt := 10
def r12 : CInt := 12
def sp : CInt := 13 -- src/arm.c:78
def lr : CInt := 14 -- src/arm.c:79
def pc : CInt := 15 -- src/arm.c:80

/-! ## `shift_type`, src/arm.c:83-88 -/
def logic_ls : CInt := 0
def logic_rs : CInt := 1
def arith_rs : CInt := 2
def rotat_rs : CInt := 3

/-- `arm_get_cond`, src/arm.c:90-109; `none` = error. -/
def arm_get_cond : Op2 → Option CInt
  | .eq => some EQ
  | .neq => some NE
  | .lt => some LT
  | .geq => some GE
  | .gt => some GT
  | .leq => some LE
  | _ => none

/-- `arm_extract_bits`, src/arm.c:110-120.  The `error("Invalid bit copy")` check is on the four constant bit
positions, which satisfy it at every call site; it is omitted. -/
def arm_extract_bits (imm : CInt) (i_start i_end d_start _d_end : Nat) : CInt :=
  ((imm.sshiftRight i_start) &&& (((2 : CInt) <<< (i_end - i_start)) - 1)) <<< d_start

/-- `arm_encode`, src/arm.c:122-125. -/
def arm_encode (cond opcode rn rd op2 : CInt) : CInt :=
  (cond <<< 28) + (opcode <<< 20) + (rn <<< 16) + (rd <<< 12) + op2

/-- `__svc`, src/arm.c:127-130. -/
def svc : CInt := arm_encode AL 240 0 0 0

/-- The loop of `__mov`, src/arm.c:137-141: remaining `shift` and `op2`.  The recursion is on `shift`; the C loop has
no such bound, but it is entered with `shift = 16` and `op2 > 255`, and ends before `shift` reaches 0. -/
def movLoop : Nat → CInt → Nat × CInt
  | 0, op2 => (0, op2)
  | shift + 1, op2 => if op2 &&& 3 = 0 then movLoop shift (op2.sshiftRight 2) else (shift + 1, op2)

/-- `__mov`, src/arm.c:132-148. -/
def mov (cond io opcode s rn rd op2 : CInt) : Option CInt :=
  if (255 : CInt).slt op2 then
    let r := movLoop 16 op2
    if (255 : CInt).slt r.2 then none
    else some (arm_encode cond (s + (opcode <<< 1) + (io <<< 5)) rn rd ((BitVec.ofNat 32 r.1 <<< 8) + (r.2 &&& 255)))
  else some (arm_encode cond (s + (opcode <<< 1) + (io <<< 5)) rn rd (((0 : CInt) <<< 8) + (op2 &&& 255)))

def and_r (cond rd rs rm : CInt) : Option CInt := mov cond 0 arm_and 0 rs rd rm  -- src/arm.c:150-153
def or_r (cond rd rs rm : CInt) : Option CInt := mov cond 0 arm_orr 0 rs rd rm   -- src/arm.c:155-158
def eor_r (cond rd rs rm : CInt) : Option CInt := mov cond 0 arm_eor 0 rs rd rm  -- src/arm.c:160-163
def mvn_r (cond rd rm : CInt) : Option CInt := mov cond 0 arm_mvn 0 0 rd rm      -- src/arm.c:165-168

/-- `__movw`, src/arm.c:170-175. -/
def movw (cond rd imm : CInt) : CInt :=
  arm_encode cond 48 0 rd 0 + arm_extract_bits imm 0 11 0 11 + arm_extract_bits imm 12 15 16 19

/-- `__movt`, src/arm.c:177-183. -/
def movt (cond rd imm : CInt) : CInt :=
  let imm := imm.sshiftRight 16
  arm_encode cond 52 0 rd 0 + arm_extract_bits imm 0 11 0 11 + arm_extract_bits imm 12 15 16 19

def mov_i (cond rd imm : CInt) : Option CInt := mov cond 1 arm_mov 0 0 rd imm    -- src/arm.c:185-188
def mov_r (cond rd rs : CInt) : Option CInt := mov cond 0 arm_mov 0 0 rd rs      -- src/arm.c:190-193

/-- `__srl`, src/arm.c:195-199. -/
def srl (cond rd rm rs : CInt) : CInt :=
  arm_encode cond (0 + (arm_mov <<< 1) + ((0 : CInt) <<< 5)) 0 rd (rm + ((1 : CInt) <<< 4) + ((1 : CInt) <<< 5) + (rs <<< 8))

/-- `__srl_amt`, src/arm.c:201-210. -/
def srl_amt (cond s shift rd rm amt : CInt) : CInt :=
  arm_encode cond (s + (arm_mov <<< 1) + ((0 : CInt) <<< 5)) 0 rd (rm + ((0 : CInt) <<< 4) + (shift <<< 5) + (amt <<< 7))

/-- `__sll`, src/arm.c:212-216. -/
def sll (cond rd rm rs : CInt) : CInt :=
  arm_encode cond (0 + (arm_mov <<< 1) + ((0 : CInt) <<< 5)) 0 rd (rm + ((1 : CInt) <<< 4) + ((0 : CInt) <<< 5) + (rs <<< 8))

/-- `__sll_amt`, src/arm.c:218-227. -/
def sll_amt (cond s shift rd rm amt : CInt) : CInt :=
  arm_encode cond (s + (arm_mov <<< 1) + ((0 : CInt) <<< 5)) 0 rd (rm + ((0 : CInt) <<< 4) + (shift <<< 5) + (amt <<< 7))

/-- `__sra`, src/arm.c:229-233. -/
def sra (cond rd rm rs : CInt) : CInt :=
  arm_encode cond (0 + (arm_mov <<< 1) + ((0 : CInt) <<< 5)) 0 rd (rm + ((5 : CInt) <<< 4) + (rs <<< 8))

/-- `__add_i`, src/arm.c:235-240. -/
def add_i (cond rd rs imm : CInt) : Option CInt :=
  if (0 : CInt).sle imm then mov cond 1 arm_add 0 rs rd imm else mov cond 1 arm_sub 0 rs rd (-imm)

def add_r (cond rd rs ro : CInt) : Option CInt := mov cond 0 arm_add 0 rs rd ro  -- src/arm.c:242-245
def sub_r (cond rd rs ro : CInt) : Option CInt := mov cond 0 arm_sub 0 rs rd ro  -- src/arm.c:247-250
def zero (rd : CInt) : Option CInt := mov_i AL rd 0                              -- src/arm.c:252-255

/-- `arm_transfer`, src/arm.c:257-272. -/
def arm_transfer (cond l size rn rd ofs : CInt) : CInt :=
  let opcode : CInt := 64 + 16 + 8 + l
  let opcode := if size = 1 then opcode + 4 else opcode
  if ofs.slt 0 then arm_encode cond (opcode - 8) rn rd ((-ofs) &&& 4095) else arm_encode cond opcode rn rd (ofs &&& 4095)

def lw (cond rd rn ofs : CInt) : CInt := arm_transfer cond 1 4 rn rd ofs         -- src/arm.c:274-277
def lb (cond rd rn ofs : CInt) : CInt := arm_transfer cond 1 1 rn rd ofs         -- src/arm.c:279-282
def sw (cond rd rn ofs : CInt) : CInt := arm_transfer cond 0 4 rn rd ofs         -- src/arm.c:284-287
def sb (cond rd rn ofs : CInt) : CInt := arm_transfer cond 0 1 rn rd ofs         -- src/arm.c:289-292

/-- `__stmdb`, src/arm.c:294-297. -/
def stmdb (cond w rn reg_list : CInt) : CInt :=
  arm_encode cond (arm_stmdb + ((2 : CInt) <<< 6) + (w <<< 1)) rn 0 reg_list

/-- `__ldm`, src/arm.c:299-302. -/
def ldm (cond w rn reg_list : CInt) : CInt :=
  arm_encode cond (arm_ldm + ((2 : CInt) <<< 6) + (w <<< 1)) rn 0 reg_list

/-- `__b`, src/arm.c:304-308. -/
def b (cond ofs : CInt) : CInt :=
  let o := (ofs - 8).sshiftRight 2
  arm_encode cond 160 0 0 0 + (o &&& 16777215)

/-- `__bl`, src/arm.c:310-314. -/
def bl (cond ofs : CInt) : CInt :=
  let o := (ofs - 8).sshiftRight 2
  arm_encode cond 176 0 0 0 + (o &&& 16777215)

def blx (cond rd : CInt) : CInt := arm_encode cond 18 15 15 (rd + 3888)          -- src/arm.c:316-319
/-- `__mul`, src/arm.c:321-324. -/
def mul (cond rd r1 r2 : CInt) : CInt := arm_encode cond 0 rd 0 ((r1 <<< 8) + 144 + r2)
/-- `__div`, src/arm.c:326-329. -/
def div (cond rd r1 r2 : CInt) : CInt := arm_encode cond 113 rd 15 ((r1 <<< 8) + 16 + r2)
def rsb_i (cond rd imm rn : CInt) : Option CInt := mov cond 1 arm_rsb 0 rn rd imm -- src/arm.c:331-334
def cmp_r (cond r1 r2 : CInt) : Option CInt := mov cond 0 arm_cmp 1 r1 0 r2       -- src/arm.c:336-339
def cmp_i (cond rn imm : CInt) : Option CInt := mov cond 1 arm_cmp 1 rn 0 imm     -- src/arm.c:341-344
def teq (rd : CInt) : Option CInt := mov AL 1 arm_teq 1 rd 0 0                    -- src/arm.c:346-349

end Shecc.Arm
