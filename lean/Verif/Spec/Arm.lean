/-!
# Specification: a subset of the ARMv7-A instruction set (A32 encoding)

Written from the ARM Architecture Reference Manual, ARMv7-A edition (A5 instruction encodings, A8 instruction
descriptions, A2.2 pseudocode functions), without reference to the compiler.  `decode` maps an instruction word to an
instruction; `step` is the effect of one instruction on registers, flags, program counter and memory.  Words outside
the subset, and cases the manual calls UNPREDICTABLE, do not execute (`none` / `trap`).
-/

namespace ARM

abbrev Word := BitVec 32
abbrev Reg := BitVec 4

/-- Data-processing operations (A5.2, opcode field). -/
inductive DpOp | and | eor | sub | rsb | add | adc | sbc | rsc | tst | teq | cmp | cmn | orr | mov | bic | mvn
  deriving DecidableEq, Repr

/-- The second operand of a data-processing instruction. -/
inductive Op2
  /-- modified immediate constant (A5.2.4): 4-bit rotation, 8-bit value -/
  | imm (imm12 : BitVec 12)
  /-- register shifted by a constant -/
  | shImm (rm : Reg) (type : BitVec 2) (imm5 : BitVec 5)
  /-- register shifted by a register -/
  | shReg (rm : Reg) (type : BitVec 2) (rs : Reg)
  deriving DecidableEq, Repr

inductive Act
  | dp (op : DpOp) (s : Bool) (rd rn : Reg) (o : Op2)
  | movw (rd : Reg) (imm16 : BitVec 16)
  | movt (rd : Reg) (imm16 : BitVec 16)
  | mul (rd rn rm : Reg)
  | sdiv (rd rn rm : Reg)
  /-- `LDR`/`LDRB rt, [rn, #±imm12]` (`ofs` is the signed offset) -/
  | ldr (byte : Bool) (rt rn : Reg) (ofs : Word)
  /-- `STR`/`STRB rt, [rn, #±imm12]` -/
  | str (byte : Bool) (rt rn : Reg) (ofs : Word)
  /-- `STMDB rn!, {list}` -/
  | stmdb (rn : Reg) (list : BitVec 16)
  /-- `LDMIA rn!, {list}` -/
  | ldmia (rn : Reg) (list : BitVec 16)
  /-- `B`/`BL`: offset relative to the instruction's address + 8 -/
  | b (link : Bool) (ofs : Word)
  | blx (rm : Reg)
  | svc (imm24 : BitVec 24)
  deriving DecidableEq, Repr

/-- An instruction: condition field and action. -/
structure Instr where
  cond : BitVec 4
  act : Act
  deriving DecidableEq, Repr

/-! ## Fields and decoding -/

def fCond (w : Word) : BitVec 4 := w.extractLsb' 28 4
/-- bits 27:20 -/
def fOp (w : Word) : BitVec 8 := w.extractLsb' 20 8
/-- bits 19:16 -/
def fRn (w : Word) : Reg := w.extractLsb' 16 4
/-- bits 15:12 -/
def fRd (w : Word) : Reg := w.extractLsb' 12 4
/-- bits 11:0 -/
def fLo (w : Word) : BitVec 12 := w.extractLsb' 0 12

/-- Opcode field of a data-processing instruction. -/
def dpOp (n : Nat) : DpOp :=
  match n with
  | 0 => .and | 1 => .eor | 2 => .sub | 3 => .rsb | 4 => .add | 5 => .adc | 6 => .sbc | 7 => .rsc
  | 8 => .tst | 9 => .teq | 10 => .cmp | 11 => .cmn | 12 => .orr | 13 => .mov | 14 => .bic | _ => .mvn

/-- Data-processing: bits 24:21 opcode, bit 20 S.  Opcodes 10xx with S = 0 are other instructions. -/
def decodeDp (op : Nat) (rn rd : Reg) (o : Op2) : Option Act :=
  if 8 ≤ op / 2 % 16 ∧ op / 2 % 16 < 12 ∧ op % 2 = 0 then none
  else some (.dp (dpOp (op / 2 % 16)) (op % 2 == 1) rd rn o)

/-- Load/store word/byte, immediate offset (bits 24 P, 23 U, 22 B, 21 W, 20 L); only P = 1, W = 0. -/
def decodeMem (op : Nat) (rn rd : Reg) (lo : BitVec 12) : Option Act :=
  if op / 16 % 2 = 1 ∧ op / 2 % 2 = 0 then
    let ofs : Word := if op / 8 % 2 = 1 then lo.setWidth 32 else - lo.setWidth 32
    some (if op % 2 = 1 then .ldr (op / 4 % 2 == 1) rd rn ofs else .str (op / 4 % 2 == 1) rd rn ofs)
  else none

/-- Everything but the condition, from bits 27:20, 19:16, 15:12 and 11:0. -/
def decodeAct (op : Nat) (rn rd : Reg) (lo : BitVec 12) : Option Act :=
  let rm : Reg := lo.extractLsb' 0 4
  let rs : Reg := lo.extractLsb' 8 4
  let b74 := (lo.extractLsb' 4 4).toNat
  match op / 32 with
  | 0 =>
    if b74 % 2 = 0 then decodeDp op rn rd (.shImm rm (lo.extractLsb' 5 2) (lo.extractLsb' 7 5))
    else if b74 / 8 = 0 then
      if op = 0x12 then
        if rn = 15#4 ∧ rd = 15#4 ∧ rs = 15#4 ∧ b74 = 3 then some (.blx rm) else none
      else decodeDp op rn rd (.shReg rm (lo.extractLsb' 5 2) rs)
    else if op = 0 ∧ b74 = 9 ∧ rd = 0#4 then some (.mul rn rm rs)
    else none
  | 1 =>
    if op = 0x30 then some (.movw rd (rn ++ lo))
    else if op = 0x34 then some (.movt rd (rn ++ lo))
    else decodeDp op rn rd (.imm lo)
  | 2 => decodeMem op rn rd lo
  | 3 => if op = 0x71 ∧ rd = 15#4 ∧ b74 = 1 then some (.sdiv rn rm rs) else none
  | 4 =>
    if op = 0x92 then some (.stmdb rn (rd ++ lo))
    else if op = 0x8B then some (.ldmia rn (rd ++ lo))
    else none
  | 5 => some (.b (op / 16 % 2 == 1) (((BitVec.ofNat 4 op ++ rn ++ rd ++ lo ++ 0#2).signExtend 32)))
  | 7 => if op / 16 % 2 = 1 then some (.svc (BitVec.ofNat 4 op ++ rn ++ rd ++ lo)) else none
  | _ => none

/-- The instruction denoted by a word; `none` outside the modelled subset. -/
def decode (w : Word) : Option Instr :=
  if fCond w = 15#4 then none
  else (decodeAct (fOp w).toNat (fRn w) (fRd w) (fLo w)).map fun a => ⟨fCond w, a⟩

/-! ## Machine -/

structure Flags where
  n : Bool
  z : Bool
  c : Bool
  v : Bool
  deriving DecidableEq, Repr

structure State where
  /-- r0 .. r14 -/
  regs : Reg → Word
  flags : Flags
  pc : Word
  mem : Word → BitVec 8

/-- Read a register; r15 reads as the address of the instruction plus 8. -/
def State.get (s : State) (r : Reg) : Word := if r = 15#4 then s.pc + 8#32 else s.regs r

/-- Write r0 .. r14. -/
def State.set (s : State) (r : Reg) (v : Word) : State :=
  { s with regs := fun q => if q = r then v else s.regs q }

/-- Little-endian word load. -/
def State.load32 (s : State) (a : Word) : Word := s.mem (a + 3) ++ s.mem (a + 2) ++ s.mem (a + 1) ++ s.mem a

def State.store8 (s : State) (a : Word) (v : BitVec 8) : State :=
  { s with mem := fun b => if b = a then v else s.mem b }
/-- Little-endian word store. -/
def State.store32 (s : State) (a : Word) (v : Word) : State :=
  (((s.store8 a (v.extractLsb' 0 8)).store8 (a + 1) (v.extractLsb' 8 8)).store8 (a + 2) (v.extractLsb' 16 8)).store8
    (a + 3) (v.extractLsb' 24 8)

/-- Condition codes (A8.3). -/
def condHolds (cond : BitVec 4) (f : Flags) : Bool :=
  match cond.toNat with
  | 0 => f.z
  | 1 => !f.z
  | 2 => f.c
  | 3 => !f.c
  | 4 => f.n
  | 5 => !f.n
  | 6 => f.v
  | 7 => !f.v
  | 8 => f.c && !f.z
  | 9 => !(f.c && !f.z)
  | 10 => f.n == f.v
  | 11 => !(f.n == f.v)
  | 12 => f.n == f.v && !f.z
  | 13 => !(f.n == f.v && !f.z)
  | _ => true

/-- `Shift_C` with a shift amount `n`: result and carry out. -/
def shiftC (type : Nat) (x : Word) (n : Nat) (cin : Bool) : Word × Bool :=
  if n = 0 then (x, cin)
  else match type with
    | 0 => (x <<< n, decide (n ≤ 32) && x.getLsbD (32 - n))
    | 1 => (x >>> n, x.getLsbD (n - 1))
    | 2 => (x.sshiftRight n, x.getLsbD (min (n - 1) 31))
    | _ => (x.rotateRight (n % 32), (x.rotateRight (n % 32)).getLsbD 31)

/-- `RRX_C`. -/
def rrx (x : Word) (cin : Bool) : Word × Bool := (BitVec.ofBool cin ++ x.extractLsb' 1 31, x.getLsbD 0)

/-- Value and shifter carry-out of an operand (`ARMExpandImm_C`, `DecodeImmShift`, `Shift_C`). -/
def op2Val (s : State) : Op2 → Word × Bool
  | .imm i => shiftC 3 ((i.extractLsb' 0 8).setWidth 32) (2 * (i.extractLsb' 8 4).toNat) s.flags.c
  | .shImm rm t i =>
    if i = 0#5 then
      match t.toNat with
      | 0 => (s.get rm, s.flags.c)
      | 3 => rrx (s.get rm) s.flags.c
      | t => shiftC t (s.get rm) 32 s.flags.c
    else shiftC t.toNat (s.get rm) i.toNat s.flags.c
  | .shReg rm t rs => shiftC t.toNat (s.get rm) ((s.get rs).toNat % 256) s.flags.c

/-- `AddWithCarry`: result, carry, overflow. -/
def addWithCarry (x y : Word) (c : Bool) : Word × Bool × Bool :=
  let r := x + y + BitVec.setWidth 32 (BitVec.ofBool c)
  (r, decide (2 ^ 32 ≤ x.toNat + y.toNat + c.toNat), decide (x.toInt + y.toInt + (c.toNat : Int) ≠ r.toInt))

/-- Result, carry, overflow of a data-processing operation on first operand `a`, shifter result `b`/`sc`. -/
def dpVal (op : DpOp) (f : Flags) (a b : Word) (sc : Bool) : Word × Bool × Bool :=
  match op with
  | .and | .tst => (a &&& b, sc, f.v)
  | .eor | .teq => (a ^^^ b, sc, f.v)
  | .sub | .cmp => addWithCarry a (~~~b) true
  | .rsb => addWithCarry (~~~a) b true
  | .add | .cmn => addWithCarry a b false
  | .adc => addWithCarry a b f.c
  | .sbc => addWithCarry a (~~~b) f.c
  | .rsc => addWithCarry (~~~a) b f.c
  | .orr => (a ||| b, sc, f.v)
  | .mov => (b, sc, f.v)
  | .bic => (a &&& ~~~b, sc, f.v)
  | .mvn => (~~~b, sc, f.v)

/-- Operations that only set flags. -/
def DpOp.test : DpOp → Bool
  | .tst | .teq | .cmp | .cmn => true
  | _ => false

/-- Registers of an LDM/STM list, in ascending order. -/
def regList (l : BitVec 16) : List Reg := ((List.range 16).filter fun i => l.getLsbD i).map (BitVec.ofNat 4)

/-- Store the given values at consecutive words. -/
def storeWords (s : State) : Word → List Word → State
  | _, [] => s
  | a, v :: vs => storeWords (s.store32 a v) (a + 4#32) vs

/-- Load registers from consecutive words of the memory of `m`. -/
def loadWords (m : State) (s : State) : Word → List Reg → State
  | _, [] => s
  | a, r :: rs => loadWords m (s.set r (m.load32 a)) (a + 4#32) rs

/-- The outcome of one instruction: continue, supervisor call (pc still at the `svc`), or trap. -/
inductive Outcome
  | next (s : State)
  | svc (s : State)
  | trap

/-- A branch to an address that stays in ARM state; anything else is outside the model. -/
def branchTo (s : State) (a : Word) : Outcome := if a.toNat % 4 = 0 then .next { s with pc := a } else .trap

/-- The effect of an action whose condition holds. -/
def execAct (a : Act) (s : State) : Outcome :=
  let adv (t : State) : Outcome := .next { t with pc := s.pc + 4#32 }
  match a with
  | .dp op sf rd rn o =>
    let b := op2Val s o
    let r := dpVal op s.flags (s.get rn) b.1 b.2
    let s1 : State := if sf then { s with flags := ⟨r.1.msb, r.1 == 0#32, r.2.1, r.2.2⟩ } else s
    if op.test then adv s1
    else if rd = 15#4 then (if sf then .trap else branchTo s1 r.1)
    else adv (s1.set rd r.1)
  | .movw rd i => if rd = 15#4 then .trap else adv (s.set rd (i.setWidth 32))
  | .movt rd i => if rd = 15#4 then .trap else adv (s.set rd (i ++ (s.get rd).extractLsb' 0 16))
  | .mul rd rn rm => if rd = 15#4 ∨ rn = 15#4 ∨ rm = 15#4 then .trap else adv (s.set rd (s.get rn * s.get rm))
  | .sdiv rd rn rm =>
    if rd = 15#4 ∨ rn = 15#4 ∨ rm = 15#4 then .trap
    else adv (s.set rd (if s.get rm = 0#32 then 0#32 else BitVec.ofInt 32 ((s.get rn).toInt.tdiv (s.get rm).toInt)))
  | .ldr byte rt rn ofs =>
    if rt = 15#4 then .trap
    else adv (s.set rt (if byte then (s.mem (s.get rn + ofs)).setWidth 32 else s.load32 (s.get rn + ofs)))
  | .str byte rt rn ofs =>
    if rt = 15#4 then .trap
    else adv (if byte then s.store8 (s.get rn + ofs) ((s.get rt).setWidth 8) else s.store32 (s.get rn + ofs) (s.get rt))
  | .stmdb rn l =>
    let rs := regList l
    let base := s.get rn - BitVec.ofNat 32 (4 * rs.length)
    if rs = [] ∨ rn ∈ rs ∨ 15#4 ∈ rs ∨ rn = 15#4 ∨ (s.get rn).toNat % 4 ≠ 0 then .trap
    else adv ((storeWords s base (rs.map s.get)).set rn base)
  | .ldmia rn l =>
    let rs := regList l
    if rs = [] ∨ rn ∈ rs ∨ 15#4 ∈ rs ∨ rn = 15#4 ∨ (s.get rn).toNat % 4 ≠ 0 then .trap
    else adv ((loadWords s s (s.get rn) rs).set rn (s.get rn + BitVec.ofNat 32 (4 * rs.length)))
  | .b link ofs =>
    let s1 := if link then s.set 14#4 (s.pc + 4#32) else s
    .next { s1 with pc := s.pc + 8#32 + ofs }
  | .blx rm => if rm = 15#4 then .trap else branchTo (s.set 14#4 (s.pc + 4#32)) (s.get rm)
  | .svc _ => .svc s

/-- The effect of one decoded instruction. -/
def exec (i : Instr) (s : State) : Outcome :=
  if condHolds i.cond s.flags then execAct i.act s else .next { s with pc := s.pc + 4#32 }

/-- Instruction memory (code is not self modifying): the word at each address, if any. -/
abbrev Code := Word → Option Word

/-- One step: fetch, decode, execute. -/
def step (c : Code) (s : State) : Outcome :=
  match c s.pc with
  | none => .trap
  | some w =>
    match decode w with
    | none => .trap
    | some ins => exec ins s

/-- `Reaches c s t`: the machine gets from `s` to `t` in finitely many steps without supervisor call or trap. -/
inductive Reaches (c : Code) : State → State → Prop
  | refl (s : State) : Reaches c s s
  | head {s t u : State} : step c s = .next t → Reaches c t u → Reaches c s u

/-- The words `ws` are in instruction memory from address `base` on. -/
def CodeAt (c : Code) (base : Word) (ws : List Word) : Prop :=
  ∀ (i : Nat) (w : Word), ws[i]? = some w → c (base + BitVec.ofNat 32 (4 * i)) = some w

end ARM
