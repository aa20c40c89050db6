/-!
# Specification: the RV32IM instruction set (subset without CSR/fence)

Written from the RISC-V unprivileged ISA manual (instruction formats, RV32I and the "M" extension), without
reference to the compiler.  `decode` maps an instruction word to an instruction; `step` is the effect of one
instruction on registers, program counter and memory.
-/

namespace RV32

abbrev Word := BitVec 32
abbrev Reg := BitVec 5

/-- Register-register operations (opcode OP). -/
inductive RKind
  | add | sub | sll | slt | sltu | xor | srl | sra | or | and
  | mul | mulh | mulhsu | mulhu | div | divu | rem | remu
  deriving DecidableEq, Repr

/-- Register-immediate operations (opcode OP-IMM, non shifts). -/
inductive IKind | addi | slti | sltiu | xori | ori | andi
  deriving DecidableEq, Repr

/-- Shifts by an immediate. -/
inductive ShKind | slli | srli | srai
  deriving DecidableEq, Repr

inductive LdKind | lb | lh | lw | lbu | lhu
  deriving DecidableEq, Repr

inductive StKind | sb | sh | sw
  deriving DecidableEq, Repr

inductive BrKind | beq | bne | blt | bge | bltu | bgeu
  deriving DecidableEq, Repr

/-- Instructions.  Immediates are stored already sign-extended to 32 bits (and, for branches and jumps, as a byte
offset relative to the instruction; for `lui`/`auipc` already shifted left by 12). -/
inductive Instr
  | r (k : RKind) (rd rs1 rs2 : Reg)
  | i (k : IKind) (rd rs1 : Reg) (imm : Word)
  | sh (k : ShKind) (rd rs1 : Reg) (shamt : BitVec 5)
  | load (k : LdKind) (rd base : Reg) (ofs : Word)
  | store (k : StKind) (src base : Reg) (ofs : Word)
  | branch (k : BrKind) (rs1 rs2 : Reg) (ofs : Word)
  | jal (rd : Reg) (ofs : Word)
  | jalr (rd rs1 : Reg) (ofs : Word)
  | lui (rd : Reg) (imm : Word)
  | auipc (rd : Reg) (imm : Word)
  | ecall
  | ebreak
  deriving DecidableEq, Repr

/-! ## Fields of an instruction word -/

def opcode (w : Word) : BitVec 7 := w.extractLsb' 0 7
def rd (w : Word) : Reg := w.extractLsb' 7 5
def funct3 (w : Word) : BitVec 3 := w.extractLsb' 12 3
def rs1 (w : Word) : Reg := w.extractLsb' 15 5
def rs2 (w : Word) : Reg := w.extractLsb' 20 5
def funct7 (w : Word) : BitVec 7 := w.extractLsb' 25 7

/-- I-immediate: inst[31:20]. -/
def immI (w : Word) : Word := (w.extractLsb' 20 12).signExtend 32
/-- S-immediate: inst[31:25] inst[11:7]. -/
def immS (w : Word) : Word := (w.extractLsb' 25 7 ++ w.extractLsb' 7 5).signExtend 32
/-- B-immediate: inst[31] inst[7] inst[30:25] inst[11:8] 0. -/
def immB (w : Word) : Word :=
  (w.extractLsb' 31 1 ++ w.extractLsb' 7 1 ++ w.extractLsb' 25 6 ++ w.extractLsb' 8 4 ++ 0#1).signExtend 32
/-- U-immediate: inst[31:12] followed by twelve zeros. -/
def immU (w : Word) : Word := w.extractLsb' 12 20 ++ 0#12
/-- J-immediate: inst[31] inst[19:12] inst[20] inst[30:21] 0. -/
def immJ (w : Word) : Word :=
  (w.extractLsb' 31 1 ++ w.extractLsb' 12 8 ++ w.extractLsb' 20 1 ++ w.extractLsb' 21 10 ++ 0#1).signExtend 32

/-- OP (0110011): operation selected by funct7 and funct3. -/
def decodeR (f7 f3 : Nat) : Option RKind :=
  match f7, f3 with
  | 0, 0 => some .add | 32, 0 => some .sub | 0, 1 => some .sll | 0, 2 => some .slt
  | 0, 3 => some .sltu | 0, 4 => some .xor | 0, 5 => some .srl | 32, 5 => some .sra
  | 0, 6 => some .or | 0, 7 => some .and
  | 1, 0 => some .mul | 1, 1 => some .mulh | 1, 2 => some .mulhsu | 1, 3 => some .mulhu
  | 1, 4 => some .div | 1, 5 => some .divu | 1, 6 => some .rem | 1, 7 => some .remu
  | _, _ => none

/-- OP-IMM (0010011) other than shifts. -/
def decodeI (f3 : Nat) : Option IKind :=
  match f3 with
  | 0 => some .addi | 2 => some .slti | 3 => some .sltiu | 4 => some .xori | 6 => some .ori | 7 => some .andi
  | _ => none

/-- OP-IMM shifts: funct3 is 001 or 101, the upper 7 immediate bits select the kind. -/
def decodeSh (f7 f3 : Nat) : Option ShKind :=
  match f7, f3 with
  | 0, 1 => some .slli | 0, 5 => some .srli | 32, 5 => some .srai
  | _, _ => none

def decodeLd (f3 : Nat) : Option LdKind :=
  match f3 with
  | 0 => some .lb | 1 => some .lh | 2 => some .lw | 4 => some .lbu | 5 => some .lhu
  | _ => none

def decodeSt (f3 : Nat) : Option StKind :=
  match f3 with
  | 0 => some .sb | 1 => some .sh | 2 => some .sw
  | _ => none

def decodeBr (f3 : Nat) : Option BrKind :=
  match f3 with
  | 0 => some .beq | 1 => some .bne | 4 => some .blt | 5 => some .bge | 6 => some .bltu | 7 => some .bgeu
  | _ => none

/-- The instruction denoted by a word; `none` for words outside the modelled subset. -/
def decode (w : Word) : Option Instr :=
  match (opcode w).toNat with
  | 0b0110011 => (decodeR (funct7 w).toNat (funct3 w).toNat).map fun k => .r k (rd w) (rs1 w) (rs2 w)
  | 0b0010011 =>
    if (funct3 w).toNat = 1 ∨ (funct3 w).toNat = 5 then
      (decodeSh (funct7 w).toNat (funct3 w).toNat).map fun k => .sh k (rd w) (rs1 w) (rs2 w)
    else (decodeI (funct3 w).toNat).map fun k => .i k (rd w) (rs1 w) (immI w)
  | 0b0000011 => (decodeLd (funct3 w).toNat).map fun k => .load k (rd w) (rs1 w) (immI w)
  | 0b0100011 => (decodeSt (funct3 w).toNat).map fun k => .store k (rs2 w) (rs1 w) (immS w)
  | 0b1100011 => (decodeBr (funct3 w).toNat).map fun k => .branch k (rs1 w) (rs2 w) (immB w)
  | 0b1101111 => some (.jal (rd w) (immJ w))
  | 0b1100111 => if (funct3 w).toNat = 0 then some (.jalr (rd w) (rs1 w) (immI w)) else none
  | 0b0110111 => some (.lui (rd w) (immU w))
  | 0b0010111 => some (.auipc (rd w) (immU w))
  | 0b1110011 => if w = 0x00000073#32 then some .ecall else if w = 0x00100073#32 then some .ebreak else none
  | _ => none

/-! ## Machine -/

structure State where
  /-- Architectural registers; `x0` is forced to zero by `get`/`set`. -/
  regs : Reg → Word
  pc : Word
  mem : Word → BitVec 8

/-- Read a register (`x0` reads zero). -/
def State.get (s : State) (r : Reg) : Word := if r = 0#5 then 0#32 else s.regs r

/-- Write a register (writes to `x0` are ignored). -/
def State.set (s : State) (r : Reg) (v : Word) : State :=
  if r = 0#5 then s else { s with regs := fun q => if q = r then v else s.regs q }

def State.load8 (s : State) (a : Word) : BitVec 8 := s.mem a
def State.load16 (s : State) (a : Word) : BitVec 16 := s.mem (a + 1) ++ s.mem a
/-- Little-endian word load. -/
def State.load32 (s : State) (a : Word) : Word := s.mem (a + 3) ++ s.mem (a + 2) ++ s.mem (a + 1) ++ s.mem a

def State.store8 (s : State) (a : Word) (v : BitVec 8) : State :=
  { s with mem := fun b => if b = a then v else s.mem b }
def State.store16 (s : State) (a : Word) (v : BitVec 16) : State :=
  (s.store8 a (v.extractLsb' 0 8)).store8 (a + 1) (v.extractLsb' 8 8)
/-- Little-endian word store. -/
def State.store32 (s : State) (a : Word) (v : Word) : State :=
  (((s.store8 a (v.extractLsb' 0 8)).store8 (a + 1) (v.extractLsb' 8 8)).store8 (a + 2) (v.extractLsb' 16 8)).store8
    (a + 3) (v.extractLsb' 24 8)

/-- Results of the register-register operations (RV32I 2.4, "M" chapter incl. division by zero and overflow). -/
def aluR (k : RKind) (a b : Word) : Word :=
  match k with
  | .add => a + b
  | .sub => a - b
  | .sll => a <<< (b.toNat % 32)
  | .slt => if a.slt b then 1 else 0
  | .sltu => if a.ult b then 1 else 0
  | .xor => a ^^^ b
  | .srl => a >>> (b.toNat % 32)
  | .sra => a.sshiftRight (b.toNat % 32)
  | .or => a ||| b
  | .and => a &&& b
  | .mul => a * b
  | .mulh => BitVec.ofInt 32 ((a.toInt * b.toInt) / 2 ^ 32)
  | .mulhsu => BitVec.ofInt 32 ((a.toInt * b.toNat) / 2 ^ 32)
  | .mulhu => BitVec.ofNat 32 ((a.toNat * b.toNat) / 2 ^ 32)
  | .div => if b = 0 then -1 else BitVec.ofInt 32 (a.toInt.tdiv b.toInt)
  | .divu => if b = 0 then -1 else BitVec.ofNat 32 (a.toNat / b.toNat)
  | .rem => if b = 0 then a else BitVec.ofInt 32 (a.toInt.tmod b.toInt)
  | .remu => if b = 0 then a else BitVec.ofNat 32 (a.toNat % b.toNat)

def aluI (k : IKind) (a imm : Word) : Word :=
  match k with
  | .addi => a + imm
  | .slti => if a.slt imm then 1 else 0
  | .sltiu => if a.ult imm then 1 else 0
  | .xori => a ^^^ imm
  | .ori => a ||| imm
  | .andi => a &&& imm

def aluSh (k : ShKind) (a : Word) (sh : BitVec 5) : Word :=
  match k with
  | .slli => a <<< sh.toNat
  | .srli => a >>> sh.toNat
  | .srai => a.sshiftRight sh.toNat

def brCond (k : BrKind) (a b : Word) : Bool :=
  match k with
  | .beq => a == b
  | .bne => a != b
  | .blt => a.slt b
  | .bge => !a.slt b
  | .bltu => a.ult b
  | .bgeu => !a.ult b

/-- The outcome of one instruction: continue, environment call (pc still at the `ecall`), or trap. -/
inductive Outcome
  | next (s : State)
  | ecall (s : State)
  | trap

/-- The effect of one decoded instruction. -/
def exec (ins : Instr) (s : State) : Outcome :=
  let adv (t : State) : Outcome := .next { t with pc := s.pc + 4 }
  match ins with
  | .r k rd a b => adv (s.set rd (aluR k (s.get a) (s.get b)))
  | .i k rd a imm => adv (s.set rd (aluI k (s.get a) imm))
  | .sh k rd a n => adv (s.set rd (aluSh k (s.get a) n))
  | .load k rd b ofs =>
    let a := s.get b + ofs
    adv (s.set rd (match k with
      | .lb => (s.load8 a).signExtend 32
      | .lh => (s.load16 a).signExtend 32
      | .lw => s.load32 a
      | .lbu => (s.load8 a).setWidth 32
      | .lhu => (s.load16 a).setWidth 32))
  | .store k src b ofs =>
    let a := s.get b + ofs
    adv (match k with
      | .sb => s.store8 a ((s.get src).setWidth 8)
      | .sh => s.store16 a ((s.get src).setWidth 16)
      | .sw => s.store32 a (s.get src))
  | .branch k a b ofs => .next { s with pc := if brCond k (s.get a) (s.get b) then s.pc + ofs else s.pc + 4 }
  | .jal rd ofs => .next { s.set rd (s.pc + 4) with pc := s.pc + ofs }
  | .jalr rd a ofs => .next { s.set rd (s.pc + 4) with pc := (s.get a + ofs) &&& 0xFFFFFFFE#32 }
  | .lui rd imm => adv (s.set rd imm)
  | .auipc rd imm => adv (s.set rd (s.pc + imm))
  | .ecall => .ecall s
  | .ebreak => .trap

/-- Instruction memory (code is not self modifying): the word at each address, if any. -/
abbrev Code := Word → Option Word

/-- One step: fetch, decode, execute. -/
def step (c : Code) (s : State) : Outcome :=
  match c s.pc with
  | none => .trap
  | some w =>
    match decode w with
    | none => .trap
    | some ins => exec ins s

/-- `Reaches c s t`: the machine gets from `s` to `t` in finitely many steps without environment call or trap. -/
inductive Reaches (c : Code) : State → State → Prop
  | refl (s : State) : Reaches c s s
  | head {s t u : State} : step c s = .next t → Reaches c t u → Reaches c s u

/-- The words `ws` are in instruction memory from address `base` on. -/
def CodeAt (c : Code) (base : Word) (ws : List Word) : Prop :=
  ∀ (i : Nat) (w : Word), ws[i]? = some w → c (base + BitVec.ofNat 32 (4 * i)) = some w

end RV32
