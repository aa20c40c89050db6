import Verif.Lemmas.RvCg

/-!
# C12, C13, C15, C17 (RISC-V): arithmetic and constant-load instructions of the RISC-V back end

`CArith` (Spec/CArith.lean) is C arithmetic; `RV32.Computes` (Spec/RvAbi.lean) says that running the emitted words
puts a value in a register and preserves everything else; `emit_ph2_ir` is the modelled code generator.
-/

namespace Shecc.Props
open RV32 Shecc.Riscv

/-- The IR opcode of each C operator. -/
def opOfBin : CArith.BinOp → Op2
  | .add => .add | .sub => .sub | .mul => .mul | .div => .div | .mod => .mod | .shl => .lshift | .shr => .rshift
  | .eq => .eq | .ne => .neq | .lt => .lt | .le => .leq | .gt => .gt | .ge => .geq
  | .or => .bit_or | .and => .bit_and | .xor => .bit_xor

def opOfUn : CArith.UnOp → Op2
  | .neg => .negate | .bnot => .bit_not | .lnot => .log_not

/-- An IR instruction `d := a op b` on IR registers (0..7). -/
def IsBin (ir : Ph2Ir) (op : Op2) (d a b : BitVec 3) : Prop :=
  ir.op = op ∧ ir.dest = d.setWidth 32 ∧ ir.src0 = a.setWidth 32 ∧ ir.src1 = b.setWidth 32

/-- **C12.** Without the M extension, `d := a / b` and `d := a % b` (b ≠ 0) leave the C quotient / remainder in `d`,
for every register assignment (including coinciding registers) and all values, including INT_MIN. -/
theorem C12_softdiv (env : EmitEnv) (hs : env.hardMulDiv = false) (idx : CInt) (ir : Ph2Ir) (d a b : BitVec 3)
    (op : CArith.BinOp) (hop : op = .div ∨ op = .mod) (h : IsBin ir (opOfBin op) d a b) :
    ∃ ws, emit_ph2_ir env idx ir = some ws ∧
      Computes ws (irReg d) (fun s => CArith.bin op (s.get (irReg a)) (s.get (irReg b))) := by
  obtain ⟨h1, h2, h3, h4⟩ := h
  have hd := irReg_facts d
  have hb := irReg_facts b
  rcases hop with rfl | rfl <;> simp only [opOfBin] at h1 <;>
    simp only [emit_ph2_ir, h1, h2, h3, h4, ir_r32, hs, Bool.false_eq_true, if_false]
  · refine computes_of (softDiv_decodes ..) fun c s v hc hv => ?_
    obtain ⟨t, r, p1, p2, p3, p4⟩ := ev_div hd.1 hd.2.2.2.2.2.2.2.2.2 hb.2.2.2.2.2.2.1 hc s
    refine ⟨t, r, p1, ?_, fun q q1 q2 => ?_, p4⟩
    · rw [p2]; simp only [CArith.bin] at hv
      split at hv
      · cases hv
      · simpa using hv
    · have := not_scratch q2
      exact p3 q q1 this.1 this.2.1 this.2.2.1 this.2.2.2.1 this.2.2.2.2.2
  · refine computes_of (softDiv_decodes ..) fun c s v hc hv => ?_
    obtain ⟨t, r, p1, p2, p3, p4⟩ := ev_div hd.1 hd.2.2.2.2.2.2.2.2.2 hb.2.2.2.2.2.2.1 hc s
    refine ⟨t, r, p1, ?_, fun q q1 q2 => ?_, p4⟩
    · rw [p2]; simp only [CArith.bin] at hv
      split at hv
      · cases hv
      · simpa using hv
    · have := not_scratch q2
      exact p3 q q1 this.1 this.2.1 this.2.2.1 this.2.2.2.1 this.2.2.2.2.2

/-- **C12 (division by zero).** The same sequences give `a / 0 = 0` and `a % 0 = a` instead of trapping or looping. -/
theorem C12_softdiv_zero (env : EmitEnv) (hs : env.hardMulDiv = false) (idx : CInt) (ir : Ph2Ir) (d a b : BitVec 3)
    (m : Bool) (h : IsBin ir (if m then .mod else .div) d a b) :
    ∃ ws, emit_ph2_ir env idx ir = some ws ∧
      Computes ws (irReg d) (fun s => if s.get (irReg b) = 0#32 then some (if m then s.get (irReg a) else 0#32)
        else none) := by
  obtain ⟨h1, h2, h3, h4⟩ := h
  have hd := irReg_facts d
  have hb := irReg_facts b
  have e : emit_ph2_ir env idx ir = emits (softDiv m (r32 (irReg d)) (r32 (irReg a)) (r32 (irReg b))) := by
    cases m <;> simp only [Bool.false_eq_true, if_false, if_true] at h1 <;>
      simp only [emit_ph2_ir, h1, h2, h3, h4, ir_r32, hs, Bool.false_eq_true, if_false]
  rw [e]
  refine computes_of (softDiv_decodes ..) fun c s v hc hv => ?_
  obtain ⟨t, r, p1, p2, p3, p4⟩ := ev_div hd.1 hd.2.2.2.2.2.2.2.2.2 hb.2.2.2.2.2.2.1 hc s
  refine ⟨t, r, p1, ?_, fun q q1 q2 => ?_, p4⟩
  · rw [p2]
    split at hv
    · rename_i h0
      simp only [Option.some.injEq] at hv
      rw [← hv, h0]
      cases m <;> simp
    · cases hv
  · have := not_scratch q2
    exact p3 q q1 this.1 this.2.1 this.2.2.1 this.2.2.2.1 this.2.2.2.2.2

/-- **C13.** Without the M extension, `d := a * b` leaves the wrapped product in `d`. -/
theorem C13_softmul (env : EmitEnv) (hs : env.hardMulDiv = false) (idx : CInt) (ir : Ph2Ir) (d a b : BitVec 3)
    (h : IsBin ir .mul d a b) :
    ∃ ws, emit_ph2_ir env idx ir = some ws ∧
      Computes ws (irReg d) (fun s => CArith.bin .mul (s.get (irReg a)) (s.get (irReg b))) := by
  obtain ⟨h1, h2, h3, h4⟩ := h
  have hd := irReg_facts d
  have ha := irReg_facts a
  have hb := irReg_facts b
  simp only [emit_ph2_ir, h1, h2, h3, h4, ir_r32, hs, Bool.false_eq_true, if_false]
  refine computes_of (softMul_decodes ..) fun c s v hc hv => ?_
  obtain ⟨t, r, p1, p2, p3, p4⟩ := ev_mul hd.1 ⟨ha.2.2.2.2.1, ha.2.2.2.2.2.1⟩
    ⟨hb.2.2.2.2.1, hb.2.2.2.2.2.1, hb.2.2.2.2.2.2.2.1⟩ hc s
  refine ⟨t, r, p1, ?_, fun q q1 q2 => ?_, p4⟩
  · rw [p2]; simpa [CArith.bin] using hv
  · have := not_scratch q2
    exact p3 q q1 this.1 this.2.1 this.2.2.2.1 this.2.2.2.2.1

/-- **C15 (binary).** Every two-operand IR instruction `d := a op b` computes C's `a op b` on 32-bit ints, with or
without hardware multiply/divide, for every choice of registers. -/
theorem C15_binary (env : EmitEnv) (idx : CInt) (ir : Ph2Ir) (d a b : BitVec 3) (op : CArith.BinOp)
    (h : IsBin ir (opOfBin op) d a b) :
    ∃ ws, emit_ph2_ir env idx ir = some ws ∧
      Computes ws (irReg d) (fun s => CArith.bin op (s.get (irReg a)) (s.get (irReg b))) := by
  have h' := h
  obtain ⟨h1, h2, h3, h4⟩ := h
  have hd := (irReg_facts d).1
  cases op <;> simp only [opOfBin] at h1
  case div =>
    cases hs : env.hardMulDiv
    · exact C12_softdiv env hs idx ir d a b _ (.inl rfl) h'
    simp only [emit_ph2_ir, h1, h2, h3, h4, ir_r32, hs, if_true]
    refine one_r (dec_div ..) hd fun s v hv => ?_
    simp only [CArith.bin] at hv
    split at hv
    · cases hv
    · rename_i hne
      simp only [aluR]; rw [if_neg (by simpa using hne)]; simpa using hv
  case mod =>
    cases hs : env.hardMulDiv
    · exact C12_softdiv env hs idx ir d a b _ (.inr rfl) h'
    simp only [emit_ph2_ir, h1, h2, h3, h4, ir_r32, hs, if_true]
    refine one_r (dec_mod ..) hd fun s v hv => ?_
    simp only [CArith.bin] at hv
    split at hv
    · cases hv
    · rename_i hne
      simp only [aluR]; rw [if_neg (by simpa using hne)]; simpa using hv
  case mul =>
    cases hs : env.hardMulDiv
    · exact C13_softmul env hs idx ir d a b h'
    simp only [emit_ph2_ir, h1, h2, h3, h4, ir_r32, hs, if_true]
    exact one_r (dec_mul ..) hd fun s v hv => by simpa [CArith.bin, aluR] using hv
  all_goals simp only [emit_ph2_ir, h1, h2, h3, h4, ir_r32, zero_r32]
  case add => exact one_r (dec_add ..) hd fun s v hv => by simpa [CArith.bin, aluR] using hv
  case sub => exact one_r (dec_sub ..) hd fun s v hv => by simpa [CArith.bin, aluR] using hv
  case or => exact one_r (dec_or ..) hd fun s v hv => by simpa [CArith.bin, aluR] using hv
  case and => exact one_r (dec_and ..) hd fun s v hv => by simpa [CArith.bin, aluR] using hv
  case xor => exact one_r (dec_xor ..) hd fun s v hv => by simpa [CArith.bin, aluR] using hv
  case shl =>
    refine one_r (dec_sll ..) hd fun s v hv => ?_
    simp only [CArith.bin] at hv
    split at hv
    · rename_i hlt
      simp only [aluR, shl_val _ _ hlt]; simpa using hv
    · cases hv
  case shr =>
    refine one_r (dec_sra ..) hd fun s v hv => ?_
    simp only [CArith.bin] at hv
    split at hv
    · rename_i hlt
      simp only [aluR, shr_val _ _ hlt]; simpa using hv
    · cases hv
  case gt =>
    refine one_r (dec_slt ..) hd fun s v hv => ?_
    simp only [CArith.bin, Option.some.injEq] at hv
    rw [← hv]; exact slt_ofBool ..
  case lt =>
    refine one_r (dec_slt ..) hd fun s v hv => ?_
    simp only [CArith.bin, Option.some.injEq] at hv
    rw [← hv]; exact slt_ofBool ..
  case ge =>
    refine two_ri (dec_slt ..) (dec_xori _ _ _ (by decide) (by decide)) hd fun s v hv => ?_
    simp only [CArith.bin, Option.some.injEq] at hv
    rw [← hv]; exact slt_not_ofBool ..
  case le =>
    refine two_ri (dec_slt ..) (dec_xori _ _ _ (by decide) (by decide)) hd fun s v hv => ?_
    simp only [CArith.bin, Option.some.injEq] at hv
    rw [← hv]; exact slt_not_ofBool ..
  case ne =>
    refine computes_of (.cons (dec_sub ..) (.cons (dec_sltu ..) .nil)) fun c s v hc hv => ?_
    refine Ev.r hc 0 rfl (Ev.r hc 1 rfl (Ev.now ⟨rfl, ?_, ?_, ?_⟩))
    · simp only [CArith.bin, Option.some.injEq] at hv
      rw [← hv, ← neq_val]
      simp [get_set, hd, aluR]
    · intro q q1 _; simp [get_set, q1]
    · simp
  case eq =>
    refine computes_of (.cons (dec_sub ..) (.cons (dec_sltu ..)
      (.cons' (dec_xori _ _ _ (by decide) (by decide)) .nil))) fun c s v hc hv => ?_
    refine Ev.r hc 0 rfl (Ev.r hc 1 rfl (Ev.i hc 2 rfl (Ev.now ⟨rfl, ?_, ?_, ?_⟩)))
    · simp only [CArith.bin, Option.some.injEq] at hv
      rw [← hv, ← eq_val]
      simp [get_set, hd, aluR, aluI]
    · intro q q1 _; simp [get_set, q1]
    · simp

/-- **C15 (unary).** `d := op a` for negation, bitwise not and logical not. -/
theorem C15_unary (env : EmitEnv) (idx : CInt) (ir : Ph2Ir) (d a : BitVec 3) (op : CArith.UnOp)
    (h1 : ir.op = opOfUn op) (h2 : ir.dest = d.setWidth 32) (h3 : ir.src0 = a.setWidth 32) :
    ∃ ws, emit_ph2_ir env idx ir = some ws ∧
      Computes ws (irReg d) (fun s => some (CArith.un op (s.get (irReg a)))) := by
  have hd := (irReg_facts d).1
  cases op <;> simp only [opOfUn] at h1 <;> simp only [emit_ph2_ir, h1, h2, h3, ir_r32, zero_r32]
  case neg => exact one_r (dec_sub ..) hd fun s v hv => by simpa [CArith.un, aluR] using hv
  case bnot =>
    refine one_i (dec_xori _ _ _ (by decide) (by decide)) hd fun s v hv => ?_
    simp only [CArith.un, Option.some.injEq] at hv
    rw [← hv]; simp [aluI]
    rw [show (4294967295#32) = BitVec.allOnes 32 from rfl, BitVec.xor_allOnes]
  case lnot =>
    refine two_ri (dec_sltu ..) (dec_xori _ _ _ (by decide) (by decide)) hd fun s v hv => ?_
    simp only [CArith.un, Option.some.injEq] at hv
    rw [← hv, ← lnot_val]; simp [aluI, aluR]

/-- **C15 (assignment).** `d := a` copies the register. -/
theorem C15_assign (env : EmitEnv) (idx : CInt) (ir : Ph2Ir) (d a : BitVec 3)
    (h1 : ir.op = .assign) (h2 : ir.dest = d.setWidth 32) (h3 : ir.src0 = a.setWidth 32) :
    ∃ ws, emit_ph2_ir env idx ir = some ws ∧ Computes ws (irReg d) (fun s => some (s.get (irReg a))) := by
  simp only [emit_ph2_ir, h1, h2, h3, ir_r32]
  exact one_i (dec_addi _ _ _ (by decide) (by decide)) (irReg_facts d).1 fun s v hv => by simpa [aluI] using hv

/-- **C17 (RISC-V).** Loading an integer constant, the address of a stack or global variable, or of a string
literal leaves exactly that value in the destination, for every 32-bit value. -/
theorem C17_rv_constant (env : EmitEnv) (idx : CInt) (ir : Ph2Ir) (d : BitVec 3)
    (h1 : ir.op = .load_constant) (h2 : ir.dest = d.setWidth 32) :
    ∃ ws, emit_ph2_ir env idx ir = some ws ∧ Computes ws (irReg d) (fun _ => some ir.src0) := by
  have hd := (irReg_facts d).1
  simp only [emit_ph2_ir, h1, h2, ir_r32, zero_r32]
  split
  · obtain ⟨hl1, hl2⟩ := lo_range ir.src0
    refine computes_of (.cons (dec_lui ..) (.cons' (dec_addi _ _ _ hl1 hl2) .nil)) fun c s v hc hv => ?_
    refine Ev.lui hc 0 rfl (Ev.i hc 1 rfl (Ev.now ⟨rfl, ?_, ?_, ?_⟩))
    · simp only [Option.some.injEq] at hv
      rw [← hv]; simp [get_set, hd, aluI]; exact hi_lo _
    · intro q q1 _; simp [get_set, q1]
    · simp
  · rename_i hb
    obtain ⟨hl1, hl2⟩ := not_big (by simpa using hb)
    exact one_i (dec_addi _ _ _ hl1 hl2) hd fun s v hv => by simpa [aluI] using hv

theorem C17_rv_address (env : EmitEnv) (idx : CInt) (ir : Ph2Ir) (d : BitVec 3)
    (h1 : ir.op = .address_of ∨ ir.op = .global_address_of) (h2 : ir.dest = d.setWidth 32) :
    ∃ ws, emit_ph2_ir env idx ir = some ws ∧
      Computes ws (irReg d) (fun s => some (s.get (if ir.op = .address_of then 2#5 else 3#5) + ir.src0)) := by
  have hd := (irReg_facts d).1
  obtain ⟨_, _, hd2, hd3, hd5, _⟩ := irReg_facts d
  have key : ∀ base : Reg, base ≠ 5#5 →
      ∃ ws, (if big ir.src0 then
      emits [some (lui (r32 5#5) (rv_hi ir.src0)), addi (r32 5#5) (r32 5#5) (rv_lo ir.src0),
        some (add (r32 (irReg d)) (r32 base) (r32 5#5))]
    else emits [addi (r32 (irReg d)) (r32 base) ir.src0]) = some ws ∧
      Computes ws (irReg d) (fun s => some (s.get base + ir.src0)) := by
    intro base hbase
    split
    · obtain ⟨hl1, hl2⟩ := lo_range ir.src0
      refine computes_of (.cons (dec_lui ..) (.cons' (dec_addi _ _ _ hl1 hl2) (.cons (dec_add ..) .nil)))
        fun c s v hc hv => ?_
      refine Ev.lui hc 0 rfl (Ev.i hc 1 rfl (Ev.r hc 2 rfl (Ev.now ⟨rfl, ?_, ?_, ?_⟩)))
      · simp only [Option.some.injEq] at hv
        rw [← hv]; simp [get_set, hd, aluI, aluR, hi_lo, hbase]
      · intro q q1 q2; have := not_scratch q2; simp [get_set, q1, this]
      · simp
    · rename_i hb
      obtain ⟨hl1, hl2⟩ := not_big (by simpa using hb)
      exact one_i (dec_addi _ _ _ hl1 hl2) hd fun s v hv => by simpa [aluI] using hv
  rcases h1 with h1 | h1 <;> simp only [emit_ph2_ir, h1, h2, ir_r32, sp_r32, gp_r32, t0_r32, if_true, reduceCtorEq,
    if_false]
  · exact key 2#5 (by decide)
  · exact key 3#5 (by decide)

theorem C17_rv_data_address (env : EmitEnv) (idx : CInt) (ir : Ph2Ir) (d : BitVec 3)
    (h1 : ir.op = .load_data_address) (h2 : ir.dest = d.setWidth 32) :
    ∃ ws, emit_ph2_ir env idx ir = some ws ∧ Computes ws (irReg d) (fun _ => some (env.dataStart + ir.src0)) := by
  have hd := (irReg_facts d).1
  simp only [emit_ph2_ir, h1, h2, ir_r32]
  obtain ⟨hl1, hl2⟩ := lo_range (env.dataStart + ir.src0)
  refine computes_of (.cons (dec_lui ..) (.cons' (dec_addi _ _ _ hl1 hl2) .nil)) fun c s v hc hv => ?_
  refine Ev.lui hc 0 rfl (Ev.i hc 1 rfl (Ev.now ⟨rfl, ?_, ?_, ?_⟩))
  · simp only [Option.some.injEq] at hv
    rw [← hv]; simp [get_set, hd, aluI]; exact hi_lo _
  · intro q q1 _; simp [get_set, q1]
  · simp

/-! Non-vacuity: concrete instructions meeting the hypotheses, with undefined-free inputs. -/

example : IsBin { op := .div, dest := 3, src0 := 3, src1 := 5 } (opOfBin .div) 3 3 5 := ⟨rfl, rfl, rfl, rfl⟩
example : CArith.bin .div (-7) 2 = some (-3) := by decide
example : CArith.bin .mod (-7) 2 = some (-1) := by decide
example : CArith.bin .shr (-7) 1 = some (-4) := by decide

end Shecc.Props
