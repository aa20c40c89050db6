import Verif.Lemmas.ArmCg2
import Verif.Props.RvAlu

/-!
# C14, C16, C17 (ARM): arithmetic and constant-load instructions of the ARM back end

`CArith` (Spec/CArith.lean) is C arithmetic; `ARM.Computes`, `ARM.ComputesMem` (Spec/ArmAbi.lean) say that running the
emitted words puts a value in a register and preserves every other register but r8, r9, r10.
-/

namespace Shecc.Props
open ARM Shecc.Arm

theorem ofInt_div_mod (x y : Word) :
    x - y * BitVec.ofInt 32 (x.toInt.tdiv y.toInt) = BitVec.ofInt 32 (x.toInt.tmod y.toInt) := by
  rw [Int.tmod_def, BitVec.sub_eq_add_neg, Int.sub_eq_add_neg, BitVec.ofInt_add, BitVec.ofInt_neg, BitVec.ofInt_mul]
  simp

/-- The common core: the software sequence, distinct operand registers. -/
theorem softdiv_core (m : Bool) (d a b : BitVec 3) (hab : a ≠ b) :
    ∃ ws, emits (softDiv m (u32 (irReg d)) (u32 (irReg a)) (u32 (irReg b))) = some ws ∧
      ComputesMem ws (irReg d)
        (fun s => if (s.get 13#4).toNat % 4 = 0 then some (divRes m (s.get (irReg a)) (s.get (irReg b))) else none)
        (fun s => spill s.mem (s.get 13#4) a b (s.get (irReg a)) (s.get (irReg b))) := by
  refine computes_of (softDiv_decodes m d a b) (irReg_facts d).2.2.2.2.2.2 fun c s v hi hv => ?_
  simp only [get_13, get_ir] at hv ⊢
  split at hv
  · rename_i hsp
    obtain ⟨t, r, p1, p2, p3, p4⟩ := ev_div hab hi s hsp
    refine ⟨t, r, p1, ?_, p3, p4⟩
    rw [p2]; simpa using hv
  · cases hv

/-- **C14 (division), partial: operands in different registers.**  Without the hardware divider, on a word-aligned
stack pointer, `d := a / b` and `d := a % b` (b ≠ 0) terminate with the C quotient / remainder in `d`, for all values
including INT_MIN; other registers are preserved and memory changes only by the spill below the stack pointer. -/
theorem C14_softdiv_partial (env : EmitEnv) (hs : env.hardMulDiv = false) (idx : CInt) (ir : Ph2Ir) (d a b : BitVec 3)
    (op : CArith.BinOp) (hop : op = .div ∨ op = .mod) (h : IsBin ir (opOfBin op) d a b) (hab : a ≠ b) :
    ∃ ws, emit_ph2_ir env idx ir = some ws ∧
      ComputesMem ws (irReg d)
        (fun s => if (s.get 13#4).toNat % 4 = 0 then CArith.bin op (s.get (irReg a)) (s.get (irReg b)) else none)
        (fun s => spill s.mem (s.get 13#4) a b (s.get (irReg a)) (s.get (irReg b))) := by
  obtain ⟨h1, h2, h3, h4⟩ := h
  rcases hop with rfl | rfl <;> simp only [opOfBin] at h1 <;>
    simp only [emit_ph2_ir, h1, h2, h3, h4, ir_u32, hs, Bool.false_eq_true, if_false]
  · obtain ⟨ws, e, p⟩ := softdiv_core false d a b hab
    refine ⟨ws, e, fun c s v hc hv => p c s v hc ?_⟩
    simp only [CArith.bin] at hv ⊢
    split at hv
    · rename_i hsp
      rw [if_pos hsp]
      split at hv
      · cases hv
      · exact hv
    · cases hv
  · obtain ⟨ws, e, p⟩ := softdiv_core true d a b hab
    refine ⟨ws, e, fun c s v hc hv => p c s v hc ?_⟩
    simp only [CArith.bin] at hv ⊢
    split at hv
    · rename_i hsp
      rw [if_pos hsp]
      split at hv
      · cases hv
      · exact hv
    · cases hv

/-- **C14 (division by zero).** The same sequences give `a / 0 = 0` and `a % 0 = a` instead of trapping or looping. -/
theorem C14_softdiv_zero (env : EmitEnv) (hs : env.hardMulDiv = false) (idx : CInt) (ir : Ph2Ir) (d a b : BitVec 3)
    (m : Bool) (h : IsBin ir (if m then .mod else .div) d a b) (hab : a ≠ b) :
    ∃ ws, emit_ph2_ir env idx ir = some ws ∧
      ComputesMem ws (irReg d)
        (fun s => if (s.get 13#4).toNat % 4 = 0 ∧ s.get (irReg b) = 0#32 then some (if m then s.get (irReg a) else 0#32)
          else none)
        (fun s => spill s.mem (s.get 13#4) a b (s.get (irReg a)) (s.get (irReg b))) := by
  obtain ⟨h1, h2, h3, h4⟩ := h
  have e : emit_ph2_ir env idx ir = emits (softDiv m (u32 (irReg d)) (u32 (irReg a)) (u32 (irReg b))) := by
    cases m <;> simp only [Bool.false_eq_true, if_false, if_true] at h1 <;>
      simp only [emit_ph2_ir, h1, h2, h3, h4, ir_u32, hs, Bool.false_eq_true, if_false]
  rw [e]
  obtain ⟨ws, e, p⟩ := softdiv_core m d a b hab
  refine ⟨ws, e, fun c s v hc hv => p c s v hc ?_⟩
  simp only at hv ⊢
  split at hv
  · rename_i hh
    rw [if_pos hh.1, ← hv, hh.2]
    cases m <;> simp [divRes]
  · cases hv

/-- **C14 (modulo of a register by itself)** is right: 0. -/
theorem C14_mod_same (env : EmitEnv) (hs : env.hardMulDiv = false) (idx : CInt) (ir : Ph2Ir) (d a : BitVec 3)
    (h : IsBin ir .mod d a a) :
    ∃ ws, emit_ph2_ir env idx ir = some ws ∧
      ComputesMem ws (irReg d)
        (fun s => if (s.get 13#4).toNat % 4 = 0 then CArith.bin .mod (s.get (irReg a)) (s.get (irReg a)) else none)
        (fun s => spill s.mem (s.get 13#4) a a (s.get (irReg a)) (s.get (irReg a))) := by
  obtain ⟨h1, h2, h3, h4⟩ := h
  simp only [emit_ph2_ir, h1, h2, h3, h4, ir_u32, hs, Bool.false_eq_true, if_false]
  refine computes_of (softDiv_decodes true d a a) (irReg_facts d).2.2.2.2.2.2 fun c s v hi hv => ?_
  simp only [get_13, get_ir] at hv ⊢
  split at hv
  · rename_i hsp
    obtain ⟨t, r, p1, p2, p3, p4⟩ := ev_divSame hi s hsp
    refine ⟨t, r, p1, ?_, p3, p4⟩
    rw [p2, if_pos rfl]
    simp only [CArith.bin] at hv
    split at hv
    · cases hv
    · simpa using hv
  · cases hv

/-- **C14, negative part.** Dividing a register by itself is wrong for *every* negative value other than INT_MIN: the
quotient delivered is -1, not 1. -/
theorem C14_same_register_wrong (env : EmitEnv) (hs : env.hardMulDiv = false) (idx : CInt) (ir : Ph2Ir) (d a : BitVec 3)
    (h : IsBin ir .div d a a) :
    ∃ ws, emit_ph2_ir env idx ir = some ws ∧
      ComputesMem ws (irReg d)
        (fun s => if (s.get 13#4).toNat % 4 = 0 ∧ (s.get (irReg a)).toInt < 0 ∧ s.get (irReg a) ≠ BitVec.intMin 32
          then some (-1#32) else none)
        (fun s => spill s.mem (s.get 13#4) a a (s.get (irReg a)) (s.get (irReg a))) := by
  obtain ⟨h1, h2, h3, h4⟩ := h
  simp only [emit_ph2_ir, h1, h2, h3, h4, ir_u32, hs, Bool.false_eq_true, if_false]
  refine computes_of (softDiv_decodes false d a a) (irReg_facts d).2.2.2.2.2.2 fun c s v hi hv => ?_
  simp only [get_13, get_ir] at hv ⊢
  split at hv
  · rename_i hh
    obtain ⟨hsp, hneg, hmin⟩ := hh
    obtain ⟨t, r, p1, p2, p3, p4⟩ := ev_divSame hi s hsp
    refine ⟨t, r, p1, ?_, p3, p4⟩
    rw [p2, if_neg (by decide)]
    have hne : (s.regs (irReg a)).toInt ≠ -2 ^ 31 := fun e => hmin (BitVec.eq_of_toInt_eq (by rw [e]; decide))
    have e1 : DivMath.absw (s.regs (irReg a)) = -(s.regs (irReg a)) := by rw [DivMath.absw_eq, if_pos hneg]
    have e2 : (-(s.regs (irReg a))).toInt = -(s.regs (irReg a)).toInt := BitVec.toInt_neg_of_ne_intMin hmin
    have e3 : DivMath.absw (-(s.regs (irReg a))) = -(s.regs (irReg a)) := by
      rw [DivMath.absw_eq, if_neg (by rw [e2]; omega)]
    rw [e1, e3, if_neg, if_neg]
    · simpa using hv
    · rw [DivMath.mask_xor, e2]; omega
    · intro e; rw [e] at e2; simp at e2; omega
  · cases hv

/-- **C16 (binary).** Every two-operand IR instruction `d := a op b` other than software division/modulo (C14) computes
C's `a op b` on 32-bit ints, for every choice of registers. -/
theorem C16_binary (env : EmitEnv) (idx : CInt) (ir : Ph2Ir) (d a b : BitVec 3) (op : CArith.BinOp)
    (hdm : env.hardMulDiv = true ∨ (op ≠ .div ∧ op ≠ .mod)) (h : IsBin ir (opOfBin op) d a b) :
    ∃ ws, emit_ph2_ir env idx ir = some ws ∧
      Computes ws (irReg d) (fun s => CArith.bin op (s.get (irReg a)) (s.get (irReg b))) := by
  obtain ⟨h1, h2, h3, h4⟩ := h
  obtain ⟨hd8, _, _, _, _, _, hd⟩ := irReg_facts d
  obtain ⟨ha8, _, _, _, _, _, ha⟩ := irReg_facts a
  obtain ⟨hb8, _, _, _, _, _, hb⟩ := irReg_facts b
  cases op <;> simp only [opOfBin] at h1
  case div =>
    have hs : env.hardMulDiv = true := by simpa using hdm
    simp only [emit_ph2_ir, h1, h2, h3, h4, ir_u32, hs, if_true]
    refine one_set (some_dec (dec_div 14#4 (by decide) ..)) ⟨hd, ha, hb⟩ hd (sv_sdiv · _ _ _) fun s v hv => ?_
    simp only [CArith.bin, get_ir] at hv
    split at hv
    · cases hv
    · rename_i hne
      rw [if_neg hne]; simpa using hv
  case mod =>
    have hs : env.hardMulDiv = true := by simpa using hdm
    simp only [emit_ph2_ir, h1, h2, h3, h4, ir_u32, hs, if_true]
    refine computes_of (.cons (dec_div 14#4 (by decide) 8#4 (irReg b) (irReg a)) (.cons (dec_mul 14#4 (by decide) 8#4 (irReg b) 8#4)
      (.cons' (dr_sub 14#4 (by decide) (irReg d) (irReg a) 8#4) .nil))) hd fun c s v hi hv => ?_
    refine Ev.act hi 0 rfl ⟨by decide, ha, hb⟩ (Ev.act hi 1 rfl ⟨by decide, by decide, hb⟩
      (Ev.act hi 2 rfl ⟨hd, ha, by show (8#4 : Reg) ≠ 15#4; decide⟩ (Ev.now ⟨rfl, ?_, ?_, by simp⟩)))
    · simp only [CArith.bin, get_ir] at hv
      split at hv
      · cases hv
      · rename_i hne
        simp only [Option.some.injEq] at hv
        rw [← hv, ← ofInt_div_mod, BitVec.mul_comm]
        simp [set_regs, ha8, hb8, hne]
    · intro q q1 q8 _ _
      simp [set_regs, q1, q8]
  all_goals simp only [emit_ph2_ir, h1, h2, h3, h4, ir_u32]
  case add => exact one_set (dr_add 14#4 (by decide) ..) ⟨hd, ha, hb⟩ hd (sv_add · _ _ _) fun s v hv => by simpa [CArith.bin, get_ir] using hv
  case sub => exact one_set (dr_sub 14#4 (by decide) ..) ⟨hd, ha, hb⟩ hd (sv_sub · _ _ _) fun s v hv => by simpa [CArith.bin, get_ir] using hv
  case or => exact one_set (dr_or 14#4 (by decide) ..) ⟨hd, ha, hb⟩ hd (sv_or · _ _ _) fun s v hv => by simpa [CArith.bin, get_ir] using hv
  case and => exact one_set (dr_and 14#4 (by decide) ..) ⟨hd, ha, hb⟩ hd (sv_and · _ _ _) fun s v hv => by simpa [CArith.bin, get_ir] using hv
  case xor => exact one_set (dr_eor 14#4 (by decide) ..) ⟨hd, ha, hb⟩ hd (sv_eor · _ _ _) fun s v hv => by simpa [CArith.bin, get_ir] using hv
  case mul =>
    refine one_set (some_dec (dec_mul 14#4 (by decide) ..)) ⟨hd, hb, ha⟩ hd (sv_mul · _ _ _) fun s v hv => ?_
    rw [BitVec.mul_comm]
    simpa [CArith.bin, get_ir] using hv
  case shl =>
    refine one_set (some_dec (dec_sll 14#4 (by decide) ..)) ⟨hd, by decide, ha, hb⟩ hd (sv_shReg · _ _ _ _ _) fun s v hv => ?_
    simp only [CArith.bin, get_ir] at hv
    split at hv
    · rename_i hlt
      have hv' : s.regs (irReg a) <<< ((s.regs (irReg b)).toNat % 32) = v := by
        rw [RV32.shl_val _ _ hlt]; simpa using hv
      rw [← hv', Nat.mod_eq_of_lt (Nat.lt_trans hlt (by decide)), Nat.mod_eq_of_lt hlt]
      simp only [shiftC]
      split
      · rename_i h0; simp [h0]
      · rfl
    · cases hv
  case shr =>
    refine one_set (some_dec (dec_sra 14#4 (by decide) ..)) ⟨hd, by decide, ha, hb⟩ hd (sv_shReg · _ _ _ _ _) fun s v hv => ?_
    simp only [CArith.bin, get_ir] at hv
    split at hv
    · rename_i hlt
      have hv' : (s.regs (irReg a)).sshiftRight ((s.regs (irReg b)).toNat % 32) = v := by
        rw [RV32.shr_val _ _ hlt]; simpa using hv
      rw [← hv', Nat.mod_eq_of_lt (Nat.lt_trans hlt (by decide)), Nat.mod_eq_of_lt hlt]
      simp only [shiftC]
      split
      · rename_i h0; simp [h0]
      · rfl
    · cases hv
  all_goals exact emit_cmp _ (by simp) d a b

/-- **C16 (unary).** `d := op a` for negation, bitwise not and logical not. -/
theorem C16_unary (env : EmitEnv) (idx : CInt) (ir : Ph2Ir) (d a : BitVec 3) (op : CArith.UnOp)
    (h1 : ir.op = opOfUn op) (h2 : ir.dest = d.setWidth 32) (h3 : ir.src0 = a.setWidth 32) :
    ∃ ws, emit_ph2_ir env idx ir = some ws ∧
      Computes ws (irReg d) (fun s => some (CArith.un op (s.get (irReg a)))) := by
  obtain ⟨_, _, _, _, _, _, hd⟩ := irReg_facts d
  obtain ⟨_, _, _, _, _, _, ha⟩ := irReg_facts a
  cases op <;> simp only [opOfUn] at h1 <;> simp only [emit_ph2_ir, h1, h2, h3, ir_u32]
  case neg =>
    refine one_set (di_rsb 14#4 (by decide) _ _ 0 (by decide)) ⟨hd, ha, trivial⟩ hd (sv_rsbi · _ _ _) fun s v hv => ?_
    simpa [CArith.un, get_ir] using hv
  case bnot =>
    refine one_set (dr_mvn 14#4 (by decide) _ _) ⟨hd, by decide, ha⟩ hd (sv_mvn · _ _ _) fun s v hv => ?_
    simpa [CArith.un, get_ir] using hv
  case lnot =>
    refine computes_of (.cons' (di_teq (irReg a)) (.cons' (di_mov 1#4 (by decide) (irReg d) 0 (by decide))
      (.cons' (di_mov 0#4 (by decide) (irReg d) 1 (by decide)) .nil))) hd fun c s v hi hv => ?_
    refine Ev.act hi 0 rfl ⟨by decide, ha, trivial⟩ ?_
    refine ev_two_way hi 1 rfl ⟨hd, by decide, trivial⟩ ?_
    refine ev_two_way hi 2 rfl ⟨hd, by decide, trivial⟩ (Ev.now ?_)
    simp only [CArith.un, get_ir, Option.some.injEq] at hv
    rw [← hv]
    simp only [sv_movi, sv_teq, set_flags, teq_ne]
    have hz : (s.regs (irReg a)).toInt = 0 ↔ s.regs (irReg a) = 0#32 := by
      rw [← BitVec.toInt_inj]; simp
    by_cases h0 : s.regs (irReg a) = 0#32
    · simp only [h0, decide_true, Bool.not_true, Bool.false_eq_true, if_false, teq_eq, if_true]
      refine ⟨rfl, ?_, ?_, ?_⟩
      · simp [set_regs, CArith.ofBool]
      · intro q q1 _ _ _; simp [set_regs, q1]
      · simp
    · simp only [h0, decide_false, Bool.not_false, if_true, set_flags, teq_eq, Bool.false_eq_true, if_false]
      refine ⟨rfl, ?_, ?_, ?_⟩
      · simp [set_regs, CArith.ofBool, hz, h0]
      · intro q q1 _ _ _; simp [set_regs, q1]
      · simp

/-- **C16 (assignment).** `d := a` copies the register. -/
theorem C16_assign (env : EmitEnv) (idx : CInt) (ir : Ph2Ir) (d a : BitVec 3)
    (h1 : ir.op = .assign) (h2 : ir.dest = d.setWidth 32) (h3 : ir.src0 = a.setWidth 32) :
    ∃ ws, emit_ph2_ir env idx ir = some ws ∧ Computes ws (irReg d) (fun s => some (s.get (irReg a))) := by
  obtain ⟨_, _, _, _, _, _, hd⟩ := irReg_facts d
  obtain ⟨_, _, _, _, _, _, ha⟩ := irReg_facts a
  simp only [emit_ph2_ir, h1, h2, h3, ir_u32]
  exact one_set (dr_mov 14#4 (by decide) _ _) ⟨hd, by decide, ha⟩ hd (sv_mov · _ _ _) fun s v hv => by
    simpa [get_ir] using hv

theorem small_of_not {x : CInt} (h1 : ¬ x.slt 0 = true) (h2 : ¬ (255 : CInt).slt x = true) : x.toNat ≤ 255 := by
  rw [slt_iff] at h1 h2
  have := toInt_cases x
  have e0 : (0 : CInt).toInt = 0 := by decide
  have e : (255 : CInt).toInt = 255 := by decide
  omega

/-- **C17 (ARM).** Loading an integer constant leaves exactly that value in the destination, for every 32-bit value. -/
theorem C17_arm_constant (env : EmitEnv) (idx : CInt) (ir : Ph2Ir) (d : BitVec 3)
    (h1 : ir.op = .load_constant) (h2 : ir.dest = d.setWidth 32) :
    ∃ ws, emit_ph2_ir env idx ir = some ws ∧ Computes ws (irReg d) (fun _ => some ir.src0) := by
  obtain ⟨hd8, _, _, _, _, _, hd⟩ := irReg_facts d
  simp only [emit_ph2_ir, h1, h2, ir_u32]
  split
  · refine computes_of (.cons (dec_movw 14#4 (by decide) 8#4 _) (.cons (dec_movt 14#4 (by decide) 8#4 _)
      (.cons' (di_rsb 14#4 (by decide) (irReg d) 8#4 0 (by decide)) .nil))) hd fun c s v hi hv => ?_
    refine Ev.act hi 0 rfl (by show (8#4 : Reg) ≠ 15#4; decide) (Ev.act hi 1 rfl (by show (8#4 : Reg) ≠ 15#4; decide)
      (Ev.act hi 2 rfl ⟨hd, by decide, trivial⟩ (Ev.now ⟨rfl, ?_, ?_, by simp⟩)))
    · simp only [Option.some.injEq] at hv
      rw [← hv]
      simp [set_regs, movwt _ 0#32]
    · intro q q1 q8 _ _; simp [set_regs, q1, q8]
  · rename_i hn
    split
    · refine computes_of (.cons (dec_movw 14#4 (by decide) (irReg d) _) (.cons (dec_movt 14#4 (by decide) (irReg d) _)
        .nil)) hd fun c s v hi hv => ?_
      refine Ev.act hi 0 rfl hd (Ev.act hi 1 rfl hd (Ev.now ⟨rfl, ?_, ?_, by simp⟩))
      · simp only [Option.some.injEq] at hv
        rw [← hv]
        simp [set_regs, movwt _ 0#32]
      · intro q q1 q8 _ _; simp [set_regs, q1]
    · rename_i hb
      have hs := small_of_not hn hb
      refine one_set (di_mov 14#4 (by decide) _ _ hs) ⟨hd, by decide, trivial⟩ hd (sv_movi · _ _ _) fun s v hv => ?_
      rw [immVal_small _ hs]; simpa using hv

/-- **C17 (ARM, variables).** Non-negative frame offsets (all the compiler assigns). -/
theorem C17_arm_address (env : EmitEnv) (idx : CInt) (ir : Ph2Ir) (d : BitVec 3)
    (h1 : ir.op = .address_of ∨ ir.op = .global_address_of) (h2 : ir.dest = d.setWidth 32) (h3 : 0 ≤ ir.src0.toInt) :
    ∃ ws, emit_ph2_ir env idx ir = some ws ∧
      Computes ws (irReg d) (fun s => some (s.get (if ir.op = .address_of then 13#4 else 12#4) + ir.src0)) := by
  obtain ⟨hd8, _, _, _, _, _, hd⟩ := irReg_facts d
  have h0 : ¬ ir.src0.slt 0 = true := by
    rw [slt_iff]
    have e0 : (0 : CInt).toInt = 0 := by decide
    omega
  have key : ∀ base : Reg, base ≠ 8#4 → base ≠ 15#4 →
      ∃ ws, (if (255 : CInt).slt ir.src0 then
      emits [some (movw AL (u32 8#4) ir.src0), some (movt AL (u32 8#4) ir.src0),
        add_r AL (u32 (irReg d)) (u32 base) (u32 8#4)]
    else emits [add_i AL (u32 (irReg d)) (u32 base) ir.src0]) = some ws ∧
      Computes ws (irReg d) (fun s => some (s.get base + ir.src0)) := by
    intro base hb8 hb15
    split
    · refine computes_of (.cons (dec_movw 14#4 (by decide) 8#4 _) (.cons (dec_movt 14#4 (by decide) 8#4 _)
        (.cons' (dr_add 14#4 (by decide) (irReg d) base 8#4) .nil))) hd fun c s v hi hv => ?_
      refine Ev.act hi 0 rfl (by show (8#4 : Reg) ≠ 15#4; decide) (Ev.act hi 1 rfl (by show (8#4 : Reg) ≠ 15#4; decide)
        (Ev.act hi 2 rfl ⟨hd, hb15, by show (8#4 : Reg) ≠ 15#4; decide⟩ (Ev.now ⟨rfl, ?_, ?_, by simp⟩)))
      · simp only [Option.some.injEq, get_regs _ hb15] at hv
        rw [← hv]
        simp [set_regs, movwt _ 0#32, hb8]
      · intro q q1 q8 _ _; simp [set_regs, q1, q8]
    · rename_i hb
      have hs := small_of_not h0 hb
      refine one_set (di_add 14#4 (by decide) _ _ _ hs) ⟨hd, hb15, trivial⟩ hd (sv_addi · _ _ _) fun s v hv => ?_
      rw [immVal_small _ hs]
      simpa [get_regs _ hb15] using hv
  rcases h1 with h1 | h1 <;> simp only [emit_ph2_ir, h1, h2, ir_u32, r8_u, sp_u, r12_u, if_true, reduceCtorEq, if_false]
  · exact key 13#4 (by decide) (by decide)
  · exact key 12#4 (by decide) (by decide)

theorem C17_arm_data_address (env : EmitEnv) (idx : CInt) (ir : Ph2Ir) (d : BitVec 3)
    (h1 : ir.op = .load_data_address) (h2 : ir.dest = d.setWidth 32) :
    ∃ ws, emit_ph2_ir env idx ir = some ws ∧ Computes ws (irReg d) (fun _ => some (env.dataStart + ir.src0)) := by
  obtain ⟨hd8, _, _, _, _, _, hd⟩ := irReg_facts d
  simp only [emit_ph2_ir, h1, h2, ir_u32]
  refine computes_of (.cons (dec_movw 14#4 (by decide) (irReg d) _) (.cons (dec_movt 14#4 (by decide) (irReg d) _)
    .nil)) hd fun c s v hi hv => ?_
  refine Ev.act hi 0 rfl hd (Ev.act hi 1 rfl hd (Ev.now ⟨rfl, ?_, ?_, by simp⟩))
  · simp only [Option.some.injEq] at hv
    rw [← hv]
    simp [set_regs, movwt _ 0#32, BitVec.add_comm]
  · intro q q1 q8 _ _; simp [set_regs, q1]

/-! Non-vacuity: concrete instructions and values meeting the hypotheses. -/

example : IsBin { op := .div, dest := 3, src0 := 4, src1 := 5 } (opOfBin .div) 3 4 5 ∧ (4 : BitVec 3) ≠ 5 :=
  ⟨⟨rfl, rfl, rfl, rfl⟩, by decide⟩
example : CArith.bin .div (BitVec.intMin 32) (-1) = some (BitVec.intMin 32) := by decide
/-- the value -7 in both operands: C says 1, the code delivers -1 -/
example : CArith.bin .div (-7) (-7) = some 1 ∧ ((-7 : Word).toInt < 0 ∧ (-7 : Word) ≠ BitVec.intMin 32) := by decide

end Shecc.Props
