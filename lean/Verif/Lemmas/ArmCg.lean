import Verif.Lemmas.ArmExec
import Verif.Lemmas.RvCg

namespace ARM
open Shecc Shecc.Arm

/-! ### decoding of the encoders used by the code generator -/

theorem dr_add (cond : BitVec 4) (hc : cond ≠ 15#4) (rd rn rm : Reg) :
    ∃ w, add_r (u32 cond) (u32 rd) (u32 rn) (u32 rm) = some w ∧
      decode w = some ⟨cond, .dp .add false rd rn (.shImm rm 0#2 0#5)⟩ :=
  dec_dp_reg cond hc 4#4 false (by decide) (by decide) rn rd rm
theorem dr_sub (cond : BitVec 4) (hc : cond ≠ 15#4) (rd rn rm : Reg) :
    ∃ w, sub_r (u32 cond) (u32 rd) (u32 rn) (u32 rm) = some w ∧
      decode w = some ⟨cond, .dp .sub false rd rn (.shImm rm 0#2 0#5)⟩ :=
  dec_dp_reg cond hc 2#4 false (by decide) (by decide) rn rd rm
theorem dr_and (cond : BitVec 4) (hc : cond ≠ 15#4) (rd rn rm : Reg) :
    ∃ w, and_r (u32 cond) (u32 rd) (u32 rn) (u32 rm) = some w ∧
      decode w = some ⟨cond, .dp .and false rd rn (.shImm rm 0#2 0#5)⟩ :=
  dec_dp_reg cond hc 0#4 false (by decide) (by decide) rn rd rm
theorem dr_or (cond : BitVec 4) (hc : cond ≠ 15#4) (rd rn rm : Reg) :
    ∃ w, or_r (u32 cond) (u32 rd) (u32 rn) (u32 rm) = some w ∧
      decode w = some ⟨cond, .dp .orr false rd rn (.shImm rm 0#2 0#5)⟩ :=
  dec_dp_reg cond hc 12#4 false (by decide) (by decide) rn rd rm
theorem dr_eor (cond : BitVec 4) (hc : cond ≠ 15#4) (rd rn rm : Reg) :
    ∃ w, eor_r (u32 cond) (u32 rd) (u32 rn) (u32 rm) = some w ∧
      decode w = some ⟨cond, .dp .eor false rd rn (.shImm rm 0#2 0#5)⟩ :=
  dec_dp_reg cond hc 1#4 false (by decide) (by decide) rn rd rm
theorem dr_mov (cond : BitVec 4) (hc : cond ≠ 15#4) (rd rm : Reg) :
    ∃ w, mov_r (u32 cond) (u32 rd) (u32 rm) = some w ∧
      decode w = some ⟨cond, .dp .mov false rd 0#4 (.shImm rm 0#2 0#5)⟩ :=
  dec_dp_reg cond hc 13#4 false (by decide) (by decide) 0#4 rd rm
theorem dr_mvn (cond : BitVec 4) (hc : cond ≠ 15#4) (rd rm : Reg) :
    ∃ w, mvn_r (u32 cond) (u32 rd) (u32 rm) = some w ∧
      decode w = some ⟨cond, .dp .mvn false rd 0#4 (.shImm rm 0#2 0#5)⟩ :=
  dec_dp_reg cond hc 15#4 false (by decide) (by decide) 0#4 rd rm
theorem dr_cmp (cond : BitVec 4) (hc : cond ≠ 15#4) (rn rm : Reg) :
    ∃ w, cmp_r (u32 cond) (u32 rn) (u32 rm) = some w ∧
      decode w = some ⟨cond, .dp .cmp true 0#4 rn (.shImm rm 0#2 0#5)⟩ :=
  dec_dp_reg cond hc 10#4 true (by decide) (by decide) rn 0#4 rm
theorem di_mov (cond : BitVec 4) (hc : cond ≠ 15#4) (rd : Reg) (imm : CInt) (hi : imm.toNat ≤ 255) :
    ∃ w, mov_i (u32 cond) (u32 rd) imm = some w ∧
      decode w = some ⟨cond, .dp .mov false rd 0#4 (.imm (imm.setWidth 12))⟩ :=
  dec_dp_small cond hc 13#4 false (by decide) 0#4 rd imm hi
theorem di_rsb (cond : BitVec 4) (hc : cond ≠ 15#4) (rd rn : Reg) (imm : CInt) (hi : imm.toNat ≤ 255) :
    ∃ w, rsb_i (u32 cond) (u32 rd) imm (u32 rn) = some w ∧
      decode w = some ⟨cond, .dp .rsb false rd rn (.imm (imm.setWidth 12))⟩ :=
  dec_dp_small cond hc 3#4 false (by decide) rn rd imm hi
theorem di_cmp (cond : BitVec 4) (hc : cond ≠ 15#4) (rn : Reg) (imm : CInt) (hi : imm.toNat ≤ 255) :
    ∃ w, cmp_i (u32 cond) (u32 rn) imm = some w ∧
      decode w = some ⟨cond, .dp .cmp true 0#4 rn (.imm (imm.setWidth 12))⟩ :=
  dec_dp_small cond hc 10#4 true (by decide) rn 0#4 imm hi
theorem di_teq (rn : Reg) :
    ∃ w, teq (u32 rn) = some w ∧ decode w = some ⟨14#4, .dp .teq true 0#4 rn (.imm 0#12)⟩ :=
  dec_dp_small 14#4 (by decide) 9#4 true (by decide) rn 0#4 0 (by decide)
theorem di_add (cond : BitVec 4) (hc : cond ≠ 15#4) (rd rn : Reg) (imm : CInt) (hi : imm.toNat ≤ 255) :
    ∃ w, add_i (u32 cond) (u32 rd) (u32 rn) imm = some w ∧
      decode w = some ⟨cond, .dp .add false rd rn (.imm (imm.setWidth 12))⟩ := by
  have : (0 : CInt).sle imm = true := by
    rw [BitVec.sle_eq_decide, decide_eq_true_eq]
    have := toInt_cases imm
    have e : (0 : CInt).toInt = 0 := by decide
    omega
  unfold add_i
  rw [if_pos this]
  exact dec_dp_small cond hc 4#4 false (by decide) rn rd imm hi

theorem dl_zero (rd : Reg) :
    ∃ w, zero (u32 rd) = some w ∧ decode w = some ⟨14#4, .dp .mov false rd 0#4 (.imm 0#12)⟩ :=
  di_mov 14#4 (by decide) rd 0 (by decide)

theorem dt_lw (rd rn : Reg) (ofs : CInt) (h1 : -4095 ≤ ofs.toInt) (h2 : ofs.toInt ≤ 4095) :
    decode (lw AL (u32 rd) (u32 rn) ofs) = some ⟨14#4, .ldr false rd rn ofs⟩ :=
  dec_transfer 14#4 (by decide) true false rn rd ofs h1 h2
theorem dt_lb (rd rn : Reg) (ofs : CInt) (h1 : -4095 ≤ ofs.toInt) (h2 : ofs.toInt ≤ 4095) :
    decode (lb AL (u32 rd) (u32 rn) ofs) = some ⟨14#4, .ldr true rd rn ofs⟩ :=
  dec_transfer 14#4 (by decide) true true rn rd ofs h1 h2
theorem dt_sw (rd rn : Reg) (ofs : CInt) (h1 : -4095 ≤ ofs.toInt) (h2 : ofs.toInt ≤ 4095) :
    decode (sw AL (u32 rd) (u32 rn) ofs) = some ⟨14#4, .str false rd rn ofs⟩ :=
  dec_transfer 14#4 (by decide) false false rn rd ofs h1 h2
theorem dt_sb (rd rn : Reg) (ofs : CInt) (h1 : -4095 ≤ ofs.toInt) (h2 : ofs.toInt ≤ 4095) :
    decode (sb AL (u32 rd) (u32 rn) ofs) = some ⟨14#4, .str true rd rn ofs⟩ :=
  dec_transfer 14#4 (by decide) false true rn rd ofs h1 h2

/-! ### effects -/

theorem opv_reg (r : Reg → Word) (c : Bool) (rm : Reg) : opv r c (.shImm rm 0#2 0#5) = (r rm, c) := rfl
theorem opv_imm (r : Reg → Word) (c : Bool) (i : BitVec 12) : (opv r c (.imm i)).1 = immVal i :=
  op2Val_imm ⟨r, ⟨false, false, c, false⟩, 0#32, fun _ => 0#8⟩ i

variable (s : State) (rd rn rm : Reg)

@[simp] theorem sv_add : stepv (.dp .add false rd rn (.shImm rm 0#2 0#5)) s = s.set rd (s.regs rn + s.regs rm) := by
  simp only [stepv, opv_reg, dpVal, awc_add]; rfl
@[simp] theorem sv_sub : stepv (.dp .sub false rd rn (.shImm rm 0#2 0#5)) s = s.set rd (s.regs rn - s.regs rm) := by
  simp only [stepv, opv_reg, dpVal, awc_sub]; rfl
@[simp] theorem sv_and : stepv (.dp .and false rd rn (.shImm rm 0#2 0#5)) s = s.set rd (s.regs rn &&& s.regs rm) := rfl
@[simp] theorem sv_or : stepv (.dp .orr false rd rn (.shImm rm 0#2 0#5)) s = s.set rd (s.regs rn ||| s.regs rm) := rfl
@[simp] theorem sv_eor : stepv (.dp .eor false rd rn (.shImm rm 0#2 0#5)) s = s.set rd (s.regs rn ^^^ s.regs rm) := rfl
@[simp] theorem sv_mov : stepv (.dp .mov false rd rn (.shImm rm 0#2 0#5)) s = s.set rd (s.regs rm) := rfl
@[simp] theorem sv_mvn : stepv (.dp .mvn false rd rn (.shImm rm 0#2 0#5)) s = s.set rd (~~~s.regs rm) := rfl
@[simp] theorem sv_cmp : stepv (.dp .cmp true rd rn (.shImm rm 0#2 0#5)) s =
    { s with flags := cmpFlags (s.regs rn) (s.regs rm) } := by
  unfold cmpFlags; rfl
@[simp] theorem sv_movi (i : BitVec 12) : stepv (.dp .mov false rd rn (.imm i)) s = s.set rd (immVal i) := by
  rw [← opv_imm s.regs s.flags.c]; rfl
@[simp] theorem sv_addi (i : BitVec 12) : stepv (.dp .add false rd rn (.imm i)) s = s.set rd (s.regs rn + immVal i) := by
  rw [← opv_imm s.regs s.flags.c]
  simp only [stepv, dpVal, awc_add]; rfl
@[simp] theorem sv_rsbi (i : BitVec 12) : stepv (.dp .rsb false rd rn (.imm i)) s = s.set rd (immVal i - s.regs rn) := by
  rw [← opv_imm s.regs s.flags.c]
  simp only [stepv, dpVal, awc_rsb]; rfl
@[simp] theorem sv_cmpi (i : BitVec 12) : stepv (.dp .cmp true rd rn (.imm i)) s =
    { s with flags := cmpFlags (s.regs rn) (immVal i) } := by
  unfold cmpFlags
  rw [← opv_imm s.regs s.flags.c]; rfl
/-- flags after `teq r, #0` -/
def teqFlags (x : Word) (f : Flags) : Flags := ⟨(x ^^^ 0#32).msb, x ^^^ 0#32 == 0#32, f.c, f.v⟩
@[simp] theorem sv_teq : stepv (.dp .teq true rd rn (.imm 0#12)) s = { s with flags := teqFlags (s.regs rn) s.flags } := rfl
@[simp] theorem sv_movw (i : BitVec 16) : stepv (.movw rd i) s = s.set rd (i.setWidth 32) := rfl
@[simp] theorem sv_movt (i : BitVec 16) : stepv (.movt rd i) s = s.set rd (i ++ (s.regs rd).extractLsb' 0 16) := rfl
@[simp] theorem sv_mul : stepv (.mul rd rn rm) s = s.set rd (s.regs rn * s.regs rm) := rfl
@[simp] theorem sv_sdiv : stepv (.sdiv rd rn rm) s =
    s.set rd (if s.regs rm = 0#32 then 0#32 else BitVec.ofInt 32 ((s.regs rn).toInt.tdiv (s.regs rm).toInt)) := rfl
@[simp] theorem sv_ldr (o : Word) : stepv (.ldr false rd rn o) s = s.set rd (s.load32 (s.regs rn + o)) := rfl
@[simp] theorem sv_ldrb (o : Word) : stepv (.ldr true rd rn o) s = s.set rd ((s.mem (s.regs rn + o)).setWidth 32) := rfl
@[simp] theorem sv_str (o : Word) : stepv (.str false rd rn o) s = s.store32 (s.regs rn + o) (s.regs rd) := rfl
@[simp] theorem sv_strb (o : Word) : stepv (.str true rd rn o) s = s.store8 (s.regs rn + o) ((s.regs rd).setWidth 8) := rfl
@[simp] theorem sv_shReg (t : BitVec 2) (rs : Reg) : stepv (.dp .mov false rd rn (.shReg rm t rs)) s =
    s.set rd (shiftC t.toNat (s.regs rm) ((s.regs rs).toNat % 256) s.flags.c).1 := rfl

@[simp] theorem immVal_0 : immVal 0#12 = 0#32 := by decide
@[simp] theorem immVal_1 : immVal 1#12 = 1#32 := by decide
@[simp] theorem immVal_4 : immVal 4#12 = 4#32 := by decide

@[simp] theorem store32_regs (m : State) (a v : Word) : (m.store32 a v).regs = m.regs := rfl
@[simp] theorem store8_regs (m : State) (a : Word) (v : BitVec 8) : (m.store8 a v).regs = m.regs := rfl
@[simp] theorem store32_pc (m : State) (a v : Word) : (m.store32 a v).pc = m.pc := rfl
@[simp] theorem store8_pc (m : State) (a : Word) (v : BitVec 8) : (m.store8 a v).pc = m.pc := rfl
theorem store32_mem (m : State) (a v : Word) : (m.store32 a v).mem = IrM.store32 m.mem a v := rfl
theorem store8_mem (m : State) (a : Word) (v : BitVec 8) : (m.store8 a v).mem = IrM.store8 m.mem a v := rfl
theorem load32_eq (m : State) (a : Word) : m.load32 a = IrM.load32 m.mem a := rfl
@[simp] theorem load32_set (m : State) (r : Reg) (v a : Word) : (m.set r v).load32 a = m.load32 a := rfl

/-- `movw`/`movt` pair -/
theorem movwt (x y : Word) : x.extractLsb' 16 16 ++ ((x.extractLsb' 0 16).setWidth 32).extractLsb' 0 16 = x := by
  apply BitVec.eq_of_getLsbD_eq
  intro i hi
  simp only [BitVec.getLsbD_append, BitVec.getLsbD_extractLsb', BitVec.getLsbD_setWidth]
  by_cases h : i < 16
  · simp [h]; intro; omega
  · have : 16 + (i - 16) = i := by omega
    simp [h, this]; intro; omega

theorem teq_z (x : Word) (f : Flags) : (teqFlags x f).z = decide (x = 0#32) := by
  simp [teqFlags, BEq.beq]
theorem teq_eq (x : Word) (f : Flags) : condHolds 0#4 (teqFlags x f) = decide (x = 0#32) := teq_z x f
theorem teq_ne (x : Word) (f : Flags) : condHolds 1#4 (teqFlags x f) = !decide (x = 0#32) := by
  show (!(teqFlags x f).z) = _; rw [teq_z]

attribute [irreducible] teqFlags

end ARM
