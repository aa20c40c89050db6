import Verif.Spec.RvAbi
import Verif.Model.Riscv

namespace Shecc.Riscv
open RV32

/-- Reading a bit field of a number given as low part, field, high part. -/
theorem fld (w : Nat) (k m lo mid hi : Nat) (h : w = lo + 2 ^ k * (mid + 2 ^ m * hi)) (hlo : lo < 2 ^ k)
    (hm : mid < 2 ^ m) : w / 2 ^ k % 2 ^ m = mid := by
  subst h
  rw [Nat.add_mul_div_left _ _ (Nat.two_pow_pos k), Nat.div_eq_of_lt hlo, Nat.zero_add, Nat.add_mul_mod_self_left,
    Nat.mod_eq_of_lt hm]

theorem aux_m1 (n : Nat) : n / 2 ^ 11 % 2 ^ (11 - 11 + 1) * 2 ^ 7 % 2 ^ 32 = (n / 2 ^ 11 % 2) * 2 ^ 7 := by omega
theorem aux_m5 (n : Nat) : n / 2 ^ 5 % 2 ^ (10 - 5 + 1) * 2 ^ 25 % 2 ^ 32 = (n / 32 % 64) * 2 ^ 25 := by omega
theorem aux_m2 (n : Nat) : n % 2 ^ 21 / 2 ^ 1 % 2 ^ (10 - 1 + 1) * 2 ^ 21 % 2 ^ 32 = (n / 2 % 2 ^ 10) * 2 ^ 21 := by
  omega
theorem aux_m3 (n : Nat) : n % 2 ^ 21 / 2 ^ 11 % 2 ^ (11 - 11 + 1) * 2 ^ 20 % 2 ^ 32 = (n / 2 ^ 11 % 2) * 2 ^ 20 := by
  omega
theorem aux_m4 (n : Nat) : n % 2 ^ 21 / 2 ^ 12 % 2 ^ (19 - 12 + 1) * 2 ^ 12 % 2 ^ 32 = (n / 2 ^ 12 % 2 ^ 8) * 2 ^ 12 := by
  omega

theorem ext_toNat (w : BitVec 32) (k m : Nat) : (w.extractLsb' k m).toNat = w.toNat / 2 ^ k % 2 ^ m := by
  simp [Nat.shiftRight_eq_div_pow]

theorem toNat_r32 (r : Reg) : (r32 r).toNat = r.toNat := by
  have := r.isLt
  simp [r32]; omega

theorem enc_R_toNat (op : CInt) (rd rs1 rs2 : Reg) :
    (rv_encode_R op (r32 rd) (r32 rs1) (r32 rs2)).toNat =
      (op.toNat + rd.toNat * 2 ^ 7 + rs1.toNat * 2 ^ 15 + rs2.toNat * 2 ^ 20) % 2 ^ 32 := by
  have := rd.isLt; have := rs1.isLt; have := rs2.isLt; have := op.isLt
  simp only [rv_encode_R, BitVec.toNat_add, BitVec.toNat_shiftLeft, toNat_r32, Nat.shiftLeft_eq]
  omega

theorem dec_R (f7 f3 : Nat) (k : RKind) (hk : decodeR f7 f3 = some k) (hf7 : f7 < 128) (hf3 : f3 < 8) (op : CInt)
    (hop : op.toNat = 0b0110011 + f3 * 2 ^ 12 + f7 * 2 ^ 25) (rd rs1 rs2 : Reg) :
    decode (rv_encode_R op (r32 rd) (r32 rs1) (r32 rs2)) = some (.r k rd rs1 rs2) := by
  have h := enc_R_toNat op rd rs1 rs2
  generalize rv_encode_R op (r32 rd) (r32 rs1) (r32 rs2) = w at *
  have := rd.isLt; have := rs1.isLt; have := rs2.isLt
  rw [hop] at h
  have e1 : (opcode w).toNat = 0b0110011 := by
    simp [opcode, Nat.shiftRight_eq_div_pow]; omega
  have e2 : (funct7 w).toNat = f7 := by
    simp [funct7, Nat.shiftRight_eq_div_pow]; omega
  have e3 : (funct3 w).toNat = f3 := by
    simp [funct3, Nat.shiftRight_eq_div_pow]; omega
  have e4 : RV32.rd w = rd := by
    apply BitVec.eq_of_toNat_eq; simp [RV32.rd, Nat.shiftRight_eq_div_pow]; omega
  have e5 : RV32.rs1 w = rs1 := by
    apply BitVec.eq_of_toNat_eq; simp [RV32.rs1, Nat.shiftRight_eq_div_pow]; omega
  have e6 : RV32.rs2 w = rs2 := by
    apply BitVec.eq_of_toNat_eq; simp [RV32.rs2, Nat.shiftRight_eq_div_pow]; omega
  simp [decode, e1, e2, e3, e4, e5, e6, hk]

/-! ### signed values -/

theorem toInt_cases (x : CInt) :
    (x.toNat < 2 ^ 31 ∧ x.toInt = x.toNat) ∨ (2 ^ 31 ≤ x.toNat ∧ x.toInt = (x.toNat : Int) - 2 ^ 32) := by
  rw [BitVec.toInt_eq_toNat_cond]
  split <;> omega

theorem slt_iff (x y : CInt) : x.slt y = true ↔ x.toInt < y.toInt := by
  simp [BitVec.slt_iff_toInt_lt]

/-- The immediate after the sign correction of `rv_encode_I`/`rv_encode_S`. -/
def fixImm (imm : CInt) : CInt := if imm.slt 0 then (imm + 4096) &&& (((1 : CInt) <<< 13) - 1) else imm

theorem fixImm_toNat (imm : CInt) (h1 : -2048 ≤ imm.toInt) (h2 : imm.toInt ≤ 2047) :
    (fixImm imm).toNat = imm.toNat % 4096 := by
  have hc := toInt_cases imm
  have hlt := imm.isLt
  unfold fixImm
  have e0 : ((((1 : CInt) <<< 13) - 1)).toNat = 2 ^ 13 - 1 := by decide
  split
  · rename_i h
    rw [slt_iff] at h
    have : (0 : CInt).toInt = 0 := by decide
    rw [BitVec.toNat_and, e0, Nat.and_two_pow_sub_one_eq_mod, BitVec.toNat_add]
    simp
    omega
  · rename_i h
    rw [slt_iff] at h
    have : (0 : CInt).toInt = 0 := by decide
    omega

theorem range_check (lo hi : Int) (l h imm : CInt) (el : l.toInt = lo) (eh : h.toInt = hi) :
    (h.slt imm || imm.slt l) = true ↔ (imm.toInt < lo ∨ hi < imm.toInt) := by
  rw [Bool.or_eq_true, slt_iff, slt_iff]; omega

/-- Sign extension recovers an in-range immediate from its low `n` bits. -/
theorem signExtend_low (n : Nat) (hn : 0 < n) (hn' : n ≤ 32) (imm : CInt) (b : BitVec n)
    (hb : b.toNat = imm.toNat % 2 ^ n)
    (h1 : -(2 ^ (n - 1) : Int) ≤ imm.toInt) (h2 : imm.toInt < 2 ^ (n - 1)) : b.signExtend 32 = imm := by
  apply BitVec.eq_of_toInt_eq
  rw [BitVec.toInt_signExtend, Nat.min_eq_right hn']
  rw [BitVec.toInt_eq_toNat_bmod] 
  have e : ((b.toNat : Int).bmod (2 ^ n)) = (imm.toInt).bmod (2 ^ n) := by
    rw [hb, BitVec.toInt_eq_toNat_bmod]
    have : ((imm.toNat % 2 ^ n : Nat) : Int) = (imm.toNat : Int) % ((2 ^ n : Nat) : Int) := by simp
    rw [this, Int.emod_bmod, ]
    rw [Int.bmod_bmod_of_dvd]
    exact Nat.pow_dvd_pow 2 hn'
  have e2 : imm.toInt.bmod (2 ^ n) = imm.toInt := by
    apply Int.bmod_eq_of_le
    · obtain ⟨m, rfl⟩ : ∃ m, n = m + 1 := ⟨n - 1, by omega⟩
      simp [Nat.pow_succ] at *; omega
    · obtain ⟨m, rfl⟩ : ∃ m, n = m + 1 := ⟨n - 1, by omega⟩
      simp [Nat.pow_succ] at *; omega
  rw [e, e2, e2]

/-! ### I format -/

theorem enc_I_none (op rd rs1 imm : CInt) :
    rv_encode_I op rd rs1 imm = none ↔ (imm.toInt < -2048 ∨ 2047 < imm.toInt) := by
  rw [← range_check (-2048) 2047 (-2048) 2047 imm (by decide) (by decide)]
  unfold rv_encode_I; split <;> simp_all

theorem enc_I_some (op : CInt) (rd rs1 : Reg) (imm : CInt) (h1 : -2048 ≤ imm.toInt) (h2 : imm.toInt ≤ 2047) :
    ∃ w, rv_encode_I op (r32 rd) (r32 rs1) imm = some w ∧
      w.toNat = (op.toNat + rd.toNat * 2 ^ 7 + rs1.toNat * 2 ^ 15 + (imm.toNat % 4096) * 2 ^ 20) % 2 ^ 32 := by
  have hr := range_check (-2048) 2047 (-2048) 2047 imm (by decide) (by decide)
  have hf : ¬ ((2047 : CInt).slt imm || imm.slt (-2048)) = true := by rw [hr]; omega
  refine ⟨_, by unfold rv_encode_I; rw [if_neg hf], ?_⟩
  have := rd.isLt; have := rs1.isLt; have := op.isLt
  have hfix := fixImm_toNat imm h1 h2
  unfold fixImm at hfix
  simp only [BitVec.toNat_add, BitVec.toNat_shiftLeft, toNat_r32, Nat.shiftLeft_eq, hfix]
  omega

/-- All fields of an I-format word. -/
theorem fields_I (f3 opc : Nat) (hopc : opc < 128) (hf3 : f3 < 8) (op : CInt) (hop : op.toNat = opc + f3 * 2 ^ 12)
    (rd rs1 : Reg) (imm : CInt) (h1 : -2048 ≤ imm.toInt) (h2 : imm.toInt ≤ 2047) :
    ∃ w, rv_encode_I op (r32 rd) (r32 rs1) imm = some w ∧ (opcode w).toNat = opc ∧ (funct3 w).toNat = f3 ∧
      RV32.rd w = rd ∧ RV32.rs1 w = rs1 ∧ immI w = imm := by
  obtain ⟨w, hw, h⟩ := enc_I_some op rd rs1 imm h1 h2
  refine ⟨w, hw, ?_⟩
  have := rd.isLt; have := rs1.isLt
  rw [hop] at h
  refine ⟨?_, ?_, ?_, ?_, ?_⟩
  · simp [opcode, Nat.shiftRight_eq_div_pow]; omega
  · simp [funct3, Nat.shiftRight_eq_div_pow]; omega
  · apply BitVec.eq_of_toNat_eq; simp [RV32.rd, Nat.shiftRight_eq_div_pow]; omega
  · apply BitVec.eq_of_toNat_eq; simp [RV32.rs1, Nat.shiftRight_eq_div_pow]; omega
  · apply signExtend_low 12 (by omega) (by omega) imm _ _ (by simpa using h1) (by simp; omega)
    simp [Nat.shiftRight_eq_div_pow]; omega

theorem dec_I (f3 : Nat) (k : IKind) (hk : decodeI f3 = some k) (hf3 : f3 < 8) (hs : f3 ≠ 1 ∧ f3 ≠ 5) (op : CInt)
    (hop : op.toNat = 0b0010011 + f3 * 2 ^ 12) (rd rs1 : Reg) (imm : CInt) (h1 : -2048 ≤ imm.toInt)
    (h2 : imm.toInt ≤ 2047) :
    ∃ w, rv_encode_I op (r32 rd) (r32 rs1) imm = some w ∧ decode w = some (.i k rd rs1 imm) := by
  obtain ⟨w, hw, e1, e2, e3, e4, e5⟩ := fields_I f3 _ (by omega) hf3 op hop rd rs1 imm h1 h2
  exact ⟨w, hw, by simp [decode, e1, e2, e3, e4, e5, hk, hs]⟩

theorem dec_Ld (f3 : Nat) (k : LdKind) (hk : decodeLd f3 = some k) (hf3 : f3 < 8) (op : CInt)
    (hop : op.toNat = 0b0000011 + f3 * 2 ^ 12) (rd rs1 : Reg) (imm : CInt) (h1 : -2048 ≤ imm.toInt)
    (h2 : imm.toInt ≤ 2047) :
    ∃ w, rv_encode_I op (r32 rd) (r32 rs1) imm = some w ∧ decode w = some (.load k rd rs1 imm) := by
  obtain ⟨w, hw, e1, e2, e3, e4, e5⟩ := fields_I f3 _ (by omega) hf3 op hop rd rs1 imm h1 h2
  exact ⟨w, hw, by simp [decode, e1, e2, e3, e4, e5, hk]⟩

theorem dec_jalr (rd rs1 : Reg) (imm : CInt) (h1 : -2048 ≤ imm.toInt) (h2 : imm.toInt ≤ 2047) :
    ∃ w, jalr (r32 rd) (r32 rs1) imm = some w ∧ decode w = some (.jalr rd rs1 imm) := by
  obtain ⟨w, hw, e1, e2, e3, e4, e5⟩ := fields_I 0 0b1100111 (by omega) (by omega) rv_jalr (by decide) rd rs1 imm h1 h2
  exact ⟨w, hw, by simp [decode, e1, e2, e3, e4, e5]⟩

theorem dec_Sh (f7 f3 : Nat) (k : ShKind) (hk : decodeSh f7 f3 = some k) (hf7 : f7 < 128) (hf3 : f3 = 1 ∨ f3 = 5)
    (op : CInt) (hop : op.toNat = 0b0010011 + f3 * 2 ^ 12 + f7 * 2 ^ 25) (rd rs1 : Reg) (imm : CInt)
    (n : BitVec 5) (hn : imm.toNat = n.toNat) :
    ∃ w, rv_encode_I op (r32 rd) (r32 rs1) imm = some w ∧ decode w = some (.sh k rd rs1 n) := by
  have := n.isLt
  have hc := toInt_cases imm
  obtain ⟨w, hw, h⟩ := enc_I_some op rd rs1 imm (by omega) (by omega)
  refine ⟨w, hw, ?_⟩
  have := rd.isLt; have := rs1.isLt
  rw [hop] at h
  have e1 : (opcode w).toNat = 0b0010011 := by simp [opcode, Nat.shiftRight_eq_div_pow]; omega
  have e2 : (funct3 w).toNat = f3 := by simp [funct3, Nat.shiftRight_eq_div_pow]; omega
  have e3 : (funct7 w).toNat = f7 := by simp [funct7, Nat.shiftRight_eq_div_pow]; omega
  have e4 : RV32.rd w = rd := by apply BitVec.eq_of_toNat_eq; simp [RV32.rd, Nat.shiftRight_eq_div_pow]; omega
  have e5 : RV32.rs1 w = rs1 := by apply BitVec.eq_of_toNat_eq; simp [RV32.rs1, Nat.shiftRight_eq_div_pow]; omega
  have e6 : RV32.rs2 w = n := by apply BitVec.eq_of_toNat_eq; simp [RV32.rs2, Nat.shiftRight_eq_div_pow]; omega
  simp [decode, e1, e2, e3, e4, e5, e6, hk, hf3]

/-! ### bit extraction -/

theorem extract_toNat (imm : CInt) (a b d e : Nat) (h1 : a ≤ b) (h2 : b < 32) :
    (rv_extract_bits imm a b d e).toNat = (imm.toNat / 2 ^ a % 2 ^ (b - a + 1)) * 2 ^ d % 2 ^ 32 := by
  unfold rv_extract_bits
  rw [BitVec.toNat_shiftLeft, Nat.shiftLeft_eq]
  congr 2
  have hm : (((2 : CInt) <<< (b - a)) - 1).toNat = 2 ^ (b - a + 1) - 1 := by
    have hlt : 2 ^ (b - a + 1) ≤ 2 ^ 32 := Nat.pow_le_pow_right (by omega) (by omega)
    have hpos : 0 < 2 ^ (b - a + 1) := Nat.two_pow_pos _
    rw [BitVec.toNat_sub, BitVec.toNat_shiftLeft]
    rw [Nat.shiftLeft_eq, show (2 : CInt).toNat * 2 ^ (b - a) = 2 ^ (b - a + 1) by
      rw [Nat.pow_succ]; simp; omega]
    generalize 2 ^ (b - a + 1) = q at *
    simp
    omega
  rw [BitVec.toNat_and, hm, Nat.and_two_pow_sub_one_eq_mod]
  apply Nat.eq_of_testBit_eq
  intro i
  simp only [Nat.testBit_mod_two_pow, Nat.testBit_div_two_pow]
  by_cases hi : i < b - a + 1
  · simp only [hi, decide_true, Bool.true_and]
    rw [BitVec.testBit_toNat, BitVec.getLsbD_sshiftRight]
    have : ¬ 32 ≤ i := by omega
    have h3 : a + i < 32 := by omega
    simp [this, h3, BitVec.testBit_toNat, Nat.add_comm]
  · simp [hi]

/-! ### S format -/

theorem enc_S_none (op rs1 rs2 imm : CInt) :
    rv_encode_S op rs1 rs2 imm = none ↔ (imm.toInt < -2048 ∨ 2047 < imm.toInt) := by
  rw [← range_check (-2048) 2047 (-2048) 2047 imm (by decide) (by decide)]
  unfold rv_encode_S; split <;> simp_all

theorem dec_St (f3 : Nat) (k : StKind) (hk : decodeSt f3 = some k) (hf3 : f3 < 8) (op : CInt)
    (hop : op.toNat = 0b0100011 + f3 * 2 ^ 12) (rs1 rs2 : Reg) (imm : CInt) (h1 : -2048 ≤ imm.toInt)
    (h2 : imm.toInt ≤ 2047) :
    ∃ w, rv_encode_S op (r32 rs1) (r32 rs2) imm = some w ∧ decode w = some (.store k rs2 rs1 imm) := by
  have hr := range_check (-2048) 2047 (-2048) 2047 imm (by decide) (by decide)
  have hf : ¬ ((2047 : CInt).slt imm || imm.slt (-2048)) = true := by rw [hr]; omega
  refine ⟨_, by unfold rv_encode_S; rw [if_neg hf], ?_⟩
  have hr1 := rs1.isLt; have hr2 := rs2.isLt; have := op.isLt
  have hfix := fixImm_toNat imm h1 h2
  unfold fixImm at hfix
  generalize hw : op + r32 rs1 <<< 15 + r32 rs2 <<< 20 + _ + _ = w
  obtain ⟨x, hx⟩ : ∃ x, x = imm.toNat % 32 := ⟨_, rfl⟩
  obtain ⟨y, hy⟩ : ∃ y, y = imm.toNat / 32 % 128 := ⟨_, rfl⟩
  have hxy : imm.toNat % 4096 = y * 32 + x := by omega
  have hx1 : x < 32 := by omega
  have hy1 : y < 128 := by omega
  have h : w.toNat = 0b0100011 + f3 * 2 ^ 12 + rs1.toNat * 2 ^ 15 + rs2.toNat * 2 ^ 20 + x * 2 ^ 7 + y * 2 ^ 25 := by
    have h3 := extract_toNat (if imm.slt 0 then (imm + 4096) &&& (((1 : CInt) <<< 13) - 1) else imm) 0 4 7 11
      (by omega) (by omega)
    have h4 := extract_toNat (if imm.slt 0 then (imm + 4096) &&& (((1 : CInt) <<< 13) - 1) else imm) 5 11 25 31
      (by omega) (by omega)
    rw [hfix] at h3 h4
    have h3' : imm.toNat % 4096 / 2 ^ 0 % 2 ^ (4 - 0 + 1) * 2 ^ 7 % 2 ^ 32 = x * 2 ^ 7 := by omega
    have h4' : imm.toNat % 4096 / 2 ^ 5 % 2 ^ (11 - 5 + 1) * 2 ^ 25 % 2 ^ 32 = y * 2 ^ 25 := by omega
    rw [h3'] at h3
    rw [h4'] at h4
    rw [← hw]
    simp only [BitVec.toNat_add, BitVec.toNat_shiftLeft, toNat_r32, Nat.shiftLeft_eq]
    rw [h3, h4, hop]
    clear hx hy hxy hfix h3 h4 h3' h4'
    omega
  clear hw hfix hx hy
  have g1 := fld w.toNat 0 7 0 0b0100011 (x + 32 * (f3 + 8 * (rs1.toNat + 32 * (rs2.toNat + 32 * y)))) (by omega) (by omega) (by omega)
  have g2 := fld w.toNat 7 5 0b0100011 x (f3 + 8 * (rs1.toNat + 32 * (rs2.toNat + 32 * y))) (by omega) (by omega) (by omega)
  have g3 := fld w.toNat 12 3 (0b0100011 + 2 ^ 7 * x) f3 (rs1.toNat + 32 * (rs2.toNat + 32 * y)) (by omega) (by omega) (by omega)
  have g4 := fld w.toNat 15 5 (0b0100011 + 2 ^ 7 * x + 2 ^ 12 * f3) rs1.toNat (rs2.toNat + 32 * y) (by omega) (by omega) (by omega)
  have g5 := fld w.toNat 20 5 (0b0100011 + 2 ^ 7 * x + 2 ^ 12 * f3 + 2 ^ 15 * rs1.toNat) rs2.toNat y (by omega) (by omega) (by omega)
  have g6 := fld w.toNat 25 7 (0b0100011 + 2 ^ 7 * x + 2 ^ 12 * f3 + 2 ^ 15 * rs1.toNat + 2 ^ 20 * rs2.toNat) y 0 (by omega) (by omega) (by omega)
  rw [← ext_toNat] at g1 g2 g3 g4 g5 g6
  have e1 : (opcode w).toNat = 0b0100011 := g1
  have e2 : (funct3 w).toNat = f3 := g3
  have e5 : RV32.rs1 w = rs1 := BitVec.eq_of_toNat_eq g4
  have e6 : RV32.rs2 w = rs2 := BitVec.eq_of_toNat_eq g5
  have e7 : immS w = imm := by
    apply signExtend_low 12 (by omega) (by omega) imm _ _ (by simpa using h1) (by simp; omega)
    rw [BitVec.toNat_append, ← Nat.shiftLeft_add_eq_or_of_lt (BitVec.isLt _), g2, g6, Nat.shiftLeft_eq]
    omega
  simp [decode, e1, e2, e5, e6, e7, hk]

/-! ### B format -/

theorem enc_B_none (op rs1 rs2 imm : CInt) :
    rv_encode_B op rs1 rs2 imm = none ↔ (imm.toInt < -4096 ∨ 4095 < imm.toInt) := by
  rw [← range_check (-4096) 4095 (-4096) 4095 imm (by decide) (by decide)]
  unfold rv_encode_B; split <;> simp_all

theorem sign_toNat (imm : CInt) : (if imm.slt 0 then (1 : CInt) else 0).toNat = if imm.toInt < 0 then 1 else 0 := by
  have : (0 : CInt).toInt = 0 := by decide
  by_cases h : imm.toInt < 0
  · have h' : imm.slt 0 = true := by rw [slt_iff]; omega
    rw [if_pos h', if_pos h]; rfl
  · have h' : ¬ imm.slt 0 = true := by rw [slt_iff]; omega
    rw [if_neg h', if_neg h]; rfl

theorem dec_Br (f3 : Nat) (k : BrKind) (hk : decodeBr f3 = some k) (hf3 : f3 < 8) (op : CInt)
    (hop : op.toNat = 0b1100011 + f3 * 2 ^ 12) (rs1 rs2 : Reg) (imm : CInt) (h1 : -4096 ≤ imm.toInt)
    (h2 : imm.toInt ≤ 4095) (heven : imm.toInt % 2 = 0) :
    ∃ w, rv_encode_B op (r32 rs1) (r32 rs2) imm = some w ∧ decode w = some (.branch k rs1 rs2 imm) := by
  have hr := range_check (-4096) 4095 (-4096) 4095 imm (by decide) (by decide)
  have hf : ¬ ((4095 : CInt).slt imm || imm.slt (-4096)) = true := by rw [hr]; omega
  refine ⟨_, by unfold rv_encode_B; rw [if_neg hf], ?_⟩
  have hr1 := rs1.isLt; have hr2 := rs2.isLt; have := op.isLt; have := imm.isLt
  have hc := toInt_cases imm
  have hsg : ∃ sg, (if imm.slt 0 then (1 : CInt) else 0).toNat = sg ∧ ((imm.toInt < 0 ∧ sg = 1) ∨ (0 ≤ imm.toInt ∧ sg = 0)) := by
    refine ⟨_, rfl, ?_⟩
    rw [sign_toNat]; split <;> omega
  obtain ⟨sg, hsg, hsg'⟩ := hsg
  generalize hw : op + r32 rs1 <<< 15 + r32 rs2 <<< 20 + _ + _ + _ + _ = w
  obtain ⟨x, hx⟩ : ∃ x, x = imm.toNat / 2 ^ 11 % 2 := ⟨_, rfl⟩
  obtain ⟨y, hy⟩ : ∃ y, y = imm.toNat / 2 % 16 := ⟨_, rfl⟩
  obtain ⟨z, hz⟩ : ∃ z, z = imm.toNat / 32 % 64 := ⟨_, rfl⟩
  have hsg1 : sg ≤ 1 := by omega
  have hxy : imm.toNat % 2 ^ 13 = sg * 2 ^ 12 + x * 2 ^ 11 + z * 32 + y * 2 := by omega
  have hx1 : x < 2 := by omega
  have hy1 : y < 16 := by omega
  have hz1 : z < 64 := by omega
  have h : w.toNat = 0b1100011 + f3 * 2 ^ 12 + rs1.toNat * 2 ^ 15 + rs2.toNat * 2 ^ 20 + x * 2 ^ 7 + y * 2 ^ 8 +
      z * 2 ^ 25 + sg * 2 ^ 31 := by
    have h3 := extract_toNat imm 11 11 7 7 (by omega) (by omega)
    have h4 := extract_toNat imm 1 4 8 11 (by omega) (by omega)
    have h5 := extract_toNat imm 5 10 25 30 (by omega) (by omega)
    have h3' : imm.toNat / 2 ^ 11 % 2 ^ (11 - 11 + 1) * 2 ^ 7 % 2 ^ 32 = x * 2 ^ 7 := by rw [hx, aux_m1]
    have h4' : imm.toNat / 2 ^ 1 % 2 ^ (4 - 1 + 1) * 2 ^ 8 % 2 ^ 32 = y * 2 ^ 8 := by omega
    have h5' : imm.toNat / 2 ^ 5 % 2 ^ (10 - 5 + 1) * 2 ^ 25 % 2 ^ 32 = z * 2 ^ 25 := by rw [hz, aux_m5]
    rw [h3'] at h3
    rw [h4'] at h4
    rw [h5'] at h5
    rw [← hw]
    simp only [BitVec.toNat_add, BitVec.toNat_shiftLeft, toNat_r32, Nat.shiftLeft_eq]
    rw [h3, h4, h5, hop, hsg]
    clear hx hy hz hxy h3 h4 h3' h4' h5 h5' hc hsg'
    omega
  clear hw hsg hx hy hz hsg'
  have g1 := fld w.toNat 0 7 0 0b1100011 (x + 2 * (y + 16 * (f3 + 8 * (rs1.toNat + 32 * (rs2.toNat + 32 * (z + 64 * sg)))))) (by omega) (by omega) (by omega)
  have g2 := fld w.toNat 7 1 0b1100011 x (y + 16 * (f3 + 8 * (rs1.toNat + 32 * (rs2.toNat + 32 * (z + 64 * sg))))) (by omega) (by omega) (by omega)
  have g2' := fld w.toNat 8 4 (0b1100011 + 2 ^ 7 * x) y (f3 + 8 * (rs1.toNat + 32 * (rs2.toNat + 32 * (z + 64 * sg)))) (by omega) (by omega) (by omega)
  have g3 := fld w.toNat 12 3 (0b1100011 + 2 ^ 7 * x + 2 ^ 8 * y) f3 (rs1.toNat + 32 * (rs2.toNat + 32 * (z + 64 * sg))) (by omega) (by omega) (by omega)
  have g4 := fld w.toNat 15 5 (0b1100011 + 2 ^ 7 * x + 2 ^ 8 * y + 2 ^ 12 * f3) rs1.toNat (rs2.toNat + 32 * (z + 64 * sg)) (by omega) (by omega) (by omega)
  have g5 := fld w.toNat 20 5 (0b1100011 + 2 ^ 7 * x + 2 ^ 8 * y + 2 ^ 12 * f3 + 2 ^ 15 * rs1.toNat) rs2.toNat (z + 64 * sg) (by omega) (by omega) (by omega)
  have g6 := fld w.toNat 25 6 (0b1100011 + 2 ^ 7 * x + 2 ^ 8 * y + 2 ^ 12 * f3 + 2 ^ 15 * rs1.toNat + 2 ^ 20 * rs2.toNat) z sg (by omega) (by omega) (by omega)
  have g7 := fld w.toNat 31 1 (0b1100011 + 2 ^ 7 * x + 2 ^ 8 * y + 2 ^ 12 * f3 + 2 ^ 15 * rs1.toNat + 2 ^ 20 * rs2.toNat + 2 ^ 25 * z) sg 0 (by omega) (by omega) (by omega)
  rw [← ext_toNat] at g1 g2 g2' g3 g4 g5 g6 g7
  have e1 : (opcode w).toNat = 0b1100011 := g1
  have e2 : (funct3 w).toNat = f3 := g3
  have e5 : RV32.rs1 w = rs1 := BitVec.eq_of_toNat_eq g4
  have e6 : RV32.rs2 w = rs2 := BitVec.eq_of_toNat_eq g5
  have e7 : immB w = imm := by
    apply signExtend_low 13 (by omega) (by omega) imm _ _ (by simpa using h1) (by simp; omega)
    simp only [BitVec.toNat_append, ← Nat.shiftLeft_add_eq_or_of_lt (BitVec.isLt _)]
    rw [g2, g2', g6, g7]
    simp only [Nat.shiftLeft_eq]
    rw [show (0#1).toNat = 0 from rfl]
    omega
  simp [decode, e1, e2, e5, e6, e7, hk]

/-! ### J format -/

theorem dec_jal (rd : Reg) (imm : CInt) (h1 : -2 ^ 20 ≤ imm.toInt) (h2 : imm.toInt < 2 ^ 20)
    (heven : imm.toInt % 2 = 0) : decode (jal (r32 rd) imm) = some (.jal rd imm) := by
  have hr1 := rd.isLt; have := imm.isLt
  have hc := toInt_cases imm
  have hsg : ∃ sg, (if imm.slt 0 then (1 : CInt) else 0).toNat = sg ∧ ((imm.toInt < 0 ∧ sg = 1) ∨ (0 ≤ imm.toInt ∧ sg = 0)) := by
    refine ⟨_, rfl, ?_⟩
    rw [sign_toNat]; split <;> omega
  obtain ⟨sg, hsg, hsg'⟩ := hsg
  have hfx : (if imm.slt 0 then ((1 : CInt) <<< 21) - (-imm) else imm).toNat = imm.toNat % 2 ^ 21 := by
    have h0 : (0 : CInt).toInt = 0 := by decide
    split
    · rename_i h
      rw [slt_iff] at h
      rw [BitVec.toNat_sub, BitVec.toNat_neg]
      simp
      omega
    · rename_i h
      rw [slt_iff] at h
      omega
  unfold jal rv_encode_J
  simp only []
  generalize hw : rv_jal + r32 rd <<< 7 + _ + _ + _ + _ = w
  obtain ⟨x, hx⟩ : ∃ x, x = imm.toNat / 2 % 2 ^ 10 := ⟨_, rfl⟩
  obtain ⟨y, hy⟩ : ∃ y, y = imm.toNat / 2 ^ 11 % 2 := ⟨_, rfl⟩
  obtain ⟨z, hz⟩ : ∃ z, z = imm.toNat / 2 ^ 12 % 2 ^ 8 := ⟨_, rfl⟩
  have hsg1 : sg ≤ 1 := by omega
  have hxy : imm.toNat % 2 ^ 21 = sg * 2 ^ 20 + z * 2 ^ 12 + y * 2 ^ 11 + x * 2 := by omega
  have hx1 : x < 2 ^ 10 := by omega
  have hy1 : y < 2 := by omega
  have hz1 : z < 256 := by omega
  have h : w.toNat = 111 + rd.toNat * 2 ^ 7 + x * 2 ^ 21 + y * 2 ^ 20 + z * 2 ^ 12 + sg * 2 ^ 31 := by
    have h3 := extract_toNat (if imm.slt 0 then ((1 : CInt) <<< 21) - (-imm) else imm) 1 10 21 30 (by omega) (by omega)
    have h4 := extract_toNat (if imm.slt 0 then ((1 : CInt) <<< 21) - (-imm) else imm) 11 11 20 20 (by omega) (by omega)
    have h5 := extract_toNat (if imm.slt 0 then ((1 : CInt) <<< 21) - (-imm) else imm) 12 19 12 19 (by omega) (by omega)
    rw [hfx] at h3 h4 h5
    have h3' : imm.toNat % 2 ^ 21 / 2 ^ 1 % 2 ^ (10 - 1 + 1) * 2 ^ 21 % 2 ^ 32 = x * 2 ^ 21 := by rw [hx, aux_m2]
    have h4' : imm.toNat % 2 ^ 21 / 2 ^ 11 % 2 ^ (11 - 11 + 1) * 2 ^ 20 % 2 ^ 32 = y * 2 ^ 20 := by rw [hy, aux_m3]
    have h5' : imm.toNat % 2 ^ 21 / 2 ^ 12 % 2 ^ (19 - 12 + 1) * 2 ^ 12 % 2 ^ 32 = z * 2 ^ 12 := by rw [hz, aux_m4]
    rw [h3'] at h3
    rw [h4'] at h4
    rw [h5'] at h5
    rw [← hw]
    simp only [BitVec.toNat_add, BitVec.toNat_shiftLeft, toNat_r32, Nat.shiftLeft_eq]
    have hop : rv_jal.toNat = 111 := by decide
    rw [h3, h4, h5, hop, hsg]
    clear hx hy hz hxy h3 h4 h3' h4' h5 h5' hc hsg' hfx
    omega
  clear hw hsg hx hy hz hsg' hfx
  have g1 := fld w.toNat 0 7 0 111 (rd.toNat + 32 * (z + 256 * (y + 2 * (x + 1024 * sg)))) (by omega) (by omega) (by omega)
  have g2 := fld w.toNat 7 5 111 rd.toNat (z + 256 * (y + 2 * (x + 1024 * sg))) (by omega) (by omega) (by omega)
  have g3 := fld w.toNat 12 8 (111 + 2 ^ 7 * rd.toNat) z (y + 2 * (x + 1024 * sg)) (by omega) (by omega) (by omega)
  have g4 := fld w.toNat 20 1 (111 + 2 ^ 7 * rd.toNat + 2 ^ 12 * z) y (x + 1024 * sg) (by omega) (by omega) (by omega)
  have g5 := fld w.toNat 21 10 (111 + 2 ^ 7 * rd.toNat + 2 ^ 12 * z + 2 ^ 20 * y) x sg (by omega) (by omega) (by omega)
  have g6 := fld w.toNat 31 1 (111 + 2 ^ 7 * rd.toNat + 2 ^ 12 * z + 2 ^ 20 * y + 2 ^ 21 * x) sg 0 (by omega) (by omega) (by omega)
  rw [← ext_toNat] at g1 g2 g3 g4 g5 g6
  have e1 : (opcode w).toNat = 0b1101111 := g1
  have e5 : RV32.rd w = rd := BitVec.eq_of_toNat_eq g2
  have e7 : immJ w = imm := by
    apply signExtend_low 21 (by omega) (by omega) imm _ _ (by simpa using h1) (by simp; omega)
    simp only [BitVec.toNat_append, ← Nat.shiftLeft_add_eq_or_of_lt (BitVec.isLt _)]
    rw [g3, g4, g5, g6]
    simp only [Nat.shiftLeft_eq]
    rw [show (0#1).toNat = 0 from rfl]
    omega
  simp [decode, e1, e5, e7]

/-! ### U format -/

theorem fields_U (op : CInt) (opc : Nat) (hopc : opc < 128) (hop : op.toNat = opc) (rd : Reg) (imm : CInt) :
    (opcode (rv_encode_U op (r32 rd) imm)).toNat = opc ∧ RV32.rd (rv_encode_U op (r32 rd) imm) = rd ∧
      immU (rv_encode_U op (r32 rd) imm) = imm &&& 0xFFFFF000#32 := by
  have hr1 := rd.isLt; have := imm.isLt
  unfold rv_encode_U
  generalize hw : op + r32 rd <<< 7 + _ = w
  have h : w.toNat = (opc + rd.toNat * 2 ^ 7 + (imm.toNat / 2 ^ 12 % 2 ^ 20) * 2 ^ 12) % 2 ^ 32 := by
    rw [← hw]
    simp only [BitVec.toNat_add, BitVec.toNat_shiftLeft, toNat_r32, Nat.shiftLeft_eq]
    rw [extract_toNat _ 12 31 12 31 (by omega) (by omega), hop]
    omega
  clear hw
  refine ⟨?_, ?_, ?_⟩
  · simp [opcode, Nat.shiftRight_eq_div_pow]; omega
  · apply BitVec.eq_of_toNat_eq; simp [RV32.rd, Nat.shiftRight_eq_div_pow]; omega
  · apply BitVec.eq_of_toNat_eq
    have hand : (imm &&& 0xFFFFF000#32) = imm - (imm &&& 0xFFF#32) := by
      have : imm = (imm &&& 0xFFFFF000#32) + (imm &&& 0xFFF#32) := by
        rw [BitVec.add_eq_or_of_and_eq_zero]
        · rw [← BitVec.and_or_distrib_left]; exact (BitVec.and_allOnes (x := imm)).symm
        · rw [BitVec.and_comm imm 0xFFF#32, ← BitVec.and_assoc, BitVec.and_assoc imm]; simp
      exact (BitVec.sub_eq_iff_eq_add.mpr this).symm
    rw [hand, BitVec.toNat_sub, BitVec.toNat_and]
    rw [show (0xFFF#32).toNat = 2 ^ 12 - 1 by decide, Nat.and_two_pow_sub_one_eq_mod]
    simp only [immU, BitVec.toNat_append, ← Nat.shiftLeft_add_eq_or_of_lt (BitVec.isLt _)]
    rw [Nat.shiftLeft_eq]
    simp [Nat.shiftRight_eq_div_pow]
    omega

theorem dec_lui (rd : Reg) (imm : CInt) : decode (lui (r32 rd) imm) = some (.lui rd (imm &&& 0xFFFFF000#32)) := by
  obtain ⟨e1, e2, e3⟩ := fields_U rv_lui 55 (by omega) (by decide) rd imm
  simp [decode, lui, e1, e2, e3]

theorem dec_auipc (rd : Reg) (imm : CInt) :
    decode (auipc (r32 rd) imm) = some (.auipc rd (imm &&& 0xFFFFF000#32)) := by
  obtain ⟨e1, e2, e3⟩ := fields_U rv_auipc 23 (by omega) (by decide) rd imm
  simp [decode, auipc, e1, e2, e3]

end Shecc.Riscv
