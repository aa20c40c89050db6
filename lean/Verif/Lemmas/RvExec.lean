import Verif.Lemmas.RvEnc
import Verif.Model.RiscvCodegen

namespace RV32

@[ext] theorem State.ext' {s t : State} (h1 : s.regs = t.regs) (h2 : s.pc = t.pc) (h3 : s.mem = t.mem) : s = t := by
  cases s; cases t; simp_all

@[simp] theorem set_pc (s : State) (r : Reg) (v : Word) : (s.set r v).pc = s.pc := by
  unfold State.set; split <;> rfl
@[simp] theorem set_mem (s : State) (r : Reg) (v : Word) : (s.set r v).mem = s.mem := by
  unfold State.set; split <;> rfl
theorem get_set (s : State) (r q : Reg) (v : Word) :
    (s.set r v).get q = if q = r ∧ r ≠ 0#5 then v else s.get q := by
  unfold State.set State.get
  by_cases hr : r = 0#5
  · simp [hr]
  · by_cases hq : q = 0#5
    · simp [hr, hq]
      intro h; exact absurd h.symm hr
    · simp [hr, hq]
@[simp] theorem get_pc (s : State) (p : Word) (q : Reg) : ({ s with pc := p } : State).get q = s.get q := rfl
@[simp] theorem get_zero (s : State) : s.get 0 = 0 := by simp [State.get]
@[simp] theorem get_zero' (s : State) : s.get 0#5 = 0 := by simp [State.get]
@[simp] theorem get_mem (s : State) (m : Word → BitVec 8) (q : Reg) : ({ s with mem := m } : State).get q = s.get q := rfl

theorem step_of {c : Code} {s : State} {w : Word} {i : Instr} (h1 : c s.pc = some w) (h2 : decode w = some i) :
    step c s = exec i s := by
  simp [step, h1, h2]

theorem Reaches.trans {c : Code} {s t u : State} (h1 : Reaches c s t) (h2 : Reaches c t u) : Reaches c s u := by
  induction h1 with
  | refl => exact h2
  | head hs _ ih => exact .head hs (ih h2)

theorem Reaches.one {c : Code} {s t : State} (h : step c s = .next t) : Reaches c s t := .head h (.refl _)

theorem CodeAt.tail {c : Code} {b : Word} {w : Word} {ws : List Word} (h : CodeAt c b (w :: ws)) :
    CodeAt c (b + 4) ws := by
  intro i x hx
  have := h (i + 1) x (by simpa using hx)
  rw [← this]
  congr 1
  rw [BitVec.add_assoc]
  congr 1
  apply BitVec.eq_of_toNat_eq
  simp
  omega

theorem CodeAt.head {c : Code} {b : Word} {w : Word} {ws : List Word} (h : CodeAt c b (w :: ws)) : c b = some w := by
  have := h 0 w (by simp)
  simpa using this

end RV32

namespace Shecc.Riscv
open RV32

theorem and_fff (x : CInt) : (x &&& 0xFFF#32).toNat = x.toNat % 4096 := by
  rw [BitVec.toNat_and, show (0xFFF#32).toNat = 2 ^ 12 - 1 by decide, Nat.and_two_pow_sub_one_eq_mod]

theorem and_hi (imm : CInt) : (imm &&& 0xFFFFF000#32) = imm - (imm &&& 0xFFF#32) := by
  have : imm = (imm &&& 0xFFFFF000#32) + (imm &&& 0xFFF#32) := by
    rw [BitVec.add_eq_or_of_and_eq_zero]
    · rw [← BitVec.and_or_distrib_left]; exact (BitVec.and_allOnes (x := imm)).symm
    · rw [BitVec.and_comm imm 0xFFF#32, ← BitVec.and_assoc, BitVec.and_assoc imm]; simp
  exact (BitVec.sub_eq_iff_eq_add.mpr this).symm

/-- bit 11, moved to bit 12 -/
theorem bit11 (v : CInt) : ((v &&& ((1 : CInt) <<< 11)) <<< 1).toNat = v.toNat / 2048 % 2 * 4096 := by
  have e : (v &&& ((1 : CInt) <<< 11)).toNat = v.toNat / 2 ^ 11 % 2 * 2 ^ 11 := by
    rw [BitVec.toNat_and, show ((1 : CInt) <<< 11).toNat = 2 ^ 11 by decide]
    apply Nat.eq_of_testBit_eq
    intro i
    rw [Nat.testBit_and, Nat.testBit_two_pow, Nat.testBit_mul_two_pow]
    by_cases h : 11 = i
    · subst h
      simp [Nat.testBit_eq_decide_div_mod_eq]
    · by_cases h2 : 11 ≤ i
      · obtain ⟨j, rfl⟩ : ∃ j, i = 12 + j := ⟨i - 12, by omega⟩
        have : (v.toNat / 2 ^ 11 % 2).testBit (12 + j - 11) = false := by
          apply Nat.testBit_lt_two_pow
          have : 2 ^ 1 ≤ 2 ^ (12 + j - 11) := Nat.pow_le_pow_right (by omega) (by omega)
          omega
        simp [h, this]
      · simp [h, h2]
  rw [BitVec.toNat_shiftLeft, e, Nat.shiftLeft_eq]
  omega

theorem hi_lo (v : CInt) : (rv_hi v &&& 0xFFFFF000#32) + rv_lo v = v := by
  rw [and_hi]
  unfold rv_hi rv_lo
  generalize hb : (v &&& ((1 : CInt) <<< 11)) <<< 1 = b
  have hb' := bit11 v
  rw [hb] at hb'
  have hv := v.isLt
  have e : (v + b) &&& 0xFFF#32 = v &&& 0xFFF#32 := by
    apply BitVec.eq_of_toNat_eq
    rw [and_fff, and_fff, BitVec.toNat_add, hb']
    omega
  rw [e]
  generalize v &&& 0xFFF#32 = x
  apply BitVec.eq_of_toNat_eq
  simp only [BitVec.toNat_add, BitVec.toNat_sub]
  have := x.isLt; have := b.isLt
  omega

theorem lo_range (v : CInt) : -2048 ≤ (rv_lo v).toInt ∧ (rv_lo v).toInt ≤ 2047 := by
  have hc := toInt_cases (rv_lo v)
  have e : (rv_lo v).toNat = (2 ^ 32 - v.toNat / 2048 % 2 * 4096 + v.toNat % 4096) % 2 ^ 32 := by
    unfold rv_lo
    rw [BitVec.toNat_sub, bit11]
    rw [and_fff]
  have : (rv_lo v).toNat < 2048 ∨ 2 ^ 32 - 2048 ≤ (rv_lo v).toNat := by omega
  omega

end Shecc.Riscv

namespace Shecc.Riscv
open RV32

/-- The optional word list exists and decodes to exactly these instructions. -/
def Decodes (o : Option (List CInt)) (is : List Instr) : Prop :=
  ∃ ws, o = some ws ∧ ws.map decode = is.map some

theorem Decodes.nil : Decodes (emits []) [] := ⟨[], rfl, rfl⟩

theorem Decodes.cons {w : CInt} {i : Instr} {l : List (Option CInt)} {is : List Instr} (h1 : decode w = some i)
    (h2 : Decodes (emits l) is) : Decodes (emits (some w :: l)) (i :: is) := by
  obtain ⟨ws, h3, h4⟩ := h2
  exact ⟨w :: ws, by simp [emits, h3], by simp [h1, h4]⟩

theorem Decodes.cons' {o : Option CInt} {i : Instr} {l : List (Option CInt)} {is : List Instr}
    (h1 : ∃ w, o = some w ∧ decode w = some i) (h2 : Decodes (emits l) is) : Decodes (emits (o :: l)) (i :: is) := by
  obtain ⟨w, rfl, h⟩ := h1
  exact Decodes.cons h h2

/-- Decoded instructions in memory. -/
def InstrAt (c : Code) (base : Word) (is : List Instr) : Prop :=
  ∀ (k : Nat) (i : Instr), is[k]? = some i → ∃ w, c (base + BitVec.ofNat 32 (4 * k)) = some w ∧ decode w = some i

theorem InstrAt.of_code {c : Code} {base : Word} {ws : List Word} {is : List Instr} (h : CodeAt c base ws)
    (hd : ws.map decode = is.map some) : InstrAt c base is := by
  intro k i hk
  have h1 : (ws.map decode)[k]? = some (some i) := by rw [hd]; simp [hk]
  rw [List.getElem?_map] at h1
  cases hw : ws[k]? with
  | none => rw [hw] at h1; simp at h1
  | some w =>
    rw [hw] at h1
    exact ⟨w, h k w hw, by simpa using h1⟩

theorem InstrAt.step {c : Code} {base : Word} {is : List Instr} (h : InstrAt c base is) (k : Nat) {i : Instr}
    (hk : is[k]? = some i) {s : State} (hpc : s.pc = base + BitVec.ofNat 32 (4 * k)) :
    RV32.step c s = exec i s := by
  obtain ⟨w, h1, h2⟩ := h k i hk
  exact step_of (by rw [hpc]; exact h1) h2

theorem ir_r32 (k : BitVec 3) : (k.setWidth 32 + 10 : CInt) = r32 (irReg k) := by
  apply BitVec.eq_of_toNat_eq
  have := k.isLt
  simp [irReg, r32]
  omega

theorem zero_r32 : zero = r32 0#5 := rfl
theorem ra_r32 : ra = r32 1#5 := rfl
theorem sp_r32 : sp = r32 2#5 := rfl
theorem gp_r32 : gp = r32 3#5 := rfl
theorem t0_r32 : t0 = r32 5#5 := rfl
theorem t1_r32 : t1 = r32 6#5 := rfl
theorem t2_r32 : t2 = r32 7#5 := rfl
theorem t3_r32 : t3 = r32 28#5 := rfl
theorem t4_r32 : t4 = r32 29#5 := rfl
theorem t5_r32 : t5 = r32 30#5 := rfl
theorem a0_r32 : a0 = r32 10#5 := rfl

/-! decode lemmas for the wrappers -/

theorem dec_add (a b c : Reg) : decode (add (r32 a) (r32 b) (r32 c)) = some (.r .add a b c) :=
  dec_R 0 0 _ rfl (by omega) (by omega) _ rfl ..
theorem dec_sub (a b c : Reg) : decode (sub (r32 a) (r32 b) (r32 c)) = some (.r .sub a b c) :=
  dec_R 32 0 _ rfl (by omega) (by omega) _ rfl ..
theorem dec_xor (a b c : Reg) : decode (xor (r32 a) (r32 b) (r32 c)) = some (.r .xor a b c) :=
  dec_R 0 4 _ rfl (by omega) (by omega) _ rfl ..
theorem dec_or (a b c : Reg) : decode (or (r32 a) (r32 b) (r32 c)) = some (.r .or a b c) :=
  dec_R 0 6 _ rfl (by omega) (by omega) _ rfl ..
theorem dec_and (a b c : Reg) : decode (and (r32 a) (r32 b) (r32 c)) = some (.r .and a b c) :=
  dec_R 0 7 _ rfl (by omega) (by omega) _ rfl ..
theorem dec_sll (a b c : Reg) : decode (sll (r32 a) (r32 b) (r32 c)) = some (.r .sll a b c) :=
  dec_R 0 1 _ rfl (by omega) (by omega) _ rfl ..
theorem dec_srl (a b c : Reg) : decode (srl (r32 a) (r32 b) (r32 c)) = some (.r .srl a b c) :=
  dec_R 0 5 _ rfl (by omega) (by omega) _ rfl ..
theorem dec_sra (a b c : Reg) : decode (sra (r32 a) (r32 b) (r32 c)) = some (.r .sra a b c) :=
  dec_R 32 5 _ rfl (by omega) (by omega) _ rfl ..
theorem dec_slt (a b c : Reg) : decode (slt (r32 a) (r32 b) (r32 c)) = some (.r .slt a b c) :=
  dec_R 0 2 _ rfl (by omega) (by omega) _ rfl ..
theorem dec_sltu (a b c : Reg) : decode (sltu (r32 a) (r32 b) (r32 c)) = some (.r .sltu a b c) :=
  dec_R 0 3 _ rfl (by omega) (by omega) _ rfl ..
theorem dec_mul (a b c : Reg) : decode (mul (r32 a) (r32 b) (r32 c)) = some (.r .mul a b c) :=
  dec_R 1 0 _ rfl (by omega) (by omega) _ rfl ..
theorem dec_div (a b c : Reg) : decode (div (r32 a) (r32 b) (r32 c)) = some (.r .div a b c) :=
  dec_R 1 4 _ rfl (by omega) (by omega) _ rfl ..
theorem dec_mod (a b c : Reg) : decode (mod (r32 a) (r32 b) (r32 c)) = some (.r .rem a b c) :=
  dec_R 1 6 _ rfl (by omega) (by omega) _ rfl ..

theorem dec_addi (a b : Reg) (i : CInt) (h1 : -2048 ≤ i.toInt) (h2 : i.toInt ≤ 2047) :
    ∃ w, addi (r32 a) (r32 b) i = some w ∧ decode w = some (.i .addi a b i) :=
  dec_I 0 _ rfl (by omega) (by omega) _ rfl _ _ _ h1 h2
theorem dec_slti (a b : Reg) (i : CInt) (h1 : -2048 ≤ i.toInt) (h2 : i.toInt ≤ 2047) :
    ∃ w, slti (r32 a) (r32 b) i = some w ∧ decode w = some (.i .slti a b i) :=
  dec_I 2 _ rfl (by omega) (by omega) _ rfl _ _ _ h1 h2
theorem dec_sltiu (a b : Reg) (i : CInt) (h1 : -2048 ≤ i.toInt) (h2 : i.toInt ≤ 2047) :
    ∃ w, sltiu (r32 a) (r32 b) i = some w ∧ decode w = some (.i .sltiu a b i) :=
  dec_I 3 _ rfl (by omega) (by omega) _ rfl _ _ _ h1 h2
theorem dec_xori (a b : Reg) (i : CInt) (h1 : -2048 ≤ i.toInt) (h2 : i.toInt ≤ 2047) :
    ∃ w, xori (r32 a) (r32 b) i = some w ∧ decode w = some (.i .xori a b i) :=
  dec_I 4 _ rfl (by omega) (by omega) _ rfl _ _ _ h1 h2
theorem dec_ori (a b : Reg) (i : CInt) (h1 : -2048 ≤ i.toInt) (h2 : i.toInt ≤ 2047) :
    ∃ w, ori (r32 a) (r32 b) i = some w ∧ decode w = some (.i .ori a b i) :=
  dec_I 6 _ rfl (by omega) (by omega) _ rfl _ _ _ h1 h2
theorem dec_andi (a b : Reg) (i : CInt) (h1 : -2048 ≤ i.toInt) (h2 : i.toInt ≤ 2047) :
    ∃ w, andi (r32 a) (r32 b) i = some w ∧ decode w = some (.i .andi a b i) :=
  dec_I 7 _ rfl (by omega) (by omega) _ rfl _ _ _ h1 h2

theorem dec_slli (a b : Reg) (n : BitVec 5) (i : CInt) (h : i.toNat = n.toNat) :
    ∃ w, slli (r32 a) (r32 b) i = some w ∧ decode w = some (.sh .slli a b n) :=
  dec_Sh 0 1 _ rfl (by omega) (by omega) _ rfl _ _ _ _ h
theorem dec_srli (a b : Reg) (n : BitVec 5) (i : CInt) (h : i.toNat = n.toNat) :
    ∃ w, srli (r32 a) (r32 b) i = some w ∧ decode w = some (.sh .srli a b n) :=
  dec_Sh 0 5 _ rfl (by omega) (by omega) _ rfl _ _ _ _ h
theorem dec_srai (a b : Reg) (n : BitVec 5) (i : CInt) (h : i.toNat = n.toNat) :
    ∃ w, srai (r32 a) (r32 b) i = some w ∧ decode w = some (.sh .srai a b n) :=
  dec_Sh 32 5 _ rfl (by omega) (by omega) _ rfl _ _ _ _ h

theorem dec_lb (a b : Reg) (i : CInt) (h1 : -2048 ≤ i.toInt) (h2 : i.toInt ≤ 2047) :
    ∃ w, lb (r32 a) (r32 b) i = some w ∧ decode w = some (.load .lb a b i) :=
  dec_Ld 0 _ rfl (by omega) _ rfl _ _ _ h1 h2
theorem dec_lh (a b : Reg) (i : CInt) (h1 : -2048 ≤ i.toInt) (h2 : i.toInt ≤ 2047) :
    ∃ w, lh (r32 a) (r32 b) i = some w ∧ decode w = some (.load .lh a b i) :=
  dec_Ld 1 _ rfl (by omega) _ rfl _ _ _ h1 h2
theorem dec_lw (a b : Reg) (i : CInt) (h1 : -2048 ≤ i.toInt) (h2 : i.toInt ≤ 2047) :
    ∃ w, lw (r32 a) (r32 b) i = some w ∧ decode w = some (.load .lw a b i) :=
  dec_Ld 2 _ rfl (by omega) _ rfl _ _ _ h1 h2
theorem dec_lbu (a b : Reg) (i : CInt) (h1 : -2048 ≤ i.toInt) (h2 : i.toInt ≤ 2047) :
    ∃ w, lbu (r32 a) (r32 b) i = some w ∧ decode w = some (.load .lbu a b i) :=
  dec_Ld 4 _ rfl (by omega) _ rfl _ _ _ h1 h2
theorem dec_lhu (a b : Reg) (i : CInt) (h1 : -2048 ≤ i.toInt) (h2 : i.toInt ≤ 2047) :
    ∃ w, lhu (r32 a) (r32 b) i = some w ∧ decode w = some (.load .lhu a b i) :=
  dec_Ld 5 _ rfl (by omega) _ rfl _ _ _ h1 h2

theorem dec_sb (a b : Reg) (i : CInt) (h1 : -2048 ≤ i.toInt) (h2 : i.toInt ≤ 2047) :
    ∃ w, sb (r32 a) (r32 b) i = some w ∧ decode w = some (.store .sb a b i) :=
  dec_St 0 _ rfl (by omega) _ rfl _ _ _ h1 h2
theorem dec_sh (a b : Reg) (i : CInt) (h1 : -2048 ≤ i.toInt) (h2 : i.toInt ≤ 2047) :
    ∃ w, sh (r32 a) (r32 b) i = some w ∧ decode w = some (.store .sh a b i) :=
  dec_St 1 _ rfl (by omega) _ rfl _ _ _ h1 h2
theorem dec_sw (a b : Reg) (i : CInt) (h1 : -2048 ≤ i.toInt) (h2 : i.toInt ≤ 2047) :
    ∃ w, sw (r32 a) (r32 b) i = some w ∧ decode w = some (.store .sw a b i) :=
  dec_St 2 _ rfl (by omega) _ rfl _ _ _ h1 h2

theorem dec_beq (a b : Reg) (i : CInt) (h1 : -4096 ≤ i.toInt) (h2 : i.toInt ≤ 4095) (h3 : i.toInt % 2 = 0) :
    ∃ w, beq (r32 a) (r32 b) i = some w ∧ decode w = some (.branch .beq a b i) :=
  dec_Br 0 _ rfl (by omega) _ rfl _ _ _ h1 h2 h3
theorem dec_bne (a b : Reg) (i : CInt) (h1 : -4096 ≤ i.toInt) (h2 : i.toInt ≤ 4095) (h3 : i.toInt % 2 = 0) :
    ∃ w, bne (r32 a) (r32 b) i = some w ∧ decode w = some (.branch .bne a b i) :=
  dec_Br 1 _ rfl (by omega) _ rfl _ _ _ h1 h2 h3
theorem dec_blt (a b : Reg) (i : CInt) (h1 : -4096 ≤ i.toInt) (h2 : i.toInt ≤ 4095) (h3 : i.toInt % 2 = 0) :
    ∃ w, blt (r32 a) (r32 b) i = some w ∧ decode w = some (.branch .blt a b i) :=
  dec_Br 4 _ rfl (by omega) _ rfl _ _ _ h1 h2 h3
theorem dec_bge (a b : Reg) (i : CInt) (h1 : -4096 ≤ i.toInt) (h2 : i.toInt ≤ 4095) (h3 : i.toInt % 2 = 0) :
    ∃ w, bge (r32 a) (r32 b) i = some w ∧ decode w = some (.branch .bge a b i) :=
  dec_Br 5 _ rfl (by omega) _ rfl _ _ _ h1 h2 h3
theorem dec_bltu (a b : Reg) (i : CInt) (h1 : -4096 ≤ i.toInt) (h2 : i.toInt ≤ 4095) (h3 : i.toInt % 2 = 0) :
    ∃ w, bltu (r32 a) (r32 b) i = some w ∧ decode w = some (.branch .bltu a b i) :=
  dec_Br 6 _ rfl (by omega) _ rfl _ _ _ h1 h2 h3
theorem dec_bgeu (a b : Reg) (i : CInt) (h1 : -4096 ≤ i.toInt) (h2 : i.toInt ≤ 4095) (h3 : i.toInt % 2 = 0) :
    ∃ w, bgeu (r32 a) (r32 b) i = some w ∧ decode w = some (.branch .bgeu a b i) :=
  dec_Br 7 _ rfl (by omega) _ rfl _ _ _ h1 h2 h3

end Shecc.Riscv
