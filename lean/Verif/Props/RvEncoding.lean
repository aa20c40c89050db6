import Verif.Lemmas.RvExec

/-!
# C01–C06: RISC-V instruction encoding

`RV32.decode` (Spec/RV32.lean) is the manual's decoder; `Shecc.Riscv.*` (Model/Riscv.lean) are the encoders.
-/

namespace Shecc.Props
open RV32 Shecc.Riscv

/-- **C01.** Every register-form word decodes to the requested operation and registers. -/
theorem C01_rtype (d a b : Reg) :
    decode (add (r32 d) (r32 a) (r32 b)) = some (.r .add d a b) ∧
    decode (sub (r32 d) (r32 a) (r32 b)) = some (.r .sub d a b) ∧
    decode (xor (r32 d) (r32 a) (r32 b)) = some (.r .xor d a b) ∧
    decode (or (r32 d) (r32 a) (r32 b)) = some (.r .or d a b) ∧
    decode (and (r32 d) (r32 a) (r32 b)) = some (.r .and d a b) ∧
    decode (sll (r32 d) (r32 a) (r32 b)) = some (.r .sll d a b) ∧
    decode (srl (r32 d) (r32 a) (r32 b)) = some (.r .srl d a b) ∧
    decode (sra (r32 d) (r32 a) (r32 b)) = some (.r .sra d a b) ∧
    decode (slt (r32 d) (r32 a) (r32 b)) = some (.r .slt d a b) ∧
    decode (sltu (r32 d) (r32 a) (r32 b)) = some (.r .sltu d a b) ∧
    decode (mul (r32 d) (r32 a) (r32 b)) = some (.r .mul d a b) ∧
    decode (div (r32 d) (r32 a) (r32 b)) = some (.r .div d a b) ∧
    decode (mod (r32 d) (r32 a) (r32 b)) = some (.r .rem d a b) :=
  ⟨dec_add .., dec_sub .., dec_xor .., dec_or .., dec_and .., dec_sll .., dec_srl .., dec_sra .., dec_slt ..,
    dec_sltu .., dec_mul .., dec_div .., dec_mod ..⟩

/-- **C02 (a).** Every I-type encoder rejects exactly the immediates outside [-2048, 2047]. -/
theorem C02_itype_reject (d a imm : CInt) :
    ∀ enc ∈ [addi, slti, sltiu, xori, ori, andi, slli, srli, srai, lb, lh, lw, lbu, lhu, jalr],
      (enc d a imm = none ↔ (imm.toInt < -2048 ∨ 2047 < imm.toInt)) := by
  intro enc h
  simp only [List.mem_cons, List.not_mem_nil, or_false] at h
  rcases h with h | h | h | h | h | h | h | h | h | h | h | h | h | h | h <;> subst h <;> exact enc_I_none ..

/-- **C02 (b).** In range, the word decodes to the same registers and the same immediate. -/
theorem C02_itype (d a : Reg) (imm : CInt) (h1 : -2048 ≤ imm.toInt) (h2 : imm.toInt ≤ 2047) :
    ((addi (r32 d) (r32 a) imm).bind decode = some (.i .addi d a imm)) ∧
    ((slti (r32 d) (r32 a) imm).bind decode = some (.i .slti d a imm)) ∧
    ((sltiu (r32 d) (r32 a) imm).bind decode = some (.i .sltiu d a imm)) ∧
    ((xori (r32 d) (r32 a) imm).bind decode = some (.i .xori d a imm)) ∧
    ((ori (r32 d) (r32 a) imm).bind decode = some (.i .ori d a imm)) ∧
    ((andi (r32 d) (r32 a) imm).bind decode = some (.i .andi d a imm)) ∧
    ((lb (r32 d) (r32 a) imm).bind decode = some (.load .lb d a imm)) ∧
    ((lh (r32 d) (r32 a) imm).bind decode = some (.load .lh d a imm)) ∧
    ((lw (r32 d) (r32 a) imm).bind decode = some (.load .lw d a imm)) ∧
    ((lbu (r32 d) (r32 a) imm).bind decode = some (.load .lbu d a imm)) ∧
    ((lhu (r32 d) (r32 a) imm).bind decode = some (.load .lhu d a imm)) ∧
    ((jalr (r32 d) (r32 a) imm).bind decode = some (.jalr d a imm)) := by
  refine ⟨?_, ?_, ?_, ?_, ?_, ?_, ?_, ?_, ?_, ?_, ?_, ?_⟩
  · obtain ⟨w, e, h⟩ := dec_addi d a imm h1 h2; simp [e, h]
  · obtain ⟨w, e, h⟩ := dec_slti d a imm h1 h2; simp [e, h]
  · obtain ⟨w, e, h⟩ := dec_sltiu d a imm h1 h2; simp [e, h]
  · obtain ⟨w, e, h⟩ := dec_xori d a imm h1 h2; simp [e, h]
  · obtain ⟨w, e, h⟩ := dec_ori d a imm h1 h2; simp [e, h]
  · obtain ⟨w, e, h⟩ := dec_andi d a imm h1 h2; simp [e, h]
  · obtain ⟨w, e, h⟩ := dec_lb d a imm h1 h2; simp [e, h]
  · obtain ⟨w, e, h⟩ := dec_lh d a imm h1 h2; simp [e, h]
  · obtain ⟨w, e, h⟩ := dec_lw d a imm h1 h2; simp [e, h]
  · obtain ⟨w, e, h⟩ := dec_lbu d a imm h1 h2; simp [e, h]
  · obtain ⟨w, e, h⟩ := dec_lhu d a imm h1 h2; simp [e, h]
  · obtain ⟨w, e, h⟩ := dec_jalr d a imm h1 h2; simp [e, h]

/-- **C02 (c).** Shift amounts 0..31 decode to the same shift. -/
theorem C02_shift (d a : Reg) (n : BitVec 5) :
    ((slli (r32 d) (r32 a) (n.setWidth 32)).bind decode = some (.sh .slli d a n)) ∧
    ((srli (r32 d) (r32 a) (n.setWidth 32)).bind decode = some (.sh .srli d a n)) ∧
    ((srai (r32 d) (r32 a) (n.setWidth 32)).bind decode = some (.sh .srai d a n)) := by
  have hn : (n.setWidth 32).toNat = n.toNat := by have := n.isLt; simp; omega
  refine ⟨?_, ?_, ?_⟩
  · obtain ⟨w, e, h⟩ := dec_slli d a n _ hn; simp [e, h]
  · obtain ⟨w, e, h⟩ := dec_srli d a n _ hn; simp [e, h]
  · obtain ⟨w, e, h⟩ := dec_srai d a n _ hn; simp [e, h]

/-- the hypotheses of `C02_itype` are met by the extreme negative immediate -/
example : (addi (r32 10) (r32 2) (-2048)).bind decode = some (.i .addi 10 2 (-2048)) :=
  (C02_itype 10 2 (-2048) (by decide) (by decide)).1
/-- and the value just outside is rejected -/
example : addi (r32 10) (r32 2) 2048 = none :=
  (C02_itype_reject _ _ _ addi (by simp)).2 (by decide)

/-- **C03.** Stores: exact in [-2048, 2047], rejected otherwise. -/
theorem C03_store_reject (src base imm : CInt) :
    ∀ enc ∈ [sb, sh, sw], (enc src base imm = none ↔ (imm.toInt < -2048 ∨ 2047 < imm.toInt)) := by
  intro enc h
  simp only [List.mem_cons, List.not_mem_nil, or_false] at h
  rcases h with h | h | h <;> subst h <;> exact enc_S_none ..

theorem C03_store (src base : Reg) (imm : CInt) (h1 : -2048 ≤ imm.toInt) (h2 : imm.toInt ≤ 2047) :
    ((sb (r32 src) (r32 base) imm).bind decode = some (.store .sb src base imm)) ∧
    ((sh (r32 src) (r32 base) imm).bind decode = some (.store .sh src base imm)) ∧
    ((sw (r32 src) (r32 base) imm).bind decode = some (.store .sw src base imm)) := by
  refine ⟨?_, ?_, ?_⟩
  · obtain ⟨w, e, h⟩ := dec_sb src base imm h1 h2; simp [e, h]
  · obtain ⟨w, e, h⟩ := dec_sh src base imm h1 h2; simp [e, h]
  · obtain ⟨w, e, h⟩ := dec_sw src base imm h1 h2; simp [e, h]

example : (sw (r32 11) (r32 2) (-4)).bind decode = some (.store .sw 11 2 (-4)) :=
  (C03_store 11 2 (-4) (by decide) (by decide)).2.2

/-- **C04 (a).** Conditional branches reject exactly the offsets outside [-4096, 4095]. -/
theorem C04_branch_reject (a b imm : CInt) :
    ∀ enc ∈ [beq, bne, blt, bge, bltu, bgeu], (enc a b imm = none ↔ (imm.toInt < -4096 ∨ 4095 < imm.toInt)) := by
  intro enc h
  simp only [List.mem_cons, List.not_mem_nil, or_false] at h
  rcases h with h | h | h | h | h | h <;> subst h <;> exact enc_B_none ..

/-- **C04 (b).** For every even offset in range the branch decodes to the same comparison, registers and offset. -/
theorem C04_branch (a b : Reg) (imm : CInt) (h1 : -4096 ≤ imm.toInt) (h2 : imm.toInt ≤ 4095)
    (h3 : imm.toInt % 2 = 0) :
    ((beq (r32 a) (r32 b) imm).bind decode = some (.branch .beq a b imm)) ∧
    ((bne (r32 a) (r32 b) imm).bind decode = some (.branch .bne a b imm)) ∧
    ((blt (r32 a) (r32 b) imm).bind decode = some (.branch .blt a b imm)) ∧
    ((bge (r32 a) (r32 b) imm).bind decode = some (.branch .bge a b imm)) ∧
    ((bltu (r32 a) (r32 b) imm).bind decode = some (.branch .bltu a b imm)) ∧
    ((bgeu (r32 a) (r32 b) imm).bind decode = some (.branch .bgeu a b imm)) := by
  refine ⟨?_, ?_, ?_, ?_, ?_, ?_⟩
  · obtain ⟨w, e, h⟩ := dec_beq a b imm h1 h2 h3; simp [e, h]
  · obtain ⟨w, e, h⟩ := dec_bne a b imm h1 h2 h3; simp [e, h]
  · obtain ⟨w, e, h⟩ := dec_blt a b imm h1 h2 h3; simp [e, h]
  · obtain ⟨w, e, h⟩ := dec_bge a b imm h1 h2 h3; simp [e, h]
  · obtain ⟨w, e, h⟩ := dec_bltu a b imm h1 h2 h3; simp [e, h]
  · obtain ⟨w, e, h⟩ := dec_bgeu a b imm h1 h2 h3; simp [e, h]

example : (bne (r32 6) (r32 0) (-20)).bind decode = some (.branch .bne 6 0 (-20)) :=
  (C04_branch 6 0 (-20) (by decide) (by decide) (by decide)).2.1

/-- **C05.** For every even offset in the ±1 MiB range of `jal`, the word decodes to the same link register and
offset. -/
theorem C05_jal (rd : Reg) (imm : CInt) (h1 : -2 ^ 20 ≤ imm.toInt) (h2 : imm.toInt < 2 ^ 20)
    (h3 : imm.toInt % 2 = 0) : decode (jal (r32 rd) imm) = some (.jal rd imm) :=
  dec_jal rd imm h1 h2 h3

example : decode (jal (r32 1) (-1048576)) = some (.jal 1 (-1048576)) :=
  C05_jal 1 (-1048576) (by decide) (by decide) (by decide)

/-- **C05, negative part.** Outside that range the encoder neither rejects nor encodes the request: the word it
returns for offset 2^20 is a jump to offset 0 (an endless loop). -/
theorem C05_jal_out_of_range_silently_wrong :
    ∃ (rd : Reg) (imm : CInt), imm.toInt % 2 = 0 ∧ decode (jal (r32 rd) imm) = some (.jal rd 0) ∧ imm ≠ 0 :=
  ⟨0, 0x100000, by decide, by decide, by decide⟩

/-- **C06.** The lui/addi pair is always encodable, and executing it leaves exactly the 32-bit value `v` in `rd`,
whatever the state was before, and changes nothing else (but the pc). -/
theorem C06_lui_addi (rd : Reg) (hrd : rd ≠ 0#5) (v : CInt) :
    ∃ w2, addi (r32 rd) (r32 rd) (rv_lo v) = some w2 ∧
      ∀ (c : Code) (s : State), CodeAt c s.pc [lui (r32 rd) (rv_hi v), w2] →
        ∃ t, Reaches c s t ∧ t.pc = s.pc + 8 ∧ t.get rd = v ∧ (∀ q, q ≠ rd → t.get q = s.get q) ∧ t.mem = s.mem := by
  obtain ⟨l1, l2⟩ := lo_range v
  obtain ⟨w2, e2, d2⟩ := dec_addi rd rd (rv_lo v) l1 l2
  refine ⟨w2, e2, fun c s hc => ?_⟩
  have s1 := step_of hc.head (dec_lui rd (rv_hi v))
  simp only [exec] at s1
  generalize hu : ({ s.set rd (rv_hi v &&& 0xFFFFF000#32) with pc := s.pc + 4 } : State) = u at s1
  have hpc : u.pc = s.pc + 4 := by rw [← hu]
  have s2 := step_of (s := u) (by rw [hpc]; exact hc.tail.head) d2
  simp only [exec] at s2
  refine ⟨_, .head s1 (.head s2 (.refl _)), ?_, ?_, ?_, ?_⟩
  · simp only [hpc]; rw [BitVec.add_assoc]; rfl
  · have : u.get rd = rv_hi v &&& 0xFFFFF000#32 := by
      rw [← hu]; simp only [get_pc, get_set]; simp [hrd]
    simp only [get_pc, get_set, this, aluI]
    rw [if_pos ⟨trivial, hrd⟩, hi_lo]
  · intro q hq
    have : u.get q = s.get q := by rw [← hu]; simp only [get_pc, get_set]; simp [hq]
    simp only [get_pc, get_set, this]
    simp [hq]
  · simp only [set_mem]; rw [← hu]; simp

example : ∃ w2, addi (r32 5) (r32 5) (rv_lo 0xFFFFF800#32) = some w2 := 
  let ⟨w, h, _⟩ := C06_lui_addi 5 (by decide) 0xFFFFF800#32; ⟨w, h⟩

/-- **C02 (`nop`).** The instruction that does nothing: only the program counter moves on. -/
theorem C02_nop (s : State) : ∃ i, nop.bind decode = some i ∧ exec i s = .next { s with pc := s.pc + 4 } := by
  refine ⟨.i .addi 0 0 0, by decide, ?_⟩
  simp only [exec]
  congr 2

end Shecc.Props
