import Verif.Lemmas.ArmCg

/-!
# C07–C11: ARM instruction encoding

`ARM.decode`, `ARM.op2Val` (Spec/Arm.lean) follow the ARM manual; `Shecc.Arm.*` (Model/Arm.lean) are the encoders.
`u32` zero-extends a register number or condition to a C int.
-/

namespace Shecc.Props
open ARM Shecc.Arm

/-- **C07.** Every register-form word decodes to the requested condition, operation, S bit and registers. -/
theorem C07_dp_reg (cond : BitVec 4) (hc : cond ≠ 15#4) (rd rn rm : Reg) :
    (and_r (u32 cond) (u32 rd) (u32 rn) (u32 rm)).bind decode = some ⟨cond, .dp .and false rd rn (.shImm rm 0#2 0#5)⟩ ∧
    (or_r (u32 cond) (u32 rd) (u32 rn) (u32 rm)).bind decode = some ⟨cond, .dp .orr false rd rn (.shImm rm 0#2 0#5)⟩ ∧
    (eor_r (u32 cond) (u32 rd) (u32 rn) (u32 rm)).bind decode = some ⟨cond, .dp .eor false rd rn (.shImm rm 0#2 0#5)⟩ ∧
    (add_r (u32 cond) (u32 rd) (u32 rn) (u32 rm)).bind decode = some ⟨cond, .dp .add false rd rn (.shImm rm 0#2 0#5)⟩ ∧
    (sub_r (u32 cond) (u32 rd) (u32 rn) (u32 rm)).bind decode = some ⟨cond, .dp .sub false rd rn (.shImm rm 0#2 0#5)⟩ ∧
    (mov_r (u32 cond) (u32 rd) (u32 rm)).bind decode = some ⟨cond, .dp .mov false rd 0#4 (.shImm rm 0#2 0#5)⟩ ∧
    (mvn_r (u32 cond) (u32 rd) (u32 rm)).bind decode = some ⟨cond, .dp .mvn false rd 0#4 (.shImm rm 0#2 0#5)⟩ ∧
    (cmp_r (u32 cond) (u32 rn) (u32 rm)).bind decode = some ⟨cond, .dp .cmp true 0#4 rn (.shImm rm 0#2 0#5)⟩ := by
  refine ⟨?_, ?_, ?_, ?_, ?_, ?_, ?_, ?_⟩
  · obtain ⟨w, e, h⟩ := dr_and cond hc rd rn rm; simp [e, h]
  · obtain ⟨w, e, h⟩ := dr_or cond hc rd rn rm; simp [e, h]
  · obtain ⟨w, e, h⟩ := dr_eor cond hc rd rn rm; simp [e, h]
  · obtain ⟨w, e, h⟩ := dr_add cond hc rd rn rm; simp [e, h]
  · obtain ⟨w, e, h⟩ := dr_sub cond hc rd rn rm; simp [e, h]
  · obtain ⟨w, e, h⟩ := dr_mov cond hc rd rm; simp [e, h]
  · obtain ⟨w, e, h⟩ := dr_mvn cond hc rd rm; simp [e, h]
  · obtain ⟨w, e, h⟩ := dr_cmp cond hc rn rm; simp [e, h]

/-- **C07 (shifts, multiply, divide, register call).** `mul rd = r1 * r2`, `div rd = r2 / r1` (note the operand order
of the encoder), shifts by register (`lsl`, `lsr`, `asr`) and by constant. -/
theorem C07_shift_mul (cond : BitVec 4) (hc : cond ≠ 15#4) (rd ra rb : Reg) (s : Bool) (t : BitVec 2) (n : BitVec 5) :
    decode (sll (u32 cond) (u32 rd) (u32 ra) (u32 rb)) = some ⟨cond, .dp .mov false rd 0#4 (.shReg ra 0#2 rb)⟩ ∧
    decode (srl (u32 cond) (u32 rd) (u32 ra) (u32 rb)) = some ⟨cond, .dp .mov false rd 0#4 (.shReg ra 1#2 rb)⟩ ∧
    decode (sra (u32 cond) (u32 rd) (u32 ra) (u32 rb)) = some ⟨cond, .dp .mov false rd 0#4 (.shReg ra 2#2 rb)⟩ ∧
    decode (srl_amt (u32 cond) (u32 (BitVec.ofBool s)) (u32 t) (u32 rd) (u32 ra) (u32 n)) =
      some ⟨cond, .dp .mov s rd 0#4 (.shImm ra t n)⟩ ∧
    decode (sll_amt (u32 cond) (u32 (BitVec.ofBool s)) (u32 t) (u32 rd) (u32 ra) (u32 n)) =
      some ⟨cond, .dp .mov s rd 0#4 (.shImm ra t n)⟩ ∧
    decode (mul (u32 cond) (u32 rd) (u32 ra) (u32 rb)) = some ⟨cond, .mul rd rb ra⟩ ∧
    decode (div (u32 cond) (u32 rd) (u32 ra) (u32 rb)) = some ⟨cond, .sdiv rd rb ra⟩ ∧
    decode (blx (u32 cond) (u32 ra)) = some ⟨cond, .blx ra⟩ :=
  ⟨dec_sll cond hc .., dec_srl cond hc .., dec_sra cond hc .., dec_shift_amt cond hc .., dec_shift_amt cond hc ..,
    dec_mul cond hc .., dec_div cond hc .., dec_blx cond hc ..⟩

/-- **C07 (register lists).** `stmdb rn!, {list}` and `ldmia rn!, {list}`, every list of r0..r15. -/
theorem C07_reglist (cond : BitVec 4) (hc : cond ≠ 15#4) (rn : Reg) (l : BitVec 16) :
    decode (stmdb (u32 cond) 1 (u32 rn) (u32 l)) = some ⟨cond, .stmdb rn l⟩ ∧
    decode (ldm (u32 cond) 1 (u32 rn) (u32 l)) = some ⟨cond, .ldmia rn l⟩ :=
  ⟨dec_stmdb cond hc rn l, dec_ldm cond hc rn l⟩

/-- `o` is a rejected request, or a word that decodes to operation `op` with an operand whose value is `imm`. -/
def Denotes (o : Option CInt) (cond : BitVec 4) (op : DpOp) (s : Bool) (rd rn : Reg) (imm : Word) : Prop :=
  ∃ w i, o = some w ∧ decode w = some ⟨cond, .dp op s rd rn (.imm i)⟩ ∧ ∀ st, (op2Val st (.imm i)).1 = imm

/-- The immediates the encoder supports: an 8-bit value shifted left by an even amount. -/
def Encodable (imm : CInt) : Prop := ∃ v k : Nat, v ≤ 255 ∧ imm.toNat = v * 4 ^ k

theorem denotes_of (cond : BitVec 4) (hc : cond ≠ 15#4) (op : BitVec 4) (s : Bool)
    (h : ¬ (8 ≤ op.toNat ∧ op.toNat < 12 ∧ s = false)) (rn rd : Reg) (imm : CInt) (hi : 0 ≤ imm.toInt) :
    (mov (u32 cond) 1 (u32 op) (u32 (BitVec.ofBool s)) (u32 rn) (u32 rd) imm = none ↔ ¬ Encodable imm) ∧
    (Encodable imm → Denotes (mov (u32 cond) 1 (u32 op) (u32 (BitVec.ofBool s)) (u32 rn) (u32 rd) imm) cond
      (dpOp op.toNat) s rd rn imm) := by
  have hlt : imm.toNat < 2 ^ 31 := by have := toInt_cases imm; omega
  rcases mov_imm_spec cond hc op s h rn rd imm hlt with ⟨e1, e2⟩ | ⟨w, i, e1, e2, e3, e4⟩
  · exact ⟨⟨fun _ => e2, fun _ => e1⟩, fun e => absurd e e2⟩
  · refine ⟨⟨fun e => ?_, fun e => absurd e4 e⟩, fun _ => ⟨w, i, e1, e2, fun st => by rw [op2Val_imm, e3]⟩⟩
    rw [e1] at e; cases e

/-- **C08.** A non-negative immediate is either rejected (exactly when it is not an 8-bit value shifted by an even
amount) or denoted exactly by the emitted word, for every immediate-form instruction the back end uses. -/
theorem C08_modified_imm (cond : BitVec 4) (hc : cond ≠ 15#4) (rd rn : Reg) (imm : CInt) (hi : 0 ≤ imm.toInt) :
    ((mov_i (u32 cond) (u32 rd) imm = none ↔ ¬ Encodable imm) ∧
      (Encodable imm → Denotes (mov_i (u32 cond) (u32 rd) imm) cond .mov false rd 0#4 imm)) ∧
    ((add_i (u32 cond) (u32 rd) (u32 rn) imm = none ↔ ¬ Encodable imm) ∧
      (Encodable imm → Denotes (add_i (u32 cond) (u32 rd) (u32 rn) imm) cond .add false rd rn imm)) ∧
    ((rsb_i (u32 cond) (u32 rd) imm (u32 rn) = none ↔ ¬ Encodable imm) ∧
      (Encodable imm → Denotes (rsb_i (u32 cond) (u32 rd) imm (u32 rn)) cond .rsb false rd rn imm)) ∧
    ((cmp_i (u32 cond) (u32 rn) imm = none ↔ ¬ Encodable imm) ∧
      (Encodable imm → Denotes (cmp_i (u32 cond) (u32 rn) imm) cond .cmp true 0#4 rn imm)) := by
  refine ⟨denotes_of cond hc 13#4 false (by decide) 0#4 rd imm hi, ?_, denotes_of cond hc 3#4 false (by decide) rn rd imm hi,
    denotes_of cond hc 10#4 true (by decide) rn 0#4 imm hi⟩
  have h0 : (0 : CInt).sle imm = true := by
    rw [BitVec.sle_eq_decide, decide_eq_true_eq]; simpa using hi
  unfold add_i
  rw [if_pos h0]
  exact denotes_of cond hc 4#4 false (by decide) rn rd imm hi

/-- **C08 (subtraction).** `add` of a negative immediate other than `INT_MIN` is a `sub` of its absolute value. -/
theorem C08_add_negative (cond : BitVec 4) (hc : cond ≠ 15#4) (rd rn : Reg) (imm : CInt) (hi : imm.toInt < 0)
    (hmin : imm ≠ BitVec.intMin 32) :
    (add_i (u32 cond) (u32 rd) (u32 rn) imm = none ↔ ¬ Encodable (-imm)) ∧
      (Encodable (-imm) → Denotes (add_i (u32 cond) (u32 rd) (u32 rn) imm) cond .sub false rd rn (-imm)) := by
  have h0 : ¬ (0 : CInt).sle imm = true := by
    rw [BitVec.sle_eq_decide, decide_eq_true_eq]
    have e : (0 : CInt).toInt = 0 := by decide
    omega
  unfold add_i
  rw [if_neg h0]
  refine denotes_of cond hc 2#4 false (by decide) rn rd (-imm) ?_
  rw [BitVec.toInt_neg_of_ne_intMin hmin]
  omega

/-- **C08, negative part.** Every negative immediate is accepted by `mov` but the word denotes its low 8 bits. -/
theorem C08_negative_truncated (cond : BitVec 4) (hc : cond ≠ 15#4) (rd : Reg) (imm : CInt) (hi : imm.toInt < 0) :
    Denotes (mov_i (u32 cond) (u32 rd) imm) cond .mov false rd 0#4 (imm &&& 255) ∧ imm &&& 255 ≠ imm := by
  have hb : ¬ (255 : CInt).slt imm = true := by
    rw [slt_iff]
    have e : (255 : CInt).toInt = 255 := by decide
    omega
  have hs : (imm &&& 255).toNat ≤ 255 := by rw [and255]; omega
  obtain ⟨w, e1, e2⟩ := di_mov cond hc rd (imm &&& 255) hs
  have e3 : mov_i (u32 cond) (u32 rd) imm = mov_i (u32 cond) (u32 rd) (imm &&& 255) := by
    have hb' : ¬ (255 : CInt).slt (imm &&& 255) = true := by rw [slt255 _ (by omega)]; omega
    unfold mov_i mov
    rw [if_neg hb, if_neg hb', BitVec.and_assoc, BitVec.and_self]
  refine ⟨⟨w, _, e3.trans e1, e2, fun st => ?_⟩, ?_⟩
  · rw [op2Val_imm, immVal_small _ hs]
  · intro e
    rw [e] at hs
    have := toInt_cases imm
    omega

example : Encodable 0x3F0#32 := ⟨63, 2, by decide, by decide⟩
example : ¬ Encodable 257#32 := by
  rintro ⟨v, k, h1, h2⟩
  cases k with
  | zero => simp at h2; omega
  | succ k => rw [Nat.pow_succ, ← Nat.mul_assoc] at h2; simp at h2; omega

/-- **C09.** Executing the `movw`/`movt` pair leaves exactly `v` in `rd`, whatever the state was before, and changes
nothing else (but the pc). -/
theorem C09_movw_movt (rd : Reg) (hrd : rd ≠ 15#4) (v : CInt) (c : Code) (s : State)
    (hc : CodeAt c s.pc [movw AL (u32 rd) v, movt AL (u32 rd) v]) :
    ∃ t, Reaches c s t ∧ t.pc = s.pc + 8 ∧ t.get rd = v ∧ (∀ q, q ≠ rd → q ≠ 15#4 → t.get q = s.get q) ∧
      t.flags = s.flags ∧ t.mem = s.mem := by
  have hi : InstrAt c s.pc [⟨14#4, .movw rd (v.extractLsb' 0 16)⟩, ⟨14#4, .movt rd (v.extractLsb' 16 16)⟩] :=
    .of_code hc (by
      rw [List.map_cons, List.map_cons, show AL = u32 14#4 from rfl, dec_movw _ (by decide), dec_movt _ (by decide)]; rfl)
  have : Ev c (goto s.pc 0 s) fun t => t.pc = s.pc + 8 ∧ t.get rd = v ∧ (∀ q, q ≠ rd → q ≠ 15#4 → t.get q = s.get q) ∧
      t.flags = s.flags ∧ t.mem = s.mem := by
    refine Ev.act hi 0 rfl hrd (Ev.act hi 1 rfl hrd (Ev.now ⟨rfl, ?_, ?_, by simp, by simp⟩))
    · rw [get_regs _ hrd]
      simp [set_regs, movwt v v]
    · intro q h1 h2
      rw [get_regs _ h2, get_regs _ h2]
      simp [set_regs, h1]
  rw [goto_self] at this
  exact this

example : (movw AL (u32 3#4) 0xDEADBEEF#32, movt AL (u32 3#4) 0xDEADBEEF#32) = (0xE30B3EEF#32, 0xE34D3EAD#32) := by decide

/-- **C10.** Offsets in [-4095, 4095] are exact, for loads and stores of words and bytes. -/
theorem C10_transfer (cond : BitVec 4) (hc : cond ≠ 15#4) (rd rn : Reg) (ofs : CInt)
    (h1 : -4095 ≤ ofs.toInt) (h2 : ofs.toInt ≤ 4095) :
    decode (lw (u32 cond) (u32 rd) (u32 rn) ofs) = some ⟨cond, .ldr false rd rn ofs⟩ ∧
    decode (lb (u32 cond) (u32 rd) (u32 rn) ofs) = some ⟨cond, .ldr true rd rn ofs⟩ ∧
    decode (sw (u32 cond) (u32 rd) (u32 rn) ofs) = some ⟨cond, .str false rd rn ofs⟩ ∧
    decode (sb (u32 cond) (u32 rd) (u32 rn) ofs) = some ⟨cond, .str true rd rn ofs⟩ :=
  ⟨dec_transfer cond hc true false rn rd ofs h1 h2, dec_transfer cond hc true true rn rd ofs h1 h2,
    dec_transfer cond hc false false rn rd ofs h1 h2, dec_transfer cond hc false true rn rd ofs h1 h2⟩

/-- **C10, negative part.** Every offset above 4095 is accepted but denotes another offset (its low 12 bits). -/
theorem C10_out_of_range_silently_wrong (cond : BitVec 4) (hc : cond ≠ 15#4) (rd rn : Reg) (ofs : CInt)
    (h : 4095 < ofs.toInt) :
    ∃ o', o' ≠ ofs ∧ o' = ofs &&& 4095 ∧ decode (lw (u32 cond) (u32 rd) (u32 rn) ofs) = some ⟨cond, .ldr false rd rn o'⟩ := by
  have hn := toInt_cases ofs
  have ha : (ofs &&& 4095).toNat = ofs.toNat % 4096 := by
    rw [BitVec.toNat_and, show (4095 : CInt).toNat = 2 ^ 12 - 1 by decide, Nat.and_two_pow_sub_one_eq_mod]
  have hb := toInt_cases (ofs &&& 4095)
  refine ⟨ofs &&& 4095, ?_, rfl, ?_⟩
  · intro e; rw [e] at ha; omega
  · rw [← (C10_transfer cond hc rd rn (ofs &&& 4095) (by omega) (by omega)).1]
    have z : (0 : CInt).toInt = 0 := by decide
    have s1 : ¬ ofs.slt 0 = true := by rw [slt_iff]; omega
    have s2 : ¬ (ofs &&& 4095).slt 0 = true := by rw [slt_iff]; omega
    unfold lw arm_transfer
    simp only [if_neg s1, if_neg s2, BitVec.and_assoc, BitVec.and_self]

example : decode (lw AL (u32 3#4) (u32 13#4) (-4)) = some ⟨14#4, .ldr false 3#4 13#4 (-4)⟩ :=
  (C10_transfer 14#4 (by decide) 3#4 13#4 (-4) (by decide) (by decide)).1

/-- **C11.** For every multiple of 4 whose distance from pc+8 fits the 24-bit field, `b`/`bl` decode to the same
condition and the target `pc + ofs` (the instruction adds 8). -/
theorem C11_branch (cond : BitVec 4) (hc : cond ≠ 15#4) (ofs : CInt)
    (h1 : -2 ^ 25 + 8 ≤ ofs.toInt) (h2 : ofs.toInt < 2 ^ 25 + 8) (h4 : ofs.toInt % 4 = 0) :
    decode (b (u32 cond) ofs) = some ⟨cond, .b false (ofs - 8)⟩ ∧
    decode (bl (u32 cond) ofs) = some ⟨cond, .b true (ofs - 8)⟩ :=
  ⟨dec_b cond hc ofs h1 h2 h4, dec_bl cond hc ofs h1 h2 h4⟩

/-- What such a branch does when its condition holds: control goes to the instruction's own address plus `ofs`; `bl`
also leaves the address of the next instruction in r14. -/
theorem C11_branch_target (cond : BitVec 4) (ofs : CInt) (s : State) (hcd : condHolds cond s.flags = true) :
    exec ⟨cond, .b false (ofs - 8)⟩ s = .next { s with pc := s.pc + ofs } ∧
    exec ⟨cond, .b true (ofs - 8)⟩ s = .next { s.set 14#4 (s.pc + 4) with pc := s.pc + ofs } := by
  have e : s.pc + 8#32 + (ofs - 8#32) = s.pc + ofs := by
    rw [BitVec.add_assoc, BitVec.add_comm (8#32) (ofs - 8#32), BitVec.sub_add_cancel]
  constructor
  · simp only [exec, hcd, if_true, execAct]; simp; exact e
  · simp only [exec, hcd, if_true, execAct]; simp; exact e

example : decode (b NE (-20)) = some ⟨1#4, .b false (-28)⟩ :=
  (C11_branch 1#4 (by decide) (-20) (by decide) (by decide) (by decide)).1

/-- **C07 (conditions).** After `cmp rn, rm` the condition codes of the encoder mean what their names say. -/
theorem C07_conditions (rn rm : Reg) (h1 : rn ≠ 15#4) (h2 : rm ≠ 15#4) (s : State) :
    ∃ f, execAct (.dp .cmp true 0#4 rn (.shImm rm 0#2 0#5)) s = .next { s with flags := f, pc := s.pc + 4#32 } ∧
      (condHolds (EQ.setWidth 4) f = true ↔ s.get rn = s.get rm) ∧
      (condHolds (NE.setWidth 4) f = true ↔ s.get rn ≠ s.get rm) ∧
      (condHolds (CS.setWidth 4) f = true ↔ (s.get rm).toNat ≤ (s.get rn).toNat) ∧
      (condHolds (CC.setWidth 4) f = true ↔ (s.get rn).toNat < (s.get rm).toNat) ∧
      (condHolds (LS.setWidth 4) f = true ↔ (s.get rn).toNat ≤ (s.get rm).toNat) ∧
      (condHolds (GE.setWidth 4) f = true ↔ (s.get rm).toInt ≤ (s.get rn).toInt) ∧
      (condHolds (LT.setWidth 4) f = true ↔ (s.get rn).toInt < (s.get rm).toInt) ∧
      (condHolds (GT.setWidth 4) f = true ↔ (s.get rm).toInt < (s.get rn).toInt) ∧
      (condHolds (LE.setWidth 4) f = true ↔ (s.get rn).toInt ≤ (s.get rm).toInt) ∧
      condHolds (AL.setWidth 4) f = true := by
  have e1 : s.get rn = s.regs rn := by unfold State.get; rw [if_neg h1]
  have e2 : s.get rm = s.regs rm := by unfold State.get; rw [if_neg h2]
  refine ⟨cmpFlags (s.get rn) (s.get rm), ?_, ?_⟩
  · unfold cmpFlags
    rw [e2]
    simp only [execAct, op2Val]
    rw [e1, e2]
    rfl
  · generalize s.get rn = a
    generalize s.get rm = b
    refine ⟨?_, ?_, ?_, ?_, ?_, ?_, ?_, ?_, ?_, rfl⟩
    · show condHolds 0#4 _ = true ↔ _
      rw [cond_eq]; simp
    · show condHolds 1#4 _ = true ↔ _
      rw [cond_ne]; simp
    · show condHolds 2#4 _ = true ↔ _
      rw [cond_cs]; simp
    · show condHolds 3#4 _ = true ↔ _
      rw [cond_cc]; simp
    · show (!((cmpFlags a b).c && !(cmpFlags a b).z)) = true ↔ _
      rw [cmp_c, cmp_z]
      simp only [Bool.not_and, Bool.not_not, Bool.or_eq_true, Bool.not_eq_true', decide_eq_true_eq, decide_eq_false_iff_not, Nat.not_le]
      constructor
      · rintro (h | h)
        · omega
        · rw [h]; exact Nat.le_refl _
      · intro h
        rcases Nat.lt_or_eq_of_le h with h | h
        · exact Or.inl h
        · exact Or.inr (BitVec.eq_of_toNat_eq h)
    · show condHolds 10#4 _ = true ↔ _
      rw [cond_ge]; simp
    · show condHolds 11#4 _ = true ↔ _
      rw [cond_lt]; simp
    · show condHolds 12#4 _ = true ↔ _
      rw [cond_gt]; simp
    · show condHolds 13#4 _ = true ↔ _
      rw [cond_le]; simp

end Shecc.Props
