import Verif.Lemmas.ArmCg
import Verif.Lemmas.DivMath
import Verif.Lemmas.IrMem

namespace ARM
open Shecc Shecc.Arm DivMath

/-- register list of the spill -/
def msk (a b : BitVec 3) : BitVec 16 := (1#16 <<< a.toNat) ||| (1#16 <<< b.toNat)

theorem msk_eq (a b : BitVec 3) :
    ((1 : CInt) <<< (u32 (irReg a))) ||| ((1 : CInt) <<< (u32 (irReg b))) = u32 (msk a b) := by
  revert a b; decide

theorem regList_msk (a b : BitVec 3) :
    regList (msk a b) = if a < b then [irReg a, irReg b] else if b < a then [irReg b, irReg a] else [irReg a] := by
  revert a b; decide

theorem irReg_facts (k : BitVec 3) : irReg k ≠ 8#4 ∧ irReg k ≠ 9#4 ∧ irReg k ≠ 10#4 ∧ irReg k ≠ 12#4 ∧
    irReg k ≠ 13#4 ∧ irReg k ≠ 14#4 ∧ irReg k ≠ 15#4 := by
  revert k; decide

theorem irReg_inj (j k : BitVec 3) : irReg j = irReg k ↔ j = k := by
  revert j k; decide

/-- the software division/modulo sequence -/
def divI (m : Bool) (d a b : BitVec 3) : List Instr :=
  let ra := irReg a
  let rb := irReg b
  let rd := irReg d
  [ ⟨14#4, .stmdb 13#4 (msk a b)⟩,
    ⟨14#4, .dp .mov false 8#4 0#4 (.shImm ra 2#2 31#5)⟩,
    ⟨14#4, .dp .add false ra ra (.shImm 8#4 0#2 0#5)⟩,
    ⟨14#4, .dp .eor false ra ra (.shImm 8#4 0#2 0#5)⟩,
    ⟨14#4, .dp .mov false 9#4 0#4 (.shImm rb 2#2 31#5)⟩,
    ⟨14#4, .dp .add false rb rb (.shImm 9#4 0#2 0#5)⟩,
    ⟨14#4, .dp .eor false rb rb (.shImm 9#4 0#2 0#5)⟩,
    (if m then ⟨14#4, .dp .mov false 10#4 0#4 (.shImm 8#4 0#2 0#5)⟩
      else ⟨14#4, .dp .eor false 10#4 8#4 (.shImm 9#4 0#2 0#5)⟩),
    ⟨14#4, .dp .mov false 8#4 0#4 (.imm 0#12)⟩,
    ⟨14#4, .dp .mov false 9#4 0#4 (.imm 1#12)⟩,
    ⟨14#4, .dp .cmp true 0#4 rb (.imm 0#12)⟩,
    ⟨0#4, .b false (52 - 8)⟩,
    ⟨14#4, .dp .cmp true 0#4 ra (.imm 0#12)⟩,
    ⟨0#4, .b false (44 - 8)⟩,
    ⟨14#4, .dp .cmp true 0#4 rb (.shImm ra 0#2 0#5)⟩,
    ⟨3#4, .dp .mov false rb 0#4 (.shImm rb 0#2 1#5)⟩,
    ⟨3#4, .dp .mov false 9#4 0#4 (.shImm 9#4 0#2 1#5)⟩,
    ⟨3#4, .b false (-12 - 8)⟩,
    ⟨14#4, .dp .cmp true 0#4 ra (.shImm rb 0#2 0#5)⟩,
    ⟨2#4, .dp .sub false ra ra (.shImm rb 0#2 0#5)⟩,
    ⟨2#4, .dp .add false 8#4 8#4 (.shImm 9#4 0#2 0#5)⟩,
    ⟨14#4, .dp .mov true 9#4 0#4 (.shImm 9#4 1#2 1#5)⟩,
    ⟨3#4, .dp .mov false rb 0#4 (.shImm rb 1#2 1#5)⟩,
    ⟨3#4, .b false (-20 - 8)⟩,
    ⟨14#4, .dp .mov false 9#4 0#4 (.shImm ra 0#2 0#5)⟩,
    ⟨14#4, .ldmia 13#4 (msk a b)⟩,
    ⟨14#4, .dp .mov false rd 0#4 (.shImm (if m then 9#4 else 8#4) 0#2 0#5)⟩,
    ⟨14#4, .dp .cmp true 0#4 10#4 (.imm 0#12)⟩,
    ⟨1#4, .dp .rsb false rd rd (.imm 0#12)⟩ ]

theorem softDiv_decodes (m : Bool) (d a b : BitVec 3) :
    Decodes (emits (softDiv m (u32 (irReg d)) (u32 (irReg a)) (u32 (irReg b)))) (divI m d a b) := by
  unfold softDiv divI
  simp only [msk_eq]
  refine .cons (dec_stmdb 14#4 (by decide) 13#4 _) ?_
  refine .cons (dec_shift_amt 14#4 (by decide) false 2#2 8#4 _ 31#5) ?_
  refine .cons' (dr_add 14#4 (by decide) _ _ 8#4) ?_
  refine .cons' (dr_eor 14#4 (by decide) _ _ 8#4) ?_
  refine .cons (dec_shift_amt 14#4 (by decide) false 2#2 9#4 _ 31#5) ?_
  refine .cons' (dr_add 14#4 (by decide) _ _ 9#4) ?_
  refine .cons' (dr_eor 14#4 (by decide) _ _ 9#4) ?_
  refine .cons' ?_ ?_
  · cases m
    · exact dr_eor 14#4 (by decide) 10#4 8#4 9#4
    · exact dr_mov 14#4 (by decide) 10#4 8#4
  refine .cons' (dl_zero 8#4) ?_
  refine .cons' (di_mov 14#4 (by decide) 9#4 1 (by decide)) ?_
  refine .cons' (di_cmp 14#4 (by decide) _ 0 (by decide)) ?_
  refine .cons (dec_b 0#4 (by decide) 52 (by decide) (by decide) (by decide)) ?_
  refine .cons' (di_cmp 14#4 (by decide) _ 0 (by decide)) ?_
  refine .cons (dec_b 0#4 (by decide) 44 (by decide) (by decide) (by decide)) ?_
  refine .cons' (dr_cmp 14#4 (by decide) _ _) ?_
  refine .cons (dec_shift_amt 3#4 (by decide) false 0#2 _ _ 1#5) ?_
  refine .cons (dec_shift_amt 3#4 (by decide) false 0#2 9#4 9#4 1#5) ?_
  refine .cons (dec_b 3#4 (by decide) (-12) (by decide) (by decide) (by decide)) ?_
  refine .cons' (dr_cmp 14#4 (by decide) _ _) ?_
  refine .cons' (dr_sub 2#4 (by decide) _ _ _) ?_
  refine .cons' (dr_add 2#4 (by decide) 8#4 8#4 9#4) ?_
  refine .cons (dec_shift_amt 14#4 (by decide) true 1#2 9#4 9#4 1#5) ?_
  refine .cons (dec_shift_amt 3#4 (by decide) false 1#2 _ _ 1#5) ?_
  refine .cons (dec_b 3#4 (by decide) (-20) (by decide) (by decide) (by decide)) ?_
  refine .cons' (dr_mov 14#4 (by decide) 9#4 _) ?_
  refine .cons (dec_ldm 14#4 (by decide) 13#4 _) ?_
  refine .cons' ?_ ?_
  · cases m
    · exact dr_mov 14#4 (by decide) _ 8#4
    · exact dr_mov 14#4 (by decide) _ 9#4
  refine .cons' (di_cmp 14#4 (by decide) 10#4 0 (by decide)) ?_
  refine .cons' (di_rsb 1#4 (by decide) _ _ 0 (by decide)) ?_
  exact .nil

variable {c : Code} {base : Word} {m : Bool} {d a b : BitVec 3}

/-! effects of the shifts -/
theorem sv_asr31 (s : State) (rd rn rm : Reg) :
    stepv (.dp .mov false rd rn (.shImm rm 2#2 31#5)) s = s.set rd ((s.regs rm).sshiftRight 31) := rfl
theorem sv_lsl1 (s : State) (rd rn rm : Reg) :
    stepv (.dp .mov false rd rn (.shImm rm 0#2 1#5)) s = s.set rd (s.regs rm <<< 1) := rfl
theorem sv_lsr1 (s : State) (rd rn rm : Reg) :
    stepv (.dp .mov false rd rn (.shImm rm 1#2 1#5)) s = s.set rd (s.regs rm >>> 1) := rfl
/-- flags left by `lsrs` -/
def lsrFlags (x : Word) (f : Flags) : Flags := ⟨(x >>> 1).msb, x >>> 1 == 0#32, x.getLsbD 0, f.v⟩
theorem sv_lsrs1 (s : State) (rd rn rm : Reg) :
    stepv (.dp .mov true rd rn (.shImm rm 1#2 1#5)) s =
      ({ s with flags := lsrFlags (s.regs rm) s.flags } : State).set rd (s.regs rm >>> 1) := rfl

theorem ushr1 (x : Word) : (x >>> 1).toNat = x.toNat / 2 := by
  rw [BitVec.toNat_ushiftRight, Nat.shiftRight_eq_div_pow]

theorem shl1 (x : Word) (h : x.toNat < 2 ^ 31) : (x <<< 1).toNat = 2 * x.toNat := by
  rw [BitVec.toNat_shiftLeft, Nat.shiftLeft_eq]; omega

theorem lsr_cc (x : Word) (f : Flags) : condHolds 3#4 (lsrFlags x f) = decide (x.toNat % 2 = 0) := by
  show (!(x.getLsbD 0)) = _
  rw [BitVec.getLsbD, Nat.testBit_zero]
  by_cases h : x.toNat % 2 = 0 <;> simp [h]
  omega

/-- What the loops preserve. -/
def Frame (a b : BitVec 3) (s t : State) : Prop :=
  (∀ q, q ≠ irReg a → q ≠ irReg b → q ≠ 8#4 → q ≠ 9#4 → t.regs q = s.regs q) ∧ t.mem = s.mem

theorem Frame.trans {s t u : State} (h1 : Frame a b s t) (h2 : Frame a b t u) : Frame a b s u :=
  ⟨fun q q1 q2 q3 q4 => by rw [h2.1 q q1 q2 q3 q4, h1.1 q q1 q2 q3 q4], by rw [h2.2, h1.2]⟩

theorem goto_of {t : State} {k : Nat} (h : t.pc = atk base k) : goto base k t = t := by
  cases t; simp [goto] at *; exact h.symm

/-- second loop -/
theorem ev_divLoop2 (hab : a ≠ b) (h : InstrAt c base (divI m d a b)) (A B : Nat) (hA : A < 2 ^ 32) (hB : 0 < B)
    (k : Nat) :
    ∀ s : State, (s.regs 9#4).toNat = 2 ^ k → (s.regs (irReg b)).toNat = B * 2 ^ k →
      (s.regs (irReg a)).toNat < B * 2 ^ (k + 1) →
      (s.regs 8#4).toNat * B + (s.regs (irReg a)).toNat = A →
      Ev c (goto base 18 s) fun t => t.pc = atk base 24 ∧ (t.regs 8#4).toNat = A / B ∧
        (t.regs (irReg a)).toNat = A % B ∧ Frame a b s t := by
  obtain ⟨fa8, fa9, fa10, _, fa13, _, fa15⟩ := irReg_facts a
  obtain ⟨fb8, fb9, fb10, _, fb13, _, fb15⟩ := irReg_facts b
  have hab' : irReg a ≠ irReg b := by rw [Ne, irReg_inj]; exact hab
  induction k with
  | zero =>
    intro s h6 h28 h7 h5
    simp only [Nat.pow_zero, Nat.mul_one, Nat.zero_add, Nat.pow_one] at h6 h28 h7
    have fin : ∀ u : State, Frame a b s u → (u.regs 9#4).toNat = 1 → (u.regs (irReg a)).toNat < B →
        (u.regs 8#4).toNat * B + (u.regs (irReg a)).toNat = A →
        Ev c (goto base 21 u) fun t => t.pc = atk base 24 ∧ (t.regs 8#4).toNat = A / B ∧
          (t.regs (irReg a)).toNat = A % B ∧ Frame a b s t := by
      intro u fr u6 u7 u5
      have q1 : (u.regs 8#4).toNat = A / B := by
        symm; apply Nat.div_eq_of_lt_le
        · omega
        · rw [Nat.add_mul]; omega
      have q2 : (u.regs (irReg a)).toNat = A % B := by
        have := Nat.div_add_mod A B
        rw [← q1, Nat.mul_comm] at this; omega
      refine Ev.act h 21 rfl ⟨by decide, by decide, by decide⟩ ?_
      rw [sv_lsrs1]
      have hcc : condHolds 3#4 (lsrFlags (u.regs 9#4) u.flags) = false := by rw [lsr_cc, u6]; decide
      refine Ev.actc h 22 rfl ⟨fb15, by decide, fb15⟩ (fun hc => ?_) (fun _ => ?_)
      · simp only [set_flags] at hc; rw [hcc] at hc; cases hc
      refine Ev.bc h 23 18 rfl (by decide) (fun hc => ?_) (fun _ => ?_)
      · simp only [set_flags] at hc; rw [hcc] at hc; cases hc
      refine Ev.now ⟨rfl, ?_, ?_, fr.trans ⟨?_, rfl⟩⟩
      · simpa [set_regs] using q1
      · simpa [set_regs, fa9] using q2
      · intro q _ _ _ q4; simp [set_regs, q4]
    refine Ev.act h 18 rfl ⟨by decide, fa15, fb15⟩ ?_
    rw [sv_cmp]
    by_cases hc : (s.regs (irReg b)).toNat ≤ (s.regs (irReg a)).toNat
    · have hcs : condHolds 2#4 (cmpFlags (s.regs (irReg a)) (s.regs (irReg b))) = true := by rw [cond_cs]; simpa using hc
      refine Ev.actc h 19 rfl ⟨fa15, fa15, fb15⟩ (fun _ => ?_) (fun e => by
        rw [hcs] at e; cases e)
      rw [sv_sub]
      refine Ev.actc h 20 rfl ⟨by decide, by decide, by decide⟩ (fun _ => ?_) (fun e => by
        simp only [set_flags] at e; rw [hcs] at e; cases e)
      rw [sv_add]
      have hsub : (s.regs (irReg a) - s.regs (irReg b)).toNat = (s.regs (irReg a)).toNat - B := by
        rw [BitVec.toNat_sub]
        have := (s.regs (irReg a)).isLt
        omega
      have hadd : (s.regs 8#4 + s.regs 9#4).toNat = (s.regs 8#4).toNat + 1 := by
        rw [BitVec.toNat_add, h6]
        have : (s.regs 8#4).toNat ≤ (s.regs 8#4).toNat * B := Nat.le_mul_of_pos_right _ hB
        apply Nat.mod_eq_of_lt
        omega
      refine fin _ ⟨?_, rfl⟩ ?_ ?_ ?_
      · intro q q1 q2 q3 q4; simp [set_regs, q1, q3]
      · simp [set_regs, h6, Ne.symm fa9]
      · simp only [set_regs, fa8, if_false, if_true]
        rw [hsub]; omega
      · simp only [set_regs, fa8, if_false, if_true, Ne.symm fa8, Ne.symm fa9]
        rw [hsub, hadd, Nat.add_mul]; omega
    · have hcs : condHolds 2#4 (cmpFlags (s.regs (irReg a)) (s.regs (irReg b))) = false := by rw [cond_cs]; simpa using hc
      refine Ev.actc h 19 rfl ⟨fa15, fa15, fb15⟩ (fun e => ?_) (fun _ => ?_)
      · rw [hcs] at e; cases e
      refine Ev.actc h 20 rfl ⟨by decide, by decide, by decide⟩ (fun e => ?_) (fun _ => ?_)
      · rw [hcs] at e; cases e
      exact fin _ ⟨fun _ _ _ _ _ => rfl, rfl⟩ h6 (by simp only; omega) h5
  | succ k ih =>
    intro s h6 h28 h7 h5
    have hk : 0 < 2 ^ k := Nat.two_pow_pos k
    have fin : ∀ u : State, Frame a b s u → (u.regs 9#4).toNat = 2 ^ (k + 1) →
        (u.regs (irReg b)).toNat = B * 2 ^ (k + 1) → (u.regs (irReg a)).toNat < B * 2 ^ (k + 1) →
        (u.regs 8#4).toNat * B + (u.regs (irReg a)).toNat = A →
        Ev c (goto base 21 u) fun t => t.pc = atk base 24 ∧ (t.regs 8#4).toNat = A / B ∧
          (t.regs (irReg a)).toNat = A % B ∧ Frame a b s t := by
      intro u fr u6 u28 u7 u5
      have e6 : (u.regs 9#4 >>> 1).toNat = 2 ^ k := by
        rw [ushr1, u6, Nat.pow_succ]; omega
      have e28 : (u.regs (irReg b) >>> 1).toNat = B * 2 ^ k := by
        rw [ushr1, u28, Nat.pow_succ, ← Nat.mul_assoc]; omega
      refine Ev.act h 21 rfl ⟨by decide, by decide, by decide⟩ ?_
      rw [sv_lsrs1]
      have hcc : condHolds 3#4 (lsrFlags (u.regs 9#4) u.flags) = true := by
        rw [lsr_cc, u6, decide_eq_true_eq, Nat.pow_succ]; omega
      refine Ev.actc h 22 rfl ⟨fb15, by decide, fb15⟩ (fun _ => ?_) (fun hc => by
        simp only [set_flags] at hc; rw [hcc] at hc; cases hc)
      rw [sv_lsr1]
      refine Ev.bc h 23 18 rfl (by decide) (fun _ => ?_) (fun hc => by
        simp only [set_flags] at hc; rw [hcc] at hc; cases hc)
      refine Ev.bind (ih _ ?_ ?_ ?_ ?_) ?_
      · simpa [set_regs, Ne.symm fb9] using e6
      · simpa [set_regs, fb9] using e28
      · simpa [set_regs, fa9, hab'] using u7
      · simpa [set_regs, fa9, hab', Ne.symm fb8] using u5
      · rintro t ⟨p1, p2, p3, p4⟩
        refine Ev.now ⟨p1, p2, p3, fr.trans (Frame.trans ?_ p4)⟩
        refine ⟨?_, rfl⟩
        intro q q1 q2 q3 q4; simp [set_regs, q2, q4]
    refine Ev.act h 18 rfl ⟨by decide, fa15, fb15⟩ ?_
    rw [sv_cmp]
    by_cases hc : (s.regs (irReg b)).toNat ≤ (s.regs (irReg a)).toNat
    · have hcs : condHolds 2#4 (cmpFlags (s.regs (irReg a)) (s.regs (irReg b))) = true := by rw [cond_cs]; simpa using hc
      refine Ev.actc h 19 rfl ⟨fa15, fa15, fb15⟩ (fun _ => ?_) (fun e => by
        rw [hcs] at e; cases e)
      rw [sv_sub]
      refine Ev.actc h 20 rfl ⟨by decide, by decide, by decide⟩ (fun _ => ?_) (fun e => by
        simp only [set_flags] at e; rw [hcs] at e; cases e)
      rw [sv_add]
      have hsub : (s.regs (irReg a) - s.regs (irReg b)).toNat = (s.regs (irReg a)).toNat - B * 2 ^ (k + 1) := by
        rw [BitVec.toNat_sub]
        have := (s.regs (irReg a)).isLt
        omega
      have hle : B * 2 ^ (k + 1) ≤ (s.regs (irReg a)).toNat := by omega
      have hadd : (s.regs 8#4 + s.regs 9#4).toNat = (s.regs 8#4).toNat + 2 ^ (k + 1) := by
        rw [BitVec.toNat_add, h6]
        have h1 : (s.regs 8#4).toNat ≤ (s.regs 8#4).toNat * B := Nat.le_mul_of_pos_right _ hB
        have h2 : 2 ^ (k + 1) ≤ B * 2 ^ (k + 1) := Nat.le_mul_of_pos_left _ hB
        apply Nat.mod_eq_of_lt
        omega
      refine fin _ ⟨?_, rfl⟩ ?_ ?_ ?_ ?_
      · intro q q1 q2 q3 q4; simp [set_regs, q1, q3]
      · simp [set_regs, h6, Ne.symm fa9]
      · simp [set_regs, h28, fb8, Ne.symm hab']
      · simp only [set_regs, fa8, if_false, if_true]
        rw [hsub]
        rw [Nat.pow_succ] at h7
        have : B * (2 ^ (k + 1) * 2) = 2 * (B * 2 ^ (k + 1)) := by
          rw [Nat.mul_comm, Nat.mul_comm B, Nat.mul_assoc, Nat.mul_left_comm]
        omega
      · simp only [set_regs, fa8, if_false, if_true, Ne.symm fa8, Ne.symm fa9]
        rw [hsub, hadd, Nat.add_mul, Nat.mul_comm (2 ^ (k + 1)) B]; omega
    · have hcs : condHolds 2#4 (cmpFlags (s.regs (irReg a)) (s.regs (irReg b))) = false := by rw [cond_cs]; simpa using hc
      refine Ev.actc h 19 rfl ⟨fa15, fa15, fb15⟩ (fun e => ?_) (fun _ => ?_)
      · rw [hcs] at e; cases e
      refine Ev.actc h 20 rfl ⟨by decide, by decide, by decide⟩ (fun e => ?_) (fun _ => ?_)
      · rw [hcs] at e; cases e
      exact fin _ ⟨fun _ _ _ _ _ => rfl, rfl⟩ h6 h28 (by simp only; omega) h5

/-- first loop: double the divisor until it reaches the dividend, then `ev_divLoop2` -/
theorem ev_divLoop1 (hab : a ≠ b) (h : InstrAt c base (divI m d a b)) (A B : Nat) (hA : A ≤ 2 ^ 31) (hB : 0 < B)
    (n : Nat) :
    ∀ (k : Nat) (s : State), 2 ^ 32 - B * 2 ^ k = n → (s.regs 9#4).toNat = 2 ^ k →
      (s.regs (irReg b)).toNat = B * 2 ^ k →
      (s.regs (irReg a)).toNat = A → (s.regs 8#4).toNat = 0 →
      Ev c (goto base 14 s) fun t => t.pc = atk base 24 ∧ (t.regs 8#4).toNat = A / B ∧
        (t.regs (irReg a)).toNat = A % B ∧ Frame a b s t := by
  obtain ⟨fa8, fa9, fa10, _, fa13, _, fa15⟩ := irReg_facts a
  obtain ⟨fb8, fb9, fb10, _, fb13, _, fb15⟩ := irReg_facts b
  have hab' : irReg a ≠ irReg b := by rw [Ne, irReg_inj]; exact hab
  induction n using Nat.strongRecOn with
  | ind n ih =>
    intro k s hn h6 h28 h7 h5
    have hk : 0 < 2 ^ k := Nat.two_pow_pos k
    have hpos : 0 < B * 2 ^ k := Nat.mul_pos hB hk
    have hdb : B * 2 ^ (k + 1) = 2 * (B * 2 ^ k) := by rw [Nat.pow_succ]; rw [← Nat.mul_assoc]; omega
    refine Ev.act h 14 rfl ⟨by decide, fb15, fa15⟩ ?_
    rw [sv_cmp]
    by_cases hc : (s.regs (irReg a)).toNat ≤ (s.regs (irReg b)).toNat
    · have hcc : condHolds 3#4 (cmpFlags (s.regs (irReg b)) (s.regs (irReg a))) = false := by
        rw [cond_cc]; simpa using hc
      refine Ev.actc h 15 rfl ⟨fb15, by decide, fb15⟩ (fun e => ?_) (fun _ => ?_)
      · rw [hcc] at e; cases e
      refine Ev.actc h 16 rfl ⟨by decide, by decide, by decide⟩ (fun e => ?_) (fun _ => ?_)
      · rw [hcc] at e; cases e
      refine Ev.bc h 17 14 rfl (by decide) (fun e => ?_) (fun _ => ?_)
      · rw [hcc] at e; cases e
      refine Ev.bind (ev_divLoop2 hab h A B (by omega) hB k _ h6 h28 (by simp only; omega)
        (by simp only; rw [h5, h7]; omega)) ?_
      rintro t ⟨p1, p2, p3, p4⟩
      exact Ev.now ⟨p1, p2, p3, p4⟩
    · have hcc : condHolds 3#4 (cmpFlags (s.regs (irReg b)) (s.regs (irReg a))) = true := by
        rw [cond_cc]; simpa using hc
      refine Ev.actc h 15 rfl ⟨fb15, by decide, fb15⟩ (fun _ => ?_) (fun e => by
        rw [hcc] at e; cases e)
      rw [sv_lsl1]
      refine Ev.actc h 16 rfl ⟨by decide, by decide, by decide⟩ (fun _ => ?_) (fun e => by
        simp only [set_flags] at e; rw [hcc] at e; cases e)
      rw [sv_lsl1]
      refine Ev.bc h 17 14 rfl (by decide) (fun _ => ?_) (fun e => by
        simp only [set_flags] at e; rw [hcc] at e; cases e)
      have h2k : 2 ^ k ≤ B * 2 ^ k := Nat.le_mul_of_pos_left _ hB
      have e28 : (s.regs (irReg b) <<< 1).toNat = B * 2 ^ (k + 1) := by
        rw [shl1 _ (by omega), h28]; omega
      have e6 : (s.regs 9#4 <<< 1).toNat = 2 ^ (k + 1) := by
        rw [shl1 _ (by omega), h6, Nat.pow_succ]; omega
      refine Ev.bind (ih (2 ^ 32 - B * 2 ^ (k + 1)) (by omega) (k + 1) _ rfl ?_ ?_ ?_ ?_) ?_
      · simpa [set_regs, Ne.symm fb9] using e6
      · simpa [set_regs, fb9] using e28
      · simpa [set_regs, fa9, hab'] using h7
      · simpa [set_regs, Ne.symm fb8] using h5
      · rintro t ⟨p1, p2, p3, p4⟩
        refine Ev.now ⟨p1, p2, p3, Frame.trans ?_ p4⟩
        refine ⟨?_, rfl⟩
        intro q q1 q2 q3 q4; simp [set_regs, q2, q4]

/-- number of bytes spilled -/
def spillSize (a b : BitVec 3) : Word := if a = b then 4#32 else 8#32

theorem Ev.stm {is : List Instr} {P : State → Prop} {s : State} (h : InstrAt c base is) (k : Nat)
    (hk : is[k]? = some ⟨14#4, .stmdb 13#4 (msk a b)⟩) (hsp : (s.regs 13#4).toNat % 4 = 0)
    (hn : Ev c (goto base (k + 1) (({ s with
      mem := spill s.mem (s.regs 13#4) a b (s.regs (irReg a)) (s.regs (irReg b)) } : State).set 13#4
        (s.regs 13#4 - spillSize a b))) P) : Ev c (goto base k s) P := by
  obtain ⟨fa8, fa9, fa10, _, fa13, _, fa15⟩ := irReg_facts a
  obtain ⟨fb8, fb9, fb10, _, fb13, _, fb15⟩ := irReg_facts b
  refine Ev.step (t := _) ((h.step k hk rfl).trans ?_) hn
  unfold exec
  rw [if_pos (by simp [condHolds])]
  have hp : s.regs 13#4 - 8#32 + 4#32 = s.regs 13#4 - 4#32 := by
    rw [BitVec.sub_eq_add_neg, BitVec.sub_eq_add_neg, BitVec.add_assoc]; rfl
  have g13 : (goto base k s).get 13#4 = s.regs 13#4 := rfl
  have ga : (goto base k s).get (irReg a) = s.regs (irReg a) := get_regs _ fa15
  have gb : (goto base k s).get (irReg b) = s.regs (irReg b) := get_regs _ fb15
  simp only [execAct, regList_msk, g13, spillSize, spill]
  by_cases h1 : a < b
  · have hne : a ≠ b := by rintro rfl; exact absurd h1 (by simp)
    rw [if_pos h1, if_pos h1, if_neg hne]
    rw [if_neg (by simp [fa13, fb13, fa15, fb15, hsp, Ne.symm fa13, Ne.symm fb13, Ne.symm fa15, Ne.symm fb15])]
    simp only [List.map_cons, List.map_nil, ga, gb, List.length_cons, List.length_nil, storeWords]
    rw [show (BitVec.ofNat 32 (4 * (0 + 1 + 1)) : Word) = 8#32 from rfl, hp, goto_pc, atk_succ]
    rfl
  · rw [if_neg h1, if_neg h1]
    by_cases h2 : b < a
    · have hne : a ≠ b := by rintro rfl; exact absurd h2 (by simp)
      rw [if_pos h2, if_pos h2, if_neg hne]
      rw [if_neg (by simp [fa13, fb13, fa15, fb15, hsp, Ne.symm fa13, Ne.symm fb13, Ne.symm fa15, Ne.symm fb15])]
      simp only [List.map_cons, List.map_nil, ga, gb, List.length_cons, List.length_nil, storeWords]
      rw [show (BitVec.ofNat 32 (4 * (0 + 1 + 1)) : Word) = 8#32 from rfl, hp, goto_pc, atk_succ]
      rfl
    · have he : a = b := by
        apply BitVec.eq_of_toNat_eq
        simp only [BitVec.lt_def] at h1 h2; omega
      rw [if_neg h2, if_neg h2, if_pos he]
      rw [if_neg (by simp [fa13, fa15, hsp, Ne.symm fa13, Ne.symm fa15])]
      simp only [List.map_cons, List.map_nil, ga, List.length_cons, List.length_nil, storeWords]
      rw [show (BitVec.ofNat 32 (4 * (0 + 1)) : Word) = 4#32 from rfl, goto_pc, atk_succ]
      rfl

theorem Ev.ldm {is : List Instr} {P : State → Prop} {s : State} (h : InstrAt c base is) (k : Nat)
    (hk : is[k]? = some ⟨14#4, .ldmia 13#4 (msk a b)⟩) (m0 : IrM.Mem) (sp x y : Word) (hsp : sp.toNat % 4 = 0)
    (hs : s.regs 13#4 = sp - spillSize a b) (hm : s.mem = spill m0 sp a b x y) (hxy : a = b → x = y)
    (hn : Ev c (goto base (k + 1) { s with
      regs := fun q => if q = 13#4 then sp else if q = irReg a then x else if q = irReg b then y else s.regs q }) P) :
    Ev c (goto base k s) P := by
  obtain ⟨fa8, fa9, fa10, _, fa13, _, fa15⟩ := irReg_facts a
  obtain ⟨fb8, fb9, fb10, _, fb13, _, fb15⟩ := irReg_facts b
  refine Ev.step (t := _) ((h.step k hk rfl).trans ?_) hn
  unfold exec
  rw [if_pos (by simp [condHolds])]
  have hp : sp - 8#32 + 4#32 = sp - 4#32 := by
    rw [BitVec.sub_eq_add_neg, BitVec.sub_eq_add_neg, BitVec.add_assoc]; rfl
  have hp2 : sp - 8#32 + 8#32 = sp := BitVec.sub_add_cancel ..
  have hp3 : sp - 4#32 + 4#32 = sp := BitVec.sub_add_cancel ..
  have g13 : (goto base k s).get 13#4 = s.regs 13#4 := rfl
  have hal : (sp - spillSize a b).toNat % 4 = 0 := by
    unfold spillSize
    split <;> rw [BitVec.toNat_sub] <;> simp <;> omega
  simp only [execAct, regList_msk, g13, hs]
  rw [hs] at *
  unfold spill at hm
  by_cases h1 : a < b
  · have hne : a ≠ b := by rintro rfl; exact absurd h1 (by simp)
    have hne' : irReg a ≠ irReg b := by rw [Ne, irReg_inj]; exact hne
    rw [if_pos h1] at hm ⊢
    rw [if_neg (by simp [fa13, fb13, fa15, fb15, hal, Ne.symm fa13, Ne.symm fb13, Ne.symm fa15, Ne.symm fb15, -BitVec.toNat_sub])]
    simp only [spillSize, if_neg hne, loadWords, load32_eq, goto_mem, hm, hp, goto_pc, atk_succ, List.length_cons,
      List.length_nil]
    have l := IrM.load32_hi_lo m0 (sp - 8#32) x y
    rw [hp] at l
    rw [l.1, l.2]
    rw [show (BitVec.ofNat 32 (4 * (0 + 1 + 1)) : Word) = 8#32 from rfl, hp2]
    congr 1
    simp only [State.set, goto, hm]
    congr 1
    funext q
    by_cases q2 : q = irReg a
    · subst q2; simp [fa13, hne']
    · simp [q2]
  · rw [if_neg h1] at hm ⊢
    by_cases h2 : b < a
    · have hne : a ≠ b := by rintro rfl; exact absurd h2 (by simp)
      have hne' : irReg a ≠ irReg b := by rw [Ne, irReg_inj]; exact hne
      rw [if_pos h2] at hm ⊢
      rw [if_neg (by simp [fa13, fb13, fa15, fb15, hal, Ne.symm fa13, Ne.symm fb13, Ne.symm fa15, Ne.symm fb15, -BitVec.toNat_sub])]
      simp only [spillSize, if_neg hne, loadWords, load32_eq, goto_mem, hm, hp, goto_pc, atk_succ, List.length_cons,
        List.length_nil]
      have l := IrM.load32_hi_lo m0 (sp - 8#32) y x
      rw [hp] at l
      rw [l.1, l.2]
      rw [show (BitVec.ofNat 32 (4 * (0 + 1 + 1)) : Word) = 8#32 from rfl, hp2]
      congr 1
      simp only [State.set, goto, hm]
    · have he : a = b := by
        apply BitVec.eq_of_toNat_eq
        simp only [BitVec.lt_def] at h1 h2; omega
      subst he
      rw [if_neg h2] at hm ⊢
      rw [if_neg (by simp [fa13, fa15, hal, Ne.symm fa13, Ne.symm fa15, -BitVec.toNat_sub])]
      simp only [spillSize, if_true, loadWords, load32_eq, goto_mem, hm, goto_pc, atk_succ, List.length_cons,
        List.length_nil, IrM.load32_same]
      rw [show (BitVec.ofNat 32 (4 * (0 + 1)) : Word) = 4#32 from rfl, hp3]
      congr 1
      simp only [State.set, goto, hm]
      congr 1
      funext q
      by_cases q1 : q = 13#4 <;> by_cases q2 : q = irReg a <;> simp [q1, q2]


end ARM
