import Verif.Lemmas.RvWp
import Verif.Lemmas.DivMath

namespace RV32
open Shecc.Riscv DivMath

def divI (isMod : Bool) (rd rs1 rs2 : Reg) : List Instr :=
  [.i .addi 7#5 rs1 0#32, .i .addi 28#5 rs2 0#32, .sh .srai 5#5 7#5 31#5, .r .add 7#5 7#5 5#5, .r .xor 7#5 7#5 5#5,
   .sh .srai 6#5 28#5 31#5, .r .add 28#5 28#5 6#5, .r .xor 28#5 28#5 6#5,
   .r .xor 30#5 5#5 (if isMod then 0#5 else 6#5), .i .addi 5#5 0#5 0#32, .i .addi 6#5 0#5 1#32,
   .branch .beq 28#5 0#5 52#32, .branch .beq 7#5 0#5 48#32,
   .branch .beq 7#5 28#5 20#32, .branch .bltu 7#5 28#5 16#32,
   .sh .slli 28#5 28#5 1#5, .sh .slli 6#5 6#5 1#5, .jal 0 (-16#32),
   .branch .bltu 7#5 28#5 12#32, .r .sub 7#5 7#5 28#5, .r .add 5#5 5#5 6#5,
   .sh .srli 6#5 6#5 1#5, .sh .srli 28#5 28#5 1#5, .branch .bne 6#5 0#5 (-20#32),
   .i .addi rd (if isMod then 7#5 else 5#5) 0#32, .branch .beq 30#5 0#5 8#32, .r .sub rd 0#5 rd]

theorem softDiv_decodes (m : Bool) (d a b : Reg) :
    Decodes (emits (softDiv m (r32 d) (r32 a) (r32 b))) (divI m d a b) := by
  unfold softDiv divI
  have e1 : (if m then zero else t1) = r32 (if m then 0#5 else 6#5) := by cases m <;> rfl
  have e2 : (if m then t2 else t0) = r32 (if m then 7#5 else 5#5) := by cases m <;> rfl
  simp only [e1, e2]
  simp only [zero_r32, t0_r32, t1_r32, t2_r32, t3_r32, t5_r32]
  refine .cons' (dec_addi _ _ _ (by decide) (by decide)) ?_
  refine .cons' (dec_addi _ _ _ (by decide) (by decide)) ?_
  refine .cons' (dec_srai _ _ _ _ (by decide)) ?_
  refine .cons (dec_add ..) ?_
  refine .cons (dec_xor ..) ?_
  refine .cons' (dec_srai _ _ _ _ (by decide)) ?_
  refine .cons (dec_add ..) ?_
  refine .cons (dec_xor ..) ?_
  refine .cons (dec_xor ..) ?_
  refine .cons' (dec_addi _ _ _ (by decide) (by decide)) ?_
  refine .cons' (dec_addi _ _ _ (by decide) (by decide)) ?_
  refine .cons' (dec_beq _ _ _ (by decide) (by decide) (by decide)) ?_
  refine .cons' (dec_beq _ _ _ (by decide) (by decide) (by decide)) ?_
  refine .cons' (dec_beq _ _ _ (by decide) (by decide) (by decide)) ?_
  refine .cons' (dec_bltu _ _ _ (by decide) (by decide) (by decide)) ?_
  refine .cons' (dec_slli _ _ _ _ (by decide)) ?_
  refine .cons' (dec_slli _ _ _ _ (by decide)) ?_
  refine .cons (dec_jal _ _ (by decide) (by decide) (by decide)) ?_
  refine .cons' (dec_bltu _ _ _ (by decide) (by decide) (by decide)) ?_
  refine .cons (dec_sub ..) ?_
  refine .cons (dec_add ..) ?_
  refine .cons' (dec_srli _ _ _ _ (by decide)) ?_
  refine .cons' (dec_srli _ _ _ _ (by decide)) ?_
  refine .cons' (dec_bne _ _ _ (by decide) (by decide) (by decide)) ?_
  refine .cons' (dec_addi _ _ _ (by decide) (by decide)) ?_
  refine .cons' (dec_beq _ _ _ (by decide) (by decide) (by decide)) ?_
  refine .cons (dec_sub ..) ?_
  exact .nil

/-- registers other than t0,t1,t2,t3 agree and memory agrees -/
def Frame (s t : State) : Prop :=
  (∀ q, q ≠ 5#5 → q ≠ 6#5 → q ≠ 7#5 → q ≠ 28#5 → t.get q = s.get q) ∧ t.mem = s.mem

theorem Frame.trans {s t u : State} (h1 : Frame s t) (h2 : Frame t u) : Frame s u :=
  ⟨fun q a b c d => (h2.1 q a b c d).trans (h1.1 q a b c d), h2.2.trans h1.2⟩

variable {c : Code} {base : Word} {m : Bool} {d a b : Reg}

theorem ushr1 (x : Word) : (x >>> (1#5).toNat).toNat = x.toNat / 2 := by
  rw [BitVec.toNat_ushiftRight, Nat.shiftRight_eq_div_pow]; rfl

theorem shl1 (x : Word) (h : x.toNat < 2 ^ 31) : (x <<< (1#5).toNat).toNat = 2 * x.toNat := by
  rw [BitVec.toNat_shiftLeft, Nat.shiftLeft_eq]
  have : (1#5).toNat = 1 := rfl
  rw [this]; omega

/-- second loop: subtract and shift back -/
theorem ev_divLoop2 (h : InstrAt c base (divI m d a b)) (A B : Nat) (hA : A < 2 ^ 32) (hB : 0 < B) (k : Nat) :
    ∀ s : State, (s.get 6#5).toNat = 2 ^ k → (s.get 28#5).toNat = B * 2 ^ k → (s.get 7#5).toNat < B * 2 ^ (k + 1) →
      (s.get 5#5).toNat * B + (s.get 7#5).toNat = A →
      Ev c (goto base 18 s) fun t => t.pc = atk base 24 ∧ (t.get 5#5).toNat = A / B ∧ (t.get 7#5).toNat = A % B ∧
        Frame s t := by
  induction k with
  | zero =>
    intro s h6 h28 h7 h5
    -- one iteration, then leave
    have fin : ∀ u : State, Frame s u → (u.get 6#5).toNat = 1 → (u.get 7#5).toNat < B →
        (u.get 5#5).toNat * B + (u.get 7#5).toNat = A →
        Ev c (goto base 21 u) fun t => t.pc = atk base 24 ∧ (t.get 5#5).toNat = A / B ∧ (t.get 7#5).toNat = A % B ∧
          Frame s t := by
      intro u fr u6 u7 u5
      refine Ev.sh h 21 rfl ?_
      refine Ev.sh h 22 rfl ?_
      refine Ev.br h 23 18 rfl (by decide) (fun hc => ?_) (fun _ => ?_)
      · exfalso
        simp [brCond, get_set, aluSh] at hc
        apply hc
        apply BitVec.eq_of_toNat_eq
        rw [show u.get 6#5 >>> 1 = u.get 6#5 >>> (1#5).toNat from rfl, ushr1, u6]; rfl
      · refine Ev.now ⟨rfl, ?_, ?_, ?_, ?_⟩
        · simp [get_set]
          rw [← u5, Nat.mul_comm, Nat.mul_add_div hB, Nat.div_eq_of_lt u7, Nat.add_zero]
        · simp [get_set]
          rw [← u5, Nat.mul_comm, Nat.mul_add_mod, Nat.mod_eq_of_lt u7]
        · intro q q1 q2 q3 q4
          simp [get_set, q1, q2, q3, q4]
          exact fr.1 q q1 q2 q3 q4
        · simp [fr.2]
    simp at h6 h28 h7
    refine Ev.br h 18 21 rfl (by decide) (fun hc => ?_) (fun hc => ?_)
    · simp [brCond, BitVec.ult] at hc
      exact fin s ⟨fun _ _ _ _ _ => rfl, rfl⟩ (by rw [h6]) (by omega) h5
    · simp [brCond, BitVec.ult] at hc
      refine Ev.r h 19 rfl ?_
      refine Ev.r h 20 rfl ?_
      have hsub : (s.get 7#5 - s.get 28#5).toNat = (s.get 7#5).toNat - B := by
        rw [BitVec.toNat_sub]
        have := (s.get 7#5).isLt
        omega
      have hadd : (s.get 5#5 + s.get 6#5).toNat = (s.get 5#5).toNat + 1 := by
        rw [BitVec.toNat_add, h6]
        have : (s.get 5#5).toNat ≤ (s.get 5#5).toNat * B := Nat.le_mul_of_pos_right _ hB
        simp
        omega
      refine fin _ ⟨?_, by simp⟩ ?_ ?_ ?_
      · intro q q1 q2 q3 q4; simp [get_set, q1, q3]
      · simp [get_set, h6]
      · simp only [get_set, aluR]
        simp [hsub]; omega
      · simp only [get_set, aluR]
        simp [-BitVec.toNat_add, -BitVec.toNat_sub, hsub, hadd]
        rw [Nat.add_mul]; omega
  | succ k ih =>
    intro s h6 h28 h7 h5
    have hk : 0 < 2 ^ k := Nat.two_pow_pos k
    have fin : ∀ u : State, Frame s u → (u.get 6#5).toNat = 2 ^ (k + 1) → (u.get 28#5).toNat = B * 2 ^ (k + 1) →
        (u.get 7#5).toNat < B * 2 ^ (k + 1) →
        (u.get 5#5).toNat * B + (u.get 7#5).toNat = A →
        Ev c (goto base 21 u) fun t => t.pc = atk base 24 ∧ (t.get 5#5).toNat = A / B ∧ (t.get 7#5).toNat = A % B ∧
          Frame s t := by
      intro u fr u6 u28 u7 u5
      have e6 : (u.get 6#5 >>> (1#5).toNat).toNat = 2 ^ k := by
        rw [ushr1, u6, Nat.pow_succ]; omega
      have e28 : (u.get 28#5 >>> (1#5).toNat).toNat = B * 2 ^ k := by
        rw [ushr1, u28, Nat.pow_succ, ← Nat.mul_assoc]; omega
      refine Ev.sh h 21 rfl ?_
      refine Ev.sh h 22 rfl ?_
      refine Ev.br h 23 18 rfl (by decide) (fun _ => ?_) (fun hc => ?_)
      · refine Ev.bind (ih _ ?_ ?_ ?_ ?_) ?_
        · simp only [get_set, aluSh]; simpa using e6
        · simp only [get_set, aluSh]; simpa using e28
        · simp only [get_set, aluSh]; simpa using u7
        · simp only [get_set, aluSh]; simpa using u5
        · rintro t ⟨p1, p2, p3, p4⟩
          refine Ev.now ⟨p1, p2, p3, fr.trans (Frame.trans ?_ p4)⟩
          refine ⟨?_, by simp⟩
          intro q q1 q2 q3 q4; simp [get_set, q2, q4]
      · exfalso
        simp [brCond, get_set, aluSh] at hc
        have e6' : (u.get 6#5 >>> 1).toNat = 2 ^ k := e6
        rw [hc] at e6'
        simp at e6'
        omega
    refine Ev.br h 18 21 rfl (by decide) (fun hc => ?_) (fun hc => ?_)
    · simp [brCond, BitVec.ult] at hc
      exact fin s ⟨fun _ _ _ _ _ => rfl, rfl⟩ h6 h28 (by omega) h5
    · simp [brCond, BitVec.ult] at hc
      refine Ev.r h 19 rfl ?_
      refine Ev.r h 20 rfl ?_
      have hsub : (s.get 7#5 - s.get 28#5).toNat = (s.get 7#5).toNat - B * 2 ^ (k + 1) := by
        rw [BitVec.toNat_sub]
        have := (s.get 7#5).isLt
        omega
      have hle : B * 2 ^ (k + 1) ≤ (s.get 7#5).toNat := by omega
      have hadd : (s.get 5#5 + s.get 6#5).toNat = (s.get 5#5).toNat + 2 ^ (k + 1) := by
        rw [BitVec.toNat_add, h6]
        have h1 : (s.get 5#5).toNat ≤ (s.get 5#5).toNat * B := Nat.le_mul_of_pos_right _ hB
        have h2 : 2 ^ (k + 1) ≤ B * 2 ^ (k + 1) := Nat.le_mul_of_pos_left _ hB
        apply Nat.mod_eq_of_lt
        omega
      refine fin _ ⟨?_, by simp⟩ ?_ ?_ ?_ ?_
      · intro q q1 q2 q3 q4; simp [get_set, q1, q3]
      · simp [get_set, h6]
      · simp [get_set, h28]
      · simp only [get_set, aluR]
        simp [hsub]
        rw [Nat.pow_succ] at h7
        have : B * (2 ^ (k + 1) * 2) = 2 * (B * 2 ^ (k + 1)) := by
          rw [Nat.mul_comm, Nat.mul_comm B, Nat.mul_assoc, Nat.mul_left_comm]
        omega
      · simp only [get_set, aluR]
        simp [-BitVec.toNat_add, -BitVec.toNat_sub, hsub, hadd]
        rw [Nat.add_mul, Nat.mul_comm (2 ^ (k + 1)) B]; omega

/-- first loop: double the divisor until it reaches the dividend, then `ev_divLoop2` -/
theorem ev_divLoop1 (h : InstrAt c base (divI m d a b)) (A B : Nat) (hA : A ≤ 2 ^ 31) (hB : 0 < B) (n : Nat) :
    ∀ (k : Nat) (s : State), 2 ^ 32 - B * 2 ^ k = n → (s.get 6#5).toNat = 2 ^ k → (s.get 28#5).toNat = B * 2 ^ k →
      (s.get 7#5).toNat = A → (s.get 5#5).toNat = 0 →
      Ev c (goto base 13 s) fun t => t.pc = atk base 24 ∧ (t.get 5#5).toNat = A / B ∧ (t.get 7#5).toNat = A % B ∧
        Frame s t := by
  induction n using Nat.strongRecOn with
  | ind n ih =>
    intro k s hn h6 h28 h7 h5
    have hk : 0 < 2 ^ k := Nat.two_pow_pos k
    have h28lt := (s.get 28#5).isLt
    have go : A ≤ B * 2 ^ k → Ev c (goto base 18 s) fun t => t.pc = atk base 24 ∧ (t.get 5#5).toNat = A / B ∧
        (t.get 7#5).toNat = A % B ∧ Frame s t := by
      intro hle
      refine ev_divLoop2 h A B (by omega) hB k s h6 h28 ?_ (by rw [h5, h7]; omega)
      have : B * 2 ^ (k + 1) = 2 * (B * 2 ^ k) := by rw [Nat.pow_succ]; rw [← Nat.mul_assoc]; omega
      have : 0 < B * 2 ^ k := Nat.mul_pos hB hk
      omega
    refine Ev.br h 13 18 rfl (by decide) (fun hc => ?_) (fun hc => ?_)
    · simp [brCond] at hc
      exact go (by rw [← h7, ← h28, hc]; exact Nat.le_refl _)
    refine Ev.br h 14 18 rfl (by decide) (fun hc2 => ?_) (fun hc2 => ?_)
    · simp [brCond, BitVec.ult] at hc2
      exact go (by omega)
    simp [brCond] at hc
    simp [brCond, BitVec.ult] at hc2
    have hlt : B * 2 ^ k < A := by
      have : (s.get 7#5).toNat ≠ (s.get 28#5).toNat := fun e => hc (BitVec.eq_of_toNat_eq e)
      omega
    have h2k : 2 ^ k ≤ B * 2 ^ k := Nat.le_mul_of_pos_left _ hB
    refine Ev.sh h 15 rfl ?_
    refine Ev.sh h 16 rfl ?_
    refine Ev.j h 17 13 rfl (by decide) ?_
    have e28 : (s.get 28#5 <<< (1#5).toNat).toNat = B * 2 ^ (k + 1) := by
      rw [shl1 _ (by omega), h28, Nat.pow_succ, Nat.mul_left_comm, Nat.mul_comm 2 (2 ^ k)]
    have e6 : (s.get 6#5 <<< (1#5).toNat).toNat = 2 ^ (k + 1) := by
      rw [shl1 _ (by omega), h6, Nat.pow_succ]; omega
    have hpos : 0 < B * 2 ^ k := Nat.mul_pos hB hk
    have hdb : B * 2 ^ (k + 1) = 2 * (B * 2 ^ k) := by rw [Nat.pow_succ]; rw [← Nat.mul_assoc]; omega
    refine Ev.bind (ih (2 ^ 32 - B * 2 ^ (k + 1)) (by omega) (k + 1) _ rfl ?_ ?_ ?_ ?_) ?_
    · simp only [get_set, aluSh]; simpa using e6
    · simp only [get_set, aluSh]; simpa using e28
    · simp only [get_set, aluSh]; simpa using h7
    · simp only [get_set, aluSh]; simpa using h5
    · rintro t ⟨p1, p2, p3, p4⟩
      refine Ev.now ⟨p1, p2, p3, Frame.trans ?_ p4⟩
      refine ⟨?_, by simp⟩
      intro q q1 q2 q3 q4; simp [get_set, q2, q4]

theorem ev_div (hd : d ≠ 0#5) (hd2 : d ≠ 30#5) (hb : b ≠ 7#5) (h : InstrAt c base (divI m d a b)) (s : State) :
    Ev c (goto base 0 s) fun t => t.pc = atk base 27 ∧
      t.get d = BitVec.ofInt 32 (if m then (s.get a).toInt.tmod (s.get b).toInt else (s.get a).toInt.tdiv (s.get b).toInt) ∧
      (∀ q, q ≠ d → q ≠ 5#5 → q ≠ 6#5 → q ≠ 7#5 → q ≠ 28#5 → q ≠ 30#5 → t.get q = s.get q) ∧ t.mem = s.mem := by
  -- prologue
  refine Ev.i h 0 rfl ?_
  refine Ev.i h 1 rfl ?_
  refine Ev.sh h 2 rfl ?_
  refine Ev.r h 3 rfl ?_
  refine Ev.r h 4 rfl ?_
  refine Ev.sh h 5 rfl ?_
  refine Ev.r h 6 rfl ?_
  refine Ev.r h 7 rfl ?_
  refine Ev.r h 8 rfl ?_
  refine Ev.i h 9 rfl ?_
  refine Ev.i h 10 rfl ?_
  generalize hu : State.set _ 6#5 _ = u
  have u7 : u.get 7#5 = absw (s.get a) := by
    rw [← hu]; simp [get_set, aluR, aluI, aluSh, absw, mask]
  have u28 : u.get 28#5 = absw (s.get b) := by
    rw [← hu]; simp [get_set, aluR, aluI, aluSh, absw, mask, hb]
  have u5 : (u.get 5#5).toNat = 0 := by rw [← hu]; simp [get_set, aluI]
  have u6 : (u.get 6#5).toNat = 1 := by rw [← hu]; simp [get_set, aluI]
  have u30 : u.get 30#5 = if m then mask (s.get a) else mask (s.get a) ^^^ mask (s.get b) := by
    rw [← hu]; cases m <;> simp [get_set, aluR, aluI, aluSh, mask, hb]
  have uq : ∀ q, q ≠ 5#5 → q ≠ 6#5 → q ≠ 7#5 → q ≠ 28#5 → q ≠ 30#5 → u.get q = s.get q := by
    intro q q1 q2 q3 q4 q5
    rw [← hu]; simp [get_set, q1, q2, q3, q4, q5]
  have um : u.mem = s.mem := by rw [← hu]; simp
  clear hu
  -- unsigned division
  have core : Ev c (goto base 11 u) fun t => t.pc = atk base 24 ∧
      (t.get 5#5).toNat = (absw (s.get a)).toNat / (absw (s.get b)).toNat ∧
      (t.get 7#5).toNat = (absw (s.get a)).toNat % (absw (s.get b)).toNat ∧ Frame u t := by
    refine Ev.br h 11 24 rfl (by decide) (fun hc => ?_) (fun hc => ?_)
    · simp [brCond, u28] at hc
      refine Ev.now ⟨rfl, ?_, ?_, fun _ _ _ _ _ => rfl, rfl⟩
      · simp [u5, hc]
      · simp [u7, hc]
    refine Ev.br h 12 24 rfl (by decide) (fun hc => ?_) (fun _ => ?_)
    · simp [brCond, u7] at hc
      refine Ev.now ⟨rfl, ?_, ?_, fun _ _ _ _ _ => rfl, rfl⟩
      · simp [u5, hc]
      · simp [u7, hc]
    simp [brCond, u28] at hc
    have hpos : 0 < (absw (s.get b)).toNat := by
      rcases Nat.eq_zero_or_pos (absw (s.get b)).toNat with h0 | h0
      · exact absurd (BitVec.eq_of_toNat_eq (by rw [h0]; rfl)) hc
      · exact h0
    exact ev_divLoop1 h _ _ (absw_le _) hpos _ 0 u rfl (by rw [u6]) (by rw [u28]; simp) (by rw [u7]) u5
  refine Ev.bind core ?_
  rintro t ⟨p1, p2, p3, p4, p5⟩
  rw [← goto_of p1]
  have t30 : t.get 30#5 = u.get 30#5 := p4 _ (by decide) (by decide) (by decide) (by decide)
  refine Ev.i h 24 rfl ?_
  have hv : ∀ r : Word, (if t.get 30#5 = 0#32 then t.get (if m then 7#5 else 5#5) else 0#32 - t.get (if m then 7#5 else 5#5)) = r →
      r = BitVec.ofInt 32 (if m then (s.get a).toInt.tmod (s.get b).toInt else (s.get a).toInt.tdiv (s.get b).toInt) := by
    rintro r rfl
    rw [t30, u30]
    cases m
    · exact div_result _ _ _ p2
    · exact mod_result _ _ _ p3
  refine Ev.br h 25 27 rfl (by decide) (fun hc => ?_) (fun hc => ?_)
  · refine Ev.now ⟨rfl, ?_, ?_, ?_⟩
    · simp [brCond, get_set, Ne.symm hd2] at hc
      refine hv _ ?_
      rw [if_pos hc]
      simp [get_set, hd, aluI]
    · intro q q0 q1 q2 q3 q4 q5
      simp [get_set, q0]
      rw [p4 q q1 q2 q3 q4, uq q q1 q2 q3 q4 q5]
    · simp [p5, um]
  · refine Ev.r h 26 rfl ?_
    refine Ev.now ⟨rfl, ?_, ?_, ?_⟩
    · simp [brCond, get_set, Ne.symm hd2] at hc
      refine hv _ ?_
      rw [if_neg hc]
      simp [get_set, hd, aluI, aluR]
    · intro q q0 q1 q2 q3 q4 q5
      simp [get_set, q0]
      rw [p4 q q1 q2 q3 q4, uq q q1 q2 q3 q4 q5]
    · simp [p5, um]

end RV32
