import Verif.Lemmas.RvWp

namespace RV32
open Shecc.Riscv

def mulI (rd rs1 rs2 : Reg) : List Instr :=
  [.i .addi 5#5 0#5 0#32, .i .addi 6#5 0#5 0#32, .i .addi 28#5 rs1 0#32, .i .addi 29#5 rs2 0#32,
   .branch .beq 28#5 0#5 32#32, .branch .beq 29#5 0#5 28#32, .i .andi 6#5 29#5 1#32, .branch .beq 6#5 0#5 8#32,
   .r .add 5#5 5#5 28#5, .sh .slli 28#5 28#5 1#5, .sh .srli 29#5 29#5 1#5, .jal 0 (-28#32), .i .addi rd 5#5 0#32]

theorem softMul_decodes (d a b : Reg) : Decodes (emits (softMul (r32 d) (r32 a) (r32 b))) (mulI d a b) := by
  unfold softMul mulI
  simp only [zero_r32, t0_r32, t1_r32, t3_r32, t4_r32]
  refine .cons' (dec_addi _ _ _ (by decide) (by decide)) ?_
  refine .cons' (dec_addi _ _ _ (by decide) (by decide)) ?_
  refine .cons' (dec_addi _ _ _ (by decide) (by decide)) ?_
  refine .cons' (dec_addi _ _ _ (by decide) (by decide)) ?_
  refine .cons' (dec_beq _ _ _ (by decide) (by decide) (by decide)) ?_
  refine .cons' (dec_beq _ _ _ (by decide) (by decide) (by decide)) ?_
  refine .cons' (dec_andi _ _ _ (by decide) (by decide)) ?_
  refine .cons' (dec_beq _ _ _ (by decide) (by decide) (by decide)) ?_
  refine .cons (dec_add ..) ?_
  refine .cons' (dec_slli _ _ _ _ (by decide)) ?_
  refine .cons' (dec_srli _ _ _ _ (by decide)) ?_
  refine .cons (dec_jal _ _ (by decide) (by decide) (by decide)) ?_
  refine .cons' (dec_addi _ _ _ (by decide) (by decide)) ?_
  exact .nil

theorem split_low (y : Word) : y = (y >>> 1) * 2#32 + (y &&& 1#32) := by
  apply BitVec.eq_of_toNat_eq
  have h1 : (y &&& 1#32).toNat = y.toNat % 2 := by
    rw [BitVec.toNat_and, show (1#32).toNat = 2 ^ 1 - 1 by decide, Nat.and_two_pow_sub_one_eq_mod]
  have := y.isLt
  rw [BitVec.toNat_add, BitVec.toNat_mul, h1, BitVec.toNat_ushiftRight, Nat.shiftRight_eq_div_pow]
  simp
  omega

theorem low_cases (y : Word) : y &&& 1#32 = 0#32 ∨ y &&& 1#32 = 1#32 := by
  have h1 : (y &&& 1#32).toNat = y.toNat % 2 := by
    rw [BitVec.toNat_and, show (1#32).toNat = 2 ^ 1 - 1 by decide, Nat.and_two_pow_sub_one_eq_mod]
  rcases Nat.mod_two_eq_zero_or_one y.toNat with h | h
  · left; apply BitVec.eq_of_toNat_eq; rw [h1, h]; rfl
  · right; apply BitVec.eq_of_toNat_eq; rw [h1, h]; rfl

theorem mul_step_even (acc x y : Word) (h : y &&& 1#32 = 0#32) : acc + (x <<< 1) * (y >>> 1) = acc + x * y := by
  have e := split_low y
  rw [h, BitVec.add_zero] at e
  rw [show x <<< 1 = x * 2#32 by rw [BitVec.shiftLeft_eq_mul_twoPow]; rfl]
  conv => rhs; rw [e]
  rw [BitVec.mul_assoc, BitVec.mul_comm 2#32]

theorem mul_step_odd (acc x y : Word) (h : y &&& 1#32 = 1#32) : (acc + x) + (x <<< 1) * (y >>> 1) = acc + x * y := by
  have e := split_low y
  rw [h] at e
  rw [show x <<< 1 = x * 2#32 by rw [BitVec.shiftLeft_eq_mul_twoPow]; rfl]
  conv => rhs; rw [e]
  rw [BitVec.mul_add, BitVec.mul_assoc, BitVec.mul_comm 2#32, BitVec.mul_one, BitVec.add_assoc, BitVec.add_comm x]

theorem ev_mulLoop {c : Code} {base : Word} {d a b : Reg} (h : InstrAt c base (mulI d a b)) (n : Nat) :
    ∀ s : State, (s.get 29#5).toNat = n → Ev c (goto base 4 s) fun t =>
      t.pc = atk base 12 ∧ t.get 5#5 = s.get 5#5 + s.get 28#5 * s.get 29#5 ∧
      (∀ q, q ≠ 5#5 → q ≠ 6#5 → q ≠ 28#5 → q ≠ 29#5 → t.get q = s.get q) ∧ t.mem = s.mem := by
  induction n using Nat.strongRecOn with
  | ind n ih =>
    intro s hn
    refine Ev.br h 4 12 rfl (by decide) (fun hc => ?_) (fun hc => ?_)
    · refine Ev.now ⟨rfl, ?_, fun _ _ _ _ _ => rfl, rfl⟩
      simp [brCond] at hc
      simp [hc]
    refine Ev.br h 5 12 rfl (by decide) (fun hc => ?_) (fun hc2 => ?_)
    · refine Ev.now ⟨rfl, ?_, fun _ _ _ _ _ => rfl, rfl⟩
      simp [brCond] at hc
      simp [hc]
    simp [brCond] at hc hc2
    have hy : (s.get 29#5).toNat ≠ 0 := fun h0 => hc2 (BitVec.eq_of_toNat_eq (by rw [h0]; rfl))
    refine Ev.i h 6 rfl ?_
    simp only [aluI]
    refine Ev.br h 7 9 rfl (by decide) (fun hc => ?_) (fun hc => ?_)
    · -- even
      have hev : s.get 29#5 &&& 1#32 = 0#32 := by
        simp [brCond, get_set] at hc; exact hc
      refine Ev.sh h 9 rfl ?_
      refine Ev.sh h 10 rfl ?_
      refine Ev.j h 11 4 rfl (by decide) ?_
      refine Ev.bind (ih (n / 2) (by omega) _ ?_) ?_
      · simp [get_set, aluSh]
        rw [hn]; omega
      · rintro t ⟨p1, p2, p3, p4⟩
        refine Ev.now ⟨p1, ?_, ?_, ?_⟩
        · rw [p2]
          simp [get_set, aluSh]
          simpa using mul_step_even 0 (s.get 28#5) (s.get 29#5) hev
        · intro q q1 q2 q3 q4
          rw [p3 q q1 q2 q3 q4]
          simp [get_set, q2, q3, q4]
        · rw [p4]; simp
    · have hod : s.get 29#5 &&& 1#32 = 1#32 := by
        rcases low_cases (s.get 29#5) with h0 | h0
        · simp [brCond, get_set] at hc; exact absurd h0 hc
        · exact h0
      refine Ev.r h 8 rfl ?_
      refine Ev.sh h 9 rfl ?_
      refine Ev.sh h 10 rfl ?_
      refine Ev.j h 11 4 rfl (by decide) ?_
      refine Ev.bind (ih (n / 2) (by omega) _ ?_) ?_
      · simp [get_set, aluSh]
        rw [hn]; omega
      · rintro t ⟨p1, p2, p3, p4⟩
        refine Ev.now ⟨p1, ?_, ?_, ?_⟩
        · rw [p2]
          simp [get_set, aluSh, aluR]
          exact mul_step_odd _ _ _ hod
        · intro q q1 q2 q3 q4
          rw [p3 q q1 q2 q3 q4]
          simp [get_set, q1, q2, q3, q4]
        · rw [p4]; simp

theorem ev_mul {c : Code} {base : Word} {d a b : Reg} (hd : d ≠ 0#5) (ha : a ≠ 5#5 ∧ a ≠ 6#5)
    (hb : b ≠ 5#5 ∧ b ≠ 6#5 ∧ b ≠ 28#5)
    (h : InstrAt c base (mulI d a b)) (s : State) :
    Ev c (goto base 0 s) fun t => t.pc = atk base 13 ∧ t.get d = s.get a * s.get b ∧
      (∀ q, q ≠ d → q ≠ 5#5 → q ≠ 6#5 → q ≠ 28#5 → q ≠ 29#5 → t.get q = s.get q) ∧ t.mem = s.mem := by
  refine Ev.i h 0 rfl ?_
  refine Ev.i h 1 rfl ?_
  refine Ev.i h 2 rfl ?_
  refine Ev.i h 3 rfl ?_
  refine Ev.bind (ev_mulLoop h _ _ rfl) ?_
  rintro t ⟨p1, p2, p3, p4⟩
  rw [← goto_of p1]
  refine Ev.i h 12 rfl ?_
  refine Ev.now ⟨rfl, ?_, ?_, ?_⟩
  · simp [get_set, hd, aluI, p2, ha, hb]
  · intro q q0 q1 q2 q3 q4
    simp [get_set, q0, p3 q q1 q2 q3 q4, q1, q2, q3, q4]
  · simp [p4]

end RV32
