import Verif.Lemmas.RvMul
import Verif.Lemmas.RvDiv
import Verif.Spec.CArith

namespace RV32
open Shecc Shecc.Riscv

theorem irReg_facts (k : BitVec 3) : irReg k ≠ 0#5 ∧ irReg k ≠ 1#5 ∧ irReg k ≠ 2#5 ∧ irReg k ≠ 3#5 ∧ irReg k ≠ 5#5 ∧
    irReg k ≠ 6#5 ∧ irReg k ≠ 7#5 ∧ irReg k ≠ 28#5 ∧ irReg k ≠ 29#5 ∧ irReg k ≠ 30#5 := by
  revert k; decide

theorem irReg_inj (j k : BitVec 3) : irReg j = irReg k ↔ j = k := by
  revert j k; decide

theorem scratch_irReg (k : BitVec 3) : scratch (irReg k) = false := by revert k; decide

theorem not_scratch {q : Reg} (h : scratch q = false) :
    q ≠ 5#5 ∧ q ≠ 6#5 ∧ q ≠ 7#5 ∧ q ≠ 28#5 ∧ q ≠ 29#5 ∧ q ≠ 30#5 := by
  simp [scratch] at h
  obtain ⟨⟨⟨⟨⟨h1, h2⟩, h3⟩, h4⟩, h5⟩, h6⟩ := h
  exact ⟨h1, h2, h3, h4, h5, h6⟩

/-- From a decoding and an execution of the decoded instructions to `Computes`. -/
theorem computes_of {o : Option (List CInt)} {is : List Instr} (hd : Decodes o is) {rd : Reg}
    {f : State → Option Word}
    (H : ∀ c s v, InstrAt c s.pc is → f s = some v → Ev c (goto s.pc 0 s) fun t => t.pc = atk s.pc is.length ∧
      t.get rd = v ∧ (∀ q, q ≠ rd → scratch q = false → t.get q = s.get q) ∧ t.mem = s.mem) :
    ∃ ws, o = some ws ∧ Computes ws rd f := by
  obtain ⟨ws, h1, h2⟩ := hd
  refine ⟨ws, h1, fun c s v hc hv => ?_⟩
  obtain ⟨t, r, p1, p2⟩ := H c s v (.of_code hc h2) hv
  rw [goto_self] at r
  have hl : ws.length = is.length := by simpa using congrArg List.length h2
  exact ⟨t, r, by rw [p1, hl]; rfl, p2⟩

theorem one_r {k : RKind} {d a b : Reg} {w : CInt} (hw : decode w = some (.r k d a b)) (hd : d ≠ 0#5)
    {f : State → Option Word} (hf : ∀ s v, f s = some v → aluR k (s.get a) (s.get b) = v) :
    ∃ ws, emits [some w] = some ws ∧ Computes ws d f := by
  refine computes_of (.cons hw .nil) fun c s v h hv => ?_
  refine Ev.r h 0 rfl (Ev.now ⟨rfl, ?_, ?_, ?_⟩)
  · simp only [goto_get, get_set]; rw [if_pos ⟨trivial, hd⟩, hf s v hv]
  · intro q q1 _; simp [get_set, q1]
  · simp

theorem one_i {k : IKind} {d a : Reg} {imm : Word} {o : Option CInt}
    (hw : ∃ w, o = some w ∧ decode w = some (.i k d a imm)) (hd : d ≠ 0#5)
    {f : State → Option Word} (hf : ∀ s v, f s = some v → aluI k (s.get a) imm = v) :
    ∃ ws, emits [o] = some ws ∧ Computes ws d f := by
  refine computes_of (.cons' hw .nil) fun c s v h hv => ?_
  refine Ev.i h 0 rfl (Ev.now ⟨rfl, ?_, ?_, ?_⟩)
  · simp only [goto_get, get_set]; rw [if_pos ⟨trivial, hd⟩, hf s v hv]
  · intro q q1 _; simp [get_set, q1]
  · simp

theorem two_ri {k : RKind} {k' : IKind} {d a b : Reg} {imm : Word} {w : CInt} {o : Option CInt}
    (hw : decode w = some (.r k d a b))
    (hw' : ∃ w, o = some w ∧ decode w = some (.i k' d d imm)) (hd : d ≠ 0#5)
    {f : State → Option Word} (hf : ∀ s v, f s = some v → aluI k' (aluR k (s.get a) (s.get b)) imm = v) :
    ∃ ws, emits [some w, o] = some ws ∧ Computes ws d f := by
  refine computes_of (.cons hw (.cons' hw' .nil)) fun c s v h hv => ?_
  refine Ev.r h 0 rfl (Ev.i h 1 rfl (Ev.now ⟨rfl, ?_, ?_, ?_⟩))
  · have := hf s v hv
    simp only [goto_get, get_set]; simp [hd, this]
  · intro q q1 _; simp [get_set, q1]
  · simp

theorem not_big {v : CInt} (h : big v = false) : -2048 ≤ v.toInt ∧ v.toInt ≤ 2047 := by
  unfold big at h
  rw [Bool.or_eq_false_iff] at h
  have h1 := fun e => Bool.eq_false_iff.mp h.1 ((slt_iff _ _).mpr e)
  have h2 := fun e => Bool.eq_false_iff.mp h.2 ((slt_iff _ _).mpr e)
  have e1 : (-2048 : CInt).toInt = -2048 := by decide
  have e2 : (2047 : CInt).toInt = 2047 := by decide
  rw [e1] at h1; rw [e2] at h2
  exact ⟨Int.not_lt.mp h1, Int.not_lt.mp h2⟩

theorem slt_ofBool (a b : Word) : (if a.slt b = true then 1 else 0 : Word) = CArith.ofBool (decide (a.toInt < b.toInt)) := by
  simp [CArith.ofBool, BitVec.slt_iff_toInt_lt]

theorem slt_not_ofBool (a b : Word) :
    (if a.slt b = true then 1 else 0 : Word) ^^^ 1#32 = CArith.ofBool (decide (b.toInt ≤ a.toInt)) := by
  by_cases h : a.toInt < b.toInt
  · have h' : ¬ b.toInt ≤ a.toInt := by omega
    have h2 : a.slt b = true := by simpa [BitVec.slt_iff_toInt_lt] using h
    rw [if_pos h2]; simp [CArith.ofBool, h']
  · have h' : b.toInt ≤ a.toInt := by omega
    have h2 : ¬ a.slt b = true := by simpa [BitVec.slt_iff_toInt_lt] using h
    rw [if_neg h2]; simp [CArith.ofBool, h']

theorem sub_zero_iff (a b : Word) : a - b = 0#32 ↔ a = b := by
  constructor
  · intro h
    have := BitVec.sub_eq_iff_eq_add.mp h
    simpa using this
  · rintro rfl; simp

theorem ult_zero (x : Word) : (0#32).ult x = true ↔ x ≠ 0#32 := by
  simp only [BitVec.ult, decide_eq_true_eq]
  constructor
  · rintro h rfl; simp at h
  · intro h
    rcases Nat.eq_zero_or_pos x.toNat with h0 | h0
    · exact absurd (BitVec.eq_of_toNat_eq (by rw [h0]; rfl)) h
    · exact h0

theorem neq_val (a b : Word) :
    (if (0#32).ult (a - b) = true then 1 else 0 : Word) = CArith.ofBool (decide (a.toInt ≠ b.toInt)) := by
  by_cases h : a = b
  · subst h
    have : ¬ (0#32).ult (a - a) = true := by rw [ult_zero]; simp
    rw [if_neg this]; simp [CArith.ofBool]
  · have : (0#32).ult (a - b) = true := by rw [ult_zero, Ne, sub_zero_iff]; exact h
    have h2 : a.toInt ≠ b.toInt := fun e => h (BitVec.eq_of_toInt_eq e)
    rw [if_pos this]; simp [CArith.ofBool, h2]

theorem eq_val (a b : Word) :
    (if (0#32).ult (a - b) = true then 1 else 0 : Word) ^^^ 1#32 = CArith.ofBool (decide (a.toInt = b.toInt)) := by
  rw [neq_val]
  by_cases h : a.toInt = b.toInt <;> simp [CArith.ofBool, h]

theorem lnot_val (a : Word) :
    (if (0#32).ult a = true then 1 else 0 : Word) ^^^ 1#32 = CArith.ofBool (decide (a.toInt = 0)) := by
  have := eq_val a 0#32
  simpa using this

theorem shl_val (a b : Word) (h : b.toNat < 32) : a <<< (b.toNat % 32) = BitVec.ofInt 32 (a.toInt * 2 ^ b.toNat) := by
  rw [Nat.mod_eq_of_lt h, BitVec.shiftLeft_eq_mul_twoPow]
  apply BitVec.eq_of_toInt_eq
  rw [BitVec.toInt_mul, BitVec.toInt_ofInt]
  have : (BitVec.twoPow 32 b.toNat).toInt = ((2 ^ b.toNat : Int)).bmod (2 ^ 32) := by
    rw [BitVec.toInt_eq_toNat_bmod, BitVec.toNat_twoPow]
    rw [show ((2 ^ b.toNat % 2 ^ 32 : Nat) : Int) = (2 ^ b.toNat : Int) % ((2 ^ 32 : Nat) : Int) by simp, Int.emod_bmod]
  rw [this]
  simp

theorem shr_val (a b : Word) (h : b.toNat < 32) :
    a.sshiftRight (b.toNat % 32) = BitVec.ofInt 32 (a.toInt / 2 ^ b.toNat) := by
  rw [Nat.mod_eq_of_lt h]
  apply BitVec.eq_of_toInt_eq
  rw [BitVec.toInt_sshiftRight, Int.shiftRight_eq_div_pow, BitVec.toInt_ofInt]
  symm
  have h1 := @BitVec.toInt_lt 32 a
  have h2 := @BitVec.le_toInt 32 a
  have hp : (0 : Int) < 2 ^ b.toNat := Int.pow_pos (by decide)
  have e : ((2 ^ b.toNat : Nat) : Int) = (2 : Int) ^ b.toNat := by simp
  rw [e]
  apply Int.bmod_eq_of_le
  · rw [Int.le_ediv_iff_mul_le hp]
    have h3 : (1 : Int) ≤ 2 ^ b.toNat := by omega
    generalize (2 : Int) ^ b.toNat = p at *
    have : (-2147483648 : Int) * p ≤ -2147483648 := by omega
    simp at *
    omega
  · apply Int.ediv_lt_of_lt_mul hp
    have h3 : (1 : Int) ≤ 2 ^ b.toNat := by omega
    generalize (2 : Int) ^ b.toNat = p at *
    have : (2147483648 : Int) ≤ 2147483648 * p := by omega
    simp at *
    omega

end RV32
