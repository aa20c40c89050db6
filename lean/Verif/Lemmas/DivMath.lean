/-! Arithmetic facts shared by the software-division proofs of both back ends. -/

namespace DivMath

abbrev Word := BitVec 32

/-- sign mask as computed by an arithmetic shift by 31 -/
def mask (a : Word) : Word := a.sshiftRight 31
/-- absolute value as computed by the emitted code -/
def absw (a : Word) : Word := (a + mask a) ^^^ mask a

theorem mask_eq (a : Word) : mask a = if a.toInt < 0 then -1#32 else 0#32 := by
  unfold mask
  apply BitVec.eq_of_toInt_eq
  rw [BitVec.toInt_sshiftRight, Int.shiftRight_eq_div_pow]
  have h1 := @BitVec.toInt_lt 32 a
  have h2 := @BitVec.le_toInt 32 a
  split
  · rw [show (-1#32).toInt = -1 by decide]; omega
  · rw [show (0#32).toInt = 0 by decide]; omega

theorem absw_eq (a : Word) : absw a = if a.toInt < 0 then -a else a := by
  unfold absw
  rw [mask_eq]
  split
  · rw [show (-1#32 : Word) = BitVec.allOnes 32 by decide, BitVec.xor_allOnes, BitVec.neg_eq_not_add,
      ← BitVec.not_sub_one_eq_not_add_one, BitVec.sub_eq_add_neg, show -1#32 = BitVec.allOnes 32 by decide]
  · simp

theorem absw_toNat (a : Word) : (absw a).toNat = a.toInt.natAbs := by
  rw [absw_eq]
  have h1 := @BitVec.toInt_lt 32 a
  have h2 := @BitVec.le_toInt 32 a
  have h3 := a.isLt
  have h4 := BitVec.toInt_eq_toNat_cond a
  split at h4
  · split
    · omega
    · omega
  · split
    · rw [BitVec.toNat_neg]; omega
    · omega

theorem absw_le (a : Word) : (absw a).toNat ≤ 2 ^ 31 := by
  rw [absw_toNat]
  have h1 := @BitVec.toInt_lt 32 a
  have h2 := @BitVec.le_toInt 32 a
  omega

/-- the final sign correction -/
theorem fix_sign (n : Word) (neg : Prop) [Decidable neg] :
    (if neg then 0#32 - n else n) = BitVec.ofInt 32 (if neg then -(n.toNat : Int) else n.toNat) := by
  split
  · simp [BitVec.ofInt_neg]
  · simp

theorem quot_sign (x y : Int) :
    x.tdiv y = if (x < 0) ↔ (y < 0) then ((x.natAbs / y.natAbs : Nat) : Int) else -((x.natAbs / y.natAbs : Nat) : Int) := by
  have ex : x = if x < 0 then -(x.natAbs : Int) else x.natAbs := by split <;> omega
  have ey : y = if y < 0 then -(y.natAbs : Int) else y.natAbs := by split <;> omega
  by_cases hx : x < 0 <;> by_cases hy : y < 0
  · rw [if_pos hx] at ex; rw [if_pos hy] at ey
    simp only [hx, hy, if_true]
    conv => lhs; rw [ex, ey]
    rw [Int.neg_tdiv, Int.tdiv_neg, Int.neg_neg, ← Int.ofNat_tdiv]
  · rw [if_pos hx] at ex; rw [if_neg hy] at ey
    simp only [hx, hy, true_iff, if_false]
    conv => lhs; rw [ex, ey]
    rw [Int.neg_tdiv, ← Int.ofNat_tdiv]
  · rw [if_neg hx] at ex; rw [if_pos hy] at ey
    simp only [hx, hy, false_iff, not_true, if_false]
    conv => lhs; rw [ex, ey]
    rw [Int.tdiv_neg, ← Int.ofNat_tdiv]
  · rw [if_neg hx] at ex; rw [if_neg hy] at ey
    simp only [hx, hy, if_true]
    conv => lhs; rw [ex, ey]
    rw [← Int.ofNat_tdiv]

theorem rem_sign (x y : Int) :
    x.tmod y = if x < 0 then -((x.natAbs % y.natAbs : Nat) : Int) else ((x.natAbs % y.natAbs : Nat) : Int) := by
  have ex : x = if x < 0 then -(x.natAbs : Int) else x.natAbs := by split <;> omega
  have ey : y = if y < 0 then -(y.natAbs : Int) else y.natAbs := by split <;> omega
  have hy' : ∀ z : Int, z.tmod y = z.tmod y.natAbs := by
    intro z
    by_cases hy : y < 0
    · rw [if_pos hy] at ey
      conv => lhs; rw [ey]
      rw [Int.tmod_neg]
    · rw [if_neg hy] at ey
      conv => lhs; rw [ey]
  rw [hy']
  by_cases hx : x < 0
  · rw [if_pos hx] at ex ⊢
    conv => lhs; rw [ex]
    rw [Int.neg_tmod, ← Int.ofNat_tmod]
  · rw [if_neg hx] at ex ⊢
    conv => lhs; rw [ex]
    rw [← Int.ofNat_tmod]

/-- the sign mask of a quotient is zero iff the operand signs agree -/
theorem mask_xor (a b : Word) : mask a ^^^ mask b = 0#32 ↔ ((a.toInt < 0) ↔ (b.toInt < 0)) := by
  rw [mask_eq, mask_eq]
  by_cases h1 : a.toInt < 0 <;> by_cases h2 : b.toInt < 0 <;> simp [h1, h2] <;> decide

theorem mask_zero (a : Word) : mask a = 0#32 ↔ ¬ a.toInt < 0 := by
  rw [mask_eq]; split <;> simp_all

/-- quotient: unsigned quotient of the absolute values, sign corrected -/
theorem div_result (a b q : Word) (hq : q.toNat = (absw a).toNat / (absw b).toNat) :
    (if mask a ^^^ mask b = 0#32 then q else 0#32 - q) = BitVec.ofInt 32 (a.toInt.tdiv b.toInt) := by
  rw [quot_sign]
  rw [absw_toNat, absw_toNat] at hq
  by_cases h : (a.toInt < 0) ↔ (b.toInt < 0)
  · rw [if_pos h, if_pos ((mask_xor a b).2 h), ← hq]; simp
  · rw [if_neg h, if_neg (fun hh => h ((mask_xor a b).1 hh)), ← hq]; simp [BitVec.ofInt_neg]

theorem mod_result (a b r : Word) (hr : r.toNat = (absw a).toNat % (absw b).toNat) :
    (if mask a = 0#32 then r else 0#32 - r) = BitVec.ofInt 32 (a.toInt.tmod b.toInt) := by
  rw [rem_sign]
  rw [absw_toNat, absw_toNat] at hr
  by_cases h : a.toInt < 0
  · rw [if_pos h, if_neg (fun hh => (mask_zero a).1 hh h), ← hr]; simp [BitVec.ofInt_neg]
  · rw [if_neg h, if_pos ((mask_zero a).2 h), ← hr]; simp

end DivMath
