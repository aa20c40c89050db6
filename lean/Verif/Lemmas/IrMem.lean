import Verif.Spec.IrMachine

/-! Word loads after word stores. -/

namespace IrM

theorem add_ne (p : Word) {i j : Word} (h : i ≠ j) : p + i ≠ p + j := by
  intro e; exact h ((BitVec.add_right_inj p).mp e)

theorem bytes_eq (v : Word) : v.extractLsb' 24 8 ++ v.extractLsb' 16 8 ++ v.extractLsb' 8 8 ++ v.extractLsb' 0 8 = v := by
  apply BitVec.eq_of_getLsbD_eq
  intro i hi
  simp only [BitVec.getLsbD_append, BitVec.getLsbD_extractLsb']
  by_cases h0 : i < 8
  · simp [h0]
  by_cases h1 : i < 16
  · have : i - 8 < 8 := by omega
    have e : 8 + (i - 8) = i := by omega
    simp [h0, this, e]
  by_cases h2 : i < 24
  · have a1 : ¬ i - 8 < 8 := by omega
    have a2 : i - 8 - 8 < 8 := by omega
    have e : 16 + (i - 8 - 8) = i := by omega
    simp [h0, a1, a2, e]
  · have a1 : ¬ i - 8 < 8 := by omega
    have a2 : ¬ i - 8 - 8 < 8 := by omega
    have a3 : i - 8 - 8 - 8 < 8 := by omega
    have e : 24 + (i - 8 - 8 - 8) = i := by omega
    simp [h0, a1, a2, a3, e]

theorem load32_hi_lo (m : Mem) (p x y : Word) :
    load32 (store32 (store32 m p x) (p + 4#32) y) (p + 4#32) = y ∧
    load32 (store32 (store32 m p x) (p + 4#32) y) p = x := by
  have self : ∀ i : Word, i ≠ 0#32 → p + i ≠ p := fun i hi h => hi (by simpa using h)
  have self' : ∀ i : Word, i ≠ 0#32 → p ≠ p + i := fun i hi h => hi (by simpa using h.symm)
  constructor
  · conv => rhs; rw [← bytes_eq y]
    simp only [load32, store32, store8, BitVec.add_assoc]
    simp [BitVec.add_right_inj]
  · conv => rhs; rw [← bytes_eq x]
    simp only [load32, store32, store8, BitVec.add_assoc]
    simp [BitVec.add_right_inj, self, self']

theorem load32_same (m : Mem) (p x : Word) : load32 (store32 m p x) p = x := by
  have self : ∀ i : Word, i ≠ 0#32 → p + i ≠ p := fun i hi h => hi (by simpa using h)
  have self' : ∀ i : Word, i ≠ 0#32 → p ≠ p + i := fun i hi h => hi (by simpa using h.symm)
  conv => rhs; rw [← bytes_eq x]
  simp only [load32, store32, store8]
  simp [BitVec.add_right_inj, self, self']

end IrM
