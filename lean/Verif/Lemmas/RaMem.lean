import Verif.Lemmas.IrMem

/-! Loads and stores at disjoint addresses. -/

namespace IrM

theorem store8_ne (m : Mem) {a b : Word} (v : BitVec 8) (h : b ≠ a) : store8 m a v b = m b := by
  unfold store8; rw [if_neg h]

theorem store32_ne (m : Mem) {p b : Word} (x : Word) (h : ∀ k, k < 4 → b ≠ p + BitVec.ofNat 32 k) : store32 m p x b = m b := by
  have h0 : b ≠ p := by have := h 0 (by omega); simpa using this
  have h1 : b ≠ p + 1 := h 1 (by omega)
  have h2 : b ≠ p + 2 := h 2 (by omega)
  have h3 : b ≠ p + 3 := h 3 (by omega)
  unfold store32
  rw [store8_ne _ _ h3, store8_ne _ _ h2, store8_ne _ _ h1, store8_ne _ _ h0]

theorem load32_congr {m m' : Mem} {p : Word} (h : ∀ k, k < 4 → m' (p + BitVec.ofNat 32 k) = m (p + BitVec.ofNat 32 k)) :
    load32 m' p = load32 m p := by
  have h0 : m' p = m p := by have := h 0 (by omega); simpa using this
  have h1 : m' (p + 1) = m (p + 1) := h 1 (by omega)
  have h2 : m' (p + 2) = m (p + 2) := h 2 (by omega)
  have h3 : m' (p + 3) = m (p + 3) := h 3 (by omega)
  unfold load32
  rw [h0, h1, h2, h3]

theorem store32_congr {m m' : Mem} {p x b : Word} (h : m' b = m b ∨ ∃ k, k < 4 ∧ b = p + BitVec.ofNat 32 k) :
    store32 m' p x b = store32 m p x b := by
  by_cases hb : ∃ k, k < 4 ∧ b = p + BitVec.ofNat 32 k
  · obtain ⟨k, hk, rfl⟩ := hb
    have ne : ∀ i j : Word, i ≠ j → p + i ≠ p + j := fun i j hi => add_ne p hi
    have self : ∀ i : Word, i ≠ 0#32 → p + i ≠ p := fun i hi h => hi (by simpa using h)
    have self' : ∀ i : Word, i ≠ 0#32 → p ≠ p + i := fun i hi h => hi (by simpa using h.symm)
    rcases (by omega : k = 0 ∨ k = 1 ∨ k = 2 ∨ k = 3) with rfl | rfl | rfl | rfl <;>
      simp [store32, store8, BitVec.add_right_inj]
  · have hn : ∀ k, k < 4 → b ≠ p + BitVec.ofNat 32 k := fun k hk he => hb ⟨k, hk, he⟩
    rw [store32_ne _ _ hn, store32_ne _ _ hn]
    exact h.resolve_right hb

/-- Bytes of two different word-aligned frame slots are different. -/
theorem slot_ne {sp : Word} {o o' k l : Nat} (h : o ≠ o') (h1 : o % 4 = 0) (h2 : o' % 4 = 0) (h3 : o + 4 ≤ 2 ^ 32)
    (h4 : o' + 4 ≤ 2 ^ 32) (hk : k < 4) (hl : l < 4) :
    sp + BitVec.ofNat 32 o + BitVec.ofNat 32 k ≠ sp + BitVec.ofNat 32 o' + BitVec.ofNat 32 l := by
  rw [BitVec.add_assoc, BitVec.add_assoc]
  apply add_ne
  intro e
  have := congrArg BitVec.toNat e
  simp only [BitVec.toNat_add, BitVec.toNat_ofNat] at this
  omega

theorem load32_store32_ne (m : Mem) {p q : Word} (x : Word)
    (h : ∀ k l, k < 4 → l < 4 → q + BitVec.ofNat 32 k ≠ p + BitVec.ofNat 32 l) : load32 (store32 m p x) q = load32 m q :=
  load32_congr fun k hk => store32_ne m x fun l hl => h k l hk hl

end IrM
