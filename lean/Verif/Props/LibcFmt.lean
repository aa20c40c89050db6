import Verif.Props.LibcStr
import Mathlib.Tactic.Linarith

/-!
# C35–C37: printing of integers
-/

namespace Shecc.Props
open Shecc.Libc
open Shecc.Text hiding Byte

/-! ## digits -/

theorem toDigits_getElem {b : Nat} (hb : 1 < b) : ∀ n k (h : k < (Nat.toDigits b n).length),
    (Nat.toDigits b n)[k] = Nat.digitChar (n / b ^ ((Nat.toDigits b n).length - 1 - k) % b) := by
  intro n
  induction n using Nat.strongRecOn with
  | _ n ih =>
    intro k h
    rcases Nat.lt_or_ge n b with hn | hn
    · have e := Nat.toDigits_of_lt_base hn
      have hl : (Nat.toDigits b n).length = 1 := by rw [e]; rfl
      have hk : k = 0 := by omega
      subst hk
      simp only [e, List.length_singleton, List.getElem_singleton, Nat.sub_self, Nat.pow_zero, Nat.div_one]
      rw [Nat.mod_eq_of_lt hn]
    · have e := Nat.toDigits_of_base_le hb hn
      have hl : (Nat.toDigits b n).length = (Nat.toDigits b (n / b)).length + 1 := by
        rw [e]; simp
      have hlt : n / b < n := Nat.div_lt_self (by omega) hb
      rw [hl]
      simp only [e]
      rcases Nat.lt_or_ge k (Nat.toDigits b (n / b)).length with hk | hk
      · rw [List.getElem_append_left hk, ih _ hlt k hk, Nat.div_div_eq_div_mul, ← Nat.pow_succ']
        congr 4; omega
      · rw [List.getElem_append_right hk]
        have : k = (Nat.toDigits b (n / b)).length := by omega
        subst this
        simp

def digLen (b n : Nat) : Nat := (Nat.toDigits b n).length

theorem digits_length (b n : Nat) : (digits b n).length = digLen b n := by simp [digits, digLen]

theorem digLen_pos (b n : Nat) : 0 < digLen b n := Nat.length_toDigits_pos

theorem lt_pow_digLen {b n : Nat} (hb : 1 < b) : n < b ^ digLen b n :=
  (Nat.length_toDigits_le_iff hb (digLen_pos b n)).1 (Nat.le_refl _)

theorem pow_le_of_digLen {b n : Nat} (hb : 1 < b) (hn : n ≠ 0) : b ^ (digLen b n - 1) ≤ n := by
  by_cases h : digLen b n = 1
  · rw [h]; simp; omega
  · have hp := digLen_pos b n
    apply Classical.byContradiction
    intro hlt
    have := (Nat.length_toDigits_le_iff (n := n) (k := digLen b n - 1) hb (by omega)).2 (by omega)
    unfold digLen at *
    omega

theorem digLen_le {b n k : Nat} (hb : 1 < b) (hk : 0 < k) (h : n < b ^ k) : digLen b n ≤ k :=
  (Nat.length_toDigits_le_iff hb hk).2 h

/-- `pb` holds the digits of `n`, right aligned and filled with zeros, from index `lo` on -/
def Rep (b n : Nat) (pb : Pb) (lo : Nat) : Prop :=
  ∀ j, lo ≤ j → j ≤ 15 → pb j = ascii (Nat.digitChar (n / b ^ (15 - j) % b))

theorem digitChar_zero_iff : ∀ d, d < 16 → (ascii (Nat.digitChar d) = c0 ↔ d = 0) := by decide
theorem digitChar_minus : ∀ d, d < 16 → ascii (Nat.digitChar d) ≠ cMinus := by decide

theorem Rep.zero {b n : Nat} {pb : Pb} {lo : Nat} (hb : 1 < b) (hb' : b ≤ 16) (h : Rep b n pb lo) {j : Nat}
    (hj : lo ≤ j) (hlt : j < 16 - digLen b n) : pb j = c0 := by
  rw [h j hj (by omega)]
  apply (digitChar_zero_iff _ (by have := Nat.mod_lt (n / b ^ (15 - j)) (show b > 0 by omega); omega)).2
  have h1 := lt_pow_digLen (n := n) hb
  have h2 : b ^ digLen b n ≤ b ^ (15 - j) := Nat.pow_le_pow_right (by omega) (by omega)
  rw [Nat.div_eq_of_lt (by omega)]
  simp

theorem Rep.nonzero {b n : Nat} {pb : Pb} {lo : Nat} (hb : 1 < b) (hb' : b ≤ 16) (h : Rep b n pb lo) (hn : n ≠ 0)
    (hL : digLen b n ≤ 16) (hlo : lo ≤ 16 - digLen b n) : pb (16 - digLen b n) ≠ c0 := by
  have hp := digLen_pos b n
  rw [h _ hlo (by omega)]
  intro he
  have he := (digitChar_zero_iff _ (by
    have := Nat.mod_lt (n / b ^ (15 - (16 - digLen b n))) (show b > 0 by omega); omega)).1 he
  have h1 := lt_pow_digLen (n := n) hb
  have h2 := pow_le_of_digLen hb hn
  rw [show 15 - (16 - digLen b n) = digLen b n - 1 by omega] at he
  have h3 : n / b ^ (digLen b n - 1) < b := by
    apply Nat.div_lt_of_lt_mul
    rw [← Nat.pow_succ]
    rwa [show (digLen b n - 1).succ = digLen b n by omega]
  rw [Nat.mod_eq_of_lt h3] at he
  have h4 : 1 ≤ n / b ^ (digLen b n - 1) := by
    apply (Nat.le_div_iff_mul_le (Nat.pow_pos (by omega))).2; omega
  omega

theorem Rep.text {b n : Nat} {pb : Pb} {lo : Nat} (hb : 1 < b) (h : Rep b n pb lo) (hL : digLen b n ≤ 16)
    (hlo : lo ≤ 16 - digLen b n) :
    (List.range (digLen b n)).map (fun k => pb (16 - digLen b n + k)) = digits b n := by
  apply List.ext_getElem
  · rw [digits_length]; simp
  · intro k h1 h2
    simp at h1
    have h3 : k < (Nat.toDigits b n).length := h1
    simp only [digits, List.getElem_map, List.getElem_range]
    rw [h _ (by omega) (by omega), toDigits_getElem hb n k h3]
    congr 5
    unfold digLen at *
    omega

theorem skipZeros_ok {pb : Pb} {t : Nat} (ht : t ≤ 15) (hstop : pb t ≠ c0 ∨ t = 15) : ∀ k i, i ≤ t → t - i ≤ k →
    (∀ j, i ≤ j → j < t → pb j = c0) → skipZeros pb k i = t := by
  intro k
  induction k with
  | zero => intro i h1 h2 _; unfold skipZeros; omega
  | succ k ih =>
    intro i h1 h2 hz
    unfold skipZeros
    by_cases e : i = t
    · subst e
      rw [if_neg]
      rintro ⟨h3, h4⟩
      rcases hstop with h | h
      · exact h h3
      · omega
    · rw [if_pos ⟨hz i (Nat.le_refl _) (by omega), by omega⟩]
      exact ih (i + 1) (by omega) (by omega) (fun j h3 h4 => hz j (by omega) h4)

/-! ## base 8 and 16 -/

theorem sshr_and {x : CInt} {s w : Nat} (h : s + w ≤ 32) :
    (x.sshiftRight s &&& BitVec.ofNat 32 (2 ^ w - 1)).toNat = x.toNat / 2 ^ s % 2 ^ w := by
  have hw : 2 ^ w ≤ 2 ^ 32 := Nat.pow_le_pow_right (by omega) (by omega)
  have hp : 0 < 2 ^ w := Nat.two_pow_pos w
  have hm : (BitVec.ofNat 32 (2 ^ w - 1)).toNat = 2 ^ w - 1 := by simp; omega
  have e : x.sshiftRight s &&& BitVec.ofNat 32 (2 ^ w - 1) = (x >>> s) &&& BitVec.ofNat 32 (2 ^ w - 1) := by
    apply BitVec.eq_of_getLsbD_eq
    intro i hi
    simp only [BitVec.getLsbD_and]
    by_cases hiw : i < w
    · congr 1
      rw [BitVec.getLsbD_sshiftRight, BitVec.getLsbD_ushiftRight, decide_eq_false (by omega : ¬ 32 ≤ i), if_pos (by omega)]
      rfl
    · have : (BitVec.ofNat 32 (2 ^ w - 1)).getLsbD i = false := by
        rw [← BitVec.testBit_toNat, hm, Nat.testBit_two_pow_sub_one]; simp; omega
      rw [this]; simp
  rw [e, BitVec.toNat_and, hm, Nat.and_two_pow_sub_one_eq_mod, BitVec.toNat_ushiftRight, Nat.shiftRight_eq_div_pow]

theorem base8Loop_ok (x : CInt) : ∀ k done (pb : Pb), done + k = 10 → Rep 8 x.toNat pb (16 - done) →
    (∀ j, j < 16 - done → pb j = c0) →
    let r := base8Loop k pb (x.sshiftRight (3 * done)) (15 - done)
    r.2.1 = x.sshiftRight 30 ∧ r.2.2 = 5 ∧ Rep 8 x.toNat r.1 6 ∧ ∀ j, j < 6 → r.1 j = c0 := by
  intro k
  induction k with
  | zero =>
    intro done pb hd h hz
    have : done = 10 := by omega
    subst this
    exact ⟨rfl, rfl, h, hz⟩
  | succ k ih =>
    intro done pb hd h hz
    have e : (x.sshiftRight (3 * done)).sshiftRight 3 = x.sshiftRight (3 * (done + 1)) := by
      rw [← BitVec.sshiftRight_add]; congr 1
    have := ih (done + 1) (updPb pb (15 - done) (c0 + (x.sshiftRight (3 * done) &&& 7).setWidth 8)) (by omega) ?_ ?_
    · unfold base8Loop
      rw [e, show 15 - done - 1 = 15 - (done + 1) by omega]
      exact this
    · intro j h1 h2
      unfold updPb
      by_cases hj : j = 15 - done
      · rw [if_pos hj]
        have hd' := sshr_and (x := x) (s := 3 * done) (w := 3) (by omega)
        have : 15 - j = done := by omega
        rw [this]
        have h8 : (8 : Nat) ^ done = 2 ^ (3 * done) := by rw [Nat.pow_mul]
        rw [h8]
        have hlt : x.toNat / 2 ^ (3 * done) % 8 < 8 := Nat.mod_lt _ (by omega)
        have hv : (x.sshiftRight (3 * done) &&& 7).setWidth 8 = BitVec.ofNat 8 (x.toNat / 2 ^ (3 * done) % 8) := by
          apply BitVec.eq_of_toNat_eq
          rw [BitVec.toNat_setWidth]
          have : (x.sshiftRight (3 * done) &&& 7).toNat = x.toNat / 2 ^ (3 * done) % 8 := hd'
          rw [this]; simp
        rw [hv]
        generalize x.toNat / 2 ^ (3 * done) % 8 = d at hlt
        revert d; decide
      · rw [if_neg hj]; exact h j (by omega) h2
    · intro j hj
      unfold updPb
      rw [if_neg (by omega)]; exact hz j (by omega)

theorem str_base8_ok (x : CInt) : Rep 8 x.toNat (str_base8 (fun _ => c0) x) 0 := by
  have h := base8Loop_ok x 10 0 (fun _ => c0) rfl (fun j h1 h2 => by omega) (fun j _ => rfl)
  simp only [Nat.mul_zero, Nat.sub_zero, BitVec.sshiftRight_zero] at h
  obtain ⟨h1, h2, h3, h4⟩ := h
  unfold str_base8
  generalize base8Loop 10 (fun _ => c0) x 15 = r at h1 h2 h3 h4 ⊢
  obtain ⟨pb, val, c⟩ := r
  simp only at h1 h2 h3 h4 ⊢
  subst h1 h2
  intro j _ hj
  unfold updPb
  by_cases e : j = 5
  · rw [if_pos e]; subst e
    have hd' : (x.sshiftRight 30 &&& 3).toNat = x.toNat / 2 ^ 30 % 4 := sshr_and (x := x) (s := 30) (w := 2) (by omega)
    have hx := x.isLt
    have hlt : x.toNat / 2 ^ 30 < 4 := by omega
    have h8 : x.toNat / 8 ^ (15 - 5) % 8 = x.toNat / 2 ^ 30 := by
      show x.toNat / 1073741824 % 8 = x.toNat / 1073741824
      omega
    have hv : (x.sshiftRight 30 &&& 3).setWidth 8 = BitVec.ofNat 8 (x.toNat / 2 ^ 30) := by
      apply BitVec.eq_of_toNat_eq
      rw [BitVec.toNat_setWidth, hd']; simp; omega
    rw [h8, hv]
    generalize x.toNat / 2 ^ 30 = d at hlt
    revert d; decide
  · rw [if_neg e]
    rcases Nat.lt_or_ge j 6 with h | h
    · rw [h4 j h]
      have hx := x.isLt
      have hp : 8 ^ 11 ≤ 8 ^ (15 - j) := Nat.pow_le_pow_right (by omega) (by omega)
      rw [Nat.div_eq_of_lt (by omega)]; decide
    · exact h3 j h hj

theorem base16Loop_ok (x : CInt) : ∀ k done (pb : Pb), done + k = 8 → Rep 16 x.toNat pb (16 - done) →
    (∀ j, j < 16 - done → pb j = c0) →
    Rep 16 x.toNat (base16Loop k pb (x.sshiftRight (4 * done)) (15 - done)) 8 ∧
    ∀ j, j < 8 → base16Loop k pb (x.sshiftRight (4 * done)) (15 - done) j = c0 := by
  intro k
  induction k with
  | zero =>
    intro done pb hd h hz
    have : done = 8 := by omega
    subst this
    exact ⟨h, hz⟩
  | succ k ih =>
    intro done pb hd h hz
    have e : (x.sshiftRight (4 * done)).sshiftRight 4 = x.sshiftRight (4 * (done + 1)) := by
      rw [← BitVec.sshiftRight_add]; congr 1
    unfold base16Loop
    simp only
    rw [e, show 15 - done - 1 = 15 - (done + 1) by omega]
    refine ih (done + 1) _ (by omega) ?_ ?_
    · intro j h1 h2
      unfold updPb
      by_cases hj : j = 15 - done
      · rw [if_pos hj]
        have hd' : (x.sshiftRight (4 * done) &&& 15#32).toNat = x.toNat / 2 ^ (4 * done) % 16 :=
          sshr_and (x := x) (s := 4 * done) (w := 4) (by omega)
        have : 15 - j = done := by omega
        rw [this]
        have h8 : (16 : Nat) ^ done = 2 ^ (4 * done) := by rw [Nat.pow_mul]
        rw [h8]
        have hlt : x.toNat / 2 ^ (4 * done) % 16 < 16 := Nat.mod_lt _ (by omega)
        have hv : x.sshiftRight (4 * done) &&& 15#32 = BitVec.ofNat 32 (x.toNat / 2 ^ (4 * done) % 16) := by
          apply BitVec.eq_of_toNat_eq
          rw [hd']; simp; omega
        have hv' : x.sshiftRight (4 * done) &&& 15 = BitVec.ofNat 32 (x.toNat / 2 ^ (4 * done) % 16) := hv
        rw [hv']
        generalize x.toNat / 2 ^ (4 * done) % 16 = d at hlt
        revert d; decide
      · rw [if_neg hj]; exact h j (by omega) h2
    · intro j hj
      unfold updPb
      rw [if_neg (by omega)]; exact hz j (by omega)

theorem str_base16_ok (x : CInt) : Rep 16 x.toNat (str_base16 (fun _ => c0) x) 0 := by
  have h := base16Loop_ok x 8 0 (fun _ => c0) rfl (fun j h1 h2 => by omega) (fun j _ => rfl)
  simp only [Nat.mul_zero, Nat.sub_zero, BitVec.sshiftRight_zero] at h
  obtain ⟨h3, h4⟩ := h
  intro j _ hj
  unfold str_base16
  rcases Nat.lt_or_ge j 8 with h | h
  · rw [h4 j h]
    have hx := x.isLt
    have hp : 16 ^ 8 ≤ 16 ^ (15 - j) := Nat.pow_le_pow_right (by omega) (by omega)
    rw [Nat.div_eq_of_lt (by omega)]; decide
  · exact h3 j h hj

/-! ## base 10 -/

theorem sshr_toNat {x : CInt} (h : x.toNat < 2 ^ 31) (k : Nat) : (x.sshiftRight k).toNat = x.toNat / 2 ^ k := by
  have : x.msb = false := by
    rw [BitVec.msb_eq_decide]; simp; omega
  rw [BitVec.toNat_sshiftRight_of_msb_false this, Nat.shiftRight_eq_div_pow]

theorem divTen_bounds {a q1 q2 q3 q4 q5 : Int} (h0 : 0 ≤ a) (ha : a < 2147483648) (l1 : 3 * a - 5 ≤ 4 * q1) (u1 : 4 * q1 ≤ 3 * a)
    (l2 : 17 * q1 - 15 ≤ 16 * q2) (u2 : 16 * q2 ≤ 17 * q1) (l3 : 257 * q2 - 255 ≤ 256 * q3) (u3 : 256 * q3 ≤ 257 * q2)
    (l4 : 65537 * q3 - 65535 ≤ 65536 * q4) (u4 : 65536 * q4 ≤ 65537 * q3) (l5 : q4 - 7 ≤ 8 * q5) (u5 : 8 * q5 ≤ q4) :
    10 * q5 ≤ a ∧ a - 10 * q5 ≤ 19 := by
  constructor
  · linarith
  · linarith

/-- the shift-and-add division by ten is exact on every non-negative `int` -/
theorem divTen_ok {v : CInt} (h : v.toNat < 2 ^ 31) :
    (divTen v).1 = BitVec.ofNat 32 (v.toNat / 10) ∧ (divTen v).2 = BitVec.ofNat 32 (v.toNat % 10) := by
  unfold divTen
  simp only
  have a1 : (v.sshiftRight 1).toNat = v.toNat / 2 := sshr_toNat h 1
  have a2 : (v.sshiftRight 2).toNat = v.toNat / 4 := sshr_toNat h 2
  have b1 : (v.sshiftRight 1 + v.sshiftRight 2).toNat = v.toNat / 2 + v.toNat / 4 := by
    rw [BitVec.toNat_add, a1, a2]; omega
  generalize v.sshiftRight 1 + v.sshiftRight 2 = q1 at b1 ⊢
  have u1 : q1.toNat < 1610612736 ∧ 3 * v.toNat ≤ 4 * q1.toNat + 5 ∧ 4 * q1.toNat ≤ 3 * v.toNat := by
    clear a1 a2; omega
  clear a1 a2 b1
  obtain ⟨u1, l1, m1⟩ := u1
  have b2 : (q1 + q1.sshiftRight 4).toNat = q1.toNat + q1.toNat / 16 := by
    rw [BitVec.toNat_add, sshr_toNat (by omega)]; clear l1 m1; omega
  generalize q1 + q1.sshiftRight 4 = q2 at b2 ⊢
  have u2 : q2.toNat < 1711276033 ∧ 17 * q1.toNat ≤ 16 * q2.toNat + 15 ∧ 16 * q2.toNat ≤ 17 * q1.toNat := by
    clear l1 m1; omega
  clear b2
  obtain ⟨u2, l2, m2⟩ := u2
  have b3 : (q2 + q2.sshiftRight 8).toNat = q2.toNat + q2.toNat / 256 := by
    rw [BitVec.toNat_add, sshr_toNat (by omega)]; clear l1 m1 l2 m2; omega
  generalize q2 + q2.sshiftRight 8 = q3 at b3 ⊢
  have u3 : q3.toNat < 1717960705 ∧ 257 * q2.toNat ≤ 256 * q3.toNat + 255 ∧ 256 * q3.toNat ≤ 257 * q2.toNat := by
    clear l1 m1 l2 m2; omega
  clear b3
  obtain ⟨u3, l3, m3⟩ := u3
  have b4 : (q3 + q3.sshiftRight 16).toNat = q3.toNat + q3.toNat / 65536 := by
    rw [BitVec.toNat_add, sshr_toNat (by omega)]; clear l1 m1 l2 m2 l3 m3; omega
  generalize q3 + q3.sshiftRight 16 = q4 at b4 ⊢
  have u4 : q4.toNat < 1717986920 ∧ 65537 * q3.toNat ≤ 65536 * q4.toNat + 65535 ∧
      65536 * q4.toNat ≤ 65537 * q3.toNat := by
    clear l1 m1 l2 m2 l3 m3; omega
  clear b4
  obtain ⟨u4, l4, m4⟩ := u4
  have b5 : (q4.sshiftRight 3).toNat = q4.toNat / 8 := sshr_toNat (by omega) 3
  generalize q4.sshiftRight 3 = q5 at b5 ⊢
  have u5 : q5.toNat < 1717986920 ∧ q4.toNat ≤ 8 * q5.toNat + 7 ∧ 8 * q5.toNat ≤ q4.toNat := by
    clear l1 m1 l2 m2 l3 m3 l4 m4; omega
  clear b5
  obtain ⟨u5, l5, m5⟩ := u5
  have hr := divTen_bounds (a := v.toNat) (q1 := q1.toNat) (q2 := q2.toNat) (q3 := q3.toNat) (q4 := q4.toNat)
    (q5 := q5.toNat) (by omega) (by exact_mod_cast h) (by omega) (by omega) (by omega) (by omega) (by omega)
    (by omega) (by omega) (by omega) (by omega) (by omega)
  replace hr : 10 * q5.toNat ≤ v.toNat ∧ v.toNat - 10 * q5.toNat ≤ 19 := by
    clear l1 m1 l2 m2 l3 m3 l4 m4 l5 m5; omega
  clear l1 m1 l2 m2 l3 m3 l4 m4 l5 m5 u1 u2 u3 u4
  have b6 : (((q5 <<< 2) + q5) <<< 1).toNat = 10 * q5.toNat := by
    simp only [BitVec.toNat_shiftLeft, BitVec.toNat_add, Nat.shiftLeft_eq]
    omega
  have b7 : (v - (((q5 <<< 2) + q5) <<< 1)).toNat = v.toNat - 10 * q5.toNat := by
    rw [BitVec.toNat_sub, b6]; omega
  generalize v - (((q5 <<< 2) + q5) <<< 1) = r at b7 ⊢
  have b8 : ((r + 6).sshiftRight 4).toNat = (r.toNat + 6) / 16 := by
    have : (r + 6).toNat = r.toNat + 6 := by
      rw [BitVec.toNat_add]; show (r.toNat + 6) % _ = _; omega
    rw [sshr_toNat (by omega), this]; rfl
  generalize (r + 6).sshiftRight 4 = t at b8 ⊢
  have b9 : (((t <<< 2) + t) <<< 1).toNat = 10 * t.toNat := by
    simp only [BitVec.toNat_shiftLeft, BitVec.toNat_add, Nat.shiftLeft_eq]
    omega
  have ht : (r.toNat < 10 ∧ t.toNat = 0 ∧ v.toNat / 10 = q5.toNat ∧ v.toNat % 10 = r.toNat) ∨
      (10 ≤ r.toNat ∧ t.toNat = 1 ∧ v.toNat / 10 = q5.toNat + 1 ∧ v.toNat % 10 = r.toNat - 10) := by
    clear b6 b9
    rcases Nat.lt_or_ge r.toNat 10 with h' | h'
    · left; refine ⟨h', by omega, by omega, by omega⟩
    · right; refine ⟨h', by omega, by omega, by omega⟩
  clear b6 b8
  constructor
  · apply BitVec.eq_of_toNat_eq
    rw [BitVec.toNat_add, BitVec.toNat_ofNat]
    rcases ht with ⟨_, h2, h3, _⟩ | ⟨_, h2, h3, _⟩ <;> rw [h2, h3] <;> rfl
  · apply BitVec.eq_of_toNat_eq
    rw [BitVec.toNat_sub, b9, BitVec.toNat_ofNat]
    rcases ht with ⟨h1, h2, _, h3⟩ | ⟨h1, h2, _, h3⟩ <;> rw [h2, h3] <;> omega

theorem base10Loop_ok (n : Nat) (hn : n < 2 ^ 31) : ∀ fuel done (pb : Pb), done ≤ 10 → 10 - done < fuel →
    Rep 10 n pb (16 - done) → (∀ j, j < 16 - done → pb j = c0) →
    (done = 0 ∨ n / 10 ^ (done - 1) ≠ 0) →
    ∃ pb' d, base10Loop fuel pb (BitVec.ofNat 32 (n / 10 ^ done)) (15 - done) = some (pb', 15 - d) ∧
      d ≤ 10 ∧ n / 10 ^ d = 0 ∧ (d = 0 ∨ n / 10 ^ (d - 1) ≠ 0) ∧ Rep 10 n pb' (16 - d) ∧ ∀ j, j < 16 - d → pb' j = c0 := by
  intro fuel
  induction fuel with
  | zero => intro done _ _ h; omega
  | succ fuel ih =>
    intro done pb hd hf h hz hne
    have hle : n / 10 ^ done ≤ n := Nat.div_le_self _ _
    have ev : (BitVec.ofNat 32 (n / 10 ^ done)).toNat = n / 10 ^ done := by simp; omega
    unfold base10Loop
    by_cases e : n / 10 ^ done = 0
    · rw [if_neg (by rw [e]; decide)]
      exact ⟨pb, done, rfl, hd, e, hne, h, hz⟩
    · rw [if_pos (by
        intro h0
        apply e
        rw [← ev, h0]; rfl)]
      have hd10 : done < 10 := by
        apply Classical.byContradiction
        intro hge
        have : done = 10 := by omega
        subst this
        apply e
        apply Nat.div_eq_of_lt; omega
      obtain ⟨q1, q2⟩ := divTen_ok (v := BitVec.ofNat 32 (n / 10 ^ done)) (by omega)
      rw [ev] at q1 q2
      have eq1 : n / 10 ^ done / 10 = n / 10 ^ (done + 1) := by
        rw [Nat.div_div_eq_div_mul, ← Nat.pow_succ]
      rw [q1, q2, eq1, show 15 - done - 1 = 15 - (done + 1) by omega]
      refine ih (done + 1) _ (by omega) (by omega) ?_ ?_ (Or.inr (by simpa using e))
      · intro j h1 h2
        unfold updPb
        by_cases hj : j = 15 - done
        · rw [if_pos hj, hz _ (by omega)]
          have : 15 - j = done := by omega
          rw [this]
          have hlt : n / 10 ^ done % 10 < 10 := Nat.mod_lt _ (by omega)
          generalize n / 10 ^ done % 10 = d at hlt
          revert d; decide
        · rw [if_neg hj]; exact h j (by omega) h2
      · intro j hj
        unfold updPb
        rw [if_neg (by omega)]; exact hz j (by omega)

/-- sign character of `%d` -/
def sgn (z : Int) : List Byte := if z < 0 then [ascii '-'] else []

theorem digits_two31 : digits 10 2147483648 = intMinText.drop 1 := by
  unfold digits
  iterate 9 rw [Nat.toDigits_of_base_le (by decide) (by decide)]
  rw [Nat.toDigits_of_lt_base (by decide)]
  decide

/-- what `__str_base10` leaves in `pb`: zeros, the sign, the digits -/
theorem str_base10_ok (x : CInt) (fuel : Nat) (hf : 10 < fuel) :
    ∃ pb, str_base10 fuel (fun _ => c0) x = some pb ∧ digLen 10 x.toInt.natAbs ≤ 10 ∧
      Rep 10 x.toInt.natAbs pb (16 - digLen 10 x.toInt.natAbs) ∧
      (x.toInt < 0 → pb (15 - digLen 10 x.toInt.natAbs) = cMinus) ∧
      ∀ j, j < 16 - digLen 10 x.toInt.natAbs - (if x.toInt < 0 then 1 else 0) → pb j = c0 := by
  unfold str_base10
  by_cases hm : x = 0x80000000#32
  · subst hm
    rw [if_pos rfl]
    have hL : digLen 10 2147483648 = 10 := by rw [← digits_length, digits_two31]; rfl
    have e0 : (2147483648#32 : CInt).toInt = -2147483648 := by decide
    have e1 : (2147483648#32 : CInt).toInt.natAbs = 2147483648 := by decide
    refine ⟨_, rfl, ?_⟩
    rw [e1, e0, hL]
    refine ⟨by omega, ?_, fun _ => by decide, ?_⟩
    · intro j h1 h2
      have hj : j = 6 ∨ j = 7 ∨ j = 8 ∨ j = 9 ∨ j = 10 ∨ j = 11 ∨ j = 12 ∨ j = 13 ∨ j = 14 ∨ j = 15 := by omega
      rcases hj with rfl | rfl | rfl | rfl | rfl | rfl | rfl | rfl | rfl | rfl <;> decide
    · intro j hj
      have : j < 5 := by simpa using hj
      simp only
      rw [if_neg (by omega)]
  · rw [if_neg hm]
    simp only
    have habs : ∃ n, x.toInt.natAbs = n ∧ n < 2 ^ 31 ∧ (if x.slt 0 = true then -x else x) = BitVec.ofNat 32 n := by
      refine ⟨_, rfl, ?_, ?_⟩
      · have h1 := @BitVec.toInt_lt 32 x
        have h2 := @BitVec.le_toInt 32 x
        have h3 : x.toInt ≠ -2147483648 := by
          intro he; apply hm; apply BitVec.eq_of_toInt_eq; rw [he]; decide
        omega
      · have hx := x.isLt
        by_cases hs : x.slt 0 = true
        · rw [if_pos hs]
          have : x.toInt < 0 := by simpa using BitVec.slt_iff_toInt_lt.1 hs
          apply BitVec.eq_of_toNat_eq
          rw [BitVec.toInt_eq_toNat_cond] at this ⊢
          split at this
          · omega
          · rw [if_neg (by assumption), BitVec.toNat_neg, BitVec.toNat_ofNat]; omega
        · rw [if_neg hs]
          have : ¬ x.toInt < 0 := fun h => hs (BitVec.slt_iff_toInt_lt.2 (by simpa using h))
          apply BitVec.eq_of_toNat_eq
          rw [BitVec.toInt_eq_toNat_cond] at this ⊢
          split at this
          · rw [if_pos (by assumption), BitVec.toNat_ofNat]; omega
          · omega
    have hsl : x.slt 0 = true ↔ x.toInt < 0 := by rw [BitVec.slt_iff_toInt_lt]; simp
    obtain ⟨n, en, hn, ev⟩ := habs
    rw [ev, en]
    obtain ⟨pb', d, h1, h2, h3, h4, h5, h6⟩ := base10Loop_ok n hn fuel 0 (fun _ => c0) (by omega) (by omega)
      (fun j h1 h2 => by omega) (fun j _ => rfl) (Or.inl rfl)
    simp only [Nat.pow_zero, Nat.div_one, Nat.sub_zero] at h1
    rw [h1]
    simp only
    have hlt : n < 10 ^ d := by
      have := Nat.div_add_mod n (10 ^ d)
      have h7 := Nat.mod_lt n (Nat.pow_pos (n := d) (show 0 < 10 by omega))
      rw [h3] at this; omega
    by_cases hd : d = 0
    · have hn0 : n = 0 := by subst hd; omega
      have hL : digLen 10 n = 1 := by rw [hn0]; decide
      have hnn : ¬ x.slt 0 = true := by
        intro h; have := hsl.1 h; omega
      rw [hL]
      have hx0 : ¬ x.toInt < 0 := fun h => hnn (hsl.2 h)
      rw [if_neg hnn]
      refine ⟨_, rfl, by omega, ?_, fun h => absurd h hx0, ?_⟩
      · intro j hj1 hj2
        have : j = 15 := by omega
        subst this
        rw [h6 15 (by omega), hn0]; decide
      · intro j hj; exact h6 j (by omega)
    · have hL : digLen 10 n = d := by
        have hle := digLen_le (n := n) (k := d) (by omega : 1 < 10) (by omega) hlt
        have hge : 10 ^ (d - 1) ≤ n := by
          apply Classical.byContradiction
          intro h
          rcases h4 with h4 | h4
          · exact hd h4
          · exact h4 (Nat.div_eq_of_lt (by omega))
        have h8 := lt_pow_digLen (b := 10) (n := n) (by omega)
        rcases Nat.lt_or_ge (digLen 10 n) d with h | h
        · have : 10 ^ digLen 10 n ≤ 10 ^ (d - 1) := Nat.pow_le_pow_right (by omega) (by omega)
          omega
        · omega
      rw [hL]
      by_cases hs : x.slt 0 = true
      · rw [if_pos hs]
        have hx := hsl.1 hs
        refine ⟨_, rfl, h2, ?_, ?_, ?_⟩
        · intro j hj1 hj2
          unfold updPb
          rw [if_neg (by omega)]; exact h5 j hj1 hj2
        · intro _; simp [updPb]
        · intro j hj
          rw [if_pos hx] at hj
          unfold updPb
          rw [if_neg (by omega)]; exact h6 j (by omega)
      · rw [if_neg hs]
        have hx : ¬ x.toInt < 0 := fun h => hs (hsl.2 h)
        refine ⟨_, rfl, h2, h5, fun h => absurd h hx, ?_⟩
        intro j hj; exact h6 j (by omega)

/-! ## `__format` -/

/-- text from index `a` on -/
def tailFrom (pb : Pb) (a : Nat) : List Byte := (List.range (16 - a)).map fun k => pb (a + k)

theorem tailFrom_cons (pb : Pb) {a : Nat} (ha : a ≤ 15) : tailFrom pb a = pb a :: tailFrom pb (a + 1) := by
  unfold tailFrom
  rw [show 16 - a = (16 - (a + 1)) + 1 by omega, List.range_succ_eq_map, List.map_cons, List.map_map]
  simp only [Nat.add_zero, List.cons.injEq, true_and]
  apply List.map_congr_left
  intro k _
  simp only [Function.comp]
  congr 1; omega

theorem tailFrom_upd (pb : Pb) {a i : Nat} (v : Byte) (h : i < a) : tailFrom (updPb pb i v) a = tailFrom pb a := by
  unfold tailFrom
  apply List.map_congr_left
  intro k _
  unfold updPb
  rw [if_neg (by omega)]

theorem formatTail_ok {w : CInt} {wi : Int} {pbi : Nat} (hw : w.toInt = wi) (hlo : -2 ≤ wi) (hp : pbi ≤ 16)
    (zp : Bool) (out : List Byte) (pb : Pb) : formatTail zp (out, pb, pbi, w) =
      out ++ List.replicate (wi - (16 - pbi)).toNat (if zp then ascii '0' else ascii ' ') ++ tailFrom pb pbi := by
  have hb := @BitVec.toInt_lt 32 w
  have e : (w - BitVec.ofNat 32 (16 - pbi)).toInt = wi - (16 - pbi) := by
    rw [BitVec.toInt_sub, hw]
    have : (BitVec.ofNat 32 (16 - pbi)).toInt = 16 - pbi := by
      rw [BitVec.toInt_eq_toNat_cond, BitVec.toNat_ofNat, Nat.mod_eq_of_lt (by omega), if_pos (by omega)]
      omega
    rw [this, Int.bmod_def]
    split <;> omega
  have key : (if (w - BitVec.ofNat 32 (16 - pbi)).slt 0 = true then (0 : CInt) else w - BitVec.ofNat 32 (16 - pbi)).toNat
      = (wi - (16 - pbi)).toNat := by
    by_cases h : (w - BitVec.ofNat 32 (16 - pbi)).slt 0 = true
    · rw [if_pos h]
      have h := BitVec.slt_iff_toInt_lt.1 h
      rw [e] at h
      simp at h
      show 0 = _
      omega
    · rw [if_neg h]
      have h : ¬ (w - BitVec.ofNat 32 (16 - pbi)).toInt < 0 :=
        fun h' => h (BitVec.slt_iff_toInt_lt.2 (by simpa using h'))
      rw [e] at h
      rw [BitVec.toInt_eq_toNat_cond] at e
      split at e <;> omega
  unfold formatTail
  simp only
  rw [key]
  rfl

theorem sub_toInt {w : CInt} (hw : 0 ≤ w.toInt) (k : Nat) (hk : k ≤ 2) : (w - BitVec.ofNat 32 k).toInt = w.toInt - k := by
  have hb := @BitVec.toInt_lt 32 w
  rw [BitVec.toInt_sub]
  have : (BitVec.ofNat 32 k).toInt = k := by
    rw [BitVec.toInt_eq_toNat_cond, BitVec.toNat_ofNat, Nat.mod_eq_of_lt (by omega), if_pos (by omega)]
  rw [this, Int.bmod_def]
  split <;> omega

theorem ne_zero_toInt {w : CInt} : w ≠ 0 ↔ w.toInt ≠ 0 := by
  constructor
  · intro h h'; exact h (BitVec.eq_of_toInt_eq (by rw [h']; rfl))
  · rintro h rfl; exact h rfl

theorem width_toNat {w : CInt} (h : 0 ≤ w.toInt) : w.toInt = (w.toInt.toNat : Int) := by omega

/-- prefix of `%#o` and `%#x` -/
def basePrefix (base n : Nat) (alt : Bool) : List Byte :=
  if alt = true ∧ n ≠ 0 then (if base = 8 then [ascii '0'] else if base = 16 then [ascii '0', ascii 'x'] else []) else []

theorem skip_of_rep {b n : Nat} {pb : Pb} (hb : 1 < b) (hb' : b ≤ 16) (h : Rep b n pb 0) (hL : digLen b n ≤ 16) :
    skipZeros pb 16 0 = 16 - digLen b n := by
  have hp := digLen_pos b n
  apply skipZeros_ok (by omega) ?_ 16 0 (by omega) (by omega) (fun j _ hj => h.zero hb hb' (by omega) hj)
  by_cases hn : n = 0
  · right
    have : digLen b n = 1 := by rw [hn]; unfold digLen; rw [Nat.toDigits_zero]; rfl
    omega
  · left; exact h.nonzero hb hb' hn hL (by omega)

theorem rep_lead {b n : Nat} {pb : Pb} (hb : 1 < b) (hb' : b ≤ 16) (h : Rep b n pb 0) (hL : digLen b n ≤ 16) :
    pb (16 - digLen b n) ≠ c0 ↔ n ≠ 0 := by
  constructor
  · intro h1 h2
    apply h1
    have hl : digLen b n = 1 := by rw [h2]; unfold digLen; rw [Nat.toDigits_zero]; rfl
    rw [hl, h 15 (by omega) (by omega), h2]
    simp; decide
  · intro hn; exact h.nonzero hb hb' hn hL (by omega)

theorem tail_of_rep {b n : Nat} {pb : Pb} {lo : Nat} (hb : 1 < b) (h : Rep b n pb lo) (hL : digLen b n ≤ 16)
    (hlo : lo ≤ 16 - digLen b n) : tailFrom pb (16 - digLen b n) = digits b n := by
  have := h.text hb hL hlo
  unfold tailFrom
  rwa [show 16 - (16 - digLen b n) = digLen b n by omega]

/-- **C36, C37 (octal).** For every value, width and flags, `%o` produces the octal digits of the unsigned value with
the prefix of `#`, in a field of the given width. -/
theorem C37_octal (val width : CInt) (hw : 0 ≤ width.toInt) (zp alt : Bool) (fuel : Nat) :
    format fuel val width zp 8 alt =
      some (field width.toInt.toNat zp (basePrefix 8 val.toNat alt) (digits 8 val.toNat)) := by
  have hrep := str_base8_ok val
  have hx := val.isLt
  have hL : digLen 8 val.toNat ≤ 11 := digLen_le (by omega) (by omega) (by
    have : (8 : Nat) ^ 11 = 8589934592 := by decide
    omega)
  have hskip := skip_of_rep (by omega) (by omega) hrep (by omega)
  have hlead := rep_lead (by omega) (by omega) hrep (by omega)
  have htail := tail_of_rep (by omega) hrep (by omega) (by omega)
  have hLen := digits_length 8 val.toNat
  have hpos := digLen_pos 8 val.toNat
  have hw0 := @ne_zero_toInt width
  unfold format
  simp only [if_true]
  rw [hskip]
  generalize str_base8 (fun _ => c0) val = pb at *
  generalize digLen 8 val.toNat = L at *
  generalize digits 8 val.toNat = D at *
  congr 1
  unfold formatPrefix field
  simp only [if_true]
  by_cases ha : alt = true
  · by_cases hn : val.toNat ≠ 0
    · have hl := hlead.2 hn
      have HP : basePrefix 8 val.toNat alt = [ascii '0'] := by unfold basePrefix; rw [if_pos ⟨ha, hn⟩]; rfl
      rw [if_pos ha, HP]
      by_cases hz : width ≠ 0 ∧ zp = true
      · rw [if_pos ⟨hz.1, hz.2, hl⟩, formatTail_ok (sub_toInt hw 1 (by omega)) (by omega) (by omega), htail, hz.2]
        simp only [if_true]
        have : (width.toInt - (1 : Nat) - (16 - ((16 - L : Nat) : Int))).toNat = width.toInt.toNat - ([ascii '0'].length + D.length) := by
          simp; omega
        rw [this]; rfl
      · rw [if_neg (fun h => hz ⟨h.1, h.2.1⟩), if_pos hl, formatTail_ok rfl (by omega) (by omega),
          tailFrom_cons _ (by omega), tailFrom_upd _ _ (by omega), show 16 - L - 1 + 1 = 16 - L by omega, htail]
        have : (width.toInt - (16 - ((16 - L - 1 : Nat) : Int))).toNat = width.toInt.toNat - ([ascii '0'].length + D.length) := by
          simp; omega
        rw [this]
        by_cases hzp : zp = true
        · have : width.toInt = 0 := Classical.byContradiction fun h => hz ⟨hw0.2 h, hzp⟩
          rw [this, hzp]; simp [updPb]; rfl
        · rw [if_neg hzp, if_neg hzp]; simp [updPb]; rfl
    · have hl : ¬ pb (16 - L) ≠ c0 := fun h => hn (hlead.1 h)
      have HP : basePrefix 8 val.toNat alt = [] := by unfold basePrefix; rw [if_neg (fun h => hn h.2)]
      rw [if_pos ha, if_neg (fun h => hl h.2.2), if_neg hl, HP,
        formatTail_ok rfl (by omega) (by omega), htail]
      have : (width.toInt - (16 - ((16 - L : Nat) : Int))).toNat = width.toInt.toNat - (([] : List Byte).length + D.length) := by
        simp; omega
      rw [this]
      cases zp <;> simp
  · have HP : basePrefix 8 val.toNat alt = [] := by unfold basePrefix; rw [if_neg (fun h => ha h.1)]
    rw [if_neg ha, HP, formatTail_ok rfl (by omega) (by omega), htail]
    have : (width.toInt - (16 - ((16 - L : Nat) : Int))).toNat = width.toInt.toNat - (([] : List Byte).length + D.length) := by
      simp; omega
    rw [this]
    cases zp <;> simp

/-- **C36, C37 (hexadecimal).** -/
theorem C37_hex (val width : CInt) (hw : 0 ≤ width.toInt) (zp alt : Bool) (fuel : Nat) :
    format fuel val width zp 16 alt =
      some (field width.toInt.toNat zp (basePrefix 16 val.toNat alt) (digits 16 val.toNat)) := by
  have hrep := str_base16_ok val
  have hx := val.isLt
  have hL : digLen 16 val.toNat ≤ 8 := digLen_le (by omega) (by omega) (by
    have : (16 : Nat) ^ 8 = 4294967296 := by decide
    omega)
  have hskip := skip_of_rep (by omega) (by omega) hrep (by omega)
  have hlead := rep_lead (by omega) (by omega) hrep (by omega)
  have htail := tail_of_rep (by omega) hrep (by omega) (by omega)
  have hLen := digits_length 16 val.toNat
  have hpos := digLen_pos 16 val.toNat
  have hw0 := @ne_zero_toInt width
  unfold format
  simp only [if_true, show ¬ (16 = 8) by omega, show ¬ (16 = 10) by omega, if_false]
  rw [hskip]
  generalize str_base16 (fun _ => c0) val = pb at *
  generalize digLen 16 val.toNat = L at *
  generalize digits 16 val.toNat = D at *
  congr 1
  unfold formatPrefix field
  simp only [if_true, show ¬ (16 = 8) by omega, show ¬ (16 = 10) by omega, if_false]
  by_cases ha : alt = true
  · by_cases hn : val.toNat ≠ 0
    · have hl := hlead.2 hn
      have HP : basePrefix 16 val.toNat alt = [ascii '0', ascii 'x'] := by unfold basePrefix; rw [if_pos ⟨ha, hn⟩]; rfl
      rw [if_pos ha, HP]
      by_cases hz : width ≠ 0 ∧ zp = true
      · rw [if_pos ⟨hz.1, hz.2, hl⟩, formatTail_ok (sub_toInt hw 2 (by omega)) (by omega) (by omega), htail, hz.2]
        simp only [if_true]
        have : (width.toInt - (2 : Nat) - (16 - ((16 - L : Nat) : Int))).toNat =
            width.toInt.toNat - ([ascii '0', ascii 'x'].length + D.length) := by
          simp; omega
        rw [this]; rfl
      · rw [if_neg (fun h => hz ⟨h.1, h.2.1⟩), if_pos hl, formatTail_ok rfl (by omega) (by omega),
          tailFrom_cons _ (by omega), tailFrom_cons _ (by omega), tailFrom_upd _ _ (by omega), tailFrom_upd _ _ (by omega),
          show 16 - L - 2 + 1 + 1 = 16 - L by omega, htail]
        have : (width.toInt - (16 - ((16 - L - 2 : Nat) : Int))).toNat =
            width.toInt.toNat - ([ascii '0', ascii 'x'].length + D.length) := by
          simp; omega
        rw [this]
        have hu1 : updPb (updPb pb (16 - L - 1) cx) (16 - L - 2) c0 (16 - L - 2) = ascii '0' := by simp [updPb]; rfl
        have hu2 : updPb (updPb pb (16 - L - 1) cx) (16 - L - 2) c0 (16 - L - 2 + 1) = ascii 'x' := by
          unfold updPb
          rw [if_neg (by omega), if_pos (by omega)]; rfl
        rw [hu1, hu2]
        by_cases hzp : zp = true
        · have : width.toInt = 0 := Classical.byContradiction fun h => hz ⟨hw0.2 h, hzp⟩
          rw [this, hzp]; simp
        · rw [if_neg hzp, if_neg hzp]; simp
    · have hl : ¬ pb (16 - L) ≠ c0 := fun h => hn (hlead.1 h)
      have HP : basePrefix 16 val.toNat alt = [] := by unfold basePrefix; rw [if_neg (fun h => hn h.2)]
      rw [if_pos ha, if_neg (fun h => hl h.2.2), if_neg hl, HP,
        formatTail_ok rfl (by omega) (by omega), htail]
      have : (width.toInt - (16 - ((16 - L : Nat) : Int))).toNat = width.toInt.toNat - (([] : List Byte).length + D.length) := by
        simp; omega
      rw [this]
      cases zp <;> simp
  · have HP : basePrefix 16 val.toNat alt = [] := by unfold basePrefix; rw [if_neg (fun h => ha h.1)]
    rw [if_neg ha, HP, formatTail_ok rfl (by omega) (by omega), htail]
    have : (width.toInt - (16 - ((16 - L : Nat) : Int))).toNat = width.toInt.toNat - (([] : List Byte).length + D.length) := by
      simp; omega
    rw [this]
    cases zp <;> simp

/-- **C35, C37 (decimal).** For every value, width and flag, `%d` produces the decimal text of the signed value in a
field of the given width. -/
theorem C37_decimal (val width : CInt) (hw : 0 ≤ width.toInt) (zp alt : Bool) (fuel : Nat) (hf : 10 < fuel) :
    format fuel val width zp 10 alt =
      some (field width.toInt.toNat zp (sgn val.toInt) (digits 10 val.toInt.natAbs)) := by
  obtain ⟨pb, h1, hL, hrep, hminus, hzero⟩ := str_base10_ok val fuel hf
  have hpos := digLen_pos 10 val.toInt.natAbs
  have hnz : val.toInt < 0 → val.toInt.natAbs ≠ 0 := fun h => by omega
  have htail := tail_of_rep (by omega) hrep (by omega) (Nat.le_refl _)
  have hLen := digits_length 10 val.toInt.natAbs
  have hw0 := @ne_zero_toInt width
  have hlead : ¬ val.toInt < 0 → val.toInt.natAbs ≠ 0 → pb (16 - digLen 10 val.toInt.natAbs) ≠ c0 :=
    fun _ h => hrep.nonzero (by omega) (by omega) h (by omega) (Nat.le_refl _)
  have hL0 : val.toInt.natAbs = 0 → digLen 10 val.toInt.natAbs = 1 := by
    intro h; rw [h]; unfold digLen; rw [Nat.toDigits_zero]; rfl
  have hnm : pb (16 - digLen 10 val.toInt.natAbs) ≠ cMinus := by
    rw [hrep _ (Nat.le_refl _) (by omega)]
    exact digitChar_minus _ (by have := Nat.mod_lt (val.toInt.natAbs / 10 ^ (15 - (16 - digLen 10 val.toInt.natAbs))) (show 10 > 0 by omega); omega)
  unfold format
  simp only [if_true, show ¬ (10 = 8) by omega, if_false]
  rw [h1]
  simp only
  generalize digLen 10 val.toInt.natAbs = L at *
  generalize digits 10 val.toInt.natAbs = D at *
  congr 1
  by_cases hneg : val.toInt < 0
  · have hskip : skipZeros pb 16 0 = 15 - L := by
      refine skipZeros_ok (by omega) (Or.inl ?_) 16 0 (by omega) (by omega) ?_
      · rw [hminus hneg]; decide
      · intro j _ hj; apply hzero; rw [if_pos hneg]; omega
    rw [hskip]
    unfold formatPrefix field sgn
    simp only [show ¬ (10 = 8) by omega, if_false, if_true]
    rw [if_pos hneg, hminus hneg]
    by_cases hz : width ≠ 0 ∧ zp = true
    · rw [if_pos ⟨hz.1, hz.2, rfl⟩, formatTail_ok (sub_toInt hw 1 (by omega)) (by omega) (by omega),
        show 15 - L + 1 = 16 - L by omega, htail, hz.2]
      simp only [if_true]
      have : (width.toInt - (1 : Nat) - (16 - ((16 - L : Nat) : Int))).toNat = width.toInt.toNat - ([ascii '-'].length + D.length) := by
        simp; omega
      rw [this]; rfl
    · rw [if_neg (fun h => hz ⟨h.1, h.2.1⟩), formatTail_ok rfl (by omega) (by omega),
        tailFrom_cons _ (by omega), show 15 - L + 1 = 16 - L by omega, htail, hminus hneg]
      have : (width.toInt - (16 - ((15 - L : Nat) : Int))).toNat = width.toInt.toNat - ([ascii '-'].length + D.length) := by
        simp; omega
      rw [this]
      by_cases hzp : zp = true
      · have : width.toInt = 0 := Classical.byContradiction fun h => hz ⟨hw0.2 h, hzp⟩
        rw [this, hzp]; simp; rfl
      · rw [if_neg hzp, if_neg hzp]; simp; rfl
  · have hskip : skipZeros pb 16 0 = 16 - L := by
      refine skipZeros_ok (by omega) ?_ 16 0 (by omega) (by omega) ?_
      · by_cases hz : val.toInt.natAbs = 0
        · right; have := hL0 hz; omega
        · left; exact hlead hneg hz
      · intro j _ hj; apply hzero; rw [if_neg hneg]; omega
    rw [hskip]
    unfold formatPrefix field sgn
    simp only [show ¬ (10 = 8) by omega, if_false, if_true]
    rw [if_neg hneg, if_neg (fun h => hnm h.2.2), formatTail_ok rfl (by omega) (by omega), htail]
    have : (width.toInt - (16 - ((16 - L : Nat) : Int))).toNat = width.toInt.toNat - (([] : List Byte).length + D.length) := by
      simp; omega
    rw [this]
    cases zp <;> simp

/-- **C35.** Plain `%d`: the decimal text of every `int`, including the most negative one. -/
theorem C35_decimal (val : CInt) (fuel : Nat) (hf : 10 < fuel) :
    format fuel val 0 false 10 false = some (decimal val.toInt) := by
  rw [C37_decimal val 0 (by decide) false false fuel hf]
  congr 1
  unfold field decimal sgn
  split <;> simp

/-- **C35.** The shift-and-add division by ten of the conversion is exact for every non-negative `int`. -/
theorem C35_div_ten (v : CInt) (h : 0 ≤ v.toInt) :
    (divTen v).1.toInt = v.toInt / 10 ∧ (divTen v).2.toInt = v.toInt % 10 := by
  have hv : v.toNat < 2 ^ 31 := by rw [BitVec.toInt_eq_toNat_cond] at h; split at h <;> omega
  have e : v.toInt = v.toNat := by rw [BitVec.toInt_eq_toNat_cond, if_pos (by omega)]
  obtain ⟨h1, h2⟩ := divTen_ok hv
  rw [h1, h2, e]
  constructor
  · rw [BitVec.toInt_eq_toNat_cond, BitVec.toNat_ofNat, Nat.mod_eq_of_lt (by omega), if_pos (by omega)]; omega
  · rw [BitVec.toInt_eq_toNat_cond, BitVec.toNat_ofNat, Nat.mod_eq_of_lt (by omega), if_pos (by omega)]; omega

/-- **C36.** Plain `%x` and `%o`: the digits of the value read as unsigned. -/
theorem C36_hex_octal (val : CInt) (fuel : Nat) :
    format fuel val 0 false 16 false = some (digits 16 val.toNat) ∧
    format fuel val 0 false 8 false = some (digits 8 val.toNat) := by
  rw [C37_hex val 0 (by decide) false false fuel, C37_octal val 0 (by decide) false false fuel]
  simp [field, basePrefix]

/-- **C37.** The field is exactly as long as the longer of width and text. -/
theorem C37_length (w : Nat) (zp : Bool) (sign body : List Byte) :
    (field w zp sign body).length = max w (sign.length + body.length) := by
  unfold field
  cases zp <;> simp <;> omega

example : format 20 (-42) 6 true 10 false = some [45#8, 48#8, 48#8, 48#8, 52#8, 50#8] := by decide
example : format 20 255 0 false 16 true = some [48#8, 120#8, 102#8, 102#8] := by decide

end Shecc.Props
