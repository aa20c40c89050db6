import Verif.Props.LibcFmt
import Verif.Spec.CPrintf

/-!
# C38, C64: formatted output
-/

namespace Shecc.Props
open Shecc.Libc
open Shecc.Text hiding Byte

/-- the bytes `l` are at `p` -/
def At (m : Mem) (p : Nat) (l : List Byte) : Prop := ∀ i (h : i < l.length), m (p + i) = l[i]

theorem At.cons {m : Mem} {p : Nat} {c : Byte} {l : List Byte} (h : At m p (c :: l)) : m p = c ∧ At m (p + 1) l := by
  constructor
  · exact h 0 (Nat.succ_pos _)
  · intro i hi
    have := h (i + 1) (by simpa using hi)
    rw [show p + 1 + i = p + (i + 1) by omega, this]; simp

theorem At.append {m : Mem} {p : Nat} {l r : List Byte} (h : At m p (l ++ r)) : At m p l ∧ At m (p + l.length) r := by
  induction l generalizing p with
  | nil => exact ⟨fun i hi => by simp at hi, by simpa using h⟩
  | cons c l ih =>
    obtain ⟨h1, h2⟩ := At.cons h
    obtain ⟨h3, h4⟩ := ih h2
    constructor
    · intro i hi
      cases i with
      | zero => simpa using h1
      | succ i =>
        have := h3 i (by simpa using hi)
        rw [show p + (i + 1) = p + 1 + i by omega, this]; simp
    · rwa [show p + (c :: l).length = p + 1 + l.length by simp; omega]

/-! ## widths -/

/-- the number a list of digit characters stands for, after `acc` -/
def readDigits (acc : Nat) (l : List Byte) : Nat := l.foldl (fun a c => a * 10 + (c.toNat - 48)) acc

theorem widthLoop_ok {m : Mem} : ∀ (l : List Byte) (si acc : Nat) (fuel : Nat), (∀ c ∈ l, isDig 48 c) → At m si l →
    ¬ isDig 48 (m (si + l.length)) → l.length < fuel →
    widthLoop m fuel si (BitVec.ofNat 32 acc) = some (si + l.length, BitVec.ofNat 32 (readDigits acc l)) := by
  intro l
  induction l with
  | nil =>
    intro si acc fuel _ _ hn hf
    obtain ⟨f, rfl⟩ : ∃ f, fuel = f + 1 := ⟨fuel - 1, by simp at hf; omega⟩
    unfold widthLoop
    rw [if_neg (by simpa using hn)]; rfl
  | cons c l ih =>
    intro si acc fuel hd hat hn hf
    simp at hf
    obtain ⟨f, rfl⟩ : ∃ f, fuel = f + 1 := ⟨fuel - 1, by omega⟩
    obtain ⟨h1, h2⟩ := hat.cons
    unfold widthLoop
    have hc : isDig 48 c := hd c (by simp)
    rw [h1, if_pos hc]
    have e : BitVec.ofNat 32 acc * 10 + (c.setWidth 32 - 48) = BitVec.ofNat 32 (acc * 10 + (c.toNat - 48)) := by
      obtain ⟨hc1, hc2⟩ := hc
      have e1 : c.setWidth 32 - 48 = BitVec.ofNat 32 (c.toNat - 48) := by
        apply BitVec.eq_of_toNat_eq
        rw [BitVec.toNat_sub, BitVec.toNat_setWidth, BitVec.toNat_ofNat]
        have : BitVec.toNat (48 : BitVec 32) = 48 := rfl
        rw [this]; omega
      rw [e1]
      apply BitVec.eq_of_toNat_eq
      simp [BitVec.toNat_add, BitVec.toNat_mul]
    rw [e, ih (si + 1) _ f (fun c hc => hd c (by simp [hc])) h2 (by
      rwa [show si + 1 + l.length = si + (c :: l).length by simp; omega]) (by omega)]
    simp [readDigits]
    omega

theorem ascii_digit {c : Char} (h : c.isDigit = true) : isDig 48 (ascii c) ∧ (ascii c).toNat - 48 = c.toNat - 48 := by
  have h1 : 48 ≤ c.toNat ∧ c.toNat ≤ 57 := by
    simp [Char.isDigit] at h
    exact ⟨by simpa using UInt32.le_iff_toNat_le.1 h.1, by simpa using UInt32.le_iff_toNat_le.1 h.2⟩
  have h2 : (ascii c).toNat = c.toNat := by simp [ascii]; omega
  unfold isDig
  rw [h2]; exact ⟨h1, rfl⟩

theorem readDigits_ascii : ∀ (l : List Char) acc, (∀ c ∈ l, c.isDigit = true) →
    readDigits acc (l.map ascii) = Nat.ofDigitChars 10 l acc := by
  intro l
  induction l with
  | nil => intro acc _; simp [readDigits, Nat.ofDigitChars]
  | cons c l ih =>
    intro acc h
    have hc := ascii_digit (h c (by simp))
    have := ih (acc * 10 + ((ascii c).toNat - 48)) (fun c hc => h c (by simp [hc]))
    unfold readDigits at this ⊢
    rw [List.map_cons, List.foldl_cons, this, hc.2]
    simp [Nat.ofDigitChars, Nat.mul_comm]

theorem digits_isDig (n : Nat) : ∀ c ∈ digits 10 n, isDig 48 c := by
  intro c hc
  obtain ⟨d, hd, rfl⟩ := List.mem_map.1 hc
  exact (ascii_digit (Nat.isDigit_of_mem_toDigits (by omega) (by omega) hd)).1

theorem readDigits_digits (n : Nat) : readDigits 0 (digits 10 n) = n := by
  unfold digits
  rw [readDigits_ascii _ _ (fun c hc => Nat.isDigit_of_mem_toDigits (by omega) (by omega) hc)]
  exact Nat.ofDigitChars_ten_toDigits

/-- a positive numeral does not start with 0 -/
theorem digits_head {n : Nat} (hn : n ≠ 0) : ∃ c l, digits 10 n = c :: l ∧ isDig 49 c ∧ c ≠ 48#8 := by
  have hp := digLen_pos 10 n
  have hlen := digits_length 10 n
  cases h : digits 10 n with
  | nil => rw [h] at hlen; simp at hlen; omega
  | cons c l =>
    refine ⟨c, l, rfl, ?_⟩
    have hc : c = (digits 10 n)[0]'(by omega) := by simp [h]
    have hd : (digits 10 n)[0]'(by omega) = ascii (Nat.digitChar (n / 10 ^ (digLen 10 n - 1) % 10)) := by
      simp only [digits, List.getElem_map]
      rw [toDigits_getElem (by omega) n 0 Nat.length_toDigits_pos]
      rfl
    have h1 := lt_pow_digLen (b := 10) (n := n) (by omega)
    have h2 := pow_le_of_digLen (b := 10) (by omega) hn
    have h3 : n / 10 ^ (digLen 10 n - 1) < 10 := by
      apply Nat.div_lt_of_lt_mul
      rw [← Nat.pow_succ]
      rwa [show (digLen 10 n - 1).succ = digLen 10 n by omega]
    have h4 : 1 ≤ n / 10 ^ (digLen 10 n - 1) := by
      apply (Nat.le_div_iff_mul_le (Nat.pow_pos (by omega))).2; omega
    rw [hc, hd, Nat.mod_eq_of_lt h3]
    generalize n / 10 ^ (digLen 10 n - 1) = d at h3 h4
    have : d = 1 ∨ d = 2 ∨ d = 3 ∨ d = 4 ∨ d = 5 ∨ d = 6 ∨ d = 7 ∨ d = 8 ∨ d = 9 := by omega
    rcases this with rfl | rfl | rfl | rfl | rfl | rfl | rfl | rfl | rfl <;> decide

theorem parseSpec_ok {m : Mem} {si : Nat} {a z : Bool} {w : Nat} {c : Byte} (hc : ¬ isDig 48 c) (hc' : c ≠ 35#8)
    (hat : At m si (flag a '#' ++ flag z '0' ++ widthText w ++ [c])) (fuel : Nat) (hf : w + 1 < fuel) :
    parseSpec fuel m si = some (si + (flag a '#' ++ flag z '0' ++ widthText w).length, BitVec.ofNat 32 w, z, a) := by
  obtain ⟨hat, hcm⟩ := hat.append
  have hcm := hcm.cons.1
  obtain ⟨hat, hw⟩ := hat.append
  obtain ⟨hfa, hfz⟩ := hat.append
  have hc48 : c ≠ 48#8 := by rintro rfl; exact hc (by decide)
  -- the character after the flags
  have hnext : (w = 0 ∧ m (si + (flag a '#' ++ flag z '0').length) = c) ∨
      (w ≠ 0 ∧ ∃ d l, digits 10 w = d :: l ∧ isDig 49 d ∧ d ≠ 48#8 ∧ m (si + (flag a '#' ++ flag z '0').length) = d) := by
    by_cases h0 : w = 0
    · left; refine ⟨h0, ?_⟩
      simpa [widthText, h0] using hcm
    · right; refine ⟨h0, ?_⟩
      obtain ⟨d, l, h1, h2, h3⟩ := digits_head h0
      refine ⟨d, l, h1, h2, h3, ?_⟩
      rw [widthText, if_neg h0, h1] at hw
      exact hw.cons.1
  have hn35 : m (si + (flag a '#' ++ flag z '0').length) ≠ 35#8 ∧ m (si + (flag a '#' ++ flag z '0').length) ≠ 48#8 := by
    rcases hnext with ⟨_, h⟩ | ⟨_, d, l, _, h2, h3, h⟩
    · rw [h]; exact ⟨hc', hc48⟩
    · rw [h]; refine ⟨?_, h3⟩
      rintro rfl; revert h2; decide
  have e1 : decide (m si = 35#8) = a := by
    cases a with
    | true => exact decide_eq_true hfa.cons.1
    | false =>
      apply decide_eq_false
      cases z with
      | true =>
        have : m si = ascii '0' := by simpa [flag] using hfz.cons.1
        rw [this]; decide
      | false => simpa [flag] using hn35.1
  unfold parseSpec
  simp only
  rw [e1]
  have e2 : (if a = true then si + 1 else si) = si + (flag a '#').length := by cases a <;> simp [flag]
  rw [e2]
  have e3 : decide (m (si + (flag a '#').length) = 48#8) = z := by
    cases z with
    | true => exact decide_eq_true (hfz.cons.1)
    | false => exact decide_eq_false (by simpa [flag] using hn35.2)
  rw [e3]
  have e4 : (if z = true then si + (flag a '#').length + 1 else si + (flag a '#').length) =
      si + (flag a '#' ++ flag z '0').length := by
    cases z <;> simp [flag]
    · omega
  rw [e4]
  rcases hnext with ⟨h0, h⟩ | ⟨h0, d, l, h1, h2, h3, h⟩
  · rw [if_neg (by rw [h]; intro hd; exact hc ⟨by have := hd.1; omega, hd.2⟩)]
    simp [widthText, h0]
  · rw [if_pos (by rw [h]; exact h2), h]
    have hwt : widthText w = d :: l := by rw [widthText, if_neg h0, h1]
    rw [hwt] at hw hcm
    have hdl : ∀ x ∈ l, isDig 48 x := fun x hx => digits_isDig w x (by rw [h1]; simp [hx])
    have hlen : (digits 10 w).length ≤ w + 1 := by
      rw [digits_length]
      apply digLen_le (by omega) (by omega)
      have : w < 2 ^ w := Nat.lt_two_pow_self
      have h10 : 2 ^ w ≤ 10 ^ w := Nat.pow_le_pow_left (by omega) w
      have h11 : 10 ^ w ≤ 10 ^ (w + 1) := Nat.pow_le_pow_right (by omega) (by omega)
      omega
    rw [h1] at hlen
    simp at hlen
    have e5 : d.setWidth 32 - 48 = BitVec.ofNat 32 (d.toNat - 48) := by
      apply BitVec.eq_of_toNat_eq
      rw [BitVec.toNat_sub, BitVec.toNat_setWidth, BitVec.toNat_ofNat]
      have : BitVec.toNat (48 : BitVec 32) = 48 := rfl
      rw [this]
      obtain ⟨ha, hb⟩ := h2
      omega
    rw [e5, widthLoop_ok l _ _ fuel hdl hw.cons.2 (by
      have : si + (flag a '#' ++ flag z '0').length + 1 + l.length = si + (flag a '#' ++ flag z '0' ++ (d :: l)).length := by
        simp; omega
      rw [this, hcm]; exact hc) (by omega)]
    have hr : readDigits (d.toNat - 48) l = w := by
      have := readDigits_digits w
      rw [h1] at this
      simpa [readDigits] using this
    rw [hr, hwt]
    simp
    omega

/-! ## one piece -/

theorem ofNat_toInt {w : Nat} (h : w < 2 ^ 31) : (BitVec.ofNat 32 w).toInt = w := by
  rw [BitVec.toInt_eq_toNat_cond, BitVec.toNat_ofNat, Nat.mod_eq_of_lt (by omega), if_pos (by omega)]

theorem toNat_ne_zero (v : BitVec 32) : v.toNat ≠ 0 ↔ v ≠ 0 := by
  constructor
  · rintro h rfl; exact h rfl
  · intro h h'; exact h (BitVec.eq_of_toNat_eq (by rw [h']; rfl))

/-- what one piece appends -/
structure PieceOut (p : Piece) (v : BitVec 32) (s : List Byte) (size : Int) (done : Nat) (t : List Byte) : Prop where
  pre : t <+: p.text v s
  full : t = p.text v s ∨ (done : Int) + t.length = size
  room : p.isInt = false → (done : Int) + t.length ≤ size

theorem fmtLoop_int {m : Mem} {args : Nat → CInt} {size : Int} {si pi : Nat} {out : List Byte}
    (hroom : (out.length : Int) < size - 1) {a z : Bool} {w : Nat} {c : Byte} (hc : ¬ isDig 48 c) (hc' : c ≠ 35#8)
    (hp : c ≠ 37#8) (hat : At m si (ascii '%' :: (flag a '#' ++ flag z '0' ++ widthText w ++ [c]))) (fuel : Nat)
    (hf : w + 1 < fuel) {t : List Byte}
    (hconv : conv fuel m c (args pi) (BitVec.ofNat 32 w) z a (size - out.length) = some t) :
    fmtLoop m args size (fuel + 1) si out pi =
      fmtLoop m args size fuel (si + (ascii '%' :: (flag a '#' ++ flag z '0' ++ widthText w ++ [c])).length) (out ++ t) (pi + 1) := by
  obtain ⟨h1, h2⟩ := hat.cons
  have hm := h2.append.2.cons.1
  rw [fmtLoop]
  rw [if_pos ⟨by rw [h1]; decide, hroom⟩, if_neg (by rw [h1]; decide), parseSpec_ok hc hc' h2 fuel hf]
  simp only
  rw [hm, if_neg hp, hconv]
  simp only
  congr 1
  simp
  omega

theorem piece_step {m : Mem} {args : Nat → CInt} {size : Int} {si pi : Nat} {out : List Byte} {p : Piece} (hwf : p.wf)
    (hat : At m si p.source) (hroom : (out.length : Int) < size - 1) {s : List Byte}
    (hs : p = .str → CStrAt m (args pi).toNat s) :
    ∃ N t, (∀ fuel, N ≤ fuel → fmtLoop m args size (fuel + 1) si out pi =
      fmtLoop m args size fuel (si + p.source.length) (out ++ t) (pi + p.arity)) ∧
      PieceOut p (args pi) s size out.length t := by
  cases p with
  | lit c =>
    obtain ⟨h1, _⟩ := At.cons hat
    refine ⟨0, [c], ?_, ⟨List.prefix_refl _, Or.inl rfl, fun _ => by simp; omega⟩⟩
    intro fuel _
    rw [fmtLoop, if_pos ⟨by rw [h1]; exact hwf.1, hroom⟩, if_pos (by rw [h1]; exact hwf.2), h1]
    rfl
  | percent =>
    refine ⟨2, [ascii '%'], ?_, ⟨List.prefix_refl _, Or.inl rfl, fun _ => by simp; omega⟩⟩
    intro fuel hf
    have hat' : At m (si + 1) (flag false '#' ++ flag false '0' ++ widthText 0 ++ [37#8]) := hat.cons.2
    rw [fmtLoop, if_pos ⟨by rw [hat.cons.1]; decide, hroom⟩, if_neg (by rw [hat.cons.1]; decide),
      parseSpec_ok (by decide) (by decide) hat' fuel (by omega)]
    simp only
    have : m (si + 1 + (flag false '#' ++ flag false '0' ++ widthText 0).length) = 37#8 := hat.cons.2.cons.1
    rw [this, if_pos rfl]
    rfl
  | str =>
    have hs := hs rfl
    refine ⟨s.length + 2, if Int.ofNat s.length < size - out.length then s else s.take (size - out.length).toNat, ?_, ?_⟩
    · intro fuel hf
      have hat' : At m si (ascii '%' :: (flag false '#' ++ flag false '0' ++ widthText 0 ++ [115#8])) := hat
      refine fmtLoop_int hroom (by decide) (by decide) (by decide) hat' fuel (by omega) ?_
      unfold conv
      rw [if_pos rfl, C33_strlen hs fuel (by omega)]
      simp only [Option.map_some]
      congr 1
      have key : ∀ n, n ≤ s.length → (List.range n).map (fun i => m ((args pi).toNat + i)) = s.take n := by
        intro n hn
        apply List.ext_getElem
        · simp; omega
        · intro i h1 h2
          simp at h1 h2
          simp [hs.2.1 i (by omega)]
      split
      · rw [key _ (Nat.le_refl _), List.take_length]
      · rename_i h
        rw [key _ (by simp at h; omega)]
    · split
      · rename_i h
        refine ⟨List.prefix_refl _, Or.inl rfl, fun _ => ?_⟩
        simp at h; omega
      · rename_i h
        simp at h
        have : (s.take (size - out.length).toNat).length = (size - out.length).toNat := by simp; omega
        refine ⟨List.take_prefix _ _, Or.inr ?_, fun _ => ?_⟩
        · rw [this]; omega
        · rw [this]; omega
  | chr =>
    refine ⟨2, [(args pi).setWidth 8], ?_, ⟨List.prefix_refl _, Or.inl rfl, fun _ => by simp; omega⟩⟩
    intro fuel hf
    have hat' : At m si (ascii '%' :: (flag false '#' ++ flag false '0' ++ widthText 0 ++ [99#8])) := hat
    exact fmtLoop_int hroom (by decide) (by decide) (by decide) hat' fuel (by omega) rfl
  | dec z w =>
    refine ⟨w + 12, _, ?_, ⟨List.prefix_refl _, Or.inl rfl, fun h => by cases h⟩⟩
    intro fuel hf
    have hat' : At m si (ascii '%' :: (flag false '#' ++ flag z '0' ++ widthText w ++ [100#8])) := hat
    have := fmtLoop_int (args := args) (pi := pi) hroom (by decide) (by decide) (by decide) hat' fuel (by omega)
      (t := field w z (sgn (args pi).toInt) (digits 10 (args pi).toInt.natAbs)) (by
        unfold conv
        rw [if_neg (by decide), if_neg (by decide), if_neg (by decide), if_pos rfl,
          C37_decimal _ _ (by rw [ofNat_toInt hwf]; omega) _ _ _ (by omega), ofNat_toInt hwf]; rfl)
    rw [this]
    have e : (ascii '%' :: (flag false '#' ++ flag z '0' ++ widthText w ++ [100#8])).length = (Piece.dec z w).source.length := by
      simp [flag, Piece.source]
    rw [e]
    rfl
  | oct a z w =>
    refine ⟨w + 12, _, ?_, ⟨List.prefix_refl _, Or.inl rfl, fun h => by cases h⟩⟩
    intro fuel hf
    have hat' : At m si (ascii '%' :: (flag a '#' ++ flag z '0' ++ widthText w ++ [111#8])) := hat
    have := fmtLoop_int (args := args) (pi := pi) hroom (by decide) (by decide) (by decide) hat' fuel (by omega)
      (t := (Piece.oct a z w).text (args pi) s) (by
        unfold conv
        rw [if_neg (by decide), if_neg (by decide), if_pos rfl, C37_octal _ _ (by rw [ofNat_toInt hwf]; omega),
          ofNat_toInt hwf]
        unfold Piece.text basePrefix
        simp only [toNat_ne_zero, if_true]; rfl)
    rw [this]
    rfl
  | hex a z w =>
    refine ⟨w + 12, _, ?_, ⟨List.prefix_refl _, Or.inl rfl, fun h => by cases h⟩⟩
    intro fuel hf
    have hat' : At m si (ascii '%' :: (flag a '#' ++ flag z '0' ++ widthText w ++ [120#8])) := hat
    have := fmtLoop_int (args := args) (pi := pi) hroom (by decide) (by decide) (by decide) hat' fuel (by omega)
      (t := (Piece.hex a z w).text (args pi) s) (by
        unfold conv
        rw [if_neg (by decide), if_neg (by decide), if_neg (by decide), if_neg (by decide), if_pos rfl,
          C37_hex _ _ (by rw [ofNat_toInt hwf]; omega), ofNat_toInt hwf]
        unfold Piece.text basePrefix
        simp only [toNat_ne_zero, if_true, show ¬ (16 = 8) by omega, if_false]; rfl)
    rw [this]
    rfl

/-! ## whole formats -/

theorem fmtLoop_stop {m : Mem} {args : Nat → CInt} {size : Int} {si pi : Nat} {out : List Byte} (fuel : Nat)
    (h : m si = 0 ∨ size - 1 ≤ (out.length : Int)) : fmtLoop m args size (fuel + 1) si out pi = some out := by
  rw [fmtLoop, if_neg]
  rintro ⟨h1, h2⟩
  rcases h with h | h
  · exact h1 h
  · omega

theorem source_head {p : Piece} (hwf : p.wf) : ∃ c l, p.source = c :: l ∧ c ≠ 0 := by
  cases p with
  | lit c => exact ⟨c, [], rfl, hwf.1⟩
  | percent => exact ⟨_, _, rfl, by decide⟩
  | str => exact ⟨_, _, rfl, by decide⟩
  | chr => exact ⟨_, _, rfl, by decide⟩
  | dec => exact ⟨_, _, rfl, by decide⟩
  | oct => exact ⟨_, _, rfl, by decide⟩
  | hex => exact ⟨_, _, rfl, by decide⟩

theorem fmtLoop_ok {m : Mem} {args : Nat → CInt} {strs : BitVec 32 → List Byte} {size : Int} :
    ∀ (ps : List Piece) (si pi : Nat) (out : List Byte), (∀ p ∈ ps, p.wf) → At m si (sourceOf ps) →
    m (si + (sourceOf ps).length) = 0 → ArgsOk m args strs pi ps →
    ∃ N t, (∀ fuel, N ≤ fuel → fmtLoop m args size fuel si out pi = some (out ++ t)) ∧
      t <+: textOf args strs pi ps ∧ (t = textOf args strs pi ps ∨ size - 1 ≤ (out.length : Int) + t.length) ∧
      ((∀ p ∈ ps, p.isInt = false) → (out.length : Int) ≤ size → (out.length : Int) + t.length ≤ size) := by
  intro ps
  induction ps with
  | nil =>
    intro si pi out _ _ h0 _
    refine ⟨1, [], ?_, List.nil_prefix, Or.inl rfl, fun _ h => by simpa using h⟩
    intro fuel hf
    obtain ⟨f, rfl⟩ : ∃ f, fuel = f + 1 := ⟨fuel - 1, by omega⟩
    rw [fmtLoop_stop f (Or.inl (by simpa [sourceOf] using h0)), List.append_nil]
  | cons p ps ih =>
    intro si pi out hwf hat h0 hargs
    by_cases hroom : (out.length : Int) < size - 1
    · have hsrc : sourceOf (p :: ps) = p.source ++ sourceOf ps := by simp [sourceOf]
      rw [hsrc] at hat h0
      obtain ⟨hat1, hat2⟩ := hat.append
      obtain ⟨N1, t1, hstep, hpo⟩ := piece_step (args := args) (pi := pi) (hwf p (by simp)) hat1 hroom
        (s := strs (args pi)) hargs.1
      obtain ⟨N2, t2, hrest, hpre, hfull, hbound⟩ := ih (si + p.source.length) (pi + p.arity) (out ++ t1)
        (fun q hq => hwf q (by simp [hq])) hat2 (by rw [← h0]; congr 1; simp; omega) hargs.2
      have htext : textOf args strs pi (p :: ps) = p.text (args pi) (strs (args pi)) ++ textOf args strs (pi + p.arity) ps := rfl
      rcases hpo.full with hf1 | hf1
      · refine ⟨N1 + N2 + 1, t1 ++ t2, ?_, ?_, ?_, ?_⟩
        · intro fuel hf
          obtain ⟨f, rfl⟩ : ∃ f, fuel = f + 1 := ⟨fuel - 1, by omega⟩
          rw [hstep f (by omega), hrest f (by omega), List.append_assoc]
        · rw [htext, hf1]; exact (List.prefix_append_right_inj _).2 hpre
        · rcases hfull with h | h
          · left; rw [htext, hf1, h]
          · right; simp at h ⊢; omega
        · intro hni hle
          have h1 := hpo.room (hni p (by simp))
          have h2 := hbound (fun q hq => hni q (by simp [hq])) (by simp; omega)
          simp at h2 ⊢; omega
      · refine ⟨N1 + 2, t1, ?_, ?_, ?_, ?_⟩
        · intro fuel hf
          obtain ⟨f, rfl⟩ : ∃ f, fuel = f + 2 := ⟨fuel - 2, by omega⟩
          rw [hstep (f + 1) (by omega), fmtLoop_stop f (Or.inr (by simp; omega))]
        · rw [htext]; exact hpo.pre.trans (List.prefix_append _ _)
        · right; omega
        · intro hni _; exact hpo.room (hni p (by simp))
    · refine ⟨1, [], ?_, List.nil_prefix, Or.inr (by simp; omega), fun _ h => by simpa using h⟩
      intro fuel hf
      obtain ⟨f, rfl⟩ : ∃ f, fuel = f + 1 := ⟨fuel - 1, by omega⟩
      rw [fmtLoop_stop f (Or.inr (by omega)), List.append_nil]

/-- **C64.** Whatever the format (made of literals, `%%`, `%s`, `%c`, `%d`, `%o`, `%x` with widths and flags) and its
arguments: if the text fits in `size`, `snprintf` / `sprintf` / `printf` produce exactly that text, NUL-terminated, write
nothing else, and return its length. -/
theorem C64_format {m : Mem} {fmt buffer : Nat} {args : Nat → CInt} {strs : BitVec 32 → List Byte} {ps : List Piece}
    (hwf : ∀ p ∈ ps, p.wf) (hfmt : CStrAt m fmt (sourceOf ps)) (hargs : ArgsOk m args strs 0 ps) {size : Int}
    (hsize : ((textOf args strs 0 ps).length : Int) < size) :
    ∃ N, ∀ fuel, N ≤ fuel → ∃ r, format_to_buf fuel m fmt args size = some (some r) ∧
      r.2 = (textOf args strs 0 ps).length ∧
      (∀ i (h : i < (textOf args strs 0 ps).length), bufferAfter m buffer r (buffer + i) = (textOf args strs 0 ps)[i]) ∧
      bufferAfter m buffer r (buffer + (textOf args strs 0 ps).length) = 0 ∧
      ∀ a, a < buffer ∨ buffer + (textOf args strs 0 ps).length < a → bufferAfter m buffer r a = m a := by
  obtain ⟨N, t, h1, h2, h3, _⟩ := fmtLoop_ok (args := args) (size := size) ps fmt 0 [] hwf hfmt.2.1 hfmt.2.2 hargs
  have ht : t = textOf args strs 0 ps := by
    rcases h3 with h | h
    · exact h
    · apply h2.eq_of_length_le
      simp at h; omega
  refine ⟨N, fun fuel hf => ⟨(t, if size - 1 > (t.length : Int) then (t.length : Int) else size - 1), ?_, ?_⟩⟩
  · unfold format_to_buf
    rw [if_neg (by omega), h1 fuel hf]
    rfl
  · rw [← ht] at hsize ⊢
    have hlen : (if size - 1 > (t.length : Int) then (t.length : Int) else size - 1) = t.length := by
      split <;> omega
    rw [hlen]
    refine ⟨rfl, ?_, ?_, ?_⟩
    · intro i h
      unfold bufferAfter
      simp only
      rw [if_neg (by omega), if_pos (by omega)]
      simp [h]
    · unfold bufferAfter
      simp only
      rw [if_pos (by omega)]
    · intro a ha
      unfold bufferAfter
      simp only
      rw [if_neg (by omega), if_neg (by omega)]

/-- **C38 (part).** For formats without integer conversions `snprintf` never writes outside `buffer[0 .. size-1]`, and
leaves there the text cut to `size - 1` characters and a NUL.  Missing: integer conversions, for which it is false
(`C38_witness`). -/
theorem C38_snprintf_partial {m : Mem} {fmt buffer : Nat} {args : Nat → CInt} {strs : BitVec 32 → List Byte}
    {ps : List Piece} (hwf : ∀ p ∈ ps, p.wf) (hint : ∀ p ∈ ps, p.isInt = false) (hfmt : CStrAt m fmt (sourceOf ps))
    (hargs : ArgsOk m args strs 0 ps) {size : Nat} (hsize : 0 < size) :
    ∃ N, ∀ fuel, N ≤ fuel → ∃ r, format_to_buf fuel m fmt args size = some (some r) ∧
      r.2 = (min (textOf args strs 0 ps).length (size - 1) : Nat) ∧
      (∀ i (_ : i < size - 1) (h : i < (textOf args strs 0 ps).length),
        bufferAfter m buffer r (buffer + i) = (textOf args strs 0 ps)[i]) ∧
      bufferAfter m buffer r (buffer + min (textOf args strs 0 ps).length (size - 1)) = 0 ∧
      ∀ a, a < buffer ∨ buffer + size ≤ a → bufferAfter m buffer r a = m a := by
  obtain ⟨N, t, h1, h2, h3, h4⟩ := fmtLoop_ok (args := args) (size := size) ps fmt 0 [] hwf hfmt.2.1 hfmt.2.2 hargs
  have h4 := h4 hint (by simp)
  simp only [List.length_nil, Int.ofNat_zero, Int.zero_add] at h3 h4
  have hle := h2.length_le
  have h3' : t = textOf args strs 0 ps ∨ size - 1 ≤ t.length := by
    rcases h3 with h | h
    · exact Or.inl h
    · right; simp at h; omega
  have h4' : t.length ≤ size := by simp at h4; omega
  clear h3 h4
  have hlen : (if (size : Int) - 1 > (t.length : Int) then (t.length : Int) else (size : Int) - 1) =
      (min (textOf args strs 0 ps).length (size - 1) : Nat) := by
    rcases h3' with h | h
    · rw [← h]; split <;> omega
    · split <;> omega
  refine ⟨N, fun fuel hf => ⟨(t, if (size : Int) - 1 > (t.length : Int) then (t.length : Int) else (size : Int) - 1), ?_, ?_⟩⟩
  · unfold format_to_buf
    rw [if_neg (by omega), h1 fuel hf]
    rfl
  · rw [hlen]
    refine ⟨rfl, ?_, ?_, ?_⟩
    · intro i hi h
      have hit : i < t.length := by
        rcases h3' with h' | h'
        · rw [h']; exact h
        · omega
      unfold bufferAfter
      simp only
      rw [if_neg (by omega), if_pos (by omega)]
      have : t.getD i 0 = t[i] := by simp [hit]
      rw [show buffer + i - buffer = i by omega, this]
      exact h2.getElem hit
    · unfold bufferAfter
      simp only
      rw [if_pos (by omega)]
    · intro a ha
      unfold bufferAfter
      simp only
      rw [if_neg (by omega), if_neg (by omega)]

/-- the format "%d" -/
def fmtD : Mem := fun a => if a = 0 then 37 else if a = 1 then 100 else 0

/-- **C38 is false for integer conversions**: `snprintf(buf, 2, "%d", 12345)` writes five characters. -/
theorem C38_witness : CStrAt fmtD 0 (sourceOf [.dec false 0]) ∧
    format_to_buf 30 fmtD 0 (fun _ => 12345) 2 = some (some ([49, 50, 51, 52, 53], 1)) := by
  refine ⟨⟨by decide, ?_, by decide⟩, by decide⟩
  intro i h
  have : i < 2 := h
  match i, this with
  | 0, _ => rfl
  | 1, _ => rfl

/-- a non-trivial instance of the hypotheses of `C64_format`: "%s=%#06x%%" -/
example : sourceOf [.str, .lit 61, .hex true true 6, .percent] = [37, 115, 61, 37, 35, 48, 54, 120, 37, 37] ∧
    (∀ p ∈ ([.str, .lit 61, .hex true true 6, .percent] : List Piece), p.wf) ∧
    textOf (fun i => if i = 0 then 100 else 255) (fun _ => [97, 98]) 0 [.str, .lit 61, .hex true true 6, .percent] =
      [97, 98, 61, 48, 120, 48, 48, 102, 102, 37] := by
  refine ⟨by decide, ?_, by decide⟩
  intro p hp
  simp at hp
  rcases hp with rfl | rfl | rfl | rfl <;> simp [Piece.wf]
  decide

end Shecc.Props
