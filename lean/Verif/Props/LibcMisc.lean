import Verif.Model.LibcHeap
import Verif.Props.LibcStr

/-!
# C41, C42: `calloc`, `fgets`
-/

namespace Shecc.Props
open Shecc.Libc hiding Byte
open Shecc.Text

/-! ## C41 -/

theorem zeroBytes_get (p : Nat) : ∀ k offset (m : Mem) a, zeroBytes p k offset m a =
    if p + offset ≤ a ∧ a < p + offset + k then 0 else m a := by
  intro k
  induction k with
  | zero => intro offset m a; rw [zeroBytes, if_neg (by omega)]
  | succ k ih =>
    intro offset m a
    rw [zeroBytes, ih]
    unfold upd
    by_cases h1 : p + (offset + 1) ≤ a ∧ a < p + (offset + 1) + k
    · rw [if_pos h1, if_pos (by omega)]
    · rw [if_neg h1]
      by_cases h2 : a = p + offset
      · rw [if_pos h2, if_pos (by omega)]
      · rw [if_neg h2, if_neg (by omega)]

theorem zeroWord_get (m : Mem) (q a : Nat) : zeroWord m q a = if q ≤ a ∧ a < q + 4 then 0 else m a := by
  unfold zeroWord upd
  by_cases h : q ≤ a ∧ a < q + 4
  · rw [if_pos h]
    have : a = q ∨ a = q + 1 ∨ a = q + 2 ∨ a = q + 3 := by omega
    rcases this with rfl | rfl | rfl | rfl <;> simp
  · rw [if_neg h, if_neg (by omega), if_neg (by omega), if_neg (by omega), if_neg (by omega)]

theorem zeroWords_get (p : Nat) : ∀ k i (m : Mem) a, zeroWords p k i m a =
    if p + 4 * i ≤ a ∧ a < p + 4 * i + 4 * k then 0 else m a := by
  intro k
  induction k with
  | zero => intro i m a; rw [zeroWords, if_neg (by omega)]
  | succ k ih =>
    intro i m a
    rw [zeroWords, ih, zeroWord_get]
    by_cases h1 : p + 4 * (i + 1) ≤ a ∧ a < p + 4 * (i + 1) + 4 * k
    · rw [if_pos h1, if_pos (by omega)]
    · rw [if_neg h1]
      by_cases h2 : p + 4 * i ≤ a ∧ a < p + 4 * i + 4
      · rw [if_pos h2, if_pos (by omega)]
      · rw [if_neg h2, if_neg (by omega)]

/-- **C41.**  `calloc(n, size)` (given the pointer `p` that `malloc(n * size)` returned, see C39) clears exactly the
`n * size` bytes of the block, whatever was in them before, and changes nothing else. -/
theorem C41_calloc (m : Mem) (p : Nat) (n size : CInt) (h0 : 0 ≤ n.toInt) (h1 : 0 ≤ size.toInt)
    (hov : n.toInt * size.toInt < 2 ^ 31) :
    (∀ i : Nat, (i : Int) < n.toInt * size.toInt → callocZero m p n size (p + i) = 0) ∧
    ∀ a, a < p ∨ (p : Int) + n.toInt * size.toInt ≤ a → callocZero m p n size a = m a := by
  have hnn : 0 ≤ n.toInt * size.toInt := Int.mul_nonneg h0 h1
  have ht : (n * size).toInt = n.toInt * size.toInt := by
    rw [BitVec.toInt_mul]
    rw [Int.bmod_def]; omega
  have hs : ((n * size).sshiftRight 2).toInt = (n.toInt * size.toInt) / 4 := by
    rw [BitVec.toInt_sshiftRight, ht, Int.shiftRight_eq_div_pow]; rfl
  have hl : (((n * size).sshiftRight 2) <<< 2).toInt = (n.toInt * size.toInt) / 4 * 4 := by
    rw [BitVec.toInt_shiftLeft, Nat.shiftLeft_eq]
    have : (((n * size).sshiftRight 2).toNat : Int) = (n.toInt * size.toInt) / 4 := by
      rw [← hs, BitVec.toInt_eq_toNat_of_lt]
      have := BitVec.toInt_eq_toNat_cond ((n * size).sshiftRight 2)
      split at this
      · assumption
      · rw [hs] at this; omega
    rw [Int.natCast_mul, this, Int.bmod_def]
    show (if _ * 4 % 4294967296 < (4294967296 + 1) / 2 then _ * 4 % 4294967296 else _ * 4 % 4294967296 - 4294967296) = _
    omega
  have key : ∀ a, callocZero m p n size a =
      if p ≤ a ∧ (a : Int) < p + n.toInt * size.toInt then 0 else m a := by
    intro a
    unfold callocZero
    rw [zeroBytes_get, zeroWords_get, hs, hl, ht]
    generalize n.toInt * size.toInt = t at *
    by_cases h : p ≤ a ∧ (a : Int) < p + t
    · rw [if_pos h]
      by_cases h2 : p + (t / 4 * 4).toNat ≤ a ∧ a < p + (t / 4 * 4).toNat + (t - t / 4 * 4).toNat
      · rw [if_pos h2]
      · rw [if_neg h2, if_pos (by omega)]
    · rw [if_neg h, if_neg (by omega), if_neg (by omega)]
  refine ⟨fun i hi => ?_, fun a ha => ?_⟩
  · rw [key, if_pos (by omega)]
  · rw [key, if_neg (by omega)]

/-- without the bound the product wraps: `calloc(65536, 65537)` asks `malloc` for 65536 bytes -/
theorem C41_overflow_witness : (65536 : CInt) * (65537 : CInt) = 65536 := by decide

/-! ## C42 -/

/-- the bytes a call `fgets(str, n, f)` has to deliver from a stream: up to and including the first newline, at most
`n - 1` -/
inductive LineOf : Nat → List Byte → List Byte → List Byte → Prop where
  | full (s) : LineOf 0 s [] s
  | eof (k) : LineOf k [] [] []
  | newline (k s) : LineOf (k + 1) (10 :: s) [10] s
  | char {k c s t r} : c ≠ 10 → LineOf k s t r → LineOf (k + 1) (c :: s) (c :: t) r

theorem setWidth_ne {c : Byte} : (c.setWidth 32 : CInt) ≠ -1 := by
  intro h
  have := congrArg BitVec.toNat h
  rw [BitVec.toNat_setWidth] at this
  have h2 : (-1 : CInt).toNat = 4294967295 := rfl
  omega

theorem setWidth_ten {c : Byte} : (c.setWidth 32 : CInt) = 10 ↔ c = 10 := by
  constructor
  · intro h
    have := congrArg BitVec.toNat h
    rw [BitVec.toNat_setWidth] at this
    have h2 : (10 : CInt).toNat = 10 := rfl
    apply BitVec.eq_of_toNat_eq
    have h3 : (10 : Byte).toNat = 10 := rfl
    omega
  · intro h; rw [h]; rfl

theorem fgetsLoop_cons (str k i : Nat) (m : Mem) (c : Byte) (s : List Byte) : fgetsLoop str (k + 1) i m (c :: s) =
    if c = 10 then (true, upd (upd m (str + i) c) (str + i + 1) 0, s) else fgetsLoop str k (i + 1) (upd m (str + i) c) s := by
  have e : ((c.setWidth 32 : CInt).setWidth 8 : Byte) = c := by simp
  rw [fgetsLoop]
  have h1 : (fgetc (c :: s)).1 = c.setWidth 32 := rfl
  have h2 : (fgetc (c :: s)).2 = s := rfl
  rw [h1, h2]
  simp only [e]
  split
  · rename_i h; exact absurd h setWidth_ne
  · by_cases hc : c = 10
    · rw [if_pos hc, if_pos (setWidth_ten.2 hc)]
    · rw [if_neg hc, if_neg (fun h => hc (setWidth_ten.1 h))]

theorem fgetsLoop_nil (str k i : Nat) (m : Mem) (hi : i ≠ 0) : fgetsLoop str (k + 1) i m [] = (true, upd m (str + i) 0, []) := by
  rw [fgetsLoop]
  have h1 : (fgetc []).1 = -1 := rfl
  have h2 : (fgetc []).2 = [] := rfl
  simp [h1, h2, hi]

theorem fgetsLoop_ok (str : Nat) : ∀ k (s t r : List Byte), LineOf k s t r → ∀ i (m : Mem), (0 < i ∨ (s ≠ [] ∨ k = 0)) →
    let res := fgetsLoop str k i m s
    res.1 = true ∧ res.2.2 = r ∧ (∀ j (h : j < t.length), res.2.1 (str + i + j) = t[j]) ∧ res.2.1 (str + i + t.length) = 0 ∧
    ∀ a, a < str + i ∨ str + i + t.length < a → res.2.1 a = m a := by
  intro k s t r h
  induction h with
  | full s =>
    intro i m _
    refine ⟨rfl, rfl, fun j h => (by cases h), by simp [fgetsLoop, upd], ?_⟩
    intro a ha
    simp only [fgetsLoop, upd]
    rw [if_neg]
    simp at ha; omega
  | eof k =>
    intro i m hi
    cases k with
    | zero =>
      refine ⟨rfl, rfl, fun j h => (by cases h), by simp [fgetsLoop, upd], ?_⟩
      intro a ha
      simp only [fgetsLoop, upd]
      rw [if_neg]
      simp at ha; omega
    | succ k =>
      have hi : i ≠ 0 := by simp at hi; omega
      rw [fgetsLoop_nil _ _ _ _ hi]
      refine ⟨rfl, rfl, fun j h => (by cases h), by simp [upd], ?_⟩
      intro a ha
      simp only [upd]
      rw [if_neg]
      simp at ha; omega
  | newline k s =>
    intro i m _
    rw [fgetsLoop_cons, if_pos rfl]
    refine ⟨rfl, rfl, ?_, ?_, ?_⟩
    · intro j hj
      have : j = 0 := by simpa using hj
      subst this
      simp [upd]
    · simp [upd]
    · intro a ha
      simp at ha
      simp only [upd]
      rw [if_neg (by omega), if_neg (by omega)]
  | @char k c s t r hc _ ih =>
    intro i m _
    rw [fgetsLoop_cons, if_neg hc]
    obtain ⟨h1, h2, h3, h4, h5⟩ := ih (i + 1) (upd m (str + i) c) (Or.inl (by omega))
    refine ⟨h1, h2, ?_, ?_, ?_⟩
    · intro j hj
      cases j with
      | zero =>
        rw [h5 _ (by simp)]
        simp [upd]
      | succ j =>
        have := h3 j (by simpa using hj)
        rw [show str + i + (j + 1) = str + (i + 1) + j by omega, this]; rfl
    · rw [List.length_cons, show str + i + (t.length + 1) = str + (i + 1) + t.length by omega]; exact h4
    · intro a ha
      simp at ha
      rw [h5 _ (by omega)]
      simp only [upd]
      rw [if_neg (by omega)]

/-- **C42.**  For `n ≥ 2`: at the end of the file `fgets` returns NULL and changes nothing; otherwise it stores exactly the
next line (including its newline, at most `n - 1` bytes) and a NUL, writes nothing else, and leaves the rest of the stream
to be read. -/
theorem C42_fgets (m : Mem) (str : Nat) (n : Int) (hn : 2 ≤ n) (s : List Byte) :
    (s = [] → fgets m str n s = (false, m, [])) ∧
    ∀ t r, LineOf (n - 1).toNat s t r → s ≠ [] →
      (fgets m str n s).1 = true ∧ (fgets m str n s).2.2 = r ∧
      (∀ j (h : j < t.length), (fgets m str n s).2.1 (str + j) = t[j]) ∧ (fgets m str n s).2.1 (str + t.length) = 0 ∧
      ∀ a, a < str ∨ str + t.length < a → (fgets m str n s).2.1 a = m a := by
  constructor
  · intro h
    obtain ⟨k, hk⟩ : ∃ k, (n - 1).toNat = k + 1 := ⟨(n - 1).toNat - 1, by omega⟩
    unfold fgets; rw [hk, h]; rfl
  · intro t r hl hs
    have := fgetsLoop_ok str _ _ _ _ hl 0 m (Or.inr (Or.inl hs))
    simpa [fgets] using this

/-- `LineOf` describes one result for every stream, a prefix of it that fits into the buffer -/
theorem C42_line : ∀ (k : Nat) (s : List Byte), ∃ t r, LineOf k s t r ∧ s = t ++ r ∧ t.length ≤ k ∧
    (∀ i (h : i < t.length), t[i] = 10 → i + 1 = t.length) ∧ (t.length < k → r ≠ [] → ∃ u, t = u ++ [10]) := by
  intro k
  induction k with
  | zero => intro s; exact ⟨[], s, .full s, rfl, by simp, by simp, by simp⟩
  | succ k ih =>
    intro s
    cases s with
    | nil => exact ⟨[], [], .eof _, rfl, by simp, by simp, by simp⟩
    | cons c s =>
      by_cases hc : c = 10
      · subst hc
        exact ⟨[10], s, .newline k s, rfl, by simp, by simp, fun _ _ => ⟨[], rfl⟩⟩
      · obtain ⟨t, r, h1, h2, h3, h4, h5⟩ := ih s
        refine ⟨c :: t, r, .char hc h1, by rw [h2]; rfl, by simpa using h3, ?_, ?_⟩
        · intro i hi he
          cases i with
          | zero => exact absurd he hc
          | succ i => have := h4 i (by simpa using hi) he; simp; exact this
        · intro hlt hr
          obtain ⟨u, hu⟩ := h5 (by simpa using hlt) hr
          exact ⟨c :: u, by rw [hu]; rfl⟩

/-- concrete: `"ab\ncd"` with a buffer of 10 and of 3 bytes -/
example : LineOf 9 [97, 98, 10, 99, 100] [97, 98, 10] [99, 100] ∧ LineOf 2 [97, 98, 10, 99, 100] [97, 98] [10, 99, 100] :=
  ⟨.char (by decide) (.char (by decide) (.newline _ _)), .char (by decide) (.char (by decide) (.full _))⟩

end Shecc.Props
