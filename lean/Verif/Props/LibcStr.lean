import Verif.Model.LibcStr
import Verif.Spec.CText

/-!
# C33, C34: string functions of the C library
-/

namespace Shecc.Props
open Shecc.Libc
open Shecc.Text hiding Byte

/-! ## C33 -/

theorem getD_default {α : Type} (s : List α) (d : α) {i : Nat} (h : s.length ≤ i) : s.getD i d = d := by
  simp [List.getD_eq_getElem?_getD, List.getElem?_eq_none h]

theorem _root_.Shecc.Text.CStrAt.get {m : Mem} {p : Nat} {s : List Byte} (h : CStrAt m p s) {i : Nat} (hi : i ≤ s.length) :
    m (p + i) = s.getD i 0 := by
  obtain ⟨_, h2, h3⟩ := h
  rcases Nat.lt_or_ge i s.length with h' | h'
  · rw [h2 i h']; simp [h']
  · have : i = s.length := by omega
    subst this; rw [h3]; simp

theorem _root_.Shecc.Text.CStrAt.nz {m : Mem} {p : Nat} {s : List Byte} (h : CStrAt m p s) {i : Nat} (hi : i ≤ s.length) :
    s.getD i 0 = 0 ↔ i = s.length := by
  constructor
  · intro hz
    apply Classical.byContradiction
    intro hne
    have h' : i < s.length := by omega
    have := h.1 s[i] (List.getElem_mem h')
    simp [h'] at hz
    exact this hz
  · intro e; subst e; simp

theorem strlenLoop_ok {m : Mem} {p : Nat} {s : List Byte} (h : CStrAt m p s) :
    ∀ fuel i, i ≤ s.length → s.length - i < fuel → strlenLoop m p fuel i = some s.length := by
  intro fuel
  induction fuel with
  | zero => intro i _ hf; omega
  | succ fuel ih =>
    intro i hi hf
    unfold strlenLoop
    rw [h.get hi]
    by_cases e : i = s.length
    · rw [if_neg (by simpa using (h.nz hi).2 e)]; rw [e]
    · rw [if_pos (fun hz => e ((h.nz hi).1 hz))]
      exact ih (i + 1) (by omega) (by omega)

/-- **C33.** `strlen` returns the length of the string, whatever the string. -/
theorem C33_strlen {m : Mem} {p : Nat} {s : List Byte} (h : CStrAt m p s) (fuel : Nat) (hf : s.length < fuel) :
    strlen fuel m p = some s.length := strlenLoop_ok h fuel 0 (by omega) (by omega)

/-- A conversion of `char` to `int` that represents the value `val`: zero extension for the unsigned `char` of ARM, sign
extension for the signed `char` of RISC-V. -/
def CharConv (sx : Byte → CInt) (val : Byte → Int) : Prop :=
  (sx = BitVec.setWidth 32 ∧ val = uval) ∨ (sx = BitVec.signExtend 32 ∧ val = sval)

theorem CharConv.toInt {sx val} (h : CharConv sx val) (b : Byte) : (sx b).toInt = val b := by
  rcases h with ⟨rfl, rfl⟩ | ⟨rfl, rfl⟩
  · unfold uval
    rw [BitVec.toInt_eq_toNat_cond]
    have := b.isLt
    simp only [BitVec.toNat_setWidth]
    rw [Nat.mod_eq_of_lt (by omega), if_pos (by omega)]
  · unfold sval
    exact BitVec.toInt_signExtend_of_le (by omega)

theorem CharConv.slt {sx val} (h : CharConv sx val) (a b : Byte) : (sx a).slt (sx b) = true ↔ val a < val b := by
  rw [BitVec.slt_iff_toInt_lt, h.toInt, h.toInt]

theorem CharConv.inj {sx val} (h : CharConv sx val) {a b : Byte} (e : val a = val b) : a = b := by
  rcases h with ⟨_, rfl⟩ | ⟨_, rfl⟩
  · unfold uval at e; exact BitVec.eq_of_toNat_eq (by omega)
  · exact BitVec.eq_of_toInt_eq e

theorem CharConv.range {sx val} (h : CharConv sx val) (a : Byte) : -128 ≤ val a ∧ val a < 256 := by
  rcases h with ⟨_, rfl⟩ | ⟨_, rfl⟩
  · unfold uval; have := a.isLt; omega
  · unfold sval; have := @BitVec.le_toInt 8 a; have := @BitVec.toInt_lt 8 a; omega

theorem CharConv.sub {sx val} (h : CharConv sx val) (a b : Byte) : (sx a - sx b).toInt = val a - val b := by
  rw [BitVec.toInt_sub, h.toInt, h.toInt, Int.bmod_def]
  have := h.range a; have := h.range b
  split <;> omega

/-- The result of a comparison function: negative, zero or positive as `s` is before, equal to or after `t`. -/
def CmpResult (val : Byte → Int) (s t : List Byte) (r : CInt) : Prop :=
  (r.toInt < 0 ↔ StrLess val s t) ∧ (r.toInt = 0 ↔ s = t) ∧ (0 < r.toInt ↔ StrLess val t s)

theorem _root_.Shecc.Text.StrLess.asymm {val} {s t : List Byte} (h : StrLess val s t) : ¬ StrLess val t s := by
  rintro ⟨j, hj, hlt'⟩
  obtain ⟨i, hi, hlt⟩ := h
  rcases Nat.lt_trichotomy i j with h | h | h
  · rw [hj i h] at hlt; omega
  · subst h; omega
  · rw [hi j h] at hlt'; omega

theorem _root_.Shecc.Text.StrLess.irrefl {val} {s : List Byte} : ¬ StrLess val s s := fun h => h.asymm h

theorem cmp_of_first_diff {sx val} (hc : CharConv sx val) {s t : List Byte} {i : Nat}
    (hpre : ∀ j, j < i → s.getD j 0 = t.getD j 0) {r : CInt}
    (hlt : r.toInt < 0 ↔ val (s.getD i 0) < val (t.getD i 0)) (hgt : 0 < r.toInt ↔ val (t.getD i 0) < val (s.getD i 0))
    (heq : r.toInt = 0 → s = t) : CmpResult val s t r := by
  rcases Int.lt_trichotomy r.toInt 0 with h | h | h
  · have hl : StrLess val s t := ⟨i, hpre, hlt.1 h⟩
    refine ⟨⟨fun _ => hl, fun _ => h⟩, ⟨fun e => by omega, ?_⟩, ⟨fun e => by omega, fun e => absurd e hl.asymm⟩⟩
    intro e; subst e; exact absurd hl StrLess.irrefl
  · have := heq h; subst this
    refine ⟨⟨fun e => by omega, fun e => absurd e StrLess.irrefl⟩, ⟨fun _ => rfl, fun _ => h⟩,
      ⟨fun e => by omega, fun e => absurd e StrLess.irrefl⟩⟩
  · have hl : StrLess val t s := ⟨i, fun j hj => (hpre j hj).symm, hgt.1 h⟩
    refine ⟨⟨fun e => by omega, fun e => absurd e hl.asymm⟩, ⟨fun e => by omega, ?_⟩, ⟨fun _ => hl, fun _ => h⟩⟩
    intro e; subst e; exact absurd hl StrLess.irrefl

theorem list_eq_of_getD {s t : List Byte} (hs : ∀ c ∈ s, c ≠ 0) (ht : ∀ c ∈ t, c ≠ 0)
    (h : ∀ j, s.getD j 0 = t.getD j 0) : s = t := by
  have nz : ∀ (u : List Byte), (∀ c ∈ u, c ≠ 0) → ∀ j, j < u.length → u.getD j 0 ≠ 0 := by
    intro u hu j hj
    simp [hj]; exact hu _ (List.getElem_mem hj)
  have hl : s.length = t.length := by
    rcases Nat.lt_trichotomy s.length t.length with e | e | e
    · exact absurd ((h s.length).symm.trans (by simp)) (nz t ht _ e)
    · exact e
    · exact absurd ((h t.length).trans (by simp)) (nz s hs _ e)
  apply List.ext_getElem hl
  intro j h1 h2
  have := h j
  simpa [h1, h2] using this

theorem strcmpLoop_ok {sx val} (hc : CharConv sx val) {m : Mem} {p q : Nat} {s t : List Byte} (hs : CStrAt m p s)
    (ht : CStrAt m q t) : ∀ fuel i, i ≤ s.length → i ≤ t.length → s.length - i < fuel →
    (∀ j, j < i → s.getD j 0 = t.getD j 0) → ∃ r, strcmpLoop sx m p q fuel i = some r ∧ CmpResult val s t r := by
  intro fuel
  induction fuel with
  | zero => intro i _ _ hf; omega
  | succ fuel ih =>
    intro i hi hi' hf hpre
    unfold strcmpLoop
    rw [hs.get hi, ht.get hi']
    by_cases e : s.getD i 0 ≠ 0 ∧ t.getD i 0 ≠ 0
    · rw [if_pos e]
      have e1 : i ≠ s.length := fun h => e.1 ((hs.nz hi).2 h)
      have e2 : i ≠ t.length := fun h => e.2 ((ht.nz hi').2 h)
      by_cases h1 : (sx (s.getD i 0)).slt (sx (t.getD i 0)) = true
      · rw [if_pos h1]
        have h1' := (hc.slt _ _).1 h1
        refine ⟨-1, rfl, cmp_of_first_diff hc hpre ?_ ?_ ?_⟩
        · exact ⟨fun _ => h1', fun _ => by decide⟩
        · exact ⟨fun h => absurd h (by decide), fun h => by omega⟩
        · intro h; exact absurd h (by decide)
      · rw [if_neg h1]
        have h1' : ¬ _ := fun h => h1 ((hc.slt _ _).2 h)
        by_cases h2 : (sx (t.getD i 0)).slt (sx (s.getD i 0)) = true
        · rw [if_pos h2]
          have h2' := (hc.slt _ _).1 h2
          refine ⟨1, rfl, cmp_of_first_diff hc hpre ?_ ?_ ?_⟩
          · exact ⟨fun h => absurd h (by decide), fun h => absurd h h1'⟩
          · exact ⟨fun _ => h2', fun _ => by decide⟩
          · intro h; exact absurd h (by decide)
        · rw [if_neg h2]
          have h2' : ¬ _ := fun h => h2 ((hc.slt _ _).2 h)
          have he : s.getD i 0 = t.getD i 0 := hc.inj (by omega)
          refine ih (i + 1) (by omega) (by omega) (by omega) ?_
          intro j hj
          rcases Nat.lt_or_ge j i with h | h
          · exact hpre j h
          · have : j = i := by omega
            subst this; exact he
    · rw [if_neg e]
      refine ⟨_, rfl, cmp_of_first_diff hc hpre ?_ ?_ ?_⟩
      · rw [hc.sub]; omega
      · rw [hc.sub]; omega
      · rw [hc.sub]
        intro hz
        have he : s.getD i 0 = t.getD i 0 := hc.inj (by omega)
        have hz' : s.getD i 0 = 0 ∧ t.getD i 0 = 0 := by
          by_cases h0 : s.getD i 0 = 0
          · exact ⟨h0, he ▸ h0⟩
          · by_cases h1 : t.getD i 0 = 0
            · exact ⟨he.trans h1, h1⟩
            · exact absurd ⟨h0, h1⟩ e
        have e1 := (hs.nz hi).1 hz'.1
        have e2 := (ht.nz hi').1 hz'.2
        apply list_eq_of_getD hs.1 ht.1
        intro j
        rcases Nat.lt_or_ge j i with h | h
        · exact hpre j h
        · rw [getD_default _ _ (by omega), getD_default _ _ (by omega)]

/-- **C33.** `strcmp` terminates on NUL-terminated strings and the sign of its result is the lexicographic order. -/
theorem C33_strcmp {sx val} (hc : CharConv sx val) {m : Mem} {p q : Nat} {s t : List Byte} (hs : CStrAt m p s)
    (ht : CStrAt m q t) (fuel : Nat) (hf : s.length < fuel) :
    ∃ r, strcmp sx fuel m p q = some r ∧ CmpResult val s t r :=
  strcmpLoop_ok hc hs ht fuel 0 (by omega) (by omega) (by omega) (fun j h => by omega)

theorem strncmpLoop_ok {sx val} (hc : CharConv sx val) {m : Mem} {p q : Nat} {s t : List Byte} (hs : CStrAt m p s)
    (ht : CStrAt m q t) : ∀ k i, i ≤ s.length → i ≤ t.length →
    (∀ j, j < i → s.getD j 0 = t.getD j 0) → CmpResult val (s.take (i + k)) (t.take (i + k)) (strncmpLoop sx m p q k i) := by
  have tk : ∀ (u : List Byte) n j, j < n → (u.take n).getD j 0 = u.getD j 0 := by
    intro u n j h
    simp [List.getD_eq_getElem?_getD, List.getElem?_take, h]
  have tk' : ∀ (u : List Byte) n j, ¬ j < n → (u.take n).getD j 0 = 0 := by
    intro u n j h
    simp [List.getD_eq_getElem?_getD, List.getElem?_take, h]
  have tn : ∀ (u : List Byte) n, (∀ c ∈ u, c ≠ 0) → ∀ c ∈ u.take n, c ≠ 0 :=
    fun u n h c hc => h c (List.mem_of_mem_take hc)
  intro k
  induction k with
  | zero =>
    intro i hi hi' hpre
    unfold strncmpLoop
    have he : s.take (i + 0) = t.take (i + 0) := by
      apply list_eq_of_getD (tn _ _ hs.1) (tn _ _ ht.1)
      intro j
      by_cases h : j < i + 0
      · rw [tk _ _ _ h, tk _ _ _ h]; exact hpre j h
      · rw [tk' _ _ _ h, tk' _ _ _ h]
    rw [he]
    exact ⟨⟨fun h => absurd h (by decide), fun h => absurd h StrLess.irrefl⟩, ⟨fun _ => rfl, fun _ => by decide⟩,
      ⟨fun h => absurd h (by decide), fun h => absurd h StrLess.irrefl⟩⟩
  | succ k ih =>
    intro i hi hi' hpre
    unfold strncmpLoop
    rw [hs.get hi, ht.get hi']
    have hpre' : ∀ j, j < i → (s.take (i + (k + 1))).getD j 0 = (t.take (i + (k + 1))).getD j 0 := by
      intro j hj; rw [tk _ _ _ (by omega), tk _ _ _ (by omega)]; exact hpre j hj
    have ei := tk s (i + (k + 1)) i (by omega)
    have ei' := tk t (i + (k + 1)) i (by omega)
    by_cases h1 : (sx (s.getD i 0)).slt (sx (t.getD i 0)) = true
    · rw [if_pos h1]
      have h1' := (hc.slt _ _).1 h1
      refine cmp_of_first_diff hc hpre' ?_ ?_ ?_
      · rw [ei, ei']; exact ⟨fun _ => h1', fun _ => by decide⟩
      · rw [ei, ei']; exact ⟨fun h => absurd h (by decide), fun h => by omega⟩
      · intro h; exact absurd h (by decide)
    · rw [if_neg h1]
      have h1' : ¬ _ := fun h => h1 ((hc.slt _ _).2 h)
      by_cases h2 : (sx (t.getD i 0)).slt (sx (s.getD i 0)) = true
      · rw [if_pos h2]
        have h2' := (hc.slt _ _).1 h2
        refine cmp_of_first_diff hc hpre' ?_ ?_ ?_
        · rw [ei, ei']; exact ⟨fun h => absurd h (by decide), fun h => absurd h h1'⟩
        · rw [ei, ei']; exact ⟨fun _ => h2', fun _ => by decide⟩
        · intro h; exact absurd h (by decide)
      · rw [if_neg h2]
        have h2' : ¬ _ := fun h => h2 ((hc.slt _ _).2 h)
        have he : s.getD i 0 = t.getD i 0 := hc.inj (by omega)
        have hpre2 : ∀ j, j < i + 1 → s.getD j 0 = t.getD j 0 := by
          intro j hj
          rcases Nat.lt_or_ge j i with h | h
          · exact hpre j h
          · have : j = i := by omega
            subst this; exact he
        by_cases hz : s.getD i 0 = 0
        · rw [if_pos hz]
          have e1 := (hs.nz hi).1 hz
          have e2 := (ht.nz hi').1 (he ▸ hz)
          have hh : s = t := by
            apply list_eq_of_getD hs.1 ht.1
            intro j
            rcases Nat.lt_or_ge j i with h | h
            · exact hpre j h
            · rw [getD_default _ _ (by omega), getD_default _ _ (by omega)]
          rw [hh]
          exact ⟨⟨fun h => absurd h (by decide), fun h => absurd h StrLess.irrefl⟩, ⟨fun _ => rfl, fun _ => by decide⟩,
            ⟨fun h => absurd h (by decide), fun h => absurd h StrLess.irrefl⟩⟩
        · rw [if_neg hz]
          have e1 : i ≠ s.length := fun h => hz ((hs.nz hi).2 h)
          have e2 : i ≠ t.length := fun h => (he ▸ hz) ((ht.nz hi').2 h)
          have := ih (i + 1) (by omega) (by omega) hpre2
          rwa [show i + 1 + k = i + (k + 1) by omega] at this

/-- **C33.** `strncmp` compares the first `len` characters. -/
theorem C33_strncmp {sx val} (hc : CharConv sx val) {m : Mem} {p q : Nat} {s t : List Byte} (hs : CStrAt m p s)
    (ht : CStrAt m q t) (len : Int) :
    CmpResult val (s.take len.toNat) (t.take len.toNat) (strncmp sx m p q len) := by
  have := strncmpLoop_ok hc hs ht len.toNat 0 (by omega) (by omega) (fun j h => by omega)
  rwa [Nat.zero_add] at this

/-- With the signed `char` of RISC-V the order is not the one C prescribes (characters compared as `unsigned char`) once
a character above 127 occurs; with the unsigned `char` of ARM, and for ASCII strings on both, it is. -/
theorem C33_order_riscv_witness : ∃ (m : Mem) (s t : List Byte), CStrAt m 0 s ∧ CStrAt m 8 t ∧ StrLess uval s t ∧
    ∃ r, strcmp (BitVec.signExtend 32) 9 m 0 8 = some r ∧ 0 < r.toInt := by
  refine ⟨fun a => if a = 0 then 97 else if a = 8 then 128 else 0, [97], [128], ⟨by decide, ?_, by decide⟩,
    ⟨by decide, ?_, by decide⟩, ⟨0, fun j h => by omega, by decide⟩, 1, by decide, by decide⟩ <;>
  · intro i h
    have : i = 0 := by simp at h; omega
    subst this; rfl

theorem sval_ascii (b : Byte) (h : b.toNat < 128) : sval b = uval b := by
  unfold sval uval
  rw [BitVec.toInt_eq_toNat_cond, if_pos (by omega)]

/-- **C33.** On ASCII strings signed and unsigned order agree, so both targets give the order of C. -/
theorem C33_order_ascii {s t : List Byte} (hs : ∀ c ∈ s, c.toNat < 128) (ht : ∀ c ∈ t, c.toNat < 128) :
    StrLess sval s t ↔ StrLess uval s t := by
  have g : ∀ (u : List Byte), (∀ c ∈ u, c.toNat < 128) → ∀ j, sval (u.getD j 0) = uval (u.getD j 0) := by
    intro u hu j
    apply sval_ascii
    rcases Nat.lt_or_ge j u.length with h | h
    · simp [h]; exact hu _ (List.getElem_mem h)
    · rw [getD_default _ _ h]; decide
  unfold StrLess
  simp only [g s hs, g t ht]

/-! ## C34 -/

theorem upd_same (m : Mem) (a : Nat) (v : Byte) : upd m a v a = v := by simp [upd]
theorem upd_ne (m : Mem) {a b : Nat} (v : Byte) (h : b ≠ a) : upd m a v b = m b := by simp [upd, h]

/-- The effect of writing the bytes `w` at `dest` and nothing else. -/
def Wrote (m m' : Mem) (dest : Nat) (w : List Byte) : Prop :=
  (∀ i (h : i < w.length), m' (dest + i) = w[i]) ∧ ∀ a, a < dest ∨ dest + w.length ≤ a → m' a = m a

theorem strcpyLoop_ok {dest p : Nat} {s : List Byte} (hd : dest + s.length < p ∨ p + s.length < dest ∨ dest = p) :
    ∀ fuel (m : Mem) i, CStrAt m p s → i ≤ s.length → s.length - i < fuel →
    ∃ m', strcpyLoop dest p fuel m i = some m' ∧ (∀ j, j < i ∨ s.length < j → m' (dest + j) = m (dest + j)) ∧
      (∀ j, i ≤ j → j ≤ s.length → m' (dest + j) = s.getD j 0) ∧
      ∀ a, a < dest → m' a = m a := by
  intro fuel
  induction fuel with
  | zero => intro m i _ _ hf; omega
  | succ fuel ih =>
    intro m i hs hi hf
    unfold strcpyLoop
    rw [hs.get hi]
    by_cases e : i = s.length
    · rw [if_neg (by simpa using (hs.nz hi).2 e)]
      refine ⟨_, rfl, ?_, ?_, ?_⟩
      · intro j hj; exact upd_ne _ _ (by omega)
      · intro j h1 h2
        have : j = i := by omega
        subst this
        rw [upd_same]; exact ((hs.nz hi).2 e).symm
      · intro a ha; exact upd_ne _ _ (by omega)
    · rw [if_pos (fun hz => e ((hs.nz hi).1 hz))]
      have hs' : CStrAt (upd m (dest + i) (s.getD i 0)) p s := by
        have key : ∀ j, j ≤ s.length → upd m (dest + i) (s.getD i 0) (p + j) = m (p + j) := by
          intro j hj
          by_cases h : p + j = dest + i
          · rw [h, upd_same, ← hs.get hi]
            rcases hd with h' | h' | h'
            · omega
            · omega
            · rw [h']
          · exact upd_ne _ _ h
        refine ⟨hs.1, ?_, ?_⟩
        · intro j h; rw [key j (by omega)]; exact hs.2.1 j h
        · rw [key _ (Nat.le_refl _)]; exact hs.2.2
      obtain ⟨m', h1, h2, h3, h4⟩ := ih _ (i + 1) hs' (by omega) (by omega)
      refine ⟨m', h1, ?_, ?_, ?_⟩
      · intro j hj
        rw [h2 j (by omega)]; exact upd_ne _ _ (by omega)
      · intro j h5 h6
        by_cases h : j = i
        · subst h
          rw [h2 j (by omega), upd_same]
        · exact h3 j (by omega) h6
      · intro a ha; rw [h4 a ha]; exact upd_ne _ _ (by omega)

/-- **C34.** `strcpy` to a region that does not overlap the source string writes the string and its NUL, and nothing
else. -/
theorem C34_strcpy {m : Mem} {dest p : Nat} {s : List Byte} (hs : CStrAt m p s)
    (hd : dest + s.length < p ∨ p + s.length < dest ∨ dest = p) (fuel : Nat) (hf : s.length < fuel) :
    ∃ m', strcpy fuel m dest p = some m' ∧ Wrote m m' dest (s ++ [0]) ∧ CStrAt m' dest s := by
  obtain ⟨m', h1, h2, h3, h4⟩ := strcpyLoop_ok hd fuel m 0 hs (by omega) (by omega)
  refine ⟨m', h1, ⟨?_, ?_⟩, hs.1, ?_, ?_⟩
  · intro i h
    rw [List.length_append, List.length_singleton] at h
    rw [h3 i (by omega) (by omega)]
    rcases Nat.lt_or_ge i s.length with h' | h'
    · simp [h', List.getElem_append_left]
    · have : i = s.length := by omega
      subst this; simp
  · intro a ha
    rw [List.length_append, List.length_singleton] at ha
    rcases ha with ha | ha
    · exact h4 a ha
    · have := h2 (a - dest) (by omega)
      rwa [show dest + (a - dest) = a by omega] at this
  · intro i h
    rw [h3 i (by omega) (by omega)]; simp [h]
  · rw [h3 _ (by omega) (by omega)]; simp

/-- `strncpy`'s output: the first `n` characters, padded with NULs to `n`. -/
def ncpy (s : List Byte) (n : Nat) : List Byte := s.take n ++ List.replicate (n - s.length) 0

theorem strncpyLoop_beyond (dest p : Nat) : ∀ k (m : Mem) i,
    (∀ j, j < k → strncpyLoop dest p k m i true (dest + i + j) = 0) ∧
    ∀ a, a < dest + i ∨ dest + i + k ≤ a → strncpyLoop dest p k m i true a = m a := by
  intro k
  induction k with
  | zero => intro m i; exact ⟨fun j h => by omega, fun a _ => rfl⟩
  | succ k ih =>
    intro m i
    unfold strncpyLoop
    rw [if_neg (by decide)]
    obtain ⟨h1, h2⟩ := ih (upd m (dest + i) 0) (i + 1)
    constructor
    · intro j hj
      by_cases h : j = 0
      · subst h
        rw [h2 _ (by omega)]
        exact upd_same _ _ _
      · have := h1 (j - 1) (by omega)
        rwa [show dest + (i + 1) + (j - 1) = dest + i + j by omega] at this
    · intro a ha
      rw [h2 a (by omega)]
      exact upd_ne _ _ (by omega)

theorem strncpyLoop_ok {dest p : Nat} {s : List Byte} {n : Nat} (hd : dest + n ≤ p ∨ p + s.length < dest) :
    ∀ k (m : Mem) i, CStrAt m p s → i ≤ s.length → i + k = n →
    (∀ j, i ≤ j → j < n → strncpyLoop dest p k m i false (dest + j) = s.getD j 0) ∧
    ∀ a, a < dest + i ∨ dest + n ≤ a → strncpyLoop dest p k m i false a = m a := by
  intro k
  induction k with
  | zero => intro m i _ _ hk; exact ⟨fun j h1 h2 => by omega, fun a _ => rfl⟩
  | succ k ih =>
    intro m i hs hi hk
    unfold strncpyLoop
    rw [if_pos rfl]
    rw [hs.get hi]
    have key : ∀ j, j ≤ s.length → upd m (dest + i) (s.getD i 0) (p + j) = m (p + j) := by
      intro j hj
      exact upd_ne _ _ (by omega)
    have hs' : CStrAt (upd m (dest + i) (s.getD i 0)) p s := by
      refine ⟨hs.1, ?_, ?_⟩
      · intro j h; rw [key j (by omega)]; exact hs.2.1 j h
      · rw [key _ (Nat.le_refl _)]; exact hs.2.2
    rw [hs'.get hi]
    by_cases e : i = s.length
    · rw [decide_eq_true ((hs.nz hi).2 e)]
      obtain ⟨h1, h2⟩ := strncpyLoop_beyond dest p k (upd m (dest + i) (s.getD i 0)) (i + 1)
      constructor
      · intro j h3 h4
        refine Eq.trans ?_ (getD_default s 0 (i := j) (by omega)).symm
        by_cases h : j = i
        · subst h; rw [h2 _ (by omega), upd_same]; exact (hs.nz hi).2 e
        · have := h1 (j - (i + 1)) (by omega)
          rwa [show dest + (i + 1) + (j - (i + 1)) = dest + j by omega] at this
      · intro a ha
        rw [h2 a (by omega)]; exact upd_ne _ _ (by omega)
    · rw [decide_eq_false (fun h => e ((hs.nz hi).1 h))]
      obtain ⟨h1, h2⟩ := ih _ (i + 1) hs' (by omega) (by omega)
      constructor
      · intro j h3 h4
        by_cases h : j = i
        · subst h; rw [h2 _ (by omega), upd_same]
        · exact h1 j (by omega) h4
      · intro a ha
        rw [h2 a (by omega)]; exact upd_ne _ _ (by omega)

/-- **C34.** `strncpy` writes exactly `n` bytes: the string, cut or padded with NULs to `n`. -/
theorem C34_strncpy {m : Mem} {dest p : Nat} {s : List Byte} (hs : CStrAt m p s) (len : Int)
    (hd : dest + len.toNat ≤ p ∨ p + s.length < dest) :
    Wrote m (strncpy m dest p len) dest (ncpy s len.toNat) ∧ (ncpy s len.toNat).length = len.toNat := by
  obtain ⟨h1, h2⟩ := strncpyLoop_ok hd len.toNat m 0 hs (by omega) (by omega)
  have hl : (ncpy s len.toNat).length = len.toNat := by unfold ncpy; simp; omega
  refine ⟨⟨?_, ?_⟩, hl⟩
  · intro i h
    rw [hl] at h
    unfold strncpy
    rw [h1 i (by omega) h]
    have hg : ∀ hh, (ncpy s len.toNat)[i]'hh = s.getD i 0 := by
      intro hh
      rcases Nat.lt_or_ge i s.length with h' | h'
      · simp only [ncpy]
        rw [List.getElem_append_left (by simp; omega)]; simp [h']
      · simp only [ncpy]
        rw [List.getElem_append_right (by simp; omega), getD_default _ _ h']; simp
    rw [hg]
  · intro a ha
    rw [hl] at ha
    exact h2 a (by omega)

/-- the contents of a region -/
def region (m : Mem) (p n : Nat) : List Byte := (List.range n).map fun i => m (p + i)

theorem memcpyLoop_ok {dest src : Nat} : ∀ k (m : Mem), (dest + k ≤ src ∨ src ≤ dest) →
    (∀ j, j < k → memcpyLoop dest src k m (dest + j) = m (src + j)) ∧
    ∀ a, a < dest ∨ dest + k ≤ a → memcpyLoop dest src k m a = m a := by
  intro k
  induction k with
  | zero => intro m _; exact ⟨fun j h => by omega, fun a _ => rfl⟩
  | succ k ih =>
    intro m hd
    unfold memcpyLoop
    obtain ⟨h1, h2⟩ := ih (upd m (dest + k) (m (src + k))) (by omega)
    constructor
    · intro j hj
      by_cases h : j = k
      · subst h; rw [h2 _ (by omega), upd_same]
      · rw [h1 j (by omega)]; exact upd_ne _ _ (by omega)
    · intro a ha
      rw [h2 a (by omega)]; exact upd_ne _ _ (by omega)

/-- **C34.** `memcpy` writes exactly `count` bytes, those of the source — also when the regions overlap with the
destination above the source (it copies from the end). -/
theorem C34_memcpy (m : Mem) (dest src : Nat) (count : Int) (hd : dest + count.toNat ≤ src ∨ src ≤ dest) :
    Wrote m (memcpy m dest src count) dest (region m src count.toNat) := by
  obtain ⟨h1, h2⟩ := memcpyLoop_ok count.toNat m hd
  constructor
  · intro i h
    have h' : i < count.toNat := by simpa [region] using h
    unfold memcpy
    rw [h1 i h']; simp [region]
  · intro a ha
    have : (region m src count.toNat).length = count.toNat := by simp [region]
    rw [this] at ha
    exact h2 a ha

/-- An overlap with the destination below the source is not handled. -/
theorem C34_memcpy_overlap_witness : ∃ m : Mem, memcpy m 0 1 2 0 ≠ m 1 :=
  ⟨fun a => BitVec.ofNat 8 a, by decide⟩

/-! Concrete cases of the hypotheses: "ab" at 3 and at 10. -/
def abMem : Mem := fun a => if a = 3 then 97 else if a = 4 then 98 else if a = 10 then 97 else 0

example : CStrAt abMem 3 [97, 98] := by
  refine ⟨by decide, ?_, by decide⟩
  intro i h
  match i, h with
  | 0, _ => rfl
  | 1, _ => rfl

example : strcmp (BitVec.setWidth 32) 9 abMem 3 10 = some 98 := by decide
example : (strcpy 9 abMem 20 3).map (region · 20 3) = some [97, 98, 0] := by decide
example : region (strncpy abMem 20 3 4) 20 4 = [97, 98, 0, 0] := by decide
example : ncpy [97, 98] 4 = [97, 98, 0, 0] ∧ ncpy [97, 98] 1 = [97] := by decide

end Shecc.Props
