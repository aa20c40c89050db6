import Verif.Model.Names
import Verif.Props.LibcPrintf
import Verif.Spec.CLex

/-!
# C104: names that the compiler makes up
-/

namespace Shecc.Props
open Shecc.Libc hiding Byte
open Shecc.Text
open Shecc.Names (genName genLabel)

/-- The bytes of a string literal. -/
def textBytes (s : String) : List Byte := s.toList.map ascii

/-- A request for a name: of a temporary or of a label. -/
inductive Request where
  | temp
  | label

def Request.serve (fuel buf fmtT fmtL : Nat) : Request → Names.St → Option Names.St
  | .temp, s => genName fuel buf fmtT s
  | .label, s => genLabel fuel buf fmtL s

/-- With the counters at `v` and `l`, the requests find the texts one after the other in the buffer: whatever else the
memory holds at each request (the two format strings are where they were), the text is there afterwards, NUL-terminated,
and nothing outside the 32 bytes of the buffer has changed. -/
def Yields (buf fmtT fmtL : Nat) : CInt → CInt → List Request → List (List Byte) → Prop
  | _, _, [], [] => True
  | v, l, q :: qs, t :: ts =>
    (∀ m, CStrAt m fmtT (textBytes ".t%d") → CStrAt m fmtL (textBytes ".label.%d") →
      ∃ N s', (∀ fuel, N ≤ fuel → q.serve fuel buf fmtT fmtL ⟨v, l, m⟩ = some s') ∧ CStrAt s'.m buf t ∧
        (∀ a, a < buf ∨ buf + 32 ≤ a → s'.m a = m a) ∧
        s'.vars = (match q with | .temp => v + 1 | .label => v) ∧ s'.labels = (match q with | .temp => l | .label => l + 1)) ∧
    Yields buf fmtT fmtL (match q with | .temp => v + 1 | .label => v) (match q with | .temp => l | .label => l + 1) qs ts
  | _, _, _, _ => False

/-- the text of a request -/
def made (pre : String) (i : Nat) : List Byte := textBytes pre ++ Text.digits 10 i

def madeAll : Nat → Nat → List Request → List (List Byte)
  | _, _, [] => []
  | i, j, .temp :: qs => made ".t" i :: madeAll (i + 1) j qs
  | i, j, .label :: qs => made ".label." j :: madeAll i (j + 1) qs

theorem lits_source (l : List Byte) : sourceOf (l.map Piece.lit) = l := by
  induction l with
  | nil => rfl
  | cons a l ih =>
    have : sourceOf ((a :: l).map Piece.lit) = a :: sourceOf (l.map Piece.lit) := rfl
    rw [this, ih]

theorem lits_text (args : Nat → BitVec 32) (strs : BitVec 32 → List Byte) (l : List Byte) (ps : List Piece) :
    textOf args strs 0 (l.map Piece.lit ++ ps) = l ++ textOf args strs 0 ps := by
  induction l with
  | nil => rfl
  | cons a l ih =>
    show a :: textOf args strs 0 (l.map Piece.lit ++ ps) = _
    rw [ih]
    rfl

theorem lits_args (m : Nat → Byte) (args : Nat → BitVec 32) (strs : BitVec 32 → List Byte) (l : List Byte) (ps : List Piece)
    (h : ArgsOk m args strs 0 ps) : ArgsOk m args strs 0 (l.map Piece.lit ++ ps) := by
  induction l with
  | nil => exact h
  | cons a l ih => exact ⟨(fun e => by cases e), ih⟩

/-- `sprintf` of a text followed by `%d` -/
theorem sprintf_made {m : Mem} {buf fmt : Nat} {pre : String} (hp : ∀ c ∈ textBytes pre, c ≠ 0 ∧ c ≠ ascii '%')
    (hl : (textBytes pre).length ≤ 7) (hf : CStrAt m fmt (textBytes pre ++ textBytes "%d")) {i : Nat} (hi : i < 2 ^ 31) :
    ∃ N m' v, (∀ fuel, N ≤ fuel → sprintf fuel m buf fmt (fun _ => BitVec.ofNat 32 i) = some (m', v)) ∧ CStrAt m' buf (made pre i) ∧
      ∀ a, a < buf ∨ buf + 32 ≤ a → m' a = m a := by
  obtain ⟨ps, hps⟩ : ∃ ps, ps = (textBytes pre).map Piece.lit ++ [Piece.dec false 0] := ⟨_, rfl⟩
  have hsrc : sourceOf ps = textBytes pre ++ textBytes "%d" := by
    rw [hps]
    have : sourceOf ((textBytes pre).map Piece.lit ++ [Piece.dec false 0]) =
        sourceOf ((textBytes pre).map Piece.lit) ++ sourceOf [Piece.dec false 0] := by simp [sourceOf]
    rw [this, lits_source]
    congr 1
  have hti : (BitVec.ofNat 32 i).toInt = (i : Int) := by
    rw [BitVec.toInt_eq_toNat_cond, BitVec.toNat_ofNat, Nat.mod_eq_of_lt (by omega), if_pos (by omega)]
  have htext : textOf (fun _ => BitVec.ofNat 32 i) (fun _ => []) 0 ps = made pre i := by
    rw [hps, lits_text]
    unfold made
    congr 1
    have hneg : ¬ ((i : Int) < 0) := by omega
    simp only [textOf, Piece.text, hti, if_neg hneg]
    simp [field]
  have hlen : (made pre i).length < 32 := by
    unfold made
    rw [List.length_append, digits_length]
    have := digLen_le (b := 10) (n := i) (k := 10) (by omega) (by omega) (by omega)
    omega
  have hwf : ∀ p ∈ ps, p.wf := by
    rw [hps]
    intro p hm
    rcases List.mem_append.mp hm with h | h
    · obtain ⟨c, hc, rfl⟩ := List.mem_map.mp h
      exact hp c hc
    · rw [List.mem_singleton] at h
      subst h
      show 0 < 2 ^ 31
      decide
  obtain ⟨N, hN⟩ := C64_format (buffer := buf) (args := fun _ => BitVec.ofNat 32 i) (strs := fun _ => []) (size := INT_MAX)
    hwf (by rw [hsrc]; exact hf) (by rw [hps]; exact lits_args _ _ _ _ _ ⟨(fun e => by cases e), trivial⟩)
    (by rw [htext]; simp only [INT_MAX]; omega)
  rw [htext] at hN
  obtain ⟨r, h1, h2, h3, h4, h5⟩ := hN N (Nat.le_refl _)
  refine ⟨N, bufferAfter m buf r, BitVec.ofInt 32 ((made pre i).length : Nat), fun fuel hf => ?_, ⟨?_, h3, h4⟩, fun a ha => h5 a (by omega)⟩
  · obtain ⟨r', g1, g2, g3, g4, g5⟩ := hN fuel hf
    have hb : bufferAfter m buf r' = bufferAfter m buf r := by
      funext a
      by_cases h : a < buf ∨ buf + (made pre i).length < a
      · rw [g5 a h, h5 a h]
      · by_cases h' : a = buf + (made pre i).length
        · rw [h', g4, h4]
        · have hi : a - buf < (made pre i).length := by omega
          have e := g3 _ hi
          have e' := h3 _ hi
          rw [show buf + (a - buf) = a by omega] at e e'
          rw [e, e']
    simp only [sprintf, snprintf, g1, Option.map_some, hb, g2]
  · intro c hc
    unfold made at hc
    rcases List.mem_append.mp hc with h | h
    · exact (hp c h).1
    · have := digits_isDig i c h
      rintro rfl
      exact absurd this.1 (by decide)

theorem made_inj {pre : String} {i j : Nat} (h : made pre i = made pre j) : i = j := by
  have := List.append_cancel_left h
  rw [← readDigits_digits i, ← readDigits_digits j, this]

theorem made_apart (i j : Nat) : made ".t" i ≠ made ".label." j := by
  intro h
  have h1 : (made ".t" i).take 2 = textBytes ".t" := rfl
  have h2 : (made ".label." j).take 2 = textBytes ".l" := rfl
  rw [h, h2] at h1
  exact absurd h1 (by decide)

theorem made_short {pre : String} (hl : (textBytes pre).length ≤ 7) {i : Nat} (hi : i < 2 ^ 31) : (made pre i).length < 32 := by
  unfold made
  rw [List.length_append, digits_length]
  have := digLen_le (b := 10) (n := i) (k := 10) (by omega) (by omega) (by omega)
  omega

theorem mem_madeAll : ∀ {qs : List Request} {i j : Nat} {t : List Byte}, t ∈ madeAll i j qs →
    (∃ k, i ≤ k ∧ k < i + qs.length ∧ t = made ".t" k) ∨ ∃ k, j ≤ k ∧ k < j + qs.length ∧ t = made ".label." k
  | .temp :: qs, i, j, t, h => by
    simp only [madeAll, List.mem_cons] at h
    simp only [List.length_cons]
    rcases h with rfl | h
    · exact Or.inl ⟨i, by omega, by omega, rfl⟩
    · rcases mem_madeAll h with ⟨k, h1, h2, e⟩ | ⟨k, h1, h2, e⟩
      · exact Or.inl ⟨k, by omega, by omega, e⟩
      · exact Or.inr ⟨k, by omega, by omega, e⟩
  | .label :: qs, i, j, t, h => by
    simp only [madeAll, List.mem_cons] at h
    simp only [List.length_cons]
    rcases h with rfl | h
    · exact Or.inr ⟨j, by omega, by omega, rfl⟩
    · rcases mem_madeAll h with ⟨k, h1, h2, e⟩ | ⟨k, h1, h2, e⟩
      · exact Or.inl ⟨k, by omega, by omega, e⟩
      · exact Or.inr ⟨k, by omega, by omega, e⟩

theorem nodup_madeAll : ∀ (qs : List Request) (i j : Nat), (madeAll i j qs).Nodup
  | [], _, _ => List.nodup_nil
  | .temp :: qs, i, j => by
    refine List.nodup_cons.mpr ⟨fun h => ?_, nodup_madeAll qs _ _⟩
    rcases mem_madeAll h with ⟨k, h1, h2, e⟩ | ⟨k, h1, h2, e⟩
    · have := made_inj e; omega
    · exact made_apart _ _ e
  | .label :: qs, i, j => by
    refine List.nodup_cons.mpr ⟨fun h => ?_, nodup_madeAll qs _ _⟩
    rcases mem_madeAll h with ⟨k, h1, h2, e⟩ | ⟨k, h1, h2, e⟩
    · exact made_apart _ _ e.symm
    · have := made_inj e; omega

theorem yields_madeAll (buf fmtT fmtL : Nat) : ∀ (qs : List Request) (i j : Nat), i + j + qs.length ≤ 2 ^ 31 →
    Yields buf fmtT fmtL (BitVec.ofNat 32 i) (BitVec.ofNat 32 j) qs (madeAll i j qs)
  | [], _, _, _ => trivial
  | .temp :: qs, i, j, h => by
    simp only [List.length_cons] at h
    have e1 : BitVec.ofNat 32 i + 1 = BitVec.ofNat 32 (i + 1) := by
      apply BitVec.eq_of_toNat_eq
      simp
    refine ⟨fun m hT hL => ?_, ?_⟩
    · obtain ⟨N, m', v, h1, h2, h3⟩ := sprintf_made (buf := buf) (pre := ".t") (by decide) (by decide) hT (i := i) (by omega)
      exact ⟨N, ⟨BitVec.ofNat 32 i + 1, BitVec.ofNat 32 j, m'⟩, fun fuel hf => by simp only [Request.serve, genName, h1 fuel hf, Option.map_some],
        h2, h3, rfl, rfl⟩
    · dsimp only
      rw [e1]
      exact yields_madeAll buf fmtT fmtL qs (i + 1) j (by omega)
  | .label :: qs, i, j, h => by
    simp only [List.length_cons] at h
    have e1 : BitVec.ofNat 32 j + 1 = BitVec.ofNat 32 (j + 1) := by
      apply BitVec.eq_of_toNat_eq
      simp
    refine ⟨fun m hT hL => ?_, ?_⟩
    · obtain ⟨N, m', v, h1, h2, h3⟩ := sprintf_made (buf := buf) (pre := ".label.") (by decide) (by decide) hL (i := j) (by omega)
      exact ⟨N, ⟨BitVec.ofNat 32 i, BitVec.ofNat 32 j + 1, m'⟩, fun fuel hf => by simp only [Request.serve, genLabel, h1 fuel hf, Option.map_some],
        h2, h3, rfl, rfl⟩
    · dsimp only
      rw [e1]
      exact yields_madeAll buf fmtT fmtL qs i (j + 1) (by omega)

/-- **C104.** Up to 2^31 requests for names of temporaries and labels, in any order and in whatever memory: each leaves a
NUL-terminated text in the 32 bytes of the buffer and changes nothing else; no two texts of the history are equal; and none
is spelled like an identifier or a keyword of the source. -/
theorem C104_names (buf fmtT fmtL : Nat) (qs : List Request) (h : qs.length ≤ 2 ^ 31) :
    ∃ ts, Yields buf fmtT fmtL 0 0 qs ts ∧ ts.Nodup ∧
      ∀ t ∈ ts, t.length < 32 ∧ (∀ w, (CLex.Token.ident w).Valid → t ≠ w.map ascii) ∧ ∀ k ∈ CLex.keywords, t ≠ textBytes k.2 := by
  refine ⟨madeAll 0 0 qs, yields_madeAll buf fmtT fmtL qs 0 0 (by omega), nodup_madeAll qs 0 0, fun t ht => ?_⟩
  have hd : t.length < 32 ∧ t.head? = some (ascii '.') := by
    rcases mem_madeAll ht with ⟨k, h1, h2, rfl⟩ | ⟨k, h1, h2, rfl⟩
    · exact ⟨made_short (by decide) (by omega), rfl⟩
    · exact ⟨made_short (by decide) (by omega), rfl⟩
  refine ⟨hd.1, ?_, ?_⟩
  · rintro w hw rfl
    obtain ⟨hne, hc, _⟩ := hw
    cases w with
    | nil => exact hne rfl
    | cons c w =>
      have h1 : ascii c = ascii '.' := by simpa using hd.2
      have h2 : ∀ c ∈ CLex.wordChars, ascii c ≠ ascii '.' := by decide +kernel
      exact h2 c (hc c List.mem_cons_self) h1
  · rintro k hk rfl
    have h2 : ∀ k ∈ CLex.keywords, (textBytes k.2).head? ≠ some (ascii '.') := by decide +kernel
    exact h2 k hk hd.2

/-- Four requests: `.t0`, `.label.0`, `.t1`, `.label.1`. -/
example : Yields 1000 2000 3000 0 0 [.temp, .label, .temp, .label]
    [textBytes ".t0", textBytes ".label.0", textBytes ".t1", textBytes ".label.1"] :=
  yields_madeAll 1000 2000 3000 [.temp, .label, .temp, .label] 0 0 (by decide)

end Shecc.Props
