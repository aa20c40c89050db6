import Verif.Model.Globals

/-!
# C26–C32: containers and symbol tables
-/

namespace Shecc.Props
open Shecc.Globals

/-! ## C27 -/

theorem and_pow2_lt (x : CInt) (k : Nat) (hk : k ≤ 30) : (x &&& (BitVec.ofNat 32 (2 ^ k) - 1)).toNat < 2 ^ k := by
  have hp : 2 ^ k ≤ 2 ^ 30 := Nat.pow_le_pow_right (by omega) hk
  have hp1 : 1 ≤ 2 ^ k := Nat.one_le_two_pow
  have : (BitVec.ofNat 32 (2 ^ k) - 1 : CInt).toNat = 2 ^ k - 1 := by
    rw [BitVec.toNat_sub]; simp; omega
  rw [BitVec.toNat_and, this, Nat.and_two_pow_sub_one_eq_mod]
  exact Nat.mod_lt _ hp1

/-- **C27.** The bucket index of every key is inside the table, whatever the signedness of `char`, for every table size
that is a power of two. -/
theorem C27_index (sx : BitVec 8 → CInt) (key : CStr) (k : Nat) (hk : k ≤ 30) :
    0 ≤ (hashmap_hash_index sx (BitVec.ofNat 32 (2 ^ k)) key).toInt ∧
    (hashmap_hash_index sx (BitVec.ofNat 32 (2 ^ k)) key).toInt < 2 ^ k := by
  have h := and_pow2_lt ((hashLoop sx 0x811c9dc5 key ^^^ (hashLoop sx 0x811c9dc5 key).sshiftRight 31) -
    (hashLoop sx 0x811c9dc5 key).sshiftRight 31) k hk
  have hp : 2 ^ k ≤ 2 ^ 30 := Nat.pow_le_pow_right (by omega) hk
  have e : (hashmap_hash_index sx (BitVec.ofNat 32 (2 ^ k)) key).toInt =
      ((hashmap_hash_index sx (BitVec.ofNat 32 (2 ^ k)) key).toNat : Int) := by
    rw [BitVec.toInt_eq_toNat_cond]
    unfold hashmap_hash_index
    simp only
    rw [if_pos (by omega)]
  rw [e]
  unfold hashmap_hash_index
  simp only
  refine ⟨by omega, ?_⟩
  have : ((2 : Int) ^ k) = ((2 ^ k : Nat) : Int) := by simp
  rw [this]; exact_mod_cast h

/-- bits above `p` are clear, the `k` bits up to `p` are set -/
def Smear (v : CInt) (p k : Nat) : Prop :=
  (∀ i, p < i → v.getLsbD i = false) ∧ (∀ i, i ≤ p → p < i + k → v.getLsbD i = true)

theorem smear_step {v : CInt} {p k : Nat} (h : Smear v p k) (hp : p < 31) :
    Smear (v ||| v.sshiftRight k) p (2 * k) := by
  have hm : v.msb = false := by
    rw [BitVec.msb_eq_getLsbD_last]; exact h.1 31 hp
  constructor
  · intro i hi
    rw [BitVec.getLsbD_or, h.1 i hi, BitVec.getLsbD_sshiftRight, hm]
    simp
    intro h1 h2
    exact h.1 _ (by omega)
  · intro i h1 h2
    rw [BitVec.getLsbD_or, BitVec.getLsbD_sshiftRight]
    by_cases c : p < i + k
    · rw [h.2 i h1 c]; rfl
    · have : v.getLsbD (k + i) = true := h.2 _ (by omega) (by omega)
      simp [this, show ¬ 32 ≤ i by omega, show k + i < 32 by omega]

/-- **C27 (sizes).** `round_up_pow2` gives the least power of two not below the requested size. -/
theorem C27_round_up (v : Nat) (h1 : 1 ≤ v) (h2 : v ≤ 2 ^ 30) :
    ∃ k, k ≤ 30 ∧ round_up_pow2 (BitVec.ofNat 32 v) = BitVec.ofNat 32 (2 ^ k) ∧ v ≤ 2 ^ k ∧
      ∀ j, v ≤ 2 ^ j → 2 ^ k ≤ 2 ^ j := by
  by_cases hv : v = 1
  · subst hv
    exact ⟨0, by omega, by decide, by decide, fun j _ => Nat.pow_le_pow_right (by omega) (by omega)⟩
  have hn : (BitVec.ofNat 32 v - 1 : CInt) = BitVec.ofNat 32 (v - 1) := by
    apply BitVec.eq_of_toNat_eq
    rw [BitVec.toNat_sub]; simp; omega
  obtain ⟨p, hp1, hp2⟩ : ∃ p, 2 ^ p ≤ v - 1 ∧ v - 1 < 2 ^ (p + 1) :=
    ⟨Nat.log2 (v - 1), Nat.log2_self_le (by omega), Nat.lt_log2_self⟩
  have hp30 : p < 30 := by
    apply Classical.byContradiction
    intro hc
    have : 2 ^ 30 ≤ 2 ^ p := Nat.pow_le_pow_right (by omega) (by omega)
    omega
  have s0 : Smear (BitVec.ofNat 32 (v - 1)) p 1 := by
    constructor
    · intro i hi
      rw [BitVec.getLsbD_ofNat]
      have : (v - 1).testBit i = false :=
        Nat.testBit_lt_two_pow (Nat.lt_of_lt_of_le hp2 (Nat.pow_le_pow_right (by omega) hi))
      simp [this]
    · intro i h1 h2
      have : i = p := by omega
      subst this
      rw [BitVec.getLsbD_ofNat]
      have : (v - 1).testBit i = true := by
        rw [Nat.testBit_eq_decide_div_mod_eq]
        have : (v - 1) / 2 ^ i = 1 := by
          apply Nat.div_eq_of_lt_le <;> rw [Nat.pow_succ] at * <;> omega
        simp [this]
      simp [this]; omega
  have s5 := smear_step (smear_step (smear_step (smear_step (smear_step s0 (by omega)) (by omega)) (by omega))
    (by omega)) (by omega)
  refine ⟨p + 1, by omega, ?_, by omega, ?_⟩
  · unfold round_up_pow2
    simp only [hn]
    simp only [Nat.reduceMul] at s5
    generalize hw : (BitVec.ofNat 32 (v - 1) ||| BitVec.sshiftRight (BitVec.ofNat 32 (v - 1)) 1) = w1 at *
    generalize hw2 : (w1 ||| w1.sshiftRight 2) = w2 at *
    generalize hw3 : (w2 ||| w2.sshiftRight 4) = w3 at *
    generalize hw4 : (w3 ||| w3.sshiftRight 8) = w4 at *
    generalize hw5 : (w4 ||| w4.sshiftRight 16) = w5 at *
    have : w5 = BitVec.ofNat 32 (2 ^ (p + 1) - 1) := by
      apply BitVec.eq_of_getLsbD_eq
      intro i hi
      rw [BitVec.getLsbD_ofNat, Nat.testBit_two_pow_sub_one]
      by_cases c : i ≤ p
      · rw [s5.2 i c (by omega)]; simp; omega
      · rw [s5.1 i (by omega)]; simp; omega
    rw [this]
    have := Nat.pow_le_pow_right (n := 2) (by omega) (show p + 1 ≤ 30 by omega)
    have := Nat.one_le_two_pow (n := p + 1)
    apply BitVec.eq_of_toNat_eq
    simp
    omega
  · intro j hj
    apply Nat.pow_le_pow_right (by omega)
    apply Classical.byContradiction
    intro hc
    have : 2 ^ j ≤ 2 ^ p := Nat.pow_le_pow_right (by omega) (by omega)
    omega

example : round_up_pow2 512 = 512 ∧ round_up_pow2 513 = 1024 ∧ round_up_pow2 1 = 1 := by decide

/-! ## C26 -/

/-- specification: the value of the first insertion with that key (NULL = 0 if none) -/
def firstInserted (hist : List (CStr × Nat)) (key : CStr) : Nat :=
  ((hist.find? (·.1 = key)).map (·.2)).getD 0

theorem chainGet_eq (key : CStr) (l : List (CStr × Nat)) : chainGet key l = firstInserted l key := by
  induction l with
  | nil => rfl
  | cons p l ih =>
    obtain ⟨k, v⟩ := p
    simp only [chainGet, firstInserted, List.find?_cons] at *
    by_cases h : k = key <;> simp [h, ih]

theorem put_size (sx : BitVec 8 → CInt) (hist : List (CStr × Nat)) : ∀ m : HashMap,
    (hist.foldl (fun m p => hashmap_put sx m p.1 p.2) m).size = m.size := by
  induction hist with
  | nil => intro m; rfl
  | cons p h ih => intro m; rw [List.foldl_cons, ih]; rfl

theorem puts_bucket (sx : BitVec 8 → CInt) (hist : List (CStr × Nat)) : ∀ (m : HashMap) (i : CInt),
    (hist.foldl (fun m p => hashmap_put sx m p.1 p.2) m).buckets i =
      m.buckets i ++ hist.filter (fun p => hashmap_hash_index sx m.size p.1 = i) := by
  induction hist with
  | nil => intro m i; simp
  | cons p h ih =>
    intro m i
    rw [List.foldl_cons, ih]
    simp only [hashmap_put, List.filter_cons]
    by_cases c : hashmap_hash_index sx m.size p.1 = i
    · subst c; rw [if_pos rfl]; simp; rfl
    · rw [if_neg (fun h => c h.symm)]; simp [c]; rfl

/-- **C26.** After any history of insertions into a new table of any requested size, looking up a key gives the value
of the first insertion with that key, and NULL if there was none. -/
theorem C26_get (sx : BitVec 8 → CInt) (size : CInt) (hist : List (CStr × Nat)) (key : CStr) :
    hashmap_get sx (hist.foldl (fun m p => hashmap_put sx m p.1 p.2) (hashmap_create size)) key =
      firstInserted hist key := by
  unfold hashmap_get
  rw [put_size, puts_bucket, chainGet_eq]
  simp only [hashmap_create, List.nil_append, firstInserted]
  congr 2
  induction hist with
  | nil => rfl
  | cons p h ih =>
    by_cases c : p.1 = key
    · simp [List.find?_cons, List.filter_cons, c]
    · rw [List.filter_cons]
      split
      · rw [List.find?_cons, List.find?_cons, ih]
      · rw [List.find?_cons, ih]; simp [c]

/-- **C26.** `hashmap_contains` holds exactly for the keys whose first inserted value is not NULL. -/
theorem C26_contains (sx : BitVec 8 → CInt) (size : CInt) (hist : List (CStr × Nat)) (key : CStr)
    (hv : ∀ p ∈ hist, p.2 ≠ 0) :
    hashmap_contains sx (hist.foldl (fun m p => hashmap_put sx m p.1 p.2) (hashmap_create size)) key = true ↔
      ∃ v, (key, v) ∈ hist := by
  unfold hashmap_contains
  rw [C26_get]
  unfold firstInserted
  constructor
  · intro h
    cases hf : hist.find? (·.1 = key) with
    | none => simp [hf] at h
    | some p =>
      have h1 := List.find?_some hf
      have h2 := List.mem_of_find?_eq_some hf
      simp at h1
      exact ⟨p.2, by rw [← h1]; exact h2⟩
  · rintro ⟨v, hm⟩
    cases hf : hist.find? (·.1 = key) with
    | none =>
      have := List.find?_eq_none.mp hf _ hm
      simp at this
    | some p =>
      have h2 := List.mem_of_find?_eq_some hf
      simpa [hf] using hv p h2

/-- The documented "replace" behaviour of `hashmap_put` does not hold: the second value is not found. -/
theorem C26_replace_fails : ∃ (k : CStr) (v w : Nat), v ≠ 0 ∧ w ≠ v ∧
    hashmap_get (·.signExtend 32) (hashmap_put (·.signExtend 32) (hashmap_put (·.signExtend 32) (hashmap_create 512) k v)
      k w) k = v := by
  refine ⟨[102#8], 1, 2, by decide, by decide, ?_⟩
  have := C26_get (·.signExtend 32) 512 [([102#8], 1), ([102#8], 2)] [102#8]
  simpa [firstInserted] using this

/-! ## C28 -/

/-- the table after registering `names` in order -/
def registered (sx : BitVec 8 → CInt) (size : CInt) (names : List CStr) : FuncTable :=
  names.foldl (fun t n => (add_func sx t n).1) ⟨hashmap_create size, []⟩

/-- Invariant: the map was built by inserting the heap objects in order under their own, distinct names. -/
structure FtInv (sx : BitVec 8 → CInt) (size : CInt) (names : List CStr) (t : FuncTable) : Prop where
  map : ∃ hist : List (CStr × Nat), t.map = hist.foldl (fun m p => hashmap_put sx m p.1 p.2) (hashmap_create size) ∧
    hist = t.heap.mapIdx (fun i f => (f.name, i + 1))
  nodup : (t.heap.map (·.name)).Nodup
  same : ∀ n, n ∈ t.heap.map (·.name) ↔ n ∈ names
  stack : ∀ f ∈ t.heap, f.stackSize = 4

theorem find_mapIdx (heap : List Func) (n : CStr) (f : Nat → Nat) :
    (heap.mapIdx (fun i g => (g.name, f i))).find? (·.1 = n) =
      (heap.findIdx? (·.name = n)).map (fun i => (n, f i)) := by
  induction heap generalizing f with
  | nil => rfl
  | cons g heap ih =>
    rw [List.mapIdx_cons, List.find?_cons, List.findIdx?_cons]
    by_cases c : g.name = n
    · simp [c]
    · simp only [c, decide_false]
      rw [show (fun i g => (Func.name g, f (i + 1))) = fun i g => (Func.name g, (fun i => f (i + 1)) i) from rfl, ih]
      simp [Option.map_map, Function.comp_def]

theorem find_func_eq {sx : BitVec 8 → CInt} {size : CInt} {names : List CStr} {t : FuncTable}
    (h : FtInv sx size names t) (n : CStr) :
    find_func sx t n = ((t.heap.findIdx? (·.name = n)).map (· + 1)).getD 0 := by
  obtain ⟨hist, h1, h2⟩ := h.map
  unfold find_func
  rw [h1, C26_get, h2, firstInserted, find_mapIdx]
  cases t.heap.findIdx? (·.name = n) <;> rfl

theorem ft_inv (sx : BitVec 8 → CInt) (size : CInt) (names : List CStr) :
    FtInv sx size names (registered sx size names) := by
  suffices ∀ (names old : List CStr) (t : FuncTable), FtInv sx size old t →
      FtInv sx size (old ++ names) (names.foldl (fun t n => (add_func sx t n).1) t) by
    have := this names [] ⟨hashmap_create size, []⟩ ⟨⟨[], rfl, rfl⟩, by simp, by simp, by simp⟩
    simpa [registered] using this
  clear names
  intro names
  induction names with
  | nil => intro old t h; simpa using h
  | cons n names ih =>
    intro old t h
    rw [List.foldl_cons, show old ++ n :: names = (old ++ [n]) ++ names by simp]
    apply ih
    have hf := find_func_eq h n
    unfold add_func
    unfold find_func at hf
    simp only [hashmap_contains, hf]
    cases hi : t.heap.findIdx? (·.name = n) with
    | none =>
      simp only [Option.map_none, Option.getD_none]
      have hnot : n ∉ t.heap.map (·.name) := by
        intro hm
        obtain ⟨f, h1, h2⟩ := List.mem_map.mp hm
        have := List.findIdx?_eq_none_iff.mp hi f h1
        simp [h2] at this
      simp only [bne_self_eq_false, Bool.false_eq_true, if_false]
      obtain ⟨hist, h1, h2⟩ := h.map
      constructor
      · refine ⟨hist ++ [(n, t.heap.length + 1)], ?_, ?_⟩
        · simp only [List.foldl_append, List.foldl_cons, List.foldl_nil, ← h1]
        · simp [h2, List.mapIdx_append]
      · simp only [List.map_append, List.map_cons, List.map_nil]
        rw [List.nodup_append]
        exact ⟨h.nodup, by simp, by intro a ha b hb; simp at hb; subst hb; intro e; exact hnot (e ▸ ha)⟩
      · intro m
        simp only [List.map_append, List.map_cons, List.map_nil, List.mem_append, h.same m, List.mem_singleton]
      · intro f hf
        simp only [List.mem_append, List.mem_singleton] at hf
        rcases hf with hf | rfl
        · exact h.stack f hf
        · rfl
    | some i =>
      simp only [Option.map_some, Option.getD_some, Nat.add_sub_cancel]
      have : (i + 1 != 0) = true := by simp
      simp only [this, if_true]
      have hid : t.heap.modify i (fun f => { f with stackSize := 4 }) = t.heap := by
        apply List.ext_getElem?
        intro j
        rw [List.getElem?_modify]
        split
        · cases hj : t.heap[j]? with
          | none => rfl
          | some f =>
            have := h.stack f (List.mem_of_getElem? hj)
            cases f; simp at this; subst this; rfl
        · simp
      rw [hid]
      refine ⟨h.map, h.nodup, ?_, h.stack⟩
      intro m
      rw [h.same m]
      have hn : n ∈ old := by
        rw [← h.same n]
        obtain ⟨hlt, hp, _⟩ := List.findIdx?_eq_some_iff_getElem.mp hi
        simp at hp
        exact List.mem_map.mpr ⟨_, List.getElem_mem hlt, hp⟩
      simp only [List.mem_append, List.mem_singleton]
      constructor
      · exact .inl
      · rintro (h1 | rfl)
        · exact h1
        · exact hn

/-- **C28.** After registering functions in any order, with any repetitions and hash collisions: `find_func` finds
exactly the registered names; the entry found carries that name; distinct names have distinct entries; every entry has
the initial frame size. -/
theorem C28_find_func (sx : BitVec 8 → CInt) (size : CInt) (names : List CStr) :
    let t := registered sx size names
    (∀ n, find_func sx t n ≠ 0 ↔ n ∈ names) ∧
    (∀ n ∈ names, ∃ f, t.heap[find_func sx t n - 1]? = some f ∧ f.name = n ∧ f.stackSize = 4) ∧
    (∀ n ∈ names, ∀ m ∈ names, find_func sx t n = find_func sx t m → n = m) := by
  have h := ft_inv sx size names
  simp only
  generalize registered sx size names = t at h
  have key : ∀ n ∈ names, ∃ i f, t.heap.findIdx? (·.name = n) = some i ∧ t.heap[i]? = some f ∧ f.name = n := by
    intro n hn
    cases hi : t.heap.findIdx? (·.name = n) with
    | none =>
      obtain ⟨f, h1, h2⟩ := List.mem_map.mp ((h.same n).mpr hn)
      have := List.findIdx?_eq_none_iff.mp hi f h1
      simp [h2] at this
    | some i =>
      obtain ⟨hlt, hp, _⟩ := List.findIdx?_eq_some_iff_getElem.mp hi
      simp at hp
      exact ⟨i, t.heap[i], rfl, by simp, hp⟩
  refine ⟨?_, ?_, ?_⟩
  · intro n
    rw [find_func_eq h]
    constructor
    · intro hne
      cases hi : t.heap.findIdx? (·.name = n) with
      | none => simp [hi] at hne
      | some i =>
        rw [← h.same n]
        obtain ⟨hlt, hp, _⟩ := List.findIdx?_eq_some_iff_getElem.mp hi
        simp at hp
        exact List.mem_map.mpr ⟨_, List.getElem_mem hlt, hp⟩
    · intro hn
      obtain ⟨i, f, h1, _⟩ := key n hn
      simp [h1]
  · intro n hn
    obtain ⟨i, f, h1, h2, h3⟩ := key n hn
    refine ⟨f, ?_, h3, h.stack f (List.mem_of_getElem? h2)⟩
    rw [find_func_eq h, h1]; simpa using h2
  · intro n hn m hm heq
    obtain ⟨i, f, h1, h2, h3⟩ := key n hn
    obtain ⟨j, g, k1, k2, k3⟩ := key m hm
    rw [find_func_eq h, find_func_eq h, h1, k1] at heq
    simp at heq
    subst heq
    rw [h2] at k2
    simp at k2
    rw [← h3, ← k3, k2]

/-- **C28 (stability).** Registering more functions never moves an existing entry. -/
theorem C28_stable (sx : BitVec 8 → CInt) (size : CInt) (names more : List CStr) (n : CStr) (hn : n ∈ names) :
    find_func sx (registered sx size (names ++ more)) n = find_func sx (registered sx size names) n := by
  suffices ∀ (more names : List CStr), n ∈ names →
      find_func sx (registered sx size (names ++ more)) n = find_func sx (registered sx size names) n from
    this more names hn
  intro more
  induction more with
  | nil => intro names _; simp
  | cons m more ih =>
    intro names hn
    rw [show names ++ m :: more = (names ++ [m]) ++ more by simp, ih _ (by simp [hn])]
    have h := ft_inv sx size names
    have h' := ft_inv sx size (names ++ [m])
    rw [find_func_eq h', find_func_eq h]
    congr 2
    have hstep : registered sx size (names ++ [m]) = (add_func sx (registered sx size names) m).1 := by
      simp [registered]
    rw [hstep]
    generalize registered sx size names = t at *
    unfold add_func
    split
    · simp only
      apply congrArg
      rename_i hc
      have : t.heap.modify (hashmap_get sx t.map m - 1) (fun f => { f with stackSize := 4 }) = t.heap := by
        apply List.ext_getElem?
        intro j
        rw [List.getElem?_modify]
        split
        · cases hj : t.heap[j]? with
          | none => rfl
          | some f =>
            have := h.stack f (List.mem_of_getElem? hj)
            cases f; simp at this; subst this; rfl
        · simp
      rw [this]
    · simp only
      rw [List.findIdx?_append]
      cases hi : t.heap.findIdx? (·.name = n) with
      | some i => simp
      | none =>
        obtain ⟨f, h1, h2⟩ := List.mem_map.mp ((h.same n).mpr hn)
        have := List.findIdx?_eq_none_iff.mp hi f h1
        simp [h2] at this

end Shecc.Props
