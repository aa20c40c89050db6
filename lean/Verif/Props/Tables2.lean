import Verif.Model.Globals

/-!
# C29–C32: arena, source buffer, macros, scopes
-/

namespace Shecc.Props
open Shecc.Globals

/-! ## C29 -/

/-- What a client does with an arena: allocate, and write inside what it got (`write k i v`: byte `i` of the `k`-th
allocation). -/
inductive AOp
  | alloc (size : Nat)
  | write (k i : Nat) (v : BitVec 8)

/-- The arena and the areas handed out so far: (block, offset, size). -/
structure AState where
  arena : Arena
  given : List (Nat × Nat × Nat)

def astep (s : AState) : AOp → AState
  | .alloc n =>
    let r := arena_alloc s.arena n
    ⟨r.1, s.given ++ [(r.2.1, r.2.2, n)]⟩
  | .write k i v =>
    match s.given[k]? with
    | some (b, o, n) =>
      if i < n then
        { s with arena := s.arena.modify b fun blk => { blk with mem := fun a => if a = o + i then v else blk.mem a } }
      else s
    | none => s

/-- Sizes the client may ask for. -/
def AOp.ok : AOp → Prop
  | .alloc n => 0 < n ∧ n < 2 ^ 30
  | .write .. => True

structure AInv (s : AState) : Prop where
  cap : ∀ b ∈ s.arena, b.offset ≤ b.capacity ∧ b.capacity ≤ 2 ^ 30
  zero : ∀ b ∈ s.arena, ∀ a, b.offset ≤ a → b.mem a = 0
  inside : ∀ b o n, (b, o, n) ∈ s.given → ∃ blk, s.arena[b]? = some blk ∧ o + n ≤ blk.offset
  disjoint : s.given.Pairwise fun x y => x.1 = y.1 → x.2.1 + x.2.2 ≤ y.2.1

theorem fits_iff {b : ABlock} {n : Nat} (h1 : b.offset ≤ b.capacity) (h2 : b.capacity ≤ 2 ^ 30) (h3 : n < 2 ^ 30) :
    fits b n = true ↔ b.offset + n ≤ b.capacity := by
  unfold fits
  rw [BitVec.sle_iff_toInt_le, BitVec.toInt_eq_toNat_cond, BitVec.toInt_eq_toNat_cond, BitVec.toNat_add]
  simp only [BitVec.toNat_ofNat]
  have e1 : b.offset % 2 ^ 32 = b.offset := Nat.mod_eq_of_lt (by omega)
  have e2 : n % 2 ^ 32 = n := Nat.mod_eq_of_lt (by omega)
  have e3 : b.capacity % 2 ^ 32 = b.capacity := Nat.mod_eq_of_lt (by omega)
  have e4 : (b.offset + n) % 2 ^ 32 = b.offset + n := Nat.mod_eq_of_lt (by omega)
  rw [e1, e2, e3, e4, if_pos (by omega), if_pos (by omega)]
  omega

theorem arena_alloc_spec (a : Arena) (n : Nat) (hn : n < 2 ^ 30)
    (hc : ∀ b ∈ a, b.offset ≤ b.capacity ∧ b.capacity ≤ 2 ^ 30) :
    (∃ blk, a[(arena_alloc a n).2.1]? = some blk ∧ (arena_alloc a n).2.2 = blk.offset ∧
      blk.offset + n ≤ blk.capacity ∧
      (arena_alloc a n).1 = a.set (arena_alloc a n).2.1 { blk with offset := blk.offset + n }) ∨
    ((arena_alloc a n).2 = (a.length, 0) ∧ ∃ cap, n ≤ cap ∧ cap ≤ 2 ^ 30 ∧
      (arena_alloc a n).1 = a ++ [⟨fun _ => 0, cap, n⟩]) := by
  induction a with
  | nil =>
    right
    simp only [arena_alloc, arena_block_create, List.length_nil, List.nil_append, true_and]
    refine ⟨_, ?_, ?_, rfl⟩
    · split <;> simp only [DEFAULT_ARENA_SIZE] at * <;> omega
    · split <;> simp only [DEFAULT_ARENA_SIZE] at * <;> omega
  | cons b a ih =>
    have hb := hc b List.mem_cons_self
    have hf := fits_iff hb.1 hb.2 hn
    unfold arena_alloc
    by_cases h : fits b n = true
    · left
      rw [if_pos h]
      exact ⟨b, rfl, rfl, hf.mp h, rfl⟩
    · rw [if_neg h]
      rcases ih (fun x hx => hc x (List.mem_cons_of_mem _ hx)) with ⟨blk, h1, h2, h3, h4⟩ | ⟨h1, cap, h2, h3, h4⟩
      · left
        exact ⟨blk, by simpa using h1, by simpa using h2, h3, by simp [h4]⟩
      · right
        refine ⟨?_, cap, h2, h3, by simp [h4]⟩
        simp only [h1, List.length_cons]

theorem ainv_step (s : AState) (op : AOp) (h : AInv s) (ho : op.ok) : AInv (astep s op) := by
  cases op with
  | alloc n =>
    obtain ⟨ho1, ho2⟩ := ho
    simp only [astep]
    rcases arena_alloc_spec s.arena n ho2 h.cap with ⟨blk, h1, h2, h3, h4⟩ | ⟨h1, cap, h2, h3, h4⟩
    · generalize hk : (arena_alloc s.arena n).2.1 = k at *
      have hm : blk ∈ s.arena := List.mem_of_getElem? h1
      have hlt : k < s.arena.length := (List.getElem?_eq_some_iff.mp h1).1
      constructor
      · intro b hb
        rw [h4] at hb
        rcases List.mem_or_eq_of_mem_set hb with hb | rfl
        · exact h.cap b hb
        · exact ⟨h3, (h.cap blk hm).2⟩
      · intro b hb
        rw [h4] at hb
        rcases List.mem_or_eq_of_mem_set hb with hb | rfl
        · exact h.zero b hb
        · intro a ha; exact h.zero blk hm a (by simp at ha; omega)
      · intro b o m hmem
        simp only [List.mem_append, List.mem_singleton, Prod.mk.injEq] at hmem
        rw [h4]
        rcases hmem with hmem | ⟨rfl, rfl, rfl⟩
        · obtain ⟨bk, e1, e2⟩ := h.inside b o m hmem
          by_cases hbk : k = b
          · subst hbk
            rw [h1] at e1; simp at e1; subst e1
            exact ⟨{ blk with offset := blk.offset + n }, by simp [hlt], by simp; omega⟩
          · exact ⟨bk, by rw [List.getElem?_set_ne hbk]; exact e1, e2⟩
        · exact ⟨{ blk with offset := blk.offset + m }, by simp [hlt], by simp [h2]⟩
      · rw [List.pairwise_append]
        refine ⟨h.disjoint, by simp, ?_⟩
        intro x hx y hy hxy
        simp only [List.mem_singleton] at hy
        subst hy
        obtain ⟨b, o, m⟩ := x
        simp only at hxy
        subst hxy
        obtain ⟨bk, e1, e2⟩ := h.inside _ o m hx
        rw [h1] at e1; simp at e1; subst e1
        simpa [h2] using e2
    · rw [h1, h4]
      constructor
      · intro b hb
        simp only [List.mem_append, List.mem_singleton] at hb
        rcases hb with hb | rfl
        · exact h.cap b hb
        · exact ⟨h2, h3⟩
      · intro b hb
        simp only [List.mem_append, List.mem_singleton] at hb
        rcases hb with hb | rfl
        · exact h.zero b hb
        · intro a _; rfl
      · intro b o m hmem
        simp only [List.mem_append, List.mem_singleton, Prod.mk.injEq] at hmem
        rcases hmem with hmem | ⟨rfl, rfl, rfl⟩
        · obtain ⟨bk, e1, e2⟩ := h.inside b o m hmem
          have := (List.getElem?_eq_some_iff.mp e1).1
          exact ⟨bk, by rw [List.getElem?_append_left this]; exact e1, e2⟩
        · exact ⟨⟨fun _ => 0, cap, m⟩, by simp, by simp⟩
      · rw [List.pairwise_append]
        refine ⟨h.disjoint, by simp, ?_⟩
        intro x hx y hy hxy
        simp only [List.mem_singleton] at hy
        subst hy
        obtain ⟨b, o, m⟩ := x
        simp only at hxy
        subst hxy
        obtain ⟨bk, e1, e2⟩ := h.inside _ o m hx
        have := (List.getElem?_eq_some_iff.mp e1).1
        omega
  | write k i v =>
    simp only [astep]
    split
    · rename_i b o n hg
      split
      · rename_i hi
        have hmem := List.mem_of_getElem? hg
        obtain ⟨bk, e1, e2⟩ := h.inside b o n hmem
        have hmod : ∀ x ∈ s.arena.modify b (fun blk => { blk with mem := fun a => if a = o + i then v else blk.mem a }),
            x ∈ s.arena ∨ x = { bk with mem := fun a => if a = o + i then v else bk.mem a } := by
          intro x hx
          obtain ⟨j, hj⟩ := List.getElem?_of_mem hx
          rw [List.getElem?_modify] at hj
          by_cases hb : b = j
          · subst hb; simp [e1] at hj; exact .inr hj.symm
          · simp [hb] at hj; exact .inl (List.mem_of_getElem? hj)
        constructor
        · intro x hx
          rcases hmod x hx with hx | rfl
          · exact h.cap x hx
          · exact h.cap bk (List.mem_of_getElem? e1)
        · intro x hx a ha
          rcases hmod x hx with hx | rfl
          · exact h.zero x hx a ha
          · simp only at ha ⊢
            rw [if_neg (by omega)]
            exact h.zero bk (List.mem_of_getElem? e1) a ha
        · intro b' o' n' hm'
          obtain ⟨bk', e1', e2'⟩ := h.inside b' o' n' hm'
          rw [List.getElem?_modify, e1']
          refine ⟨_, rfl, ?_⟩
          by_cases hb : b = b'
          · simp [hb, e2']
          · simp [hb, e2']
        · exact h.disjoint
      · exact h
    · exact h

theorem ainv (cap : Nat) (hcap : cap ≤ 2 ^ 30) (ops : List AOp) (hops : ∀ op ∈ ops, op.ok) :
    AInv (ops.foldl astep ⟨arena_init cap, []⟩) := by
  suffices ∀ (ops : List AOp) (s : AState), AInv s → (∀ op ∈ ops, op.ok) → AInv (ops.foldl astep s) from
    this ops _ ⟨by simp [arena_init, arena_block_create, hcap], by simp [arena_init, arena_block_create], by simp,
      by simp⟩ hops
  intro ops
  induction ops with
  | nil => intro s h _; exact h
  | cons op ops ih =>
    intro s h ho
    exact ih _ (ainv_step s op h (ho op List.mem_cons_self)) (fun x hx => ho x (List.mem_cons_of_mem _ hx))

/-- **C29.** For every history of allocations (and writes inside allocated areas): every area handed out lies inside
its block, and areas handed out at different times do not overlap. -/
theorem C29_arena (cap : Nat) (hcap : cap ≤ 2 ^ 30) (ops : List AOp) (hops : ∀ op ∈ ops, op.ok) :
    let s := ops.foldl astep ⟨arena_init cap, []⟩
    (∀ b o n, (b, o, n) ∈ s.given → ∃ blk, s.arena[b]? = some blk ∧ o + n ≤ blk.capacity) ∧
    (∀ (i j bi oi ni bj oj nj : Nat), i < j → s.given[i]? = some (bi, oi, ni) → s.given[j]? = some (bj, oj, nj) →
      bi ≠ bj ∨ ∀ a, ¬ (oi ≤ a ∧ a < oi + ni ∧ oj ≤ a ∧ a < oj + nj)) := by
  have h := ainv cap hcap ops hops
  simp only
  generalize ops.foldl astep ⟨arena_init cap, []⟩ = s at h
  constructor
  · intro b o n hm
    obtain ⟨blk, h1, h2⟩ := h.inside b o n hm
    exact ⟨blk, h1, by have := (h.cap blk (List.mem_of_getElem? h1)).1; omega⟩
  · intro i j bi oi ni bj oj nj hij h1 h2
    by_cases hb : bi = bj
    · right
      intro a
      have hp := List.pairwise_iff_getElem.mp h.disjoint
      obtain ⟨l1, e1⟩ := List.getElem?_eq_some_iff.mp h1
      obtain ⟨l2, e2⟩ := List.getElem?_eq_some_iff.mp h2
      have := hp i j l1 l2 hij
      rw [e1, e2] at this
      have := this hb
      simp only at this
      omega
    · exact .inl hb

/-- **C29 (zeroed).** Memory is zero when it is handed out, whatever was written before. -/
theorem C29_zeroed (cap : Nat) (hcap : cap ≤ 2 ^ 30) (ops : List AOp) (hops : ∀ op ∈ ops, op.ok) (n : Nat)
    (h0 : 0 < n) (hn : n < 2 ^ 30) :
    let s := ops.foldl astep ⟨arena_init cap, []⟩
    let r := arena_alloc s.arena n
    ∃ blk : ABlock, r.1[r.2.1]? = some blk ∧ ∀ i : Nat, i < n → blk.mem (r.2.2 + i) = 0 := by
  have h := ainv cap hcap ops hops
  simp only
  generalize ops.foldl astep ⟨arena_init cap, []⟩ = s at h
  rcases arena_alloc_spec s.arena n hn h.cap with ⟨blk, h1, h2, h3, h4⟩ | ⟨h1, c, h2, h3, h4⟩
  · have hlt := (List.getElem?_eq_some_iff.mp h1).1
    refine ⟨{ blk with offset := blk.offset + n }, by rw [h4]; simp [hlt], ?_⟩
    intro i _
    rw [h2]
    exact h.zero blk (List.mem_of_getElem? h1) _ (by omega)
  · rw [h1, h4]
    exact ⟨⟨fun _ => 0, c, n⟩, by simp, fun _ _ => rfl⟩

example : ∀ op ∈ [AOp.alloc 24, .write 0 3 7, .alloc 300000, .alloc 8], op.ok := by simp [AOp.ok]

/-- Outside the size limit the capacity test overflows: an allocation is granted in a block far too small. -/
theorem C29_overflow : ∃ n : Nat, n < 2 ^ 31 ∧ ∃ b o,
    (arena_alloc (arena_alloc (arena_init 64) 8).1 n).2 = (b, o) ∧
    ∃ blk, (arena_alloc (arena_alloc (arena_init 64) 8).1 n).1[b]? = some blk ∧ blk.capacity < n := by
  refine ⟨2 ^ 31 - 1, by omega, 0, 8, ?_, ?_⟩
  · decide
  · exact ⟨_, rfl, by decide⟩

/-- `arena_reset` does not clear memory: the "zero-initialized" guarantee ends at the first reset. -/
theorem C29_reset_not_zeroed : ∃ ops : List AOp, (∀ op ∈ ops, op.ok) ∧
    let s := ops.foldl astep ⟨arena_init 64, []⟩
    let r := arena_alloc (arena_reset s.arena) 4
    ∃ blk, r.1[r.2.1]? = some blk ∧ blk.mem r.2.2 ≠ 0 := by
  refine ⟨[.alloc 4, .write 0 0 7], by simp [AOp.ok], ?_⟩
  exact ⟨_, rfl, by decide⟩

/-! ## C30 -/

/-- **C30.** After any sequence of pushes the buffer holds exactly those characters in order, and fits. -/
theorem C30_source (junk : Nat → BitVec 8) (cap : Nat) (hcap : 0 < cap) (cs : List (BitVec 8)) :
    let s := cs.foldl (source_push junk) (create_source junk cap)
    s.size = cs.length ∧ s.elements.take s.size = cs ∧ s.size ≤ s.capacity ∧ s.elements.length = s.capacity := by
  suffices ∀ (cs old : List (BitVec 8)) (s : Source),
      s.size = old.length → s.elements.take s.size = old → s.size ≤ s.capacity → s.elements.length = s.capacity →
      0 < s.capacity →
      let t := cs.foldl (source_push junk) s
      t.size = (old ++ cs).length ∧ t.elements.take t.size = old ++ cs ∧ t.size ≤ t.capacity ∧
        t.elements.length = t.capacity from by
    have := this cs [] (create_source junk cap) rfl rfl (by simp [create_source]) (by simp [create_source])
      (by simpa [create_source] using hcap)
    simpa using this
  intro cs
  induction cs with
  | nil => intro old s h1 h2 h3 h4 _; simpa using ⟨h1, h2, h3, h4⟩
  | cons c cs ih =>
    intro old s h1 h2 h3 h4 h5
    simp only [List.foldl_cons]
    rw [show old ++ c :: cs = (old ++ [c]) ++ cs by simp]
    have key : ∃ s', source_expand junk s = s' ∧ s'.size = s.size ∧ s'.elements.take s.size = old ∧
        s'.size < s'.capacity ∧ s'.elements.length = s'.capacity := by
      unfold source_expand
      split
      · exact ⟨s, rfl, rfl, h2, by omega, h4⟩
      · refine ⟨_, rfl, rfl, ?_, ?_, ?_⟩
        · simp only
          rw [h2, List.take_append_of_le_length (by omega), List.take_of_length_le (by omega)]
        · simp only; omega
        · simp only [List.length_append, List.length_take, List.length_drop, List.length_map, List.length_range]
          omega
    obtain ⟨s', e, k1, k2, k3, k4⟩ := key
    apply ih
    · simp [source_push, e, k1, h1]
    · simp only [source_push, e]
      rw [List.take_succ_eq_append_getElem (by simp; omega), List.take_set_of_le (by omega)]
      simp [k1, k2]
    · simp only [source_push, e]; omega
    · simp [source_push, e, k4]
    · simp only [source_push, e]; omega

example : (([1, 2, 3] : List (BitVec 8)).foldl (source_push fun _ => 0xFF) (create_source (fun _ => 0xFF) 1)).elements
    = [1, 2, 3, 0xFF] := by decide

/-! ## C31 -/

inductive MOp
  | define (name value : CStr)
  | undef (name : CStr)

def mstep (l : List Alias) : MOp → List Alias
  | .define n v => add_alias l n v
  | .undef n => (remove_alias l n).1

/-- Specification: for each name the pending definitions, oldest first. -/
def pending (ops : List MOp) (n : CStr) : List CStr :=
  ops.foldl (fun q op => match op with
      | .define m v => if m = n then q ++ [v] else q
      | .undef m => if m = n then q.drop 1 else q) []

def enabled (l : List Alias) (n : CStr) : List CStr :=
  (l.filter fun a => !a.disabled && n == a.alias).map (·.value)

theorem find_enabled (l : List Alias) (n : CStr) : find_alias l n = (enabled l n).head? := by
  induction l with
  | nil => rfl
  | cons a l ih =>
    unfold enabled at *
    rw [find_alias, List.filter_cons]
    split <;> simp [ih]

theorem remove_enabled (l : List Alias) (n m : CStr) :
    enabled (remove_alias l m).1 n = if m = n then (enabled l n).drop 1 else enabled l n := by
  induction l with
  | nil => simp [enabled, remove_alias]
  | cons a l ih =>
    rw [remove_alias]
    by_cases c : (!a.disabled && m == a.alias) = true
    · rw [if_pos c]
      simp only [Bool.and_eq_true, Bool.not_eq_true', beq_iff_eq] at c
      unfold enabled
      by_cases hmn : m = n
      · subst hmn
        simp [List.filter_cons, c.1, c.2]
      · have : (n == a.alias) = false := by simp [← c.2]; exact fun h => hmn h.symm
        simp [List.filter_cons, this, hmn]
    · rw [if_neg c]
      simp only
      have : ∀ r, enabled (a :: r) n = (if !a.disabled && n == a.alias then [a.value] else []) ++ enabled r n := by
        intro r; unfold enabled; rw [List.filter_cons]; split <;> simp
      rw [this, this, ih]
      by_cases hmn : m = n
      · subst hmn
        simp only [if_true]
        rw [if_neg c]; rfl
      · simp [hmn]

theorem mstep_pending (ops : List MOp) (n : CStr) : enabled (ops.foldl mstep []) n = pending ops n := by
  suffices ∀ (ops : List MOp) (l : List Alias) (q : List CStr), enabled l n = q →
      enabled (ops.foldl mstep l) n = ops.foldl (fun q op => match op with
      | .define m v => if m = n then q ++ [v] else q
      | .undef m => if m = n then q.drop 1 else q) q from this ops [] [] rfl
  intro ops
  induction ops with
  | nil => intro l q h; exact h
  | cons op ops ih =>
    intro l q h
    rw [List.foldl_cons, List.foldl_cons]
    apply ih
    cases op with
    | define m v =>
      simp only [mstep, add_alias]
      unfold enabled at *
      rw [List.filter_append, List.map_append, h]
      by_cases c : m = n
      · simp [c, List.filter_cons]
      · have : (n == m) = false := by simp; exact fun h => c h.symm
        simp [c, List.filter_cons, this]
    | undef m =>
      simp only [mstep]
      rw [remove_enabled, h]

/-- **C31.** After any history of `#define` and `#undef`, the replacement of a name is that of its earliest definition
not consumed by an `#undef`; names not mentioned are unaffected. -/
theorem C31_find (ops : List MOp) (n : CStr) : find_alias (ops.foldl mstep []) n = (pending ops n).head? := by
  rw [find_enabled, mstep_pending]

/-- C semantics of the same history: the last `#define` since the last `#undef`. -/
def cMacro (ops : List MOp) (n : CStr) : Option CStr :=
  ops.foldl (fun cur op => match op with
    | .define m v => if m = n then some v else cur
    | .undef m => if m = n then none else cur) none

/-- No name is defined while it is defined (C allows redefinition only with the same replacement). -/
def NoRedefinition (ops : List MOp) : Prop :=
  ∀ pre n v post, ops = pre ++ MOp.define n v :: post → cMacro pre n = none

/-- **C31 (C conformance).** In histories without redefinition, lookups give what the C standard says. -/
theorem C31_conforms (ops : List MOp) (h : NoRedefinition ops) (n : CStr) :
    find_alias (ops.foldl mstep []) n = cMacro ops n := by
  suffices ∀ (ops : List MOp), NoRedefinition ops → pending ops n = (cMacro ops n).toList by
    rw [C31_find, this ops h]; cases cMacro ops n <;> rfl
  clear h ops
  intro ops h
  have aux : ∀ r : List MOp, NoRedefinition r.reverse → pending r.reverse n = (cMacro r.reverse n).toList := by
    intro r
    induction r with
    | nil => intro _; rfl
    | cons op r ih =>
      intro h
      rw [List.reverse_cons] at *
      have hr : NoRedefinition r.reverse := fun pre m v post e =>
        h pre m v (post ++ [op]) (by rw [e]; simp)
      have := ih hr
      unfold pending cMacro at *
      rw [List.foldl_append, List.foldl_append, this]
      simp only [List.foldl_cons, List.foldl_nil]
      cases op with
      | define m v =>
        simp only
        split
        · rename_i hm
          subst hm
          have : cMacro r.reverse m = none := h r.reverse m v [] rfl
          unfold cMacro at this
          rw [this]; rfl
        · rfl
      | undef m =>
        simp only
        split
        · cases List.foldl _ none r.reverse <;> rfl
        · rfl
  have := aux ops.reverse
  rw [List.reverse_reverse] at this
  exact this h

/-- With a redefinition the code departs from C: `#define A 1`, `#define A 2`, `#undef A` leaves `A` defined. -/
theorem C31_redefinition_resurfaces : ∃ ops n, cMacro ops n = none ∧ find_alias (ops.foldl mstep []) n ≠ none := by
  refine ⟨[.define [65] [49], .define [65] [50], .undef [65]], [65], by decide, by decide⟩

/-- ... and before the `#undef` the first replacement is still used. -/
theorem C31_redefinition_ignored : ∃ ops n, cMacro ops n = some [50] ∧ find_alias (ops.foldl mstep []) n = some [49] := by
  refine ⟨[.define [65] [49], .define [65] [50]], [65], by decide, by decide⟩

example : NoRedefinition [.define [65] [49], .undef [65], .define [65] [50]] := by
  intro pre n v post h
  match pre, h with
  | [], h => simp at h; obtain ⟨⟨rfl, rfl⟩, _⟩ := h; rfl
  | [_], h => simp at h
  | [_, _], h => simp at h; obtain ⟨rfl, rfl, ⟨rfl, rfl⟩, _⟩ := h; decide
  | _ :: _ :: _ :: _, h => simp at h

/-! ## C32 -/

/-- `d` is the first declaration of `token` in a list of declarations. -/
def Declares (l : List Decl) (token : CStr) (d : Decl) : Prop :=
  ∃ pre post, l = pre ++ d :: post ∧ d.name = token ∧ ∀ e ∈ pre, e.name ≠ token

/-- No declaration of `token` in the list. -/
def Absent (l : List Decl) (token : CStr) : Prop := ∀ e ∈ l, e.name ≠ token

/-- Lexical scoping: the innermost enclosing block that declares the name, then a parameter, then a global. -/
inductive Resolves (token : CStr) : List (List Decl) → List Decl → List Decl → Decl → Prop
  | block {inner b outer params globals d} : (∀ c ∈ inner, Absent c token) → Declares b token d →
      Resolves token (inner ++ b :: outer) params globals d
  | param {scope params globals d} : (∀ c ∈ scope, Absent c token) → Declares params token d →
      Resolves token scope params globals d
  | glob {scope params globals d} : (∀ c ∈ scope, Absent c token) → Absent params token → Declares globals token d →
      Resolves token scope params globals d

theorem findIn_some {l : List Decl} {token : CStr} {d : Decl} (h : findIn l token = some d) : Declares l token d := by
  induction l with
  | nil => simp [findIn] at h
  | cons a l ih =>
    rw [findIn] at h
    split at h
    · simp at h; subst h; exact ⟨[], l, rfl, by assumption, by simp⟩
    · obtain ⟨pre, post, rfl, h2, h3⟩ := ih h
      exact ⟨a :: pre, post, rfl, h2, by simpa using ⟨by assumption, h3⟩⟩

theorem findIn_none {l : List Decl} {token : CStr} (h : findIn l token = none) : Absent l token := by
  induction l with
  | nil => simp [Absent]
  | cons a l ih =>
    rw [findIn] at h
    split at h
    · simp at h
    · intro e he
      rcases List.mem_cons.mp he with rfl | he
      · assumption
      · exact ih h e he

theorem Declares.not_absent {l : List Decl} {token : CStr} {d : Decl} (h : Declares l token d) : ¬ Absent l token := by
  obtain ⟨pre, post, rfl, h2, _⟩ := h
  intro ha; exact ha d (by simp) h2

theorem find_local_cases (token : CStr) (params : List Decl) : ∀ scope : List (List Decl),
    (∃ inner b outer d, scope = inner ++ b :: outer ∧ (∀ c ∈ inner, Absent c token) ∧ Declares b token d ∧
      find_local_var token scope params = some d) ∨
    ((∀ c ∈ scope, Absent c token) ∧ find_local_var token scope params = findIn params token) := by
  intro scope
  induction scope with
  | nil => right; exact ⟨by simp, rfl⟩
  | cons b scope ih =>
    rw [find_local_var]
    cases hb : findIn b token with
    | some d => left; exact ⟨[], b, scope, d, rfl, by simp, findIn_some hb, rfl⟩
    | none =>
      have ha := findIn_none hb
      rcases ih with ⟨inner, b', outer, d, rfl, h1, h2, h3⟩ | ⟨h1, h2⟩
      · left
        exact ⟨b :: inner, b', outer, d, rfl, by simpa using ⟨ha, h1⟩, h2, h3⟩
      · right; exact ⟨by simpa using ⟨ha, h1⟩, h2⟩

/-- **C32.** `find_var` resolves a name by lexical scope, and fails exactly when no declaration is visible. -/
theorem C32_scope (token : CStr) (scope : List (List Decl)) (params globals : List Decl) :
    (∀ d, find_var token scope params globals = some d → Resolves token scope params globals d) ∧
    (find_var token scope params globals = none ↔
      (∀ c ∈ scope, Absent c token) ∧ Absent params token ∧ Absent globals token) := by
  unfold find_var find_global_var
  rcases find_local_cases token params scope with ⟨inner, b, outer, d, rfl, h1, h2, h3⟩ | ⟨h1, h2⟩
  · rw [h3]
    refine ⟨fun e he => by simp at he; subst he; exact .block h1 h2, ?_⟩
    simp only [reduceCtorEq, false_iff]
    intro h
    exact h2.not_absent (h.1 b (by simp))
  · rw [h2]
    cases hp : findIn params token with
    | some d =>
      refine ⟨fun e he => by simp at he; subst he; exact .param h1 (findIn_some hp), ?_⟩
      simp only [reduceCtorEq, false_iff]
      intro h
      exact (findIn_some hp).not_absent h.2.1
    | none =>
      have hpa := findIn_none hp
      simp only
      cases hg : findIn globals token with
      | some d =>
        refine ⟨fun e he => by simp at he; subst he; exact .glob h1 hpa (findIn_some hg), ?_⟩
        simp only [reduceCtorEq, false_iff]
        intro h
        exact (findIn_some hg).not_absent h.2.2
      | none => exact ⟨fun d hd => by simp at hd, by simp [h1, hpa, findIn_none hg]; exact h1⟩

/-- **C32 (uniqueness).** The specification determines the declaration. -/
theorem C32_unique (token : CStr) (scope : List (List Decl)) (params globals : List Decl) (d : Decl)
    (h : Resolves token scope params globals d) : find_var token scope params globals = some d := by
  have decl : ∀ {l : List Decl} {d}, Declares l token d → findIn l token = some d := by
    rintro l d ⟨pre, post, rfl, h2, h3⟩
    induction pre with
    | nil => simp [findIn, h2]
    | cons a pre ih =>
      rw [List.cons_append, findIn, if_neg (h3 a (by simp))]
      exact ih (fun e he => h3 e (List.mem_cons_of_mem _ he))
  have abs : ∀ {l : List Decl}, Absent l token → findIn l token = none := by
    intro l h
    cases hf : findIn l token with
    | none => rfl
    | some d => exact absurd h (findIn_some hf).not_absent
  have skip : ∀ (inner rest : List (List Decl)), (∀ c ∈ inner, Absent c token) →
      find_local_var token (inner ++ rest) params = find_local_var token rest params := by
    intro inner rest hi
    induction inner with
    | nil => rfl
    | cons a inner ih =>
      rw [List.cons_append, find_local_var, abs (hi a (by simp))]
      exact ih (fun c hc => hi c (List.mem_cons_of_mem _ hc))
  unfold find_var find_global_var
  cases h with
  | block h1 h2 => rw [skip _ _ h1, find_local_var, decl h2]
  | param h1 h2 =>
    have := skip scope [] h1
    rw [List.append_nil] at this
    rw [this, find_local_var, decl h2]
  | glob h1 h2 h3 =>
    have := skip scope [] h1
    rw [List.append_nil] at this
    rw [this, find_local_var, abs h2]
    exact decl h3

example : find_var [120] [[⟨[121], 1⟩], [⟨[120], 2⟩, ⟨[120], 3⟩]] [⟨[120], 4⟩] [⟨[120], 5⟩] = some ⟨[120], 2⟩ := by decide

end Shecc.Props
