import Verif.Lemmas.CseInsn

/-! # C106: the lists of uses of every variable stay intact while common subexpressions are eliminated -/

namespace Shecc.Props
open UseChain

/-- The instructions that use the variable `v`, in program order, twice if both operands are `v`. -/
def usesIn (o : Operands) (insns : List Nat) (v : Nat) : List Nat :=
  insns.flatMap fun i => (if o.rs1 i = some v then [i] else []) ++ (if o.rs2 i = some v then [i] else [])

/-- The instructions one meets following `next`, `none` if an element is not alive or the list has no end. -/
def forward (s : Chains) : Nat → Option Nat → Option (List Nat)
  | _, none => some []
  | 0, some _ => none
  | n + 1, some w => (s.node w).bind fun nd => (forward s n nd.next).map (nd.insn :: ·)

/-- The same following `prev`. -/
def backward (s : Chains) : Nat → Option Nat → Option (List Nat)
  | _, none => some []
  | 0, some _ => none
  | n + 1, some w => (s.node w).bind fun nd => (backward s n nd.prev).map (nd.insn :: ·)

/-- Additions that a call of the pass replaces: those with the same operands as the addition before the read, which pass the
tests. -/
def replaced (o : Operands) (insns : List Nat) (c : Call) : List Nat :=
  insns.filter fun i => decide (i ≠ c.prev) && c.ok i && decide (o.rs1 i = o.rs1 c.prev) && decide (o.rs2 i = o.rs2 c.prev)

/-- The calls start at additions of the program that are still there, with two different operands; what has been replaced is
no longer an addition with a read behind it. -/
def Legal (o : Operands) (insns : List Nat) : List Nat → List Call → Prop
  | _, [] => True
  | out, c :: cs => c.prev ∈ insns ∧ c.prev ∉ out ∧ (∃ b x, o.rs1 c.prev = some b ∧ o.rs2 c.prev = some x ∧ b ≠ x) ∧
      (∀ j ∈ out, c.ok j = false) ∧ Legal o insns (out ++ replaced o insns c) cs

/-- No element, all heads and tails null: variables are allocated by `calloc`. -/
def noChains : Chains := ⟨fun _ => none, fun _ => none, fun _ => none⟩

theorem forward_seg {s : Chains} (l : List (Nat × Nat)) {p n} (h : Seg s.node p l none) (hn : l.length ≤ n) :
    forward s n (hd l none) = some (l.map Prod.snd) := by
  induction l generalizing p n with
  | nil => cases n <;> rfl
  | cons x l ih =>
    obtain ⟨n, rfl⟩ : ∃ m, n = m + 1 := ⟨n - 1, by simp at hn; omega⟩
    change ((s.node x.1).bind fun nd => (forward s n nd.next).map (nd.insn :: ·)) = _
    rw [h.1]
    change (forward s n (hd l none)).map (x.2 :: ·) = _
    rw [ih h.2 (by simpa using hn)]; rfl

theorem backward_seg {s : Chains} (k : Nat) : ∀ (l : List (Nat × Nat)) {nx n}, l.length = k → Seg s.node none l nx → l.length ≤ n →
    backward s n (lst l none) = some (l.map Prod.snd).reverse := by
  induction k with
  | zero =>
    intro l nx n hk _ _
    have : l = [] := List.eq_nil_of_length_eq_zero hk
    subst this; cases n <;> rfl
  | succ k ih =>
    intro l nx n hk h hn
    rcases List.eq_nil_or_concat l with e | ⟨a, y, e⟩
    · subst e; cases hk
    · rw [List.concat_eq_append] at e
      subst e
      rw [seg_append] at h
      simp only [List.length_append, List.length_cons, List.length_nil] at hk hn
      obtain ⟨n, rfl⟩ : ∃ m, n = m + 1 := ⟨n - 1, by omega⟩
      rw [lst_append]
      simp only [lst, backward, h.2.1, Option.bind_some]
      rw [ih a (by omega) h.1 (by omega)]
      simp

theorem usesOf_filter (o : Operands) (insns : List Nat) (v : Nat) :
    ((insns.flatMap (usesOf o)).filter fun x => x.2 = v).map Prod.fst = usesIn o insns v := by
  induction insns with
  | nil => rfl
  | cons i insns ih =>
    simp only [usesIn, List.flatMap_cons, List.filter_append, List.map_append] at ih ⊢
    rw [ih]
    congr 1
    simp only [usesOf, List.filter_append, List.map_append]
    congr 1
    · cases o.rs1 i with
      | none => simp
      | some w => by_cases e : w = v <;> simp [e]
    · cases o.rs2 i with
      | none => simp
      | some w => by_cases e : w = v <;> simp [e]

theorem usesIn_length (o : Operands) (insns : List Nat) (v : Nat) : (usesIn o insns v).length ≤ 2 * insns.length := by
  induction insns with
  | nil => simp [usesIn]
  | cons i insns ih =>
    simp only [usesIn, List.flatMap_cons, List.length_append, List.length_cons] at ih ⊢
    have h1 : (if o.rs1 i = some v then [i] else []).length ≤ 1 := by split <;> simp
    have h2 : (if o.rs2 i = some v then [i] else []).length ≤ 1 := by split <;> simp
    omega

theorem usesOf_length (o : Operands) (insns : List Nat) : (insns.flatMap (usesOf o)).length ≤ 2 * insns.length := by
  induction insns with
  | nil => simp
  | cons i insns ih =>
    simp only [List.flatMap_cons, List.length_append, List.length_cons]
    have h1 : (usesOf o i).length ≤ 2 := by
      simp only [usesOf]
      cases o.rs1 i <;> cases o.rs2 i <;> simp
    omega

theorem usesIn_selects (o : Operands) (insns : List Nat) (b x : Nat) (hbx : b ≠ x) (P : Nat → Bool)
    (hP : ∀ i, P i = true → o.rs1 i = some b ∧ o.rs2 i = some x) : (usesIn o insns b).filter P = insns.filter P := by
  induction insns with
  | nil => rfl
  | cons i insns ih =>
    simp only [usesIn, List.flatMap_cons, List.filter_append, List.filter_cons] at ih ⊢
    rw [ih]
    by_cases h : P i = true
    · obtain ⟨h1, h2⟩ := hP i h
      have : ¬ x = b := fun e => hbx e.symm
      simp [h, h1, h2, this]
    · have h : P i = false := by simpa using h
      simp only [h]
      have e1 : (if o.rs1 i = some b then [i] else []).filter P = [] := by split <;> simp [h]
      have e2 : (if o.rs2 i = some b then [i] else []).filter P = [] := by split <;> simp [h]
      simp [e1, e2]

theorem mem_usesIn (o : Operands) (insns : List Nat) (v i : Nat) :
    i ∈ usesIn o insns v ↔ i ∈ insns ∧ (o.rs1 i = some v ∨ o.rs2 i = some v) := by
  simp only [usesIn, List.mem_flatMap, List.mem_append]
  constructor
  · rintro ⟨j, hj, h⟩
    rcases h with h | h <;> split at h <;> simp at h <;> subst h <;> exact ⟨hj, by simp [*]⟩
  · rintro ⟨h, h'⟩
    refine ⟨i, h, ?_⟩
    rcases h' with h' | h' <;> simp [h']

/-- The chains after `build`, as the invariant of the proofs. -/
theorem build_valid (o : Operands) (insns addrs : List Nat) (hnd : insns.Nodup) (ha : addrs.Nodup)
    (hl : 2 * insns.length ≤ addrs.length) :
    ∃ s L, build o insns addrs noChains = some s ∧ Valid s L ∧ Paired o L ∧ ∀ v, users L v = usesIn o insns v := by
  have V0 : Valid noChains (fun _ => []) :=
    ⟨fun _ => trivial, fun _ => rfl, fun _ => rfl, fun _ _ _ h => by simp at h, fun _ => by simp⟩
  obtain ⟨s, L, e, V, h⟩ := addAll_valid (insns.flatMap (usesOf o)) addrs noChains (fun _ => []) V0 ha (by simp)
    (Nat.le_trans (usesOf_length o insns) hl)
  have hu : ∀ v, users L v = usesIn o insns v := by
    intro v
    rw [users, h v, usesOf_filter]; simp
  refine ⟨s, L, e, V, fun i b x h1 h2 hbx => ?_, hu⟩
  rw [hu, hu, mem_usesIn, mem_usesIn]
  refine ⟨?_, fun h => ⟨h.1, Or.inr h2⟩⟩
  change List.countP (fun k => k == i) _ ≤ 1
  rw [List.countP_eq_length_filter, usesIn_selects o insns b x hbx (fun k => k == i) (by
    intro k hk; simp at hk; subst hk; exact ⟨h1, h2⟩), ← List.countP_eq_length_filter]
  exact List.nodup_iff_count.mp hnd i

/-- **C106.** When the lists of uses have been built, the list of every variable holds exactly the instructions that use it, in
program order, and can be walked in both directions. -/
theorem C106_lists (o : Operands) (insns addrs : List Nat) (hnd : insns.Nodup) (ha : addrs.Nodup)
    (hl : 2 * insns.length ≤ addrs.length) :
    ∃ s, build o insns addrs noChains = some s ∧ ∀ v n, 2 * insns.length ≤ n →
      forward s n (s.head v) = some (usesIn o insns v) ∧ backward s n (s.tail v) = some (usesIn o insns v).reverse := by
  obtain ⟨s, L, e, V, _, hu⟩ := build_valid o insns addrs hnd ha hl
  refine ⟨s, e, fun v n hn => ?_⟩
  have hlen : (L v).length ≤ n := by
    have := usesIn_length o insns v
    rw [← hu v, users, List.length_map] at this
    omega
  rw [← hu v, V.head, V.tail]
  exact ⟨forward_seg _ (V.seg v) hlen, backward_seg _ _ rfl (V.seg v) hlen⟩

theorem calls_spec (o : Operands) (insns : List Nat) (n : Nat) (hn : 4 * insns.length + 1 < n) (cs : List Call) :
    ∀ (out : List Nat) (s : Chains) (L : Nat → List (Nat × Nat)), Valid s L → Paired o L →
    (∀ v, (L v).length ≤ 2 * insns.length) →
    (∀ v (P : Nat → Bool), (∀ j ∈ out, P j = false) → (users L v).filter P = (usesIn o insns v).filter P) →
    Legal o insns out cs →
    ∃ s' L', calls o n cs out s = some (out ++ cs.flatMap (replaced o insns), s') ∧ Valid s' L' ∧
      ∀ v i, i ∉ out ++ cs.flatMap (replaced o insns) → (i ∈ users L' v ↔ i ∈ usesIn o insns v) := by
  induction cs with
  | nil =>
    intro out s L V _ _ hk _
    refine ⟨s, L, by simp [calls], V, fun v i hi => ?_⟩
    have hi : i ∉ out := by simpa using hi
    have := hk v (fun k => k = i) (fun j hj => by
      have : j ≠ i := fun e => hi (e ▸ hj)
      simpa using this)
    constructor
    · intro h
      have h' : i ∈ (users L v).filter (fun k => k = i) := List.mem_filter.mpr ⟨h, by simp⟩
      rw [this] at h'; exact (List.mem_filter.mp h').1
    · intro h
      have h' : i ∈ (usesIn o insns v).filter (fun k => k = i) := List.mem_filter.mpr ⟨h, by simp⟩
      rw [← this] at h'; exact (List.mem_filter.mp h').1
  | cons c cs ih =>
    intro out s L V hP hlen hk hL
    obtain ⟨hc1, hc2, ⟨b, x, hb, hx, hbx⟩, hok, hrest⟩ := hL
    have hsel : ∀ i, selected o c.ok c.prev b x i = true → o.rs1 i = some b ∧ o.rs2 i = some x := by
      intro i h
      simp only [selected, Bool.and_eq_true, decide_eq_true_eq] at h
      exact ⟨h.1.2, h.2⟩
    have hout : (users L b).filter (selected o c.ok c.prev b x) = replaced o insns c := by
      rw [hk b _ (fun j hj => by simp [selected, hok j hj]), usesIn_selects o insns b x hbx _ hsel, replaced, hb, hx]
      rfl
    have hprev : c.prev ∈ users L x := by
      have := hk x (fun k => k = c.prev) (fun j hj => by
        have : j ≠ c.prev := fun e => hc2 (e ▸ hj)
        simpa using this)
      have hm : c.prev ∈ (usesIn o insns x).filter (fun k => k = c.prev) :=
        List.mem_filter.mpr ⟨(mem_usesIn o insns x c.prev).mpr ⟨hc1, Or.inr hx⟩, by simp⟩
      rw [← this] at hm
      exact (List.mem_filter.mp hm).1
    have hsel' : ∀ i, selected o c.ok c.prev b x i = true → i ≠ c.prev ∧ o.rs1 i = some b ∧ o.rs2 i = some x := by
      intro i h
      refine ⟨?_, hsel i h⟩
      simp only [selected, Bool.and_eq_true, decide_eq_true_eq] at h
      exact h.1.1.1
    obtain ⟨_, s1, L1, e1, V1, hP1, hK1, hl1, _⟩ := walk_spec (σ := Unit) (prev := c.prev)
      (test := fun (_ : Unit) i => some (c.ok i && decide (o.rs1 i = some b) && decide (o.rs2 i = some x)))
      (act := fun _ _ => some ()) hbx (selected o c.ok c.prev b x) (fun _ _ => True) (fun _ => True) hsel'
      (fun _ _ i _ _ _ h => ⟨by simp [selected, h], fun _ => ⟨(), rfl, trivial⟩⟩) (L b) n s L [] none none [] ()
      (by have := hlen b; have := hlen x; omega) V hP rfl .none hprev (fun _ _ => trivial) (by simp)
      (by simpa using selected_nodup hP hbx _ hsel) trivial
    have e1' : (L b).map Prod.snd = users L b := rfl
    rw [e1', hout, List.nil_append] at e1 hK1
    obtain ⟨s2, L2, e2, V2, h2⟩ := ih (out ++ replaced o insns c) s1 L1 V1 hP1 (fun v => Nat.le_trans (hl1 v) (hlen v))
      (fun v P hP' => by
        rw [hK1 v P (fun j hj => hP' j (by simp [hj])), hk v P (fun j hj => hP' j (by simp [hj]))]) hrest
    refine ⟨s2, L2, ?_, V2, ?_⟩
    · simp only [calls, cse, hb, hx, V.head b, e1, e2]
      simp
    · simpa using h2

/-- **C106 (partial).** However often common subexpression elimination runs over a program, each time at an addition with two
different operands: no call follows a null pointer or a pointer to a released element, every walk ends, exactly the additions
with the same operands that pass the tests are replaced, and afterwards every list is intact and contains all uses by the
instructions that have not been replaced. -/
theorem C106_walks_partial (o : Operands) (insns addrs : List Nat) (hnd : insns.Nodup) (ha : addrs.Nodup)
    (hl : 2 * insns.length ≤ addrs.length) (cs : List Call) (hL : Legal o insns [] cs) (n : Nat)
    (hn : 4 * insns.length + 1 < n) :
    ∃ s s', build o insns addrs noChains = some s ∧
      calls o n cs [] s = some (cs.flatMap (replaced o insns), s') ∧
      ∀ v, ∃ l, (∃ m, forward s' m (s'.head v) = some l) ∧ (∃ m, backward s' m (s'.tail v) = some l.reverse) ∧
        ∀ i, i ∉ cs.flatMap (replaced o insns) → (i ∈ l ↔ i ∈ insns ∧ (o.rs1 i = some v ∨ o.rs2 i = some v)) := by
  obtain ⟨s, L, e, V, hP, hu⟩ := build_valid o insns addrs hnd ha hl
  obtain ⟨s', L', e', V', h'⟩ := calls_spec o insns n hn cs [] s L V hP (fun v => by
    have := usesIn_length o insns v
    rw [← hu v, users, List.length_map] at this
    exact this) (fun v P _ => by rw [hu]) hL
  refine ⟨s, s', e, by simpa using e', fun v => ⟨users L' v, ⟨(L' v).length, ?_⟩, ⟨(L' v).length, ?_⟩, fun i hi => ?_⟩⟩
  · rw [V'.head]; exact forward_seg _ (V'.seg v) (Nat.le_refl _)
  · rw [V'.tail]; exact backward_seg _ _ rfl (V'.seg v) (Nat.le_refl _)
  · rw [h' v i (by simpa using hi), mem_usesIn]

/-- Releasing the only element of a list goes through the null pointer (`u->next->prev`, where `u->next` is null). -/
theorem C106_only_element_wrong (o : Operands) (insns addrs : List Nat) (hnd : insns.Nodup) (ha : addrs.Nodup)
    (hl : 2 * insns.length ≤ addrs.length) (v i : Nat) (h : usesIn o insns v = [i]) :
    ∃ s u, build o insns addrs noChains = some s ∧ s.head v = some u ∧ delete u v s = none := by
  obtain ⟨s, L, e, V, _, hu⟩ := build_valid o insns addrs hnd ha hl
  have h1 : users L v = [i] := (hu v).trans h
  obtain ⟨x, hx⟩ : ∃ x, L v = [x] := by
    have : (L v).length = 1 := by rw [← List.length_map (f := Prod.snd)]; exact congrArg List.length h1
    exact List.length_eq_one_iff.mp this
  refine ⟨s, x.1, e, by rw [V.head, hx]; rfl, delete_only (hx ▸ V.seg v)⟩

namespace UseChainExample

/-- `a + i; read; a + i; read; a + i; read`: instructions 0, 2, 4 add the variables 10 and 11. -/
def o : Operands :=
  { rs1 := fun i => if i = 0 ∨ i = 2 ∨ i = 4 then some 10 else some (20 + i)
    rs2 := fun i => if i = 0 ∨ i = 2 ∨ i = 4 then some 11 else none }

def first : Call := ⟨0, fun i => i = 2 || i = 4⟩
def second : Call := ⟨0, fun _ => false⟩

theorem legal : Legal o [0, 1, 2, 3, 4, 5] [] [first, second] := by
  refine ⟨by decide, by decide, ⟨10, 11, rfl, rfl, by decide⟩, by simp, ?_⟩
  exact ⟨by decide, by decide, ⟨10, 11, rfl, rfl, by decide⟩, by decide, trivial⟩

/-- The hypotheses of C106 are met; two additions are replaced. -/
example : ∃ s s', build o [0, 1, 2, 3, 4, 5] (List.range 12) noChains = some s ∧
    calls o 26 [first, second] [] s = some ([2, 4], s') := by
  obtain ⟨s, s', h1, h2, _⟩ := C106_walks_partial o [0, 1, 2, 3, 4, 5] (List.range 12) (by decide) List.nodup_range (by decide)
    [first, second] legal 26 (by decide)
  exact ⟨s, s', h1, h2⟩

/-- `x + x; read; x + x; read`. -/
def same : Operands :=
  { rs1 := fun i => if i = 0 ∨ i = 2 then some 10 else some (20 + i)
    rs2 := fun i => if i = 0 ∨ i = 2 then some 10 else none }

end UseChainExample

open UseChainExample in
/-- With equal operands (`*(x + x)` twice) the element is released twice: the walk of the pass has no result, however long. -/
theorem C106_same_operand_wrong :
    ∃ s, build same [0, 1, 2, 3] (List.range 8) noChains = some s ∧ ∀ n, cse same n ⟨0, fun i => i = 2⟩ s = none := by
  refine ⟨_, rfl, fun n => ?_⟩
  match n with
  | 0 | 1 | 2 | 3 | 4 | 5 | 6 | 7 => rfl
  | n + 8 => rfl

/-! ### The instructions -/

/-- What `cse` finds and leaves: the blocks hold the lists `I` of instructions (address, instruction), linked in both
directions; the chains are intact lists `L` (of at most `N` elements); `o` gives the operands of the additions; every addition
in a block is in the chain of its first operand, and an instruction with two different operands is at most once in that of
the first and then also in that of the second; what is in a chain but in no block has no read behind it. -/
def Sound (N : Nat) (o : Operands) (belong : Nat → Nat) (m : Mem) (s : Chains) (I : Nat → List (Nat × Ssa.Insn)) : Prop :=
  Holds belong m I ∧ (∀ c i ii, (i, ii) ∈ I c → ii.op = .alu .add → o.rs1 i = ii.rs1 ∧ o.rs2 i = ii.rs2) ∧
  ∃ L, Valid s L ∧ Paired o L ∧ (∀ v, (L v).length ≤ N) ∧
    (∀ v i, i ∈ users L v → Live I i ∨ (¬ Live I i ∧ Dead m i)) ∧
    ∀ c i ii v, (i, ii) ∈ I c → ii.op = .alu .add → ii.rs1 = some v → i ∈ users L v

/-- The instructions of block `c` without their addresses. -/
def code (I : Nat → List (Nat × Ssa.Insn)) (c : Nat) : List Ssa.Insn := (I c).map Prod.snd

/-- **C106.** Building the lists of uses establishes what elimination needs, for every program: `insns` are the instructions in
the blocks. -/
theorem C106_built (o : Operands) (belong : Nat → Nat) (m : Mem) (I : Nat → List (Nat × Ssa.Insn)) (insns addrs : List Nat)
    (hH : Holds belong m I) (ho : ∀ c i ii, (i, ii) ∈ I c → o.rs1 i = ii.rs1 ∧ o.rs2 i = ii.rs2)
    (hi : ∀ i, i ∈ insns ↔ Live I i) (hnd : insns.Nodup) (ha : addrs.Nodup) (hl : 2 * insns.length ≤ addrs.length) :
    ∃ s, build o insns addrs noChains = some s ∧ Sound (2 * insns.length) o belong m s I := by
  obtain ⟨s, L, e, V, hP, hu⟩ := build_valid o insns addrs hnd ha hl
  refine ⟨s, e, hH, fun c i ii h _ => ho c i ii h, L, V, hP, fun v => ?_, fun v i h => ?_, fun c i ii v h _ hv => ?_⟩
  · have := usesIn_length o insns v
    rw [← hu v, users, List.length_map] at this
    exact this
  · rw [hu, mem_usesIn] at h
    exact Or.inl ((hi i).mp h.1)
  · rw [hu, mem_usesIn]
    exact ⟨(hi i).mpr ⟨c, List.mem_map_of_mem h⟩, Or.inl ((ho c i ii h).1.trans hv)⟩

/-- **C106 (partial).** `cse` on the linked lists does to the instructions of every block what `Model/Cse` (of which C54 and
C98 speak) does to lists of instructions, without undefined behaviour, and keeps everything in order for the next call; for an
address that is the sum of two different variables. -/
theorem C106_instructions_partial {N : Nat} {o : Operands} {belong : Nat → Nat} {m : Mem} {s : Chains}
    {I : Nat → List (Nat × Ssa.Insn)} (hS : Sound N o belong m s I) (isGlobal : Nat → Bool) (idom : Nat → Nat) (fuel : Nat)
    (hf : 2 * N + 1 < fuel) {b p a : Nat} {ip ia : Ssa.Insn} {x y : List (Nat × Ssa.Insn)}
    (e : I b = x ++ (p, ip) :: (a, ia) :: y) {base idx d : Nat} (ht : Cse.target isGlobal ip ia = some (base, idx, d))
    (hbi : base ≠ idx) :
    ∃ m' s' I', cseInsn o isGlobal belong idom fuel b a m s = some (true, m', s') ∧ Sound N o belong m' s' I' ∧
      Cse.cse isGlobal idom fuel (code I) b (x.map Prod.snd) ip ia (y.map Prod.snd) = some (code I') := by
  obtain ⟨hH, hops, L, V, hP, hN, hknown, hall⟩ := hS
  have ht0 := ht
  unfold Cse.target at ht
  split at ht
  case isFalse => cases ht
  rename_i hc
  obtain ⟨hread, hadd, hrd⟩ := hc
  split at ht
  case h_2 => cases ht
  rename_i base' idx' d' h1 h2 h3
  split at ht
  · cases ht
  rename_i hg
  simp only [Option.some.injEq, Prod.mk.injEq] at ht
  obtain ⟨rfl, rfl, rfl⟩ := ht
  let C : Ctx := ⟨o, belong, idom, fuel, b, base', idx', d', p, m, I⟩
  have K : C.Ok := ⟨hH, hops⟩
  have hpmem : (p, ip) ∈ I b := by rw [e]; simp
  have hpo := hops b p ip hpmem hadd
  have hpb : p ∈ users L base' := hall b p ip base' hpmem hadd h1
  have hpi : p ∈ users L idx' := (hP p base' idx' (hpo.1.trans h1) (hpo.2.trans h2) hbi).2 hpb
  have hsel : ∀ i, C.sel i = true → i ≠ p ∧ o.rs1 i = some base' ∧ o.rs2 i = some idx' := by
    intro i h
    simp only [Ctx.sel, selected, Bool.and_eq_true, decide_eq_true_eq] at h
    exact ⟨h.1.1.1, h.1.2, h.2⟩
  have R0 : C.R [] m := by
    refine ⟨?_, by simp, fun i h => ?_⟩
    · have : C.lists [] = I := by
        funext c
        exact rw'_none _ _ _ _ (Nat.le_refl _) (by simp)
      rw [this]; exact hH
    · rcases h with h | h
      · cases h
      · exact h.2
  obtain ⟨m', s', L', e1, V', hP', hK, hlen, hR⟩ := walk_spec (σ := Mem) (o := o)
    (test := testInsn belong idom fuel b base' idx') (act := replaceInsn belong d') (prev := p) hbi C.sel C.R C.Known hsel
    (fun out m'' i hR hU hi hp => Ctx.step K out m'' i hR hU hi hp) (L base') fuel s L [] none none [] m
    (by have := hN base'; have := hN idx'; omega) V hP rfl .none hpi
    (fun u hu => hknown base' u.2 (List.mem_map_of_mem hu)) (by simp)
    (by simpa using selected_nodup hP hbi C.sel (fun i h => (hsel i h).2)) R0
  rw [List.nil_append] at e1 hK hR
  obtain ⟨out, hout⟩ : ∃ out, out = ((L base').map Prod.snd).filter C.sel := ⟨_, rfl⟩
  rw [← hout] at e1 hK hR
  -- what is replaced
  have hmo : ∀ c i ii, (i, ii) ∈ I c → (i ∈ out ↔ C.sel i = true) := by
    intro c i ii him
    rw [hout, List.mem_filter]
    refine ⟨fun h => h.2, fun h => ⟨?_, h⟩⟩
    obtain ⟨c', x', ii', n, j, r, e', hh, _, _⟩ := Ctx.sel_live K (Or.inl ⟨c, List.mem_map_of_mem him⟩) h
    obtain ⟨g1, _, g3, _⟩ := hit_ops hh
    have e'' : I c' = x' ++ (i, ii') :: (n, j) :: r := e'
    exact hall c' i ii' base' (by rw [e'']; simp) g1 g3
  have hpair : ∀ c x' i ii n j r, I c = x' ++ (i, ii) :: (n, j) :: r → i ≠ p →
      (i ∈ out ↔ (Cse.hit base' idx' ii j && Cse.domCheck idom b fuel c) = true) := by
    intro c x' i ii n j r e' hip
    rw [hmo c i ii (by rw [e']; simp)]
    have e'' : C.I c = x' ++ (i, ii) :: (n, j) :: r := e'
    rw [Ctx.sel_eq K e'' hip]
    rfl
  have hlastout : ∀ c i ii x' r, I c = x' ++ (i, ii) :: r → ii.op ≠ .read → ∀ z, x'.getLast? = some z → z.1 ∉ out :=
    fun c i ii x' r e' h => Ctx.last_out K hR.sel e' h
  have hpout : p ∉ out := fun h => (hsel p (hR.sel p h).2).1 rfl
  have haout : a ∉ out := by
    intro h
    have e' : I b = (x ++ [(p, ip)]) ++ (a, ia) :: y := by rw [e]; simp
    have := (Ctx.sel_at K e' (hR.sel a h).1 (hR.sel a h).2).1
    rw [hread] at this; cases this
  -- the cell of the read and of the addition
  have hseg := hH.seg b
  rw [e, seg_append] at hseg
  obtain ⟨_, hcp, hca, _⟩ := hseg
  simp only [hd] at hcp hca
  refine ⟨m', s', C.lists out, ?_, ⟨hR.holds, ?_, L', V', hP', fun v => Nat.le_trans (hlen v) (hN v), ?_, ?_⟩, ?_⟩
  · simp only [cseInsn, hca, hcp, hread, hadd, hrd, h1, h2, h3, ne_eq, not_true, if_false]
    rw [if_neg hg, V.head base', e1]
  · intro c i ii him hop
    rcases rw'_mem _ _ _ _ (Nat.le_refl _) _ him with h | ⟨h, _⟩
    · exact hops c i ii h hop
    · rw [hop] at h; cases h
  · intro v i him
    by_cases hio : i ∈ out
    · by_cases hl : Live (C.lists out) i
      · exact Or.inl hl
      · exact Or.inr ⟨hl, hR.dead i (Or.inl hio)⟩
    · rcases hknown v i ((hK.mem hio).mp him) with ⟨c, h⟩ | ⟨hl, hdead⟩
      · obtain ⟨⟨i', ii⟩, hm, hie⟩ := List.mem_map.mp h
        simp only at hie
        subst hie
        obtain ⟨ii', hm', _⟩ := rw'_keeps d' (fun k => decide (k ∈ out)) _ (I c) (Nat.le_refl _) i' ii hm (by simpa using hio)
        exact Or.inl ⟨c, List.mem_map_of_mem hm'⟩
      · refine Or.inr ⟨?_, hR.dead i (Or.inr ⟨hl, hdead⟩)⟩
        rintro ⟨c, h⟩
        obtain ⟨u, hu, hue⟩ := List.mem_map.mp h
        refine hl ⟨c, ?_⟩
        rcases rw'_mem _ _ _ _ (Nat.le_refl _) u hu with h | ⟨_, h⟩
        · exact hue ▸ List.mem_map_of_mem h
        · exact hue ▸ h
  · intro c i ii v him hop hv
    have hi : (i, ii) ∈ I c := by
      rcases rw'_mem _ _ _ _ (Nat.le_refl _) _ him with h | ⟨h, _⟩
      · exact h
      · rw [hop] at h; cases h
    have hio : i ∉ out := by
      intro hio
      have hnd := hR.holds.nodup c
      obtain ⟨x', r', e'⟩ := List.append_of_mem hi
      have e'' : C.I c = x' ++ (i, ii) :: r' := e'
      obtain ⟨hia, n, j, r'', hr, _⟩ := Ctx.sel_at K e'' (hR.sel i hio).1 (hR.sel i hio).2
      subst hr
      have hl' := hlastout c i ii x' _ e' (by rw [hia]; simp)
      rw [Ctx.lists, e'', rw'_split _ _ _ x' _ (Nat.le_refl _) (fun z hz => by simpa using hl' z hz)] at him
      simp only [rw', hio, decide_true, if_true] at him
      have ndk := hH.nodup c
      rw [e'] at ndk
      simp only [List.map_append, List.map_cons, List.nodup_append, List.nodup_cons, List.mem_cons, not_or] at ndk
      have hsub : ∀ (l : List (Nat × Ssa.Insn)), (i, ii) ∈ rw' d' (fun k => decide (k ∈ out)) l → i ∈ l.map Prod.fst := by
        intro l hul
        rcases rw'_mem _ _ _ _ (Nat.le_refl _) _ hul with h | ⟨_, h⟩
        · exact List.mem_map_of_mem h
        · exact h
      rcases List.mem_append.mp him with h | h
      · exact ndk.2.2 _ (hsub x' h) i (by simp) rfl
      · rcases List.mem_cons.mp h with h | h
        · injection h with h _; exact ndk.2.1.1.1 h
        · exact ndk.2.1.1.2 (hsub r'' h)
    exact (hK.mem hio).mpr (hall c i ii v hi hop hv)
  · simp only [Cse.cse, ht0, Option.some.injEq]
    funext c
    have hnp : ∀ c', c' ≠ b → ∀ i ii, (i, ii) ∈ I c' → i ≠ p := by
      intro c' hc i ii h hip
      exact hc ((hH.belong c' _ h).symm.trans ((congrArg belong hip).trans (hH.belong b _ hpmem)))
    by_cases hcb : c = b
    · subst hcb
      rw [if_pos rfl, code, Ctx.lists]
      have e' : C.I c = x ++ (p, ip) :: (a, ia) :: y := e
      have hl' := hlastout c p ip x _ e (by rw [hadd]; simp)
      have hdom : Cse.domCheck idom c fuel c = true := by
        obtain ⟨n, rfl⟩ : ∃ n, fuel = n + 1 := ⟨fuel - 1, by omega⟩
        simp [Cse.domCheck]
      have ndb := hH.nodup c
      rw [e] at ndb
      simp only [List.map_append, List.map_cons, List.nodup_append, List.nodup_cons, List.mem_cons, not_or] at ndb
      rw [e', rw'_split _ _ _ x _ (Nat.le_refl _) (fun z hz => by simpa using hl' z hz)]
      have ey : rw' d' (fun k => decide (k ∈ out)) ((a, ia) :: y) = (a, ia) :: rw' d' (fun k => decide (k ∈ out)) y := by
        cases y with
        | nil => rfl
        | cons u y => simp [rw', haout]
      simp only [rw', hpout, decide_false, Bool.false_eq_true, if_false]
      rw [ey, List.map_append, List.map_cons, List.map_cons]
      congr 1
      · symm
        refine rw'_rewrite d' base' idx' _ _ x (Nat.le_refl _) fun x1 y1 i ii n j e1 => ?_
        have hip : i ≠ p := by
          intro h
          exact ndb.2.2 i (by rw [e1]; simp) p (by simp) h
        have := hpair c x1 i ii n j (y1 ++ (p, ip) :: (a, ia) :: y) (by rw [e, e1]; simp) hip
        rw [hdom, Bool.and_true] at this
        simpa using this
      · congr 2
        symm
        refine rw'_rewrite d' base' idx' _ _ y (Nat.le_refl _) fun x1 y1 i ii n j ey1 => ?_
        have hip : i ≠ p := by
          intro h
          subst h
          exact ndb.2.1.1.2 (by rw [ey1]; simp)
        have := hpair c (x ++ (p, ip) :: (a, ia) :: x1) i ii n j y1 (by rw [e, ey1]; simp) hip
        rw [hdom, Bool.and_true] at this
        simpa using this
    · rw [if_neg hcb]
      by_cases hdom : Cse.domCheck idom b fuel c = true
      · rw [if_pos hdom]
        symm
        refine rw'_rewrite d' base' idx' _ _ (I c) (Nat.le_refl _) fun x1 y1 i ii n j e1 => ?_
        have := hpair c x1 i ii n j y1 e1 (hnp c hcb i ii (by rw [e1]; simp))
        rw [hdom, Bool.and_true] at this
        simpa using this
      · rw [if_neg hdom]
        have : C.lists out c = I c := by
          refine rw'_none _ _ _ _ (Nat.le_refl _) fun k hk => ?_
          obtain ⟨⟨i, ii⟩, hm, hie⟩ := List.mem_map.mp hk
          simp only at hie
          subst hie
          by_cases hio : i ∈ out
          · exfalso
            obtain ⟨x', r', e'⟩ := List.append_of_mem hm
            have e'' : C.I c = x' ++ (i, ii) :: r' := e'
            obtain ⟨_, n, j, r'', hr, _⟩ := Ctx.sel_at K e'' (hR.sel i hio).1 (hR.sel i hio).2
            subst hr
            have := (hpair c x' i ii n j r'' e' (hnp c hcb i ii hm)).mp hio
            simp only [Bool.and_eq_true] at this
            exact hdom this.2
          · simp [hio]
        rw [code, code, this]

namespace UseChainExample

/-- `t = a + i; u = *t; t = a + i; v = *t` -/
def block : List (Nat × Ssa.Insn) :=
  [(0, { op := .alu .add, rd := some 20, rs1 := some 10, rs2 := some 11 }), (1, { op := .read, rd := some 21, rs1 := some 20 }),
   (2, { op := .alu .add, rd := some 22, rs1 := some 10, rs2 := some 11 }), (3, { op := .read, rd := some 23, rs1 := some 22 })]

/-- the same, linked -/
def mem : Mem where
  ins := fun q => match q with
    | 0 => some ⟨{ op := .alu .add, rd := some 20, rs1 := some 10, rs2 := some 11 }, some 1, none⟩
    | 1 => some ⟨{ op := .read, rd := some 21, rs1 := some 20 }, some 2, some 0⟩
    | 2 => some ⟨{ op := .alu .add, rd := some 22, rs1 := some 10, rs2 := some 11 }, some 3, some 1⟩
    | 3 => some ⟨{ op := .read, rd := some 23, rs1 := some 22 }, none, some 2⟩
    | _ => none
  head := fun c => if c = 0 then some 0 else none

def lists (c : Nat) : List (Nat × Ssa.Insn) := if c = 0 then block else []

def ops : Operands where
  rs1 := fun q => match q with | 0 => some 10 | 1 => some 20 | 2 => some 10 | 3 => some 22 | _ => none
  rs2 := fun q => match q with | 0 => some 11 | 2 => some 11 | _ => none

theorem holds : Holds (fun _ => 0) mem lists := by
  refine ⟨fun b => ?_, fun b => ?_, fun b x hx => ?_, fun b => ?_⟩ <;> by_cases h : b = 0
  · subst h; exact ⟨rfl, rfl, rfl, rfl, trivial⟩
  · rw [lists, if_neg h]; trivial
  · subst h; rfl
  · rw [lists, if_neg h]; simp [mem, h, hd]
  · exact h.symm
  · rw [lists, if_neg h] at hx; cases hx
  · subst h; decide
  · rw [lists, if_neg h]; simp

/-- The hypotheses of C106 are met: the second addition is taken out, the read behind it becomes `v = u`. -/
example : ∃ s m' s' I', build ops [0, 1, 2, 3] (List.range 8) noChains = some s ∧
    cseInsn ops (fun _ => false) (fun _ => 0) (fun _ => 0) 20 0 1 mem s = some (true, m', s') ∧
    Sound 8 ops (fun _ => 0) m' s' I' ∧
    code I' 0 = [{ op := .alu .add, rd := some 20, rs1 := some 10, rs2 := some 11 }, { op := .read, rd := some 21, rs1 := some 20 },
      { op := .assign, rd := some 23, rs1 := some 21 }] := by
  obtain ⟨s, h1, h2⟩ := C106_built ops (fun _ => 0) mem lists [0, 1, 2, 3] (List.range 8) holds
    (fun c i ii h => by
      by_cases hc : c = 0
      · subst hc
        simp only [lists, if_pos, block, List.mem_cons, Prod.mk.injEq, List.not_mem_nil, or_false] at h
        rcases h with ⟨rfl, rfl⟩ | ⟨rfl, rfl⟩ | ⟨rfl, rfl⟩ | ⟨rfl, rfl⟩ <;> exact ⟨rfl, rfl⟩
      · rw [lists, if_neg hc] at h; cases h)
    (fun i => by
      constructor
      · intro h; exact ⟨0, by simpa [lists, block] using h⟩
      · rintro ⟨c, h⟩
        by_cases hc : c = 0
        · subst hc; simpa [lists, block] using h
        · rw [lists, if_neg hc] at h; simp at h)
    (by decide) List.nodup_range (by decide)
  obtain ⟨m', s', I', h3, h4, h5⟩ := C106_instructions_partial h2 (fun _ => false) (fun _ => 0) 20 (by decide) (b := 0)
    (x := []) (y := block.drop 2) rfl (base := 10) (idx := 11) (d := 21) rfl (by decide)
  refine ⟨s, m', s', I', h1, h3, h4, ?_⟩
  have := congrFun (Option.some.inj h5) 0
  rw [← this]; rfl

end UseChainExample

end Shecc.Props
