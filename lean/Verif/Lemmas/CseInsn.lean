import Verif.Lemmas.UseChain

/-! # Lemmas: the instructions that `cse` rewrites, at the level of pointers -/

namespace Shecc.UseChain
open Ssa (Insn)

/-- The blocks hold the lists `I` (address, instruction). -/
structure Holds (belong : Nat → Nat) (m : Mem) (I : Nat → List (Nat × Insn)) : Prop where
  seg : ∀ b, Seg m.ins none (I b) none
  head : ∀ b, m.head b = hd (I b) none
  belong : ∀ b x, x ∈ I b → belong x.1 = b
  nodup : ∀ b, ((I b).map Prod.fst).Nodup

/-- The read that became an assignment. -/
def assigned (d : Nat) (j : Insn) : Insn := { j with op := .assign, rs1 := some d }

theorem replace_holds {belong : Nat → Nat} {m : Mem} {I : Nat → List (Nat × Insn)} (H : Holds belong m I) {b d a n : Nat} {i j : Insn}
    {x y : List (Nat × Insn)} (e : I b = x ++ (a, i) :: (n, j) :: y) :
    ∃ m', replaceInsn belong d m a = some m' ∧ Holds belong m' (upd I b (x ++ (n, assigned d j) :: y)) ∧
      m'.ins a = m.ins a ∧ (∀ q, q ∉ (I b).map Prod.fst → m'.ins q = m.ins q) ∧
      (∀ q c, m.ins q = some c → ∃ c', m'.ins q = some c' ∧ (c'.insn.op = c.insn.op ∨ c'.insn.op = .assign)) ∧
      ∃ c cn, m.ins a = some c ∧ c.next = some n ∧ m'.ins n = some cn ∧ cn.insn.op = .assign := by
  have hs := H.seg b
  have nd := H.nodup b
  have hba : belong a = b := H.belong b (a, i) (by rw [e]; simp)
  rw [e] at hs nd
  rw [seg_append] at hs
  obtain ⟨hx, ha, hn, hy⟩ := hs
  simp only [List.map_append, List.map_cons, List.nodup_append, List.nodup_cons, List.mem_cons, not_or] at nd
  obtain ⟨ndx, ⟨⟨han, hay⟩, hny, ndy⟩, hxr⟩ := nd
  have hxa : a ∉ x.map Prod.fst := fun h => hxr _ h a (by simp) rfl
  have hxn : n ∉ x.map Prod.fst := fun h => hxr _ h n (by simp) rfl
  have hla : lst x none ≠ some a := fun h => hxa (lst_mem _ _ _ h (by simp))
  have hln : lst x none ≠ some n := fun h => hxn (lst_mem _ _ _ h (by simp))
  replace ha : m.ins a = some ⟨i, some n, lst x none⟩ := ha
  replace hn : m.ins n = some ⟨j, hd y none, some a⟩ := hn
  have key : ∃ m', replaceInsn belong d m a = some m' ∧
      m'.head = (if lst x none = none then upd m.head b (some n) else m.head) ∧
      ∀ q, m'.ins q = if q = n then some ⟨assigned d j, hd y none, lst x none⟩
        else if lst x none = some q then (m.ins q).map fun c => { c with next := some n } else m.ins q := by
    clear hy
    generalize hd y none = f at hn ⊢
    rcases ex : lst x none with _ | z
    · rw [ex] at ha
      refine ⟨⟨upd (upd m.ins n (some ⟨assigned d j, f, some a⟩)) n (some ⟨assigned d j, f, none⟩),
        upd m.head b (some n)⟩, ?_, ?_, ?_⟩
      · simp [replaceInsn, ha, modifyInsn, hn, upd, hba, assigned]
      · rw [if_pos rfl]
      · intro q
        simp only [upd, reduceCtorEq, if_false]
        by_cases e1 : q = n <;> simp [e1]
    · have hz := lst_mem x none z ex (by simp)
      have hzn : z ≠ n := fun h => hxn (h ▸ hz)
      obtain ⟨⟨z', iz⟩, hzm, hze⟩ := List.mem_map.mp hz
      simp only at hze
      subst hze
      obtain ⟨nx, pv, hzc⟩ := seg_mem hx _ hzm
      simp only at hzc
      rw [ex] at ha
      refine ⟨⟨upd (upd (upd m.ins n (some ⟨assigned d j, f, some a⟩)) z' (some ⟨iz, some n, pv⟩)) n
        (some ⟨assigned d j, f, some z'⟩), m.head⟩, ?_, ?_, ?_⟩
      · simp [replaceInsn, ha, modifyInsn, hn, upd, hzn, hzc, Ne.symm hzn, assigned]
      · rw [if_neg (by simp)]
      · intro q
        simp only [upd, Option.some.injEq]
        by_cases e1 : q = n
        · simp [e1]
        · by_cases e2 : z' = q
          · subst e2; simp [hzn, hzc]
          · have : ¬ q = z' := fun h => e2 h.symm
            simp [e1, e2, this]
  obtain ⟨m', e1, eh, ei⟩ := key
  have hq0 : ∀ q, q ∉ (I b).map Prod.fst → m'.ins q = m.ins q := by
    intro q hq
    rw [e] at hq
    simp only [List.map_append, List.map_cons, List.mem_append, List.mem_cons, not_or] at hq
    rw [ei, if_neg hq.2.2.1, if_neg (fun h => hq.1 (lst_mem _ _ _ h (by simp)))]
  refine ⟨m', e1, ⟨?_, ?_, ?_, ?_⟩, ?_, hq0, ?_, ?_⟩
  · intro c
    by_cases ec : c = b
    · subst ec
      simp only [upd, if_pos]
      rw [seg_append]
      refine ⟨seg_next hx ndx fun q hq => ?_, ?_, seg_frame (fun q hq => ?_) hy⟩
      · rw [ei, if_neg (c := q = n) (fun h => hxn (h ▸ hq))]; rfl
      · rw [ei, if_pos rfl]
      · rw [ei, if_neg (c := q = n) (fun h => hny (h ▸ hq)), if_neg]
        intro h; exact hxr _ (lst_mem _ _ _ h (by simp)) q (by simp [hq]) rfl
    · simp only [upd, if_neg ec]
      refine seg_frame (fun q hq => hq0 q fun h => ?_) (H.seg c)
      obtain ⟨u, hu, rfl⟩ := List.mem_map.mp hq
      obtain ⟨w, hw, hwu⟩ := List.mem_map.mp h
      exact ec ((H.belong c u hu).symm.trans ((congrArg belong hwu.symm).trans (H.belong b w hw)))
  · intro c
    rw [eh]
    have h0 := H.head c
    by_cases ec : c = b
    · subst ec
      simp only [upd, if_pos, hd_append, hd]
      rw [e] at h0
      cases x with
      | nil => simp [lst, upd]
      | cons z x =>
        have : lst (z :: x) none ≠ none := by
          intro h
          rcases List.eq_nil_or_concat (z :: x) with e | ⟨a', y', e⟩
          · cases e
          · rw [e, List.concat_eq_append, lst_append] at h; cases h
        rw [if_neg this, h0]; rfl
    · simp only [upd, if_neg ec]
      by_cases hc : lst x none = none
      · rw [if_pos hc]; exact (if_neg ec).trans h0
      · rw [if_neg hc]; exact h0
  · intro c u hu
    by_cases ec : c = b
    · subst ec
      simp only [upd, if_pos, List.mem_append, List.mem_cons] at hu
      rcases hu with h | h | h
      · exact H.belong c u (by rw [e]; simp [h])
      · subst h; exact H.belong c (n, j) (by rw [e]; simp)
      · exact H.belong c u (by rw [e]; simp [h])
    · simp only [upd, if_neg ec] at hu
      exact H.belong c u hu
  · intro c
    by_cases ec : c = b
    · subst ec
      simp only [upd, if_pos, List.map_append, List.map_cons, List.nodup_append, List.nodup_cons]
      exact ⟨ndx, ⟨hny, ndy⟩, fun p hp q hq => hxr p hp q (by
        rcases List.mem_cons.mp hq with h | h
        · exact Or.inr (Or.inl h)
        · exact Or.inr (Or.inr h))⟩
    · simp only [upd, if_neg ec]; exact H.nodup c
  · rw [ei, if_neg han, if_neg hla]
  · intro q c hc
    rw [ei]
    by_cases h1 : q = n
    · rw [if_pos h1]; exact ⟨_, rfl, Or.inr rfl⟩
    · rw [if_neg h1]
      by_cases h2 : lst x none = some q
      · rw [if_pos h2, hc]; exact ⟨_, rfl, Or.inl rfl⟩
      · rw [if_neg h2, hc]; exact ⟨_, rfl, Or.inl rfl⟩
  · exact ⟨_, _, ha, rfl, by rw [ei, if_pos rfl], rfl⟩

/-- The lists when the additions at the addresses `P` have been replaced. -/
def rw' (d : Nat) (P : Nat → Bool) : List (Nat × Insn) → List (Nat × Insn)
  | (a, i) :: (n, j) :: r => if P a then (n, assigned d j) :: rw' d P r else (a, i) :: rw' d P ((n, j) :: r)
  | [u] => [u]
  | [] => []

theorem rw'_split (d : Nat) (P : Nat → Bool) (k : Nat) : ∀ (x y : List (Nat × Insn)), x.length ≤ k →
    (∀ z, x.getLast? = some z → P z.1 = false) → rw' d P (x ++ y) = rw' d P x ++ rw' d P y := by
  induction k with
  | zero =>
    intro x y hk _
    have : x = [] := List.eq_nil_of_length_eq_zero (by omega)
    subst this; rfl
  | succ k ih =>
    intro x y hk h
    match x, hk, h with
    | [], _, _ => rfl
    | [u], _, h =>
      have hu := h u rfl
      match y with
      | [] => simp [rw']
      | v :: y => simp only [List.cons_append, List.nil_append, rw', hu]; simp
    | u :: v :: x, hk, h =>
      simp only [List.length_cons] at hk
      simp only [List.cons_append, rw']
      by_cases hu : P u.1 = true
      · simp only [hu, if_true, List.cons_append]
        rw [ih x y (by omega) (fun z hz => h z (by
          rw [List.getLast?_cons, List.getLast?_cons, hz]; rfl))]
      · simp only [hu, if_false, List.cons_append]
        have := ih (v :: x) y (by simp; omega) (fun z hz => h z (by
          rw [List.getLast?_cons, hz]; rfl))
        simp only [List.cons_append] at this
        rw [this]; simp

theorem rw'_congr (d : Nat) (P Q : Nat → Bool) (k : Nat) : ∀ (l : List (Nat × Insn)), l.length ≤ k →
    (∀ a ∈ l.map Prod.fst, P a = Q a) → rw' d P l = rw' d Q l := by
  induction k with
  | zero =>
    intro l hk _
    have : l = [] := List.eq_nil_of_length_eq_zero (by omega)
    subst this; rfl
  | succ k ih =>
    intro l hk h
    match l, hk, h with
    | [], _, _ => rfl
    | [u], _, _ => rfl
    | u :: v :: l, hk, h =>
      simp only [List.length_cons] at hk
      simp only [rw']
      rw [h u.1 (by simp), ih l (by omega) (fun a ha => h a (by simp at ha ⊢; exact Or.inr (Or.inr ha))),
        ih (v :: l) (by simp; omega) (fun a ha => h a (by simp at ha ⊢; exact Or.inr ha))]

theorem rw'_none (d : Nat) (P : Nat → Bool) (k : Nat) : ∀ (l : List (Nat × Insn)), l.length ≤ k →
    (∀ a ∈ l.map Prod.fst, P a = false) → rw' d P l = l := by
  induction k with
  | zero =>
    intro l hk _
    have : l = [] := List.eq_nil_of_length_eq_zero (by omega)
    subst this; rfl
  | succ k ih =>
    intro l hk h
    match l, hk, h with
    | [], _, _ => rfl
    | [u], _, _ => rfl
    | u :: v :: l, hk, h =>
      simp only [List.length_cons] at hk
      simp only [rw', h u.1 (by simp)]
      rw [ih (v :: l) (by simp; omega) (fun a ha => h a (by simp at ha ⊢; exact Or.inr ha))]
      simp

/-- What is in the lists afterwards was there before, as it is or as a read that became an assignment. -/
theorem rw'_mem (d : Nat) (P : Nat → Bool) (k : Nat) : ∀ (l : List (Nat × Insn)), l.length ≤ k → ∀ x ∈ rw' d P l,
    x ∈ l ∨ (x.2.op = .assign ∧ x.1 ∈ l.map Prod.fst) := by
  induction k with
  | zero =>
    intro l hk x hx
    have : l = [] := List.eq_nil_of_length_eq_zero (by omega)
    subst this; cases hx
  | succ k ih =>
    intro l hk x hx
    match l, hk, hx with
    | [u], _, hx => exact Or.inl hx
    | u :: v :: l, hk, hx =>
      simp only [List.length_cons] at hk
      simp only [rw'] at hx
      by_cases hu : P u.1 = true
      · simp only [hu, if_true] at hx
        rcases List.mem_cons.mp hx with h | h
        · subst h; exact Or.inr ⟨rfl, by simp⟩
        · rcases ih l (by omega) x h with h | ⟨h, h'⟩
          · exact Or.inl (by simp [h])
          · exact Or.inr ⟨h, by simp at h' ⊢; exact Or.inr (Or.inr h')⟩
      · simp only [hu, if_false] at hx
        rcases List.mem_cons.mp hx with h | h
        · subst h; exact Or.inl (by simp)
        · rcases ih (v :: l) (by simp; omega) x h with h | ⟨h, h'⟩
          · exact Or.inl (List.mem_cons_of_mem _ h)
          · exact Or.inr ⟨h, by simp at h' ⊢; exact Or.inr h'⟩

/-- What has not been replaced stays in the lists. -/
theorem rw'_keeps (d : Nat) (P : Nat → Bool) (k : Nat) : ∀ (l : List (Nat × Insn)), l.length ≤ k → ∀ i ii, (i, ii) ∈ l →
    P i = false → ∃ ii', (i, ii') ∈ rw' d P l ∧ (ii' = ii ∨ ii'.op = .assign) := by
  induction k with
  | zero =>
    intro l hk i ii hx
    have : l = [] := List.eq_nil_of_length_eq_zero (by omega)
    subst this; cases hx
  | succ k ih =>
    intro l hk i ii hx hP
    match l, hk, hx with
    | [u], _, hx => exact ⟨ii, hx, Or.inl rfl⟩
    | u :: v :: l, hk, hx =>
      simp only [List.length_cons] at hk
      simp only [rw']
      by_cases hu : P u.1 = true
      · simp only [hu, if_true]
        rcases List.mem_cons.mp hx with h | h
        · subst h; rw [hP] at hu; cases hu
        · rcases List.mem_cons.mp h with h | h
          · subst h; exact ⟨_, List.mem_cons_self, Or.inr rfl⟩
          · obtain ⟨ii', h1, h2⟩ := ih l (by omega) i ii h hP
            exact ⟨ii', List.mem_cons_of_mem _ h1, h2⟩
      · simp only [hu, if_false]
        rcases List.mem_cons.mp hx with h | h
        · subst h; exact ⟨_, List.mem_cons_self, Or.inl rfl⟩
        · obtain ⟨ii', h1, h2⟩ := ih (v :: l) (by simp; omega) i ii h hP
          exact ⟨ii', List.mem_cons_of_mem _ h1, h2⟩

/-- The same on lists of instructions: `rewrite` of `Model/Cse`, if `P` selects what it replaces. -/
theorem rw'_rewrite (d base idx : Nat) (P : Nat → Bool) (k : Nat) : ∀ (l : List (Nat × Insn)), l.length ≤ k →
    (∀ x y a i n j, l = x ++ (a, i) :: (n, j) :: y → (P a = true ↔ Cse.hit base idx i j = true)) →
    (rw' d P l).map Prod.snd = Cse.rewrite base idx d (l.map Prod.snd) := by
  induction k with
  | zero =>
    intro l hk _
    have : l = [] := List.eq_nil_of_length_eq_zero (by omega)
    subst this; rfl
  | succ k ih =>
    intro l hk h
    match l, hk, h with
    | [], _, _ => rfl
    | [u], _, _ => rfl
    | (a, i) :: (n, j) :: l, hk, h =>
      simp only [List.length_cons] at hk
      have h0 := h [] l a i n j rfl
      have h1 := ih l (by omega) (fun x y a' i' n' j' e => h ((a, i) :: (n, j) :: x) y a' i' n' j' (by rw [e]; rfl))
      have h2 := ih ((n, j) :: l) (by simp; omega) (fun x y a' i' n' j' e => h ((a, i) :: x) y a' i' n' j' (by rw [e]; rfl))
      simp only [List.map_cons, Cse.rewrite] at h1 h2
      simp only [List.map_cons, rw', Cse.rewrite, Cse.items]
      by_cases hp : P a = true
      · rw [if_pos hp, if_pos (h0.mp hp)]
        simp only [List.map_cons, List.flatMap_cons, Cse.Item.after, h1]
        rfl
      · rw [if_neg hp, if_neg (fun hh => hp (h0.mpr hh))]
        simp only [List.map_cons, List.flatMap_cons, Cse.Item.after, h2]
        rfl

theorem nodup_split {x x' r r' : List (Nat × Insn)} {a : Nat} {i i' : Insn}
    (nd : ((x ++ (a, i) :: r).map Prod.fst).Nodup) (e : x ++ (a, i) :: r = x' ++ (a, i') :: r') : x = x' ∧ i = i' ∧ r = r' := by
  induction x generalizing x' with
  | nil =>
    cases x' with
    | nil => simp at e; exact ⟨rfl, e.1, e.2⟩
    | cons z x' =>
      simp only [List.nil_append, List.cons_append, List.cons.injEq] at e
      obtain ⟨e1, e2⟩ := e
      subst e1 e2
      simp at nd
  | cons z x ih =>
    cases x' with
    | nil =>
      simp only [List.nil_append, List.cons_append, List.cons.injEq] at e
      obtain ⟨e1, e2⟩ := e
      subst e1 e2
      simp at nd
    | cons z' x' =>
      simp only [List.cons_append, List.cons.injEq] at e
      simp only [List.cons_append, List.map_cons, List.nodup_cons] at nd
      obtain ⟨h1, h2, h3⟩ := ih nd.2 e.2
      exact ⟨by rw [e.1, h1], h2, h3⟩

/-- The instruction is in a block. -/
def Live (I : Nat → List (Nat × Insn)) (i : Nat) : Prop := ∃ c, i ∈ (I c).map Prod.fst

/-- An instruction that was taken out of its block: no read is behind it. -/
def Dead (m : Mem) (i : Nat) : Prop :=
  ∃ c n cn, m.ins i = some c ∧ c.next = some n ∧ m.ins n = some cn ∧ cn.insn.op ≠ .read

theorem Live.split {I : Nat → List (Nat × Insn)} {i : Nat} (h : Live I i) : ∃ c x ii r, I c = x ++ (i, ii) :: r := by
  obtain ⟨c, h⟩ := h
  obtain ⟨⟨a, ii⟩, hu, rfl⟩ := List.mem_map.mp h
  obtain ⟨x, r, e⟩ := List.append_of_mem hu
  exact ⟨c, x, ii, r, e⟩

theorem test_dead {belong idom : Nat → Nat} {fuel b base idx : Nat} {m : Mem} {i : Nat} (h : Dead m i) :
    testInsn belong idom fuel b base idx m i = some false := by
  obtain ⟨c, n, cn, h1, h2, h3, h4⟩ := h
  simp only [testInsn, h1, h2, h3]
  split
  · rfl
  · first | rfl | rw [if_pos h4]

/-- the tests on an instruction of block `c` with `r` behind it -/
def liveTest (idom : Nat → Nat) (fuel b base idx c : Nat) (i : Insn) (r : List (Nat × Insn)) : Bool :=
  match r with
  | [] => false
  | u :: _ => Cse.hit base idx i u.2 && Cse.domCheck idom b fuel c

theorem test_live {belong idom : Nat → Nat} {fuel b base idx : Nat} {m : Mem} {I : Nat → List (Nat × Insn)}
    (H : Holds belong m I) {c i : Nat} {ii : Insn} {x r : List (Nat × Insn)} (e : I c = x ++ (i, ii) :: r) :
    testInsn belong idom fuel b base idx m i = some (liveTest idom fuel b base idx c ii r) := by
  have hs := H.seg c
  rw [e, seg_append] at hs
  obtain ⟨_, hi, hr⟩ := hs
  have hb : belong i = c := H.belong c (i, ii) (by rw [e]; simp)
  simp only at hi
  simp only [testInsn, hi]
  by_cases h1 : ii.op = .alu .add
  · cases r with
    | nil => simp [hd, liveTest, h1]
    | cons u r =>
      have hu := hr.1
      simp only [hd, hu, h1, liveTest, Cse.hit, hb]
      by_cases h2 : u.2.op = .read
      · by_cases h3 : ii.rs1 = some base
        · by_cases h4 : ii.rs2 = some idx <;> simp [h2, h3, h4]
        · simp [h2, h3]
      · simp [h2]
  · rw [if_pos h1]
    cases r <;> simp [liveTest, Cse.hit, h1]

/-- Everything the walk needs to know about the instructions. -/
structure Ctx where
  o : Operands
  belong : Nat → Nat
  idom : Nat → Nat
  fuel : Nat
  b : Nat
  base : Nat
  idx : Nat
  d : Nat
  prev : Nat
  m : Mem
  I : Nat → List (Nat × Insn)

/-- Instructions in the use chains. -/
def Ctx.Known (C : Ctx) (i : Nat) : Prop := Live C.I i ∨ (¬ Live C.I i ∧ Dead C.m i)

def Ctx.sel (C : Ctx) : Nat → Bool :=
  selected C.o (fun i => testInsn C.belong C.idom C.fuel C.b C.base C.idx C.m i == some true) C.prev C.base C.idx

def Ctx.lists (C : Ctx) (out : List Nat) : Nat → List (Nat × Insn) := fun c => rw' C.d (fun a => decide (a ∈ out)) (C.I c)

structure Ctx.R (C : Ctx) (out : List Nat) (m : Mem) : Prop where
  holds : Holds C.belong m (C.lists out)
  sel : ∀ j ∈ out, C.Known j ∧ C.sel j = true
  dead : ∀ i, i ∈ out ∨ (¬ Live C.I i ∧ Dead C.m i) → Dead m i

structure Ctx.Ok (C : Ctx) : Prop where
  holds : Holds C.belong C.m C.I
  ops : ∀ c i ii, (i, ii) ∈ C.I c → ii.op = .alu .add → C.o.rs1 i = ii.rs1 ∧ C.o.rs2 i = ii.rs2

theorem Ctx.sel_live {C : Ctx} (K : C.Ok) {i : Nat} (hU : C.Known i) (hs : C.sel i = true) :
    ∃ c x ii n j r, C.I c = x ++ (i, ii) :: (n, j) :: r ∧ Cse.hit C.base C.idx ii j = true ∧
      Cse.domCheck C.idom C.b C.fuel c = true ∧ i ≠ C.prev := by
  simp only [Ctx.sel, selected, Bool.and_eq_true, decide_eq_true_eq, beq_iff_eq] at hs
  obtain ⟨⟨⟨hp, ht⟩, _⟩, _⟩ := hs
  rcases hU with h | ⟨_, h⟩
  · obtain ⟨c, x, ii, r, e⟩ := h.split
    rw [test_live K.holds e] at ht
    injection ht with ht
    cases r with
    | nil => cases ht
    | cons u r =>
      simp only [liveTest, Bool.and_eq_true] at ht
      exact ⟨c, x, ii, u.1, u.2, r, e, ht.1, ht.2, hp⟩
  · rw [test_dead h] at ht; cases ht

theorem hit_ops {base idx : Nat} {i j : Insn} (h : Cse.hit base idx i j = true) : i.op = .alu .add ∧ j.op = .read ∧
    i.rs1 = some base ∧ i.rs2 = some idx := by
  simp only [Cse.hit, Bool.and_eq_true, decide_eq_true_eq] at h
  exact ⟨h.1.1.1, h.1.1.2, h.1.2, h.2⟩

theorem Ctx.sel_eq {C : Ctx} (K : C.Ok) {c i : Nat} {ii : Insn} {x r : List (Nat × Insn)} (e : C.I c = x ++ (i, ii) :: r)
    (hp : i ≠ C.prev) : C.sel i = liveTest C.idom C.fuel C.b C.base C.idx c ii r := by
  have ht := test_live (idom := C.idom) (fuel := C.fuel) (b := C.b) (base := C.base) (idx := C.idx) K.holds e
  simp only [Ctx.sel, selected, ht]
  cases hl : liveTest C.idom C.fuel C.b C.base C.idx c ii r with
  | false => simp
  | true =>
    cases r with
    | nil => cases hl
    | cons u r =>
      simp only [liveTest, Bool.and_eq_true] at hl
      obtain ⟨h1, _, h3, h4⟩ := hit_ops hl.1
      obtain ⟨h5, h6⟩ := K.ops c i ii (by rw [e]; simp) h1
      simp [hp, h5, h6, h3, h4]

/-- Selected instructions are additions with a read behind them. -/
theorem Ctx.sel_at {C : Ctx} (K : C.Ok) {c i : Nat} {ii : Insn} {x r : List (Nat × Insn)} (e : C.I c = x ++ (i, ii) :: r)
    (hU : C.Known i) (hs : C.sel i = true) : ii.op = .alu .add ∧ ∃ n j r', r = (n, j) :: r' ∧ j.op = .read := by
  obtain ⟨c', x', ii', n, j, r', e', hh, _, _⟩ := Ctx.sel_live K hU hs
  have h1 : C.belong i = c := K.holds.belong c (i, ii) (by rw [e]; simp)
  have h2 : C.belong i = c' := K.holds.belong c' (i, ii') (by rw [e']; simp)
  have : c' = c := h2.symm.trans h1
  subst this
  have nd := K.holds.nodup c'
  rw [e] at nd
  obtain ⟨_, h4, h5⟩ := nodup_split nd (e.symm.trans e')
  obtain ⟨h6, h7, _⟩ := hit_ops hh
  exact ⟨h4 ▸ h6, n, j, r', h5, h7⟩

/-- The instruction before one that is no read is not among the replaced. -/
theorem Ctx.last_out {C : Ctx} (K : C.Ok) {out : List Nat} (ho : ∀ j ∈ out, C.Known j ∧ C.sel j = true) {c i : Nat} {ii : Insn}
    {x r : List (Nat × Insn)} (e : C.I c = x ++ (i, ii) :: r) (hr : ii.op ≠ .read) :
    ∀ z, x.getLast? = some z → z.1 ∉ out := by
  intro z hz hzo
  obtain ⟨x', rfl⟩ : ∃ x', x = x' ++ [z] := List.getLast?_eq_some_iff.mp hz
  have e' : C.I c = x' ++ (z.1, z.2) :: (i, ii) :: r := by rw [e]; simp
  obtain ⟨_, n, j, r', h1, h2⟩ := Ctx.sel_at K e' (ho _ hzo).1 (ho _ hzo).2
  injection h1 with h1 _
  injection h1 with _ h1
  exact hr (h1 ▸ h2)

theorem Ctx.step {C : Ctx} (K : C.Ok) (out : List Nat) (m : Mem) (i : Nat) (hR : C.R out m) (hU : C.Known i) (hi : i ∉ out)
    (hp : i ≠ C.prev) :
    testInsn C.belong C.idom C.fuel C.b C.base C.idx m i = some (C.sel i) ∧
    (C.sel i = true → ∃ m', replaceInsn C.belong C.d m i = some m' ∧ C.R (out ++ [i]) m') := by
  rcases hU with hl | hdead
  · obtain ⟨c, x, ii, r, e⟩ := hl.split
    by_cases hadd : ii.op = .alu .add
    · have hlast := Ctx.last_out K hR.sel e (by rw [hadd]; simp)
      have hsplit : C.lists out c = rw' C.d (fun a => decide (a ∈ out)) x ++
          rw' C.d (fun a => decide (a ∈ out)) ((i, ii) :: r) := by
        rw [Ctx.lists, e, rw'_split _ _ _ x _ (Nat.le_refl _) (fun z hz => by simpa using hlast z hz)]
      rw [Ctx.sel_eq K e hp]
      match r, e, hsplit with
      | [], e, hsplit =>
        simp only [rw'] at hsplit
        refine ⟨test_live hR.holds hsplit, fun h => by cases h⟩
      | (n, j) :: r, e, hsplit =>
        simp only [rw', hi, decide_false, Bool.false_eq_true, if_false] at hsplit
        have en : C.I c = (x ++ [(i, ii)]) ++ (n, j) :: r := by rw [e]; simp
        by_cases hn : n ∈ out
        · obtain ⟨ha, n', j', r', hr', hj'⟩ := Ctx.sel_at K en (hR.sel n hn).1 (hR.sel n hn).2
          subst hr'
          simp only [rw', hn, decide_true, if_true] at hsplit
          have hf : liveTest C.idom C.fuel C.b C.base C.idx c ii ((n, j) :: (n', j') :: r') = false := by
            simp [liveTest, Cse.hit, ha]
          rw [hf]
          refine ⟨?_, fun h => by cases h⟩
          rw [test_live hR.holds hsplit]
          simp [liveTest, Cse.hit, assigned]
        · have hrw : rw' C.d (fun a => decide (a ∈ out)) ((n, j) :: r) =
              (n, j) :: rw' C.d (fun a => decide (a ∈ out)) r := by
            cases r with
            | nil => rfl
            | cons u r => simp [rw', hn]
          rw [hrw] at hsplit
          refine ⟨(test_live hR.holds hsplit).trans rfl, fun hs => ?_⟩
          have hs' := hs
          simp only [liveTest, Bool.and_eq_true] at hs'
          obtain ⟨_, hread, _, _⟩ := hit_ops hs'.1
          obtain ⟨m', e1, H', ha', hq', hop', hdead'⟩ := replace_holds (d := C.d) hR.holds hsplit
          have ndI := K.holds.nodup c
          rw [e] at ndI
          simp only [List.map_append, List.map_cons, List.nodup_append, List.nodup_cons, List.mem_cons, not_or] at ndI
          have hix : i ∉ x.map Prod.fst := fun h => ndI.2.2 _ h i (by simp) rfl
          have hir : i ∉ r.map Prod.fst := ndI.2.1.1.2
          have hall : upd (C.lists out) c (rw' C.d (fun a => decide (a ∈ out)) x ++
              (n, assigned C.d j) :: rw' C.d (fun a => decide (a ∈ out)) r) = C.lists (out ++ [i]) := by
            funext c'
            by_cases ec : c' = c
            · subst ec
              have hlast' : ∀ z, x.getLast? = some z → decide (z.1 ∈ out ++ [i]) = false := by
                intro z hz
                have h1 := hlast z hz
                have h2 : z.1 ≠ i := by
                  intro h
                  exact hix (h ▸ List.mem_map_of_mem (List.mem_of_getLast? hz))
                simp [h1, h2]
              simp only [upd, if_pos]
              rw [Ctx.lists, e, rw'_split _ _ _ x _ (Nat.le_refl _) hlast']
              simp only [rw', List.mem_append, List.mem_singleton, or_true, decide_true, if_true]
              congr 1
              · exact rw'_congr _ _ _ _ x (Nat.le_refl _) fun a ha => by
                  have : a ≠ i := fun h => hix (h ▸ ha)
                  simp [this]
              · congr 1
                exact rw'_congr _ _ _ _ r (Nat.le_refl _) fun a ha => by
                  have : a ≠ i := fun h => hir (h ▸ ha)
                  simp [this]
            · simp only [upd, if_neg ec]
              rw [Ctx.lists, Ctx.lists]
              refine rw'_congr _ _ _ _ _ (Nat.le_refl _) fun a ha => ?_
              have : a ≠ i := by
                intro h
                subst h
                obtain ⟨u, hu, hua⟩ := List.mem_map.mp ha
                exact ec ((K.holds.belong c' u hu).symm.trans ((congrArg C.belong hua).trans
                  (K.holds.belong c (a, ii) (by rw [e]; simp))))
              simp [this]
          rw [hall] at H'
          have hUi : C.Known i := Or.inl ⟨c, by rw [e]; simp⟩
          have hseli : C.sel i = true := by rw [Ctx.sel_eq K e hp]; exact hs
          refine ⟨m', e1, H', ?_, ?_⟩
          · intro k hk
            rcases List.mem_append.mp hk with h | h
            · exact hR.sel k h
            · simp at h; subst h; exact ⟨hUi, hseli⟩
          · intro k hk
            by_cases eki : k = i
            · subst eki
              obtain ⟨c1, cn, g1, g2, g3, g4⟩ := hdead'
              exact ⟨c1, n, cn, ha'.trans g1, g2, g3, by rw [g4]; simp⟩
            · have hk' : k ∈ out ∨ (¬ Live C.I k ∧ Dead C.m k) := by
                rcases hk with h | h
                · rcases List.mem_append.mp h with h | h
                  · exact Or.inl h
                  · simp at h; exact absurd h eki
                · exact Or.inr h
              obtain ⟨c1, n1, cn1, g1, g2, g3, g4⟩ := hR.dead k hk'
              -- `k` is not in the block that is changed
              have hkl : k ∉ (C.lists out c).map Prod.fst := by
                intro hmem
                obtain ⟨u, hu, hue⟩ := List.mem_map.mp hmem
                have hkI : k ∈ (C.I c).map Prod.fst := by
                  rcases rw'_mem _ _ _ _ (Nat.le_refl _) u hu with h | ⟨_, h⟩
                  · exact hue ▸ List.mem_map_of_mem h
                  · exact hue ▸ h
                rcases hk' with hko | ⟨hnl, _⟩
                · obtain ⟨⟨k', kk⟩, hkm, hke⟩ := List.mem_map.mp hkI
                  simp only at hke
                  subst hke
                  obtain ⟨xk, rk, ek⟩ := List.append_of_mem hkm
                  obtain ⟨hka, nk, jk, rk', hrk, hjk⟩ := Ctx.sel_at K ek (hR.sel k' hko).1 (hR.sel k' hko).2
                  subst hrk
                  have hl' := Ctx.last_out K hR.sel ek (by rw [hka]; simp)
                  rw [Ctx.lists, ek, rw'_split _ _ _ xk _ (Nat.le_refl _) (fun z hz => by simpa using hl' z hz)] at hu
                  simp only [rw', hko, decide_true, if_true] at hu
                  have ndk := K.holds.nodup c
                  rw [ek] at ndk
                  simp only [List.map_append, List.map_cons, List.nodup_append, List.nodup_cons, List.mem_cons, not_or] at ndk
                  have hsub : ∀ (l : List (Nat × Insn)), u ∈ rw' C.d (fun a => decide (a ∈ out)) l → k' ∈ l.map Prod.fst := by
                    intro l hul
                    rcases rw'_mem _ _ _ _ (Nat.le_refl _) u hul with h | ⟨_, h⟩
                    · exact hue ▸ List.mem_map_of_mem h
                    · exact hue ▸ h
                  rcases List.mem_append.mp hu with h | h
                  · exact ndk.2.2 _ (hsub xk h) k' (by simp) rfl
                  · rcases List.mem_cons.mp h with h | h
                    · subst h; exact ndk.2.1.1.1 hue.symm
                    · exact ndk.2.1.1.2 (hsub rk' h)
                · exact hnl ⟨c, hkI⟩
              obtain ⟨cn', g5, g6⟩ := hop' n1 cn1 g3
              refine ⟨c1, n1, cn', (hq' k hkl).trans g1, g2, g5, ?_⟩
              rcases g6 with g6 | g6
              · rw [g6]; exact g4
              · rw [g6]; simp
    · -- no addition
      have hf : C.sel i = false := by
        rw [Ctx.sel_eq K e hp]
        cases r <;> simp [liveTest, Cse.hit, hadd]
      rw [hf]
      refine ⟨?_, fun h => by cases h⟩
      have hmem : (i, ii) ∈ C.I c := by rw [e]; simp
      obtain ⟨ii', hm', ho'⟩ := rw'_keeps C.d (fun a => decide (a ∈ out)) _ _ (Nat.le_refl _) i ii hmem (by simpa using hi)
      obtain ⟨x', r', e'⟩ := List.append_of_mem hm'
      have hne : ii'.op ≠ .alu .add := by
        rcases ho' with h | h
        · rw [h]; exact hadd
        · rw [h]; simp
      rw [test_live (I := C.lists out) (c := c) hR.holds e']
      cases r' <;> simp [liveTest, Cse.hit, hne]
  · have hf : C.sel i = false := by
      simp [Ctx.sel, selected, test_dead hdead.2]
    rw [hf]
    exact ⟨test_dead (hR.dead i (Or.inr hdead)), fun h => by cases h⟩

end Shecc.UseChain
