import Verif.Lemmas.RaSim3

/-! Register allocation simulates the source: writes through pointers. -/

namespace RaLink
open Shecc Shecc.Ssa Shecc.RegAlloc IrM SrcBlock

section
variable {A : Abi} {tcall : Nat → String → State → State → Prop} {C : Ctx} {V : Vars} {sp gp : Word} {fofs : Nat → Nat}

theorem Mono.trans {a b c : RA} (h : Mono a b) (h' : Mono b c) : Mono a c := by
  intro v hv
  rw [h' v (by rw [h v hv]; exact hv), h v hv]

theorem spillAlive1_cases (V : Vars) (B : Block) (idx : Int) (st : RA) (i : Nat) :
    spillAlive1 V B idx st i = spillReg V i st ∨
      (spillAlive1 V B idx st i = st ∧ ∀ v, st.var i = some v → ¬ Pend B st (idx + 1) v) := by
  unfold spillAlive1 spillReg
  split
  · rename_i h
    exact Or.inl rfl
  · rename_i v h
    split
    · exact Or.inl rfl
    · rename_i hl
      split
      · exact Or.inl rfl
      · rename_i hc
        refine Or.inr ⟨rfl, ?_⟩
        intro u hu hp
        have huv : v = u := by simpa [h] using hu
        subst huv
        rcases hp with hp | hp
        · exact hl hp
        · omega

theorem mono_spillReg (V : Vars) (i : Nat) (st : RA) : Mono st (spillReg V i st) :=
  (Mono.closed st).spillReg V i (Mono.refl st)

theorem spillAlive1_consumed (V : Vars) (B : Block) (idx : Int) (st : RA) (i : Nat) :
    (spillAlive1 V B idx st i).consumed = st.consumed := by
  rcases spillAlive1_cases V B idx st i with h | ⟨h, _⟩
  · rw [h]; exact spillReg_consumed i st
  · rw [h]

theorem foldAlive_mono (V : Vars) (B : Block) (idx : Int) (l : List Nat) (st : RA) :
    Mono st (l.foldl (spillAlive1 V B idx) st) := by
  induction l generalizing st with
  | nil => exact Mono.refl st
  | cons i l ih =>
    refine Mono.trans ?_ (ih (spillAlive1 V B idx st i))
    rcases spillAlive1_cases V B idx st i with h | ⟨h, _⟩
    · rw [h]; exact mono_spillReg V i st
    · rw [h]; exact Mono.refl st

theorem foldAlive_consumed (V : Vars) (B : Block) (idx : Int) (l : List Nat) (st : RA) :
    (l.foldl (spillAlive1 V B idx) st).consumed = st.consumed := by
  induction l generalizing st with
  | nil => rfl
  | cons i l ih => rw [List.foldl_cons, ih, spillAlive1_consumed]

theorem foldAlive_dead (V : Vars) (B : Block) (idx : Int) (l : List Nat) (st : RA) :
    ∀ i ∈ l, ∀ v, (l.foldl (spillAlive1 V B idx) st).var i = some v → ¬ Pend B st (idx + 1) v := by
  induction l generalizing st with
  | nil => intro i hi; cases hi
  | cons k l ih =>
    intro i hi v hv
    have hcons := spillAlive1_consumed V B idx st k
    rw [List.foldl_cons] at hv
    by_cases hil : i ∈ l
    · intro hp
      exact ih _ i hil v hv (hp.of_consumed hcons)
    · have hik : i = k := by
        cases hi with
        | head => rfl
        | tail _ h => exact absurd h hil
      subst hik
      have hsub := fold_sub _ (spillAlive1_sub V B idx) l (spillAlive1 V B idx st i) i
      have hv1 : (spillAlive1 V B idx st i).var i = some v := by
        rcases hsub with h | h
        · rw [← h]; exact hv
        · rw [h] at hv; cases hv
      rcases spillAlive1_cases V B idx st i with h | ⟨h, hd⟩
      · rw [h, spillReg_var] at hv1
        simp at hv1
      · rw [h] at hv1
        exact hd v hv1

variable (S : Setup A tcall C V sp gp fofs)
include S

theorem foldAlive_sim {B : Block} {D : Nat → Prop} {idx : Int} {s : St} (hD : ∀ v, V.isGlobal v = true → D v) (l : List Nat)
    (hl : ∀ i ∈ l, i < 8) : ∀ (st : RA) (t : State), Rel C V sp gp fofs B D idx st s t →
    To fofs (l.foldl (spillAlive1 V B idx) st) →
    Sim A tcall st (l.foldl (spillAlive1 V B idx) st) t
      (fun t' => Rel C V sp gp fofs B D idx (l.foldl (spillAlive1 V B idx) st) s t' ∧ t'.reg = t.reg) := by
  induction l with
  | nil => intro st t R _; exact Sim.refl ⟨R, rfl⟩
  | cons i l ih =>
    intro st t R hto
    have hi := hl i (List.mem_cons_self ..)
    have ih := ih (fun j hj => hl j (List.mem_cons_of_mem _ hj))
    rw [List.foldl_cons] at hto ⊢
    rcases spillAlive1_cases V B idx st i with h | ⟨h, _⟩
    · rw [h] at hto ⊢
      obtain ⟨c1, t1, o1, r1, R1, g1⟩ := spillReg_sim S R hD hi ((foldAlive_mono V B idx l _).to hto)
      refine Sim.chain o1 r1 ?_
      obtain ⟨c, t', h1, h2, h3, h4⟩ := ih _ t1 R1 hto
      exact ⟨c, t', h1, h2, h3, h4.trans g1⟩
    · rw [h] at hto ⊢
      exact ih st t R hto

theorem spillAlive_sim {B : Block} {D : Nat → Prop} {idx : Int} {s : St} {st : RA} {t : State}
    (R : Rel C V sp gp fofs B D idx st s t) (hD : ∀ v, V.isGlobal v = true → D v) (hto : To fofs (spillAlive V B idx st)) :
    Sim A tcall st (spillAlive V B idx st) t
      (fun t' => Rel C V sp gp fofs B D idx (spillAlive V B idx st) s t' ∧ t'.reg = t.reg) :=
  foldAlive_sim S hD _ (fun i hi => List.mem_range.1 hi) st t R hto

omit S in
theorem spillAlive_consumed (B : Block) (idx : Int) (st : RA) : (spillAlive V B idx st).consumed = st.consumed :=
  foldAlive_consumed V B idx _ st

omit S in
theorem spillAlive_mono (B : Block) (idx : Int) (st : RA) : Mono st (spillAlive V B idx st) := foldAlive_mono V B idx _ st

omit S in
theorem spillAlive_dead (B : Block) (idx : Int) (st : RA) : ∀ i, i < 8 → ∀ v, (spillAlive V B idx st).var i = some v →
    ¬ Pend B st (idx + 1) v := fun i hi v hv => foldAlive_dead V B idx _ st i (List.mem_range.2 hi) v hv

/-- A write through a pointer. -/
theorem allocWrite_sim {B : Block} {D : Nat → Prop} {idx : Int} {st : RA} {s : St} {t : State} {a b sz : Nat} {m : Mem}
    (R : Rel C V sp gp fofs B D idx st s t) (hD : ∀ v, V.isGlobal v = true → D v)
    (ha : D a) (hb : D b) (hpa : Pend B st idx a) (hpb : Pend B st idx b) (hf : V.isFunc b = false)
    (hdiff : a ≠ b → (prepareOperand V B a none (spillAlive V B idx st)).2 ≠
      (prepareOperand V B b (some (prepareOperand V B a none (spillAlive V B idx st)).2)
        (prepareOperand V B a none (spillAlive V B idx st)).1).2)
    (hto : To fofs (allocWrite V B idx sz a b st))
    (h1 : Apart C s.mem m a) (h2 : Apart C s.mem m b)
    (hx : (sz = 4 ∧ Vis C (rd C s a) 4 ∧ m = store32 s.mem (rd C s a) (rd C s b)) ∨
      (sz = 1 ∧ Vis C (rd C s a) 1 ∧ m = store8 s.mem (rd C s a) ((rd C s b).setWidth 8))) :
    Sim A tcall st (allocWrite V B idx sz a b st) t
      (Rel C V sp gp fofs B D (idx + 1) (allocWrite V B idx sz a b st) { s with mem := m }) := by
  unfold allocWrite at hto ⊢
  simp only [hf, if_false, Bool.false_eq_true] at hto ⊢
  have k0 := spillAlive_consumed (V := V) B idx st
  have d0 := spillAlive_dead (V := V) B idx st
  have s0 := fun h => spillAlive_sim S R hD h
  generalize spillAlive V B idx st = st0 at *
  have m1 := mono_operand V B a none st0
  have k1 := prepareOperand_consumed (V := V) B a none st0
  have sa := fun t0 R0 h => prepareOperand_sim S (B := B) (D := D) (idx := idx) (st := st0) (s := s) (t := t0) (v := a) none R0 hD ha
    (hpa.of_consumed k0) h
  generalize prepareOperand V B a none st0 = ra at *
  obtain ⟨st1, r⟩ := ra
  simp only at *
  have m2 := mono_operand V B b (some r) st1
  have k2 := prepareOperand_consumed (V := V) B b (some r) st1
  have sb := fun t1 R1 h => prepareOperand_sim S (B := B) (D := D) (idx := idx) (st := st1) (s := s) (t := t1) (v := b) (some r) R1 hD hb
    ((hpb.of_consumed k0).of_consumed k1) h
  generalize prepareOperand V B b (some r) st1 = rb at *
  obtain ⟨st2, q⟩ := rb
  simp only at *
  have to2 : To fofs st2 := hto
  have to1 := m2.to to2
  obtain ⟨c0, t0, o0, x0, R0, g0⟩ := s0 (m1.to to1)
  obtain ⟨c1, t1, o1, x1, R1, hr8, hrv, hrr, hro⟩ := sa t0 R0 to1
  obtain ⟨c2, t2, o2, x2, R2, hq8, hqv, hqr, hqo⟩ := sb t1 R1 to2
  refine Sim.chain o0 x0 (Sim.chain o1 x1 (Sim.chain o2 x2 ?_))
  have va : t2.reg (r3 r) = rd C s a := by
    by_cases hrq : r = q
    · have hab : a = b := Classical.byContradiction fun h => hdiff h hrq
      rw [hrq, hqr, hab]
    · rw [(hqo r hr8 hrq).1, hrr]
  -- the machine's write
  have key : ∃ nxt t3, IrM.Step A { op := .write, src0 := num r, src1 := num q, dest := num sz } nxt t2 t3 ∧ t3.reg = t2.reg ∧
      t3.sp = t2.sp ∧ t3.gp = t2.gp ∧ (∀ x, ¬ C.hidden x → t3.mem x = m x) ∧ (∀ x, C.hidden x → t3.mem x = t2.mem x) := by
    rcases hx with ⟨rfl, hv, rfl⟩ | ⟨rfl, hv, rfl⟩
    · refine ⟨t2.pc, _, IrM.Step.write4 (a := r3 r) (b := r3 q) rfl rfl (isReg_num hr8) (isReg_num hq8), rfl, rfl, rfl, ?_, ?_⟩
      · intro x hx
        simp only [va, hqr]
        exact store32_congr (Or.inl (R2.mem x hx))
      · intro x hx
        simp only [va, hqr]
        exact store32_ne _ _ fun k hk e => hv k hk (e ▸ hx)
    · refine ⟨t2.pc, _, IrM.Step.write1 (a := r3 r) (b := r3 q) rfl rfl (isReg_num hr8) (isReg_num hq8), rfl, rfl, rfl, ?_, ?_⟩
      · intro x hx
        simp only [va, hqr, store8]
        split
        · rfl
        · exact R2.mem x hx
      · intro x hx
        simp only [va, hqr, store8]
        rw [if_neg]
        intro e
        have := hv 0 (by omega)
        rw [e] at hx
        exact this (by simpa using hx)
  obtain ⟨nxt, t3, hs, e1, e2, e3, e4, e5⟩ := key
  refine Sim.emit rfl hs ?_
  have hsl : ∀ u, V.isGlobal u = false → st2.offset u ≠ 0 → slot t3 (fofs u) = slot t2 (fofs u) := by
    intro u hgu hou
    have hfu : fofs u ≠ 0 := by rw [← to2 u hou]; exact hou
    unfold slot
    rw [e2]
    refine load32_congr fun k hk => e5 _ ?_
    rw [R2.sp]
    exact S.slotHidden u hgu hfu k hk
  have hp : ∀ v, Pend B (st2.emit { op := .write, src0 := num r, src1 := num q, dest := num sz }) (idx + 1) v → Pend B st2 idx v := by
    intro v h
    rcases h with h | h
    · exact Or.inl h
    · exact Or.inr (Int.le_trans (by omega) h)
  have hdead : ∀ v, Pend B (st2.emit { op := .write, src0 := num r, src1 := num q, dest := num sz }) (idx + 1) v → Pend B st (idx + 1) v := by
    intro v h
    unfold Pend at h ⊢
    rw [← k0, ← k1, ← k2]
    exact h
  have hrdm : ∀ u, (u = a ∨ u = b) → rd C { s with mem := m } u = rd C s u := by
    intro u hu
    unfold rd
    split
    · rename_i hg
      rcases hu with rfl | rfl
      · exact h1 hg
      · exact h2 hg
    · rfl
  refine ⟨e2.trans R2.sp, e3.trans R2.gp, e4, R2.gofs, ?_, ?_, ?_, R2.gclean, R2.stk⟩
  · intro j hj u hju hpu hDu
    rw [e1]
    have hju' : st2.var j = some u := hju
    have hab : u = a ∨ u = b := by
      by_cases hjq : j = q
      · subst hjq
        rw [hqv] at hju'
        cases hju'
        exact Or.inr rfl
      · rw [(hqo j hj hjq).2] at hju'
        by_cases hjr : j = r
        · subst hjr
          rw [hrv] at hju'
          cases hju'
          exact Or.inl rfl
        · rw [(hro j hj hjr).2] at hju'
          exact absurd (hdead u hpu) (d0 j hj u hju')
    rw [hrdm u hab]
    exact R2.reg j hj u hju (hp u hpu) hDu
  · intro j hj u hju hpu hDu hpol hgu
    obtain ⟨c1, c2⟩ := R2.clean j hj u hju (hp u hpu) hDu hpol hgu
    exact ⟨c1, by rw [hsl u hgu c1, c2]⟩
  · intro u hDu hpu hgu hab
    obtain ⟨c1, c2⟩ := R2.away u hDu (hp u hpu) hgu hab
    exact ⟨c1, by rw [hsl u hgu c1, c2]⟩

end

end RaLink
