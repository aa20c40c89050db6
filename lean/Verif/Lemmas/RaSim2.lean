import Verif.Lemmas.RaSim

/-! Register allocation simulates the source: instructions without calls. -/

namespace RaLink
open Shecc Shecc.Ssa Shecc.RegAlloc IrM SrcBlock

/-- Slots once given stay. -/
def Mono (st st' : RA) : Prop := ∀ v, st.offset v ≠ 0 → st'.offset v = st.offset v

theorem Mono.closed (st : RA) : Closed (Mono st) := by
  constructor
  · intro a b h1 _ h v hv
    rw [h1]; exact h v hv
  · intro a v h u hu
    unfold RA.ensureSlot
    split
    · rename_i h0
      by_cases huv : u = v
      · subst huv
        rw [h u hu] at h0
        exact absurd h0 hu
      · simp only [upd_ne _ _ huv]; exact h u hu
    · exact h u hu

theorem Mono.refl (st : RA) : Mono st st := fun _ _ => rfl

theorem Mono.to {fofs : Nat → Nat} {st st' : RA} (h : Mono st st') (ht : To fofs st') : To fofs st := by
  intro v hv
  rw [← h v hv]
  exact ht v (by rw [h v hv]; exact hv)

theorem mono_operand (V : Vars) (B : Block) (v : Nat) (o : Option Nat) (st : RA) : Mono st (prepareOperand V B v o st).1 :=
  (Mono.closed st).prepareOperand V B v o (Mono.refl st)

theorem mono_dest (V : Vars) (B : Block) (v : Nat) (o p : Option Nat) (st : RA) : Mono st (prepareDest V B v o p st).1 :=
  (Mono.closed st).prepareDest V B v o p (Mono.refl st)

theorem isBinOp_iff (o : Op2) : isBinOp o = (binOf o).isSome := by cases o <;> rfl
theorem isUnOp_iff (o : Op2) : isUnOp o = (unOf o).isSome := by cases o <;> rfl

section
variable {A : Abi} {tcall : Nat → String → State → State → Prop} {C : Ctx} {V : Vars} {sp gp : Word} {fofs : Nat → Nat}

/-- The allocator goes from `st` to `st'` and the machine executes what was emitted. -/
def Sim (A : Abi) (tcall : Nat → String → State → State → Prop) (st st' : RA) (t : State) (Q : State → Prop) : Prop :=
  ∃ code t', st'.out = st.out ++ code ∧ TRun A tcall st.out.length code t t' ∧ Q t'

theorem Sim.trans {st st1 st2 : RA} {t : State} {Q Q' : State → Prop} (h : Sim A tcall st st1 t Q)
    (h' : ∀ t1, Q t1 → Sim A tcall st1 st2 t1 Q') : Sim A tcall st st2 t Q' := by
  obtain ⟨c, t1, h1, h2, h3⟩ := h
  obtain ⟨c', t2, g1, g2, g3⟩ := h' t1 h3
  exact ⟨c ++ c', t2, by rw [g1, h1, List.append_assoc], TRun.append h2 (by rw [h1, List.length_append] at g2; exact g2), g3⟩

theorem Sim.chain {st st1 st2 : RA} {c : List Ph2Ir} {t t1 : State} {Q : State → Prop} (h1 : st1.out = st.out ++ c)
    (h2 : TRun A tcall st.out.length c t t1) (h : Sim A tcall st1 st2 t1 Q) : Sim A tcall st st2 t Q := by
  obtain ⟨c', t2, g1, g2, g3⟩ := h
  exact ⟨c ++ c', t2, by rw [g1, h1, List.append_assoc], TRun.append h2 (by rw [h1, List.length_append] at g2; exact g2), g3⟩

theorem Sim.emit {st : RA} {ir : Ph2Ir} {nxt : Word} {t t' : State} {Q : State → Prop} (hc : straight ir.op = true)
    (h : IrM.Step A ir nxt t t') (hq : Q t') : Sim A tcall st (st.emit ir) t Q :=
  ⟨[ir], t', rfl, TRun.one hc h, hq⟩

theorem Sim.refl {st : RA} {t : State} {Q : State → Prop} (hq : Q t) : Sim A tcall st st t Q := ⟨[], t, by simp, .nil t, hq⟩

theorem Sim.outEq {st st1 st2 : RA} {t : State} {Q : State → Prop} (h : Sim A tcall st st1 t Q) (e : st2.out = st1.out) :
    Sim A tcall st st2 t Q := by
  obtain ⟨c, t', h1, h2⟩ := h
  exact ⟨c, t', by rw [e, h1], h2⟩

/-- A register update with an arbitrary `pc`, nothing else. -/
theorem setReg_same {t : State} {k : BitVec 3} {x : Word} {pc : Word} :
    SameMem C V fofs t { setReg t k x with callee := none, pc := pc } :=
  ⟨rfl, rfl, fun _ _ => rfl, fun _ _ _ => rfl⟩

theorem setReg_at {t : State} {r : Nat} {x : Word} (hr : r < 8) :
    ∀ j, j < 8 → (setReg t (r3 r) x).reg (r3 j) = if j = r then x else t.reg (r3 j) := by
  intro j hj
  simp only [setReg]
  by_cases h : j = r
  · subst h; simp
  · rw [if_neg (fun e => h (r3_inj hj hr e)), if_neg h]

variable (S : Setup A tcall C V sp gp fofs)
include S

/-- A binary operation. -/
theorem allocBin_sim {B : Block} {D : Nat → Prop} {idx : Int} {st : RA} {s : St} {t : State} {d a b : Nat} {o : Op2}
    {op : CArith.BinOp} {v : Word} (R : Rel C V sp gp fofs B D idx st s t) (hinj : Inj st) (hD : ∀ v, V.isGlobal v = true → D v)
    (ha : D a) (hb : D b) (hpa : Pend B st idx a) (hpb : Pend B st idx b) (hg : V.isGlobal d = false)
    (hop : binOf o = some op) (hv : CArith.bin op (rd C s a) (rd C s b) = some v)
    (hdiff : a ≠ b → (prepareOperand V B a none st).2 ≠
      (prepareOperand V B b (some (prepareOperand V B a none st).2) (prepareOperand V B a none st).1).2)
    (hdiv : (divModOf op).isSome = true → a ≠ b) (hto : To fofs (allocBin V B o d a b st)) :
    Sim A tcall st (allocBin V B o d a b st) t
      (Rel C V sp gp fofs B (fun v => D v ∨ v = d) idx (allocBin V B o d a b st) (wr C s d v)) := by
  unfold allocBin at hto ⊢
  simp only at hto ⊢
  have m1 := mono_operand V B a none st
  have i1 := prepareOperand_inj V B a none st hinj
  have k1 := prepareOperand_consumed (V := V) B a none st
  have sa := fun h => prepareOperand_sim S (v := a) none R hD ha hpa h
  generalize prepareOperand V B a none st = ra at *
  obtain ⟨st1, r⟩ := ra
  simp only at *
  have m2 := mono_operand V B b (some r) st1
  have i2 := prepareOperand_inj V B b (some r) st1 i1
  have k2 := prepareOperand_consumed (V := V) B b (some r) st1
  have sb := fun t1 R1 h => prepareOperand_sim S (s := s) (t := t1) (v := b) (some r) R1 hD hb (hpb.of_consumed k1) h
  generalize prepareOperand V B b (some r) st1 = rb at *
  obtain ⟨st2, q⟩ := rb
  simp only at *
  have m3 := mono_dest V B d (some r) (some q) st2
  have i3 := prepareDest_inj V B d (some r) (some q) st2 i2
  have sd := fun t2 R2 h => prepareDest_sim S (B := B) (idx := idx) (st := st2) (D := D) (s := s) (t := t2) (d := d) (some r) (some q) R2 hD h
  generalize prepareDest V B d (some r) (some q) st2 = rc at *
  obtain ⟨st3, p⟩ := rc
  simp only at *
  have to3 : To fofs st3 := hto
  have to2 := m3.to to3
  have to1 := m2.to to2
  obtain ⟨c1, t1, o1, x1, R1, hr8, hrv, hrr, hro⟩ := sa to1
  obtain ⟨c2, t2, o2, x2, R2, hq8, hqv, hqr, hqo⟩ := sb t1 R1 to2
  obtain ⟨c3, t3, o3, x3, R3, hp8, hpv, hpp, hpr⟩ := sd t2 R2 to3
  have va : t3.reg (r3 r) = rd C s a := by
    rw [hpr]
    by_cases hrq : r = q
    · have hab : a = b := Classical.byContradiction fun h => hdiff h hrq
      rw [hrq, hqr, hab]
    · rw [(hqo r hr8 hrq).1, hrr]
  have vb : t3.reg (r3 q) = rd C s b := by rw [hpr, hqr]
  have hsp3 : t3.sp = sp := R3.sp
  refine Sim.chain o1 x1 ?_
  refine Sim.chain o2 x2 ?_
  refine Sim.chain o3 x3 ?_
  have hstep := IrM.Step.bin (A := A) (ir := { op := o, src0 := num r, src1 := num q, dest := num p }) (nxt := t3.pc) (s := t3)
    (op := op) (d := r3 p) (a := r3 r) (b := r3 q) (v := v) hop (isReg_num hp8) (isReg_num hr8) (isReg_num hq8)
    (by rw [va, vb]; exact hv)
    (by
      intro o' ho'
      refine S.divOk o' t3 _ _ hsp3 ?_
      intro e
      exact hdiff (hdiv (by rw [ho']; rfl)) (r3_inj hr8 hq8 e))
  refine Sim.emit (by show straight o = true; cases o <;> first | rfl | cases hop) hstep ?_
  refine (writeDest S (x := v) R3 i3 hp8 hpv hpp hg to3 ?_ ?_).emit _
  · have hmm : ∀ a', (if (divModOf op).isSome then A.divMem t3 (r3 r) (r3 q) else t3.mem) a' ≠ t3.mem a' →
        C.hidden a' ∧ ∀ v, V.isGlobal v = false → fofs v ≠ 0 → ∀ k, k < 4 → a' ≠ slotByte sp (fofs v) k := by
      intro a' ha'
      split at ha'
      · exact S.divMem t3 _ _ a' hsp3 ha'
      · exact absurd rfl ha'
    refine ⟨rfl, rfl, ?_, ?_⟩
    · intro a' ha'
      exact Classical.byContradiction fun hne => ha' (hmm a' hne).1
    · intro u hgu hfu
      refine load32_congr fun k hk => Classical.byContradiction fun hne => ?_
      refine (hmm _ hne).2 u hgu hfu k hk ?_
      show t3.sp + _ + _ = _
      rw [hsp3]
      rfl
  · exact setReg_at hp8

end

end RaLink
