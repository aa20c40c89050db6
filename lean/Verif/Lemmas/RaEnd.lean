import Verif.Lemmas.RaBody

/-! Register allocation simulates the source: the end of a block. -/

namespace RaLink
open Shecc Shecc.Ssa Shecc.RegAlloc IrM SrcBlock

section
variable {A : Abi} {tcall : Nat → String → State → State → Prop} {C : Ctx} {V : Vars} {sp gp : Word} {fofs : Nat → Nat}

/-- After copies to the variables of `T`. -/
structure PhiInv (C : Ctx) (V : Vars) (sp gp : Word) (fofs : Nat → Nat) (B : Block) (use : Nat → Int) (D T : Nat → Prop) (idx : Int)
    (st : RA) (s : St) (t : State) : Prop where
  rel : Rel C V sp gp fofs B (fun v => D v ∧ ¬ T v) idx st s t
  target : ∀ v, T v → V.isGlobal v = false ∧ v ∉ B.killed ∧ st.offset v ≠ 0 ∧ slot t (fofs v) = s.val v
  pk : ∀ j, j < 8 → st.pol j = true → ∀ v, st.var j = some v → v ∈ B.killed
  use_le : ∀ v, use v ≤ st.consumed v
  glob : ∀ v, V.isGlobal v = true → D v

theorem PhiInv.globT {B : Block} {use : Nat → Int} {D T : Nat → Prop} {idx : Int} {st : RA} {s : St} {t : State}
    (I : PhiInv C V sp gp fofs B use D T idx st s t) : ∀ v, V.isGlobal v = true → D v ∧ ¬ T v := by
  intro v hv
  refine ⟨I.glob v hv, fun h => ?_⟩
  rw [(I.target v h).1] at hv
  cases hv

theorem refresh_offset (B : Block) (idx : Int) (st : RA) : (refresh B idx st).offset = st.offset := by
  unfold refresh
  generalize List.range regCnt = l
  induction l generalizing st with
  | nil => rfl
  | cons i l ih =>
    rw [List.foldl_cons, ih]
    unfold refresh1
    split
    · rfl
    · split
      · rfl
      · split <;> rfl

theorem Mono.ne {a b : RA} (h : Mono a b) {v : Nat} (hv : a.offset v ≠ 0) : b.offset v ≠ 0 := by rw [h v hv]; exact hv

theorem step_phi {i : Insn} {s s' : St} {d a : Nat} (ho : i.op = .unwound_phi) (hd : i.rd = some d) (ha : i.rs1 = some a)
    (h : Step C i s s') : s' = wr C s d (rd C s a) := by
  cases h <;> simp_all

variable (S : Setup A tcall C V sp gp fofs)
include S

/-- One copy. -/
theorem phi_sim {B : Block} {use : Nat → Int} {D T : Nat → Prop} {idx : Nat} {st st' : RA} {s s' : St} {t : State} {i : Insn} {d a : Nat}
    (I : PhiInv C V sp gp fofs B use D T idx st s t) (ho : i.op = .unwound_phi) (hd : i.rd = some d) (ha : i.rs1 = some a)
    (hDa : D a) (hTa : ¬ T a) (hpa : a ∈ B.liveOut ∨ (idx : Int) ≤ use a) (hgd : V.isGlobal d = false) (hkd : d ∉ B.killed)
    (h : Step C i s s') (he : allocInsn V B idx i st = some st') (hto : To fofs st') :
    Sim A tcall st st' t (PhiInv C V sp gp fofs B use D (fun v => T v ∨ i.rd = some v) (idx + 1 : Nat) st' s') := by
  obtain rfl := step_phi ho hd ha h
  have R1 := I.rel.refresh
  have hout := refresh_out B idx st
  have hofs := refresh_offset B idx st
  have c1 : Ctl (· ∈ B.killed) st.pushing st.args st.consumed (RegAlloc.refresh B idx st) :=
    Ctl.refresh ⟨I.pk, rfl, rfl, rfl⟩ B idx
  unfold allocInsn at he
  generalize RegAlloc.refresh B idx st = st1 at *
  unfold allocOp at he
  rw [ho, hd, ha] at he
  simp only [Option.some.injEq, allocPhi] at he
  subst he
  have m2 := mono_operand V B a none st1
  have c2 := c1.operand V B a none
  have hpend : Pend B st1 idx a := hpa.imp id (fun h => by rw [c1.consumed]; exact Int.le_trans h (I.use_le a))
  have so := fun h => prepareOperand_sim' S (v := a) none R1 I.globT ⟨hDa, hTa⟩ hpend h
  have hstk1 := R1.stk
  generalize prepareOperand V B a none st1 = ra at *
  obtain ⟨st2, r⟩ := ra
  simp only at *
  have hto2 : To fofs st2 := by
    have : Mono st2 (st2.ensureSlot d) := (Mono.closed st2).slot st2 d (Mono.refl st2)
    exact this.to hto
  obtain ⟨c, t1, o1, x1, R2, hr8, hrv, hrr, hro, hsl⟩ := so hto2
  refine Sim.chain (by rw [o1, hout]) (by rw [← hout]; exact x1) ?_
  obtain ⟨f1, f2, f3, f4, f5, f6, f7, f8, f9, f10⟩ := ensureSlot_facts st2 d R2.stk
  have hfd : (st2.ensureSlot d).offset d = fofs d := hto d f1
  have hfz : fofs d ≠ 0 := hfd ▸ f1
  have hstep := IrM.Step.store (A := A) (ir := { op := .store, src0 := num r, src1 := num ((st2.ensureSlot d).offset d) }) (nxt := t1.pc)
    (s := t1) (a := r3 r) rfl (isReg_num hr8)
  have hsrc : num ((st2.ensureSlot d).offset d) = BitVec.ofNat 32 (fofs d) := by rw [hfd]; rfl
  simp only [hsrc, hrr] at hstep
  generalize ht2 : ({ t1 with mem := store32 t1.mem (t1.sp + BitVec.ofNat 32 (fofs d)) (rd C s a), callee := none, pc := t1.pc } : State) = t2 at hstep
  have e1 : t2.sp = t1.sp := by rw [← ht2]
  have e2 : t2.gp = t1.gp := by rw [← ht2]
  have e3 : t2.reg = t1.reg := by rw [← ht2]
  have e4 : t2.mem = store32 t1.mem (t1.sp + BitVec.ofNat 32 (fofs d)) (rd C s a) := by rw [← ht2]
  clear ht2
  obtain ⟨n1, n2, n3⟩ := store_slot S R2.sp hgd hfz t2 e1 e4
  refine ⟨[{ op := .store, src0 := num r, src1 := num ((st2.ensureSlot d).offset d) }], t2, ?_, ?_, ?_⟩
  · show (st2.ensureSlot d).out ++ _ = _
    rw [f8]
  · rw [hsrc]; exact TRun.one rfl hstep
  have hwm : (wr C s d (rd C s a)).mem = s.mem := by unfold wr; rw [S.isGlobal, hgd]; rfl
  have hwv : ∀ u, u ≠ d → (wr C s d (rd C s a)).val u = s.val u := by
    intro u hu; unfold wr; rw [S.isGlobal, hgd]; simp [hu]
  have hwd : (wr C s d (rd C s a)).val d = rd C s a := by unfold wr; rw [S.isGlobal, hgd]; simp
  have hrw : ∀ u, u ≠ d → rd C (wr C s d (rd C s a)) u = rd C s u := fun u hu => rd_congr (hwv u hu) (fun k _ => by rw [hwm])
  have hofs2 : ∀ u, st2.offset u ≠ 0 → (st2.ensureSlot d).offset u ≠ 0 := by
    intro u hu
    by_cases hud : u = d
    · subst hud; exact f1
    · rw [f2 u hud]; exact hu
  have hpd : ∀ v, (v ∈ B.liveOut ∨ ((idx + 1 : Nat) : Int) ≤ (st2.ensureSlot d).consumed v) → Pend B st2 idx v := by
    intro v h
    rw [f7] at h
    exact h.imp id (fun h => by omega)
  have hTd : ∀ v, ¬ (T v ∨ i.rd = some v) → ¬ T v ∧ v ≠ d := fun v h => ⟨fun h' => h (Or.inl h'), fun e => h (Or.inr (by rw [hd, e]))⟩
  have hfo : ∀ u, st2.offset u ≠ 0 → fofs u ≠ 0 := fun u hu => by rw [← hto2 u hu]; exact hu
  refine ⟨⟨e1.trans R2.sp, e2.trans R2.gp, ?_, ?_, ?_, ?_, ?_, ?_, f4⟩, ?_, ?_, ?_, I.glob⟩
  · intro x hx
    rw [n1 x hx, hwm]; exact R2.mem x hx
  · intro v hv
    show (st2.ensureSlot d).offset v = _
    rw [f2 v (fun e => by subst e; rw [hgd] at hv; cases hv)]
    exact R2.gofs v hv
  · intro j hj u hju hpu hDu
    obtain ⟨d1, d2⟩ := hTd u hDu.2
    change (st2.ensureSlot d).var j = some u at hju
    rw [f5] at hju
    rw [e3, hrw u d2]
    exact R2.reg j hj u hju (hpd u hpu) ⟨hDu.1, d1⟩
  · intro j hj u hju hpu hDu hpol hgu
    obtain ⟨d1, d2⟩ := hTd u hDu.2
    change (st2.ensureSlot d).var j = some u at hju
    change (st2.ensureSlot d).pol j = false at hpol
    rw [f5] at hju
    rw [f6] at hpol
    obtain ⟨q1, q2⟩ := R2.clean j hj u hju (hpd u hpu) ⟨hDu.1, d1⟩ hpol hgu
    exact ⟨hofs2 u q1, by rw [n3 u d2 hgu (hfo u q1), q2, hwv u d2]⟩
  · intro u hDu hpu hgu hab
    obtain ⟨d1, d2⟩ := hTd u hDu.2
    have hab' : Absent st2 u := fun j hj hju => hab j hj (by
      show (st2.ensureSlot d).var j = some u
      rw [f5]; exact hju)
    obtain ⟨q1, q2⟩ := R2.away u ⟨hDu.1, d1⟩ (hpd u hpu) hgu hab'
    exact ⟨hofs2 u q1, by rw [n3 u d2 hgu (hfo u q1), q2, hwv u d2]⟩
  · intro j hj u hju hgu hDu
    obtain ⟨d1, d2⟩ := hTd u hDu.2
    change (st2.ensureSlot d).var j = some u at hju
    rw [f5] at hju
    show (st2.ensureSlot d).pol j = false
    rw [f6]
    exact R2.gclean j hj u hju hgu ⟨hDu.1, d1⟩
  · intro v hv
    by_cases hvd : v = d
    · subst hvd
      exact ⟨hgd, hkd, f1, by rw [n2, hwd]⟩
    · have hTv : T v := hv.resolve_right fun e => hvd (by rw [hd] at e; cases e; rfl)
      obtain ⟨g1, g2, g3, g4⟩ := I.target v hTv
      have g3' : st1.offset v ≠ 0 := by rw [hofs]; exact g3
      have g5 := m2.ne g3'
      refine ⟨g1, g2, hofs2 v g5, ?_⟩
      rw [n3 v hvd g1 (hfo v g5), hwv v hvd, hsl v g1 (hfo v g5) (fun j hj hp hjv => g2 (c1.pk j hj hp v hjv)), g4]
  · intro j hj hp v hv
    change (st2.ensureSlot d).var j = some v at hv
    change (st2.ensureSlot d).pol j = true at hp
    rw [f5] at hv
    rw [f6] at hp
    exact c2.pk j hj hp v hv
  · intro v
    show _ ≤ (st2.ensureSlot d).consumed v
    rw [f7, c2.consumed]; exact I.use_le v

/-- All copies. -/
theorem phis_sim {B : Block} {use : Nat → Int} {D : Nat → Prop} (is : List Insn) : ∀ {T : Nat → Prop} {idx : Nat} {st st' : RA} {s s' : St}
    {t : State}, PhiInv C V sp gp fofs B use D T idx st s t → Phis V B use D T idx is → SrcBlock.Run C is s s' →
    allocInsns V B idx is st = some st' → To fofs st' →
    Sim A tcall st st' t
      (PhiInv C V sp gp fofs B use D (fun v => T v ∨ ∃ i ∈ is, i.rd = some v) (idx + is.length : Nat) st' s') := by
  induction is with
  | nil =>
    intro T idx st st' s s' t I _ hr he _
    cases he
    cases hr
    have : (fun v => T v ∨ ∃ i ∈ ([] : List Insn), i.rd = some v) = T := by funext v; simp
    rw [this]
    exact Sim.refl I
  | cons i is ih =>
    intro T idx st st' s s' t I hP hr he hto
    obtain ⟨⟨d, a, ho, hd, ha, hDa, hTa, hpa, hgd, hkd⟩, hP⟩ := hP
    cases hr with
    | cons hstep hr =>
    unfold allocInsns at he
    split at he
    · cases he
    · rename_i st1 h1
      have hall : ∀ (is : List Insn) (T : Nat → Prop) (idx : Nat) (st st' : RA), Phis V B use D T idx is → allocInsns V B idx is st = some st' → Mono st st' := by
        intro is
        induction is with
        | nil => intro T idx st st' _ he; cases he; exact Mono.refl st
        | cons j is ih =>
          intro T idx st st' hP he
          obtain ⟨⟨_, _, ho, _⟩, hP⟩ := hP
          unfold allocInsns at he
          split at he
          · cases he
          · rename_i st1 h1
            unfold allocInsn at h1
            have a1 : Mono st (RegAlloc.refresh B idx st) := (Mono.closed st).refresh B _ (Mono.refl st)
            have a2 := (Mono.closed st).allocOp V B _ j (fun h => by rw [ho] at h; cases h) a1 h1
            exact a2.trans (ih _ _ _ _ hP he)
      have hto1 := (hall is _ _ _ _ hP he).to hto
      obtain ⟨c, t1, g1, g2, g3⟩ := phi_sim S I ho hd ha hDa hTa hpa hgd hkd hstep h1 hto1
      refine Sim.chain g1 g2 ?_
      obtain ⟨c', t', q1, q2, q3⟩ := ih g3 hP hr he hto
      refine ⟨c', t', q1, q2, ?_⟩
      have e1 : idx + 1 + is.length = idx + (i :: is).length := by simp only [List.length_cons]; omega
      have e2 : (fun v => (T v ∨ i.rd = some v) ∨ ∃ j ∈ is, j.rd = some v) = (fun v => T v ∨ ∃ j ∈ i :: is, j.rd = some v) := by
        funext v
        simp only [List.mem_cons, exists_eq_or_imp, or_assoc]
      rw [e1, e2] at q3
      exact q3

/-- Forgetting a register whose variable is not needed, or is up to date in memory. -/
theorem Rel.drop {B : Block} {D : Nat → Prop} {idx : Int} {st : RA} {s : St} {t : State} {i : Nat}
    (R : Rel C V sp gp fofs B D idx st s t) (hi : i < 8)
    (h : ∀ v, st.var i = some v → D v → V.isGlobal v = false → st.pol i = false) :
    Rel C V sp gp fofs B D idx (st.setReg i none false) s t := by
  have hvar : ∀ j u, upd st.var i none j = some u → j ≠ i ∧ st.var j = some u := by
    intro j u hj
    by_cases hji : j = i
    · subst hji; simp at hj
    · rw [upd_ne _ _ hji] at hj
      exact ⟨hji, hj⟩
  refine ⟨R.sp, R.gp, R.mem, R.gofs, ?_, ?_, ?_, ?_, R.stk⟩
  · intro j hj u hju hpu hDu
    exact R.reg j hj u (hvar j u hju).2 hpu hDu
  · intro j hj u hju hpu hDu hpol hgu
    obtain ⟨h1, h2⟩ := hvar j u hju
    change upd st.pol i false j = false at hpol
    rw [upd_ne _ _ h1] at hpol
    exact R.clean j hj u h2 hpu hDu hpol hgu
  · intro u hDu hpu hgu hab
    by_cases hu : st.var i = some u
    · exact R.clean i hi u hu hpu hDu (h u hu hDu hgu) hgu
    · refine R.away u hDu hpu hgu ?_
      intro j hj hju
      by_cases hji : j = i
      · subst hji
        exact hu hju
      · apply hab j hj
        show upd st.var i none j = some u
        rw [upd_ne _ _ hji]
        exact hju
  · intro j hj u hju hgu hDu
    obtain ⟨h1, h2⟩ := hvar j u hju
    show upd st.pol i false j = false
    rw [upd_ne _ _ h1]
    exact R.gclean j hj u h2 hgu hDu

omit S in
theorem spillLiveOut1_mono (V : Vars) (B : Block) (st : RA) (i : Nat) : Mono st (spillLiveOut1 V B st i) := by
  unfold spillLiveOut1
  split
  · exact Mono.refl st
  · split
    · split
      · exact (Mono.closed st).spillVar V _ i (Mono.refl st)
      · exact fun _ _ => rfl
    · exact fun _ _ => rfl

omit S in
theorem foldLiveOut_mono (V : Vars) (B : Block) (l : List Nat) (st : RA) : Mono st (l.foldl (spillLiveOut1 V B) st) := by
  induction l generalizing st with
  | nil => exact Mono.refl st
  | cons i l ih => exact (spillLiveOut1_mono V B st i).trans (ih _)

theorem foldLiveOut_sim {B : Block} {use : Nat → Int} {D T : Nat → Prop} {idx : Int} {s : St}
    (hD : ∀ v, D v → V.isGlobal v = false → v ∈ B.liveOut) (l : List Nat) (hl : ∀ i ∈ l, i < 8) : ∀ (st : RA) (t : State),
    PhiInv C V sp gp fofs B use D T idx st s t → To fofs (l.foldl (spillLiveOut1 V B) st) →
    Sim A tcall st (l.foldl (spillLiveOut1 V B) st) t
      (fun t' => PhiInv C V sp gp fofs B use D T idx (l.foldl (spillLiveOut1 V B) st) s t' ∧ t'.reg = t.reg) := by
  induction l with
  | nil => intro st t I _; exact Sim.refl ⟨I, rfl⟩
  | cons i l ih =>
    intro st t I hto
    have hi := hl i (List.mem_cons_self ..)
    have ih := ih (fun j hj => hl j (List.mem_cons_of_mem _ hj))
    rw [List.foldl_cons] at hto ⊢
    have hto1 := (foldLiveOut_mono V B l _).to hto
    have key : Sim A tcall st (spillLiveOut1 V B st i) t
        (fun t' => PhiInv C V sp gp fofs B use D T idx (spillLiveOut1 V B st i) s t' ∧ t'.reg = t.reg) := by
      have hdrop : (∀ v, st.var i = some v → D v → V.isGlobal v = false → st.pol i = false) →
          PhiInv C V sp gp fofs B use D T idx (st.setReg i none false) s t := by
        intro h
        have c : Ctl (· ∈ B.killed) st.pushing st.args st.consumed (st.setReg i none false) :=
          Ctl.setFalse ⟨I.pk, rfl, rfl, rfl⟩ i none
        exact ⟨I.rel.drop S hi (fun v h1 h2 h3 => h v h1 h2.1 h3), I.target, c.pk, I.use_le, I.glob⟩
      unfold spillLiveOut1 at hto1 ⊢
      split
      · exact Sim.refl ⟨I, rfl⟩
      · rename_i v hv
        simp only [hv] at hto1
        split
        · rename_i hlo
          rw [if_pos hlo] at hto1
          split
          · rename_i hk
            rw [if_pos hk] at hto1
            have e : spillVar V v i st = spillReg V i st := by unfold spillReg; rw [hv]
            rw [e] at hto1 ⊢
            obtain ⟨c1, t1, o1, r1, R1, g1, w1⟩ := spillReg_sim' S I.rel I.globT hi hto1
            have c : Ctl (· ∈ B.killed) st.pushing st.args st.consumed (spillReg V i st) :=
              Ctl.spillReg ⟨I.pk, rfl, rfl, rfl⟩ V i
            refine ⟨c1, t1, o1, r1, ⟨R1, ?_, c.pk, by rw [c.consumed]; exact I.use_le, I.glob⟩, g1⟩
            intro u hu
            obtain ⟨q1, q2, q3, q4⟩ := I.target u hu
            have q5 := (mono_spillReg V i st).ne q3
            refine ⟨q1, q2, q5, ?_⟩
            rw [w1 u q1 (by rw [← hto1 u q5]; exact q5) (fun hp hvu => q2 (I.pk i hi hp u hvu)), q4]
          · rename_i hk
            refine Sim.outEq (Sim.refl (st := st) ⟨hdrop ?_, rfl⟩) rfl
            intro u hu _ _
            cases hp : st.pol i with
            | false => rfl
            | true =>
              rw [hv] at hu
              cases hu
              exact absurd (I.pk i hi hp v hv) hk
        · rename_i hlo
          refine Sim.outEq (Sim.refl (st := st) ⟨hdrop ?_, rfl⟩) rfl
          intro u hu hDu hgu
          rw [hv] at hu
          cases hu
          exact absurd (hD v hDu hgu) hlo
    obtain ⟨c, t1, g1, g2, I1, g3⟩ := key
    refine Sim.chain g1 g2 ?_
    obtain ⟨c', t', q1, q2, q3, q4⟩ := ih _ t1 I1 hto
    exact ⟨c', t', q1, q2, q3, q4.trans g3⟩

/-- Emptying the registers at the end of a block. -/
theorem spillLiveOut_sim {B : Block} {use : Nat → Int} {D T : Nat → Prop} {idx : Int} {st : RA} {s : St} {t : State}
    {out : Nat → Prop} (I : PhiInv C V sp gp fofs B use D T idx st s t)
    (hlive : ∀ v, out v → V.isGlobal v = false → v ∈ B.liveOut ∧ (D v ∨ T v))
    (hto : To fofs (spillLiveOut V B st)) :
    Sim A tcall st (spillLiveOut V B st) t
      (fun t' => Between C V sp gp fofs out s t' ∧ t'.reg = t.reg ∧
        (∀ v, out v → V.isGlobal v = false → (spillLiveOut V B st).offset v ≠ 0) ∧
        (∀ v, V.isGlobal v = true → (spillLiveOut V B st).offset v = fofs v) ∧ (spillLiveOut V B st).stack ≠ 0) := by
  have I' : PhiInv C V sp gp fofs B use (fun v => V.isGlobal v = true ∨ (D v ∧ v ∈ B.liveOut)) T idx st s t := by
    refine ⟨I.rel.weaken ?_ (Int.le_refl _), I.target, I.pk, I.use_le, fun v hv => Or.inl hv⟩
    rintro v ⟨h1, h2⟩
    exact ⟨h1.elim (I.glob v) (·.1), h2⟩
  obtain ⟨c, t', h1, h2, h3, h4⟩ := foldLiveOut_sim S
    (fun v hv hg => hv.elim (fun h => by rw [hg] at h; cases h) (·.2)) (List.range regCnt) (fun i hi => List.mem_range.1 hi) st t I' hto
  suffices hall : ∀ v, out v → V.isGlobal v = false →
      (spillLiveOut V B st).offset v ≠ 0 ∧ slot t' (fofs v) = s.val v from
    ⟨c, t', h1, h2,
      ⟨h3.rel.sp, h3.rel.gp, h3.rel.mem,
        fun v hv hg => ⟨by rw [← hto v (hall v hv hg).1]; exact (hall v hv hg).1, (hall v hv hg).2⟩⟩,
      h4, fun v hv hg => (hall v hv hg).1, h3.rel.gofs, h3.rel.stk⟩
  intro v hov hg
  have hv := (hlive v hov hg).1
  have hem : ∀ i, i < 8 → (spillLiveOut V B st).var i = none := spillLiveOut_var V B st
  by_cases hT : T v
  · obtain ⟨_, _, q3, q4⟩ := h3.target v hT
    exact ⟨q3, q4⟩
  · have hDv : D v := (hlive v hov hg).2.resolve_right hT
    obtain ⟨q1, q2⟩ := h3.rel.away v ⟨Or.inr ⟨hDv, hv⟩, hT⟩ (Or.inl hv) hg (fun j hj h => by
      have := hem j hj
      unfold spillLiveOut at this
      rw [this] at h; cases h)
    exact ⟨q1, q2⟩

omit S in
/-- The start of a block. -/
theorem Entry.inv {B : Block} {use : Nat → Int} {live : Nat → Prop} {st : RA} {s : St} {t : State} (hi : C.isGlobal = V.isGlobal)
    (E : Entry C V sp gp fofs live st s t) (hk : ∀ i, i < 8 → ∀ v, st.var i = some v → v ∈ B.killed)
    (hp : st.pushing = false) (ha : st.args = 0) (hu : ∀ v, use v ≤ st.consumed v) :
    Inv C V sp gp fofs B use (fun v => V.isGlobal v = true ∨ live v) 0 st s t := by
  refine ⟨⟨E.sp, E.gp, E.mem, E.gofs, ?_, ?_, ?_, ?_, E.stack⟩, E.once, fun j hj _ v hv => hk j hj v hv, hp, ha, E.args, hu,
    fun v hv => Or.inl hv⟩
  · intro i hi' v hv _ _
    obtain ⟨h1, _, h3, _⟩ := E.regs i hi' v hv
    rw [h3, rd_local hi h1]
  · intro i hi' v hv _ _ hpol
    obtain ⟨_, _, _, h4⟩ := E.regs i hi' v hv
    rw [h4] at hpol; cases hpol
  · intro v hD _ hg hab
    exact E.slots v (hD.resolve_left (by rw [hg]; simp)) hg hab
  · intro i hi' v hv hg
    obtain ⟨h1, _⟩ := E.regs i hi' v hv
    rw [h1] at hg; cases hg

end

end RaLink
