import Verif.Lemmas.RaSim2

/-! Register allocation simulates the source: operations with a destination. -/

namespace RaLink
open Shecc Shecc.Ssa Shecc.RegAlloc IrM SrcBlock

section
variable {A : Abi} {tcall : Nat → String → State → State → Prop} {C : Ctx} {V : Vars} {sp gp : Word} {fofs : Nat → Nat}

/-- The instruction writes `x` to register `q` and nothing else that matters. -/
def OpStep (A : Abi) (C : Ctx) (V : Vars) (fofs : Nat → Nat) (ir : Ph2Ir) (q : Nat) (x : Word) (t : State) : Prop :=
  straight ir.op = true ∧ ∃ nxt t2, IrM.Step A ir nxt t t2 ∧ SameMem C V fofs t t2 ∧
    ∀ j, j < 8 → t2.reg (r3 j) = if j = q then x else t.reg (r3 j)

variable (S : Setup A tcall C V sp gp fofs)
include S

/-- Preparing a local destination and computing into it. -/
theorem dest_sim {B : Block} {D : Nat → Prop} {idx : Int} {st : RA} {s : St} {t : State} {d : Nat} {x : Word} (o p : Option Nat)
    (ir : Nat → Ph2Ir) (R : Rel C V sp gp fofs B D idx st s t) (hinj : Inj st) (hD : ∀ v, V.isGlobal v = true → D v)
    (hg : V.isGlobal d = false) (hto : To fofs (prepareDest V B d o p st).1)
    (hop : ∀ t1 : State, t1.reg = t.reg → t1.sp = sp → t1.gp = gp → (∀ a, ¬ C.hidden a → t1.mem a = s.mem a) →
      ∀ q, q < 8 → OpStep A C V fofs (ir q) q x t1) :
    Sim A tcall st ((prepareDest V B d o p st).1.emit (ir (prepareDest V B d o p st).2)) t
      (Rel C V sp gp fofs B (fun v => D v ∨ v = d) idx ((prepareDest V B d o p st).1.emit (ir (prepareDest V B d o p st).2))
        (wr C s d x)) := by
  have i3 := prepareDest_inj V B d o p st hinj
  obtain ⟨c3, t3, o3, x3, R3, hp8, hpv, hpp, hpr⟩ := prepareDest_sim S o p R hD hto
  generalize prepareDest V B d o p st = rc at *
  obtain ⟨st3, q⟩ := rc
  simp only at *
  refine Sim.chain o3 x3 ?_
  obtain ⟨hc, nxt, t2, hs, hm, hr⟩ := hop t3 hpr R3.sp R3.gp R3.mem q hp8
  exact Sim.emit hc hs ((writeDest S R3 i3 hp8 hpv hpp hg hto hm hr).emit _)

omit S in
theorem storeGlobal_local {v d : Nat} {st : RA} (h : V.isGlobal v = false) : storeGlobal V v d st = st := by
  unfold storeGlobal; rw [if_neg (by simp [h])]

omit S in
theorem storeGlobal_offset (v d : Nat) (st : RA) : (storeGlobal V v d st).offset = st.offset := by
  unfold storeGlobal; split <;> rfl

omit S in
theorem storeGlobal_pol {v d j : Nat} {st : RA} (h : j ≠ d) : (storeGlobal V v d st).pol j = st.pol j := by
  unfold storeGlobal
  split
  · exact upd_ne _ _ h
  · rfl

omit S in
theorem spillReg_pol {i j : Nat} {st : RA} (h : j ≠ i) : (spillReg V i st).pol j = st.pol j := by
  unfold spillReg
  split
  · rfl
  · unfold spillVar
    split
    · show upd (RA.ensureSlot st _).pol i false j = _
      rw [upd_ne _ _ h]
      unfold RA.ensureSlot
      split <;> rfl
    · rfl

omit S in
theorem prepareDest_pol {B : Block} {v j : Nat} {o p : Option Nat} {st : RA} (h : j ≠ (prepareDest V B v o p st).2) :
    (prepareDest V B v o p st).1.pol j = st.pol j := by
  rcases prepareDest_cases V B v o p st with ⟨i, _, _, e⟩ | ⟨_, i, _, e⟩
  · rw [e] at h ⊢
    exact upd_ne _ _ h
  · rw [e] at h ⊢
    show upd (spillReg V i st).pol i true j = _
    rw [upd_ne _ _ h, spillReg_pol h]

omit S in
theorem prepareOperand_fresh (B : Block) (v : Nat) (o : Option Nat) (st : RA) (h : findReg st v = none) :
    (prepareOperand V B v o st).1.pol (prepareOperand V B v o st).2 = false := by
  rcases prepareOperand_cases V B v o st with ⟨i, hi, hv, e⟩ | ⟨_, i, _, e⟩
  · exact absurd hv (findReg_none h i hi)
  · rw [e]
    show upd _ i false i = false
    simp

/-- The same for a global destination, which is stored immediately. -/
theorem dest_global_sim {B : Block} {D : Nat → Prop} {idx : Int} {st : RA} {s : St} {t : State} {d : Nat} {x : Word}
    (o p : Option Nat) (ir : Nat → Ph2Ir) (R : Rel C V sp gp fofs B D idx st s t) (hinj : Inj st)
    (hD : ∀ v, V.isGlobal v = true → D v) (hg : V.isGlobal d = true) (hto : To fofs (prepareDest V B d o p st).1)
    (hop : ∀ t1 : State, t1.reg = t.reg → t1.sp = sp → t1.gp = gp → (∀ a, ¬ C.hidden a → t1.mem a = s.mem a) →
      ∀ q, q < 8 → OpStep A C V fofs (ir q) q x t1) :
    Sim A tcall st
      (storeGlobal V d (prepareDest V B d o p st).2 ((prepareDest V B d o p st).1.emit (ir (prepareDest V B d o p st).2))) t
      (Rel C V sp gp fofs B D idx
        (storeGlobal V d (prepareDest V B d o p st).2 ((prepareDest V B d o p st).1.emit (ir (prepareDest V B d o p st).2)))
        (wr C s d x)) := by
  have i3 := prepareDest_inj V B d o p st hinj
  obtain ⟨c3, t3, o3, x3, R3, hp8, hpv, hpp, hpr⟩ := prepareDest_sim S o p R hD hto
  generalize prepareDest V B d o p st = rc at *
  obtain ⟨st3, q⟩ := rc
  simp only at *
  refine Sim.chain o3 x3 ?_
  obtain ⟨hc, nxt, t2, hs, hm, hr⟩ := hop t3 hpr R3.sp R3.gp R3.mem q hp8
  refine Sim.trans (Sim.emit hc hs rfl) (Q := fun u => t2 = u) ?_
  rintro _ rfl
  unfold storeGlobal
  rw [if_pos hg]
  obtain ⟨_, gaddr⟩ := S.globalAt d hg
  have hgp2 : t2.gp = gp := hm.gp.trans R3.gp
  have hsp2 : t2.sp = sp := hm.sp.trans R3.sp
  have hofs : (st3.emit (ir q)).offset d = fofs d := R3.gofs d hg
  have hxr : t2.reg (r3 q) = x := by rw [hr q hp8]; simp
  have hstep := IrM.Step.gstore (A := A)
    (ir := { op := .global_store, src0 := num q, src1 := num ((st3.emit (ir q)).offset d) }) (nxt := t2.pc) (s := t2) (a := r3 q)
    rfl (isReg_num hp8)
  have hadr : t2.gp + num ((st3.emit (ir q)).offset d) = C.gaddr d := by rw [hofs, hgp2, gaddr]; rfl
  simp only [hadr, hxr] at hstep
  generalize ht1 : ({ t2 with mem := store32 t2.mem (C.gaddr d) x, callee := none, pc := t2.pc } : State) = t1 at hstep
  have e1 : t1.sp = t2.sp := by rw [← ht1]
  have e2 : t1.gp = t2.gp := by rw [← ht1]
  have e3 : t1.reg = t2.reg := by rw [← ht1]
  have e4 : t1.mem = store32 t2.mem (C.gaddr d) x := by rw [← ht1]
  clear ht1
  refine Sim.outEq (Sim.emit (ir := { op := .global_store, src0 := num q, src1 := num ((st3.emit (ir q)).offset d) })
    rfl hstep ?_) rfl
  have hwm : (wr C s d x).mem = store32 s.mem (C.gaddr d) x := by unfold wr; rw [S.isGlobal, hg]; rfl
  have hwv : ∀ u, (wr C s d x).val u = s.val u := by intro u; unfold wr; rw [S.isGlobal, hg]; rfl
  have hmem : ∀ a, ¬ C.hidden a → t1.mem a = (wr C s d x).mem a := by
    intro a ha
    rw [e4, hwm]
    exact store32_congr (Or.inl (by rw [hm.mem a ha]; exact R3.mem a ha))
  have hsl : ∀ u, V.isGlobal u = false → st3.offset u ≠ 0 → slot t1 (fofs u) = slot t3 (fofs u) := by
    intro u hgu hou
    have hfu : fofs u ≠ 0 := by rw [← hto u hou]; exact hou
    rw [← hm.slots u hgu hfu]
    unfold slot
    rw [e1, e4]
    refine load32_store32_ne _ _ ?_
    intro k l hk hl e
    refine S.globalVis d hg l hl ?_
    rw [← e, hsp2]
    exact S.slotHidden u hgu hfu k hk
  have hrd : ∀ u, u ≠ d → rd C (wr C s d x) u = rd C s u := by
    intro u hu
    cases hgu : V.isGlobal u with
    | false => rw [rd_local S.isGlobal hgu, rd_local S.isGlobal hgu, hwv]
    | true =>
      unfold rd
      rw [S.isGlobal, hgu, if_pos rfl, if_pos rfl, hwm]
      exact load32_store32_ne _ _ fun k l hk hl => S.globalDiff u d hu hgu hg k l hk hl
  have hrdd : rd C (wr C s d x) d = x := by
    unfold rd
    rw [S.isGlobal, hg, if_pos rfl, hwm]
    exact load32_same _ _ _
  refine ⟨e1.trans hsp2, e2.trans hgp2, hmem, R3.gofs, ?_, ?_, ?_, ?_, R3.stk⟩
  · intro j hj u hju hpu hDu
    rw [e3, hr j hj]
    by_cases hud : u = d
    · subst hud
      rw [if_pos (i3 j q u hj hp8 hju hpv), hrdd]
    · rw [if_neg (fun e => hud (by
        subst e
        change st3.var j = some u at hju
        rw [hpv] at hju; cases hju; rfl)), hrd u hud]
      exact R3.reg j hj u hju hpu ⟨hDu, hud⟩
  · intro j hj u hju hpu hDu hpol hgu
    have hud : u ≠ d := fun e => by subst e; rw [hg] at hgu; cases hgu
    have hjq : j ≠ q := fun e => hud (by
      subst e
      change st3.var j = some u at hju
      rw [hpv] at hju; cases hju; rfl)
    change upd st3.pol q false j = false at hpol
    rw [upd_ne _ _ hjq] at hpol
    obtain ⟨c1, c2⟩ := R3.clean j hj u hju hpu ⟨hDu, hud⟩ hpol hgu
    exact ⟨c1, by rw [hsl u hgu c1, c2, hwv]⟩
  · intro u hDu hpu hgu hab
    have hud : u ≠ d := fun e => by subst e; rw [hg] at hgu; cases hgu
    obtain ⟨c1, c2⟩ := R3.away u ⟨hDu, hud⟩ hpu hgu hab
    exact ⟨c1, by rw [hsl u hgu c1, c2, hwv]⟩
  · intro j hj u hju hgu hDu
    show upd st3.pol q false j = false
    by_cases hjq : j = q
    · subst hjq; simp
    · rw [upd_ne _ _ hjq]
      by_cases hud : u = d
      · subst hud
        exact absurd (i3 j q u hj hp8 hju hpv) hjq
      · exact R3.gclean j hj u hju hgu ⟨hDu, hud⟩

omit S in
/-- Forgetting a clean register. -/
theorem Rel.clear {B : Block} {D : Nat → Prop} {idx : Int} {st : RA} {s : St} {t : State} {i : Nat}
    (R : Rel C V sp gp fofs B D idx st s t) (hi : i < 8) (hp : st.pol i = false) :
    Rel C V sp gp fofs B D idx (st.clear i) s t := by
  have hvar : ∀ j u, upd st.var i none j = some u → j ≠ i ∧ st.var j = some u := by
    intro j u hj
    by_cases hji : j = i
    · subst hji; simp at hj
    · rw [upd_ne _ _ hji] at hj
      exact ⟨hji, hj⟩
  refine ⟨R.sp, R.gp, R.mem, R.gofs, ?_, ?_, ?_, ?_, R.stk⟩
  · intro j hj u hju hpu hDu
    exact R.reg j hj u (hvar j u hju).2 hpu hDu
  · intro j hj u hju hpu hDu hpol hgu
    exact R.clean j hj u (hvar j u hju).2 hpu hDu hpol hgu
  · intro u hDu hpu hgu hab
    by_cases hu : st.var i = some u
    · exact R.clean i hi u hu hpu hDu hp hgu
    · refine R.away u hDu hpu hgu ?_
      intro j hj hju
      by_cases hji : j = i
      · subst hji
        exact hu hju
      · apply hab j hj
        show upd st.var i none j = some u
        rw [upd_ne _ _ hji]
        exact hju
  · intro j hj u hju hgu hDu
    exact R.gclean j hj u (hvar j u hju).2 hgu hDu

/-- A result that is never used need not be anywhere. -/
theorem Rel.writeUnused {B : Block} {D : Nat → Prop} {idx : Int} {st : RA} {s : St} {t : State} {d : Nat} {x : Word}
    (R : Rel C V sp gp fofs B D idx st s t) (hg : V.isGlobal d = false) (hnp : ¬ Pend B st idx d) :
    Rel C V sp gp fofs B (fun v => D v ∨ v = d) idx st (wr C s d x) t := by
  have hwm : (wr C s d x).mem = s.mem := by unfold wr; rw [S.isGlobal, hg]; rfl
  have hwv : ∀ u, u ≠ d → (wr C s d x).val u = s.val u := by
    intro u hu; unfold wr; rw [S.isGlobal, hg]; simp [hu]
  have hr' : ∀ u, u ≠ d → rd C (wr C s d x) u = rd C s u := fun u hu => rd_congr (hwv u hu) (fun k _ => by rw [hwm])
  have hne : ∀ u, Pend B st idx u → u ≠ d := fun u h e => hnp (e ▸ h)
  have hD : ∀ u, Pend B st idx u → (D u ∨ u = d) → D u := fun u h h' => h'.resolve_right (hne u h)
  refine ⟨R.sp, R.gp, ?_, R.gofs, ?_, ?_, ?_, ?_, R.stk⟩
  · intro a ha
    rw [hwm]; exact R.mem a ha
  · intro j hj u hju hpu hDu
    rw [hr' u (hne u hpu)]
    exact R.reg j hj u hju hpu (hD u hpu hDu)
  · intro j hj u hju hpu hDu hpol hgu
    rw [hwv u (hne u hpu)]
    exact R.clean j hj u hju hpu (hD u hpu hDu) hpol hgu
  · intro u hDu hpu hgu hab
    rw [hwv u (hne u hpu)]
    exact R.away u (hD u hpu hDu) hpu hgu hab
  · intro j hj u hju hgu hDu
    refine R.gclean j hj u hju hgu (hDu.resolve_right fun e => ?_)
    subst e; rw [hg] at hgu; cases hgu

/-- A unary operation. -/
theorem allocUn_sim {B : Block} {D : Nat → Prop} {idx : Int} {st : RA} {s : St} {t : State} {d a : Nat} {o : Op2}
    {op : CArith.UnOp} (R : Rel C V sp gp fofs B D idx st s t) (hinj : Inj st) (hD : ∀ v, V.isGlobal v = true → D v)
    (ha : D a) (hpa : Pend B st idx a) (hg : V.isGlobal d = false) (hop : unOf o = some op)
    (hto : To fofs (allocUn V B o d a st)) :
    Sim A tcall st (allocUn V B o d a st) t
      (Rel C V sp gp fofs B (fun v => D v ∨ v = d) idx (allocUn V B o d a st) (wr C s d (CArith.un op (rd C s a)))) := by
  unfold allocUn at hto ⊢
  simp only at hto ⊢
  have i1 := prepareOperand_inj V B a none st hinj
  have sa := fun h => prepareOperand_sim S (v := a) none R hD ha hpa h
  generalize prepareOperand V B a none st = ra at *
  obtain ⟨st1, r⟩ := ra
  simp only at *
  have to2 : To fofs (prepareDest V B d (some r) none st1).1 := hto
  obtain ⟨c1, t1, o1, x1, R1, hr8, hrv, hrr, hro⟩ := sa ((mono_dest V B d (some r) none st1).to to2)
  refine Sim.chain o1 x1 ?_
  refine dest_sim S (some r) none (fun q => { op := o, src0 := num r, dest := num q }) R1 i1 hD hg to2 ?_
  intro t2 h1 _ _ _ q hq
  refine ⟨(by show straight o = true; cases o <;> first | rfl | cases hop), t2.pc, _,
    IrM.Step.un (op := op) (d := r3 q) (a := r3 r) hop (isReg_num hq) (isReg_num hr8), setReg_same, ?_⟩
  have hreg : t2.reg (r3 r) = rd C s a := by rw [h1, hrr]
  rw [hreg]
  exact setReg_at hq

/-- A read through a pointer. -/
theorem allocRead_sim {B : Block} {D : Nat → Prop} {idx : Int} {st : RA} {s : St} {t : State} {d a sz : Nat} {x : Word}
    (R : Rel C V sp gp fofs B D idx st s t) (hinj : Inj st) (hD : ∀ v, V.isGlobal v = true → D v)
    (ha : D a) (hpa : Pend B st idx a) (hg : V.isGlobal d = false) (hto : To fofs (allocRead V B sz d a st))
    (hx : (sz = 4 ∧ Vis C (rd C s a) 4 ∧ x = load32 s.mem (rd C s a)) ∨
      (sz = 1 ∧ Vis C (rd C s a) 1 ∧ x = C.byteVal (s.mem (rd C s a)))) :
    Sim A tcall st (allocRead V B sz d a st) t
      (Rel C V sp gp fofs B (fun v => D v ∨ v = d) idx (allocRead V B sz d a st) (wr C s d x)) := by
  unfold allocRead at hto ⊢
  simp only at hto ⊢
  have i1 := prepareOperand_inj V B a none st hinj
  have sa := fun h => prepareOperand_sim S (v := a) none R hD ha hpa h
  generalize prepareOperand V B a none st = ra at *
  obtain ⟨st1, r⟩ := ra
  simp only at *
  have to2 : To fofs (prepareDest V B d (some r) none st1).1 := hto
  obtain ⟨c1, t1, o1, x1, R1, hr8, hrv, hrr, hro⟩ := sa ((mono_dest V B d (some r) none st1).to to2)
  refine Sim.chain o1 x1 ?_
  refine dest_sim S (some r) none (fun q => { op := .read, src0 := num r, src1 := num sz, dest := num q }) R1 i1 hD hg to2 ?_
  intro t2 h1 _ _ hmem q hq
  have hreg : t2.reg (r3 r) = rd C s a := by rw [h1, hrr]
  rcases hx with ⟨rfl, hv, rfl⟩ | ⟨rfl, hv, rfl⟩
  · refine ⟨rfl, t2.pc, _, IrM.Step.read4 (d := r3 q) (a := r3 r) rfl rfl (isReg_num hq) (isReg_num hr8), setReg_same, ?_⟩
    have : load32 t2.mem (t2.reg (r3 r)) = load32 s.mem (rd C s a) := by
      rw [hreg]; exact load32_congr fun k hk => hmem _ (hv k hk)
    rw [this]
    exact setReg_at hq
  · refine ⟨rfl, t2.pc, _, IrM.Step.read1 (d := r3 q) (a := r3 r) rfl rfl (isReg_num hq) (isReg_num hr8), setReg_same, ?_⟩
    have : A.byteVal (t2.mem (t2.reg (r3 r))) = C.byteVal (s.mem (rd C s a)) := by
      rw [hreg, S.byteVal]
      have := hmem (rd C s a) (by have := hv 0 (by omega); simpa using this)
      rw [this]
    rw [this]
    exact setReg_at hq

/-- Loading a constant, or the address of a string. -/
theorem allocConst_sim {B : Block} {D : Nat → Prop} {idx : Int} {st : RA} {s : St} {t : State} {d : Nat} {op : Op2} {x : Word}
    (R : Rel C V sp gp fofs B D idx st s t) (hinj : Inj st) (hD : ∀ v, V.isGlobal v = true → D v)
    (hskip : st.consumed d = -1 → V.isGlobal d = false ∧ d ∉ B.liveOut) (h0 : 0 ≤ idx)
    (hto : To fofs (allocConst V B op d st))
    (hx : (op = .load_constant ∧ x = C.initVal d) ∨ (op = .load_data_address ∧ x = C.dataAddr + C.initVal d)) :
    Sim A tcall st (allocConst V B op d st) t
      (Rel C V sp gp fofs B (fun v => D v ∨ v = d) idx (allocConst V B op d st) (wr C s d x)) := by
  unfold allocConst at hto ⊢
  split
  · rename_i hc
    obtain ⟨hg, hl⟩ := hskip hc
    refine Sim.refl ?_
    have hnp : ¬ Pend B st idx d := fun h => h.elim hl (fun h => by omega)
    exact R.writeUnused S hg hnp
  · rename_i hc
    rw [if_neg hc] at hto
    simp only at hto ⊢
    have hop : ∀ t1 : State, ∀ q, q < 8 →
        OpStep A C V fofs ({ op := op, src0 := V.initVal d, dest := num q } : Ph2Ir) q x t1 := by
      intro t1 q hq
      rcases hx with ⟨rfl, rfl⟩ | ⟨rfl, rfl⟩
      · refine ⟨rfl, t1.pc, _, IrM.Step.const (d := r3 q) rfl (isReg_num hq), setReg_same, ?_⟩
        rw [S.initVal]
        exact setReg_at hq
      · refine ⟨rfl, t1.pc, _, IrM.Step.data (d := r3 q) rfl (isReg_num hq), setReg_same, ?_⟩
        rw [S.dataAddr, S.initVal]
        exact setReg_at hq
    cases hg : V.isGlobal d with
    | false =>
      rw [storeGlobal_local hg] at hto ⊢
      exact dest_sim S none none (fun q => { op := op, src0 := V.initVal d, dest := num q }) R hinj hD hg hto
        (fun t1 _ _ _ _ q hq => hop t1 q hq)
    | true =>
      have hto' : To fofs (prepareDest V B d none none st).1 := by
        unfold storeGlobal at hto
        rw [if_pos hg] at hto
        exact hto
      have := dest_global_sim S none none (fun q => { op := op, src0 := V.initVal d, dest := num q }) R hinj hD hg hto'
        (fun t1 _ _ _ _ q hq => hop t1 q hq)
      obtain ⟨c, t', h1, h2, h3⟩ := this
      exact ⟨c, t', h1, h2, h3.weaken (fun v h => h.elim id (fun e => e ▸ hD d hg)) (Int.le_refl _)⟩

/-- A copy. -/
theorem allocAssign_sim {B : Block} {D : Nat → Prop} {idx : Int} {st : RA} {s : St} {t : State} {d a : Nat}
    (R : Rel C V sp gp fofs B D idx st s t) (hinj : Inj st) (hD : ∀ v, V.isGlobal v = true → D v)
    (ha : D a) (hpa : Pend B st idx a)
    (hskip : st.consumed d = -1 → V.isGlobal d = false ∧ d ∉ B.liveOut) (h0 : 0 ≤ idx)
    (hdiff : st.consumed d ≠ -1 → findReg st a = none → (prepareOperand V B a none st).2 ≠
      (prepareDest V B d (some (prepareOperand V B a none st).2) none (prepareOperand V B a none st).1).2)
    (hto : To fofs (allocAssign V B d a st)) :
    Sim A tcall st (allocAssign V B d a st) t
      (Rel C V sp gp fofs B (fun v => D v ∨ v = d) idx (allocAssign V B d a st) (wr C s d (rd C s a))) := by
  unfold allocAssign at hto ⊢
  split
  · rename_i hc
    obtain ⟨hg, hl⟩ := hskip hc
    refine Sim.refl ?_
    have hnp : ¬ Pend B st idx d := fun h => h.elim hl (fun h => by omega)
    exact R.writeUnused S hg hnp
  · rename_i hc
    rw [if_neg hc] at hto
    simp only at hto ⊢
    have hdf := hdiff hc
    have hfresh := prepareOperand_fresh (V := V) B a none st
    have i1 := prepareOperand_inj V B a none st hinj
    have sa := fun h => prepareOperand_sim S (v := a) none R hD ha hpa h
    generalize prepareOperand V B a none st = ra at *
    obtain ⟨st1, r⟩ := ra
    simp only at *
    have hto2 : To fofs (prepareDest V B d (some r) none st1).1 := by
      intro v hv
      have := hto v
      rw [apply_ite RA.offset] at this
      simp only [RA.clear, storeGlobal_offset, ite_self] at this
      exact this hv
    obtain ⟨c1, t1, o1, x1, R1, hr8, hrv, hrr, hro⟩ := sa ((mono_dest V B d (some r) none st1).to hto2)
    refine Sim.chain o1 x1 ?_
    have hop : ∀ t2 : State, t2.reg = t1.reg → ∀ q, q < 8 →
        OpStep A C V fofs ({ op := .assign, src0 := num r, dest := num q } : Ph2Ir) q (rd C s a) t2 := by
      intro t2 h2 q hq
      refine ⟨rfl, t2.pc, _, IrM.Step.assign (d := r3 q) (a := r3 r) rfl (isReg_num hq) (isReg_num hr8), setReg_same, ?_⟩
      have hreg : t2.reg (r3 r) = rd C s a := by rw [h2, hrr]
      rw [hreg]
      exact setReg_at hq
    have main : Sim A tcall st1 (storeGlobal V d (prepareDest V B d (some r) none st1).2
        ((prepareDest V B d (some r) none st1).1.emit { op := .assign, src0 := num r, dest := num (prepareDest V B d (some r) none st1).2 })) t1
        (Rel C V sp gp fofs B (fun v => D v ∨ v = d) idx (storeGlobal V d (prepareDest V B d (some r) none st1).2
          ((prepareDest V B d (some r) none st1).1.emit { op := .assign, src0 := num r, dest := num (prepareDest V B d (some r) none st1).2 }))
          (wr C s d (rd C s a))) := by
      cases hg : V.isGlobal d with
      | false =>
        rw [storeGlobal_local hg]
        exact dest_sim S (some r) none (fun q => { op := .assign, src0 := num r, dest := num q }) R1 i1 hD hg hto2
          (fun t1 h _ _ _ q hq => hop t1 h q hq)
      | true =>
        have := dest_global_sim S (some r) none (fun q => { op := .assign, src0 := num r, dest := num q }) R1 i1 hD hg hto2
          (fun t1 h _ _ _ q hq => hop t1 h q hq)
        obtain ⟨c, t', h1, h2, h3⟩ := this
        exact ⟨c, t', h1, h2, h3.weaken (fun v h => h.elim id (fun e => e ▸ hD d hg)) (Int.le_refl _)⟩
    split
    · rename_i hcl
      rw [Option.isNone_iff_eq_none] at hcl
      obtain ⟨c, t', h1, h2, h3⟩ := main
      refine ⟨c, t', h1, h2, h3.clear hr8 ?_⟩
      rw [storeGlobal_pol (fun e => hdf hcl e)]
      show (prepareDest V B d (some r) none st1).1.pol r = false
      rw [prepareDest_pol (fun e => hdf hcl e)]
      exact hfresh hcl
    · exact main

/-- The address of a global. -/
theorem allocAddressOf_sim {B : Block} {D : Nat → Prop} {idx : Int} {st : RA} {s : St} {t : State} {d a : Nat}
    (R : Rel C V sp gp fofs B D idx st s t) (hinj : Inj st) (hD : ∀ v, V.isGlobal v = true → D v)
    (hga : V.isGlobal a = true) (hg : V.isGlobal d = false) (hto : To fofs (allocAddressOf V B d a st)) :
    Sim A tcall st (allocAddressOf V B d a st) t
      (Rel C V sp gp fofs B (fun v => D v ∨ v = d) idx (allocAddressOf V B d a st) (wr C s d (C.gaddr a))) := by
  obtain ⟨hf, hadr⟩ := S.globalAt a hga
  have hofs := R.gofs a hga
  unfold allocAddressOf at hto ⊢
  simp only [hofs, hf, if_false] at hto ⊢
  have hto2 : To fofs (prepareDest V B d none none st).1 := hto
  have hof2 : (prepareDest V B d none none st).1.offset a = fofs a := by
    rw [mono_dest V B d none none st a (by rw [hofs]; exact hf), hofs]
  rw [hof2, hga]
  refine dest_sim S none none (fun q => { op := .global_address_of, src0 := num (fofs a), dest := num q }) R hinj hD hg hto2 ?_
  intro t2 h1 _ h3 _ q hq
  refine ⟨rfl, t2.pc, _, IrM.Step.gaddr (d := r3 q) rfl (isReg_num hq), setReg_same, ?_⟩
  have : t2.gp + num (fofs a) = C.gaddr a := by rw [h3, hadr]; rfl
  rw [this]
  exact setReg_at hq

/-- The declaration of an array or structure: its address. -/
theorem allocAllocat_sim {B : Block} {D : Nat → Prop} {idx : Int} {st : RA} {s : St} {t : State} {d : Nat}
    (R : Rel C V sp gp fofs B D idx st s t) (hinj : Inj st) (hD : ∀ v, V.isGlobal v = true → D v)
    (hb : V.basic d = false) (hg : V.isGlobal d = false) (h0 : ¬ D d) (hto : To fofs (allocAllocat V B d st)) :
    Sim A tcall st (allocAllocat V B d st) t
      (Rel C V sp gp fofs B (fun v => D v ∨ v = d) idx (allocAllocat V B d st) (wr C s d (C.objAddr d))) := by
  unfold allocAllocat at hto ⊢
  simp only [hb, if_false, Bool.false_eq_true] at hto ⊢
  have R' : Rel C V sp gp fofs B D idx
      { st with offset := upd st.offset d st.stack, stack := st.stack + 4 + (alignSize (num (V.objSize d))).toNat } s t := by
    have hne : ∀ u, D u → upd st.offset d st.stack u = st.offset u := fun u hu => upd_ne _ _ (fun e => h0 (e ▸ hu))
    refine ⟨R.sp, R.gp, R.mem, ?_, R.reg, ?_, ?_, R.gclean, ?_⟩
    · intro u hu
      show upd st.offset d st.stack u = _
      rw [hne u (hD u hu)]; exact R.gofs u hu
    · intro j hj u hju hpu hDu hpol hgu
      show upd st.offset d st.stack u ≠ 0 ∧ _
      rw [hne u hDu]; exact R.clean j hj u hju hpu hDu hpol hgu
    · intro u hDu hpu hgu hab
      show upd st.offset d st.stack u ≠ 0 ∧ _
      rw [hne u hDu]; exact R.away u hDu hpu hgu hab
    · show st.stack + 4 + _ ≠ 0; omega
  have hinj' : Inj { st with offset := upd st.offset d st.stack, stack := st.stack + 4 + (alignSize (num (V.objSize d))).toNat } := hinj
  have hof : (upd st.offset d st.stack) d = st.stack := by simp
  have hmono := mono_dest V B d none none
    { st with offset := upd st.offset d st.stack, stack := st.stack + 4 + (alignSize (num (V.objSize d))).toNat } d
    (by show upd st.offset d st.stack d ≠ 0; rw [hof]; exact R.stk)
  have hto2 : To fofs (prepareDest V B d none none
      { st with offset := upd st.offset d st.stack, stack := st.stack + 4 + (alignSize (num (V.objSize d))).toNat }).1 := hto
  have hfd : fofs d = st.stack := by
    have hm : (prepareDest V B d none none
      { st with offset := upd st.offset d st.stack, stack := st.stack + 4 + (alignSize (num (V.objSize d))).toNat }).1.offset d = st.stack := by
      rw [hmono]; exact hof
    rw [← hm]
    exact (hto2 d (by rw [hm]; exact R.stk)).symm
  refine Sim.outEq (st1 := (prepareDest V B d none none
      { st with offset := upd st.offset d st.stack, stack := st.stack + 4 + (alignSize (num (V.objSize d))).toNat }).1.emit
        { op := .address_of, src0 := num (st.stack + 4), dest := num (prepareDest V B d none none
      { st with offset := upd st.offset d st.stack, stack := st.stack + 4 + (alignSize (num (V.objSize d))).toNat }).2 }) ?_ rfl
  refine dest_sim S (st := { st with offset := upd st.offset d st.stack, stack := st.stack + 4 + (alignSize (num (V.objSize d))).toNat })
    none none (fun q => { op := .address_of, src0 := num (st.stack + 4), dest := num q }) R' hinj' hD hg hto2 ?_
  intro t2 h1 h2 _ _ q hq
  refine ⟨rfl, t2.pc, _, IrM.Step.addr (d := r3 q) rfl (isReg_num hq), setReg_same, ?_⟩
  have : t2.sp + num (st.stack + 4) = C.objAddr d := by rw [h2, S.objAt d hb, hfd]; rfl
  rw [this]
  exact setReg_at hq

end

end RaLink
