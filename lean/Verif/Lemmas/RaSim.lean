import Verif.Spec.RaLink
import Verif.Lemmas.RegAlloc
import Verif.Lemmas.RaMem

/-! Register allocation simulates the source: the pieces. -/

namespace RaLink
open Shecc Shecc.Ssa Shecc.RegAlloc IrM SrcBlock

theorem TRun.append {A : Abi} {tc : Nat → String → State → State → Prop} {xs ys : List Ph2Ir} {t u v : State}
    {n : Nat}
    (h : TRun A tc n xs t u) (h' : TRun A tc (n + xs.length) ys u v) : TRun A tc n (xs ++ ys) t v := by
  induction h with
  | nil t => simpa using h'
  | @step n ir irs nxt t u w hc hs _ ih =>
    exact .step hc hs (ih (by rw [show n + 1 + irs.length = n + (ir :: irs).length by simp; omega]; exact h'))
  | @call n ir irs t u w hc hs _ ih =>
    exact .call hc hs (ih (by rw [show n + 1 + irs.length = n + (ir :: irs).length by simp; omega]; exact h'))

theorem TRun.one {A : Abi} {tc : Nat → String → State → State → Prop} {n : Nat} {ir : Ph2Ir} {nxt : Word} {t u : State} (hc : straight ir.op = true)
    (h : IrM.Step A ir nxt t u) : TRun A tc n [ir] t u := .step hc h (.nil u)

theorem isReg_num {i : Nat} (h : i < 8) : isReg (num i) (r3 i) := by
  unfold isReg num r3
  apply BitVec.eq_of_toNat_eq
  simp only [BitVec.toNat_ofNat, BitVec.toNat_setWidth]
  omega

theorem r3_inj {i j : Nat} (hi : i < 8) (hj : j < 8) (h : r3 i = r3 j) : i = j := by
  have := congrArg BitVec.toNat h
  simp only [r3, BitVec.toNat_ofNat] at this
  omega

/-- The variable may still be used in the block, or after it. -/
def Pend (B : Block) (st : RA) (idx : Int) (v : Nat) : Prop := v ∈ B.liveOut ∨ idx ≤ st.consumed v

/-- Slots given so far are the final ones. -/
def To (fofs : Nat → Nat) (st : RA) : Prop := ∀ v, st.offset v ≠ 0 → st.offset v = fofs v

section
variable {A : Abi} {tcall : Nat → String → State → State → Prop} {C : Ctx} {V : Vars} {sp gp : Word} {fofs : Nat → Nat}

/-- Where the values are, before instruction `idx`. `D`: the variables that have a value. -/
structure Rel (C : Ctx) (V : Vars) (sp gp : Word) (fofs : Nat → Nat) (B : Block) (D : Nat → Prop) (idx : Int) (st : RA) (s : St)
    (t : State) : Prop where
  sp : t.sp = sp
  gp : t.gp = gp
  mem : ∀ a, ¬ C.hidden a → t.mem a = s.mem a
  gofs : ∀ v, V.isGlobal v = true → st.offset v = fofs v
  reg : ∀ i, i < 8 → ∀ v, st.var i = some v → Pend B st idx v → D v → t.reg (r3 i) = rd C s v
  clean : ∀ i, i < 8 → ∀ v, st.var i = some v → Pend B st idx v → D v → st.pol i = false → V.isGlobal v = false →
    st.offset v ≠ 0 ∧ slot t (fofs v) = s.val v
  away : ∀ v, D v → Pend B st idx v → V.isGlobal v = false → Absent st v → st.offset v ≠ 0 ∧ slot t (fofs v) = s.val v
  gclean : ∀ i, i < 8 → ∀ v, st.var i = some v → V.isGlobal v = true → D v → st.pol i = false
  stk : st.stack ≠ 0

/-- The same frame words, and the same visible memory. -/
structure SameMem (C : Ctx) (V : Vars) (fofs : Nat → Nat) (t t' : State) : Prop where
  sp : t'.sp = t.sp
  gp : t'.gp = t.gp
  mem : ∀ a, ¬ C.hidden a → t'.mem a = t.mem a
  slots : ∀ v, V.isGlobal v = false → fofs v ≠ 0 → slot t' (fofs v) = slot t (fofs v)

variable (S : Setup A tcall C V sp gp fofs)
include S

/-- A store to the frame word of local `v`. -/
theorem store_slot {t : State} {v : Nat} {x : Word} (hsp : t.sp = sp) (hg : V.isGlobal v = false) (hf : fofs v ≠ 0)
    (t' : State) (h1 : t'.sp = t.sp) (hm : t'.mem = store32 t.mem (t.sp + BitVec.ofNat 32 (fofs v)) x) :
    (∀ a, ¬ C.hidden a → t'.mem a = t.mem a) ∧ slot t' (fofs v) = x ∧
      ∀ u, u ≠ v → V.isGlobal u = false → fofs u ≠ 0 → slot t' (fofs u) = slot t (fofs u) := by
  refine ⟨?_, ?_, ?_⟩
  · intro a ha
    rw [hm]
    refine store32_ne _ _ ?_
    intro k hk e
    apply ha
    rw [e, hsp]
    exact S.slotHidden v hg hf k hk
  · unfold slot
    rw [h1, hm]
    exact load32_same _ _ _
  · intro u hu hgu hfu
    unfold slot
    rw [h1, hm]
    refine load32_store32_ne _ _ ?_
    intro k l hk hl
    obtain ⟨a1, a2⟩ := S.slotFits u hgu hfu
    obtain ⟨b1, b2⟩ := S.slotFits v hg hf
    exact slot_ne (S.slotDiff u v hu hgu hg hfu hf) a1 b1 a2 b2 hk hl

omit S in
theorem rd_congr {s s' : St} {v : Nat} (h1 : s'.val v = s.val v)
    (h2 : ∀ k, k < 4 → s'.mem (C.gaddr v + BitVec.ofNat 32 k) = s.mem (C.gaddr v + BitVec.ofNat 32 k)) : rd C s' v = rd C s v := by
  unfold rd
  split
  · exact load32_congr h2
  · exact h1

omit S in
theorem rd_local (hi : C.isGlobal = V.isGlobal) {s : St} {v : Nat} (hg : V.isGlobal v = false) : rd C s v = s.val v := by
  unfold rd
  rw [hi, hg]
  rfl

omit S in
theorem ensureSlot_facts (st : RA) (v : Nat) (hs : st.stack ≠ 0) :
    (st.ensureSlot v).offset v ≠ 0 ∧ (∀ u, u ≠ v → (st.ensureSlot v).offset u = st.offset u) ∧
    (st.offset v ≠ 0 → (st.ensureSlot v).offset v = st.offset v) ∧ (st.ensureSlot v).stack ≠ 0 ∧
    (st.ensureSlot v).var = st.var ∧ (st.ensureSlot v).pol = st.pol ∧ (st.ensureSlot v).consumed = st.consumed ∧
    (st.ensureSlot v).out = st.out ∧ (st.ensureSlot v).args = st.args ∧ (st.ensureSlot v).pushing = st.pushing := by
  unfold RA.ensureSlot
  split
  · rename_i h
    refine ⟨?_, ?_, ?_, ?_, rfl, rfl, rfl, rfl, rfl, rfl⟩
    · simp [hs]
    · intro u hu; simp [upd_ne _ _ hu]
    · intro h'; exact absurd h h'
    · simp
  · rename_i h
    exact ⟨h, fun _ _ => rfl, fun _ => rfl, hs, rfl, rfl, rfl, rfl, rfl, rfl⟩

/-- Spilling a register leaves every value where `Rel` says it is, and changes no register. -/
theorem spillReg_sim' {B : Block} {D : Nat → Prop} {idx : Int} {st : RA} {s : St} {t : State} {i : Nat}
    (R : Rel C V sp gp fofs B D idx st s t) (hD : ∀ v, V.isGlobal v = true → D v) (hi : i < 8) (hto : To fofs (spillReg V i st)) :
    ∃ code t', (spillReg V i st).out = st.out ++ code ∧ TRun A tcall st.out.length code t t' ∧
      Rel C V sp gp fofs B D idx (spillReg V i st) s t' ∧ t'.reg = t.reg ∧
      ∀ u, V.isGlobal u = false → fofs u ≠ 0 → (st.pol i = true → st.var i ≠ some u) → slot t' (fofs u) = slot t (fofs u) := by
  unfold spillReg at hto ⊢
  split at hto
  · rename_i h0
    exact ⟨[], t, by simp, .nil t, R, rfl, fun _ _ _ _ => rfl⟩
  · rename_i v h0
    unfold spillVar at hto ⊢
    split
    · rename_i hp
      rw [if_pos hp] at hto
      have hg : V.isGlobal v = false := by
        cases hg : V.isGlobal v with
        | false => rfl
        | true =>
          have := R.gclean i hi v h0 hg (hD v hg)
          rw [hp] at this
          cases this
      obtain ⟨f1, f2, f3, f4, f5, f6, f7, f8, f9, f10⟩ := ensureSlot_facts st v R.stk
      have hfv : (st.ensureSlot v).offset v = fofs v := hto v f1
      have hfz : fofs v ≠ 0 := hfv ▸ f1
      have hns : ∀ (t1 : State), t1.sp = t.sp → t1.mem = store32 t.mem (t.sp + BitVec.ofNat 32 (fofs v)) (t.reg (r3 i)) →
          (∀ a, ¬ C.hidden a → t1.mem a = t.mem a) ∧ slot t1 (fofs v) = t.reg (r3 i) ∧
          ∀ u, u ≠ v → V.isGlobal u = false → fofs u ≠ 0 → slot t1 (fofs u) = slot t (fofs u) :=
        fun t1 h1 h2 => store_slot S R.sp hg hfz t1 h1 h2
      have hstep := IrM.Step.store (A := A) (ir := storeIr V ((st.ensureSlot v).offset v) v i) (nxt := t.pc) (s := t) (a := r3 i)
        (by simp [storeIr, hg]) (isReg_num hi)
      have hsrc : (storeIr V ((st.ensureSlot v).offset v) v i).src1 = BitVec.ofNat 32 (fofs v) := by
        simp [storeIr, num, hfv]
      rw [hsrc] at hstep
      generalize ht1 : ({ t with mem := store32 t.mem (t.sp + BitVec.ofNat 32 (fofs v)) (t.reg (r3 i)), callee := none, pc := t.pc } : State) = t1 at hstep
      have e1 : t1.sp = t.sp := by rw [← ht1]
      have e2 : t1.gp = t.gp := by rw [← ht1]
      have e3 : t1.reg = t.reg := by rw [← ht1]
      have e4 : t1.mem = store32 t.mem (t.sp + BitVec.ofNat 32 (fofs v)) (t.reg (r3 i)) := by rw [← ht1]
      obtain ⟨n1, n2, n3⟩ := hns t1 e1 e4
      refine ⟨[storeIr V ((st.ensureSlot v).offset v) v i], t1, ?_, ?_, ?_, e3, fun u h1 h2 h3 => n3 u (fun e => h3 hp (e ▸ h0)) h1 h2⟩
      · show (st.ensureSlot v).out ++ _ = _
        rw [f8]
      · exact TRun.one (by simp [storeIr, hg, straight]) hstep
      · have hvar : ∀ j u, upd (st.ensureSlot v).var i none j = some u → j ≠ i ∧ st.var j = some u := by
          intro j u hj
          by_cases hji : j = i
          · subst hji; simp at hj
          · rw [upd_ne _ _ hji, f5] at hj
            exact ⟨hji, hj⟩
        have hofs : ∀ u, st.offset u ≠ 0 → (st.ensureSlot v).offset u ≠ 0 := by
          intro u hu
          by_cases huv : u = v
          · subst huv; exact f1
          · rw [f2 u huv]; exact hu
        have hpend : ∀ u, Pend B ((((st.ensureSlot v).emit (storeIr V ((st.ensureSlot v).offset v) v i))).setReg i none false) idx u →
            Pend B st idx u := by
          intro u hu
          unfold Pend at hu ⊢
          rw [← f7]
          exact hu
        have hsl : ∀ u, D u → Pend B st idx u → V.isGlobal u = false → u ≠ v → st.offset u ≠ 0 →
            slot t (fofs u) = s.val u → slot t1 (fofs u) = s.val u := by
          intro u _ _ hgu huv hou hs
          rw [n3 u huv hgu, hs]
          have : (st.ensureSlot v).offset u ≠ 0 := hofs u hou
          have h2 := hto u this
          change (st.ensureSlot v).offset u = fofs u at h2
          rw [← h2]; exact this
        refine ⟨e1.trans R.sp, e2.trans R.gp, ?_, ?_, ?_, ?_, ?_, ?_, f4⟩
        · intro a ha
          rw [n1 a ha]; exact R.mem a ha
        · intro u hu
          show (st.ensureSlot v).offset u = _
          rw [f2 u (fun e => by subst e; rw [hg] at hu; cases hu)]
          exact R.gofs u hu
        · intro j hj u hju hpu hDu
          obtain ⟨hji, hju'⟩ := hvar j u hju
          rw [e3]
          exact R.reg j hj u hju' (hpend u hpu) hDu
        · intro j hj u hju hpu hDu hpol hgu
          obtain ⟨hji, hju'⟩ := hvar j u hju
          have hpol' : st.pol j = false := by
            change upd (st.ensureSlot v).pol i false j = false at hpol
            rw [upd_ne _ _ hji, f6] at hpol
            exact hpol
          obtain ⟨c1, c2⟩ := R.clean j hj u hju' (hpend u hpu) hDu hpol' hgu
          refine ⟨hofs u c1, ?_⟩
          by_cases huv : u = v
          · subst huv
            rw [n2, R.reg i hi u h0 (hpend u hpu) hDu, rd_local S.isGlobal hgu]
          · exact hsl u hDu (hpend u hpu) hgu huv c1 c2
        · intro u hDu hpu hgu hab
          by_cases huv : u = v
          · subst huv
            refine ⟨f1, ?_⟩
            rw [n2, R.reg i hi u h0 (hpend u hpu) hDu, rd_local S.isGlobal hgu]
          · have hab' : Absent st u := by
              intro j hj hju
              by_cases hji : j = i
              · subst hji
                rw [h0] at hju
                cases hju
                exact huv rfl
              · apply hab j hj
                show upd (st.ensureSlot v).var i none j = some u
                rw [upd_ne _ _ hji, f5]
                exact hju
            obtain ⟨c1, c2⟩ := R.away u hDu (hpend u hpu) hgu hab'
            exact ⟨hofs u c1, hsl u hDu (hpend u hpu) hgu huv c1 c2⟩
        · intro j hj u hju hgu hDu
          obtain ⟨hji, hju'⟩ := hvar j u hju
          show upd (st.ensureSlot v).pol i false j = false
          rw [upd_ne _ _ hji, f6]
          exact R.gclean j hj u hju' hgu hDu
    · rename_i hp
      have hp' : st.pol i = false := by simpa using hp
      refine ⟨[], t, by simp [RA.clear], .nil t, ?_, rfl, fun _ _ _ _ => rfl⟩
      have hvar : ∀ j u, upd st.var i none j = some u → j ≠ i ∧ st.var j = some u := by
        intro j u hj
        by_cases hji : j = i
        · subst hji; simp at hj
        · rw [upd_ne _ _ hji] at hj
          exact ⟨hji, hj⟩
      refine ⟨R.sp, R.gp, R.mem, R.gofs, ?_, ?_, ?_, ?_, R.stk⟩
      · intro j hj u hju hpu hDu
        exact R.reg j hj u (hvar j u hju).2 hpu hDu
      · intro j hj u hju hpu hDu hpol hgu
        exact R.clean j hj u (hvar j u hju).2 hpu hDu hpol hgu
      · intro u hDu hpu hgu hab
        by_cases huv : u = v
        · subst huv
          exact R.clean i hi u h0 hpu hDu hp' hgu
        · refine R.away u hDu hpu hgu ?_
          intro j hj hju
          by_cases hji : j = i
          · subst hji
            rw [h0] at hju
            cases hju
            exact huv rfl
          · apply hab j hj
            show upd st.var i none j = some u
            rw [upd_ne _ _ hji]
            exact hju
      · intro j hj u hju hgu hDu
        exact R.gclean j hj u (hvar j u hju).2 hgu hDu

theorem spillReg_sim {B : Block} {D : Nat → Prop} {idx : Int} {st : RA} {s : St} {t : State} {i : Nat}
    (R : Rel C V sp gp fofs B D idx st s t) (hD : ∀ v, V.isGlobal v = true → D v) (hi : i < 8) (hto : To fofs (spillReg V i st)) :
    ∃ code t', (spillReg V i st).out = st.out ++ code ∧ TRun A tcall st.out.length code t t' ∧
      Rel C V sp gp fofs B D idx (spillReg V i st) s t' ∧ t'.reg = t.reg := by
  obtain ⟨c, t', h1, h2, h3, h4, _⟩ := spillReg_sim' S R hD hi hto
  exact ⟨c, t', h1, h2, h3, h4⟩

/-- Loading a variable that is in no register into an empty one. -/
theorem loadVar_sim' {B : Block} {D : Nat → Prop} {idx : Int} {st : RA} {s : St} {t : State} {i v : Nat}
    (R : Rel C V sp gp fofs B D idx st s t) (hi : i < 8) (h0 : st.var i = none) (hab : Absent st v) (hDv : D v)
    (hpv : Pend B st idx v) (hto : To fofs st) :
    ∃ code t', (loadVar V v i st).out = st.out ++ code ∧ TRun A tcall st.out.length code t t' ∧
      Rel C V sp gp fofs B D idx (loadVar V v i st) s t' ∧ t'.reg (r3 i) = rd C s v ∧
      (∀ j, j < 8 → j ≠ i → t'.reg (r3 j) = t.reg (r3 j)) ∧ ∀ o, slot t' o = slot t o := by
  have key : ∃ nxt t1, IrM.Step A (loadIr V (st.offset v) v i) nxt t t1 ∧ t1.sp = t.sp ∧ t1.gp = t.gp ∧ t1.mem = t.mem ∧
      t1.reg = (fun q => if q = r3 i then rd C s v else t.reg q) := by
    cases hg : V.isGlobal v with
    | false =>
      obtain ⟨c1, c2⟩ := R.away v hDv hpv hg hab
      refine ⟨t.pc, _, IrM.Step.load (d := r3 i) (by simp [loadIr, hg]) (isReg_num hi), rfl, rfl, rfl, ?_⟩
      simp only [setReg, loadIr]
      rw [rd_local S.isGlobal hg, ← c2, slot, ← hto v c1]
      rfl
    | true =>
      obtain ⟨c1, c2⟩ := S.globalAt v hg
      refine ⟨t.pc, _, IrM.Step.gload (d := r3 i) (by simp [loadIr, hg]) (isReg_num hi), rfl, rfl, rfl, ?_⟩
      simp only [setReg, loadIr]
      have : load32 t.mem (t.gp + num (st.offset v)) = rd C s v := by
        unfold rd
        rw [S.isGlobal, hg, if_pos rfl, R.gofs v hg, R.gp, num, ← c2]
        exact load32_congr fun k hk => R.mem _ (S.globalVis v hg k hk)
      rw [this]
  obtain ⟨nxt, t1, hs, e1, e2, e3, e4⟩ := key
  have hsame : ∀ j, j < 8 → j ≠ i → t1.reg (r3 j) = t.reg (r3 j) := by
    intro j hj hji
    rw [e4]
    simp only
    rw [if_neg (fun e => hji (r3_inj hj hi e))]
  have hnew : t1.reg (r3 i) = rd C s v := by rw [e4]; simp
  have hslot : ∀ o, slot t1 o = slot t o := by intro o; unfold slot; rw [e1, e3]
  refine ⟨[loadIr V (st.offset v) v i], t1, rfl, TRun.one ?_ hs, ?_, hnew, hsame, hslot⟩
  · unfold loadIr; split <;> rfl
  · have hvar : ∀ j u, upd st.var i (some v) j = some u → (j = i ∧ u = v) ∨ (j ≠ i ∧ st.var j = some u) := by
      intro j u hj
      by_cases hji : j = i
      · subst hji
        simp only [upd_same, Option.some.injEq] at hj
        exact Or.inl ⟨rfl, hj.symm⟩
      · rw [upd_ne _ _ hji] at hj
        exact Or.inr ⟨hji, hj⟩
    refine ⟨e1.trans R.sp, e2.trans R.gp, ?_, R.gofs, ?_, ?_, ?_, ?_, R.stk⟩
    · intro a ha; rw [e3]; exact R.mem a ha
    · intro j hj u hju hpu hDu
      rcases hvar j u hju with ⟨rfl, rfl⟩ | ⟨hji, hju'⟩
      · exact hnew
      · rw [hsame j hj hji]
        exact R.reg j hj u hju' hpu hDu
    · intro j hj u hju hpu hDu hpol hgu
      rw [hslot]
      rcases hvar j u hju with ⟨rfl, rfl⟩ | ⟨hji, hju'⟩
      · exact R.away u hDu hpu hgu hab
      · refine R.clean j hj u hju' hpu hDu ?_ hgu
        change upd st.pol i false j = false at hpol
        rw [upd_ne _ _ hji] at hpol
        exact hpol
    · intro u hDu hpu hgu habu
      rw [hslot]
      refine R.away u hDu hpu hgu ?_
      intro j hj hju
      by_cases hji : j = i
      · subst hji; rw [h0] at hju; cases hju
      · apply habu j hj
        show upd st.var i (some v) j = some u
        rw [upd_ne _ _ hji]
        exact hju
    · intro j hj u hju hgu hDu
      show upd st.pol i false j = false
      rcases hvar j u hju with ⟨rfl, rfl⟩ | ⟨hji, hju'⟩
      · simp
      · rw [upd_ne _ _ hji]
        exact R.gclean j hj u hju' hgu hDu

omit S in
theorem Pend.of_consumed {B : Block} {st st' : RA} {idx : Int} {v : Nat} (h : st'.consumed = st.consumed) (hp : Pend B st idx v) :
    Pend B st' idx v := by
  unfold Pend at hp ⊢
  rw [h]
  exact hp

omit S in
theorem spillReg_consumed (i : Nat) (st : RA) : (spillReg V i st).consumed = st.consumed := by
  unfold spillReg
  split
  · rfl
  · unfold spillVar
    split
    · show (RA.ensureSlot st _).consumed = _
      unfold RA.ensureSlot
      split <;> rfl
    · rfl

omit S in
theorem prepareOperand_consumed (B : Block) (v : Nat) (o : Option Nat) (st : RA) :
    (prepareOperand V B v o st).1.consumed = st.consumed := by
  rcases prepareOperand_cases V B v o st with ⟨i, _, _, e⟩ | ⟨_, i, _, e⟩
  · rw [e]
  · rw [e]; exact spillReg_consumed i st

omit S in
theorem prepareDest_consumed (B : Block) (v : Nat) (o p : Option Nat) (st : RA) :
    (prepareDest V B v o p st).1.consumed = st.consumed := by
  rcases prepareDest_cases V B v o p st with ⟨i, _, _, e⟩ | ⟨_, i, _, e⟩
  · rw [e]
  · rw [e]; exact spillReg_consumed i st

/-- Fetching an operand: it ends up in the register returned; other registers and their contents stay. -/
theorem prepareOperand_sim' {B : Block} {D : Nat → Prop} {idx : Int} {st : RA} {s : St} {t : State} {v : Nat} (o : Option Nat)
    (R : Rel C V sp gp fofs B D idx st s t) (hD : ∀ v, V.isGlobal v = true → D v) (hDv : D v) (hpv : Pend B st idx v)
    (hto : To fofs (prepareOperand V B v o st).1) :
    ∃ code t', (prepareOperand V B v o st).1.out = st.out ++ code ∧ TRun A tcall st.out.length code t t' ∧
      Rel C V sp gp fofs B D idx (prepareOperand V B v o st).1 s t' ∧ (prepareOperand V B v o st).2 < 8 ∧
      (prepareOperand V B v o st).1.var (prepareOperand V B v o st).2 = some v ∧
      t'.reg (r3 (prepareOperand V B v o st).2) = rd C s v ∧
      (∀ j, j < 8 → j ≠ (prepareOperand V B v o st).2 →
        t'.reg (r3 j) = t.reg (r3 j) ∧ (prepareOperand V B v o st).1.var j = st.var j) ∧
      ∀ u, V.isGlobal u = false → fofs u ≠ 0 → (∀ i, i < 8 → st.pol i = true → st.var i ≠ some u) →
        slot t' (fofs u) = slot t (fofs u) := by
  rcases prepareOperand_cases V B v o st with ⟨i, hi, hv, e⟩ | ⟨hab, i, hi, e⟩
  · rw [e]
    exact ⟨[], t, by simp, .nil t, R, hi, hv, R.reg i hi v hv hpv hDv, fun j _ _ => ⟨rfl, rfl⟩, fun _ _ _ _ => rfl⟩
  · rw [e] at hto ⊢
    simp only at hto ⊢
    obtain ⟨c1, t1, o1, r1, R1, g1, w1⟩ := spillReg_sim' S R hD hi (fun u hu => hto u hu)
    have hv0 : (spillReg V i st).var i = none := by rw [spillReg_var]; simp
    have hab1 := (spillReg_sub V i st).absent hab
    obtain ⟨c2, t2, o2, r2, R2, g2, g3, w2⟩ := loadVar_sim' S R1 hi hv0 hab1 hDv (hpv.of_consumed (spillReg_consumed i st))
      (fun u hu => hto u hu)
    refine ⟨c1 ++ c2, t2, by rw [o2, o1, List.append_assoc], TRun.append r1 (by rw [o1, List.length_append] at r2; exact r2), R2, hi, ?_, g2, ?_, fun u h1 h2 h3 => by rw [w2, w1 u h1 h2 (h3 i hi)]⟩
    · rw [loadVar_var]; simp
    · intro j hj hji
      refine ⟨by rw [g3 j hj hji, g1], ?_⟩
      rw [loadVar_var, upd_ne _ _ hji, spillReg_var, upd_ne _ _ hji]

theorem prepareOperand_sim {B : Block} {D : Nat → Prop} {idx : Int} {st : RA} {s : St} {t : State} {v : Nat} (o : Option Nat)
    (R : Rel C V sp gp fofs B D idx st s t) (hD : ∀ v, V.isGlobal v = true → D v) (hDv : D v) (hpv : Pend B st idx v)
    (hto : To fofs (prepareOperand V B v o st).1) :
    ∃ code t', (prepareOperand V B v o st).1.out = st.out ++ code ∧ TRun A tcall st.out.length code t t' ∧
      Rel C V sp gp fofs B D idx (prepareOperand V B v o st).1 s t' ∧ (prepareOperand V B v o st).2 < 8 ∧
      (prepareOperand V B v o st).1.var (prepareOperand V B v o st).2 = some v ∧
      t'.reg (r3 (prepareOperand V B v o st).2) = rd C s v ∧
      (∀ j, j < 8 → j ≠ (prepareOperand V B v o st).2 →
        t'.reg (r3 j) = t.reg (r3 j) ∧ (prepareOperand V B v o st).1.var j = st.var j) := by
  obtain ⟨c, t', h1, h2, h3, h4, h5, h6, h7, _⟩ := prepareOperand_sim' S o R hD hDv hpv hto
  exact ⟨c, t', h1, h2, h3, h4, h5, h6, h7⟩

/-- Choosing the destination register: `d` has no value in between. -/
theorem prepareDest_sim {B : Block} {D : Nat → Prop} {idx : Int} {st : RA} {s : St} {t : State} {d : Nat} (o p : Option Nat)
    (R : Rel C V sp gp fofs B D idx st s t) (hD : ∀ v, V.isGlobal v = true → D v)
    (hto : To fofs (prepareDest V B d o p st).1) :
    ∃ code t', (prepareDest V B d o p st).1.out = st.out ++ code ∧ TRun A tcall st.out.length code t t' ∧
      Rel C V sp gp fofs B (fun v => D v ∧ v ≠ d) idx (prepareDest V B d o p st).1 s t' ∧ (prepareDest V B d o p st).2 < 8 ∧
      (prepareDest V B d o p st).1.var (prepareDest V B d o p st).2 = some d ∧
      (prepareDest V B d o p st).1.pol (prepareDest V B d o p st).2 = true ∧ t'.reg = t.reg := by
  rcases prepareDest_cases V B d o p st with ⟨i, hi, hv, e⟩ | ⟨hab, i, hi, e⟩
  · rw [e]
    refine ⟨[], t, by simp, .nil t, ?_, hi, hv, by simp, rfl⟩
    refine ⟨R.sp, R.gp, R.mem, R.gofs, ?_, ?_, ?_, ?_, R.stk⟩
    · intro j hj u hju hpu hDu
      exact R.reg j hj u hju hpu hDu.1
    · intro j hj u hju hpu hDu hpol hgu
      refine R.clean j hj u hju hpu hDu.1 ?_ hgu
      change upd st.pol i true j = false at hpol
      by_cases hji : j = i
      · subst hji; simp at hpol
      · rw [upd_ne _ _ hji] at hpol; exact hpol
    · intro u hDu hpu hgu habu
      exact R.away u hDu.1 hpu hgu habu
    · intro j hj u hju hgu hDu
      show upd st.pol i true j = false
      by_cases hji : j = i
      · subst hji
        change st.var j = some u at hju
        rw [hv] at hju
        cases hju
        exact absurd rfl hDu.2
      · rw [upd_ne _ _ hji]
        exact R.gclean j hj u hju hgu hDu.1
  · rw [e] at hto ⊢
    simp only at hto ⊢
    obtain ⟨c1, t1, o1, r1, R1, g1⟩ := spillReg_sim S R hD hi (fun u hu => hto u hu)
    have hv0 : (spillReg V i st).var i = none := by rw [spillReg_var]; simp
    generalize spillReg V i st = s1 at *
    refine ⟨c1, t1, o1, r1, ?_, hi, by simp [RA.setReg], by simp [RA.setReg], g1⟩
    have hvar : ∀ j u, upd s1.var i (some d) j = some u → u ≠ d → j ≠ i ∧ s1.var j = some u := by
      intro j u hj hud
      by_cases hji : j = i
      · subst hji
        simp only [upd_same, Option.some.injEq] at hj
        exact absurd hj.symm hud
      · rw [upd_ne _ _ hji] at hj
        exact ⟨hji, hj⟩
    refine ⟨R1.sp, R1.gp, R1.mem, R1.gofs, ?_, ?_, ?_, ?_, R1.stk⟩
    · intro j hj u hju hpu hDu
      exact R1.reg j hj u (hvar j u hju hDu.2).2 hpu hDu.1
    · intro j hj u hju hpu hDu hpol hgu
      obtain ⟨hji, hju'⟩ := hvar j u hju hDu.2
      refine R1.clean j hj u hju' hpu hDu.1 ?_ hgu
      change upd s1.pol i true j = false at hpol
      rw [upd_ne _ _ hji] at hpol; exact hpol
    · intro u hDu hpu hgu habu
      refine R1.away u hDu.1 hpu hgu ?_
      intro j hj hju
      by_cases hji : j = i
      · subst hji; rw [hv0] at hju; cases hju
      · apply habu j hj
        show upd s1.var i (some d) j = some u
        rw [upd_ne _ _ hji]; exact hju
    · intro j hj u hju hgu hDu
      obtain ⟨hji, hju'⟩ := hvar j u hju hDu.2
      show upd s1.pol i true j = false
      rw [upd_ne _ _ hji]
      exact R1.gclean j hj u hju' hgu hDu.1

/-- Writing the result of an operation to the register of local `d`. -/
theorem writeDest {B : Block} {D : Nat → Prop} {idx : Int} {st : RA} {s : St} {t t' : State} {d r : Nat} {x : Word}
    (R : Rel C V sp gp fofs B (fun v => D v ∧ v ≠ d) idx st s t) (hinj : Inj st) (hr : r < 8) (hv : st.var r = some d)
    (hp : st.pol r = true) (hg : V.isGlobal d = false) (hto : To fofs st) (hm : SameMem C V fofs t t')
    (hreg : ∀ j, j < 8 → t'.reg (r3 j) = if j = r then x else t.reg (r3 j)) :
    Rel C V sp gp fofs B (fun v => D v ∨ v = d) idx st (wr C s d x) t' := by
  have hwm : (wr C s d x).mem = s.mem := by unfold wr; rw [S.isGlobal, hg]; rfl
  have hwv : ∀ u, u ≠ d → (wr C s d x).val u = s.val u := by
    intro u hu; unfold wr; rw [S.isGlobal, hg]; simp [hu]
  have hwd : (wr C s d x).val d = x := by unfold wr; rw [S.isGlobal, hg]; simp
  have hsl : ∀ u, V.isGlobal u = false → st.offset u ≠ 0 → slot t' (fofs u) = slot t (fofs u) := by
    intro u hgu hou
    exact hm.slots u hgu (by rw [← hto u hou]; exact hou)
  have hr' : ∀ u, u ≠ d → rd C (wr C s d x) u = rd C s u := fun u hu => rd_congr (hwv u hu) (fun k _ => by rw [hwm])
  have hD : ∀ u, u ≠ d → (D u ∨ u = d) → D u ∧ u ≠ d := fun u hu h => ⟨h.resolve_right hu, hu⟩
  refine ⟨hm.sp.trans R.sp, hm.gp.trans R.gp, ?_, R.gofs, ?_, ?_, ?_, ?_, R.stk⟩
  · intro a ha
    rw [hm.mem a ha, hwm]; exact R.mem a ha
  · intro j hj u hju hpu hDu
    rw [hreg j hj]
    by_cases hud : u = d
    · subst hud
      rw [if_pos (hinj j r u hj hr hju hv), rd_local S.isGlobal hg, hwd]
    · rw [if_neg (fun e => hud (by subst e; rw [hv] at hju; cases hju; rfl)), hr' u hud]
      exact R.reg j hj u hju hpu (hD u hud hDu)
  · intro j hj u hju hpu hDu hpol hgu
    by_cases hud : u = d
    · subst hud
      rw [hinj j r u hj hr hju hv, hp] at hpol
      cases hpol
    · obtain ⟨c1, c2⟩ := R.clean j hj u hju hpu (hD u hud hDu) hpol hgu
      exact ⟨c1, by rw [hsl u hgu c1, c2, hwv u hud]⟩
  · intro u hDu hpu hgu hab
    by_cases hud : u = d
    · subst hud
      exact absurd hv (hab r hr)
    · obtain ⟨c1, c2⟩ := R.away u (hD u hud hDu) hpu hgu hab
      exact ⟨c1, by rw [hsl u hgu c1, c2, hwv u hud]⟩
  · intro j hj u hju hgu hDu
    have hud : u ≠ d := fun e => by subst e; rw [hg] at hgu; cases hgu
    exact R.gclean j hj u hju hgu (hD u hud hDu)

omit S in
theorem Rel.weaken {B : Block} {D D' : Nat → Prop} {idx idx' : Int} {st : RA} {s : St} {t : State}
    (R : Rel C V sp gp fofs B D idx st s t) (hD : ∀ v, D' v → D v) (hi : idx ≤ idx') :
    Rel C V sp gp fofs B D' idx' st s t := by
  have hp : ∀ v, Pend B st idx' v → Pend B st idx v := by
    intro v h
    rcases h with h | h
    · exact Or.inl h
    · exact Or.inr (Int.le_trans hi h)
  exact ⟨R.sp, R.gp, R.mem, R.gofs, fun i hi v h1 h2 h3 => R.reg i hi v h1 (hp v h2) (hD v h3),
    fun i hi v h1 h2 h3 => R.clean i hi v h1 (hp v h2) (hD v h3), fun v h1 h2 => R.away v (hD v h1) (hp v h2),
    fun i hi v h1 h2 h3 => R.gclean i hi v h1 h2 (hD v h3), R.stk⟩

omit S in
/-- Emitting does not matter to `Rel`. -/
theorem Rel.emit {B : Block} {D : Nat → Prop} {idx : Int} {st : RA} {s : St} {t : State} (ir : Ph2Ir)
    (R : Rel C V sp gp fofs B D idx st s t) : Rel C V sp gp fofs B D idx (st.emit ir) s t :=
  ⟨R.sp, R.gp, R.mem, R.gofs, R.reg, R.clean, R.away, R.gclean, R.stk⟩

omit S in
/-- `refresh` only drops variables that are not needed any more. -/
theorem Rel.refresh {B : Block} {D : Nat → Prop} {idx : Int} {st : RA} {s : St} {t : State}
    (R : Rel C V sp gp fofs B D idx st s t) : Rel C V sp gp fofs B D idx (refresh B idx st) s t := by
  unfold RegAlloc.refresh
  generalize List.range regCnt = l
  induction l generalizing st with
  | nil => exact R
  | cons i l ih =>
    simp only [List.foldl_cons]
    apply ih
    unfold refresh1
    split
    · exact R
    · rename_i v hv
      split
      · exact R
      · rename_i hl
        split
        · rename_i hc
          have hnp : ¬ Pend B st idx v := fun h => h.elim hl (fun h => by omega)
          have hvar : ∀ j u, upd st.var i none j = some u → j ≠ i ∧ st.var j = some u := by
            intro j u hj
            by_cases hji : j = i
            · subst hji; simp at hj
            · rw [upd_ne _ _ hji] at hj
              exact ⟨hji, hj⟩
          refine ⟨R.sp, R.gp, R.mem, R.gofs, ?_, ?_, ?_, ?_, R.stk⟩
          · intro j hj u hju hpu hDu
            exact R.reg j hj u (hvar j u hju).2 hpu hDu
          · intro j hj u hju hpu hDu hpol hgu
            obtain ⟨hji, hju'⟩ := hvar j u hju
            refine R.clean j hj u hju' hpu hDu ?_ hgu
            change upd st.pol i false j = false at hpol
            rw [upd_ne _ _ hji] at hpol; exact hpol
          · intro u hDu hpu hgu hab
            refine R.away u hDu hpu hgu ?_
            intro j hj hju
            by_cases hji : j = i
            · subst hji
              rw [hv] at hju
              cases hju
              exact hnp hpu
            · apply hab j hj
              show upd st.var i none j = some u
              rw [upd_ne _ _ hji]; exact hju
          · intro j hj u hju hgu hDu
            obtain ⟨hji, hju'⟩ := hvar j u hju
            show upd st.pol i false j = false
            rw [upd_ne _ _ hji]
            exact R.gclean j hj u hju' hgu hDu
        · exact R

end

end RaLink
