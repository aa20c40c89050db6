import Verif.Lemmas.RaCall
import Verif.Props.RegAlloc

/-! Register allocation: what instructions outside argument passing keep. -/

namespace RaLink
open Shecc Shecc.Ssa Shecc.RegAlloc

/-- Registers that differ from memory hold variables of `K`; the counters and uses are given. -/
structure Ctl (K : Nat → Prop) (p : Bool) (n : Nat) (c : Nat → Int) (st : RA) : Prop where
  pk : ∀ j, j < 8 → st.pol j = true → ∀ v, st.var j = some v → K v
  pushing : st.pushing = p
  args : st.args = n
  consumed : st.consumed = c

variable {K : Nat → Prop} {p : Bool} {n : Nat} {c : Nat → Int} {st : RA}

theorem Ctl.of {st' : RA} (h : Ctl K p n c st) (e1 : st'.var = st.var) (e2 : st'.pol = st.pol) (e3 : st'.pushing = st.pushing)
    (e4 : st'.args = st.args) (e5 : st'.consumed = st.consumed) : Ctl K p n c st' :=
  ⟨by rw [e1, e2]; exact h.pk, by rw [e3]; exact h.pushing, by rw [e4]; exact h.args, by rw [e5]; exact h.consumed⟩

theorem Ctl.emit (h : Ctl K p n c st) (ir : Ph2Ir) : Ctl K p n c (st.emit ir) := h.of rfl rfl rfl rfl rfl

theorem Ctl.ensureSlot (h : Ctl K p n c st) (v : Nat) : Ctl K p n c (st.ensureSlot v) := by
  unfold RA.ensureSlot
  split
  · exact h.of rfl rfl rfl rfl rfl
  · exact h

theorem Ctl.clear (h : Ctl K p n c st) (i : Nat) : Ctl K p n c (st.clear i) := by
  refine ⟨?_, h.pushing, h.args, h.consumed⟩
  intro j hj hp v hv
  change upd st.var i none j = some v at hv
  by_cases hji : j = i
  · subst hji; simp at hv
  · rw [upd_ne _ _ hji] at hv
    exact h.pk j hj hp v hv

theorem Ctl.setFalse (h : Ctl K p n c st) (i : Nat) (x : Option Nat) : Ctl K p n c (st.setReg i x false) := by
  refine ⟨?_, h.pushing, h.args, h.consumed⟩
  intro j hj hp v hv
  change upd st.var i x j = some v at hv
  change upd st.pol i false j = true at hp
  by_cases hji : j = i
  · subst hji; simp at hp
  · rw [upd_ne _ _ hji] at hv hp
    exact h.pk j hj hp v hv

theorem Ctl.setTrue (h : Ctl K p n c st) (i : Nat) {d : Nat} (hd : K d) : Ctl K p n c (st.setReg i (some d) true) := by
  refine ⟨?_, h.pushing, h.args, h.consumed⟩
  intro j hj hp v hv
  change upd st.var i (some d) j = some v at hv
  change upd st.pol i true j = true at hp
  by_cases hji : j = i
  · subst hji
    simp at hv
    exact hv ▸ hd
  · rw [upd_ne _ _ hji] at hv hp
    exact h.pk j hj hp v hv

theorem Ctl.spillReg (h : Ctl K p n c st) (V : Vars) (i : Nat) : Ctl K p n c (spillReg V i st) := by
  unfold RegAlloc.spillReg
  split
  · exact h
  · unfold spillVar
    split
    · exact ((h.ensureSlot _).emit _).setFalse _ _
    · exact h.clear i

theorem Ctl.operand (h : Ctl K p n c st) (V : Vars) (B : Block) (v : Nat) (o : Option Nat) :
    Ctl K p n c (prepareOperand V B v o st).1 := by
  rcases prepareOperand_cases V B v o st with ⟨i, _, _, e⟩ | ⟨_, i, _, e⟩
  · rw [e]; exact h
  · rw [e]; exact ((h.spillReg V i).emit _).setFalse _ _

theorem Ctl.dest (h : Ctl K p n c st) (V : Vars) (B : Block) {d : Nat} (hd : K d) (o q : Option Nat) :
    Ctl K p n c (prepareDest V B d o q st).1 := by
  rcases prepareDest_cases V B d o q st with ⟨i, _, hv, e⟩ | ⟨_, i, _, e⟩
  · rw [e]
    refine ⟨?_, h.pushing, h.args, h.consumed⟩
    intro j hj hp v hv'
    change st.var j = some v at hv'
    change upd st.pol i true j = true at hp
    by_cases hji : j = i
    · subst hji
      rw [hv] at hv'
      cases hv'
      exact hd
    · rw [upd_ne _ _ hji] at hp
      exact h.pk j hj hp v hv'
  · rw [e]; exact (h.spillReg V i).setTrue i hd

theorem Ctl.spillAlive (h : Ctl K p n c st) (V : Vars) (B : Block) (idx : Int) : Ctl K p n c (spillAlive V B idx st) := by
  unfold RegAlloc.spillAlive
  generalize List.range regCnt = l
  induction l generalizing st with
  | nil => exact h
  | cons i l ih =>
    refine ih ?_
    rcases spillAlive1_cases V B idx st i with e | ⟨e, _⟩
    · rw [e]; exact h.spillReg V i
    · rw [e]; exact h

theorem Ctl.refresh (h : Ctl K p n c st) (B : Block) (idx : Int) : Ctl K p n c (refresh B idx st) := by
  unfold RegAlloc.refresh
  generalize List.range regCnt = l
  induction l generalizing st with
  | nil => exact h
  | cons i l ih =>
    refine ih ?_
    unfold refresh1
    split
    · exact h
    · split
      · exact h
      · split
        · exact h.setFalse _ _
        · exact h

theorem Ctl.storeGlobal (h : Ctl K p n c st) (V : Vars) (v d : Nat) : Ctl K p n c (storeGlobal V v d st) := by
  unfold RegAlloc.storeGlobal
  split
  · refine ⟨?_, h.pushing, h.args, h.consumed⟩
    intro j hj hp v hv
    change upd st.pol d false j = true at hp
    by_cases hji : j = d
    · subst hji; simp at hp
    · rw [upd_ne _ _ hji] at hp
      exact h.pk j hj hp v hv
  · exact h

theorem storeEach_same (st : RA) (v : Nat) (l : List Nat) (acc : RA) : (storeEach st v l acc).var = acc.var ∧
    (storeEach st v l acc).pol = acc.pol ∧ (storeEach st v l acc).pushing = acc.pushing ∧ (storeEach st v l acc).args = acc.args ∧
    (storeEach st v l acc).consumed = acc.consumed := by
  induction l generalizing acc with
  | nil => exact ⟨rfl, rfl, rfl, rfl, rfl⟩
  | cons i l ih =>
    unfold storeEach
    have := ih (if st.var i = some v then acc.emit { op := .store, src0 := num i, src1 := num (st.offset v) } else acc)
    split at this
    · rename_i h; rw [if_pos h]; exact this
    · rename_i h; rw [if_neg h]; exact this

/-- Instructions other than calls and their arguments, which only define variables of `K`. -/
theorem Ctl.allocOp (V : Vars) (B : Block) (idx : Int) (i : Insn) {st' : RA} (h : Ctl K p n c st)
    (h1 : i.op ≠ .push) (h2 : i.op ≠ .call) (h3 : i.op ≠ .indirect) (h4 : i.op ≠ .branch)
    (hk : ∀ d, i.op ≠ .unwound_phi → i.rd = some d → K d) (he : allocOp V B idx i st = some st') : Ctl K p n c st' := by
  unfold RegAlloc.allocOp at he
  split at he
  · cases he
    exact ((h.operand V B _ none).ensureSlot _).emit _
  · rename_i d hop hd
    cases he
    have := hk d (by rw [hop]; simp) hd
    unfold allocAllocat
    split
    · exact h
    · refine Ctl.emit (Ctl.dest (st := { st with offset := upd st.offset d st.stack, stack := st.stack + 4 + (alignSize (num (V.objSize d))).toNat }) (h.of rfl rfl rfl rfl rfl) V B this none none) _
  · rename_i d hop hd
    cases he
    have := hk d (by rw [hop]; simp) hd
    unfold allocConst
    split
    · exact h
    · exact ((h.dest V B this none none).emit _).storeGlobal V _ _
  · rename_i d hop hd
    cases he
    have := hk d (by rw [hop]; simp) hd
    unfold allocConst
    split
    · exact h
    · exact ((h.dest V B this none none).emit _).storeGlobal V _ _
  · rename_i d a hop hd _
    cases he
    have hkd := hk d (by rw [hop]; simp) hd
    unfold allocAddressOf
    simp only
    refine Ctl.emit (Ctl.dest ?_ V B hkd none none) _
    split
    · obtain ⟨e1, e2, e3, e4, e5⟩ := storeEach_same (st.ensureSlot a) a (List.range regCnt) (st.ensureSlot a)
      exact (h.ensureSlot a).of e1 e2 e3 e4 e5
    · exact h
  · rename_i d a hop hd _
    cases he
    have hkd := hk d (by rw [hop]; simp) hd
    unfold allocAssign
    split
    · exact h
    · simp only
      split
      · exact ((((h.operand V B a none).dest V B hkd _ none).emit _).storeGlobal V _ _).clear _
      · exact (((h.operand V B a none).dest V B hkd _ none).emit _).storeGlobal V _ _
  · rename_i d a hop hd _
    cases he
    have hkd := hk d (by rw [hop]; simp) hd
    exact ((h.operand V B a none).dest V B hkd _ none).emit _
  · cases he
    unfold allocWrite
    split
    · exact (h.operand V B _ none).emit _
    · exact (((h.spillAlive V B idx).operand V B _ none).operand V B _ _).emit _
  · rename_i hop _
    exact absurd hop h4
  · rename_i hop _
    exact absurd hop h1
  · rename_i hop
    exact absurd hop h2
  · rename_i hop _
    exact absurd hop h3
  · rename_i d hop hd
    cases he
    have hkd := hk d (by rw [hop]; simp) hd
    exact (h.dest V B hkd none none).emit _
  · cases he
    unfold allocRet
    split
    · exact h.emit _
    · exact (h.operand V B _ none).emit _
  · rename_i d a b hop hd _ _
    have hkd := hk d (by rw [hop]; simp) hd
    split at he
    · cases he
      exact (((h.operand V B _ none).operand V B _ _).dest V B hkd _ _).emit _
    · split at he
      · cases he
        exact ((h.operand V B _ none).dest V B hkd _ none).emit _
      · cases he
  · rename_i d a hop hd _ _
    have hkd := hk d (by rw [hop]; simp) hd
    split at he
    · cases he
      exact ((h.operand V B _ none).dest V B hkd _ none).emit _
    · cases he
  · cases he

end RaLink
