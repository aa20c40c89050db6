import Verif.Lemmas.RaCall

/-!
# Registers during the pushes of a call
-/

namespace RaLink
open Shecc Shecc.Ssa Shecc.RegAlloc IrM SrcBlock

/-- No register in use is newer than memory. -/
def CleanRegs (st : RA) : Prop := ∀ j, j < 8 → ∀ v, st.var j = some v → st.pol j = false

theorem CleanRegs.spillVar {V : Vars} {st : RA} (h : CleanRegs st) (v i : Nat) : CleanRegs (spillVar V v i st) := by
  intro j hj w hw
  rw [spillVar_var] at hw
  by_cases hji : j = i
  · subst hji; simp [upd] at hw
  · rw [upd_ne _ _ hji] at hw
    have := h j hj w hw
    unfold RegAlloc.spillVar
    split
    · simp only [RA.setReg, RA.emit]
      rw [upd_ne _ _ hji]
      unfold RA.ensureSlot
      split <;> exact this
    · exact this

theorem CleanRegs.setReg {st : RA} (h : CleanRegs st) (i : Nat) (x : Option Nat) : CleanRegs (st.setReg i x false) := by
  intro j hj w hw
  simp only [RA.setReg] at hw ⊢
  by_cases hji : j = i
  · subst hji; simp [upd]
  · rw [upd_ne _ _ hji] at hw ⊢
    exact h j hj w hw

theorem CleanRegs.refresh {st : RA} (h : CleanRegs st) (B : Block) (idx : Int) : CleanRegs (RegAlloc.refresh B idx st) := by
  unfold RegAlloc.refresh
  generalize List.range regCnt = l
  induction l generalizing st with
  | nil => exact h
  | cons i l ih =>
    refine ih ?_
    unfold refresh1
    split
    · exact h
    · split
      · exact h
      · split
        · exact h.setReg i none
        · exact h

theorem CleanRegs.spillAlive {V : Vars} {st : RA} (h : CleanRegs st) (B : Block) (idx : Int) : CleanRegs (RegAlloc.spillAlive V B idx st) := by
  unfold RegAlloc.spillAlive
  generalize List.range regCnt = l
  induction l generalizing st with
  | nil => exact h
  | cons i l ih =>
    refine ih ?_
    unfold spillAlive1
    split
    · exact h
    · split
      · exact h.spillVar _ i
      · split
        · exact h.spillVar _ i
        · exact h

theorem CleanRegs.loadVar {V : Vars} {st : RA} (h : CleanRegs st) (v i : Nat) : CleanRegs (loadVar V v i st) :=
  CleanRegs.setReg (st := st.emit _) h i (some v)

theorem CleanRegs.spillReg {V : Vars} {st : RA} (h : CleanRegs st) (i : Nat) : CleanRegs (spillReg V i st) := by
  unfold RegAlloc.spillReg
  split
  · exact h
  · exact h.spillVar _ i

theorem CleanRegs.prepareOperand {V : Vars} {st : RA} (h : CleanRegs st) (B : Block) (v : Nat) (o : Option Nat) :
    CleanRegs (prepareOperand V B v o st).1 := by
  unfold RegAlloc.prepareOperand
  split
  · exact h
  · split
    · exact h.loadVar v _
    · split
      · exact (h.spillReg _).loadVar v _
      · exact (h.spillReg _).loadVar v _

theorem CleanRegs.push {V : Vars} {st : RA} (h : CleanRegs st) (B : Block) (a : Nat) : CleanRegs (pushTail V B a st) :=
  CleanRegs.setReg (st := (RegAlloc.prepareOperand V B a none st).1.emit _) (h.prepareOperand B a none) _ (some a)

theorem CleanRegs.extend {st : RA} (h : CleanRegs st) (B : Block) (idx : Int) (a sz : Nat) : CleanRegs (extendLiveness B idx a sz st) := by
  obtain ⟨_, _, _, e1, e2, _⟩ := extendLiveness_consumed B idx a sz st
  intro j hj w hw
  rw [e1] at hw
  rw [e2]
  exact h j hj w hw

theorem CleanRegs.allocPush {V : Vars} {st : RA} (h : CleanRegs st) (B : Block) (idx : Int) (sz a : Nat) :
    CleanRegs (allocPush V B idx sz a st) := by
  cases hp : st.pushing with
  | true => rw [allocPush_pushing hp]; exact (h.extend B idx a sz).push B a
  | false =>
    rw [allocPush_first hp]
    exact CleanRegs.push (st := { RegAlloc.spillAlive V B idx (extendLiveness B idx a sz st) with pushing := true })
      ((h.extend B idx a sz).spillAlive B idx) B a

theorem CleanRegs.pushes {V : Vars} {B : Block} (ps : List Insn) (hps : ∀ q ∈ ps, q.op = .push) : ∀ {idx : Nat} {st st' : RA},
    CleanRegs st → allocInsns V B idx ps st = some st' → CleanRegs st' := by
  induction ps with
  | nil => intro idx st st' h he; cases he; exact h
  | cons p ps ih =>
    intro idx st st' h he
    simp only [allocInsns, allocInsn] at he
    cases ha : p.rs1 with
    | none =>
      have : allocOp V B idx p (RegAlloc.refresh B idx st) = none := by
        unfold allocOp; rw [hps p (List.mem_cons_self ..), ha]
      rw [this] at he; cases he
    | some a =>
      have : allocOp V B idx p (RegAlloc.refresh B idx st) = some (RegAlloc.allocPush V B idx p.sz a (RegAlloc.refresh B idx st)) := by
        unfold allocOp; rw [hps p (List.mem_cons_self ..), ha]
      rw [this] at he
      exact ih (fun q hq => hps q (List.mem_cons_of_mem _ hq)) ((h.refresh B idx).allocPush B idx p.sz a) he

/-- Spilling clean registers only forgets them. -/
theorem spillAlive_clean {V : Vars} {B : Block} {idx : Int} {st : RA} (h : CleanRegs st) :
    clearAll (RegAlloc.spillAlive V B idx st) = clearAll st := by
  unfold RegAlloc.spillAlive
  have hl : ∀ i ∈ List.range regCnt, i < 8 := fun i hi => List.mem_range.1 hi
  generalize List.range regCnt = l at *
  induction l generalizing st with
  | nil => rfl
  | cons i l ih =>
    have hi := hl i (List.mem_cons_self ..)
    have hc : CleanRegs (spillAlive1 V B idx st i) ∧ clearAll (spillAlive1 V B idx st i) = clearAll st := by
      have key : ∀ v, st.var i = some v → CleanRegs (RegAlloc.spillVar V v i st) ∧ clearAll (RegAlloc.spillVar V v i st) = clearAll st := by
        intro v hv
        refine ⟨h.spillVar v i, ?_⟩
        unfold RegAlloc.spillVar
        rw [h i hi v hv]
        simp only [Bool.false_eq_true, if_false, RA.clear, clearAll]
        congr 1
        funext j
        split
        · rfl
        · rename_i hj
          rw [upd_ne _ _ (by intro e; subst e; exact hj hi)]
      unfold spillAlive1
      split
      · exact ⟨h, rfl⟩
      · rename_i v hv
        split
        · exact key v hv
        · split
          · exact key v hv
          · exact ⟨h, rfl⟩
    rw [List.foldl_cons, ih hc.1 (fun j hj => hl j (List.mem_cons_of_mem _ hj)), hc.2]

end RaLink
