import Verif.Lemmas.RaFn2

/-! Register allocation, whatever is executed: a variable that will be needed has a frame word, or a register that will be written
to one. -/

namespace RaLink
open Shecc Shecc.Ssa Shecc.RegAlloc

/-- `v` has a frame word, or a register that is newer. -/
def Kept (st : RA) (v : Nat) : Prop := st.offset v ≠ 0 ∨ ∃ i, i < 8 ∧ st.var i = some v ∧ st.pol i = true

/-- The variables of `S` are kept. -/
structure Hold (S : Nat → Prop) (st : RA) : Prop where
  stk : st.stack ≠ 0
  kept : ∀ v, S v → Kept st v

variable {S : Nat → Prop} {st : RA}

theorem Hold.of {st' : RA} (h : Hold S st) (e1 : st'.var = st.var) (e2 : st'.pol = st.pol) (e3 : st'.offset = st.offset)
    (e4 : st'.stack = st.stack) : Hold S st' :=
  ⟨by rw [e4]; exact h.stk, fun v hv => by
    have := h.kept v hv
    unfold Kept at this ⊢
    rw [e1, e2, e3]; exact this⟩

theorem Hold.sub {S' : Nat → Prop} (h : Hold S st) (hs : ∀ v, S' v → S v) : Hold S' st := ⟨h.stk, fun v hv => h.kept v (hs v hv)⟩

theorem Hold.emit (h : Hold S st) (ir : Ph2Ir) : Hold S (st.emit ir) := h.of rfl rfl rfl rfl

theorem ensureSlot_self (hs : st.stack ≠ 0) (v : Nat) : (st.ensureSlot v).offset v ≠ 0 := by
  unfold RA.ensureSlot
  split
  · simpa using hs
  · assumption

theorem ensureSlot_ne {v w : Nat} (h : st.offset v ≠ 0) : (st.ensureSlot w).offset v ≠ 0 := by
  unfold RA.ensureSlot
  split
  · rename_i h0
    have : v ≠ w := fun e => h (e ▸ h0)
    show upd st.offset w st.stack v ≠ 0
    rw [upd_ne _ _ this]; exact h
  · exact h

theorem ensureSlot_stack (hs : st.stack ≠ 0) (v : Nat) : (st.ensureSlot v).stack ≠ 0 := by
  unfold RA.ensureSlot
  split
  · show st.stack + 4 ≠ 0; omega
  · exact hs

theorem ensureSlot_pol (st : RA) (v : Nat) : (st.ensureSlot v).pol = st.pol := by unfold RA.ensureSlot; split <;> rfl

theorem Hold.ensureSlot (h : Hold S st) (w : Nat) : Hold S (st.ensureSlot w) := by
  refine ⟨ensureSlot_stack h.stk w, fun v hv => ?_⟩
  rcases h.kept v hv with h1 | ⟨i, h1, h2, h3⟩
  · exact Or.inl (ensureSlot_ne h1)
  · exact Or.inr ⟨i, h1, by rw [ensureSlot_var]; exact h2, by rw [ensureSlot_pol]; exact h3⟩

/-- Emptying a register that is not newer. -/
theorem Hold.drop {st' : RA} (h : Hold S st) (i : Nat) (e1 : ∀ j, j ≠ i → st'.var j = st.var j ∧ st'.pol j = st.pol j)
    (e3 : st'.offset = st.offset) (e4 : st'.stack = st.stack) (hn : ∀ v, st.var i = some v → st.pol i = true → S v → st.offset v ≠ 0) :
    Hold S st' := by
  refine ⟨by rw [e4]; exact h.stk, fun v hv => ?_⟩
  unfold Kept
  rw [e3]
  rcases h.kept v hv with h1 | ⟨j, h1, h2, h3⟩
  · exact Or.inl h1
  · by_cases hji : j = i
    · subst hji; exact Or.inl (hn v h2 h3 hv)
    · exact Or.inr ⟨j, h1, by rw [(e1 j hji).1]; exact h2, by rw [(e1 j hji).2]; exact h3⟩

theorem Hold.spillReg (h : Hold S st) (V : Vars) (i : Nat) : Hold S (spillReg V i st) := by
  unfold RegAlloc.spillReg
  split
  · exact h
  · rename_i w e
    unfold spillVar
    split
    · have h1 := ((h.ensureSlot w).emit (storeIr V ((st.ensureSlot w).offset w) w i))
      refine h1.drop i ?_ rfl rfl ?_
      · intro j hj
        exact ⟨by show upd _ i none j = _; rw [upd_ne _ _ hj], by show upd _ i false j = _; rw [upd_ne _ _ hj]⟩
      · intro v hv _ _
        have : st.var i = some v := by rw [← ensureSlot_var st w]; exact hv
        rw [e] at this
        cases this
        exact ensureSlot_self h.stk w
    · rename_i hp
      refine h.drop i ?_ rfl rfl ?_
      · intro j hj
        exact ⟨by show upd _ i none j = _; rw [upd_ne _ _ hj], rfl⟩
      · intro v _ hp' _; exact absurd hp' hp

/-- Writing a register that is empty. -/
theorem Hold.setEmpty (h : Hold S st) {i : Nat} (hi : st.var i = none) (x : Option Nat) (p : Bool) : Hold S (st.setReg i x p) := by
  refine h.drop i ?_ rfl rfl ?_
  · intro j hj
    exact ⟨by show upd _ i x j = _; rw [upd_ne _ _ hj], by show upd _ i p j = _; rw [upd_ne _ _ hj]⟩
  · intro v hv; rw [hi] at hv; cases hv

theorem Hold.operand (h : Hold S st) (V : Vars) (B : RegAlloc.Block) (v : Nat) (o : Option Nat) : Hold S (prepareOperand V B v o st).1 := by
  rcases prepareOperand_cases V B v o st with ⟨i, _, _, e⟩ | ⟨_, i, hi, e⟩
  · rw [e]; exact h
  · rw [e]
    exact ((h.spillReg V i).emit _).setEmpty (by show (RegAlloc.spillReg V i st).var i = none; rw [spillReg_var]; simp) _ _

theorem Hold.insert {d i : Nat} (h : Hold S st) (hi : i < 8) (hv : st.var i = some d) (hp : st.pol i = true) :
    Hold (fun v => S v ∨ v = d) st :=
  ⟨h.stk, fun v hs => hs.elim (h.kept v) (fun e => Or.inr ⟨i, hi, by rw [e]; exact hv, hp⟩)⟩

theorem Hold.dest (h : Hold S st) (V : Vars) (B : RegAlloc.Block) (d : Nat) (o q : Option Nat) :
    Hold (fun v => S v ∨ v = d) (prepareDest V B d o q st).1 ∧ (prepareDest V B d o q st).2 < 8 ∧
      (prepareDest V B d o q st).1.var (prepareDest V B d o q st).2 = some d := by
  rcases prepareDest_cases V B d o q st with ⟨i, hi, hv, e⟩ | ⟨_, i, hi, e⟩
  · rw [e]
    refine ⟨Hold.insert (i := i) ⟨h.stk, fun v hs => ?_⟩ hi hv (by simp), hi, hv⟩
    rcases h.kept v hs with h1 | ⟨j, h1, h2, h3⟩
    · exact Or.inl h1
    · refine Or.inr ⟨j, h1, h2, ?_⟩
      show upd st.pol i true j = true
      by_cases hji : j = i
      · subst hji; simp
      · rw [upd_ne _ _ hji]; exact h3
  · rw [e]
    refine ⟨Hold.insert (i := i) ((h.spillReg V i).setEmpty (by rw [spillReg_var]; simp) _ _) hi ?_ ?_, hi, ?_⟩
    all_goals simp [RA.setReg]

theorem Hold.spillAlive (h : Hold S st) (V : Vars) (B : RegAlloc.Block) (idx : Int) : Hold S (spillAlive V B idx st) := by
  unfold RegAlloc.spillAlive
  generalize List.range regCnt = l
  induction l generalizing st with
  | nil => exact h
  | cons i l ih =>
    refine ih ?_
    rcases spillAlive1_cases V B idx st i with e | ⟨e, _⟩
    · rw [e]; exact h.spillReg V i
    · rw [e]; exact h

/-- Afterwards no register holds a variable that is needed. -/
theorem spillAlive_none (V : Vars) (B : RegAlloc.Block) (idx : Int) (st : RA) : ∀ i, i < 8 → ∀ v, (spillAlive V B idx st).var i = some v →
    ¬ Pend B st (idx + 1) v := by
  have key : ∀ (l : List Nat) (st : RA), ∀ i ∈ l, ∀ v, (l.foldl (spillAlive1 V B idx) st).var i = some v → ¬ Pend B st (idx + 1) v := by
    intro l
    induction l with
    | nil => intro st i hi; cases hi
    | cons k l ih =>
      intro st i hi v hv hp
      rw [List.foldl_cons] at hv
      have hp' : Pend B (spillAlive1 V B idx st k) (idx + 1) v := hp.of_consumed (spillAlive1_consumed V B idx st k)
      rcases List.mem_cons.1 hi with rfl | hi
      · have hs : Sub (spillAlive1 V B idx st i) (l.foldl (spillAlive1 V B idx) (spillAlive1 V B idx st i)) :=
          fold_sub _ (spillAlive1_sub V B idx) _ _
        rcases hs i with e | e
        · rw [e] at hv
          rcases spillAlive1_cases V B idx st i with e' | ⟨e', hn⟩
          · rw [e', spillReg_var] at hv; simp at hv
          · rw [e'] at hv; exact hn v hv hp
        · rw [e] at hv; cases hv
      · exact ih _ i hi v hv hp'
  intro i hi
  exact key (List.range regCnt) st i (List.mem_range.2 hi)

theorem Hold.spilled (h : Hold S st) (V : Vars) (B : RegAlloc.Block) (idx : Int) {v : Nat} (hv : S v) (hp : Pend B st (idx + 1) v) :
    (RegAlloc.spillAlive V B idx st).offset v ≠ 0 := by
  rcases (h.spillAlive V B idx).kept v hv with h1 | ⟨i, h1, h2, _⟩
  · exact h1
  · exact absurd hp (spillAlive_none V B idx st i h1 v h2)

theorem Hold.refresh {B : RegAlloc.Block} {idx : Int} (h : Hold S st) : Hold (fun v => S v ∧ Pend B st idx v) (refresh B idx st) := by
  have key : ∀ (l : List Nat) (st' : RA), st'.consumed = st.consumed → Hold (fun v => S v ∧ Pend B st idx v) st' →
      Hold (fun v => S v ∧ Pend B st idx v) (l.foldl (refresh1 B idx) st') := by
    intro l
    induction l with
    | nil => intro st' _ h; exact h
    | cons i l ih =>
      intro st' hc h
      rw [List.foldl_cons]
      refine ih _ (by rw [refresh1_consumed]; exact hc) ?_
      unfold refresh1
      split
      · exact h
      · rename_i w e
        split
        · exact h
        · rename_i hl
          split
          · rename_i hlt
            refine h.drop i ?_ rfl rfl ?_
            · intro j hj
              exact ⟨by show upd _ i none j = _; rw [upd_ne _ _ hj], by show upd _ i false j = _; rw [upd_ne _ _ hj]⟩
            · intro v hv _ hS
              rw [e] at hv
              cases hv
              rcases hS.2 with h1 | h1
              · exact absurd h1 hl
              · rw [hc] at hlt; omega
          · exact h
  exact key _ st rfl (h.sub fun v hv => hv.1)

theorem Hold.storeGlobal (h : Hold S st) (V : Vars) {v d : Nat} (hS : ∀ v, S v → V.isGlobal v = false) (hd : st.var d = some v) :
    Hold S (storeGlobal V v d st) := by
  unfold RegAlloc.storeGlobal
  split
  · rename_i hg
    refine h.drop d ?_ rfl rfl ?_
    · intro j hj
      exact ⟨rfl, by show upd _ d false j = _; rw [upd_ne _ _ hj]⟩
    · intro w hw _ hs
      rw [hd] at hw
      cases hw
      rw [hS _ hs] at hg; cases hg
  · exact h

/-- Extending a set by a local variable. -/
def plus (V : Vars) (S : Nat → Prop) (d : Nat) : Nat → Prop := fun v => S v ∨ (v = d ∧ V.isGlobal d = false)

theorem plus_local {V : Vars} {d : Nat} (hS : ∀ v, S v → V.isGlobal v = false) : ∀ v, plus V S d v → V.isGlobal v = false :=
  fun v h => h.elim (hS v) (fun h => by rw [h.1]; exact h.2)

theorem Hold.destL (h : Hold S st) (V : Vars) (B : RegAlloc.Block) (d : Nat) (o q : Option Nat) :
    Hold (plus V S d) (prepareDest V B d o q st).1 := (h.dest V B d o q).1.sub (fun _ hv => hv.imp id (·.1))

theorem dest_pol_other {V : Vars} {B : RegAlloc.Block} {d j : Nat} {o q : Option Nat} (hj : j ≠ (prepareDest V B d o q st).2) :
    (prepareDest V B d o q st).1.pol j = st.pol j := by
  rcases prepareDest_cases V B d o q st with ⟨i, hi, hv, e⟩ | ⟨_, i, hi, e⟩
  · rw [e] at hj ⊢
    show upd st.pol i true j = _
    rw [upd_ne _ _ hj]
  · rw [e] at hj ⊢
    show upd (RegAlloc.spillReg V i st).pol i true j = _
    rw [upd_ne _ _ hj, spillReg_pol hj]

theorem storeGlobal_clean {V : Vars} {v d j : Nat} (h : st.pol j = false) : (storeGlobal V v d st).pol j = false := by
  unfold storeGlobal
  split
  · show upd st.pol d false j = false
    by_cases hjd : j = d
    · subst hjd; simp
    · rw [upd_ne _ _ hjd]; exact h
  · exact h

theorem Hold.assign (h : Hold S st) {V : Vars} {B : RegAlloc.Block} {d a : Nat} (hS : ∀ v, S v → V.isGlobal v = false)
    (hc : st.consumed d ≠ -1) (hf : findReg st a = none → (prepareOperand V B a none st).2 ≠
      (prepareDest V B d (some (prepareOperand V B a none st).2) none (prepareOperand V B a none st).1).2) :
    Hold (plus V S d) (allocAssign V B d a st) := by
  unfold allocAssign
  rw [if_neg hc]
  have h1 := h.operand V B a none
  have hpol : findReg st a = none → (prepareOperand V B a none st).1.pol (prepareOperand V B a none st).2 = false := by
    intro hn
    rcases prepareOperand_cases V B a none st with ⟨i, hi, hv, _⟩ | ⟨_, i, hi, e⟩
    · exact absurd hv (findReg_none hn i hi)
    · rw [e]; simp [loadVar, RA.setReg]
  generalize prepareOperand V B a none st = r at *
  simp only
  have h2 := h1.destL V B d (some r.2) none
  have hv := (h1.dest V B d (some r.2) none).2.2
  have hpol2 : findReg st a = none → (prepareDest V B d (some r.2) none r.1).1.pol r.2 = false := fun hn => by
    rw [dest_pol_other (hf hn)]; exact hpol hn
  generalize prepareDest V B d (some r.2) none r.1 = q at *
  have h3 := (h2.emit { op := .assign, src0 := num r.2, dest := num q.2 }).storeGlobal V (plus_local hS) hv
  split
  · rename_i hn
    have hn' : findReg st a = none := by simpa using hn
    refine h3.drop r.2 ?_ rfl rfl ?_
    · intro j hj
      exact ⟨by show upd _ r.2 none j = _; rw [upd_ne _ _ hj], rfl⟩
    · intro v _ hp
      rw [storeGlobal_clean (st := q.1.emit _) (hpol2 hn')] at hp
      cases hp
  · exact h3

theorem Hold.slotFor (h : Hold S st) {d n : Nat} (k : Nat) (hn : n ≠ 0) :
    Hold S { st with offset := upd st.offset d n, stack := st.stack + 4 + k } := by
  refine ⟨by show st.stack + 4 + k ≠ 0; omega, fun v hv => ?_⟩
  rcases h.kept v hv with h1 | h1
  · left
    show upd st.offset d n v ≠ 0
    by_cases hvd : v = d
    · subst hvd; simpa using hn
    · rw [upd_ne _ _ hvd]; exact h1
  · exact Or.inr h1

/-- One instruction that is not part of a call. -/
theorem Hold.allocOp {V : Vars} {B : RegAlloc.Block} {idx : Nat} {i : Insn} {st' : RA} (h : Hold S st)
    (hS : ∀ v, S v → V.isGlobal v = false) (hs : simple i.op = true ∨ i.op = .func_ret) (hw : i.op = .write → i.rd = none)
    (F : InsnFine V B idx i st) (he : allocOp V B idx i st = some st') :
    Hold (fun v => S v ∨ (result V i = some v ∧ V.isGlobal v = false ∧ st.consumed v ≠ -1)) st' := by
  have fin : ∀ {d : Nat} {st1 : RA}, i.rd = some d → Hold (plus V S d) st1 →
      Hold (fun v => S v ∨ (result V i = some v ∧ V.isGlobal v = false ∧ st.consumed v ≠ -1)) st1 := by
    intro d st1 hd h1
    refine h1.sub fun v hv => hv.imp id fun ⟨hr, hg, _⟩ => ?_
    unfold result at hr
    split at hr
    · rename_i d' _ hd'
      split at hr
      · cases hr
      · cases hr
        rw [hd] at hd'
        cases hd'
        exact ⟨rfl, hg⟩
    · rw [hd] at hr
      cases hr
      exact ⟨rfl, hg⟩
  have skip : ∀ {d : Nat}, i.rd = some d → st.consumed d = -1 →
      Hold (fun v => S v ∨ (result V i = some v ∧ V.isGlobal v = false ∧ st.consumed v ≠ -1)) st := by
    intro d hd hc
    refine h.sub fun v hv => hv.elim id fun ⟨hr, _, hn⟩ => ?_
    unfold result at hr
    split at hr
    · rename_i d' _ hd'
      split at hr
      · cases hr
      · cases hr
        rw [hd] at hd'
        cases hd'
        exact absurd hc hn
    · rw [hd] at hr
      cases hr
      exact absurd hc hn
  unfold RegAlloc.allocOp at he
  split at he
  · rename_i d a hop _ _; rw [hop] at hs; simp [simple] at hs
  · rename_i d hop hd
    cases he
    unfold allocAllocat
    split
    · rename_i hb
      refine h.sub fun v hv => hv.elim id fun ⟨hr, _⟩ => ?_
      simp [result, hop, hd, hb] at hr
    · refine fin hd (Hold.emit (Hold.destL (st := { st with offset := upd st.offset d st.stack, stack := st.stack + 4 + (alignSize (num (V.objSize d))).toNat }) ?_ V B d none none) _)
      exact h.slotFor _ h.stk
  · rename_i d hop hd
    cases he
    unfold allocConst
    split
    · rename_i hc; exact skip hd hc
    · exact fin hd (((h.destL V B d none none).emit _).storeGlobal V (plus_local hS) (h.dest V B d none none).2.2)
  · rename_i d hop hd
    cases he
    unfold allocConst
    split
    · rename_i hc; exact skip hd hc
    · exact fin hd (((h.destL V B d none none).emit _).storeGlobal V (plus_local hS) (h.dest V B d none none).2.2)
  · rename_i d a hop hd _
    cases he
    unfold allocAddressOf
    simp only
    refine fin hd (Hold.emit (Hold.destL ?_ V B d none none) _)
    split
    · obtain ⟨e1, e2, _⟩ := storeEach_same (st.ensureSlot a) a (List.range regCnt) (st.ensureSlot a)
      refine ⟨?_, fun v hv => ?_⟩
      · have hc : Closed (fun x : RA => x.stack ≠ 0) := ⟨fun _ _ _ e h => by rw [e]; exact h, fun x v h => ensureSlot_stack h v⟩
        exact hc.storeEach _ _ _ (ensureSlot_stack h.stk a)
      · have := (h.ensureSlot a).kept v hv
        unfold Kept at this ⊢
        rw [e1, e2, storeEach_offset]; exact this
    · exact h
  · rename_i d a hop hd ha
    cases he
    by_cases hc : st.consumed d = -1
    · unfold allocAssign; rw [if_pos hc]; exact skip hd hc
    · exact fin hd (h.assign hS hc (F.assign d a hop hd ha hc))
  · rename_i d a hop hd _
    cases he
    exact fin hd (((h.operand V B a none).destL V B d _ none).emit _)
  · rename_i a b hop _ _
    cases he
    have hn : ∀ {st1 : RA}, Hold S st1 →
      Hold (fun v => S v ∨ (result V i = some v ∧ V.isGlobal v = false ∧ st.consumed v ≠ -1)) st1 := by
      intro st1 h1
      exact h1.sub fun v hv => hv.elim id fun ⟨hr, _⟩ => by simp [result, hop, hw hop] at hr
    refine hn ?_
    unfold allocWrite
    split
    · exact (h.operand V B _ none).emit _
    · exact (((h.spillAlive V B idx).operand V B _ none).operand V B _ _).emit _
  · rename_i hop _; rw [hop] at hs; simp [simple] at hs
  · rename_i hop _; rw [hop] at hs; simp [simple] at hs
  · rename_i hop; rw [hop] at hs; simp [simple] at hs
  · rename_i hop _; rw [hop] at hs; simp [simple] at hs
  · rename_i d hop hd
    cases he
    exact fin hd ((h.destL V B d none none).emit _)
  · rename_i hop; rw [hop] at hs; simp [simple] at hs
  · rename_i o d a b hop hd _ _
    split at he
    · cases he
      exact fin hd ((((h.operand V B _ none).operand V B _ _).destL V B d _ _).emit _)
    · split at he
      · cases he
        exact fin hd (((h.operand V B _ none).destL V B d _ none).emit _)
      · cases he
  · rename_i o d a hop hd _ _
    split at he
    · cases he
      exact fin hd (((h.operand V B _ none).destL V B d _ none).emit _)
    · cases he
  · cases he

/-- While arguments are pushed, only pushes and the call follow; a call without arguments is of a function without parameters. -/
def Calls (V : Vars) : Bool → List Insn → Prop
  | _, [] => True
  | p, i :: is => (if i.op = .push then True else if i.op = .call then p = true ∨ V.numParams i.str = some 0 else p = false) ∧
    Calls V (if i.op = .push then true else if i.op = .call then false else p) is

theorem calls_call {V : Vars} {c : Insn} {is : List Insn} (hc : c.op = .call) (hs : Calls V false is) (ps : List Insn) : ∀ p,
    (∀ q ∈ ps, q.op = .push) → (p = true ∨ ps ≠ [] ∨ V.numParams c.str = some 0) → Calls V p (ps ++ c :: is) := by
  induction ps with
  | nil =>
    intro p _ h
    have h' : p = true ∨ V.numParams c.str = some 0 := by simpa using h
    refine ⟨?_, ?_⟩
    · rw [hc]; simpa using h'
    · rw [hc]; simpa using hs
  | cons q ps ih =>
    intro p hp _
    have hq := hp q (List.mem_cons_self ..)
    refine ⟨by rw [if_pos hq]; trivial, ?_⟩
    rw [if_pos hq]
    exact ih true (fun x hx => hp x (List.mem_cons_of_mem _ hx)) (Or.inl rfl)

theorem calls_seq {V : Vars} {ps : List Insn} {c : Insn} {is : List Insn} (h : CallSeq V ps c) (hs : Calls V false is) :
    Calls V false (ps ++ c :: is) := by
  refine calls_call h.call hs ps false h.push ?_
  obtain ⟨n, hn, h0⟩ := h.params
  by_cases hp : ps = []
  · exact Or.inr (Or.inr (by rw [hn, h0 hp]))
  · exact Or.inr (Or.inl hp)

theorem grouped_calls {V : Vars} {is : List Insn} (h : Grouped V is) : ∀ tail, Calls V false tail → Calls V false (is ++ tail) := by
  induction h with
  | nil => intro tail ht; exact ht
  | @one i is h _ ih =>
    intro tail ht
    have h1 : i.op ≠ .push := fun e => by rw [e] at h; cases h
    have h2 : i.op ≠ .call := fun e => by rw [e] at h; cases h
    refine ⟨?_, ?_⟩
    · rw [if_neg h1, if_neg h2]
    · rw [if_neg h1, if_neg h2]; exact ih tail ht
  | @call ps c is h _ ih =>
    intro tail ht
    rw [List.append_assoc, List.cons_append]
    exact calls_seq h (ih tail ht)
  | @callRet ps c f is h hf _ ih =>
    intro tail ht
    rw [List.append_assoc, List.cons_append, List.cons_append]
    refine calls_seq h ⟨?_, ?_⟩
    · rw [hf]; rfl
    · rw [hf]; exact ih tail ht

/-- Before the instruction with index `idx`: the local variables of `D` that are needed are kept. -/
structure Held (V : Vars) (B : RegAlloc.Block) (use : Nat → Int) (D : Nat → Prop) (idx : Nat) (st : RA) : Prop where
  hold : Hold (fun v => D v ∧ V.isGlobal v = false ∧ Pend B st idx v) st
  pushed : st.pushing = true → ∀ v, D v → V.isGlobal v = false → Pend B st idx v → st.offset v ≠ 0
  pk : ∀ j, j < 8 → st.pol j = true → ∀ v, st.var j = some v → v ∈ B.killed
  use_le : ∀ v, use v ≤ st.consumed v

/-- What is needed of an instruction. -/
structure Simple (V : Vars) (B : RegAlloc.Block) (use : Nat → Int) (D : Nat → Prop) (idx : Nat) (i : Insn) (st : RA) : Prop where
  inner : inner i.op = true
  push : i.op = .push → ∀ a, i.rs1 = some a → D a ∧ (a ∈ B.liveOut ∨ (idx : Int) ≤ use a)
  noDest : i.op = .push ∨ i.op = .call ∨ i.op = .write → i.rd = none
  killed : i.op ≠ .unwound_phi → ∀ d, i.rd = some d → d ∈ B.killed
  unused : i.op ≠ .unwound_phi → ∀ d, i.rd = some d → use d < 0 → d ∉ B.liveOut
  fine : InsnFine V B idx i (RegAlloc.refresh B idx st)

theorem result_none {V : Vars} {i : Insn} (h : i.rd = none) : result V i = none := by
  unfold result
  split
  · rename_i h'; rw [h] at h'; cases h'
  · exact h

theorem result_some {V : Vars} {i : Insn} {v : Nat} (h : result V i = some v) : i.rd = some v := by
  unfold result at h
  split at h
  · rename_i d _ hd
    split at h
    · cases h
    · cases h; exact hd
  · exact h

theorem ctl_triv (st : RA) : Ctl (fun _ => True) st.pushing st.args st.consumed st := ⟨fun _ _ _ _ _ => trivial, rfl, rfl, rfl⟩

theorem Pend.earlier {B : RegAlloc.Block} {idx : Nat} {v : Nat} (h : Pend B st (idx + 1 : Nat) v) : Pend B st idx v :=
  h.imp id (fun h => by omega)

theorem Held.step {V : Vars} {B : RegAlloc.Block} {use : Nat → Int} {D : Nat → Prop} {idx : Nat} {i : Insn} {st st' : RA}
    (H : Held V B use D idx st) (U : Simple V B use D idx i st)
    (hc : if i.op = .push then True else if i.op = .call then st.pushing = true ∨ V.numParams i.str = some 0 else st.pushing = false)
    (he : allocInsn V B idx i st = some st') : Held V B use (fun v => D v ∨ result V i = some v) (idx + 1) st' := by
  have hpu := step_pushing U.inner he
  have hmono := allocInsn_mono U.fine he
  unfold allocInsn at he
  have F := U.fine
  have cr := Ctl.refresh (st := st) (K := (· ∈ B.killed)) ⟨H.pk, rfl, rfl, rfl⟩ B idx
  have hr : Hold (fun v => D v ∧ V.isGlobal v = false ∧ Pend B st idx v) (RegAlloc.refresh B idx st) :=
    (H.hold.refresh (B := B) (idx := idx)).sub (fun v hv => ⟨hv, hv.2.2⟩)
  have hro := refresh_offset B idx st
  generalize RegAlloc.refresh B idx st = r at *
  have h3 : i.op ≠ .indirect := fun e => by have := U.inner; rw [e] at this; cases this
  have h4 : i.op ≠ .branch := fun e => by have := U.inner; rw [e] at this; cases this
  have h5 : i.op ≠ .ret := fun e => by have := U.inner; rw [e] at this; cases this
  by_cases hpush : i.op = .push
  · have he' : ∃ a, i.rs1 = some a ∧ st' = allocPush V B idx i.sz a r := by
      unfold allocOp at he
      rw [hpush] at he
      cases ha : i.rs1 with
      | none => rw [ha] at he; cases i.rd <;> cases i.rs2 <;> cases he
      | some a =>
        rw [ha] at he
        refine ⟨a, rfl, ?_⟩
        cases hrd : i.rd <;> cases hrs : i.rs2 <;> rw [hrd, hrs] at he <;> cases he <;> rfl
    obtain ⟨a, ha, he'⟩ := he'
    obtain ⟨x1, x2, x3, x4, x5, x6, x7, x8, x9, x10⟩ := extendLiveness_consumed B idx a i.sz r
    obtain ⟨hDa, hua⟩ := U.push hpush a ha
    have hpa : Pend B st idx a := hua.imp id (fun h => Int.le_trans h (H.use_le a))
    have tail : ∀ q : RA, Ctl (· ∈ B.killed) q.pushing q.args (extendLiveness B idx a i.sz r).consumed q →
        (pushTail V B a q).consumed = (extendLiveness B idx a i.sz r).consumed ∧ (∀ j, j < 8 → (pushTail V B a q).pol j = true →
          ∀ v, (pushTail V B a q).var j = some v → v ∈ B.killed) ∧ Mono q (pushTail V B a q) ∧ (q.stack ≠ 0 → (pushTail V B a q).stack ≠ 0) := by
      intro q c
      have c1 := c.operand V B a none
      have c2 := ((c1.emit { op := .assign, src0 := num (prepareOperand V B a none q).2, dest := num (prepareOperand V B a none q).1.args }).setFalse
        (prepareOperand V B a none q).1.args (some a))
      refine ⟨c1.consumed, c2.pk, mono_pushTail V B a q, fun hs => ?_⟩
      have hcl : Closed (fun x : RA => x.stack ≠ 0) := ⟨fun _ _ _ e h => by rw [e]; exact h, fun x v h => ensureSlot_stack h v⟩
      exact hcl.prepareOperand V B a none hs
    -- who is needed afterwards was needed before
    have hback : ∀ q : RA, q.consumed = (extendLiveness B idx a i.sz r).consumed → ∀ v, Pend B q (idx + 1 : Nat) v → Pend B st idx v := by
      intro q hq v hv
      by_cases hva : v = a
      · subst hva; exact hpa
      · refine hv.imp id (fun h => ?_)
        rw [hq, x1 v hva, cr.consumed] at h
        omega
    have key : ∃ q : RA, st' = pushTail V B a q ∧ Ctl (· ∈ B.killed) q.pushing q.args (extendLiveness B idx a i.sz r).consumed q ∧ q.stack ≠ 0 ∧
        ∀ v, D v → V.isGlobal v = false → Pend B q (idx + 1 : Nat) v → q.offset v ≠ 0 := by
      have cx : Ctl (· ∈ B.killed) r.pushing r.args (extendLiveness B idx a i.sz r).consumed (extendLiveness B idx a i.sz r) :=
        ⟨by rw [x4, x5]; exact cr.pk, x10, x8, rfl⟩
      have hrx : Hold (fun v => D v ∧ V.isGlobal v = false ∧ Pend B st idx v) (extendLiveness B idx a i.sz r) := hr.of x4 x5 x6 x7
      cases hpr : r.pushing with
      | true =>
        refine ⟨extendLiveness B idx a i.sz r, by rw [he', allocPush_pushing hpr], by rw [x10, x8]; exact cx, by rw [x7]; exact hr.stk, ?_⟩
        intro v hD hg hp
        rw [x6]
        have hps : st.pushing = true := by rw [← cr.pushing]; exact hpr
        have h0 := H.pushed hps v hD hg (hback _ rfl v hp)
        rw [hro]; exact h0
      | false =>
        refine ⟨{ spillAlive V B idx (extendLiveness B idx a i.sz r) with pushing := true }, by rw [he', allocPush_first hpr], ?_, ?_, ?_⟩
        · have := cx.spillAlive V B idx
          exact ⟨this.pk, rfl, rfl, this.consumed⟩
        · exact (hrx.spillAlive V B idx).stk
        · intro v hD hg hp
          have hp' : Pend B (extendLiveness B idx a i.sz r) ((idx : Int) + 1) v := by
            refine hp.imp id (fun h => ?_)
            have e := (cx.spillAlive V B idx).consumed
            change ((idx + 1 : Nat) : Int) ≤ (RegAlloc.spillAlive V B idx (extendLiveness B idx a i.sz r)).consumed v at h
            rw [e] at h
            omega
          exact hrx.spilled V B idx ⟨hD, hg, hback _ (cx.spillAlive V B idx).consumed v hp⟩ hp'
    obtain ⟨q, rfl, cq, hq0, hqo⟩ := key
    obtain ⟨t1, t2, t3, t4⟩ := tail q cq
    have hpq : ∀ v, Pend B (pushTail V B a q) (idx + 1 : Nat) v → Pend B q (idx + 1 : Nat) v :=
      fun v h => h.imp id (fun h => by rw [t1] at h; rw [cq.consumed]; exact h)
    have hno : ∀ v, D v ∨ result V i = some v → D v := by
      intro v h
      refine h.elim id (fun h => ?_)
      rw [result_none (U.noDest (Or.inl hpush))] at h; cases h
    have hofs : ∀ v, (D v ∨ result V i = some v) → V.isGlobal v = false → Pend B (pushTail V B a q) (idx + 1 : Nat) v →
        (pushTail V B a q).offset v ≠ 0 := fun v hD hg hp => t3.ne (hqo v (hno v hD) hg (hpq v hp))
    exact ⟨⟨t4 hq0, fun v ⟨hD, hg, hp⟩ => Or.inl (hofs v hD hg hp)⟩, fun _ => hofs, t2,
      fun v => by rw [t1]; exact Int.le_trans (H.use_le v) (by rw [← cr.consumed]; exact x2 v)⟩
  · rw [if_neg hpush] at hc
    have hres : ∀ v, result V i = some v → V.isGlobal v = false → Pend B st' (idx + 1 : Nat) v → st'.consumed = st.consumed →
        i.op ≠ .unwound_phi → r.consumed v ≠ -1 := by
      intro v hv _ hp hc' hne h1
      rw [cr.consumed] at h1
      have hu : use v < 0 := by have := H.use_le v; omega
      rcases hp with hp | hp
      · exact U.unused hne v (result_some hv) hu hp
      · rw [hc', h1] at hp; omega
    by_cases hcall : i.op = .call
    · rw [if_pos hcall] at hc
      have he' : allocCall V B idx i.str r = some st' := by
        unfold allocOp at he
        rw [hcall] at he
        cases hrd : i.rd <;> cases hrs : i.rs2 <;> cases hra : i.rs1 <;> rw [hrd, hrs, hra] at he <;> exact he
      have hno : ∀ v, D v ∨ result V i = some v → D v := by
        intro v h
        refine h.elim id (fun h => ?_)
        rw [result_none (U.noDest (Or.inr (Or.inl hcall)))] at h; cases h
      unfold allocCall at he'
      split at he'
      · cases he'
      · rename_i n hn
        cases he'
        have key : ∀ q : RA, q.consumed = st.consumed → q.stack ≠ 0 →
            (∀ v, D v → V.isGlobal v = false → Pend B st (idx + 1 : Nat) v → q.offset v ≠ 0) →
            Held V B use (fun v => D v ∨ result V i = some v) (idx + 1)
              (clearAll { q.emit { op := .call, func_name := i.str } with pushing := false, args := 0 }) := by
          intro q hq hq0 hqo
          have hp : ∀ v, Pend B (clearAll { q.emit { op := .call, func_name := i.str } with pushing := false, args := 0 }) (idx + 1 : Nat) v →
              Pend B st (idx + 1 : Nat) v := fun v h => h.imp id (fun h => by
                change _ ≤ q.consumed v at h
                rw [hq] at h; exact h)
          refine ⟨⟨hq0, fun v ⟨hD, hg, hv⟩ => Or.inl (hqo v (hno v hD) hg (hp v hv))⟩, (fun h => by cases h), ?_, ?_⟩
          · intro j hj _ v hv
            rw [clearAll_var _ hj] at hv; cases hv
          · intro v
            show use v ≤ q.consumed v
            rw [hq]; exact H.use_le v
        split
        · refine key _ ((cr.spillAlive V B idx).consumed) (hr.spillAlive V B idx).stk ?_
          intro v hD hg hp
          exact hr.spilled V B idx ⟨hD, hg, hp.earlier⟩ (hp.imp id (fun h => by rw [cr.consumed]; omega))
        · rename_i hn0
          have hps : st.pushing = true := hc.resolve_right (fun h => by rw [hn] at h; cases h; exact hn0 rfl)
          refine key _ cr.consumed hr.stk ?_
          intro v hD hg hp
          rw [hro]; exact H.pushed hps v hD hg hp.earlier
    · rw [if_neg hcall] at hc
      have hpf : st'.pushing = true → False := fun h => by
        rw [hpu, if_neg hpush, if_neg hcall, hc] at h; cases h
      by_cases hphi : i.op = .unwound_phi
      · have c' := cr.allocOp V B idx i hpush hcall h3 h4 (fun d h => absurd hphi h) he
        have he' : ∃ d a, i.rd = some d ∧ st' = allocPhi V B d a r := by
          unfold allocOp at he
          rw [hphi] at he
          cases hd : i.rd with
          | none => rw [hd] at he; cases he
          | some d =>
            cases ha : i.rs1 with
            | none => rw [hd, ha] at he; cases he
            | some a => rw [hd, ha] at he; cases he; exact ⟨d, a, rfl, rfl⟩
        obtain ⟨d, a, hd, rfl⟩ := he'
        have ho := (hr.operand V B a none)
        have h1 := (ho.ensureSlot d).emit
          { op := .store, src0 := num (prepareOperand V B a none r).2, src1 := num (((prepareOperand V B a none r).1.ensureSlot d).offset d) }
        refine ⟨⟨h1.stk, fun v ⟨hD, hg, hp⟩ => ?_⟩, fun h => (hpf h).elim, c'.pk, fun v => by rw [c'.consumed]; exact H.use_le v⟩
        by_cases hvd : v = d
        · subst hvd
          exact Or.inl (ensureSlot_self ho.stk v)
        · have hDv : D v := hD.resolve_right (fun h => hvd (by
            have := result_some h
            rw [hd] at this; cases this; rfl))
          exact h1.kept v ⟨hDv, hg, (hp.imp id (fun h => by rw [c'.consumed] at h; omega) : Pend B st idx v)⟩
      · have c' := cr.allocOp V B idx i hpush hcall h3 h4 (fun d _ hd => U.killed hphi d hd) he
        have hs : simple i.op = true ∨ i.op = .func_ret := by
          have := U.inner
          revert this hpush hcall hphi
          cases i.op <;> simp [RegAlloc.inner, simple]
        have hA := hr.allocOp (fun v hv => hv.2.1) hs (fun h => U.noDest (Or.inr (Or.inr h))) F he
        refine ⟨hA.sub ?_, fun h => (hpf h).elim, c'.pk, fun v => by rw [c'.consumed]; exact H.use_le v⟩
        rintro v ⟨hD, hg, hp⟩
        rcases hD with hD | hD
        · exact Or.inl ⟨hD, hg, hp.imp id (fun h => by rw [c'.consumed] at h; omega)⟩
        · exact Or.inr ⟨hD, hg, hres v hD hg hp c'.consumed hphi⟩

theorem Held.congr {V : Vars} {B : RegAlloc.Block} {use : Nat → Int} {D D' : Nat → Prop} {idx : Nat} {st : RA}
    (H : Held V B use D idx st) (h : ∀ v, D' v → D v) : Held V B use D' idx st :=
  ⟨H.hold.sub fun v hv => ⟨h v hv.1, hv.2⟩, fun hp v hv => H.pushed hp v (h v hv), H.pk, H.use_le⟩

theorem grouped_noDest {V : Vars} {is : List Insn} (h : Grouped V is) : ∀ i ∈ is, i.op = .push ∨ i.op = .call → i.rd = none := by
  have cs : ∀ {ps : List Insn} {c : Insn}, CallSeq V ps c → (∀ p ∈ ps, p.rd = none) ∧ c.rd = none := fun h => ⟨h.noDest.2, h.noDest.1⟩
  induction h with
  | nil => intro i hi; cases hi
  | one h _ ih =>
    intro j hj hop
    rcases List.mem_cons.1 hj with rfl | hj
    · rcases hop with e | e <;> (rw [e] at h; cases h)
    · exact ih j hj hop
  | call h _ ih =>
    intro j hj hop
    rcases List.mem_append.1 hj with hj | hj
    · exact (cs h).1 j hj
    · rcases List.mem_cons.1 hj with rfl | hj
      · exact (cs h).2
      · exact ih j hj hop
  | callRet h hf _ ih =>
    intro j hj hop
    rcases List.mem_append.1 hj with hj | hj
    · exact (cs h).1 j hj
    · rcases List.mem_cons.1 hj with rfl | hj
      · exact (cs h).2
      · rcases List.mem_cons.1 hj with rfl | hj
        · rw [hf] at hop; rcases hop with e | e <;> cases e
        · exact ih j hj hop

/-- The body of a block. -/
theorem held_body {V : Vars} {B : RegAlloc.Block} {use : Nat → Int} (is : List Insn) : ∀ {D : Nat → Prop} {idx : Nat} {st st' : RA},
    Held V B use D idx st → Calls V st.pushing is → (∀ i ∈ is, RegAlloc.inner i.op = true) →
    (∀ i ∈ is, i.op = .push ∨ i.op = .call → i.rd = none) → NoClash V B idx is st → Uses V B use D idx is →
    allocInsns V B idx is st = some st' → Held V B use (fun v => D v ∨ ∃ i ∈ is, result V i = some v) (idx + is.length) st' := by
  induction is with
  | nil =>
    intro D idx st st' H _ _ _ _ _ he
    cases he
    exact H.congr fun v hv => hv.elim id (fun ⟨_, h, _⟩ => by cases h)
  | cons i is ih =>
    intro D idx st st' H hc hin hnd hN hU he
    unfold allocInsns at he
    split at he
    · cases he
    · rename_i st1 h1
      have hi := hin i (List.mem_cons_self ..)
      have U := hU.1
      have S : Simple V B use D idx i st :=
        { inner := hi
          push := fun _ a ha => U.operand a (Or.inl ha)
          noDest := fun h => by
            rcases h with h | h | h
            · exact hnd i (List.mem_cons_self ..) (Or.inl h)
            · exact hnd i (List.mem_cons_self ..) (Or.inr h)
            · exact U.noResult h
          killed := fun _ => U.killed
          unused := fun _ d hd hu => (U.unused d hd hu).2
          fine := hN.1 }
      have H1 := H.step S hc.1 h1
      have := ih H1 (by rw [step_pushing hi h1]; exact hc.2) (fun j hj => hin j (List.mem_cons_of_mem _ hj))
        (fun j hj => hnd j (List.mem_cons_of_mem _ hj)) (hN.2 st1 h1) hU.2 he
      have e : idx + (i :: is).length = idx + 1 + is.length := by simp only [List.length_cons]; omega
      rw [e]
      refine this.congr ?_
      rintro v (h | ⟨j, hj, h⟩)
      · exact Or.inl (Or.inl h)
      · rcases List.mem_cons.1 hj with rfl | hj
        · exact Or.inl (Or.inr h)
        · exact Or.inr ⟨j, hj, h⟩

/-- The copies at the end of a block. -/
theorem held_phis {V : Vars} {B : RegAlloc.Block} {use : Nat → Int} {D0 : Nat → Prop} (is : List Insn) : ∀ {D T : Nat → Prop} {idx : Nat}
    {st st' : RA}, Held V B use D idx st → st.pushing = false → Phis V B use D0 T idx is →
    allocInsns V B idx is st = some st' → Held V B use (fun v => D v ∨ ∃ i ∈ is, i.rd = some v) (idx + is.length) st' := by
  induction is with
  | nil =>
    intro D T idx st st' H _ _ he
    cases he
    exact H.congr fun v hv => hv.elim id (fun ⟨_, h, _⟩ => by cases h)
  | cons i is ih =>
    intro D T idx st st' H hc hP he
    unfold allocInsns at he
    split at he
    · cases he
    · rename_i st1 h1
      obtain ⟨⟨d, a, ho, hd, ha, _⟩, hP'⟩ := hP
      have hi : RegAlloc.inner i.op = true := by rw [ho]; rfl
      have S : Simple V B use D idx i st :=
        { inner := hi
          push := fun h => by rw [ho] at h; cases h
          noDest := fun h => by rw [ho] at h; rcases h with h | h | h <;> cases h
          killed := fun h => absurd ho h
          unused := fun h => absurd ho h
          fine := ⟨fun _ _ _ h => (by rw [ho] at h; cases h), fun _ _ h => (by rw [ho] at h; cases h),
            fun _ _ h => (by rw [ho] at h; cases h), fun _ h => (by rw [ho] at h; cases h), fun _ h => (by rw [ho] at h; cases h)⟩ }
      have H1 := H.step S (by rw [ho]; exact hc) h1
      have hc1 : st1.pushing = false := by rw [step_pushing hi h1, ho]; exact hc
      have hr : result V i = i.rd := by unfold result; rw [ho]
      have := ih H1 hc1 hP' he
      have e : idx + (i :: is).length = idx + 1 + is.length := by simp only [List.length_cons]; omega
      rw [e]
      refine this.congr ?_
      rintro v (h | ⟨j, hj, h⟩)
      · exact Or.inl (Or.inl h)
      · rcases List.mem_cons.1 hj with rfl | hj
        · exact Or.inl (Or.inr (by rw [hr]; exact h))
        · exact Or.inr ⟨j, hj, h⟩

theorem calls_end {V : Vars} {B : RegAlloc.Block} (is : List Insn) : ∀ {idx : Nat} {st st' : RA} {tail : List Insn},
    (∀ i ∈ is, RegAlloc.inner i.op = true) → Calls V st.pushing (is ++ tail) → allocInsns V B idx is st = some st' →
    Calls V st'.pushing tail := by
  induction is with
  | nil => intro idx st st' tail _ hc he; cases he; exact hc
  | cons i is ih =>
    intro idx st st' tail hin hc he
    unfold allocInsns at he
    split at he
    · cases he
    · rename_i st1 h1
      exact ih (fun j hj => hin j (List.mem_cons_of_mem _ hj)) (by rw [step_pushing (hin i (List.mem_cons_self ..)) h1]; exact hc.2) he

/-- After the body no argument is pending. -/
theorem body_pushing {V : Vars} {B : RegAlloc.Block} {is : List Insn} {idx : Nat} {st st' : RA} (h : Grouped V is) (hp : st.pushing = false)
    (he : allocInsns V B idx is st = some st') : st'.pushing = false := by
  have hc := grouped_calls h [{ op := .ret }] ⟨rfl, trivial⟩
  have := calls_end (tail := [{ op := .ret }]) is (grouped_inner h) (by rw [hp]; exact hc) he
  exact this.1

/-- Emptying the registers at the end of a block. -/
theorem Hold.liveOut {V : Vars} {B : RegAlloc.Block} {st : RA} (h : Hold S st) (pk : ∀ j, j < 8 → st.pol j = true → ∀ v, st.var j = some v → v ∈ B.killed)
    {v : Nat} (hv : S v) (hl : v ∈ B.liveOut) : (spillLiveOut V B st).offset v ≠ 0 := by
  have key : ∀ (l : List Nat) (st : RA), (∀ i ∈ l, i < 8) → st.stack ≠ 0 → (∀ j, j < 8 → st.pol j = true → ∀ v, st.var j = some v → v ∈ B.killed) →
      Kept st v → Kept (l.foldl (spillLiveOut1 V B) st) v := by
    intro l
    induction l with
    | nil => intro st _ _ _ h; exact h
    | cons i l ih =>
      intro st hi8 hs pk hk
      rw [List.foldl_cons]
      have hi := hi8 i (List.mem_cons_self ..)
      have hset : (∀ w, st.var i = some w → w = v → st.pol i = true → False) → Hold (fun u => u = v) (st.setReg i none false) := by
        intro h
        refine Hold.drop (S := fun u => u = v) (st := st) ⟨hs, fun u hu => by rw [hu]; exact hk⟩ i ?_ rfl rfl ?_
        · intro j hj
          exact ⟨by show upd _ i none j = _; rw [upd_ne _ _ hj], by show upd _ i false j = _; rw [upd_ne _ _ hj]⟩
        · intro w hw hp hu
          exact (h w hw hu hp).elim
      have step : (spillLiveOut1 V B st i).stack ≠ 0 ∧ (∀ j, j < 8 → (spillLiveOut1 V B st i).pol j = true → ∀ v,
          (spillLiveOut1 V B st i).var j = some v → v ∈ B.killed) ∧ Kept (spillLiveOut1 V B st i) v := by
        unfold spillLiveOut1
        split
        · exact ⟨hs, pk, hk⟩
        · rename_i w hw
          split
          · split
            · have e : spillVar V w i st = RegAlloc.spillReg V i st := by unfold RegAlloc.spillReg; rw [hw]
              rw [e]
              have c : Ctl (· ∈ B.killed) st.pushing st.args st.consumed (RegAlloc.spillReg V i st) :=
                Ctl.spillReg ⟨pk, rfl, rfl, rfl⟩ V i
              have hh : Hold (fun u => u = v) (RegAlloc.spillReg V i st) :=
                Hold.spillReg (S := fun u => u = v) (st := st) ⟨hs, fun u hu => by rw [hu]; exact hk⟩ V i
              exact ⟨hh.stk, c.pk, hh.kept v rfl⟩
            · rename_i hnk
              have c : Ctl (· ∈ B.killed) st.pushing st.args st.consumed (st.setReg i none false) :=
                Ctl.setFalse ⟨pk, rfl, rfl, rfl⟩ i none
              have hh := hset (fun w' hw' _ hp => hnk (by rw [hw] at hw'; cases hw'; exact pk i hi hp w hw))
              exact ⟨hh.stk, c.pk, hh.kept v rfl⟩
          · rename_i hnl
            have c : Ctl (· ∈ B.killed) st.pushing st.args st.consumed (st.setReg i none false) :=
              Ctl.setFalse ⟨pk, rfl, rfl, rfl⟩ i none
            have hh := hset (fun w' hw' hu _ => hnl (by rw [hw] at hw'; cases hw'; rw [hu]; exact hl))
            exact ⟨hh.stk, c.pk, hh.kept v rfl⟩
      exact ih _ (fun j hj => hi8 j (List.mem_cons_of_mem _ hj)) step.1 step.2.1 step.2.2
  rcases key (List.range regCnt) st (fun i hi => List.mem_range.1 hi) h.stk pk (h.kept v hv) with h1 | ⟨i, h1, h2, _⟩
  · exact h1
  · have h2' : (spillLiveOut V B st).var i = some v := h2
    rw [spillLiveOut_var V B st i h1] at h2'
    cases h2'

end RaLink

namespace RaFn
open Shecc Shecc.Ssa Shecc.RegAlloc IrM SrcBlock RaLink Shecc.Props

variable {V : Vars} {F : RegAlloc.Fn} {params : List Nat} {use : Nat → Int}

/-- A block gives a frame word to every variable that has a value at the start of a following block. -/
theorem block_kept {pre : List Nat} {b : Nat} {live out : Nat → Prop} {body phis last : List Insn} {st st' : RA} {jump : Bool}
    (H : Begin V F params use pre st) (K : BlockFine V F params pre use live out b body phis last)
    (hs : st.stack ≠ 0) (hk : ∀ v, live v → V.isGlobal v = false → Kept st v)
    (hpk : ∀ j, j < 8 → ∀ v, st.var j = some v → v ∈ (F.block b).killed)
    (he : allocBlock V (F.block b) jump (F.insns b) st = some st') : ∀ v, out v → V.isGlobal v = false → st'.offset v ≠ 0 := by
  have hNC := (block_static H K he).1
  have H0 : Held V (F.block b) use (fun v => V.isGlobal v = true ∨ live v) 0 (reset st) := by
    refine ⟨⟨hs, ?_⟩, (fun h => by cases h), fun j hj _ => hpk j hj, ?_⟩
    · rintro v ⟨h1, h2, _⟩
      exact hk v (h1.resolve_left (by rw [h2]; simp)) h2
    · intro v
      show use v ≤ st.consumed v
      rw [H.con]; exact conAt_le F pre use v
  have he' : (match allocInsns V (F.block b) 0 (F.insns b) (reset st) with
    | none => none | some st => some (allocEnd V (F.block b) jump st)) = some st' := by
    unfold allocBlock at he
    change (match allocInsns V (F.block b) 0 (F.insns b) (reset st) with | none => _ | some st => _) = _ at he
    exact he
  rw [K.insns, allocInsns_append, allocInsns_append] at he'
  cases h1 : allocInsns V (F.block b) 0 body (reset st) with
  | none => rw [h1] at he'; cases he'
  | some st1 =>
    rw [h1] at he'
    simp only at he'
    cases h2 : allocInsns V (F.block b) (0 + body.length) phis st1 with
    | none => rw [h2] at he'; cases he'
    | some st2 =>
      rw [h2] at he'
      simp only at he'
      have hcalls : Calls V false body := by simpa using grouped_calls K.grouped [] trivial
      have H1 := held_body body H0 hcalls (grouped_inner K.grouped) (grouped_noDest K.grouped) hNC K.uses h1
      have H2 := held_phis phis H1 (body_pushing K.grouped rfl h1) (by rw [Nat.zero_add]; exact K.phi) h2
      intro v hv hg
      obtain ⟨hl, hval⟩ := K.valued v hv
      have hD : ((V.isGlobal v = true ∨ live v) ∨ ∃ i ∈ body, result V i = some v) ∨ ∃ i ∈ phis, i.rd = some v := by
        rcases hval with (h | h) | h
        · exact Or.inl (Or.inl (Or.inr h))
        · exact Or.inl (Or.inr h)
        · exact Or.inr h
      have fin : ∀ (q : RA) n, (F.block b).next = some n → Hold (fun u => u = v) q →
          (∀ j, j < 8 → q.pol j = true → ∀ v, q.var j = some v → v ∈ (F.block b).killed) → (allocEnd V (F.block b) jump q).offset v ≠ 0 := by
        intro q n hn hq pk
        have : (allocEnd V (F.block b) jump q).offset = (spillLiveOut V (F.block b) q).offset := by
          unfold allocEnd; rw [hn]; simp only; split <;> rfl
        rw [this]
        exact hq.liveOut pk rfl hl
      have Hv : Hold (fun u => u = v) st2 := H2.hold.sub fun u hu => by rw [hu]; exact ⟨hD, hg, Or.inl hl⟩
      have hrefresh : ∀ idx : Int, Hold (fun u => u = v) (RegAlloc.refresh (F.block b) idx st2) := fun idx =>
        (Hv.refresh (B := F.block b) (idx := idx)).sub (fun u hu => ⟨hu, by rw [hu]; exact Or.inl hl⟩)
      have cr : ∀ idx : Int, Ctl (· ∈ (F.block b).killed) st2.pushing st2.args st2.consumed (RegAlloc.refresh (F.block b) idx st2) :=
        fun idx => Ctl.refresh ⟨H2.pk, rfl, rfl, rfl⟩ _ idx
      have hends := K.ends
      cases hends with
      | next hn =>
        simp only [allocInsns] at he'
        cases he'
        exact fin st2 _ hn Hv H2.pk
      | @branch br a hn ho ha =>
        simp only [allocInsns, allocInsn] at he'
        generalize ((0 + (body ++ phis).length : Nat) : Int) = idx at he'
        have hao : allocOp V (F.block b) idx br (RegAlloc.refresh (F.block b) idx st2) =
            some (allocBranch V (F.block b) a (RegAlloc.refresh (F.block b) idx st2)) := by unfold allocOp; rw [ho, ha]
        rw [hao] at he'
        simp only [allocEnd, hn] at he'
        cases he'
        have h1 := (hrefresh idx).operand V (F.block b) a none
        have c1 := (cr idx).operand V (F.block b) a none
        exact h1.liveOut c1.pk rfl hl
      | @ret re a hn ho ha =>
        simp only [allocInsns, allocInsn] at he'
        generalize ((0 + (body ++ phis).length : Nat) : Int) = idx at he'
        have hao : allocOp V (F.block b) idx re (RegAlloc.refresh (F.block b) idx st2) =
            some (allocRet V (F.block b) (some a) (RegAlloc.refresh (F.block b) idx st2)) := by unfold allocOp; rw [ho, ha]
        rw [hao] at he'
        simp only at he'
        cases he'
        exact fin _ _ hn (((hrefresh idx).operand V (F.block b) a none).emit _) ((((cr idx).operand V (F.block b) a none).emit _).pk)
      | @retVoid re hn ho ha =>
        simp only [allocInsns, allocInsn] at he'
        generalize ((0 + (body ++ phis).length : Nat) : Int) = idx at he'
        have hao : allocOp V (F.block b) idx re (RegAlloc.refresh (F.block b) idx st2) =
            some (allocRet V (F.block b) none (RegAlloc.refresh (F.block b) idx st2)) := by unfold allocOp; rw [ho, ha]
        rw [hao] at he'
        simp only at he'
        cases he'
        exact fin _ _ hn ((hrefresh idx).emit _) (((cr idx).emit _).pk)

end RaFn
