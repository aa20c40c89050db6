import Verif.Model.RegAlloc

/-! Structural lemmas about the register file during allocation. -/

namespace Shecc.RegAlloc
open Shecc.Ssa

@[simp] theorem upd_same {α : Type} (f : Nat → α) (i : Nat) (x : α) : upd f i x i = x := by simp [upd]
theorem upd_ne {α : Type} (f : Nat → α) {i j : Nat} (x : α) (h : j ≠ i) : upd f i x j = f j := by simp [upd, h]

theorem firstReg_some {p : Nat → Bool} {i : Nat} (h : firstReg p = some i) : i < 8 ∧ p i = true := by
  unfold firstReg at h
  have h1 := List.mem_of_find?_eq_some h
  have h2 := List.find?_some h
  simp [regCnt] at h1
  exact ⟨h1, h2⟩

theorem firstReg_none {p : Nat → Bool} (h : firstReg p = none) : ∀ i, i < 8 → p i = false := by
  intro i hi
  unfold firstReg at h
  rw [List.find?_eq_none] at h
  have := h i (by simp [regCnt, hi])
  simpa using this

/-- No variable is recorded in two registers. -/
def Inj (st : RA) : Prop := ∀ i j v, i < 8 → j < 8 → st.var i = some v → st.var j = some v → i = j

/-- Only clears registers. -/
def Sub (st st' : RA) : Prop := ∀ i, st'.var i = st.var i ∨ st'.var i = none

theorem Sub.refl (st : RA) : Sub st st := fun _ => Or.inl rfl
theorem Sub.trans {a b c : RA} (h : Sub a b) (h' : Sub b c) : Sub a c := by
  intro i
  rcases h' i with h1 | h1
  · rw [h1]; exact h i
  · exact Or.inr h1
theorem Sub.inj {a b : RA} (h : Sub a b) (hi : Inj a) : Inj b := by
  intro i j v h1 h2 h3 h4
  rcases h i with e | e
  · rcases h j with e' | e'
    · rw [e] at h3; rw [e'] at h4; exact hi i j v h1 h2 h3 h4
    · rw [e'] at h4; cases h4
  · rw [e] at h3; cases h3

def Absent (st : RA) (v : Nat) : Prop := ∀ i, i < 8 → st.var i ≠ some v

theorem Sub.absent {a b : RA} (h : Sub a b) {v : Nat} (ha : Absent a v) : Absent b v := by
  intro i hi
  rcases h i with e | e
  · rw [e]; exact ha i hi
  · rw [e]; simp

theorem findReg_none {st : RA} {v : Nat} (h : findReg st v = none) : Absent st v := by
  intro i hi he
  have := firstReg_none h i hi
  simp [he] at this

theorem findReg_some {st : RA} {v i : Nat} (h : findReg st v = some i) : i < 8 ∧ st.var i = some v := by
  have := firstReg_some h
  simpa using this

theorem freeReg_some {st : RA} {i : Nat} (h : freeReg st = some i) : i < 8 ∧ st.var i = none := by
  have := firstReg_some h
  simpa using this

theorem freeReg_none {st : RA} (h : freeReg st = none) : ∀ i, i < 8 → ∃ v, st.var i = some v := by
  intro i hi
  have := firstReg_none h i hi
  cases hv : st.var i with
  | none => simp [hv] at this
  | some v => exact ⟨v, rfl⟩

theorem liveOutReg_some {B : Block} {st : RA} {a b : Option Nat} {i : Nat} (h : liveOutReg B st a b = some i) :
    i < 8 ∧ some i ≠ a ∧ some i ≠ b ∧ ∃ v, st.var i = some v ∧ v ∈ B.liveOut := by
  obtain ⟨h1, h2⟩ := firstReg_some h
  cases hv : st.var i with
  | none => simp [hv] at h2
  | some v =>
    simp [hv] at h2
    exact ⟨h1, h2.1.1, h2.1.2, v, rfl, h2.2⟩

theorem farthest_lt (st : RA) (a b : Option Nat) : farthest st a b < 8 := by
  unfold farthest
  have : ∀ (l : List Nat) (x : Nat), x < 8 → (∀ i ∈ l, i < 8) →
      l.foldl (fun sp i => if some i = a ∨ some i = b then sp else if consumedAt st i > consumedAt st sp then i else sp) x < 8 := by
    intro l
    induction l with
    | nil => intro x hx _; exact hx
    | cons y l ih =>
      intro x hx hl
      simp only [List.foldl_cons]
      apply ih _ _ (fun i hi => hl i (by simp [hi]))
      split
      · exact hx
      · split
        · exact hl y (by simp)
        · exact hx
  exact this _ 0 (by omega) (by simp [regCnt])

/-- What `spillVar` leaves. -/
theorem spillVar_var (V : Vars) (v i : Nat) (st : RA) : (spillVar V v i st).var = upd st.var i none := by
  unfold spillVar
  split
  · simp only [RA.setReg, RA.emit, RA.ensureSlot]
    split <;> rfl
  · rfl

theorem spillReg_var (V : Vars) (i : Nat) (st : RA) : (spillReg V i st).var = upd st.var i none := by
  unfold spillReg
  split
  · rename_i h
    funext j
    by_cases hj : j = i
    · subst hj; simp [h]
    · rw [upd_ne _ _ hj]
  · exact spillVar_var _ _ _ _

theorem Sub.of_var {st st' : RA} {i : Nat} (h : st'.var = upd st.var i none) : Sub st st' := by
  intro j
  by_cases hj : j = i
  · subst hj; right; rw [h]; simp
  · left; rw [h, upd_ne _ _ hj]

theorem Sub.of_eq {st st' : RA} (h : st'.var = st.var) : Sub st st' := fun i => Or.inl (by rw [h])

/-- A fold over registers whose steps only clear the register at hand. -/
theorem fold_sub (f : RA → Nat → RA) (hf : ∀ st i, Sub st (f st i)) (l : List Nat) (st : RA) : Sub st (l.foldl f st) := by
  induction l generalizing st with
  | nil => exact Sub.refl st
  | cons i l ih => exact (hf st i).trans (ih (f st i))

theorem refresh1_sub (B : Block) (idx : Int) (st : RA) (i : Nat) : Sub st (refresh1 B idx st i) := by
  unfold refresh1
  split
  · exact Sub.refl _
  · split
    · exact Sub.refl _
    · split
      · exact Sub.of_var rfl
      · exact Sub.refl _

theorem refresh_sub (B : Block) (idx : Int) (st : RA) : Sub st (refresh B idx st) := fold_sub _ (refresh1_sub B idx) _ _

theorem spillAlive1_sub (V : Vars) (B : Block) (idx : Int) (st : RA) (i : Nat) : Sub st (spillAlive1 V B idx st i) := by
  unfold spillAlive1
  split
  · exact Sub.refl _
  · split
    · exact Sub.of_var (spillVar_var _ _ _ _)
    · split
      · exact Sub.of_var (spillVar_var _ _ _ _)
      · exact Sub.refl _

theorem spillAlive_sub (V : Vars) (B : Block) (idx : Int) (st : RA) : Sub st (spillAlive V B idx st) :=
  fold_sub _ (spillAlive1_sub V B idx) _ _

theorem spillLiveOut1_var (V : Vars) (B : Block) (st : RA) (i : Nat) : (spillLiveOut1 V B st i).var = upd st.var i none := by
  unfold spillLiveOut1
  split
  · rename_i h
    funext j
    by_cases hj : j = i
    · subst hj; simp [h]
    · rw [upd_ne _ _ hj]
  · split
    · split
      · exact spillVar_var _ _ _ _
      · rfl
    · rfl

theorem spillLiveOut_var (V : Vars) (B : Block) (st : RA) : ∀ i, i < 8 → (spillLiveOut V B st).var i = none := by
  intro i hi
  have : ∀ (l : List Nat) (st : RA), (i ∈ l ∨ st.var i = none) → (l.foldl (spillLiveOut1 V B) st).var i = none := by
    intro l
    induction l with
    | nil =>
      intro st h
      rcases h with h | h
      · cases h
      · exact h
    | cons j l ih =>
      intro st h
      simp only [List.foldl_cons]
      apply ih
      by_cases hij : i = j
      · right; rw [spillLiveOut1_var]; simp [hij]
      · rcases h with h | h
        · left; simpa [hij] using h
        · right; rw [spillLiveOut1_var, upd_ne _ _ hij]; exact h
  exact this _ st (Or.inl (by simp [regCnt, hi]))

theorem Inj.set {st st' : RA} {i v : Nat} (hi : Inj st) (ha : Absent st v) (h : ∀ j, j ≠ i → st'.var j = st.var j)
    (h2 : st'.var i = some v) : Inj st' := by
  intro j k u hj hk e1 e2
  by_cases h3 : j = i
  · by_cases h4 : k = i
    · rw [h3, h4]
    · rw [h _ h4] at e2
      subst h3
      rw [h2] at e1
      cases e1
      exact absurd e2 (ha k hk)
  · by_cases h4 : k = i
    · rw [h _ h3] at e1
      subst h4
      rw [h2] at e2
      cases e2
      exact absurd e1 (ha j hj)
    · rw [h _ h3] at e1
      rw [h _ h4] at e2
      exact hi j k u hj hk e1 e2

theorem spillReg_none {V : Vars} {i : Nat} {st : RA} (h : st.var i = none) : spillReg V i st = st := by
  unfold spillReg
  rw [h]

/-- `prepareOperand` finds the variable, or clears some register and loads it there. -/
theorem prepareOperand_cases (V : Vars) (B : Block) (v : Nat) (o : Option Nat) (st : RA) :
    (∃ i, i < 8 ∧ st.var i = some v ∧ prepareOperand V B v o st = (st, i)) ∨
    (Absent st v ∧ ∃ i, i < 8 ∧ prepareOperand V B v o st = (loadVar V v i (spillReg V i st), i)) := by
  unfold prepareOperand
  split
  · rename_i i h
    exact Or.inl ⟨i, (findReg_some h).1, (findReg_some h).2, rfl⟩
  · rename_i h
    refine Or.inr ⟨findReg_none h, ?_⟩
    split
    · rename_i i h
      obtain ⟨h1, h2⟩ := freeReg_some h
      exact ⟨i, h1, by rw [spillReg_none h2]⟩
    · split
      · rename_i i h
        exact ⟨i, (liveOutReg_some h).1, rfl⟩
      · exact ⟨_, farthest_lt st none none, rfl⟩

/-- `prepareDest` finds the variable, or clears some register and records it there. -/
theorem prepareDest_cases (V : Vars) (B : Block) (v : Nat) (o p : Option Nat) (st : RA) :
    (∃ i, i < 8 ∧ st.var i = some v ∧ prepareDest V B v o p st = ({ st with pol := upd st.pol i true }, i)) ∨
    (Absent st v ∧ ∃ i, i < 8 ∧ prepareDest V B v o p st = ((spillReg V i st).setReg i (some v) true, i)) := by
  unfold prepareDest
  split
  · rename_i i h
    exact Or.inl ⟨i, (findReg_some h).1, (findReg_some h).2, rfl⟩
  · rename_i h
    refine Or.inr ⟨findReg_none h, ?_⟩
    split
    · rename_i i h
      obtain ⟨h1, h2⟩ := freeReg_some h
      exact ⟨i, h1, by rw [spillReg_none h2]⟩
    · split
      · rename_i i h
        exact ⟨i, (liveOutReg_some h).1, rfl⟩
      · exact ⟨_, farthest_lt st o p, rfl⟩

theorem setReg_var (st : RA) (i : Nat) (v : Option Nat) (p : Bool) : (st.setReg i v p).var = upd st.var i v := rfl
theorem loadVar_var (V : Vars) (v i : Nat) (st : RA) : (loadVar V v i st).var = upd st.var i (some v) := rfl

theorem Inj.of_var {st st' : RA} {i v : Nat} (hi : Inj st) (ha : Absent st v) (h : st'.var = upd st.var i (some v)) :
    Inj st' := hi.set ha (fun j hj => by rw [h, upd_ne _ _ hj]) (by rw [h]; simp)

theorem spillReg_sub (V : Vars) (i : Nat) (st : RA) : Sub st (spillReg V i st) := Sub.of_var (spillReg_var V i st)

theorem prepareOperand_inj (V : Vars) (B : Block) (v : Nat) (o : Option Nat) (st : RA) (hi : Inj st) :
    Inj (prepareOperand V B v o st).1 := by
  rcases prepareOperand_cases V B v o st with ⟨i, _, _, h⟩ | ⟨ha, i, _, h⟩
  · rw [h]; exact hi
  · rw [h]
    exact Inj.of_var ((spillReg_sub V i st).inj hi) ((spillReg_sub V i st).absent ha) rfl

theorem prepareDest_inj (V : Vars) (B : Block) (v : Nat) (o p : Option Nat) (st : RA) (hi : Inj st) :
    Inj (prepareDest V B v o p st).1 := by
  rcases prepareDest_cases V B v o p st with ⟨i, _, _, h⟩ | ⟨ha, i, _, h⟩
  · rw [h]; exact hi
  · rw [h]
    exact Inj.of_var ((spillReg_sub V i st).inj hi) ((spillReg_sub V i st).absent ha) rfl

theorem storeGlobal_var (V : Vars) (v d : Nat) (st : RA) : (storeGlobal V v d st).var = st.var := by
  unfold storeGlobal
  split <;> rfl

theorem ensureSlot_var (st : RA) (v : Nat) : (st.ensureSlot v).var = st.var := by
  unfold RA.ensureSlot
  split <;> rfl

theorem storeEach_var (st : RA) (v : Nat) (l : List Nat) (acc : RA) : (storeEach st v l acc).var = acc.var := by
  induction l generalizing acc with
  | nil => rfl
  | cons i l ih =>
    rw [storeEach, ih]
    split <;> rfl

/-! ## The frame -/

/-- A property of the frame alone that survives giving a variable a slot. -/
structure Closed (P : RA → Prop) : Prop where
  same : ∀ st st' : RA, st'.offset = st.offset → st'.stack = st.stack → P st → P st'
  slot : ∀ st v, P st → P (st.ensureSlot v)

section
variable {P : RA → Prop} (hP : Closed P)
include hP

theorem Closed.of {st st' : RA} (h : P st) (h1 : st'.offset = st.offset) (h2 : st'.stack = st.stack) : P st' :=
  hP.same st st' h1 h2 h

theorem Closed.spillVar (V : Vars) (v i : Nat) {st : RA} (h : P st) : P (spillVar V v i st) := by
  unfold RegAlloc.spillVar
  split
  · exact hP.same (st.ensureSlot v) _ rfl rfl (hP.slot st v h)
  · exact hP.of h rfl rfl

theorem Closed.spillReg (V : Vars) (i : Nat) {st : RA} (h : P st) : P (spillReg V i st) := by
  unfold RegAlloc.spillReg
  split
  · exact h
  · exact hP.spillVar V _ i h

theorem Closed.loadVar (V : Vars) (v i : Nat) {st : RA} (h : P st) : P (loadVar V v i st) := hP.of h rfl rfl

theorem Closed.prepareOperand (V : Vars) (B : Block) (v : Nat) (o : Option Nat) {st : RA} (h : P st) :
    P (prepareOperand V B v o st).1 := by
  rcases prepareOperand_cases V B v o st with ⟨i, _, _, e⟩ | ⟨_, i, _, e⟩
  · rw [e]; exact h
  · rw [e]; exact hP.loadVar V v i (hP.spillReg V i h)

theorem Closed.prepareDest (V : Vars) (B : Block) (v : Nat) (o p : Option Nat) {st : RA} (h : P st) :
    P (prepareDest V B v o p st).1 := by
  rcases prepareDest_cases V B v o p st with ⟨i, _, _, e⟩ | ⟨_, i, _, e⟩
  · rw [e]; exact hP.of h rfl rfl
  · rw [e]; exact hP.of (hP.spillReg V i h) rfl rfl

theorem Closed.fold (f : RA → Nat → RA) (hf : ∀ st i, P st → P (f st i)) (l : List Nat) {st : RA} (h : P st) :
    P (l.foldl f st) := by
  induction l generalizing st with
  | nil => exact h
  | cons i l ih => exact ih (hf st i h)

theorem Closed.refresh (B : Block) (idx : Int) {st : RA} (h : P st) : P (refresh B idx st) := by
  refine hP.fold _ ?_ _ h
  intro st i h
  unfold refresh1
  split
  · exact h
  · split
    · exact h
    · split
      · exact hP.of h rfl rfl
      · exact h

theorem Closed.spillAlive (V : Vars) (B : Block) (idx : Int) {st : RA} (h : P st) : P (spillAlive V B idx st) := by
  refine hP.fold _ ?_ _ h
  intro st i h
  unfold spillAlive1
  split
  · exact h
  · split
    · exact hP.spillVar V _ i h
    · split
      · exact hP.spillVar V _ i h
      · exact h

theorem Closed.spillLiveOut (V : Vars) (B : Block) {st : RA} (h : P st) : P (spillLiveOut V B st) := by
  refine hP.fold _ ?_ _ h
  intro st i h
  unfold spillLiveOut1
  split
  · exact h
  · split
    · split
      · exact hP.spillVar V _ i h
      · exact hP.of h rfl rfl
    · exact hP.of h rfl rfl

theorem Closed.storeGlobal (V : Vars) (v d : Nat) {st : RA} (h : P st) : P (storeGlobal V v d st) := by
  unfold RegAlloc.storeGlobal
  split
  · exact hP.of h rfl rfl
  · exact h

theorem Closed.storeEach (st : RA) (v : Nat) (l : List Nat) {acc : RA} (h : P acc) : P (storeEach st v l acc) := by
  induction l generalizing acc with
  | nil => exact h
  | cons i l ih =>
    rw [RegAlloc.storeEach]
    apply ih
    split
    · exact hP.of h rfl rfl
    · exact h

theorem Closed.emit {st : RA} (ir : Ph2Ir) (h : P st) : P (st.emit ir) := hP.of h rfl rfl

theorem Closed.clear {st : RA} (i : Nat) (h : P st) : P (st.clear i) := hP.of h rfl rfl

theorem Closed.allocPush (V : Vars) (B : Block) (idx : Int) (sz a : Nat) {st : RA} (h : P st) : P (allocPush V B idx sz a st) := by
  have h1 : P (extendLiveness B idx a sz st) := by
    unfold extendLiveness
    split
    · exact h
    · split
      · exact hP.of h rfl rfl
      · exact h
  unfold RegAlloc.allocPush
  generalize extendLiveness B idx a sz st = s1 at h1 ⊢
  have h2 : P (if s1.pushing then s1 else { RegAlloc.spillAlive V B idx s1 with pushing := true }) := by
    split
    · exact h1
    · exact hP.of (hP.spillAlive V B idx h1) rfl rfl
  simp only
  generalize (if s1.pushing then s1 else { RegAlloc.spillAlive V B idx s1 with pushing := true }) = s2 at h2 ⊢
  exact hP.of (hP.prepareOperand V B a none h2) rfl rfl

/-- Every instruction but the declaration of an array or structure. -/
theorem Closed.allocOp (V : Vars) (B : Block) (idx : Int) (i : Insn) {st st' : RA}
    (hn : i.op = .allocat → ∀ d, i.rd = some d → V.basic d = true) (h : P st)
    (he : allocOp V B idx i st = some st') : P st' := by
  unfold RegAlloc.allocOp at he
  split at he
  · rename_i d a _ _ _
    cases he
    exact hP.emit _ (hP.slot _ d (hP.prepareOperand V B a none h))
  · rename_i d ho hd
    cases he
    unfold allocAllocat
    rw [if_pos (hn ho d hd)]
    exact h
  · rename_i d _ _
    cases he
    unfold allocConst
    split
    · exact h
    · exact hP.storeGlobal V d _ (hP.emit _ (hP.prepareDest V B d none none h))
  · rename_i d _ _
    cases he
    unfold allocConst
    split
    · exact h
    · exact hP.storeGlobal V d _ (hP.emit _ (hP.prepareDest V B d none none h))
  · rename_i d a _ _ _
    cases he
    unfold allocAddressOf
    have h1 : P (if st.offset a = 0 then RegAlloc.storeEach (st.ensureSlot a) a (List.range regCnt) (st.ensureSlot a) else st) := by
      split
      · exact hP.storeEach _ a _ (hP.slot st a h)
      · exact h
    exact hP.emit _ (hP.prepareDest V B d none none h1)
  · rename_i d a _ _ _
    cases he
    unfold allocAssign
    split
    · exact h
    · have h1 := hP.prepareOperand V B a none h
      have h2 := hP.prepareDest V B d (some (RegAlloc.prepareOperand V B a none st).2) none h1
      simp only
      split
      · exact hP.clear _ (hP.storeGlobal V d _ (hP.emit _ h2))
      · exact hP.storeGlobal V d _ (hP.emit _ h2)
  · rename_i d a _ _ _
    cases he
    exact hP.emit _ (hP.prepareDest V B d _ none (hP.prepareOperand V B a none h))
  · rename_i a b _ _ _
    cases he
    unfold allocWrite
    split
    · exact hP.emit _ (hP.prepareOperand V B a none h)
    · exact hP.emit _ (hP.prepareOperand V B b _ (hP.prepareOperand V B a none (hP.spillAlive V B idx h)))
  · rename_i a _ _
    cases he
    exact hP.emit _ (hP.spillLiveOut V B (hP.prepareOperand V B a none h))
  · cases he
    exact hP.allocPush V B idx _ _ h
  · unfold allocCall at he
    split at he
    · cases he
    · rename_i n _
      cases he
      have h1 : P (if n = 0 then RegAlloc.spillAlive V B idx st else st) := by
        split
        · exact hP.spillAlive V B idx h
        · exact h
      exact hP.same (if n = 0 then RegAlloc.spillAlive V B idx st else st) _ rfl rfl h1
  · rename_i a _ _
    cases he
    have h1 : P (if st.args = 0 then RegAlloc.spillAlive V B idx st else st) := by
      split
      · exact hP.spillAlive V B idx h
      · exact h
    exact hP.of (hP.prepareOperand V B a none h1) rfl rfl
  · rename_i d _ _
    cases he
    exact hP.emit _ (hP.prepareDest V B d none none h)
  · cases he
    unfold allocRet
    split
    · exact hP.emit _ h
    · exact hP.emit _ (hP.prepareOperand V B _ none h)
  · rename_i d a b _ _ _ _
    split at he
    · cases he
      exact hP.emit _ (hP.prepareDest V B d _ _ (hP.prepareOperand V B b _ (hP.prepareOperand V B a none h)))
    · split at he
      · cases he
        exact hP.emit _ (hP.prepareDest V B d _ none (hP.prepareOperand V B a none h))
      · cases he
  · rename_i d a _ _ _ _
    split at he
    · cases he
      exact hP.emit _ (hP.prepareDest V B d _ none (hP.prepareOperand V B a none h))
    · cases he
  · cases he

theorem Closed.allocEnd (V : Vars) (B : Block) (jump : Bool) {st : RA} (h : P st) : P (allocEnd V B jump st) := by
  unfold RegAlloc.allocEnd
  split
  · exact h
  · have := hP.spillLiveOut V B h
    simp only
    split
    · exact hP.emit _ this
    · exact this

end

end Shecc.RegAlloc
