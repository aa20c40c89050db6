import Verif.Lemmas.RaEnd

/-!
# Blocks with at most six pending variables never clash
-/

namespace Shecc.RegAlloc
open Shecc.Ssa RaLink Shecc.Props

/-- Registers hold variables of `M`, and only those of `O` and `M` have frame words. -/
structure Within (O M : Nat → Prop) (st : RA) : Prop where
  reg : ∀ j, j < 8 → ∀ v, st.var j = some v → M v
  ofs : ∀ v, st.offset v ≠ 0 → O v ∨ M v

section
variable {O M : Nat → Prop} {st : RA}

theorem Within.mono {M' : Nat → Prop} (h : Within O M st) (hm : ∀ v, M v → M' v) : Within O M' st :=
  ⟨fun j hj v hv => hm v (h.reg j hj v hv), fun v hv => (h.ofs v hv).imp id (hm v)⟩

theorem Within.of {st' : RA} (h : Within O M st) (e1 : st'.var = st.var) (e2 : st'.offset = st.offset) : Within O M st' :=
  ⟨by rw [e1]; exact h.reg, by rw [e2]; exact h.ofs⟩

theorem Within.emit (h : Within O M st) (ir : Ph2Ir) : Within O M (st.emit ir) := h.of rfl rfl

theorem Within.ensureSlot (h : Within O M st) {v : Nat} (hv : M v) : Within O M (st.ensureSlot v) := by
  unfold RA.ensureSlot
  split
  · refine ⟨h.reg, ?_⟩
    intro u hu
    by_cases e : u = v
    · subst e; exact Or.inr hv
    · simp only [upd, if_neg e] at hu
      exact h.ofs u hu
  · exact h

theorem Within.set (h : Within O M st) (i : Nat) {x : Option Nat} (p : Bool) (hx : ∀ v, x = some v → M v) :
    Within O M (st.setReg i x p) := by
  refine ⟨?_, h.ofs⟩
  intro j hj v hv
  change upd st.var i x j = some v at hv
  by_cases e : j = i
  · subst e; simp only [upd, if_true] at hv; exact hx v hv
  · rw [upd_ne _ _ e] at hv; exact h.reg j hj v hv

theorem Within.clear (h : Within O M st) (i : Nat) : Within O M (st.clear i) := by
  refine ⟨?_, h.ofs⟩
  intro j hj v hv
  change upd st.var i none j = some v at hv
  by_cases e : j = i
  · subst e; simp [upd] at hv
  · rw [upd_ne _ _ e] at hv; exact h.reg j hj v hv

theorem Within.spillVar (h : Within O M st) (V : Vars) (i : Nat) {v : Nat} (hv : M v) : Within O M (spillVar V v i st) := by
  unfold RegAlloc.spillVar
  split
  · exact ((h.ensureSlot hv).emit _).set i false (fun _ e => (by cases e))
  · exact h.clear i

theorem Within.spillReg (h : Within O M st) (V : Vars) {i : Nat} (hi : i < 8) : Within O M (spillReg V i st) := by
  unfold RegAlloc.spillReg
  split
  · exact h
  · rename_i v hv
    exact h.spillVar V i (h.reg i hi v hv)

theorem Within.operand (h : Within O M st) (V : Vars) (B : Block) {v : Nat} (hv : M v) (o : Option Nat) :
    Within O M (prepareOperand V B v o st).1 := by
  rcases prepareOperand_cases V B v o st with ⟨i, _, _, e⟩ | ⟨_, i, hi, e⟩
  · rw [e]; exact h
  · rw [e]; exact ((h.spillReg V hi).emit _).set i false (fun _ e => (by cases e; exact hv))

theorem Within.dest (h : Within O M st) (V : Vars) (B : Block) {v : Nat} (hv : M v) (o q : Option Nat) :
    Within O M (prepareDest V B v o q st).1 := by
  rcases prepareDest_cases V B v o q st with ⟨i, _, _, e⟩ | ⟨_, i, hi, e⟩
  · rw [e]; exact h.of rfl rfl
  · rw [e]; exact (h.spillReg V hi).set i true (fun _ e => (by cases e; exact hv))

theorem Within.fold (f : RA → Nat → RA) (hf : ∀ st i, i < 8 → Within O M st → Within O M (f st i)) (h : Within O M st) :
    Within O M ((List.range regCnt).foldl f st) := by
  have : ∀ l : List Nat, (∀ i ∈ l, i < 8) → ∀ st, Within O M st → Within O M (l.foldl f st) := by
    intro l
    induction l with
    | nil => intro _ st h; exact h
    | cons i l ih =>
      intro hl st h
      exact ih (fun j hj => hl j (List.mem_cons_of_mem _ hj)) _ (hf st i (hl i (List.mem_cons_self ..)) h)
  exact this _ (fun i hi => by simpa [regCnt] using hi) st h

theorem Within.refresh (h : Within O M st) (B : Block) (idx : Int) : Within O M (refresh B idx st) := by
  refine h.fold _ ?_
  intro st i hi h
  unfold refresh1
  split
  · exact h
  · split
    · exact h
    · split
      · exact h.set i false (fun _ e => (by cases e))
      · exact h

theorem Within.spillAlive (h : Within O M st) (V : Vars) (B : Block) (idx : Int) : Within O M (spillAlive V B idx st) := by
  refine h.fold _ ?_
  intro st i hi h
  unfold spillAlive1
  split
  · exact h
  · rename_i v hv
    split
    · exact h.spillVar V i (h.reg i hi v hv)
    · split
      · exact h.spillVar V i (h.reg i hi v hv)
      · exact h

theorem Within.storeGlobal (h : Within O M st) (V : Vars) (v d : Nat) : Within O M (storeGlobal V v d st) := by
  unfold RegAlloc.storeGlobal
  split
  · exact h.of rfl rfl
  · exact h

theorem storeEach_offset (st : RA) (v : Nat) (l : List Nat) (acc : RA) : (storeEach st v l acc).offset = acc.offset := by
  induction l generalizing acc with
  | nil => rfl
  | cons i l ih =>
    unfold storeEach
    rw [ih]
    split <;> rfl

/-- Every instruction but the end of a block and indirect calls. -/
theorem Within.allocOp (V : Vars) (B : Block) (idx : Int) (i : Insn) {st' : RA} (h : Within O M st)
    (h3 : i.op ≠ .indirect) (h4 : i.op ≠ .branch) (h5 : i.op ≠ .ret)
    (hm : ∀ v, mentions i v → M v) (he : allocOp V B idx i st = some st') : Within O M st' := by
  unfold RegAlloc.allocOp at he
  split at he
  · rename_i d a hop hd ha
    cases he
    exact ((h.operand V B (hm a (Or.inr (Or.inl ha))) none).ensureSlot (hm d (Or.inl hd))).emit _
  · rename_i d hop hd
    cases he
    unfold allocAllocat
    split
    · exact h
    · refine Within.emit (Within.dest ?_ V B (hm d (Or.inl hd)) none none) _
      refine ⟨h.reg, ?_⟩
      intro u hu
      by_cases e : u = d
      · subst e; exact Or.inr (hm u (Or.inl hd))
      · simp only [upd, if_neg e] at hu
        exact h.ofs u hu
  · rename_i d hop hd
    cases he
    unfold allocConst
    split
    · exact h
    · exact ((h.dest V B (hm d (Or.inl hd)) none none).emit _).storeGlobal V _ _
  · rename_i d hop hd
    cases he
    unfold allocConst
    split
    · exact h
    · exact ((h.dest V B (hm d (Or.inl hd)) none none).emit _).storeGlobal V _ _
  · rename_i d a hop hd ha
    cases he
    unfold allocAddressOf
    refine Within.emit (Within.dest ?_ V B (hm d (Or.inl hd)) none none) _
    split
    · exact (h.ensureSlot (hm a (Or.inr (Or.inl ha)))).of (storeEach_var ..) (storeEach_offset ..)
    · exact h
  · rename_i d a hop hd ha
    cases he
    unfold allocAssign
    split
    · exact h
    · have hs := ((((h.operand V B (hm a (Or.inr (Or.inl ha))) none).dest V B (hm d (Or.inl hd))
        (some (prepareOperand V B a none st).2) none).emit
        { op := .assign, src0 := num (prepareOperand V B a none st).2, dest := num (prepareDest V B d (some (prepareOperand V B a none st).2) none (prepareOperand V B a none st).1).2 }).storeGlobal
          V d (prepareDest V B d (some (prepareOperand V B a none st).2) none (prepareOperand V B a none st).1).2)
      simp only
      split
      · exact hs.clear _
      · exact hs
  · rename_i d a hop hd ha
    cases he
    exact ((h.operand V B (hm a (Or.inr (Or.inl ha))) none).dest V B (hm d (Or.inl hd)) _ none).emit _
  · rename_i a b hop ha hb
    cases he
    unfold allocWrite
    split
    · exact (h.operand V B (hm a (Or.inr (Or.inl ha))) none).emit _
    · exact (((h.spillAlive V B idx).operand V B (hm a (Or.inr (Or.inl ha))) none).operand V B (hm b (Or.inr (Or.inr hb))) _).emit _
  · rename_i hop _; exact absurd hop h4
  · rename_i a hop ha
    cases he
    have hma := hm a (Or.inr (Or.inl ha))
    unfold allocPush
    have he : Within O M (extendLiveness B idx a i.sz st) := by
      unfold extendLiveness
      split
      · exact h
      · split
        · exact h.of rfl rfl
        · exact h
    have h2 : ∀ q : RA, Within O M q → Within O M { ((prepareOperand V B a none q).1.emit { op := .assign, src0 := num (prepareOperand V B a none q).2, dest := num (prepareOperand V B a none q).1.args }).setReg ((prepareOperand V B a none q).1.emit { op := .assign, src0 := num (prepareOperand V B a none q).2, dest := num (prepareOperand V B a none q).1.args }).args (some a) false with args := ((prepareOperand V B a none q).1.emit { op := .assign, src0 := num (prepareOperand V B a none q).2, dest := num (prepareOperand V B a none q).1.args }).args + 1 } := by
      intro q hq
      exact Within.of (((hq.operand V B hma none).emit _).set _ false (fun _ e => (by cases e; exact hma))) rfl rfl
    refine h2 _ ?_
    split
    · exact he
    · exact (he.spillAlive V B idx).of rfl rfl
  · unfold allocCall at he
    split at he
    · cases he
    · cases he
      refine ⟨?_, ?_⟩
      · intro j hj v hv
        simp [clearAll, regCnt, hj] at hv
      · intro v hv
        rename_i n _
        have hq : Within O M (if n = 0 then RegAlloc.spillAlive V B idx st else st) := by
          split
          · exact h.spillAlive V B idx
          · exact h
        exact hq.ofs v hv
  · rename_i hop _; exact absurd hop h3
  · rename_i d hop hd
    cases he
    exact (h.dest V B (hm d (Or.inl hd)) none none).emit _
  · rename_i hop; exact absurd hop h5
  · rename_i o d a b hop hd ha hb
    split at he
    · cases he
      exact (((h.operand V B (hm a (Or.inr (Or.inl ha))) none).operand V B (hm b (Or.inr (Or.inr hb))) _).dest V B (hm d (Or.inl hd)) _ _).emit _
    · split at he
      · cases he
        exact ((h.operand V B (hm a (Or.inr (Or.inl ha))) none).dest V B (hm d (Or.inl hd)) _ none).emit _
      · cases he
  · rename_i o d a hop hd ha hb
    split at he
    · cases he
      exact ((h.operand V B (hm a (Or.inr (Or.inl ha))) none).dest V B (hm d (Or.inl hd)) _ none).emit _
    · cases he
  · cases he

end

theorem refresh1_consumed (B : Block) (idx : Int) (st : RA) (i : Nat) : (refresh1 B idx st i).consumed = st.consumed := by
  unfold refresh1
  split
  · rfl
  · split
    · rfl
    · split <;> rfl

theorem refresh1_pend {B : Block} {idx : Int} {st : RA} {i v : Nat} (h : (refresh1 B idx st i).var i = some v) :
    v ∈ B.liveOut ∨ idx ≤ st.consumed v := by
  unfold refresh1 at h
  split at h
  · rename_i e; rw [e] at h; cases h
  · rename_i w e
    split at h
    · rename_i hl; rw [e] at h; cases h; exact Or.inl hl
    · split at h
      · simp [RA.setReg, upd] at h
      · rename_i hc; rw [e] at h; cases h; exact Or.inr (by omega)

/-- What remains in registers after `refresh` has a use to come. -/
theorem refresh_pend {B : Block} {idx : Int} {st : RA} {j v : Nat} (hj : j < 8) (h : (refresh B idx st).var j = some v) :
    v ∈ B.liveOut ∨ idx ≤ st.consumed v := by
  have : ∀ (l : List Nat) (st : RA), j ∈ l → (l.foldl (refresh1 B idx) st).var j = some v → v ∈ B.liveOut ∨ idx ≤ st.consumed v := by
    intro l
    induction l with
    | nil => intro st h; cases h
    | cons i l ih =>
      intro st hm h
      by_cases e : j = i
      · subst e
        have hs := fold_sub _ (refresh1_sub B idx) l (refresh1 B idx st j) j
        simp only [List.foldl_cons] at h
        rw [h] at hs
        rcases hs with hs | hs
        · exact refresh1_pend hs.symm
        · cases hs
      · have := ih (refresh1 B idx st i) ((List.mem_cons.1 hm).resolve_left e) h
        rw [refresh1_consumed] at this
        exact this
  exact this _ st (by simpa [regCnt] using hj) h

/-- Two registers are free. -/
def TwoFree (st : RA) : Prop := ∃ i j, i < 8 ∧ j < 8 ∧ i ≠ j ∧ st.var i = none ∧ st.var j = none

theorem TwoFree.sub {st st' : RA} (h : TwoFree st) (hs : Sub st st') : TwoFree st' := by
  obtain ⟨i, j, h1, h2, h3, h4, h5⟩ := h
  refine ⟨i, j, h1, h2, h3, ?_, ?_⟩
  · rcases hs i with e | e
    · rw [e, h4]
    · exact e
  · rcases hs j with e | e
    · rw [e, h5]
    · exact e

theorem twoFree_of {st : RA} {P : List Nat} (hi : Inj st) (hp : ∀ j, j < 8 → ∀ v, st.var j = some v → v ∈ P) (hl : P.length ≤ 6) :
    TwoFree st := by
  refine Classical.byContradiction fun hn => ?_
  have hfull : ∃ e, ∀ i, i < 8 → i ≠ e → st.var i ≠ none := by
    by_cases h : ∃ e, e < 8 ∧ st.var e = none
    · obtain ⟨e, he, hv⟩ := h
      refine ⟨e, fun i hi8 hie hiv => hn ⟨i, e, hi8, he, hie, hiv, hv⟩⟩
    · exact ⟨8, fun i hi8 _ hiv => h ⟨i, hi8, hiv⟩⟩
  obtain ⟨e, he⟩ := hfull
  have hlen : 7 ≤ ((List.range 8).filter (· ≠ e)).length := by
    by_cases h : e < 8
    · have : ∀ e, e < 8 → 7 ≤ ((List.range 8).filter (· ≠ e)).length := by decide
      exact this e h
    · rw [List.filter_eq_self.2]
      · decide
      · intro a ha
        have := List.mem_range.1 ha
        simp only [ne_eq, decide_eq_true_eq]
        omega
  have hnd : (((List.range 8).filter (· ≠ e)).map (fun i => (st.var i).getD 0)).Nodup := by
    rw [List.Nodup, List.pairwise_map]
    refine List.Pairwise.imp_of_mem ?_ (List.Pairwise.filter _ (List.nodup_range (n := 8)))
    intro a b ha hb hab heq
    rw [List.mem_filter] at ha hb
    have ha8 := List.mem_range.1 ha.1
    have hb8 := List.mem_range.1 hb.1
    have hae : a ≠ e := by simpa using ha.2
    have hbe : b ≠ e := by simpa using hb.2
    cases hva : st.var a with
    | none => exact he a ha8 hae hva
    | some x =>
      cases hvb : st.var b with
      | none => exact he b hb8 hbe hvb
      | some y =>
        rw [hva, hvb] at heq
        simp only [Option.getD_some] at heq
        subst heq
        exact hab (hi a b x ha8 hb8 hva hvb)
  have hsub : ((List.range 8).filter (· ≠ e)).map (fun i => (st.var i).getD 0) ⊆ P := by
    intro v hv
    obtain ⟨a, ha, rfl⟩ := List.mem_map.1 hv
    rw [List.mem_filter] at ha
    have ha8 := List.mem_range.1 ha.1
    have hae : a ≠ e := by simpa using ha.2
    cases hva : st.var a with
    | none => exact absurd hva (he a ha8 hae)
    | some x => exact hp a ha8 x hva
  have := hnd.length_le_of_subset hsub
  rw [List.length_map] at this
  omega

theorem freeReg_ex {st : RA} {i : Nat} (hi : i < 8) (h : st.var i = none) : ∃ k, freeReg st = some k := by
  cases hf : freeReg st with
  | some k => exact ⟨k, rfl⟩
  | none =>
    obtain ⟨v, hv⟩ := freeReg_none hf i hi
    rw [h] at hv; cases hv

theorem prepareOperand_found {V : Vars} {B : Block} {v i : Nat} {o : Option Nat} {st : RA} (h : findReg st v = some i) :
    prepareOperand V B v o st = (st, i) := by
  unfold prepareOperand
  rw [h]

theorem prepareOperand_free {V : Vars} {B : Block} {v i : Nat} {o : Option Nat} {st : RA} (h : findReg st v = none)
    (hf : freeReg st = some i) : prepareOperand V B v o st = (loadVar V v i st, i) := by
  unfold prepareOperand
  rw [h, hf]

/-- The second operand, with a register other than `i` free, where `i` holds another variable. -/
theorem second_apart {V : Vars} {B : Block} {a b i j : Nat} {o : Option Nat} {st : RA} (hab : a ≠ b) (hv : st.var i = some a) (hj : j < 8)
    (hf : st.var j = none) : i ≠ (prepareOperand V B b o st).2 := by
  cases h : findReg st b with
  | some k =>
    rw [prepareOperand_found h]
    obtain ⟨_, hk⟩ := findReg_some h
    intro e
    change i = k at e
    subst e
    rw [hv] at hk; cases hk; exact hab rfl
  | none =>
    obtain ⟨k, hk⟩ := freeReg_ex hj hf
    rw [prepareOperand_free h hk]
    obtain ⟨_, hk⟩ := freeReg_some hk
    intro e
    change i = k at e
    subst e
    rw [hv] at hk; cases hk

/-- Loading one operand leaves a register free. -/
theorem first_free {V : Vars} {B : Block} {a : Nat} {st : RA} (h : TwoFree st) :
    (prepareOperand V B a none st).1.var (prepareOperand V B a none st).2 = some a ∧
      ∃ j, j < 8 ∧ (prepareOperand V B a none st).1.var j = none := by
  obtain ⟨i, j, h1, h2, h3, h4, h5⟩ := h
  cases h : findReg st a with
  | some k =>
    rw [prepareOperand_found h]
    exact ⟨(findReg_some h).2, i, h1, h4⟩
  | none =>
    obtain ⟨k, hk⟩ := freeReg_ex h1 h4
    rw [prepareOperand_free h hk]
    refine ⟨by simp [loadVar, RA.setReg, RA.emit, upd], ?_⟩
    by_cases e : i = k
    · exact ⟨j, h2, by rw [loadVar_var, upd_ne _ _ (by omega)]; exact h5⟩
    · exact ⟨i, h1, by rw [loadVar_var, upd_ne _ _ e]; exact h4⟩

theorem operandsApart_of {V : Vars} {B : Block} {a b : Nat} {st : RA} (h : TwoFree st) : OperandsApart V B a b st := by
  intro hab
  obtain ⟨h1, j, h2, h3⟩ := first_free (V := V) (B := B) (a := a) h
  exact second_apart hab h1 h2 h3

theorem dest_apart {V : Vars} {B : Block} {a d i j : Nat} {o q : Option Nat} {st : RA} (hab : a ≠ d) (hv : st.var i = some a) (hj : j < 8)
    (hf : st.var j = none) : i ≠ (prepareDest V B d o q st).2 := by
  obtain ⟨k, hk⟩ := freeReg_ex hj hf
  unfold prepareDest
  cases h : findReg st d with
  | some m =>
    obtain ⟨_, hm⟩ := findReg_some h
    intro e
    change i = m at e
    subst e
    rw [hv] at hm; cases hm; exact hab rfl
  | none =>
    rw [hk]
    obtain ⟨_, hk⟩ := freeReg_some hk
    intro e
    change i = k at e
    subst e
    rw [hv] at hk; cases hk

/-- The record kept along a block. -/
structure Track (O M : Nat → Prop) (con : Nat → Int) (st : RA) : Prop where
  within : Within O M st
  con : st.consumed = con
  inj : st.pushing = false → Inj st

theorem extendLiveness_consumed (B : Block) (idx : Nat) (a sz : Nat) (st : RA) :
    (extendLiveness B idx a sz st).consumed =
      if a ∈ B.liveOut then st.consumed else fun v => if v = a then max (st.consumed a) ((idx : Int) + sz) else st.consumed v := by
  unfold extendLiveness
  split
  · rfl
  · split
    · funext v
      simp only [upd]
      split
      · omega
      · rfl
    · funext v
      split
      · rename_i e; subst e; omega
      · rfl

theorem modest_fine {V : Vars} {B : Block} {O M : Nat → Prop} {con : Nat → Int} {idx : Nat} {i : Insn} {st : RA}
    (T : Track O M con st) (hm : Modest V B O M con idx i) (hp : i.op = .push ∨ st.pushing = false) :
    InsnFine V B idx i (refresh B idx st) := by
  have c := Ctl.refresh (st := st) (K := fun _ => True) ⟨fun _ _ _ _ _ => trivial, rfl, rfl, rfl⟩ B idx
  have W := T.within.refresh B idx
  have hpend : ∀ j, j < 8 → ∀ v, (refresh B idx st).var j = some v → v ∈ B.liveOut ∨ (idx : Int) ≤ con v := by
    intro j hj v hv
    have := refresh_pend hj hv
    rw [T.con] at this
    exact this
  obtain ⟨P, hP, hPm⟩ := hm.six
  have two : i.op ≠ .push → TwoFree (refresh B idx st) := fun ho =>
    twoFree_of ((refresh_sub B idx st).inj (T.inj (hp.resolve_left ho))) (fun j hj v hv => hPm v (W.reg j hj v hv) (hpend j hj v hv)) hP
  constructor
  · intro o a b ho hb ha hb'
    refine ⟨operandsApart_of (two (by rw [ho]; exact fun h => by cases h)), ?_⟩
    intro hod e
    subst e
    exact hm.div (hod.imp (fun h => by rw [ho, h]) (fun h => by rw [ho, h])) (by rw [ha, hb'])
  · intro a b ho ha hb
    exact ⟨hm.write ho b hb, operandsApart_of ((two (by rw [ho]; exact fun h => by cases h)).sub (spillAlive_sub V B idx _))⟩
  · intro d a ho hd ha hc hf
    have ht := two (by rw [ho]; exact fun h => by cases h)
    obtain ⟨h1, j, h2, h3⟩ := first_free (V := V) (B := B) (a := a) ht
    refine dest_apart ?_ h1 h2 h3
    intro e
    subst e
    exact hm.assign ho (by rw [hd, ha])
  · intro d ho hd hb
    obtain ⟨n1, n2⟩ := hm.declare ho d hd hb
    refine Classical.byContradiction fun hne => ?_
    rcases W.ofs d hne with h | h
    · exact n1 h
    · exact n2 h
  · intro a ho ha hpu j hj
    obtain ⟨hsz, hq⟩ := hm.push ho
    cases hv : (spillAlive V B idx (extendLiveness B idx a i.sz (refresh B idx st))).var j with
    | none => rfl
    | some v =>
      exfalso
      have hd := spillAlive_dead (V := V) B idx (extendLiveness B idx a i.sz (refresh B idx st)) j hj v hv
      have hv' : (refresh B idx st).var j = some v := by
        rcases spillAlive_sub V B idx (extendLiveness B idx a i.sz (refresh B idx st)) j with e | e
        · rw [hv] at e
          rw [e]
          unfold extendLiveness
          split
          · rfl
          · split <;> rfl
        · rw [hv] at e; cases e
      have hw := W.reg j hj v hv'
      have hp' := hpend j hj v hv'
      apply hd
      unfold Pend
      rw [extendLiveness_consumed, c.consumed, T.con]
      by_cases hl : v ∈ B.liveOut
      · exact Or.inl hl
      · right
        have h5 := hp'.resolve_left hl
        by_cases hva : v = a
        · subst hva
          rw [if_neg hl]
          simp only [if_true]
          omega
        · have h6 := hq v hw hl (by rw [ha]; simp; omega)
          split
          · omega
          · simp only [if_neg hva]; omega

theorem clearAll_var (st : RA) {i : Nat} (h : i < 8) : (clearAll st).var i = none := by
  simp [clearAll, regCnt, h]

theorem modest_step {V : Vars} {B : Block} {O M : Nat → Prop} {con : Nat → Int} {idx : Nat} {i : Insn} {st st' : RA}
    (T : Track O M con st) (h3 : i.op ≠ .indirect) (h4 : i.op ≠ .branch) (h5 : i.op ≠ .ret)
    (he : allocInsn V B idx i st = some st') : Track O (fun v => M v ∨ mentions i v) (bump B idx i con) st' := by
  unfold allocInsn at he
  have c := Ctl.refresh (st := st) (K := fun _ => True) ⟨fun _ _ _ _ _ => trivial, rfl, rfl, rfl⟩ B idx
  have W := ((T.within.refresh B idx).mono (M' := fun v => M v ∨ mentions i v) (fun v h => Or.inl h)).allocOp V B idx i h3 h4 h5
    (fun v h => Or.inr h) he
  have hin : st.pushing = false → Inj (refresh B idx st) := fun h => (refresh_sub B idx st).inj (T.inj h)
  generalize refresh B idx st = r at *
  by_cases hpush : i.op = .push
  · unfold allocOp at he
    rw [hpush] at he
    cases ha : i.rs1 with
    | none => rw [ha] at he; cases i.rd <;> cases i.rs2 <;> cases he
    | some a =>
      rw [ha] at he
      have he' : st' = allocPush V B idx i.sz a r := by
        cases hrd : i.rd <;> cases hrs : i.rs2 <;> rw [hrd, hrs] at he <;> cases he <;> rfl
      have hpc : st'.pushing = true ∧ st'.consumed = (extendLiveness B idx a i.sz r).consumed := by
        rw [he']
        have tail : ∀ q : RA, (pushTail V B a q).pushing = q.pushing ∧ (pushTail V B a q).consumed = q.consumed := by
          intro q
          have := Ctl.operand (st := q) (K := fun _ => True) ⟨fun _ _ _ _ _ => trivial, rfl, rfl, rfl⟩ V B a none
          exact ⟨this.pushing, this.consumed⟩
        cases hpu : r.pushing with
        | true =>
          rw [allocPush_pushing hpu]
          obtain ⟨t1, t2⟩ := tail (extendLiveness B idx a i.sz r)
          refine ⟨t1.trans ?_, t2⟩
          unfold extendLiveness
          split
          · exact hpu
          · split <;> exact hpu
        | false =>
          rw [allocPush_first hpu]
          obtain ⟨t1, t2⟩ := tail { RegAlloc.spillAlive V B idx (extendLiveness B idx a i.sz r) with pushing := true }
          exact ⟨t1, t2.trans (spillAlive_consumed (V := V) B idx _)⟩
      refine ⟨W, ?_, ?_⟩
      · rw [hpc.2, extendLiveness_consumed, c.consumed, T.con, bump, hpush, ha]
      · intro h
        rw [hpc.1] at h; cases h
  · by_cases hcall : i.op = .call
    · have he' : allocCall V B idx i.str r = some st' := by
        unfold allocOp at he
        rw [hcall] at he
        cases hrd : i.rd <;> cases hrs : i.rs2 <;> cases hra : i.rs1 <;> rw [hrd, hrs, hra] at he <;> exact he
      unfold allocCall at he'
      split at he'
      · cases he'
      · rename_i n _
        have hc : st'.consumed = r.consumed := by
          cases he'
          show (if n = 0 then RegAlloc.spillAlive V B idx r else r).consumed = _
          split
          · exact spillAlive_consumed (V := V) B idx _
          · rfl
        refine ⟨W, ?_, ?_⟩
        · rw [hc, c.consumed, T.con]
          unfold bump
          split
          · rename_i h _; exact absurd h hpush
          · rfl
        · intro _ x y v hx hy hvx
          cases he'
          rw [clearAll_var _ hx] at hvx
          cases hvx
    · have c2 := c.allocOp V B idx i hpush hcall h3 h4 (fun _ _ _ => trivial) he
      refine ⟨W, ?_, ?_⟩
      · rw [c2.consumed, T.con]
        unfold bump
        split
        · rename_i h _; exact absurd h hpush
        · rfl
      · intro h
        rw [c2.pushing] at h
        exact allocOp_inj V B idx i _ _ hpush (hin h) he

/-- Neither the end of a block nor an indirect call. -/
def inner : Op1 → Bool
  | .indirect | .branch | .ret => false
  | _ => true

theorem grouped_inner {V : Vars} {is : List Insn} (h : Grouped V is) : ∀ i ∈ is, inner i.op = true := by
  have cs : ∀ {ps : List Insn} {c : Insn}, CallSeq V ps c → (∀ p ∈ ps, inner p.op = true) ∧ inner c.op = true := by
    intro ps c h
    refine ⟨fun p hp => ?_, ?_⟩
    · rw [h.push p hp]; rfl
    · rw [h.call]; rfl
  induction h with
  | nil => intro i hi; cases hi
  | one h _ ih =>
    intro j hj
    rcases List.mem_cons.1 hj with rfl | hj
    · unfold simple at h
      unfold inner
      split at h <;> simp_all
    · exact ih j hj
  | call h _ ih =>
    intro j hj
    rcases List.mem_append.1 hj with hj | hj
    · exact (cs h).1 j hj
    · rcases List.mem_cons.1 hj with rfl | hj
      · exact (cs h).2
      · exact ih j hj
  | callRet h hf _ ih =>
    intro j hj
    rcases List.mem_append.1 hj with hj | hj
    · exact (cs h).1 j hj
    · rcases List.mem_cons.1 hj with rfl | hj
      · exact (cs h).2
      · rcases List.mem_cons.1 hj with rfl | hj
        · rw [hf]; rfl
        · exact ih j hj

/-- While arguments are pushed, only pushes and the call follow. `p`: arguments are being pushed. -/
def PushThen : Bool → List Insn → Prop
  | _, [] => True
  | p, i :: is => (i.op = .push ∨ i.op = .call ∨ p = false) ∧ PushThen (if i.op = .push then true else if i.op = .call then false else p) is

theorem pushThen_call {V : Vars} {ps : List Insn} {c : Insn} {is : List Insn} (h : CallSeq V ps c) (hs : PushThen false is) :
    ∀ p, PushThen p (ps ++ c :: is) := by
  have hp := h.push
  have hc := h.call
  clear h
  induction ps with
  | nil =>
    intro p
    refine ⟨Or.inr (Or.inl hc), ?_⟩
    rw [hc]
    exact hs
  | cons q ps ih =>
    intro p
    have hq := hp q (List.mem_cons_self ..)
    refine ⟨Or.inl hq, ?_⟩
    rw [if_pos hq]
    exact ih (fun x hx => hp x (List.mem_cons_of_mem _ hx)) true

theorem grouped_push {V : Vars} {is : List Insn} (h : Grouped V is) : PushThen false is := by
  induction h with
  | nil => trivial
  | @one i is h _ ih =>
    refine ⟨Or.inr (Or.inr rfl), ?_⟩
    have h1 : i.op ≠ .push := fun e => by rw [e] at h; cases h
    rw [if_neg h1]
    split <;> exact ih
  | call h _ ih => exact pushThen_call h ih false
  | @callRet ps c f is h hf _ ih =>
    refine pushThen_call h ?_ false
    refine ⟨Or.inr (Or.inr rfl), ?_⟩
    rw [hf]
    exact ih

theorem step_pushing {V : Vars} {B : Block} {idx : Nat} {i : Insn} {st st' : RA} (hi : inner i.op = true)
    (he : allocInsn V B idx i st = some st') :
    st'.pushing = if i.op = .push then true else if i.op = .call then false else st.pushing := by
  unfold allocInsn at he
  have c := Ctl.refresh (st := st) (K := fun _ => True) ⟨fun _ _ _ _ _ => trivial, rfl, rfl, rfl⟩ B idx
  generalize refresh B idx st = r at *
  have h3 : i.op ≠ .indirect := fun e => by rw [e] at hi; cases hi
  have h4 : i.op ≠ .branch := fun e => by rw [e] at hi; cases hi
  by_cases hpush : i.op = .push
  · rw [if_pos hpush]
    have he' : ∃ a, st' = allocPush V B idx i.sz a r := by
      unfold allocOp at he
      rw [hpush] at he
      cases ha : i.rs1 with
      | none => rw [ha] at he; cases i.rd <;> cases i.rs2 <;> cases he
      | some a =>
        rw [ha] at he
        refine ⟨a, ?_⟩
        cases hrd : i.rd <;> cases hrs : i.rs2 <;> rw [hrd, hrs] at he <;> cases he <;> rfl
    obtain ⟨a, he'⟩ := he'
    rw [he']
    have tail : ∀ q : RA, (pushTail V B a q).pushing = q.pushing := by
      intro q
      have := Ctl.operand (st := q) (K := fun _ => True) ⟨fun _ _ _ _ _ => trivial, rfl, rfl, rfl⟩ V B a none
      exact this.pushing
    cases hpu : r.pushing with
    | true =>
      rw [allocPush_pushing hpu, tail]
      unfold extendLiveness
      split
      · exact hpu
      · split <;> exact hpu
    | false => rw [allocPush_first hpu, tail]
  · rw [if_neg hpush]
    by_cases hcall : i.op = .call
    · rw [if_pos hcall]
      have he' : allocCall V B idx i.str r = some st' := by
        unfold allocOp at he
        rw [hcall] at he
        cases hrd : i.rd <;> cases hrs : i.rs2 <;> cases hra : i.rs1 <;> rw [hrd, hrs, hra] at he <;> exact he
      unfold allocCall at he'
      split at he'
      · cases he'
      · cases he'; rfl
    · rw [if_neg hcall]
      exact (c.allocOp V B idx i hpush hcall h3 h4 (fun _ _ _ => trivial) he).pushing

theorem modest_noClash {V : Vars} {B : Block} {O : Nat → Prop} (is : List Insn) : ∀ {M : Nat → Prop} {con : Nat → Int} {idx : Nat} {st : RA},
    Track O M con st → (∀ i ∈ is, inner i.op = true) → PushThen st.pushing is → AllModest V B O M con idx is → NoClash V B idx is st := by
  induction is with
  | nil => intro M con idx st _ _ _ _; trivial
  | cons i is ih =>
    intro M con idx st T hin hpt hm
    have hi := hin i (List.mem_cons_self ..)
    have hp : i.op = .push ∨ i.op = .call ∨ st.pushing = false := hpt.1
    refine ⟨?_, ?_⟩
    · by_cases hcall : i.op = .call
      · exact ⟨fun o a b h => (by rw [hcall] at h; cases h), fun a b h => (by rw [hcall] at h; cases h),
          fun d a h => (by rw [hcall] at h; cases h), fun d h => (by rw [hcall] at h; cases h),
          fun a h => (by rw [hcall] at h; cases h)⟩
      · exact modest_fine T hm.1 (by
          rcases hp with h | h | h
          · exact Or.inl h
          · exact absurd h hcall
          · exact Or.inr h)
    · intro st' he
      have T' := modest_step T (fun e => by rw [e] at hi; cases hi) (fun e => by rw [e] at hi; cases hi) (fun e => by rw [e] at hi; cases hi) he
      refine ih T' (fun j hj => hin j (List.mem_cons_of_mem _ hj)) ?_ hm.2
      rw [step_pushing hi he]
      exact hpt.2

end Shecc.RegAlloc
