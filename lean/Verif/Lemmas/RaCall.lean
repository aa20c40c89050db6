import Verif.Lemmas.RaSim4

/-! Register allocation simulates the source: calls. -/

namespace RaLink
open Shecc Shecc.Ssa Shecc.RegAlloc IrM SrcBlock

theorem firstReg_first {p : Nat → Bool} {i : Nat} (h : firstReg p = some i) : ∀ j, j < i → p j = false := by
  unfold firstReg at h
  rw [List.find?_range_eq_some] at h
  intro j hj
  simpa using h.2.2 j hj

theorem refresh_eq {B : Block} {idx : Int} {st : RA}
    (h : ∀ i, i < 8 → ∀ v, st.var i = some v → v ∈ B.liveOut ∨ idx ≤ st.consumed v) : refresh B idx st = st := by
  unfold RegAlloc.refresh
  have : ∀ l : List Nat, (∀ i ∈ l, i < 8) → l.foldl (refresh1 B idx) st = st := by
    intro l
    induction l with
    | nil => intro _; rfl
    | cons i l ih =>
      intro hl
      rw [List.foldl_cons]
      have : refresh1 B idx st i = st := by
        unfold refresh1
        split
        · rfl
        · rename_i v hv
          split
          · rfl
          · rename_i hn
            split
            · rename_i hc
              rcases h i (hl i (List.mem_cons_self ..)) v hv with h | h
              · exact absurd h hn
              · omega
            · rfl
      rw [this]
      exact ih fun j hj => hl j (List.mem_cons_of_mem _ hj)
  exact this _ fun i hi => List.mem_range.1 hi

section
variable {A : Abi} {tcall : Nat → String → State → State → Prop} {C : Ctx} {V : Vars} {sp gp : Word} {fofs : Nat → Nat}

/-- While arguments are being pushed for the call at `idxC`: values are in the frame, the first registers hold arguments. -/
structure PI (C : Ctx) (V : Vars) (sp gp : Word) (fofs : Nat → Nat) (B : Block) (D : Nat → Prop) (idx idxC : Int) (st : RA)
    (s : St) (t : State) : Prop where
  sp : t.sp = sp
  gp : t.gp = gp
  mem : ∀ a, ¬ C.hidden a → t.mem a = s.mem a
  gofs : ∀ v, V.isGlobal v = true → st.offset v = fofs v
  stk : st.stack ≠ 0
  home : ∀ v, D v → Pend B st idx v → V.isGlobal v = false → st.offset v ≠ 0 ∧ slot t (fofs v) = s.val v
  free : ∀ j, j < 8 → st.args ≤ j → st.var j = none
  occ : ∀ j, j < 8 → j < st.args → ∃ v, st.var j = some v ∧ t.reg (r3 j) = rd C s v ∧ (v ∈ B.liveOut ∨ idxC ≤ st.consumed v)
  len : s.args.length = st.args
  arg : ∀ j, j < st.args → t.reg (r3 j) = s.args.getD j 0
  pushing : st.pushing = true

/-- `OP_push` after liveness has been extended and values spilled. -/
def pushTail (V : Vars) (B : Block) (a : Nat) (st : RA) : RA :=
  { ((prepareOperand V B a none st).1.emit
      { op := .assign, src0 := num (prepareOperand V B a none st).2, dest := num (prepareOperand V B a none st).1.args }).setReg
        (prepareOperand V B a none st).1.args (some a) false with args := (prepareOperand V B a none st).1.args + 1 }

theorem allocPush_pushing {V : Vars} {B : Block} {idx : Int} {sz a : Nat} {st : RA} (h : st.pushing = true) :
    allocPush V B idx sz a st = pushTail V B a (extendLiveness B idx a sz st) := by
  have : (extendLiveness B idx a sz st).pushing = true := by
    unfold extendLiveness
    split
    · exact h
    · split <;> exact h
  unfold allocPush pushTail
  simp only [this, if_true]
  rfl

theorem allocPush_first {V : Vars} {B : Block} {idx : Int} {sz a : Nat} {st : RA} (h : st.pushing = false) :
    allocPush V B idx sz a st =
      pushTail V B a { spillAlive V B idx (extendLiveness B idx a sz st) with pushing := true } := by
  have : (extendLiveness B idx a sz st).pushing = false := by
    unfold extendLiveness
    split
    · exact h
    · split <;> exact h
  unfold allocPush pushTail
  simp only [this, if_false, Bool.false_eq_true]
  rfl

theorem extendLiveness_consumed (B : Block) (idx : Int) (a sz : Nat) (st : RA) :
    (∀ v, v ≠ a → (extendLiveness B idx a sz st).consumed v = st.consumed v) ∧
    (∀ v, st.consumed v ≤ (extendLiveness B idx a sz st).consumed v) ∧
    (a ∈ B.liveOut ∨ idx + sz ≤ (extendLiveness B idx a sz st).consumed a) ∧
    (extendLiveness B idx a sz st).var = st.var ∧ (extendLiveness B idx a sz st).pol = st.pol ∧
    (extendLiveness B idx a sz st).offset = st.offset ∧ (extendLiveness B idx a sz st).stack = st.stack ∧
    (extendLiveness B idx a sz st).args = st.args ∧ (extendLiveness B idx a sz st).out = st.out ∧
    (extendLiveness B idx a sz st).pushing = st.pushing := by
  unfold extendLiveness
  split
  · rename_i h
    exact ⟨fun _ _ => rfl, fun _ => Int.le_refl _, Or.inl h, rfl, rfl, rfl, rfl, rfl, rfl, rfl⟩
  · split
    · rename_i h
      refine ⟨fun v hv => upd_ne _ _ hv, ?_, Or.inr (by simp), rfl, rfl, rfl, rfl, rfl, rfl, rfl⟩
      intro v
      by_cases hv : v = a
      · subst hv; simp; omega
      · simp [upd_ne _ _ hv]
    · rename_i h
      exact ⟨fun _ _ => rfl, fun _ => Int.le_refl _, Or.inr (by omega), rfl, rfl, rfl, rfl, rfl, rfl, rfl⟩

theorem extendLiveness_pend {B : Block} {idx : Int} {a sz : Nat} {st : RA} (ha : Pend B st idx a) (v : Nat)
    (h : Pend B (extendLiveness B idx a sz st) idx v) : Pend B st idx v := by
  by_cases hv : v = a
  · subst hv; exact ha
  · rcases h with h | h
    · exact Or.inl h
    · rw [(extendLiveness_consumed B idx a sz st).1 v hv] at h
      exact Or.inr h

theorem Rel.extend {B : Block} {D : Nat → Prop} {idx : Int} {st : RA} {s : St} {t : State} {a sz : Nat}
    (R : Rel C V sp gp fofs B D idx st s t) (ha : Pend B st idx a) :
    Rel C V sp gp fofs B D idx (extendLiveness B idx a sz st) s t := by
  have hp := extendLiveness_pend (sz := sz) ha
  obtain ⟨_, _, _, e1, e2, e3, e4, _⟩ := extendLiveness_consumed B idx a sz st
  generalize extendLiveness B idx a sz st = st' at *
  refine ⟨R.sp, R.gp, R.mem, by rw [e3]; exact R.gofs, ?_, ?_, ?_, ?_, by rw [e4]; exact R.stk⟩
  · intro i hi v h1 h2 h3
    rw [e1] at h1
    exact R.reg i hi v h1 (hp v h2) h3
  · intro i hi v h1 h2 h3 h4 h5
    rw [e1] at h1
    rw [e2] at h4
    rw [e3]
    exact R.clean i hi v h1 (hp v h2) h3 h4 h5
  · intro v h1 h2 h3 h4
    rw [e3]
    exact R.away v h1 (hp v h2) h3 (fun j hj h => h4 j hj (by rw [e1]; exact h))
  · intro i hi v h1 h2 h3
    rw [e1] at h1
    rw [e2]
    exact R.gclean i hi v h1 h2 h3

theorem PI.extend {B : Block} {D : Nat → Prop} {idx idxC : Int} {st : RA} {s : St} {t : State} {a sz : Nat}
    (P : PI C V sp gp fofs B D idx idxC st s t) (ha : Pend B st idx a) :
    PI C V sp gp fofs B D idx idxC (extendLiveness B idx a sz st) s t := by
  have hp := extendLiveness_pend (sz := sz) ha
  obtain ⟨_, e0, _, e1, e2, e3, e4, e5, _, e7⟩ := extendLiveness_consumed B idx a sz st
  generalize extendLiveness B idx a sz st = st' at *
  refine ⟨P.sp, P.gp, P.mem, by rw [e3]; exact P.gofs, by rw [e4]; exact P.stk, ?_, ?_, ?_, by rw [e5]; exact P.len,
    by rw [e5]; exact P.arg, by rw [e7]; exact P.pushing⟩
  · intro v h1 h2 h3
    rw [e3]
    exact P.home v h1 (hp v h2) h3
  · intro j h1 h2
    rw [e1]
    rw [e5] at h2
    exact P.free j h1 h2
  · intro j h1 h2
    rw [e1]
    rw [e5] at h2
    obtain ⟨v, g1, g2, g3⟩ := P.occ j h1 h2
    exact ⟨v, g1, g2, g3.imp id (fun h => Int.le_trans h (e0 v))⟩

/-- The value of a variable does not depend on the arguments pushed. -/
theorem rd_args (s : St) (l : List Word) (v : Nat) : rd C { s with args := l } v = rd C s v := rfl

variable (S : Setup A tcall C V sp gp fofs)
include S

/-- Passing one argument. -/
theorem pushTail_sim {B : Block} {D : Nat → Prop} {idx idxC : Int} {st : RA} {s : St} {t : State} {a : Nat}
    (P : PI C V sp gp fofs B D idx idxC st s t) (hD : D a) (hp : Pend B st idx a)
    (hc : a ∈ B.liveOut ∨ idxC ≤ st.consumed a) (hk : st.args < 8) (hto : To fofs (pushTail V B a st)) :
    Sim A tcall st (pushTail V B a st) t
      (PI C V sp gp fofs B D idx idxC (pushTail V B a st) { s with args := s.args ++ [rd C s a] }) := by
  -- the operand
  have key : ∃ (st1 : RA) (r : Nat) (code : List Ph2Ir) (t1 : State), prepareOperand V B a none st = (st1, r) ∧ r < 8 ∧
      (st1.out = st.out ++ code) ∧ TRun A tcall st.out.length code t t1 ∧ st1.offset = st.offset ∧ st1.stack = st.stack ∧ st1.args = st.args ∧
      st1.pushing = st.pushing ∧ st1.consumed = st.consumed ∧ t1.sp = t.sp ∧ t1.gp = t.gp ∧ t1.mem = t.mem ∧
      t1.reg (r3 r) = rd C s a ∧ (∀ j, j < 8 → j < st.args → t1.reg (r3 j) = t.reg (r3 j)) ∧
      (∀ j, j < 8 → j ≠ st.args → st1.var j = st.var j) := by
    unfold prepareOperand
    split
    · rename_i i hf
      obtain ⟨hi, hv⟩ := findReg_some hf
      refine ⟨st, i, [], t, rfl, hi, by simp, .nil t, rfl, rfl, rfl, rfl, rfl, rfl, rfl, rfl, ?_, fun _ _ _ => rfl, fun _ _ _ => rfl⟩
      have hia : i < st.args := Classical.byContradiction fun h => by
        rw [P.free i hi (by omega)] at hv; cases hv
      obtain ⟨v, g1, g2, _⟩ := P.occ i hi hia
      rw [hv] at g1
      cases g1
      exact g2
    · rename_i hf
      have hfree : freeReg st = some st.args := by
        cases hfr : freeReg st with
        | none =>
          obtain ⟨v, hv⟩ := freeReg_none hfr st.args hk
          rw [P.free st.args hk (Nat.le_refl _)] at hv
          cases hv
        | some i =>
          obtain ⟨hi, hv⟩ := freeReg_some hfr
          have h1 : ¬ i < st.args := by
            intro h
            obtain ⟨v, g1, _⟩ := P.occ i hi h
            rw [hv] at g1; cases g1
          have h2 : ¬ st.args < i := by
            intro h
            have := firstReg_first hfr st.args h
            rw [P.free st.args hk (Nat.le_refl _)] at this
            cases this
          congr 1
          omega
      rw [hfree]
      simp only
      have hload : ∃ nxt t1, IrM.Step A (loadIr V (st.offset a) a st.args) nxt t t1 ∧ t1.sp = t.sp ∧ t1.gp = t.gp ∧ t1.mem = t.mem ∧
          t1.reg = (fun q => if q = r3 st.args then rd C s a else t.reg q) := by
        cases hg : V.isGlobal a with
        | false =>
          obtain ⟨c1, c2⟩ := P.home a hD hp hg
          refine ⟨t.pc, _, IrM.Step.load (d := r3 st.args) (by simp [loadIr, hg]) (isReg_num hk), rfl, rfl, rfl, ?_⟩
          simp only [setReg, loadIr]
          have htoa := hto a
          unfold pushTail prepareOperand at htoa
          rw [hf, hfree] at htoa
          simp only at htoa
          have h1 : st.offset a = fofs a := htoa c1
          rw [rd_local S.isGlobal hg, ← c2, slot, ← h1]
          rfl
        | true =>
          obtain ⟨c1, c2⟩ := S.globalAt a hg
          refine ⟨t.pc, _, IrM.Step.gload (d := r3 st.args) (by simp [loadIr, hg]) (isReg_num hk), rfl, rfl, rfl, ?_⟩
          simp only [setReg, loadIr]
          have : load32 t.mem (t.gp + num (st.offset a)) = rd C s a := by
            unfold rd
            rw [S.isGlobal, hg, if_pos rfl, P.gofs a hg, P.gp, num, ← c2]
            exact load32_congr fun k hk => P.mem _ (S.globalVis a hg k hk)
          rw [this]
      obtain ⟨nxt, t1, hs, e1, e2, e3, e4⟩ := hload
      refine ⟨loadVar V a st.args st, st.args, [loadIr V (st.offset a) a st.args], t1, rfl, hk, rfl, TRun.one ?_ hs, rfl, rfl, rfl,
        rfl, rfl, e1, e2, e3, by rw [e4]; simp, ?_, ?_⟩
      · unfold loadIr; split <;> rfl
      · intro j hj hja
        rw [e4]
        simp only
        rw [if_neg (fun e => by have := r3_inj hj hk e; omega)]
      · intro j _ hja
        rw [loadVar_var, upd_ne _ _ hja]
  obtain ⟨st1, r, code, t1, ep, hr, o1, x1, f1, f2, f3, f4, f5, g1, g2, g3, g4, g5, g6⟩ := key
  unfold pushTail at hto ⊢
  rw [ep] at hto ⊢
  simp only at hto ⊢
  refine Sim.chain o1 x1 ?_
  have hstep := IrM.Step.assign (A := A) (ir := { op := .assign, src0 := num r, dest := num st1.args }) (nxt := t1.pc) (s := t1)
    (d := r3 st1.args) (a := r3 r) rfl (isReg_num (by rw [f3]; exact hk)) (isReg_num hr)
  rw [g4] at hstep
  refine Sim.outEq (Sim.emit (st := st1) (ir := { op := .assign, src0 := num r, dest := num st1.args }) rfl hstep ?_) rfl
  have hk1 : st1.args < 8 := by rw [f3]; exact hk
  have hat := setReg_at (t := t1) (x := rd C s a) hk1
  generalize ht2 : ({ setReg t1 (r3 st1.args) (rd C s a) with callee := none, pc := t1.pc } : State) = t2
  have e1 : t2.sp = t1.sp := by rw [← ht2]; rfl
  have e2 : t2.gp = t1.gp := by rw [← ht2]; rfl
  have e3 : t2.mem = t1.mem := by rw [← ht2]; rfl
  have e4 : ∀ j, j < 8 → t2.reg (r3 j) = if j = st.args then rd C s a else t1.reg (r3 j) := by
    intro j hj
    rw [← ht2, ← f3]
    exact hat j hj
  clear ht2 hat hstep
  have hpend : ∀ v, (v ∈ B.liveOut ∨ idx ≤ st1.consumed v) → Pend B st idx v := by
    intro v h; rw [f5] at h; exact h
  refine ⟨?_, ?_, ?_, ?_, ?_, ?_, ?_, ?_, ?_, ?_, ?_⟩
  · rw [e1, g1]; exact P.sp
  · rw [e2, g2]; exact P.gp
  · intro x hx; rw [e3, g3]; exact P.mem x hx
  · intro v hv
    show st1.offset v = _
    rw [f1]; exact P.gofs v hv
  · show st1.stack ≠ 0
    rw [f2]; exact P.stk
  · intro v h1 h2 h3
    show st1.offset v ≠ 0 ∧ _
    rw [f1]
    have := P.home v h1 (hpend v h2) h3
    refine ⟨this.1, ?_⟩
    unfold slot
    rw [e1, e3, g1, g3]
    exact this.2
  · intro j hj hj2
    change st1.args + 1 ≤ j at hj2
    show upd st1.var st1.args (some a) j = none
    rw [upd_ne _ _ (by omega), g6 j hj (by rw [← f3]; omega)]
    exact P.free j hj (by rw [← f3]; omega)
  · intro j hj hj2
    change j < st1.args + 1 at hj2
    show ∃ v, upd st1.var st1.args (some a) j = some v ∧ _ ∧ (_ ∨ idxC ≤ st1.consumed v)
    rw [f3] at hj2 ⊢
    rw [f5]
    by_cases hja : j = st.args
    · subst hja
      refine ⟨a, by simp, ?_, hc⟩
      rw [e4 _ hj, if_pos rfl]; rfl
    · obtain ⟨v, q1, q2, q3⟩ := P.occ j hj (by omega)
      refine ⟨v, by rw [upd_ne _ _ hja, g6 j hj hja, q1], ?_, q3⟩
      rw [e4 j hj, if_neg hja, g5 j hj (by omega), q2]
      rfl
  · show (s.args ++ [rd C s a]).length = st1.args + 1
    rw [f3, List.length_append, P.len]; rfl
  · intro j hj
    change j < st1.args + 1 at hj
    show t2.reg (r3 j) = (s.args ++ [rd C s a]).getD j 0
    rw [f3] at hj
    rw [e4 j (by omega)]
    by_cases hja : j = st.args
    · subst hja
      rw [if_pos rfl, ← P.len]
      simp
    · rw [if_neg hja, g5 j (by omega) (by omega), P.arg j (by omega)]
      simp only [List.getD_eq_getElem?_getD]
      rw [List.getElem?_append_left (by rw [P.len]; omega)]
  · show st1.pushing = true
    rw [f4]; exact P.pushing

end

end RaLink
