import Verif.Spec.RaBlock
import Verif.Lemmas.RaStruct

/-! Register allocation simulates the source: one instruction. -/

namespace RaLink
open Shecc Shecc.Ssa Shecc.RegAlloc IrM SrcBlock

section
variable {A : Abi} {tcall : Nat → String → State → State → Prop} {C : Ctx} {V : Vars} {sp gp : Word} {fofs : Nat → Nat}

/-- What holds before instruction `idx` when no argument is being passed. -/
structure Inv (C : Ctx) (V : Vars) (sp gp : Word) (fofs : Nat → Nat) (B : Block) (use : Nat → Int) (D : Nat → Prop) (idx : Int)
    (st : RA) (s : St) (t : State) : Prop where
  rel : Rel C V sp gp fofs B D idx st s t
  inj : Inj st
  pk : ∀ j, j < 8 → st.pol j = true → ∀ v, st.var j = some v → v ∈ B.killed
  pushing : st.pushing = false
  args : st.args = 0
  sargs : s.args = []
  use_le : ∀ v, use v ≤ st.consumed v
  glob : ∀ v, V.isGlobal v = true → D v

theorem Inv.ctl {B : Block} {use : Nat → Int} {D : Nat → Prop} {idx : Int} {st : RA} {s : St} {t : State}
    (I : Inv C V sp gp fofs B use D idx st s t) : Ctl (· ∈ B.killed) false 0 st.consumed st := ⟨I.pk, I.pushing, I.args, rfl⟩

theorem wr_args (s : St) (d : Nat) (x : Word) : (wr C s d x).args = s.args := by unfold wr; split <;> rfl

theorem step_args {i : Insn} {s s' : St} (h : Step C i s s') (hs : simple i.op = true) : s'.args = s.args := by
  cases h <;> first | exact wr_args .. | rfl | (rename_i ho _; rw [ho] at hs; cases hs)

variable (S : Setup A tcall C V sp gp fofs)
include S

/-- The relation after a simple instruction. -/
theorem step_rel {B : Block} {D : Nat → Prop} {use : Nat → Int} {idx : Nat} {st st' : RA} {s s' : St} {t : State} {i : Insn}
    (R : Rel C V sp gp fofs B D idx st s t) (hinj : Inj st) (hD : ∀ v, V.isGlobal v = true → D v)
    (hu : ∀ v, use v ≤ st.consumed v) (U : UseOk V B use D idx i) (F : InsnFine V B idx i st) (hs : simple i.op = true)
    (h : Step C i s s') (he : allocOp V B idx i st = some st') (hto : To fofs st') :
    Sim A tcall st st' t (Rel C V sp gp fofs B (fun v => D v ∨ result V i = some v) (idx + 1) st' s') := by
  have hpend : ∀ v, i.rs1 = some v ∨ i.rs2 = some v → D v ∧ Pend B st idx v := by
    intro v hv
    obtain ⟨h1, h2⟩ := U.operand v hv
    exact ⟨h1, h2.imp id (fun h => Int.le_trans h (hu v))⟩
  have hle : (idx : Int) ≤ idx + 1 := by omega
  have h0 : (0 : Int) ≤ idx := by omega
  have fin : ∀ {d : Nat} {s'' : St}, result V i = some d → Sim A tcall st st' t
      (Rel C V sp gp fofs B (fun v => D v ∨ v = d) idx st' s'') →
      Sim A tcall st st' t (Rel C V sp gp fofs B (fun v => D v ∨ result V i = some v) (idx + 1) st' s'') := by
    intro d s'' hr hsim
    obtain ⟨c, t', h1, h2, h3⟩ := hsim
    refine ⟨c, t', h1, h2, h3.weaken ?_ hle⟩
    intro v hv
    exact hv.imp id fun e => by rw [hr] at e; cases e; rfl
  have skip : ∀ d, i.rd = some d → st.consumed d = -1 → V.isGlobal d = false ∧ d ∉ B.liveOut := by
    intro d hd hc
    refine U.unused d hd ?_
    have := hu d
    omega
  have res : ∀ d, i.op ≠ .allocat → i.rd = some d → result V i = some d := by
    intro d ho hd
    unfold result
    split
    · rename_i h _; exact absurd h ho
    · exact hd
  have loc : ∀ d, i.rd = some d → i.op ≠ .load_constant → i.op ≠ .load_data_address → i.op ≠ .assign → V.isGlobal d = false := by
    intro d hd h1 h2 h3
    cases hg : V.isGlobal d with
    | false => rfl
    | true => rcases U.local_ d hd hg with h | h | h <;> contradiction
  cases h with
  | const ho hd =>
    rename_i d
    unfold allocOp at he
    rw [ho, hd] at he
    simp only [Option.some.injEq] at he
    subst he
    exact fin (res d (by rw [ho]; simp) hd) (allocConst_sim S R hinj hD (skip d hd) h0 hto (Or.inl ⟨rfl, rfl⟩))
  | data ho hd =>
    rename_i d
    unfold allocOp at he
    rw [ho, hd] at he
    simp only [Option.some.injEq] at he
    subst he
    exact fin (res d (by rw [ho]; simp) hd) (allocConst_sim S R hinj hD (skip d hd) h0 hto (Or.inr ⟨rfl, rfl⟩))
  | assign ho hd ha =>
    rename_i d a
    unfold allocOp at he
    rw [ho, hd, ha] at he
    simp only [Option.some.injEq] at he
    subst he
    obtain ⟨q1, q2⟩ := hpend a (Or.inl ha)
    exact fin (res d (by rw [ho]; simp) hd)
      (allocAssign_sim S R hinj hD q1 q2 (skip d hd) h0 (F.assign d a ho hd ha) hto)
  | phi ho hd ha => rw [ho] at hs; cases hs
  | bin ho hop hd ha hb hv =>
    rename_i o op d a b v
    have hbin : isBinOp o = true := by rw [isBinOp_iff, hop]; rfl
    unfold allocOp at he
    rw [ho, hd, ha, hb] at he
    simp only [hbin, if_true, Option.some.injEq] at he
    subst he
    obtain ⟨q1, q2⟩ := hpend a (Or.inl ha)
    obtain ⟨q3, q4⟩ := hpend b (Or.inr hb)
    obtain ⟨f1, f2⟩ := F.bin o a b ho hbin ha hb
    refine fin (res d (by rw [ho]; simp) hd) (allocBin_sim S R hinj hD q1 q3 q2 q4
      (loc d hd (by rw [ho]; simp) (by rw [ho]; simp) (by rw [ho]; simp)) hop hv f1 ?_ hto)
    intro hdm
    apply f2
    cases o <;> simp [binOf] at hop <;> subst hop <;> simp [divModOf] at hdm ⊢
  | un ho hop hd ha =>
    rename_i o op d a
    have hun : isUnOp o = true := by rw [isUnOp_iff, hop]; rfl
    have hbin : isBinOp o = false := by cases o <;> simp [unOf] at hop <;> rfl
    unfold allocOp at he
    rw [ho, hd, ha] at he
    obtain ⟨q1, q2⟩ := hpend a (Or.inl ha)
    have he' : st' = allocUn V B o d a st := by
      cases hrs2 : i.rs2 with
      | none =>
        rw [hrs2] at he
        simp only [hun, if_true, Option.some.injEq] at he
        exact he.symm
      | some b =>
        rw [hrs2] at he
        simp only [hun, hbin, if_true, Option.some.injEq, Bool.false_eq_true, if_false] at he
        exact he.symm
    subst he'
    exact fin (res d (by rw [ho]; simp) hd) (allocUn_sim S R hinj hD q1 q2
      (loc d hd (by rw [ho]; simp) (by rw [ho]; simp) (by rw [ho]; simp)) hop hto)
  | read4 ho hsz hd ha hv =>
    rename_i d a
    unfold allocOp at he
    rw [ho, hd, ha] at he
    simp only [Option.some.injEq] at he
    subst he
    obtain ⟨q1, q2⟩ := hpend a (Or.inl ha)
    exact fin (res d (by rw [ho]; simp) hd) (allocRead_sim S R hinj hD q1 q2
      (loc d hd (by rw [ho]; simp) (by rw [ho]; simp) (by rw [ho]; simp)) hto (Or.inl ⟨hsz, hv, rfl⟩))
  | read1 ho hsz hd ha hv =>
    rename_i d a
    unfold allocOp at he
    rw [ho, hd, ha] at he
    simp only [Option.some.injEq] at he
    subst he
    obtain ⟨q1, q2⟩ := hpend a (Or.inl ha)
    exact fin (res d (by rw [ho]; simp) hd) (allocRead_sim S R hinj hD q1 q2
      (loc d hd (by rw [ho]; simp) (by rw [ho]; simp) (by rw [ho]; simp)) hto (Or.inr ⟨hsz, hv, rfl⟩))
  | write4 ho hsz ha hb hv hm h1 h2 =>
    rename_i a b m
    unfold allocOp at he
    rw [ho, ha, hb] at he
    simp only [Option.some.injEq] at he
    subst he
    obtain ⟨q1, q2⟩ := hpend a (Or.inl ha)
    obtain ⟨q3, q4⟩ := hpend b (Or.inr hb)
    obtain ⟨f1, f2⟩ := F.write a b ho ha hb
    obtain ⟨c, t', g1, g2, g3⟩ := allocWrite_sim S R hD q1 q3 q2 q4 f1 f2 hto h1 h2 (Or.inl ⟨hsz, hv, hm⟩)
    refine ⟨c, t', g1, g2, g3.weaken ?_ (Int.le_refl _)⟩
    intro v hv
    refine hv.elim id fun e => ?_
    simp [result, ho, U.noResult ho] at e
  | write1 ho hsz ha hb hv hm h1 h2 =>
    rename_i a b m
    unfold allocOp at he
    rw [ho, ha, hb] at he
    simp only [Option.some.injEq] at he
    subst he
    obtain ⟨q1, q2⟩ := hpend a (Or.inl ha)
    obtain ⟨q3, q4⟩ := hpend b (Or.inr hb)
    obtain ⟨f1, f2⟩ := F.write a b ho ha hb
    obtain ⟨c, t', g1, g2, g3⟩ := allocWrite_sim S R hD q1 q3 q2 q4 f1 f2 hto h1 h2 (Or.inr ⟨hsz, hv, hm⟩)
    refine ⟨c, t', g1, g2, g3.weaken ?_ (Int.le_refl _)⟩
    intro v hv
    refine hv.elim id fun e => ?_
    simp [result, ho, U.noResult ho] at e
  | gaddr ho hd ha hg =>
    rename_i d a
    unfold allocOp at he
    rw [ho, hd, ha] at he
    simp only [Option.some.injEq] at he
    subst he
    rw [S.isGlobal] at hg
    exact fin (res d (by rw [ho]; simp) hd) (allocAddressOf_sim S R hinj hD hg
      (loc d hd (by rw [ho]; simp) (by rw [ho]; simp) (by rw [ho]; simp)) hto)
  | declare ho hd hb =>
    rename_i d
    rw [S.basic] at hb
    unfold allocOp at he
    rw [ho, hd] at he
    simp only [Option.some.injEq, allocAllocat, hb, if_true] at he
    subst he
    refine Sim.refl (R.weaken ?_ hle)
    intro v hv
    refine hv.elim id fun e => ?_
    simp [result, ho, hd, hb] at e
  | object ho hd hb =>
    rename_i d
    rw [S.basic] at hb
    unfold allocOp at he
    rw [ho, hd] at he
    simp only [Option.some.injEq] at he
    subst he
    exact fin (by simp [result, ho, hd, hb]) (allocAllocat_sim S R hinj hD hb
      (loc d hd (by rw [ho]; simp) (by rw [ho]; simp) (by rw [ho]; simp)) (U.fresh d ho hd hb) hto)
  | push ho ha => rw [ho] at hs; cases hs
  | call ho hc => rw [ho] at hs; cases hs
  | funcRet ho hd => rw [ho] at hs; cases hs

theorem refresh_inv {B : Block} {D : Nat → Prop} {use : Nat → Int} {idx : Int} {st : RA} {s : St} {t : State}
    (I : Inv C V sp gp fofs B use D idx st s t) : Inv C V sp gp fofs B use D idx (refresh B idx st) s t := by
  have c := I.ctl.refresh B idx
  exact ⟨I.rel.refresh, (refresh_sub B idx st).inj I.inj, c.pk, c.pushing, c.args, I.sargs, by rw [c.consumed]; exact I.use_le, I.glob⟩

omit S in
theorem refresh_out (B : Block) (idx : Int) (st : RA) : (refresh B idx st).out = st.out := by
  unfold refresh
  generalize List.range regCnt = l
  induction l generalizing st with
  | nil => rfl
  | cons i l ih =>
    rw [List.foldl_cons, ih]
    unfold refresh1
    split
    · rfl
    · split
      · rfl
      · split <;> rfl

/-- One simple instruction. -/
theorem step_sim {B : Block} {D : Nat → Prop} {use : Nat → Int} {idx : Nat} {st st' : RA} {s s' : St} {t : State} {i : Insn}
    (I : Inv C V sp gp fofs B use D idx st s t) (U : UseOk V B use D idx i) (F : InsnFine V B idx i (refresh B idx st))
    (hs : simple i.op = true) (h : Step C i s s') (he : allocInsn V B idx i st = some st') (hto : To fofs st') :
    Sim A tcall st st' t (Inv C V sp gp fofs B use (fun v => D v ∨ result V i = some v) (idx + 1 : Nat) st' s') := by
  have I1 := refresh_inv S I
  have ho := refresh_out B idx st
  unfold allocInsn at he
  generalize RegAlloc.refresh B idx st = st1 at *
  have np : i.op ≠ .push := fun e => by rw [e] at hs; cases hs
  have c := I1.ctl.allocOp V B idx i np (fun e => by rw [e] at hs; cases hs) (fun e => by rw [e] at hs; cases hs)
    (fun e => by rw [e] at hs; cases hs) (fun d _ hd => U.killed d hd) he
  obtain ⟨code, t', g1, g2, g3⟩ := step_rel S I1.rel I1.inj I1.glob I1.use_le U F hs h he hto
  refine ⟨code, t', by rw [g1, ho], by rw [← ho]; exact g2, g3, Props.allocOp_inj V B idx i st1 st' np I1.inj he, c.pk, c.pushing, c.args, ?_, ?_, ?_⟩
  · rw [step_args h hs]; exact I1.sargs
  · rw [c.consumed]; exact I1.use_le
  · exact fun v hv => Or.inl (I1.glob v hv)

end

end RaLink
