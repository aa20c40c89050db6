import Verif.Lemmas.RaPressure

/-!
# C57: register allocation of a block preserves its meaning
-/

namespace Shecc.Props
open Shecc Shecc.Ssa Shecc.RegAlloc IrM SrcBlock RaLink

/-- What is assumed of a block `body ++ phis` (followed by a branch, a return or nothing) that starts in allocator state `st`,
with the variables `live` having values. -/
structure BlockOk (V : Vars) (B : Block) (use : Nat → Int) (live : Nat → Prop) (body phis : List Insn) (st : RA) : Prop where
  grouped : Grouped V body
  uses : Uses V B use (fun v => V.isGlobal v = true ∨ live v) 0 body
  fine : NoClash V B 0 body st
  phi : Phis V B use (fun v => (V.isGlobal v = true ∨ live v) ∨ ∃ i ∈ body, result V i = some v) (fun _ => False) body.length phis
  regs : ∀ i, i < 8 → ∀ v, st.var i = some v → v ∈ B.killed
  used : ∀ v, use v ≤ st.consumed v
  start : st.pushing = false ∧ st.args = 0 ∧ st.out = []

section
variable {A : Abi} {tcall : Nat → String → State → State → Prop} {C : Ctx} {V : Vars} {sp gp : Word} {fofs : Nat → Nat}
  {B : Block} {use : Nat → Int} {live : Nat → Prop} {body phis : List Insn} {st st' : RA} {s s' : St} {t : State}

theorem allocBlock_start (V : Vars) (B : Block) (jump : Bool) (is : List Insn) {st : RA}
    (h : st.pushing = false ∧ st.args = 0 ∧ st.out = []) :
    allocBlock V B jump is st = match allocInsns V B 0 is st with | none => none | some st => some (allocEnd V B jump st) := by
  obtain ⟨h1, h2, h3⟩ := h
  have : ({ st with pushing := false, args := 0, out := [] } : RA) = st := by
    cases st; simp only at h1 h2 h3; subst h1; subst h2; subst h3; rfl
  unfold allocBlock
  rw [this]
  cases allocInsns V B 0 is st <;> rfl

theorem phis_mono {D : Nat → Prop} (is : List Insn) : ∀ {T : Nat → Prop} {idx : Nat} {st st' : RA}, Phis V B use D T idx is →
    allocInsns V B idx is st = some st' → Mono st st' := by
  induction is with
  | nil => intro T idx st st' _ he; cases he; exact Mono.refl st
  | cons j is ih =>
    intro T idx st st' hP he
    obtain ⟨⟨_, _, ho, _⟩, hP⟩ := hP
    unfold allocInsns at he
    split at he
    · cases he
    · rename_i st1 h1
      unfold allocInsn at h1
      have a1 : Mono st (RegAlloc.refresh B idx st) := (Mono.closed st).refresh B _ (Mono.refl st)
      have a2 := (Mono.closed st).allocOp V B _ j (fun h => by rw [ho] at h; cases h) a1 h1
      exact a2.trans (ih hP he)

theorem phis_args {D : Nat → Prop} (is : List Insn) : ∀ {T : Nat → Prop} {idx : Nat} {s s' : St}, Phis V B use D T idx is →
    SrcBlock.Run C is s s' → s'.args = s.args := by
  induction is with
  | nil => intro T idx s s' _ hr; cases hr; rfl
  | cons j is ih =>
    intro T idx s s' hP hr
    obtain ⟨⟨d, a, ho, hd, ha, _⟩, hP⟩ := hP
    cases hr with
    | cons h hr =>
      rw [ih hP hr, step_phi ho hd ha h, wr_args]

theorem spillLiveOut1_out (V : Vars) (B : Block) (st : RA) (i : Nat) : ∃ rest, (spillLiveOut1 V B st i).out = st.out ++ rest := by
  have he : ∀ v, ∃ rest, (spillVar V v i st).out = st.out ++ rest := by
    intro v
    unfold spillVar
    split
    · refine ⟨[storeIr V ((st.ensureSlot v).offset v) v i], ?_⟩
      show (st.ensureSlot v).out ++ _ = _
      have : (st.ensureSlot v).out = st.out := by unfold RA.ensureSlot; split <;> rfl
      rw [this]
    · exact ⟨[], by simp [RA.clear]⟩
  unfold spillLiveOut1
  split
  · exact ⟨[], by simp⟩
  · split
    · split
      · exact he _
      · exact ⟨[], by simp [RA.setReg]⟩
    · exact ⟨[], by simp [RA.setReg]⟩

theorem spillLiveOut_out (V : Vars) (B : Block) (st : RA) : ∃ rest, (spillLiveOut V B st).out = st.out ++ rest := by
  unfold spillLiveOut
  generalize List.range regCnt = l
  induction l generalizing st with
  | nil => exact ⟨[], by simp⟩
  | cons i l ih =>
    obtain ⟨r1, h1⟩ := spillLiveOut1_out V B st i
    obtain ⟨r2, h2⟩ := ih (spillLiveOut1 V B st i)
    exact ⟨r1 ++ r2, by rw [List.foldl_cons, h2, h1, List.append_assoc]⟩

/-- The end of a block only adds code. -/
theorem allocEnd_out (V : Vars) (B : Block) (jump : Bool) (st : RA) : ∃ rest, (allocEnd V B jump st).out = st.out ++ rest := by
  unfold allocEnd
  split
  · exact ⟨[], by simp⟩
  · obtain ⟨r, h⟩ := spillLiveOut_out V B st
    simp only
    split
    · exact ⟨_, by simp only [RA.emit]; rw [h, List.append_assoc]⟩
    · exact ⟨r, h⟩

theorem allocEnd_mono (V : Vars) (B : Block) (jump : Bool) (st : RA) : Mono st (allocEnd V B jump st) :=
  (Mono.closed st).allocEnd V B jump (Mono.refl st)

/-- The body and the copies. -/
theorem block_front (S : Setup A tcall C V sp gp fofs) (K : BlockOk V B use live body phis st) (E : Entry C V sp gp fofs live st s t)
    (hr : SrcBlock.Run C (body ++ phis) s s') (he : allocInsns V B 0 (body ++ phis) st = some st') (hto : To fofs st') :
    Sim A tcall st st' t (fun t' =>
      PhiInv C V sp gp fofs B use (fun v => (V.isGlobal v = true ∨ live v) ∨ ∃ i ∈ body, result V i = some v)
        (fun v => ∃ i ∈ phis, i.rd = some v) (body.length + phis.length : Nat) st' s' t' ∧ s'.args = []) := by
  rw [allocInsns_append] at he
  split at he
  · cases he
  · rename_i st1 h1
    rw [Nat.zero_add] at he
    obtain ⟨sm, r1, r2⟩ := run_append hr
    have I := E.inv S.isGlobal K.regs K.start.1 K.start.2.1 K.used
    have hto1 := (phis_mono phis K.phi he).to hto
    obtain ⟨c, t1, g1, g2, g3⟩ := body_sim S K.grouped I K.uses K.fine r1 h1 hto1
    refine Sim.chain g1 g2 ?_
    rw [Nat.zero_add] at g3
    have P : PhiInv C V sp gp fofs B use (fun v => (V.isGlobal v = true ∨ live v) ∨ ∃ i ∈ body, result V i = some v) (fun _ => False)
        (body.length : Nat) st1 sm t1 :=
      ⟨g3.rel.weaken (fun v h => h.1) (Int.le_refl _), fun v h => h.elim, g3.pk, g3.use_le, fun v h => Or.inl (Or.inl h)⟩
    obtain ⟨c', t', q1, q2, q3⟩ := phis_sim S phis P K.phi r2 he hto
    refine ⟨c', t', q1, q2, ?_, ?_⟩
    · have e : (fun v => False ∨ ∃ i ∈ phis, i.rd = some v) = (fun v => ∃ i ∈ phis, i.rd = some v) := by funext v; simp
      rw [e] at q3
      exact q3
    · rw [phis_args phis K.phi r2]; exact g3.sargs

/-- C57, blocks that continue with one successor: straight-line code for the block, then a jump if the successor does not follow. -/
theorem C57_block_partial {n : Nat} {jump : Bool} (S : Setup A tcall C V sp gp fofs) (K : BlockOk V B use live body phis st)
    (E : Entry C V sp gp fofs live st s t) (hn : B.next = some n) (hr : SrcBlock.Run C (body ++ phis) s s')
    (he : allocBlock V B jump (body ++ phis) st = some st') (hto : ∀ v, st'.offset v ≠ 0 → st'.offset v = fofs v) :
    ∃ code t', st'.out = code ++ (if jump then [{ op := .jump, next_bb := n }] else []) ∧ TRun A tcall 0 code t t' ∧
      Exit C V sp gp fofs (fun v => v ∈ B.liveOut ∧ Valued V live body phis v) st' s' t' := by
  rw [allocBlock_start V B jump _ K.start] at he
  split at he
  · cases he
  · rename_i st1 h1
    cases he
    have hofs : (allocEnd V B jump st1).offset = (spillLiveOut V B st1).offset := by
      unfold allocEnd; rw [hn]; simp only; split <;> rfl
    have hstk : (allocEnd V B jump st1).stack = (spillLiveOut V B st1).stack := by
      unfold allocEnd; rw [hn]; simp only; split <;> rfl
    have hto2 : To fofs (spillLiveOut V B st1) := by intro v; rw [← hofs]; exact hto v
    have hm : Mono st1 (spillLiveOut V B st1) := foldLiveOut_mono V B _ st1
    obtain ⟨c, t1, g1, g2, P, ha⟩ := block_front S K E hr h1 (hm.to hto2)
    obtain ⟨c', t2, q1, q2, q3, q4, q5, q6, q7⟩ := spillLiveOut_sim S P
      (out := fun v => v ∈ B.liveOut ∧ Valued V live body phis v)
      (fun v h1 _ => ⟨h1.1, h1.2.imp (fun h => h.elim (fun h => Or.inl (Or.inr h)) Or.inr) id⟩) hto2
    have hout : (spillLiveOut V B st1).out = c ++ c' := by rw [q1, g1, K.start.2.2]; rfl
    have g2' : TRun A tcall 0 c t t1 := by rw [K.start.2.2] at g2; exact g2
    have q2' : TRun A tcall (0 + c.length) c' t1 t2 := by
      have e : st1.out.length = 0 + c.length := by rw [g1, K.start.2.2]; simp
      rw [← e]; exact q2
    refine ⟨c ++ c', t2, ?_, TRun.append g2' q2', q3, ha, by rw [hofs]; exact q5, by rw [hofs]; exact q6, by rw [hstk]; exact q7⟩
    unfold allocEnd
    rw [hn]
    simp only
    cases jump with
    | false => simp only [Bool.false_eq_true, if_false, List.append_nil]; exact hout
    | true => simp only [if_true, RA.emit]; rw [hout]

/-- C57, blocks that end with a branch: straight-line code for the block, then the branch on the register that has the value. -/
theorem C57_block_branch_partial {br : Insn} {a : Nat} {jump : Bool} (S : Setup A tcall C V sp gp fofs)
    (K : BlockOk V B use live body phis st) (E : Entry C V sp gp fofs live st s t) (hn : B.next = none)
    (ho : br.op = .branch) (ha : br.rs1 = some a) (L : LastOk V B use live body phis a)
    (hr : SrcBlock.Run C (body ++ phis) s s') (he : allocBlock V B jump (body ++ phis ++ [br]) st = some st')
    (hto : ∀ v, st'.offset v ≠ 0 → st'.offset v = fofs v) :
    ∃ code ir t', st'.out = code ++ [ir] ∧ TRun A tcall 0 code t t' ∧ Exit C V sp gp fofs (fun v => v ∈ B.liveOut ∧ Valued V live body phis v) st' s' t' ∧
      ir.op = .branch ∧ ir.then_bb = B.then_ ∧ ir.else_bb = B.else_ ∧ ∃ k : BitVec 3, isReg ir.src0 k ∧ t'.reg k = rd C s' a := by
  rw [allocBlock_start V B jump _ K.start, allocInsns_append] at he
  cases h1 : allocInsns V B 0 (body ++ phis) st with
  | none => rw [h1] at he; cases he
  | some st1 =>
    rw [h1] at he
    simp only [allocInsns, allocInsn] at he
    have hl : 0 + (body ++ phis).length = body.length + phis.length := by simp
    rw [hl] at he
    have hrm : Mono st1 (RegAlloc.refresh B (body.length + phis.length : Nat) st1) := (Mono.closed st1).refresh B _ (Mono.refl st1)
    have hout := refresh_out B (body.length + phis.length : Nat) st1
    have hao : allocOp V B (body.length + phis.length : Nat) br (RegAlloc.refresh B (body.length + phis.length : Nat) st1) =
        some (allocBranch V B a (RegAlloc.refresh B (body.length + phis.length : Nat) st1)) := by
      unfold allocOp; rw [ho, ha]
    rw [hao] at he
    simp only [allocEnd, hn] at he
    cases he
    unfold allocBranch at hto ⊢
    simp only at hto ⊢
    have hofsr := refresh_offset B (body.length + phis.length : Nat) st1
    have m2 := mono_operand V B a none (RegAlloc.refresh B (body.length + phis.length : Nat) st1)
    have hto3 : To fofs (spillLiveOut V B (prepareOperand V B a none (RegAlloc.refresh B (body.length + phis.length : Nat) st1)).1) := hto
    have m3 : Mono (prepareOperand V B a none (RegAlloc.refresh B (body.length + phis.length : Nat) st1)).1
      (spillLiveOut V B (prepareOperand V B a none (RegAlloc.refresh B (body.length + phis.length : Nat) st1)).1) := foldLiveOut_mono V B _ _
    have hto2 := m3.to hto3
    obtain ⟨c, t1, g1, g2, P, hargs⟩ := block_front S K E hr h1 (hrm.to (m2.to hto2))
    -- the copies are not disturbed by fetching the operand
    have c1 : Ctl (· ∈ B.killed) st1.pushing st1.args st1.consumed (RegAlloc.refresh B (body.length + phis.length : Nat) st1) :=
      Ctl.refresh ⟨P.pk, rfl, rfl, rfl⟩ B _
    have R1 := P.rel.refresh
    have hTa : ¬ ∃ i ∈ phis, i.rd = some a := fun ⟨i, hi, e⟩ => L.noPhi i hi e
    have hpend : Pend B (RegAlloc.refresh B (body.length + phis.length : Nat) st1) (body.length + phis.length : Nat) a :=
      L.use_.imp id (fun h => by rw [c1.consumed]; exact Int.le_trans h (P.use_le a))
    have c2 := c1.operand V B a none
    have so := prepareOperand_sim' S (v := a) none R1 P.globT ⟨L.val, hTa⟩ hpend hto2
    generalize RegAlloc.refresh B (body.length + phis.length : Nat) st1 = st2 at *
    generalize prepareOperand V B a none st2 = ra at *
    obtain ⟨st3, r⟩ := ra
    simp only at *
    obtain ⟨cb, t2, o2, x2, R2, hr8, hrv, hrr, hro, hsl⟩ := so
    have P2 : PhiInv C V sp gp fofs B use (fun v => (V.isGlobal v = true ∨ live v) ∨ ∃ i ∈ body, result V i = some v)
        (fun v => ∃ i ∈ phis, i.rd = some v) (body.length + phis.length : Nat) st3 s' t2 := by
      refine ⟨R2, ?_, c2.pk, by rw [c2.consumed]; exact P.use_le, P.glob⟩
      intro v hv
      obtain ⟨q1, q2, q3, q4⟩ := P.target v hv
      have q3' : st2.offset v ≠ 0 := by rw [hofsr]; exact q3
      have q5 := m2.ne q3'
      refine ⟨q1, q2, q5, ?_⟩
      rw [hsl v q1 (by rw [← hto2 v q5]; exact q5) (fun j hj hp hjv => q2 (c1.pk j hj hp v hjv)), q4]
    obtain ⟨c', t3, q1, q2, q3, q4, q5, q6, q7⟩ := spillLiveOut_sim S P2
      (out := fun v => v ∈ B.liveOut ∧ Valued V live body phis v)
      (fun v h1 _ => ⟨h1.1, h1.2.imp (fun h => h.elim (fun h => Or.inl (Or.inr h)) Or.inr) id⟩) hto3
    refine ⟨(spillLiveOut V B st3).out, { op := .branch, src0 := num r, then_bb := B.then_, else_bb := B.else_ }, t3, rfl, ?_,
      ⟨q3, hargs, q5, q6, q7⟩, rfl, rfl, rfl, r3 r, isReg_num hr8, by rw [q4, hrr]⟩
    have g2' : TRun A tcall 0 c t t1 := by rw [K.start.2.2] at g2; exact g2
    have x2' : TRun A tcall (0 + c.length) cb t1 t2 := by
      have e : st2.out.length = 0 + c.length := by rw [hout, g1, K.start.2.2]; simp
      rw [← e]; exact x2
    have q2' : TRun A tcall (0 + (c ++ cb).length) c' t2 t3 := by
      have e : st3.out.length = 0 + (c ++ cb).length := by rw [o2, hout, g1, K.start.2.2]; simp
      rw [← e]; exact q2
    rw [q1, o2, hout, g1, K.start.2.2, List.nil_append]
    exact TRun.append (TRun.append g2' x2') q2'

/-- C57, blocks that return a value: the code before the return leaves the value in the register the return names, the frame
in place, and visible memory as the source says.  (Whatever follows the return is not executed.) -/
theorem C57_block_return_partial {re : Insn} {a : Nat} {jump : Bool} (S : Setup A tcall C V sp gp fofs)
    (K : BlockOk V B use live body phis st) (E : Entry C V sp gp fofs live st s t)
    (ho : re.op = .ret) (ha : re.rs1 = some a) (L : LastOk V B use live body phis a)
    (hr : SrcBlock.Run C (body ++ phis) s s') (he : allocBlock V B jump (body ++ phis ++ [re]) st = some st')
    (hto : ∀ v, st'.offset v ≠ 0 → st'.offset v = fofs v) :
    ∃ code ir rest t', st'.out = code ++ ir :: rest ∧ TRun A tcall 0 code t t' ∧ t'.sp = sp ∧ t'.gp = gp ∧
      (∀ x, ¬ C.hidden x → t'.mem x = s'.mem x) ∧ ir.op = .ret ∧ ∃ k : BitVec 3, isReg ir.src0 k ∧ t'.reg k = rd C s' a := by
  rw [allocBlock_start V B jump _ K.start, allocInsns_append] at he
  cases h1 : allocInsns V B 0 (body ++ phis) st with
  | none => rw [h1] at he; cases he
  | some st1 =>
    rw [h1] at he
    simp only [allocInsns, allocInsn] at he
    have hl : 0 + (body ++ phis).length = body.length + phis.length := by simp
    rw [hl] at he
    have hrm : Mono st1 (RegAlloc.refresh B (body.length + phis.length : Nat) st1) := (Mono.closed st1).refresh B _ (Mono.refl st1)
    have hout := refresh_out B (body.length + phis.length : Nat) st1
    have hao : allocOp V B (body.length + phis.length : Nat) re (RegAlloc.refresh B (body.length + phis.length : Nat) st1) =
        some (allocRet V B (some a) (RegAlloc.refresh B (body.length + phis.length : Nat) st1)) := by
      unfold allocOp; rw [ho, ha]
    rw [hao] at he
    simp only at he
    cases he
    obtain ⟨rest, hrest⟩ := allocEnd_out V B jump (allocRet V B (some a) (RegAlloc.refresh B (body.length + phis.length : Nat) st1))
    have hmE := allocEnd_mono V B jump (allocRet V B (some a) (RegAlloc.refresh B (body.length + phis.length : Nat) st1))
    have hto1 : To fofs (allocRet V B (some a) (RegAlloc.refresh B (body.length + phis.length : Nat) st1)) := hmE.to hto
    rw [hrest]
    unfold allocRet at hto1 ⊢
    simp only at hto1 ⊢
    have m2 := mono_operand V B a none (RegAlloc.refresh B (body.length + phis.length : Nat) st1)
    have hto2 : To fofs (prepareOperand V B a none (RegAlloc.refresh B (body.length + phis.length : Nat) st1)).1 := hto1
    obtain ⟨c, t1, g1, g2, P, _⟩ := block_front S K E hr h1 (hrm.to (m2.to hto2))
    have c1 : Ctl (· ∈ B.killed) st1.pushing st1.args st1.consumed (RegAlloc.refresh B (body.length + phis.length : Nat) st1) :=
      Ctl.refresh ⟨P.pk, rfl, rfl, rfl⟩ B _
    have R1 := P.rel.refresh
    have hTa : ¬ ∃ i ∈ phis, i.rd = some a := fun ⟨i, hi, e⟩ => L.noPhi i hi e
    have hpend : Pend B (RegAlloc.refresh B (body.length + phis.length : Nat) st1) (body.length + phis.length : Nat) a :=
      L.use_.imp id (fun h => by rw [c1.consumed]; exact Int.le_trans h (P.use_le a))
    have so := prepareOperand_sim' S (v := a) none R1 P.globT ⟨L.val, hTa⟩ hpend hto2
    clear hrest hmE hto hto1
    generalize RegAlloc.refresh B (body.length + phis.length : Nat) st1 = st2 at *
    generalize prepareOperand V B a none st2 = ra at *
    obtain ⟨st3, r⟩ := ra
    simp only at *
    obtain ⟨cb, t2, o2, x2, R2, hr8, hrv, hrr, hro, hsl⟩ := so
    refine ⟨st3.out, { op := .ret, src0 := num r }, rest, t2, ?_, ?_, R2.sp, R2.gp, R2.mem, rfl, r3 r, isReg_num hr8, hrr⟩
    · simp [RA.emit]
    · have g2' : TRun A tcall 0 c t t1 := by rw [K.start.2.2] at g2; exact g2
      have x2' : TRun A tcall (0 + c.length) cb t1 t2 := by
        have e : st2.out.length = 0 + c.length := by rw [hout, g1, K.start.2.2]; simp
        rw [← e]; exact x2
      rw [o2, hout, g1, K.start.2.2, List.nil_append]
      exact TRun.append g2' x2'

/-- C57, blocks that return without a value. -/
theorem C57_block_return_void_partial {re : Insn} {jump : Bool} (S : Setup A tcall C V sp gp fofs)
    (K : BlockOk V B use live body phis st) (E : Entry C V sp gp fofs live st s t)
    (ho : re.op = .ret) (ha : re.rs1 = none)
    (hr : SrcBlock.Run C (body ++ phis) s s') (he : allocBlock V B jump (body ++ phis ++ [re]) st = some st')
    (hto : ∀ v, st'.offset v ≠ 0 → st'.offset v = fofs v) :
    ∃ code ir rest t', st'.out = code ++ ir :: rest ∧ TRun A tcall 0 code t t' ∧ t'.sp = sp ∧ t'.gp = gp ∧
      (∀ x, ¬ C.hidden x → t'.mem x = s'.mem x) ∧ ir.op = .ret ∧ ir.src0 = -1#32 := by
  rw [allocBlock_start V B jump _ K.start, allocInsns_append] at he
  cases h1 : allocInsns V B 0 (body ++ phis) st with
  | none => rw [h1] at he; cases he
  | some st1 =>
    rw [h1] at he
    simp only [allocInsns, allocInsn] at he
    have hl : 0 + (body ++ phis).length = body.length + phis.length := by simp
    rw [hl] at he
    have hrm : Mono st1 (RegAlloc.refresh B (body.length + phis.length : Nat) st1) := (Mono.closed st1).refresh B _ (Mono.refl st1)
    have hout := refresh_out B (body.length + phis.length : Nat) st1
    have hao : allocOp V B (body.length + phis.length : Nat) re (RegAlloc.refresh B (body.length + phis.length : Nat) st1) =
        some (allocRet V B none (RegAlloc.refresh B (body.length + phis.length : Nat) st1)) := by
      unfold allocOp; rw [ho, ha]
    rw [hao] at he
    simp only at he
    cases he
    obtain ⟨rest, hrest⟩ := allocEnd_out V B jump (allocRet V B none (RegAlloc.refresh B (body.length + phis.length : Nat) st1))
    have hmE := allocEnd_mono V B jump (allocRet V B none (RegAlloc.refresh B (body.length + phis.length : Nat) st1))
    have hto1 : To fofs (RegAlloc.refresh B (body.length + phis.length : Nat) st1) := hmE.to hto
    rw [hrest]
    obtain ⟨c, t1, g1, g2, P, _⟩ := block_front S K E hr h1 (hrm.to hto1)
    have g2' : TRun A tcall 0 c t t1 := by rw [K.start.2.2] at g2; exact g2
    refine ⟨c, { op := .ret, src0 := -1#32 }, rest, t1, ?_, g2', P.rel.sp, P.rel.gp, P.rel.mem, rfl, rfl⟩
    simp only [allocRet, RA.emit]
    rw [hout, g1, K.start.2.2]
    simp

/-- Blocks described by the source and the results of the analyses alone: `BlockOk` with, in place of the condition on the
allocator's choices, at most six pending variables at a time and the other conditions of `Modest`. -/
structure SrcOk (V : Vars) (B : Block) (use : Nat → Int) (live : Nat → Prop) (body phis : List Insn) (st : RA) : Prop where
  grouped : Grouped V body
  uses : Uses V B use (fun v => V.isGlobal v = true ∨ live v) 0 body
  modest : AllModest V B (fun v => st.offset v ≠ 0) (fun v => ∃ i, i < 8 ∧ st.var i = some v) st.consumed 0 body
  phi : Phis V B use (fun v => (V.isGlobal v = true ∨ live v) ∨ ∃ i ∈ body, result V i = some v) (fun _ => False) body.length phis
  regs : ∀ i, i < 8 → ∀ v, st.var i = some v → v ∈ B.killed
  once : ∀ i j v, i < 8 → j < 8 → st.var i = some v → st.var j = some v → i = j
  used : ∀ v, use v ≤ st.consumed v
  start : st.pushing = false ∧ st.args = 0 ∧ st.out = []

/-- Six pending variables are few enough: two registers remain for operands, so no operand of an instruction is evicted by
another. -/
theorem C57_six_variables_suffice (K : SrcOk V B use live body phis st) : BlockOk V B use live body phis st :=
  ⟨K.grouped, K.uses,
    modest_noClash body
      ⟨⟨fun j hj v hv => ⟨j, hj, hv⟩, fun v hv => Or.inl hv⟩, rfl, fun _ => K.once⟩
      (grouped_inner K.grouped) (by rw [K.start.1]; exact grouped_push K.grouped) K.modest,
    K.phi, K.regs, K.used, K.start⟩

/-- Under pressure: loading the second operand does not evict the first one when another register holds a variable that is live at
the end of the block.  (When none does, it may: `RaWitness.C57_high_pressure_witness`.) -/
theorem C57_second_operand_spares_first (V : Vars) (B : Block) (st : RA) (v i u j w : Nat) (hu : st.var i = some u)
    (hj : j < 8) (hji : j ≠ i) (hw : st.var j = some w) (hl : w ∈ B.liveOut) :
    (prepareOperand V B v (some i) st).1.var i = some u := by
  have hload : ∀ k (st : RA), k ≠ i → st.var i = some u → (loadVar V v k st).var i = some u := by
    intro k st hk h
    simp only [loadVar, RA.setReg, RA.emit, upd]
    rw [if_neg (fun h => hk h.symm)]; exact h
  have hspill : ∀ k (st : RA), k ≠ i → st.var i = some u → (spillReg V k st).var i = some u := by
    intro k st hk h
    unfold spillReg
    split
    · exact h
    · unfold spillVar
      split
      · simp only [RA.setReg, RA.emit, upd]
        rw [if_neg (fun h => hk h.symm)]
        unfold RA.ensureSlot
        split <;> exact h
      · simp only [RA.clear, upd]
        rw [if_neg (fun h => hk h.symm)]; exact h
  unfold prepareOperand
  split
  · exact hu
  · split
    · rename_i k hk
      refine hload k st ?_ hu
      rintro rfl
      rw [(freeReg_some hk).2] at hu; cases hu
    · split
      · rename_i k hk
        have hki : k ≠ i := fun h => (liveOutReg_some hk).2.1 (by rw [h])
        exact hload k _ hki (hspill k st hki hu)
      · rename_i hk
        have := firstReg_none hk j hj
        simp [hw, hl, hji] at this

end

end Shecc.Props
