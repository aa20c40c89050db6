import Verif.Lemmas.ArmSim

namespace ARM
open Shecc Shecc.Arm

variable {c : Code}

theorem ofs_nonneg_of_size {x : CInt} {n m k : Nat} (b : CInt)
    (h : (if b.slt x then some n else if (0 : CInt).sle x then some m else none) = some k) (hb : 0 ≤ b.toInt) :
    0 ≤ x.toInt := by
  split at h
  · rename_i h1; rw [slt_iff] at h1; omega
  · split at h
    · rename_i h1
      rw [BitVec.sle_eq_decide, decide_eq_true_eq] at h1
      simpa using h1
    · cases h

theorem pc_add (cs idx : Word) (k : Nat) : atk (cs + idx) k = cs + (idx + BitVec.ofNat 32 (4 * k)) := by
  unfold atk; rw [BitVec.add_assoc]

theorem teq_state (m : State) (a d : Reg) :
    (stepv (.dp .teq true d a (.imm 0#12)) m).regs = m.regs ∧ (stepv (.dp .teq true d a (.imm 0#12)) m).mem = m.mem ∧
    condHolds 1#4 (stepv (.dp .teq true d a (.imm 0#12)) m).flags = !decide (m.regs a = 0#32) := by
  rw [sv_teq]
  exact ⟨rfl, rfl, teq_ne _ _⟩

/-- One IR instruction.  `hsz`: the sizing pass accepted the instruction; `hbr`: control falls through a branch into
the block it expects to follow. -/
theorem sim_insn (env : EmitEnv) (hbb : ∀ b, OfsOk (env.bbOfs b)) (hfn : ∀ n o, env.funcOfs n = some o → OfsOk o)
    (idx : CInt) (hidx : OfsOk idx) (ir : Ph2Ir) (ws : List CInt) (he : emit_ph2_ir env idx ir = some ws)
    (m : State) (hc : CodeAt c m.pc ws) (hpc : m.pc = env.codeStart + idx) (s t : IrM.State) (nxt : Word)
    (hn : nxt = m.pc + BitVec.ofNat 32 (4 * ws.length)) (hlen : idx.toNat + 4 * ws.length ≤ 262144)
    (hsz : ∃ n, sizeFlat target env.hardMulDiv ir = some n)
    (hbr : ir.op = .branch →
      nxt = env.codeStart + env.bbOfs (if ir.is_branch_detached then ir.then_bb else ir.else_bb))
    (hst : IrM.Step (armAbi env) ir nxt s t) (hr : Sim s m) : ∃ m', Reaches c m m' ∧ Sim t m' := by
  have comp : ∀ {d : BitVec 3} {f : State → Option Word} {g : State → IrM.Mem} {v : Word} {mem' : IrM.Mem},
      (∃ ws, emit_ph2_ir env idx ir = some ws ∧ ComputesMem ws (irReg d) f g) → f m = some v → g m = mem' →
      ∃ m', Reaches c m m' ∧ Sim { IrM.setReg s d v with
        callee := none
        mem := mem'
        pc := nxt } m' := by
    intro d f g v mem' ⟨ws', h1, h2⟩ hv hg
    rw [he] at h1
    simp only [Option.some.injEq] at h1
    subst h1
    exact rel_computes h2 hc hv hg hr hn
  have comp' : ∀ {d : BitVec 3} {f : State → Option Word} {v : Word},
      (∃ ws, emit_ph2_ir env idx ir = some ws ∧ Computes ws (irReg d) f) → f m = some v →
      ∃ m', Reaches c m m' ∧ Sim { IrM.setReg s d v with callee := none, pc := nxt } m' := by
    intro d f v h1 hv
    exact comp h1 hv hr.mem
  have wr : ∀ {f : State → IrM.Mem} {mem' : IrM.Mem},
      (∃ ws, emit_ph2_ir env idx ir = some ws ∧ Writes ws f) → f m = mem' →
      ∃ m', Reaches c m m' ∧ Sim { s with mem := mem', callee := none, pc := nxt } m' := by
    intro f mem' ⟨ws', h1, h2⟩ hv
    rw [he] at h1
    simp only [Option.some.injEq] at h1
    subst h1
    exact rel_writes h2 hc hv hr hn
  have p8 : (8#4 : Reg) ≠ 15#4 := by decide
  have nn0 : (ir.op = .address_of ∨ ir.op = .global_address_of ∨ ir.op = .load ∨ ir.op = .global_load) →
      0 ≤ ir.src0.toInt := by
    intro h
    obtain ⟨n, hsz⟩ := hsz
    rcases h with h | h | h | h <;>
      (simp only [sizeFlat, h, reduceCtorEq, if_false, target, Arm.sizeOf] at hsz
       exact ofs_nonneg_of_size _ hsz (by decide))
  have nn1 : (ir.op = .store ∨ ir.op = .global_store) → 0 ≤ ir.src1.toInt := by
    intro h
    obtain ⟨n, hsz⟩ := hsz
    rcases h with h | h <;>
      (simp only [sizeFlat, h, reduceCtorEq, if_false, target, Arm.sizeOf] at hsz
       exact ofs_nonneg_of_size _ hsz (by decide))
  cases hst with
  | @bin op d a b v hop hd ha hb hv hdm =>
    have hop' : ir.op = Props.opOfBin op := by
      revert hop; cases ir.op <;> cases op <;> simp [IrM.binOf, Props.opOfBin]
    by_cases hh : env.hardMulDiv = true ∨ (op ≠ .div ∧ op ≠ .mod)
    · have hmm : (if (IrM.divModOf op).isSome then (armAbi env).divMem s a b else s.mem) = s.mem := by
        rcases hh with hh | ⟨h1, h2⟩
        · simp [armAbi, hh]
        · cases op <;> simp_all [IrM.divModOf]
      rw [hmm]
      exact comp' (Props.C16_binary env idx ir d a b op hh ⟨hop', hd, ha, hb⟩) (by simp only [hr.reg]; exact hv)
    · have hh0 : env.hardMulDiv = false := by
        cases h : env.hardMulDiv
        · rfl
        · exact absurd (.inl h) hh
      have hod : op = .div ∨ op = .mod := by
        cases op <;> simp_all
      have hmm : (if (IrM.divModOf op).isSome then (armAbi env).divMem s a b else s.mem) =
          spill s.mem s.sp a b (s.reg a) (s.reg b) := by
        rcases hod with rfl | rfl <;> simp [armAbi, hh0, IrM.divModOf]
      rw [hmm]
      have hal : s.sp.toNat % 4 = 0 ∧ (op = .div → a ≠ b) := by
        rcases hod with rfl | rfl
        · rcases hdm .div rfl with h | h
          · rw [hh0] at h; cases h
          · exact ⟨h.1, fun _ => h.2 rfl⟩
        · rcases hdm .mod rfl with h | h
          · rw [hh0] at h; cases h
          · exact ⟨h.1, fun h => by cases h⟩
      by_cases hab : a = b
      · subst hab
        have : op = .mod := by
          rcases hod with rfl | rfl
          · exact absurd rfl (hal.2 rfl)
          · rfl
        subst this
        exact comp (Props.C14_mod_same env hh0 idx ir d a ⟨hop', hd, ha, hb⟩)
          (by simp only [hr.reg, hr.sp, if_pos hal.1]; exact hv) (by simp only [hr.reg, hr.sp, hr.mem])
      · exact comp (Props.C14_softdiv_partial env hh0 idx ir d a b op hod ⟨hop', hd, ha, hb⟩ hab)
          (by simp only [hr.reg, hr.sp, if_pos hal.1]; exact hv) (by simp only [hr.reg, hr.sp, hr.mem])
  | @un op d a hop hd ha =>
    refine comp' (Props.C16_unary env idx ir d a op ?_ hd ha) ?_
    · revert hop; cases ir.op <;> cases op <;> simp [IrM.unOf, Props.opOfUn]
    · simp only [hr.reg]
  | assign hop hd ha => exact comp' (Props.C16_assign env idx ir _ _ hop hd ha) (by simp only [hr.reg])
  | const hop hd => exact comp' (Props.C17_arm_constant env idx ir _ hop hd) rfl
  | data hop hd => exact comp' (Props.C17_arm_data_address env idx ir _ hop hd) rfl
  | addr hop hd =>
    exact comp' (Props.C17_arm_address env idx ir _ (.inl hop) hd (nn0 (.inl hop))) (by simp [hop, hr.sp])
  | gaddr hop hd =>
    exact comp' (Props.C17_arm_address env idx ir _ (.inr hop) hd (nn0 (.inr (.inl hop)))) (by simp [hop, hr.gp])
  | load hop hd =>
    exact comp' (emit_load env idx ir _ (.inl hop) hd (nn0 (.inr (.inr (.inl hop)))))
      (by simp [hop, hr.sp, load32_eq, hr.mem])
  | gload hop hd =>
    exact comp' (emit_load env idx ir _ (.inr hop) hd (nn0 (.inr (.inr (.inr hop)))))
      (by simp [hop, hr.gp, load32_eq, hr.mem])
  | store hop ha =>
    exact wr (emit_store env idx ir _ (.inl hop) ha (nn1 (.inl hop))) (by simp [hop, hr.sp, hr.mem, hr.reg])
  | gstore hop ha =>
    exact wr (emit_store env idx ir _ (.inr hop) ha (nn1 (.inr hop))) (by simp [hop, hr.gp, hr.mem, hr.reg])
  | read4 hop hs hd ha => exact comp' (emit_read4 env idx ir _ _ hop hd ha hs) (by simp [load32_eq, hr.mem, hr.reg])
  | read1 hop hs hd ha => exact comp' (emit_read1 env idx ir _ _ hop hd ha hs) (by simp [armAbi, hr.mem, hr.reg])
  | write4 hop hs ha hb => exact wr (emit_write4 env idx ir _ _ hop hs ha hb) (by simp [hr.mem, hr.reg])
  | write1 hop hs ha hb => exact wr (emit_write1 env idx ir _ _ hop hs ha hb) (by simp [hr.mem, hr.reg])
  | @addrFunc a t hop ht ha =>
    simp only [armAbi, Option.map_eq_some_iff] at ht
    obtain ⟨o, h1, rfl⟩ := ht
    exact wr (emit_addrFunc env idx ir _ o hop ha h1) (by simp [hr.mem, hr.reg])
  | @branch a hop ha =>
    have f := irReg_facts a
    replace hbr := hbr hop
    simp only [emit_ph2_ir, hop, show ir.src0 = _ from ha, ir_u32] at he
    split at he
    · rename_i hdet
      simp only [hdet, if_true] at hbr
      have hl3 : ws.length = 3 := by
        have : ∀ (a b d : Option CInt), emits [a, b, d] = some ws → ws.length = 3 := by
          intro a b d h
          cases a <;> cases b <;> cases d <;> simp [emits] at h
          subst h; rfl
        exact this _ _ _ he
      have hi8 : OfsOk (idx + 8) := by
        have h1 := hidx.1
        refine ⟨?_, ?_⟩ <;> rw [BitVec.toNat_add] <;> simp <;> omega
      obtain ⟨r1, r2, r3⟩ := rel_range (hbb ir.else_bb) hi8
      obtain ⟨hi, hl⟩ := instrAt (.cons' (di_teq (irReg a)) (.cons (dec_b 1#4 (by decide) 8 (by decide) (by decide)
        (by decide)) (.cons (dec_b 14#4 (by decide) _ r1 r2 r3) .nil))) he hc
      apply Ev.of_goto
      refine Ev.act hi 0 rfl ⟨by decide, f.2.2.2.2.2.2, trivial⟩ ?_
      obtain ⟨u1, u2, u3⟩ := teq_state m (irReg a) 0#4
      generalize stepv (.dp .teq true 0#4 (irReg a) (.imm 0#12)) m = u at *
      refine Ev.bc hi 1 3 rfl (by decide) (fun hb => Ev.now ?_) (fun hb => Ev.bout hi 2 rfl (fun _ => Ev.now ?_) ?_)
      · have hz : s.reg a ≠ 0#32 := by
          rw [u3] at hb; simpa [hr.regs] using hb
        refine sim_of (fun k => ?_) ?_ ?_ ?_ (fun v h => by cases h) ?_ ?_
        · simp [u1, hr.regs]
        · simp [u1, hr.r13]
        · simp [u1, hr.r12]
        · simp [u1, hr.r14]
        · simp [u2, hr.mem]
        · simp only [ne_eq, hz, not_false_eq_true, if_true, armAbi, goto_pc]
          rw [← hbr, hn, hl]; rfl
      · have hz : s.reg a = 0#32 := by
          rw [u3] at hb; simpa [hr.regs] using hb
        refine sim_of (fun k => ?_) ?_ ?_ ?_ (fun v h => by cases h) ?_ ?_
        · simp [u1, hr.regs]
        · simp [u1, hr.r13]
        · simp [u1, hr.r12]
        · simp [u1, hr.r14]
        · simp [u2, hr.mem]
        · simp only [ne_eq, hz, not_true_eq_false, if_false, armAbi, jumpTo_pc, hpc, pc_add]
          exact b_target ..
      · intro h; simp [condHolds] at h
    · rename_i hdet
      simp only [hdet, Bool.false_eq_true, if_false] at hbr
      have hl2 : ws.length = 2 := by
        have : ∀ (a b : Option CInt), emits [a, b] = some ws → ws.length = 2 := by
          intro a b h
          cases a <;> cases b <;> simp [emits] at h
          subst h; rfl
        exact this _ _ he
      have hi4 : OfsOk (idx + 4) := by
        have h1 := hidx.1
        refine ⟨?_, ?_⟩ <;> rw [BitVec.toNat_add] <;> simp <;> omega
      obtain ⟨r1, r2, r3⟩ := rel_range (hbb ir.then_bb) hi4
      obtain ⟨hi, hl⟩ := instrAt (.cons' (di_teq (irReg a)) (.cons (dec_b 1#4 (by decide) _ r1 r2 r3) .nil)) he hc
      apply Ev.of_goto
      refine Ev.act hi 0 rfl ⟨by decide, f.2.2.2.2.2.2, trivial⟩ ?_
      obtain ⟨u1, u2, u3⟩ := teq_state m (irReg a) 0#4
      generalize stepv (.dp .teq true 0#4 (irReg a) (.imm 0#12)) m = u at *
      refine Ev.bout hi 1 rfl (fun hb => Ev.now ?_) (fun hb => Ev.now ?_)
      · have hz : s.reg a ≠ 0#32 := by
          rw [u3] at hb; simpa [hr.regs] using hb
        refine sim_of (fun k => ?_) ?_ ?_ ?_ (fun v h => by cases h) ?_ ?_
        · simp [u1, hr.regs]
        · simp [u1, hr.r13]
        · simp [u1, hr.r12]
        · simp [u1, hr.r14]
        · simp [u2, hr.mem]
        · simp only [ne_eq, hz, not_false_eq_true, if_true, armAbi, jumpTo_pc, hpc, pc_add]
          exact b_target ..
      · have hz : s.reg a = 0#32 := by
          rw [u3] at hb; simpa [hr.regs] using hb
        refine sim_of (fun k => ?_) ?_ ?_ ?_ (fun v h => by cases h) ?_ ?_
        · simp [u1, hr.regs]
        · simp [u1, hr.r13]
        · simp [u1, hr.r12]
        · simp [u1, hr.r14]
        · simp [u2, hr.mem]
        · simp only [ne_eq, hz, not_true_eq_false, if_false, armAbi, goto_pc]
          rw [← hbr, hn, hl]; rfl
  | jump hop =>
    simp only [emit_ph2_ir, hop] at he
    obtain ⟨r1, r2, r3⟩ := rel_range (hbb ir.next_bb) hidx
    obtain ⟨hi, _⟩ := instrAt (.cons (dec_b 14#4 (by decide) _ r1 r2 r3) .nil) he hc
    apply Ev.of_goto
    refine Ev.bout hi 0 rfl (fun _ => Ev.now ?_) (fun h => by simp [condHolds] at h)
    refine sim_of (fun k => ?_) ?_ ?_ ?_ (fun v h => by cases h) ?_ ?_
    · simp [hr.regs]
    · simp [hr.r13]
    · simp [hr.r12]
    · simp [hr.r14]
    · simp [hr.mem]
    · simp only [armAbi, jumpTo_pc, atk_zero, hpc]
      exact b_target ..
  | @call t hop ht =>
    simp only [armAbi, Option.map_eq_some_iff] at ht
    obtain ⟨o, h1, rfl⟩ := ht
    simp only [emit_ph2_ir, hop, h1] at he
    obtain ⟨r1, r2, r3⟩ := rel_range (hfn _ _ h1) hidx
    obtain ⟨hi, hl⟩ := instrAt (.cons (dec_bl 14#4 (by decide) _ r1 r2 r3) .nil) he hc
    apply Ev.of_goto
    refine Ev.bl hi 0 rfl (Ev.now ?_)
    refine sim_of (fun k => ?_) ?_ ?_ ?_ (fun v h => by cases h) ?_ ?_
    · have f := irReg_facts k
      simp [set_regs, f, hr.regs]
    · simp [set_regs, hr.r13]
    · simp [set_regs, hr.r12]
    · simp [set_regs, hn, hl, atk]
    · simp [hr.mem]
    · simp only [jumpTo_pc, atk_zero, hpc]
      exact b_target ..
  | @loadFunc a hop ha =>
    have f := irReg_facts a
    simp only [emit_ph2_ir, hop, show ir.src0 = _ from ha, ir_u32] at he
    obtain ⟨hi, hl⟩ := instrAt (.cons' (dr_mov 14#4 (by decide) 8#4 (irReg a)) .nil) he hc
    apply Ev.of_goto
    refine Ev.act hi 0 rfl ⟨p8, by decide, f.2.2.2.2.2.2⟩ (Ev.now ?_)
    refine sim_of (fun k => ?_) ?_ ?_ ?_ (fun v h => ?_) ?_ ?_
    · have f := irReg_facts k
      simp [set_regs, f, hr.regs]
    · simp [set_regs, hr.r13]
    · simp [set_regs, hr.r12]
    · simp [set_regs, hr.r14]
    · simp only [Option.some.injEq] at h; simp [set_regs, hr.regs, h]
    · simp [hr.mem]
    · simp [hn, hl, atk]
  | @indirect t hop ht hal =>
    simp only [emit_ph2_ir, hop] at he
    obtain ⟨hi, hl⟩ := instrAt (.cons (dec_blx 14#4 (by decide) 8#4) .nil) he hc
    apply Ev.of_goto
    have e8 := hr.r8 ht
    refine Ev.blx hi 0 rfl p8 (by rw [e8]; exact hal) (Ev.now ?_)
    refine sim_of (fun k => ?_) ?_ ?_ ?_ (fun v h => by cases h) ?_ ?_
    · have f := irReg_facts k
      simp [set_regs, f, hr.regs]
    · simp [set_regs, hr.r13]
    · simp [set_regs, hr.r12]
    · simp [set_regs, hn, hl, atk]
    · simp [hr.mem]
    · simp [e8]
  | define hop =>
    simp only [emit_ph2_ir, hop] at he
    obtain ⟨hi, hl⟩ := instrAt (.cons (dt_sw 14#4 13#4 (-4) (by decide) (by decide))
      (.cons (dec_movw 14#4 (by decide) 8#4 _) (.cons (dec_movt 14#4 (by decide) 8#4 _)
      (.cons' (dr_sub 14#4 (by decide) 13#4 13#4 8#4) .nil)))) he hc
    apply Ev.of_goto
    refine Ev.act hi 0 rfl ⟨by decide, by decide⟩ (Ev.act hi 1 rfl p8 (Ev.act hi 2 rfl p8
      (Ev.act hi 3 rfl ⟨by decide, by decide, p8⟩ (Ev.now ?_))))
    refine sim_of (fun k => ?_) ?_ ?_ ?_ (fun v h => by cases h) ?_ ?_
    · have f := irReg_facts k
      simp [set_regs, f, hr.regs]
    · simp [set_regs, hr.r13, movwt _ 0#32]
    · simp [set_regs, hr.r12]
    · simp [set_regs, hr.r14]
    · have e : s.sp - (ir.src0 + 4#32) + ir.src0 = s.sp + -4#32 := by
        apply BitVec.eq_of_toInt_eq
        simp only [BitVec.toInt_add, BitVec.toInt_sub]
        have : (-4#32 : Word).toInt = -4 := by decide
        have : (4#32 : Word).toInt = 4 := by decide
        simp only [*, Int.bmod_def]
        omega
      simp only [armAbi, sv_sub, sv_movt, sv_movw, sv_str, set_mem, store32_mem, hr.mem, hr.r13, hr.r14]
      rw [show (4 : Word) = 4#32 from rfl, e]
      simp only [goto_mem, set_mem, store32_mem, hr.mem]
    · simp [hn, hl, atk]
  | @ret v t hop hv ht hal =>
    simp only [emit_ph2_ir, hop] at he
    have hi0 : ∃ b : BitVec 3, (∃ w, (if ir.src0 = -1 then mov_r AL r0 r0 else mov_r AL r0 ir.src0) = some w ∧
        decode w = some ⟨14#4, .dp .mov false 0#4 0#4 (.shImm (irReg b) 0#2 0#5)⟩) ∧ v = s.reg b := by
      rcases hv with ⟨h1, h2⟩ | ⟨a, h1, h2⟩
      · rw [if_pos (show ir.src0 = -1 from h1)]
        exact ⟨0, dr_mov 14#4 (by decide) 0#4 0#4, h2⟩
      · have hne : ir.src0 ≠ -1 := by
          rw [show ir.src0 = _ from h1]
          have : ∀ a : BitVec 3, (a.setWidth 32 : CInt) ≠ -1 := by decide
          exact this a
        rw [if_neg hne, show ir.src0 = _ from h1, ir_u32]
        exact ⟨a, dr_mov 14#4 (by decide) 0#4 (irReg a), h2⟩
    obtain ⟨b, hd0, rfl⟩ := hi0
    obtain ⟨hi, hl⟩ := instrAt (.cons' hd0 (.cons (dec_movw 14#4 (by decide) 8#4 _)
      (.cons (dec_movt 14#4 (by decide) 8#4 _) (.cons' (dr_add 14#4 (by decide) 13#4 13#4 8#4)
      (.cons (dt_lw 14#4 13#4 (-4) (by decide) (by decide)) (.cons (dec_blx 14#4 (by decide) 14#4) .nil)))))) he hc
    have fb := irReg_facts b
    apply Ev.of_goto
    refine Ev.act hi 0 rfl ⟨by decide, by decide, fb.2.2.2.2.2.2⟩ (Ev.act hi 1 rfl p8 (Ev.act hi 2 rfl p8
      (Ev.act hi 3 rfl ⟨by decide, by decide, p8⟩ (Ev.act hi 4 rfl ⟨by decide, by decide⟩ ?_))))
    have e : s.sp + (ir.src1 + 4#32) + -4#32 = s.sp + ir.src1 := by
      rw [BitVec.add_assoc, BitVec.add_assoc ir.src1]; simp
    have e14 : t = m.load32 (m.regs 13#4 + (ir.src1 + 4#32) + -4#32) := by
      rw [hr.r13, e, load32_eq, hr.mem, ht]; rfl
    refine Ev.blx hi 5 rfl (by decide) ?_ (Ev.now ?_)
    · simp [set_regs, movwt _ 0#32]
      rw [show (4294967292#32 : Word) = -4#32 from rfl, ← e14]; exact hal
    · refine sim_of (fun k => ?_) ?_ ?_ ?_ (fun v h => by cases h) ?_ ?_
      · have f := irReg_facts k
        by_cases hk : k = 0
        · subst hk
          have e0 : irReg 0#3 = 0#4 := by decide
          simp [set_regs, e0, hr.regs, IrM.setReg]
        · have : irReg k ≠ 0#4 := by revert hk; revert k; decide
          have hk' : ¬ k = 0#3 := hk
          simp [set_regs, f, hr.regs, IrM.setReg, this, hk']
      · simp [set_regs, hr.r13, movwt _ 0#32, IrM.setReg]
      · simp [set_regs, hr.r12, IrM.setReg]
      · simp [set_regs, hn, hl, atk, armAbi]
      · simp [hr.mem, IrM.setReg]
      · simp [set_regs, movwt _ 0#32]
        rw [show (4294967292#32 : Word) = -4#32 from rfl, ← e14]

end ARM
