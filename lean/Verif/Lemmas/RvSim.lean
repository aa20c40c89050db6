import Verif.Props.RvAlu
import Verif.Lemmas.Layout
import Verif.Spec.IrMachine

/-! Simulation of second-phase IR by the emitted RISC-V code, one instruction at a time. -/

namespace RV32
open Shecc Shecc.Riscv

variable {c : Code} {base : Word} {is : List Instr} {P : State → Prop} {s : State}

def jumpTo (p : Word) (s : State) : State := { s with pc := p }
@[simp] theorem jumpTo_get (p : Word) (s : State) (q : Reg) : (jumpTo p s).get q = s.get q := rfl
@[simp] theorem jumpTo_mem (p : Word) (s : State) : (jumpTo p s).mem = s.mem := rfl
@[simp] theorem jumpTo_pc (p : Word) (s : State) : (jumpTo p s).pc = p := rfl

theorem Ev.jal (h : InstrAt c base is) (k : Nat) {rd : Reg} {ofs : Word} (hk : is[k]? = some (.jal rd ofs))
    (hn : Ev c (jumpTo (atk base k + ofs) (s.set rd (atk base (k + 1)))) P) : Ev c (goto base k s) P := by
  refine Ev.step (h.step k hk rfl) ?_
  have : ({ (goto base k s).set rd ((goto base k s).pc + 4) with pc := (goto base k s).pc + ofs } : State) =
      jumpTo (atk base k + ofs) (s.set rd (atk base (k + 1))) := by
    simp only [set_goto, goto_pc, atk_succ]; rfl
  rw [this]; exact hn

theorem Ev.jalr (h : InstrAt c base is) (k : Nat) {rd a : Reg} {ofs : Word} (hk : is[k]? = some (.jalr rd a ofs))
    (hn : Ev c (jumpTo ((s.get a + ofs) &&& 0xFFFFFFFE#32) (s.set rd (atk base (k + 1)))) P) :
    Ev c (goto base k s) P := by
  refine Ev.step (h.step k hk rfl) ?_
  have : ({ (goto base k s).set rd ((goto base k s).pc + 4) with
      pc := ((goto base k s).get a + ofs) &&& 0xFFFFFFFE#32 } : State) =
      jumpTo ((s.get a + ofs) &&& 0xFFFFFFFE#32) (s.set rd (atk base (k + 1))) := by
    simp only [set_goto, goto_pc, goto_get, atk_succ]; rfl
  rw [this]; exact hn

theorem and_fffe {x : Word} (h : x.toNat % 4 = 0) : x &&& 0xFFFFFFFE#32 = x := by
  have e : x = (x &&& 0xFFFFFFFE#32) + (x &&& 1#32) := by
    rw [BitVec.add_eq_or_of_and_eq_zero]
    · rw [← BitVec.and_or_distrib_left]; exact (BitVec.and_allOnes (x := x)).symm
    · rw [BitVec.and_comm x 1#32, ← BitVec.and_assoc, BitVec.and_assoc x]; simp
  have h1 : x &&& 1#32 = 0#32 := by
    apply BitVec.eq_of_toNat_eq
    rw [BitVec.toNat_and, show (1#32).toNat = 2 ^ 1 - 1 by decide, Nat.and_two_pow_sub_one_eq_mod]
    simp; omega
  rw [h1] at e
  simpa using e.symm

theorem store32_mem (m : State) (a v : Word) : (m.store32 a v).mem = IrM.store32 m.mem a v := rfl
theorem store8_mem (m : State) (a : Word) (v : BitVec 8) : (m.store8 a v).mem = IrM.store8 m.mem a v := rfl
@[simp] theorem store32_get (m : State) (a v : Word) (q : Reg) : (m.store32 a v).get q = m.get q := rfl
@[simp] theorem store8_get (m : State) (a : Word) (v : BitVec 8) (q : Reg) : (m.store8 a v).get q = m.get q := rfl
theorem load32_eq (m : State) (a : Word) : m.load32 a = IrM.load32 m.mem a := rfl

/-- IR-visible registers are not temporaries. -/
theorem sys_facts : scratch 1#5 = false ∧ scratch 2#5 = false ∧ scratch 3#5 = false := by decide

theorem rel_computes {ws : List Word} {d : BitVec 3} {f : State → Option Word} (hcomp : Computes ws (irReg d) f)
    {m : State} {s : IrM.State} {v nxt : Word} (hc : CodeAt c m.pc ws) (hv : f m = some v) (hr : Sim s m)
    (hn : nxt = m.pc + BitVec.ofNat 32 (4 * ws.length)) :
    ∃ m', Reaches c m m' ∧ Sim { IrM.setReg s d v with callee := none, pc := nxt } m' := by
  obtain ⟨t, r, p1, p2, p3, p4⟩ := hcomp c m v hc hv
  have hd := irReg_facts d
  refine ⟨t, r, ?_, ?_, ?_, ?_, ?_, ?_, ?_⟩
  · intro k
    simp only [IrM.setReg]
    by_cases hk : k = d
    · subst hk; simp [p2]
    · rw [p3 (irReg k) (by rw [Ne, irReg_inj]; exact hk) (scratch_irReg k), hr.reg]; simp [hk]
  · rw [p3 _ hd.2.2.1.symm sys_facts.2.1]; exact hr.sp
  · rw [p3 _ hd.2.2.2.1.symm sys_facts.2.2]; exact hr.gp
  · rw [p3 _ hd.2.1.symm sys_facts.1]; exact hr.ra
  · intro v h; cases h
  · rw [p4]; exact hr.mem
  · rw [p1, hn]

/-- An instruction that changes memory only. -/
def Writes (ws : List Word) (f : State → IrM.Mem) : Prop :=
  ∀ (c : Code) (s : State), CodeAt c s.pc ws →
    ∃ t, Reaches c s t ∧ t.pc = s.pc + BitVec.ofNat 32 (4 * ws.length) ∧
      (∀ q, scratch q = false → t.get q = s.get q) ∧ t.mem = f s

theorem writes_of {o : Option (List CInt)} {is : List Instr} (hd : Decodes o is) {f : State → IrM.Mem}
    (H : ∀ c s, InstrAt c s.pc is → Ev c (goto s.pc 0 s) fun t => t.pc = atk s.pc is.length ∧
      (∀ q, scratch q = false → t.get q = s.get q) ∧ t.mem = f s) :
    ∃ ws, o = some ws ∧ Writes ws f := by
  obtain ⟨ws, h1, h2⟩ := hd
  refine ⟨ws, h1, fun c s hc => ?_⟩
  obtain ⟨t, r, p1, p2⟩ := H c s (.of_code hc h2)
  rw [goto_self] at r
  have hl : ws.length = is.length := by simpa using congrArg List.length h2
  exact ⟨t, r, by rw [p1, hl]; rfl, p2⟩

theorem rel_writes {ws : List Word} {f : State → IrM.Mem} (hcomp : Writes ws f)
    {m : State} {s : IrM.State} {nxt : Word} {mem' : IrM.Mem} (hc : CodeAt c m.pc ws) (hf : f m = mem') (hr : Sim s m)
    (hn : nxt = m.pc + BitVec.ofNat 32 (4 * ws.length)) :
    ∃ m', Reaches c m m' ∧ Sim { s with mem := mem', callee := none, pc := nxt } m' := by
  obtain ⟨t, r, p1, p3, p4⟩ := hcomp c m hc
  refine ⟨t, r, ?_, ?_, ?_, ?_, ?_, ?_, ?_⟩
  · intro k; rw [p3 (irReg k) (scratch_irReg k), hr.reg]
  · rw [p3 _ sys_facts.2.1]; exact hr.sp
  · rw [p3 _ sys_facts.2.2]; exact hr.gp
  · rw [p3 _ sys_facts.1]; exact hr.ra
  · intro v h; cases h
  · rw [p4]; exact hf
  · rw [p1, hn]

/-! ### memory instructions -/

theorem emit_load (env : EmitEnv) (idx : CInt) (ir : Ph2Ir) (d : BitVec 3)
    (h1 : ir.op = .load ∨ ir.op = .global_load) (h2 : ir.dest = d.setWidth 32) :
    ∃ ws, emit_ph2_ir env idx ir = some ws ∧ Computes ws (irReg d)
      (fun s => some (s.load32 (s.get (if ir.op = .load then 2#5 else 3#5) + ir.src0))) := by
  have hd := (irReg_facts d).1
  have key : ∀ base : Reg, base ≠ 5#5 →
      ∃ ws, (if big ir.src0 then
      emits [some (lui (r32 5#5) (rv_hi ir.src0)), addi (r32 5#5) (r32 5#5) (rv_lo ir.src0),
        some (add (r32 5#5) (r32 base) (r32 5#5)), lw (r32 (irReg d)) (r32 5#5) 0]
    else emits [lw (r32 (irReg d)) (r32 base) ir.src0]) = some ws ∧
      Computes ws (irReg d) (fun s => some (s.load32 (s.get base + ir.src0))) := by
    intro base hbase
    split
    · obtain ⟨hl1, hl2⟩ := lo_range ir.src0
      refine computes_of (.cons (dec_lui ..) (.cons' (dec_addi _ _ _ hl1 hl2) (.cons (dec_add ..)
        (.cons' (dec_lw _ _ _ (by decide) (by decide)) .nil)))) fun c s v hc hv => ?_
      refine Ev.lui hc 0 rfl (Ev.i hc 1 rfl (Ev.r hc 2 rfl (Ev.lw hc 3 rfl (Ev.now ⟨rfl, ?_, ?_, ?_⟩))))
      · simp only [Option.some.injEq] at hv
        rw [← hv]; simp [get_set, hd, aluI, aluR, hi_lo, hbase, load32_eq]
      · intro q q1 q2; have := not_scratch q2; simp [get_set, q1, this]
      · simp
    · rename_i hb
      obtain ⟨hl1, hl2⟩ := not_big (by simpa using hb)
      refine computes_of (.cons' (dec_lw _ _ _ hl1 hl2) .nil) fun c s v hc hv => ?_
      refine Ev.lw hc 0 rfl (Ev.now ⟨rfl, ?_, ?_, ?_⟩)
      · simp only [Option.some.injEq] at hv
        rw [← hv]; simp [get_set, hd]
      · intro q q1 _; simp [get_set, q1]
      · simp
  rcases h1 with h1 | h1 <;> simp only [emit_ph2_ir, h1, h2, ir_r32, sp_r32, gp_r32, t0_r32, if_true, reduceCtorEq,
    if_false]
  · exact key 2#5 (by decide)
  · exact key 3#5 (by decide)

theorem emit_store (env : EmitEnv) (idx : CInt) (ir : Ph2Ir) (a : BitVec 3)
    (h1 : ir.op = .store ∨ ir.op = .global_store) (h2 : ir.src0 = a.setWidth 32) :
    ∃ ws, emit_ph2_ir env idx ir = some ws ∧ Writes ws
      (fun s => IrM.store32 s.mem (s.get (if ir.op = .store then 2#5 else 3#5) + ir.src1) (s.get (irReg a))) := by
  obtain ⟨_, _, _, _, h5, _⟩ := irReg_facts a
  have key : ∀ base : Reg, base ≠ 5#5 →
      ∃ ws, (if big ir.src1 then
      emits [some (lui (r32 5#5) (rv_hi ir.src1)), addi (r32 5#5) (r32 5#5) (rv_lo ir.src1),
        some (add (r32 5#5) (r32 base) (r32 5#5)), sw (r32 (irReg a)) (r32 5#5) 0]
    else emits [sw (r32 (irReg a)) (r32 base) ir.src1]) = some ws ∧
      Writes ws (fun s => IrM.store32 s.mem (s.get base + ir.src1) (s.get (irReg a))) := by
    intro base hbase
    split
    · obtain ⟨hl1, hl2⟩ := lo_range ir.src1
      refine writes_of (.cons (dec_lui ..) (.cons' (dec_addi _ _ _ hl1 hl2) (.cons (dec_add ..)
        (.cons' (dec_sw _ _ _ (by decide) (by decide)) .nil)))) fun c s hc => ?_
      refine Ev.lui hc 0 rfl (Ev.i hc 1 rfl (Ev.r hc 2 rfl (Ev.sw hc 3 rfl (Ev.now ⟨rfl, ?_, ?_⟩))))
      · intro q q2; have := not_scratch q2; simp [get_set, this]
      · simp [store32_mem, get_set, aluI, aluR, hi_lo, hbase, h5]
    · rename_i hb
      obtain ⟨hl1, hl2⟩ := not_big (by simpa using hb)
      refine writes_of (.cons' (dec_sw _ _ _ hl1 hl2) .nil) fun c s hc => ?_
      exact Ev.sw hc 0 rfl (Ev.now ⟨rfl, fun q _ => rfl, rfl⟩)
  rcases h1 with h1 | h1 <;> simp only [emit_ph2_ir, h1, h2, ir_r32, sp_r32, gp_r32, t0_r32, if_true, reduceCtorEq,
    if_false]
  · exact key 2#5 (by decide)
  · exact key 3#5 (by decide)

theorem emit_read4 (env : EmitEnv) (idx : CInt) (ir : Ph2Ir) (d a : BitVec 3)
    (h1 : ir.op = .read) (h2 : ir.dest = d.setWidth 32) (h3 : ir.src0 = a.setWidth 32) (h4 : ir.src1 = 4#32) :
    ∃ ws, emit_ph2_ir env idx ir = some ws ∧ Computes ws (irReg d) (fun s => some (s.load32 (s.get (irReg a)))) := by
  have hd := (irReg_facts d).1
  simp only [emit_ph2_ir, h1, h2, h3, h4, ir_r32]
  rw [if_neg (by decide), if_pos (by decide)]
  refine computes_of (.cons' (dec_lw _ _ _ (by decide) (by decide)) .nil) fun c s v hc hv => ?_
  refine Ev.lw hc 0 rfl (Ev.now ⟨rfl, ?_, ?_, ?_⟩)
  · simp only [Option.some.injEq] at hv
    rw [← hv]; simp [get_set, hd]
  · intro q q1 _; simp [get_set, q1]
  · simp

theorem emit_read1 (env : EmitEnv) (idx : CInt) (ir : Ph2Ir) (d a : BitVec 3)
    (h1 : ir.op = .read) (h2 : ir.dest = d.setWidth 32) (h3 : ir.src0 = a.setWidth 32) (h4 : ir.src1 = 1#32) :
    ∃ ws, emit_ph2_ir env idx ir = some ws ∧
      Computes ws (irReg d) (fun s => some ((s.mem (s.get (irReg a))).signExtend 32)) := by
  have hd := (irReg_facts d).1
  simp only [emit_ph2_ir, h1, h2, h3, h4, ir_r32]
  rw [if_pos (by decide)]
  refine computes_of (.cons' (dec_lb _ _ _ (by decide) (by decide)) .nil) fun c s v hc hv => ?_
  refine Ev.lb hc 0 rfl (Ev.now ⟨rfl, ?_, ?_, ?_⟩)
  · simp only [Option.some.injEq] at hv
    rw [← hv]; simp [get_set, hd, State.load8]
  · intro q q1 _; simp [get_set, q1]
  · simp

theorem emit_write4 (env : EmitEnv) (idx : CInt) (ir : Ph2Ir) (a b : BitVec 3)
    (h1 : ir.op = .write) (h2 : ir.dest = 4#32) (h3 : ir.src0 = a.setWidth 32) (h4 : ir.src1 = b.setWidth 32) :
    ∃ ws, emit_ph2_ir env idx ir = some ws ∧
      Writes ws (fun s => IrM.store32 s.mem (s.get (irReg a)) (s.get (irReg b))) := by
  simp only [emit_ph2_ir, h1, h2, h3, h4, ir_r32]
  rw [if_neg (by decide), if_pos (by decide)]
  refine writes_of (.cons' (dec_sw _ _ _ (by decide) (by decide)) .nil) fun c s hc => ?_
  exact Ev.sw hc 0 rfl (Ev.now ⟨rfl, fun q _ => rfl, by simp [store32_mem]⟩)

theorem emit_write1 (env : EmitEnv) (idx : CInt) (ir : Ph2Ir) (a b : BitVec 3)
    (h1 : ir.op = .write) (h2 : ir.dest = 1#32) (h3 : ir.src0 = a.setWidth 32) (h4 : ir.src1 = b.setWidth 32) :
    ∃ ws, emit_ph2_ir env idx ir = some ws ∧
      Writes ws (fun s => IrM.store8 s.mem (s.get (irReg a)) ((s.get (irReg b)).setWidth 8)) := by
  simp only [emit_ph2_ir, h1, h2, h3, h4, ir_r32]
  rw [if_pos (by decide)]
  refine writes_of (.cons' (dec_sb _ _ _ (by decide) (by decide)) .nil) fun c s hc => ?_
  exact Ev.sb hc 0 rfl (Ev.now ⟨rfl, fun q _ => rfl, by simp [store8_mem]⟩)

theorem emit_addrFunc (env : EmitEnv) (idx : CInt) (ir : Ph2Ir) (a : BitVec 3) (o : CInt)
    (h1 : ir.op = .address_of_func) (h3 : ir.src0 = a.setWidth 32) (h4 : env.funcOfs ir.func_name = some o) :
    ∃ ws, emit_ph2_ir env idx ir = some ws ∧
      Writes ws (fun s => IrM.store32 s.mem (s.get (irReg a)) (env.codeStart + o)) := by
  obtain ⟨_, _, _, _, h5, _⟩ := irReg_facts a
  simp only [emit_ph2_ir, h1, h3, h4, ir_r32, t0_r32]
  obtain ⟨hl1, hl2⟩ := lo_range (env.codeStart + o)
  refine writes_of (.cons (dec_lui ..) (.cons' (dec_addi _ _ _ hl1 hl2)
    (.cons' (dec_sw _ _ _ (by decide) (by decide)) .nil))) fun c s hc => ?_
  refine Ev.lui hc 0 rfl (Ev.i hc 1 rfl (Ev.sw hc 2 rfl (Ev.now ⟨rfl, ?_, ?_⟩)))
  · intro q q2; have := not_scratch q2; simp [get_set, this]
  · simp [store32_mem, get_set, aluI, hi_lo, h5]

/-! ### control transfer -/

/-- An offset inside the code section: a multiple of 4 below 2^19. -/
def OfsOk (o : CInt) : Prop := o.toNat % 4 = 0 ∧ o.toNat ≤ 262144

theorem rel_range {a b : CInt} (ha : OfsOk a) (hb : OfsOk b) :
    -2 ^ 20 ≤ (a - b).toInt ∧ (a - b).toInt < 2 ^ 20 ∧ (a - b).toInt % 2 = 0 := by
  have hc := toInt_cases (a - b)
  have e : (a - b).toNat = (2 ^ 32 - b.toNat + a.toNat) % 2 ^ 32 := BitVec.toNat_sub ..
  obtain ⟨a1, a2⟩ := ha
  obtain ⟨b1, b2⟩ := hb
  have := (a - b).isLt
  omega

theorem jal_target (cs a b : Word) : cs + b + (a - b) = cs + a := by
  rw [BitVec.add_assoc, BitVec.add_comm b, BitVec.sub_add_cancel]

theorem instrAt {o : Option (List CInt)} {is : List Instr} {ws : List CInt} (hd : Decodes o is) (ho : o = some ws)
    {m : State} (hc : CodeAt c m.pc ws) : InstrAt c m.pc is ∧ ws.length = is.length := by
  obtain ⟨ws', h1, h2⟩ := hd
  rw [ho] at h1
  simp only [Option.some.injEq] at h1
  subst h1
  exact ⟨.of_code hc h2, by simpa using congrArg List.length h2⟩

theorem Ev.of_goto {m : State} {P : State → Prop} (h : Ev c (goto m.pc 0 m) P) : ∃ m', Reaches c m m' ∧ P m' := by
  rw [goto_self] at h; exact h

/-- One IR instruction. -/
theorem sim_insn (env : EmitEnv) (hbb : ∀ b, OfsOk (env.bbOfs b)) (hfn : ∀ n o, env.funcOfs n = some o → OfsOk o)
    (hcs : env.codeStart.toNat % 4 = 0) (idx : CInt) (hidx : OfsOk idx)
    (ir : Ph2Ir) (ws : List CInt) (he : emit_ph2_ir env idx ir = some ws) (m : State) (hc : CodeAt c m.pc ws)
    (hpc : m.pc = env.codeStart + idx) (s t : IrM.State) (nxt : Word)
    (hn : nxt = m.pc + BitVec.ofNat 32 (4 * ws.length)) (hlen : idx.toNat + 4 * ws.length ≤ 262144)
    (hst : IrM.Step (rvAbi env) ir nxt s t) (hr : Sim s m) : ∃ m', Reaches c m m' ∧ Sim t m' := by
  have al : ∀ o, OfsOk o → (env.codeStart + o).toNat % 4 = 0 := by
    intro o ho
    have := ho.1
    rw [BitVec.toNat_add]; omega
  have comp : ∀ {d : BitVec 3} {f : State → Option Word} {v : Word},
      (∃ ws, emit_ph2_ir env idx ir = some ws ∧ Computes ws (irReg d) f) → f m = some v →
      ∃ m', Reaches c m m' ∧ Sim { IrM.setReg s d v with callee := none, pc := nxt } m' := by
    intro d f v ⟨ws', h1, h2⟩ hv
    rw [he] at h1
    simp only [Option.some.injEq] at h1
    subst h1
    exact rel_computes h2 hc hv hr hn
  have wr : ∀ {f : State → IrM.Mem} {mem' : IrM.Mem},
      (∃ ws, emit_ph2_ir env idx ir = some ws ∧ Writes ws f) → f m = mem' →
      ∃ m', Reaches c m m' ∧ Sim { s with mem := mem', callee := none, pc := nxt } m' := by
    intro f mem' ⟨ws', h1, h2⟩ hv
    rw [he] at h1
    simp only [Option.some.injEq] at h1
    subst h1
    exact rel_writes h2 hc hv hr hn
  cases hst with
  | @bin op d a b v hop hd ha hb hv hm =>
    have hmm : (if (IrM.divModOf op).isSome then (rvAbi env).divMem s a b else s.mem) = s.mem := by
      split <;> rfl
    rw [hmm]
    refine comp (Props.C15_binary env idx ir d a b op ⟨?_, hd, ha, hb⟩) ?_
    · revert hop; cases ir.op <;> cases op <;> simp [IrM.binOf, Props.opOfBin]
    · simp only [hr.reg]; exact hv
  | @un op d a hop hd ha =>
    refine comp (Props.C15_unary env idx ir d a op ?_ hd ha) ?_
    · revert hop; cases ir.op <;> cases op <;> simp [IrM.unOf, Props.opOfUn]
    · simp only [hr.reg]
  | assign hop hd ha => exact comp (Props.C15_assign env idx ir _ _ hop hd ha) (by simp only [hr.reg])
  | const hop hd => exact comp (Props.C17_rv_constant env idx ir _ hop hd) rfl
  | data hop hd => exact comp (Props.C17_rv_data_address env idx ir _ hop hd) rfl
  | addr hop hd => exact comp (Props.C17_rv_address env idx ir _ (.inl hop) hd) (by simp [hop, hr.sp])
  | gaddr hop hd => exact comp (Props.C17_rv_address env idx ir _ (.inr hop) hd) (by simp [hop, hr.gp])
  | load hop hd => exact comp (emit_load env idx ir _ (.inl hop) hd) (by simp [hop, hr.sp, load32_eq, hr.mem])
  | gload hop hd => exact comp (emit_load env idx ir _ (.inr hop) hd) (by simp [hop, hr.gp, load32_eq, hr.mem])
  | store hop ha => exact wr (emit_store env idx ir _ (.inl hop) ha) (by simp [hop, hr.sp, hr.mem, hr.reg])
  | gstore hop ha => exact wr (emit_store env idx ir _ (.inr hop) ha) (by simp [hop, hr.gp, hr.mem, hr.reg])
  | read4 hop hs hd ha => exact comp (emit_read4 env idx ir _ _ hop hd ha hs) (by simp [load32_eq, hr.mem, hr.reg])
  | read1 hop hs hd ha => exact comp (emit_read1 env idx ir _ _ hop hd ha hs) (by simp [rvAbi, hr.mem, hr.reg])
  | write4 hop hs ha hb => exact wr (emit_write4 env idx ir _ _ hop hs ha hb) (by simp [hr.mem, hr.reg])
  | write1 hop hs ha hb => exact wr (emit_write1 env idx ir _ _ hop hs ha hb) (by simp [hr.mem, hr.reg])
  | @addrFunc a t hop ht ha =>
    simp only [rvAbi, Option.map_eq_some_iff] at ht
    obtain ⟨o, h1, rfl⟩ := ht
    exact wr (emit_addrFunc env idx ir _ o hop ha h1) (by simp [hr.mem, hr.reg])
  | @branch a hop ha =>
    simp only [emit_ph2_ir, hop, show ir.src0 = _ from ha, ir_r32, t0_r32, zero_r32] at he
    have hob := hbb ir.then_bb
    have hoe := hbb ir.else_bb
    generalize hB : env.codeStart + env.bbOfs ir.then_bb = B at he
    obtain ⟨hl1, hl2⟩ := lo_range B
    have hlen5 : ws.length = 5 := by
      have : ∀ (a b c d e : Option CInt), emits [a, b, c, d, e] = some ws → ws.length = 5 := by
        intro a b c d e h
        cases a <;> cases b <;> cases c <;> cases d <;> cases e <;> simp [emits] at h
        subst h; rfl
      exact this _ _ _ _ _ he
    have hi16 : OfsOk (idx + 16) := by
      have h1 := hidx.1
      refine ⟨?_, ?_⟩ <;> rw [BitVec.toNat_add] <;> simp <;> omega
    obtain ⟨r1, r2, r3⟩ := rel_range hoe hi16
    obtain ⟨hi, _⟩ := instrAt (.cons (dec_lui ..) (.cons' (dec_addi _ _ _ hl1 hl2)
      (.cons' (dec_beq _ _ _ (by decide) (by decide) (by decide)) (.cons' (dec_jalr _ _ _ (by decide) (by decide))
      (.cons (dec_jal _ _ r1 r2 r3) .nil))))) he hc
    have f := irReg_facts a
    apply Ev.of_goto
    refine Ev.lui hi 0 rfl (Ev.i hi 1 rfl (Ev.br hi 2 4 rfl (by decide) (fun hb => ?_) (fun hb => ?_)))
    · refine Ev.jal hi 4 rfl (Ev.now ?_)
      have hz : s.reg a = 0#32 := by
        simpa [brCond, get_set, f, hr.reg] using hb
      constructor
      · intro k; have g := irReg_facts k; simp [get_set, g, hr.reg]
      · simp [get_set, hr.sp]
      · simp [get_set, hr.gp]
      · simp [get_set, hr.ra]
      · intro v h; cases h
      · simp [hr.mem]
      · simp only [hz, ne_eq, not_true_eq_false, if_false, rvAbi, hpc]
        have : atk (env.codeStart + idx) 4 = env.codeStart + (idx + 16) := by
          unfold atk; rw [BitVec.add_assoc]; rfl
        rw [this, jal_target]; rfl
    · refine Ev.jalr hi 3 rfl (Ev.now ?_)
      have hz : s.reg a ≠ 0#32 := by
        simpa [brCond, get_set, f, hr.reg] using hb
      constructor
      · intro k; have g := irReg_facts k; simp [get_set, g, hr.reg]
      · simp [get_set, hr.sp]
      · simp [get_set, hr.gp]
      · simp [get_set, hr.ra]
      · intro v h; cases h
      · simp [hr.mem]
      · simp only [ne_eq, hz, not_false_eq_true, if_true, rvAbi]
        have : B.toNat % 4 = 0 := by rw [← hB]; exact al _ hob
        simp [get_set, aluI, hi_lo, and_fffe this, hB]
  | jump hop =>
    simp only [emit_ph2_ir, hop, zero_r32] at he
    obtain ⟨r1, r2, r3⟩ := rel_range (hbb ir.next_bb) hidx
    obtain ⟨hi, _⟩ := instrAt (.cons (dec_jal _ _ r1 r2 r3) .nil) he hc
    apply Ev.of_goto
    refine Ev.jal hi 0 rfl (Ev.now ?_)
    constructor
    · intro k; have g := irReg_facts k; simp [get_set, hr.reg]
    · simp [get_set, hr.sp]
    · simp [get_set, hr.gp]
    · simp [get_set, hr.ra]
    · intro v h; cases h
    · simp [hr.mem]
    · simp only [rvAbi, atk_zero, hpc]; exact jal_target ..
  | @call t hop ht =>
    simp only [rvAbi, Option.map_eq_some_iff] at ht
    obtain ⟨o, h1, rfl⟩ := ht
    simp only [emit_ph2_ir, hop, ra_r32, h1] at he
    obtain ⟨r1, r2, r3⟩ := rel_range (hfn _ _ h1) hidx
    obtain ⟨hi, hl⟩ := instrAt (.cons (dec_jal _ _ r1 r2 r3) .nil) he hc
    apply Ev.of_goto
    refine Ev.jal hi 0 rfl (Ev.now ?_)
    constructor
    · intro k; have g := irReg_facts k; simp [get_set, g, hr.reg]
    · simp [get_set, hr.sp]
    · simp [get_set, hr.gp]
    · simp [get_set, hn, hl, atk]
    · intro v h; cases h
    · simp [hr.mem]
    · simp only [atk_zero, hpc]; exact jal_target ..
  | @loadFunc a hop ha =>
    simp only [emit_ph2_ir, hop, show ir.src0 = _ from ha, ir_r32, t0_r32] at he
    obtain ⟨hi, hl⟩ := instrAt (.cons' (dec_addi _ _ _ (by decide) (by decide)) .nil) he hc
    apply Ev.of_goto
    refine Ev.i hi 0 rfl (Ev.now ?_)
    constructor
    · intro k; have g := irReg_facts k; simp [get_set, g, hr.reg]
    · simp [get_set, hr.sp]
    · simp [get_set, hr.gp]
    · simp [get_set, hr.ra]
    · intro v h; simp only [Option.some.injEq] at h; simp [get_set, aluI, hr.reg, h]
    · simp [hr.mem]
    · simp [hn, hl, atk]
  | @indirect t hop ht hal =>
    simp only [emit_ph2_ir, hop, ra_r32, t0_r32] at he
    obtain ⟨hi, hl⟩ := instrAt (.cons' (dec_jalr _ _ _ (by decide) (by decide)) .nil) he hc
    apply Ev.of_goto
    refine Ev.jalr hi 0 rfl (Ev.now ?_)
    constructor
    · intro k; have g := irReg_facts k; simp [get_set, g, hr.reg]
    · simp [get_set, hr.sp]
    · simp [get_set, hr.gp]
    · simp [get_set, hn, hl, atk]
    · intro v h; cases h
    · simp [hr.mem]
    · simp [hr.callee t ht, and_fffe hal]
  | define hop =>
    simp only [emit_ph2_ir, hop, sp_r32, t0_r32, ra_r32] at he
    obtain ⟨hl1, hl2⟩ := lo_range (ir.src0 + 4)
    obtain ⟨hi, hl⟩ := instrAt (.cons (dec_lui ..) (.cons' (dec_addi _ _ _ hl1 hl2) (.cons (dec_sub ..)
      (.cons' (dec_sw _ _ _ (by decide) (by decide)) .nil)))) he hc
    apply Ev.of_goto
    refine Ev.lui hi 0 rfl (Ev.i hi 1 rfl (Ev.r hi 2 rfl (Ev.sw hi 3 rfl (Ev.now ?_))))
    constructor
    · intro k; have g := irReg_facts k; simp [get_set, g, hr.reg]
    · simp [get_set, hr.sp, aluI, aluR, hi_lo]
    · simp [get_set, hr.gp]
    · simp [get_set, hr.ra]
    · intro v h; cases h
    · simp [store32_mem, get_set, hr.mem, hr.sp, hr.ra, aluI, aluR, hi_lo, rvAbi]
    · simp [hn, hl, atk, State.store32, State.store8]
  | @ret v t hop hv ht hal =>
    simp only [emit_ph2_ir, hop, sp_r32, t0_r32, ra_r32, zero_r32, a0_r32] at he
    obtain ⟨hl1, hl2⟩ := lo_range (ir.src1 + 4)
    have hi0 : ∃ i0, (∃ w, (if ir.src0 = -1 then addi (r32 0#5) (r32 0#5) 0 else addi (r32 10#5) (ir.src0 + 10) 0) =
        some w ∧ decode w = some i0) ∧ ∃ d a, i0 = .i .addi d a 0#32 ∧
          (m.set d (m.get a + 0#32)).get 10#5 = v ∧ (d = 0#5 ∨ d = 10#5) := by
      rcases hv with ⟨h1, h2⟩ | ⟨a, h1, h2⟩
      · rw [if_pos (show ir.src0 = -1 from h1)]
        refine ⟨_, dec_addi _ _ _ (by decide) (by decide), 0#5, 0#5, rfl, ?_, .inl rfl⟩
        have := hr.reg 0
        rw [h2]
        simpa [get_set, irReg] using this
      · have hne : ir.src0 ≠ -1 := by
          rw [show ir.src0 = _ from h1]
          have : ∀ a : BitVec 3, (a.setWidth 32 : CInt) ≠ -1 := by decide
          exact this a
        rw [if_neg hne, show ir.src0 = _ from h1, ir_r32]
        refine ⟨_, dec_addi _ _ _ (by decide) (by decide), 10#5, irReg a, rfl, ?_, .inr rfl⟩
        simp [get_set, h2, hr.reg]
    obtain ⟨i0, hd0, d, a, rfl, hv0, hd10⟩ := hi0
    obtain ⟨hi, hl⟩ := instrAt (.cons' hd0 (.cons' (dec_lw _ _ _ (by decide) (by decide)) (.cons (dec_lui ..)
      (.cons' (dec_addi _ _ _ hl1 hl2) (.cons (dec_add ..)
      (.cons' (dec_jalr _ _ _ (by decide) (by decide)) .nil)))))) he hc
    apply Ev.of_goto
    refine Ev.i hi 0 rfl (Ev.lw hi 1 rfl (Ev.lui hi 2 rfl (Ev.i hi 3 rfl (Ev.r hi 4 rfl (Ev.jalr hi 5 rfl
      (Ev.now ?_))))))
    simp only [aluI] at *
    generalize hu : m.set d (m.get a + 0#32) = u at *
    have us : ∀ q, q ≠ 10#5 → u.get q = m.get q := by
      intro q hq
      rw [← hu, get_set]
      rcases hd10 with rfl | rfl <;> simp [hq]
    have um : u.mem = m.mem := by rw [← hu]; simp
    have eload : u.load32 (u.get 2#5 + 0#32) = t := by
      rw [us _ (by decide), load32_eq, um, hr.mem, hr.sp, ht]; simp [rvAbi]
    constructor
    · intro k
      have g := irReg_facts k
      simp only [get_set, IrM.setReg, jumpTo_get]
      simp [g]
      by_cases hk : k = 0
      · subst hk; simpa [irReg] using hv0
      · have : irReg k ≠ 10#5 := by revert hk; revert k; decide
        rw [us _ this, hr.reg]
        exact (if_neg hk).symm
    · simp [get_set, aluR, hi_lo, us, hr.sp, IrM.setReg]
    · simp [get_set, us, hr.gp, IrM.setReg]
    · simp only [get_set, jumpTo_get]; simp; simpa [rvAbi] using eload
    · intro v h; cases h
    · simp [um, hr.mem, IrM.setReg]
    · simp only [get_set]; simp
      have : u.load32 (u.get 2#5) = t := by simpa using eload
      rw [this]; exact and_fffe hal

end RV32
