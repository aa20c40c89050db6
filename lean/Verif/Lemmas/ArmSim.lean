import Verif.Props.ArmAlu
import Verif.Lemmas.Layout
import Verif.Spec.IrMachine

/-! Simulation of second-phase IR by the emitted ARM code, one instruction at a time. -/

namespace ARM
open Shecc Shecc.Arm

variable {c : Code} {base : Word} {is : List Instr} {P : State → Prop} {s : State}

theorem rel_computes {ws : List Word} {d : BitVec 3} {f : State → Option Word} {g : State → IrM.Mem}
    (hcomp : ComputesMem ws (irReg d) f g)
    {m : State} {s : IrM.State} {v nxt : Word} {mem' : IrM.Mem} (hc : CodeAt c m.pc ws) (hv : f m = some v)
    (hg : g m = mem') (hr : Sim s m) (hn : nxt = m.pc + BitVec.ofNat 32 (4 * ws.length)) :
    ∃ m', Reaches c m m' ∧ Sim { IrM.setReg s d v with
      callee := none
      mem := mem'
      pc := nxt } m' := by
  obtain ⟨t, r, p1, p2, p3, p4⟩ := hcomp c m v hc hv
  obtain ⟨_, _, _, d12, d13, d14, _⟩ := irReg_facts d
  refine ⟨t, r, ?_, ?_, ?_, ?_, ?_, ?_, ?_⟩
  · intro k
    simp only [IrM.setReg]
    by_cases hk : k = d
    · subst hk; simp [p2]
    · rw [p3 (irReg k) (by rw [Ne, irReg_inj]; exact hk) (irReg_facts k).2.2.2.2.2.2 (scratch_irReg k), hr.reg]; simp [hk]
  · rw [p3 _ d13.symm (by decide) rfl]; exact hr.sp
  · rw [p3 _ d12.symm (by decide) rfl]; exact hr.gp
  · rw [p3 _ d14.symm (by decide) rfl]; exact hr.ra
  · intro v h; cases h
  · rw [p4]; exact hg
  · rw [p1, hn]

/-- An instruction that changes memory only. -/
def Writes (ws : List Word) (f : State → IrM.Mem) : Prop :=
  ∀ (c : Code) (s : State), CodeAt c s.pc ws →
    ∃ t, Reaches c s t ∧ t.pc = s.pc + BitVec.ofNat 32 (4 * ws.length) ∧
      (∀ q, q ≠ 8#4 → t.regs q = s.regs q) ∧ t.mem = f s

theorem writes_of {o : Option (List CInt)} {is : List Instr} (hd : Decodes o is) {f : State → IrM.Mem}
    (H : ∀ c s, InstrAt c s.pc is → Ev c (goto s.pc 0 s) fun t => t.pc = atk s.pc is.length ∧
      (∀ q, q ≠ 8#4 → t.regs q = s.regs q) ∧ t.mem = f s) :
    ∃ ws, o = some ws ∧ Writes ws f := by
  obtain ⟨ws, h1, h2⟩ := hd
  refine ⟨ws, h1, fun c s hc => ?_⟩
  obtain ⟨t, r, p1, p2⟩ := H c s (.of_code hc h2)
  rw [goto_self] at r
  have hl : ws.length = is.length := by simpa using congrArg List.length h2
  exact ⟨t, r, by rw [p1, hl]; rfl, p2⟩

theorem rel_writes {ws : List Word} {f : State → IrM.Mem} (hcomp : Writes ws f)
    {m : State} {s : IrM.State} {nxt : Word} {mem' : IrM.Mem} (hc : CodeAt c m.pc ws) (hf : f m = mem') (hr : Sim s m)
    (hn : nxt = m.pc + BitVec.ofNat 32 (4 * ws.length)) :
    ∃ m', Reaches c m m' ∧ Sim { s with mem := mem', callee := none, pc := nxt } m' := by
  obtain ⟨t, r, p1, p3, p4⟩ := hcomp c m hc
  refine ⟨t, r, ?_, ?_, ?_, ?_, ?_, ?_, ?_⟩
  · intro k; rw [get_ir, p3 (irReg k) (irReg_facts k).1, ← get_ir, hr.reg]
  · rw [get_13, p3 _ (by decide)]; exact hr.sp
  · rw [get_12, p3 _ (by decide)]; exact hr.gp
  · rw [get_14, p3 _ (by decide)]; exact hr.ra
  · intro v h; cases h
  · rw [p4]; exact hf
  · rw [p1, hn]

/-! ### memory instructions -/

theorem ofs_small {x : CInt} (h0 : 0 ≤ x.toInt) (h1 : ¬ (4095 : CInt).slt x = true) : -4095 ≤ x.toInt ∧ x.toInt ≤ 4095 := by
  rw [slt_iff] at h1
  have e : (4095 : CInt).toInt = 4095 := by decide
  omega

theorem emit_load (env : EmitEnv) (idx : CInt) (ir : Ph2Ir) (d : BitVec 3)
    (h1 : ir.op = .load ∨ ir.op = .global_load) (h2 : ir.dest = d.setWidth 32) (h0 : 0 ≤ ir.src0.toInt) :
    ∃ ws, emit_ph2_ir env idx ir = some ws ∧ Computes ws (irReg d)
      (fun s => some (s.load32 (s.get (if ir.op = .load then 13#4 else 12#4) + ir.src0))) := by
  obtain ⟨hd8, _, _, _, _, _, hd⟩ := irReg_facts d
  have key : ∀ base : Reg, base ≠ 8#4 → base ≠ 15#4 →
      ∃ ws, (if (4095 : CInt).slt ir.src0 then
      emits [some (movw AL (u32 8#4) ir.src0), some (movt AL (u32 8#4) ir.src0),
        add_r AL (u32 8#4) (u32 base) (u32 8#4), some (lw AL (u32 (irReg d)) (u32 8#4) 0)]
    else emits [some (lw AL (u32 (irReg d)) (u32 base) ir.src0)]) = some ws ∧
      Computes ws (irReg d) (fun s => some (s.load32 (s.get base + ir.src0))) := by
    intro base hb8 hb15
    have p8 : (8#4 : Reg) ≠ 15#4 := by decide
    split
    · refine computes_of (.cons (dec_movw 14#4 (by decide) 8#4 _) (.cons (dec_movt 14#4 (by decide) 8#4 _)
        (.cons' (dr_add 14#4 (by decide) 8#4 base 8#4) (.cons (dt_lw (irReg d) 8#4 0 (by decide) (by decide)) .nil)))) hd
        fun c s v hi hv => ?_
      refine Ev.act hi 0 rfl p8 (Ev.act hi 1 rfl p8 (Ev.act hi 2 rfl ⟨p8, hb15, p8⟩ (Ev.act hi 3 rfl ⟨hd, p8⟩
        (Ev.now ⟨rfl, ?_, ?_, by simp⟩))))
      · simp only [Option.some.injEq, get_regs _ hb15] at hv
        rw [← hv]
        simp [set_regs, movwt _ 0#32, hb8]
      · intro q q1 q8 _ _; simp [set_regs, q1, q8]
    · rename_i hb
      obtain ⟨l1, l2⟩ := ofs_small h0 hb
      refine one_set (some_dec (dt_lw (irReg d) base ir.src0 l1 l2)) ⟨hd, hb15⟩ hd (sv_ldr · _ _ _) fun s v hv => ?_
      simpa [get_regs _ hb15] using hv
  rcases h1 with h1 | h1 <;> simp only [emit_ph2_ir, h1, h2, ir_u32, r8_u, sp_u, r12_u, if_true, reduceCtorEq, if_false]
  · exact key 13#4 (by decide) (by decide)
  · exact key 12#4 (by decide) (by decide)

theorem emit_store (env : EmitEnv) (idx : CInt) (ir : Ph2Ir) (a : BitVec 3)
    (h1 : ir.op = .store ∨ ir.op = .global_store) (h2 : ir.src0 = a.setWidth 32) (h0 : 0 ≤ ir.src1.toInt) :
    ∃ ws, emit_ph2_ir env idx ir = some ws ∧ Writes ws
      (fun s => IrM.store32 s.mem (s.get (if ir.op = .store then 13#4 else 12#4) + ir.src1) (s.get (irReg a))) := by
  obtain ⟨ha8, _, _, _, _, _, ha⟩ := irReg_facts a
  have key : ∀ base : Reg, base ≠ 8#4 → base ≠ 15#4 →
      ∃ ws, (if (4095 : CInt).slt ir.src1 then
      emits [some (movw AL (u32 8#4) ir.src1), some (movt AL (u32 8#4) ir.src1),
        add_r AL (u32 8#4) (u32 base) (u32 8#4), some (sw AL (u32 (irReg a)) (u32 8#4) 0)]
    else emits [some (sw AL (u32 (irReg a)) (u32 base) ir.src1)]) = some ws ∧
      Writes ws (fun s => IrM.store32 s.mem (s.get base + ir.src1) (s.get (irReg a))) := by
    intro base hb8 hb15
    have p8 : (8#4 : Reg) ≠ 15#4 := by decide
    split
    · refine writes_of (.cons (dec_movw 14#4 (by decide) 8#4 _) (.cons (dec_movt 14#4 (by decide) 8#4 _)
        (.cons' (dr_add 14#4 (by decide) 8#4 base 8#4) (.cons (dt_sw (irReg a) 8#4 0 (by decide) (by decide)) .nil))))
        fun c s hi => ?_
      refine Ev.act hi 0 rfl p8 (Ev.act hi 1 rfl p8 (Ev.act hi 2 rfl ⟨p8, hb15, p8⟩ (Ev.act hi 3 rfl ⟨ha, p8⟩
        (Ev.now ⟨rfl, ?_, ?_⟩))))
      · intro q q8; simp [set_regs, q8]
      · simp only [get_regs _ hb15, get_ir]
        simp [store32_mem, set_regs, movwt _ 0#32, hb8, ha8]
    · rename_i hb
      obtain ⟨l1, l2⟩ := ofs_small h0 hb
      refine writes_of (.cons (dt_sw (irReg a) base ir.src1 l1 l2) .nil) fun c s hi => ?_
      refine Ev.act hi 0 rfl ⟨ha, hb15⟩ (Ev.now ⟨rfl, ?_, ?_⟩)
      · intro q q8; simp
      · simp only [get_regs _ hb15, get_ir]
        simp [store32_mem]
  rcases h1 with h1 | h1 <;> simp only [emit_ph2_ir, h1, h2, ir_u32, r8_u, sp_u, r12_u, if_true, reduceCtorEq, if_false]
  · exact key 13#4 (by decide) (by decide)
  · exact key 12#4 (by decide) (by decide)

theorem emit_read4 (env : EmitEnv) (idx : CInt) (ir : Ph2Ir) (d a : BitVec 3)
    (h1 : ir.op = .read) (h2 : ir.dest = d.setWidth 32) (h3 : ir.src0 = a.setWidth 32) (h4 : ir.src1 = 4#32) :
    ∃ ws, emit_ph2_ir env idx ir = some ws ∧ Computes ws (irReg d) (fun s => some (s.load32 (s.get (irReg a)))) := by
  obtain ⟨_, _, _, _, _, _, hd⟩ := irReg_facts d
  obtain ⟨_, _, _, _, _, _, ha⟩ := irReg_facts a
  simp only [emit_ph2_ir, h1, h2, h3, h4, ir_u32]
  rw [if_neg (by decide), if_pos (by decide)]
  refine one_set (some_dec (dt_lw (irReg d) (irReg a) 0 (by decide) (by decide))) ⟨hd, ha⟩ hd (sv_ldr · _ _ _) fun s v hv => ?_
  simpa [get_ir] using hv

theorem emit_read1 (env : EmitEnv) (idx : CInt) (ir : Ph2Ir) (d a : BitVec 3)
    (h1 : ir.op = .read) (h2 : ir.dest = d.setWidth 32) (h3 : ir.src0 = a.setWidth 32) (h4 : ir.src1 = 1#32) :
    ∃ ws, emit_ph2_ir env idx ir = some ws ∧
      Computes ws (irReg d) (fun s => some ((s.mem (s.get (irReg a))).setWidth 32)) := by
  obtain ⟨_, _, _, _, _, _, hd⟩ := irReg_facts d
  obtain ⟨_, _, _, _, _, _, ha⟩ := irReg_facts a
  simp only [emit_ph2_ir, h1, h2, h3, h4, ir_u32]
  rw [if_pos (by decide)]
  refine one_set (some_dec (dt_lb (irReg d) (irReg a) 0 (by decide) (by decide))) ⟨hd, ha⟩ hd (sv_ldrb · _ _ _) fun s v hv => ?_
  simpa [get_ir] using hv

theorem emit_write4 (env : EmitEnv) (idx : CInt) (ir : Ph2Ir) (a b : BitVec 3)
    (h1 : ir.op = .write) (h2 : ir.dest = 4#32) (h3 : ir.src0 = a.setWidth 32) (h4 : ir.src1 = b.setWidth 32) :
    ∃ ws, emit_ph2_ir env idx ir = some ws ∧
      Writes ws (fun s => IrM.store32 s.mem (s.get (irReg a)) (s.get (irReg b))) := by
  obtain ⟨_, _, _, _, _, _, hb⟩ := irReg_facts b
  obtain ⟨_, _, _, _, _, _, ha⟩ := irReg_facts a
  simp only [emit_ph2_ir, h1, h2, h3, h4, ir_u32]
  rw [if_neg (by decide), if_pos (by decide)]
  refine writes_of (.cons (dt_sw (irReg b) (irReg a) 0 (by decide) (by decide)) .nil) fun c s hi => ?_
  refine Ev.act hi 0 rfl ⟨hb, ha⟩ (Ev.now ⟨rfl, ?_, ?_⟩)
  · intro q q8; simp
  · simp only [get_ir]; simp [store32_mem]

theorem emit_write1 (env : EmitEnv) (idx : CInt) (ir : Ph2Ir) (a b : BitVec 3)
    (h1 : ir.op = .write) (h2 : ir.dest = 1#32) (h3 : ir.src0 = a.setWidth 32) (h4 : ir.src1 = b.setWidth 32) :
    ∃ ws, emit_ph2_ir env idx ir = some ws ∧
      Writes ws (fun s => IrM.store8 s.mem (s.get (irReg a)) ((s.get (irReg b)).setWidth 8)) := by
  obtain ⟨_, _, _, _, _, _, hb⟩ := irReg_facts b
  obtain ⟨_, _, _, _, _, _, ha⟩ := irReg_facts a
  simp only [emit_ph2_ir, h1, h2, h3, h4, ir_u32]
  rw [if_pos (by decide)]
  refine writes_of (.cons (dt_sb (irReg b) (irReg a) 0 (by decide) (by decide)) .nil) fun c s hi => ?_
  refine Ev.act hi 0 rfl ⟨hb, ha⟩ (Ev.now ⟨rfl, ?_, ?_⟩)
  · intro q q8; simp
  · simp only [get_ir]; simp [store8_mem]

theorem emit_addrFunc (env : EmitEnv) (idx : CInt) (ir : Ph2Ir) (a : BitVec 3) (o : CInt)
    (h1 : ir.op = .address_of_func) (h3 : ir.src0 = a.setWidth 32) (h4 : env.funcOfs ir.func_name = some o) :
    ∃ ws, emit_ph2_ir env idx ir = some ws ∧
      Writes ws (fun s => IrM.store32 s.mem (s.get (irReg a)) (env.codeStart + o)) := by
  obtain ⟨ha8, _, _, _, _, _, ha⟩ := irReg_facts a
  have p8 : (8#4 : Reg) ≠ 15#4 := by decide
  simp only [emit_ph2_ir, h1, h3, h4, ir_u32]
  refine writes_of (.cons (dec_movw 14#4 (by decide) 8#4 _) (.cons (dec_movt 14#4 (by decide) 8#4 _)
    (.cons (dt_sw 8#4 (irReg a) 0 (by decide) (by decide)) .nil))) fun c s hi => ?_
  refine Ev.act hi 0 rfl p8 (Ev.act hi 1 rfl p8 (Ev.act hi 2 rfl ⟨p8, ha⟩ (Ev.now ⟨rfl, ?_, ?_⟩)))
  · intro q q8; simp [set_regs, q8]
  · simp only [get_ir]
    simp [store32_mem, set_regs, movwt _ 0#32, ha8]

/-! ### control transfer -/

/-- An offset inside the code section: a multiple of 4 below 2^19. -/
def OfsOk (o : CInt) : Prop := o.toNat % 4 = 0 ∧ o.toNat ≤ 262144

theorem rel_range {a b : CInt} (ha : OfsOk a) (hb : OfsOk b) :
    -2 ^ 25 + 8 ≤ (a - b).toInt ∧ (a - b).toInt < 2 ^ 25 + 8 ∧ (a - b).toInt % 4 = 0 := by
  have hc := toInt_cases (a - b)
  have e : (a - b).toNat = (2 ^ 32 - b.toNat + a.toNat) % 2 ^ 32 := BitVec.toNat_sub ..
  obtain ⟨a1, a2⟩ := ha
  obtain ⟨b1, b2⟩ := hb
  have := (a - b).isLt
  omega

theorem b_target (cs a b : Word) : cs + b + 8#32 + (a - b - 8#32) = cs + a := by
  rw [BitVec.add_assoc, BitVec.add_comm (8#32), BitVec.sub_add_cancel, BitVec.add_assoc, BitVec.add_comm b,
    BitVec.sub_add_cancel]

theorem instrAt {o : Option (List CInt)} {is : List Instr} {ws : List CInt} (hd : Decodes o is) (ho : o = some ws)
    {m : State} (hc : CodeAt c m.pc ws) : InstrAt c m.pc is ∧ ws.length = is.length := by
  obtain ⟨ws', h1, h2⟩ := hd
  rw [ho] at h1
  simp only [Option.some.injEq] at h1
  subst h1
  exact ⟨.of_code hc h2, by simpa using congrArg List.length h2⟩

theorem Ev.of_goto {m : State} {P : State → Prop} (h : Ev c (goto m.pc 0 m) P) : ∃ m', Reaches c m m' ∧ P m' := by
  rw [goto_self] at h; exact h

/-- `Sim` from raw register contents. -/
theorem sim_of {s : IrM.State} {m : State} (reg : ∀ k, m.regs (irReg k) = s.reg k) (sp : m.regs 13#4 = s.sp)
    (gp : m.regs 12#4 = s.gp) (ra : m.regs 14#4 = s.ra) (callee : ∀ v, s.callee = some v → m.regs 8#4 = v)
    (mem : m.mem = s.mem) (pc : m.pc = s.pc) : Sim s m :=
  ⟨fun k => (get_ir m k).trans (reg k), sp, gp, ra, callee, mem, pc⟩

theorem Sim.regs {s : IrM.State} {m : State} (h : Sim s m) (k : BitVec 3) : m.regs (irReg k) = s.reg k :=
  (get_ir m k).symm.trans (h.reg k)
theorem Sim.r13 {s : IrM.State} {m : State} (h : Sim s m) : m.regs 13#4 = s.sp := h.sp
theorem Sim.r12 {s : IrM.State} {m : State} (h : Sim s m) : m.regs 12#4 = s.gp := h.gp
theorem Sim.r14 {s : IrM.State} {m : State} (h : Sim s m) : m.regs 14#4 = s.ra := h.ra
theorem Sim.r8 {s : IrM.State} {m : State} (h : Sim s m) {v : Word} (hv : s.callee = some v) : m.regs 8#4 = v := h.callee v hv

end ARM
