import Verif.Props.RvProgram
import Verif.Spec.System

/-!
# C21, C62, C63 (RISC-V): branches, start-up code, system calls, whole executions
-/

namespace RV32

theorem SysReaches.trans {c : Code} {os : IrM.Os} {s t u : State} (h1 : SysReaches c os s t)
    (h2 : SysReaches c os t u) : SysReaches c os s u := by
  induction h2 with
  | refl => exact h1
  | next _ h ih => exact .next ih h
  | call _ h1 h2 ih => exact .call ih h1 h2

theorem SysReaches.of {c : Code} {os : IrM.Os} {s t : State} (h : Reaches c s t) : SysReaches c os s t := by
  induction h with
  | refl => exact .refl _
  | head h1 _ ih => exact .trans (.next (.refl _) h1) ih

theorem Ev.of_eq {c : Code} {s t : State} (h : s = t) {P : State → Prop} (h2 : Ev c s P) : ∃ u, Reaches c t u ∧ P u :=
  h ▸ h2

end RV32

namespace Shecc.Props
open RV32 Shecc.Riscv

/-- **C21 (RISC-V).** The code emitted for a conditional branch goes to the then block exactly when the condition
register is nonzero and to the else block otherwise, wherever the blocks are in the code section, preserving memory and
all registers but temporaries. -/
theorem C21_rv_branch (env : EmitEnv) (hbb : ∀ b, OfsOk (env.bbOfs b)) (hfn : ∀ n o, env.funcOfs n = some o → OfsOk o)
    (hcs : env.codeStart.toNat % 4 = 0) (idx : CInt) (hidx : OfsOk idx) (hlen : idx.toNat + 20 ≤ 262144)
    (ir : Ph2Ir) (hop : ir.op = .branch) (a : BitVec 3) (ha : IrM.isReg ir.src0 a) (ws : List CInt)
    (he : emit_ph2_ir env idx ir = some ws) (c : Code) (m : State) (hc : CodeAt c m.pc ws)
    (hpc : m.pc = env.codeStart + idx) :
    ∃ m', Reaches c m m' ∧
      m'.pc = env.codeStart + env.bbOfs (if m.get (irReg a) ≠ 0#32 then ir.then_bb else ir.else_bb) ∧
      (∀ k, m'.get (irReg k) = m.get (irReg k)) ∧ m'.get 1#5 = m.get 1#5 ∧ m'.get 2#5 = m.get 2#5 ∧
      m'.get 3#5 = m.get 3#5 ∧ m'.mem = m.mem := by
  have hw : ws.length = 5 := by
    simp only [emit_ph2_ir, hop] at he
    exact emits_length _ he
  have hs : Sim ⟨fun k => m.get (irReg k), m.get 2#5, m.get 3#5, m.get 1#5, none, m.mem, m.pc⟩ m :=
    ⟨fun _ => rfl, rfl, rfl, rfl, (fun _ h => (by cases h)), rfl, rfl⟩
  obtain ⟨m', r, s'⟩ := sim_insn env hbb hfn hcs idx hidx ir ws he m hc hpc _ _ _ rfl (by omega)
    (IrM.Step.branch (A := rvAbi env) hop ha) hs
  refine ⟨m', r, ?_, fun k => s'.reg k, s'.ra, s'.sp, s'.gp, s'.mem⟩
  have := s'.pc
  simp only [rvAbi] at this
  rw [this]
  split <;> rfl

/-- Reading the stubs as instructions. -/
theorem stubs_decode (g o : CInt) (ho : OfsOk o) : Decodes (stubs g o)
    [ .lui 5#5 (rv_hi g &&& 0xFFFFF000#32), .i .addi 5#5 5#5 (rv_lo g), .r .sub 2#5 2#5 5#5, .i .addi 3#5 2#5 0,
      .jal 1#5 (o - 16),
      .lui 5#5 (rv_hi g &&& 0xFFFFF000#32), .i .addi 5#5 5#5 (rv_lo g), .r .add 3#5 3#5 5#5, .i .addi 2#5 3#5 0,
      .i .addi 10#5 10#5 0, .i .addi 17#5 0#5 93, .ecall,
      .i .addi 17#5 10#5 0, .i .addi 10#5 11#5 0, .i .addi 11#5 12#5 0, .i .addi 12#5 13#5 0, .i .addi 13#5 14#5 0,
      .i .addi 14#5 15#5 0, .i .addi 15#5 16#5 0, .ecall, .jalr 0#5 1#5 0 ] := by
  obtain ⟨hl1, hl2⟩ := lo_range g
  obtain ⟨r1, r2, r3⟩ := rel_range ho (b := 16) ⟨by decide, by decide⟩
  have ec : ∃ w, ecall = some w ∧ decode w = some .ecall := ⟨_, rfl, by decide⟩
  unfold stubs
  refine .cons (dec_lui 5#5 _) ?_
  refine .cons' (dec_addi 5#5 5#5 _ hl1 hl2) ?_
  refine .cons (dec_sub 2#5 2#5 5#5) ?_
  refine .cons' (dec_addi 3#5 2#5 _ (by decide) (by decide)) ?_
  refine .cons (dec_jal 1#5 _ r1 r2 r3) ?_
  refine .cons (dec_lui 5#5 _) ?_
  refine .cons' (dec_addi 5#5 5#5 _ hl1 hl2) ?_
  refine .cons (dec_add 3#5 3#5 5#5) ?_
  refine .cons' (dec_addi 2#5 3#5 _ (by decide) (by decide)) ?_
  refine .cons' (dec_addi 10#5 10#5 _ (by decide) (by decide)) ?_
  refine .cons' (dec_addi 17#5 0#5 _ (by decide) (by decide)) ?_
  refine .cons' ec ?_
  refine .cons' (dec_addi 17#5 10#5 _ (by decide) (by decide)) ?_
  refine .cons' (dec_addi 10#5 11#5 _ (by decide) (by decide)) ?_
  refine .cons' (dec_addi 11#5 12#5 _ (by decide) (by decide)) ?_
  refine .cons' (dec_addi 12#5 13#5 _ (by decide) (by decide)) ?_
  refine .cons' (dec_addi 13#5 14#5 _ (by decide) (by decide)) ?_
  refine .cons' (dec_addi 14#5 15#5 _ (by decide) (by decide)) ?_
  refine .cons' (dec_addi 15#5 16#5 _ (by decide) (by decide)) ?_
  refine .cons' ec ?_
  refine .cons' (dec_jalr 0#5 1#5 _ (by decide) (by decide)) ?_
  exact .nil

theorem compile_stubs {hard : Bool} {P : Prog} {F : Flat} {img : List CInt}
    (h : compile target hard P = some (F, img)) (hd : P.DistinctBlocks) {c : Code} (hc : CodeAt c codeBase img) :
    InstrAt c codeBase
    [ .lui 5#5 (rv_hi P.globalStack &&& 0xFFFFF000#32), .i .addi 5#5 5#5 (rv_lo P.globalStack), .r .sub 2#5 2#5 5#5,
      .i .addi 3#5 2#5 0, .jal 1#5 (84 - 16),
      .lui 5#5 (rv_hi P.globalStack &&& 0xFFFFF000#32), .i .addi 5#5 5#5 (rv_lo P.globalStack), .r .add 3#5 3#5 5#5,
      .i .addi 2#5 3#5 0, .i .addi 10#5 10#5 0, .i .addi 17#5 0#5 93, .ecall,
      .i .addi 17#5 10#5 0, .i .addi 10#5 11#5 0, .i .addi 11#5 12#5 0, .i .addi 12#5 13#5 0, .i .addi 13#5 14#5 0,
      .i .addi 14#5 15#5 0, .i .addi 15#5 16#5 0, .ecall, .jalr 0#5 1#5 0 ] := by
  obtain ⟨⟨a, ha, hw, _⟩, _, _, _, _, _, _, h8, _⟩ := compile_spec rv_good h (rv_sizes _ _)
  rw [(h8 hd).2] at ha
  obtain ⟨ws, e1, e2⟩ := stubs_decode P.globalStack 84 ⟨by decide, by decide⟩
  have : a = ws := by
    have h3 : stubs P.globalStack 84 = some a := ha
    rw [h3] at e1; exact Option.some.inj e1
  subst this
  have := codeAt_of (k := 0) hc (by decide) hw
  simp only [BitVec.ofNat_eq_ofNat, BitVec.add_zero] at this
  exact .of_code this e2

/-- The IR state in which the program starts when the machine is in state `m` at the entry point: the global frame is
allocated below the loader's stack pointer, and the return address is that of the exit stub. -/
def rvStart (hard : Bool) (P : Prog) (F : Flat) (m : State) : IrM.State where
  reg k := m.get (irReg k)
  sp := m.get 2#5 - P.globalStack
  gp := m.get 2#5 - P.globalStack
  ra := codeBase + 20
  callee := none
  mem := m.mem
  pc := (rvAbi (emitEnv target hard P F)).blockAddr P.globalBB

/-- **C62 (entry).** From the entry point, with the loader's stack pointer `sp0`: the global frame of the program is
allocated, both `sp` and `gp` point to it, and control is at the global initialisers with the return address of the
exit stub. -/
theorem C62_rv_entry (hard : Bool) (P : Prog) (F : Flat) (img : List CInt)
    (h : compile target hard P = some (F, img)) (hd : P.DistinctBlocks) (c : Code) (hc : CodeAt c codeBase img)
    (m : State) (hpc : m.pc = codeBase) :
    ∃ m', Reaches c m m' ∧ Sim (rvStart hard P F m) m' := by
  have hi := compile_stubs h hd hc
  have h8 := (compile_spec rv_good h (rv_sizes _ _)).2.2.2.2.2.2.2.1
  have hg : (emitEnv target hard P F).bbOfs P.globalBB = 84#32 := by
    simp only [emitEnv, (h8 hd).2]; rfl
  have hg0 : goto codeBase 0 m = m := goto_of (by rw [hpc, atk_zero])
  have : Ev c (goto codeBase 0 m) (Sim (rvStart hard P F m)) := by
    refine Ev.lui hi 0 rfl (Ev.i hi 1 rfl (Ev.r hi 2 rfl (Ev.i hi 3 rfl (Ev.jal hi 4 rfl (Ev.now ?_)))))
    constructor
    · intro k; have g := irReg_facts k; simp [get_set, g, rvStart]
    · simp [get_set, aluI, aluR, hi_lo, rvStart]
    · simp [get_set, aluI, aluR, hi_lo, rvStart]
    · simp [get_set, rvStart]; decide
    · intro v hv; cases hv
    · simp [rvStart]
    · simp only [jumpTo_pc, rvStart, rvAbi, hg]; rfl
  rw [hg0] at this
  exact this

/-- **C62 (exit).** Returning from `main` to the exit stub performs `exit(result)`. -/
theorem C62_rv_exit (hard : Bool) (P : Prog) (F : Flat) (img : List CInt)
    (h : compile target hard P = some (F, img)) (hd : P.DistinctBlocks) (c : Code) (hc : CodeAt c codeBase img)
    (m : State) (hpc : m.pc = codeBase + 20) :
    ∃ m', Reaches c m m' ∧ step c m' = .ecall m' ∧ m'.get 17#5 = 93#32 ∧ m'.get 10#5 = m.get 10#5 ∧ m'.mem = m.mem := by
  have hi := compile_stubs h hd hc
  have hg0 : goto codeBase 5 m = m := goto_of (by rw [hpc]; rfl)
  apply Ev.of_eq hg0
  refine Ev.lui hi 5 rfl (Ev.i hi 6 rfl (Ev.r hi 7 rfl (Ev.i hi 8 rfl (Ev.i hi 9 rfl (Ev.i hi 10 rfl (Ev.now ?_))))))
  refine ⟨hi.step 11 rfl rfl, ?_, ?_, ?_⟩ <;> simp [get_set, aluI]

/-- **C62 (main).** After the global initialisers, `main` is entered with `argc` and `argv` as the loader left them at
the initial stack pointer. -/
theorem C62_rv_main (hard : Bool) (P : Prog) (F : Flat) (img : List CInt)
    (h : compile target hard P = some (F, img)) (hd : P.DistinctBlocks) (c : Code) (hc : CodeAt c codeBase img)
    (s : IrM.State) (m : State) (hs : Sim s m) (hpc : s.pc = codeBase + BitVec.ofNat 32 F.mainJump) :
    ∃ m', Reaches c m m' ∧
      Sim (IrM.enterMain P.globalStack ((rvAbi (emitEnv target hard P F)).blockAddr P.mainBB) s) m' := by
  obtain ⟨_, _, ⟨h1, w, h2, h3⟩, _, _, _, h7, _⟩ := compile_spec rv_good h (rv_sizes _ _)
  obtain ⟨hbb, _⟩ := env_ok h hd
  have hle := h3.le
  have hw : w.length = 6 := emits_length _ h2
  simp only [maxCode] at h7
  have hlt : (BitVec.ofNat 32 F.mainJump + 20#32).toNat = F.mainJump + 20 := by
    simp only [BitVec.toNat_add, BitVec.toNat_ofNat]; omega
  obtain ⟨r1, r2, r3⟩ := rel_range (hbb P.mainBB) (b := BitVec.ofNat 32 F.mainJump + 20#32)
    ⟨by rw [hlt]; omega, by rw [hlt]; omega⟩
  obtain ⟨hl1, hl2⟩ := lo_range P.globalStack
  have hmpc : m.pc = codeBase + BitVec.ofNat 32 F.mainJump := by rw [hs.pc, hpc]
  have hca : CodeAt c m.pc w := by rw [hmpc]; exact codeAt_of hc h1 h3
  obtain ⟨hi, _⟩ := instrAt (is := [.lui 5#5 (rv_hi P.globalStack &&& 0xFFFFF000#32),
    .i .addi 5#5 5#5 (rv_lo P.globalStack), .r .add 5#5 3#5 5#5, .load .lw 10#5 5#5 0, .i .addi 11#5 5#5 4,
    .jal 0#5 (_)]) (.cons (dec_lui ..) (.cons' (dec_addi _ _ _ hl1 hl2) (.cons (dec_add 5#5 3#5 5#5)
    (.cons' (dec_lw 10#5 5#5 _ (by decide) (by decide)) (.cons' (dec_addi 11#5 5#5 _ (by decide) (by decide))
    (.cons (dec_jal 0#5 _ r1 r2 r3) .nil)))))) h2 hca
  apply Ev.of_goto
  refine Ev.lui hi 0 rfl (Ev.i hi 1 rfl (Ev.r hi 2 rfl (Ev.lw hi 3 rfl (Ev.i hi 4 rfl (Ev.jal hi 5 rfl
    (Ev.now ?_))))))
  constructor
  · intro k
    have g := irReg_facts k
    by_cases h0 : k = 0
    · subst h0
      have : ∀ a, State.load32 (m.set 5#5 a) = fun x => IrM.load32 m.mem x := by
        intro a; funext x; simp [load32_eq]
      simp [get_set, irReg, IrM.enterMain, aluI, aluR, hi_lo, load32_eq, hs.mem, hs.gp]
    · by_cases h1 : k = 1
      · subst h1
        simp [get_set, irReg, IrM.enterMain, aluI, aluR, hi_lo, hs.gp]
      · have e1 : irReg k ≠ 10#5 := by revert h0; revert k; decide
        have e2 : irReg k ≠ 11#5 := by revert h1; revert k; decide
        simp only [IrM.enterMain, if_neg h0, if_neg h1]
        simp [get_set, g, e1, e2, hs.reg]
  · simp [get_set, hs.sp, IrM.enterMain]
  · simp [get_set, hs.gp, IrM.enterMain]
  · simp [get_set, hs.ra, IrM.enterMain]
  · intro v hv; cases hv
  · simp [hs.mem, IrM.enterMain]
  · simp only [jumpTo_pc, IrM.enterMain, rvAbi, hmpc]
    have : atk (codeBase + BitVec.ofNat 32 F.mainJump) 5 = codeBase + (BitVec.ofNat 32 F.mainJump + 20#32) := by
      unfold atk; rw [BitVec.add_assoc]
    rw [this]; exact jal_target ..

/-- **C63.** Calling `__syscall(n, a1, .., a6)` performs environment call `n` with those arguments and returns its
result to the caller. -/
theorem C63_rv_syscall (hard : Bool) (P : Prog) (F : Flat) (img : List CInt)
    (h : compile target hard P = some (F, img)) (hd : P.DistinctBlocks) (c : Code) (hc : CodeAt c codeBase img)
    (os : IrM.Os) (s t : IrM.State) (m : State) (hs : Sim s m)
    (hst : IrM.SysStep os ((rvAbi (emitEnv target hard P F)).blockAddr P.syscallBB) s t) :
    ∃ m', SysReaches c os m m' ∧ Sim t m' := by
  have hi := compile_stubs h hd hc
  have h8 := (compile_spec rv_good h (rv_sizes _ _)).2.2.2.2.2.2.2.1
  have hg : (emitEnv target hard P F).bbOfs P.syscallBB = 48#32 := by
    simp only [emitEnv, (h8 hd).1]; rfl
  obtain ⟨hp, hal, r, mem', ho, rfl⟩ := hst
  have hm : goto codeBase 12 m = m := goto_of (by rw [hs.pc, hp]; simp only [rvAbi, hg]; rfl)
  have key : ∃ m1, Reaches c m m1 ∧ m1.pc = atk codeBase 19 ∧ m1.mem = m.mem ∧ m1.get 17#5 = s.reg 0 ∧
      (∀ k : BitVec 3, k ≠ 7 → k ≠ 6 → m1.get (irReg k) = s.reg (k + 1)) ∧ m1.get 16#5 = s.reg 6 ∧
      m1.get 1#5 = s.ra ∧ m1.get 2#5 = s.sp ∧ m1.get 3#5 = s.gp := by
    apply Ev.of_eq hm
    refine Ev.i hi 12 rfl (Ev.i hi 13 rfl (Ev.i hi 14 rfl (Ev.i hi 15 rfl (Ev.i hi 16 rfl (Ev.i hi 17 rfl
      (Ev.i hi 18 rfl (Ev.now ⟨rfl, ?_, ?_, ?_, ?_, ?_, ?_, ?_⟩)))))))
    · simp
    · have := hs.reg 0
      simpa [get_set, aluI, irReg] using this
    · have h1 := hs.reg 1
      have h2 := hs.reg 2
      have h3 := hs.reg 3
      have h4 := hs.reg 4
      have h5 := hs.reg 5
      have h6 := hs.reg 6
      have all : ∀ k : BitVec 3, k = 0 ∨ k = 1 ∨ k = 2 ∨ k = 3 ∨ k = 4 ∨ k = 5 ∨ k = 6 ∨ k = 7 := by decide
      intro k e7 e6
      rcases all k with rfl | rfl | rfl | rfl | rfl | rfl | rfl | rfl
      · simpa [get_set, aluI, irReg] using h1
      · simpa [get_set, aluI, irReg] using h2
      · simpa [get_set, aluI, irReg] using h3
      · simpa [get_set, aluI, irReg] using h4
      · simpa [get_set, aluI, irReg] using h5
      · simpa [get_set, aluI, irReg] using h6
      · exact absurd rfl e6
      · exact absurd rfl e7
    · have := hs.reg 6
      simpa [get_set, aluI, irReg] using this
    · simpa [get_set, aluI] using hs.ra
    · simpa [get_set, aluI] using hs.sp
    · simpa [get_set, aluI] using hs.gp
  obtain ⟨m1, r1, p1, p2, p3, p4, p5, p6, p7, p8⟩ := key
  have hec : step c m1 = .ecall m1 := hi.step 19 rfl p1
  have hos : os (m1.get 17#5) (fun i => m1.get (BitVec.ofNat 5 (i.val + 10))) m1.mem r mem' := by
    rw [p3, p2, hs.mem]
    have : (fun i : Fin 6 => m1.get (BitVec.ofNat 5 (i.val + 10))) = fun i => s.reg (BitVec.ofNat 3 (i.val + 1)) := by
      funext i
      have e1 : irReg (BitVec.ofNat 3 i.val) = BitVec.ofNat 5 (i.val + 10) := by revert i; decide
      have e2 : BitVec.ofNat 3 i.val + 1 = BitVec.ofNat 3 (i.val + 1) := by clear e1; revert i; decide
      have := p4 (BitVec.ofNat 3 i.val) (by clear e1 e2; revert i; decide) (by clear e1 e2; revert i; decide)
      rw [e1, e2] at this
      exact this
    rw [this]; exact ho
  generalize hm2 : ({ m1.set 10#5 r with mem := mem', pc := m1.pc + 4 } : State) = m2
  have q0 : ∀ q, m2.get q = (m1.set 10#5 r).get q := by intro q; rw [← hm2]; rfl
  have q1 : m2.mem = mem' := by rw [← hm2]
  have q2 : m2.pc = atk codeBase 20 := by rw [← hm2]; simp only [p1, atk_succ]
  have hm3 : goto codeBase 20 m2 = m2 := goto_of q2
  have fin : Ev c m2 (fun m' => m'.pc = s.ra ∧ m'.mem = mem' ∧ ∀ q, m'.get q = m2.get q) := by
    apply Ev.of_eq hm3
    refine Ev.jalr hi 20 rfl (Ev.now ⟨?_, ?_, ?_⟩)
    · simp [q0, get_set, p6, and_fffe hal]
    · simp [q1]
    · intro q; simp [get_set]
  obtain ⟨m4, r4, e1, e2, e3⟩ := fin
  have hr2 : SysReaches c os m m2 := by
    rw [← hm2]
    exact .call (.of r1) hec hos
  refine ⟨m4, hr2.trans (.of r4), ?_⟩
  constructor
  · intro k
    rw [e3, q0]
    simp only
    by_cases h0 : k = 0
    · subst h0; simp [get_set, irReg]
    · have n0 : irReg k ≠ 10#5 := by revert h0; revert k; decide
      rw [if_neg h0]
      rw [get_set, if_neg (by simp [n0])]
      by_cases h7 : k = 7
      · subst h7; simpa [irReg] using p3
      · rw [if_neg h7]
        by_cases h6 : k = 6
        · subst h6; simpa [irReg] using p5
        · rw [if_neg h6, p4 k h7 h6]
  · rw [e3, q0, get_set]; simp [p7]
  · rw [e3, q0, get_set]; simp [p8]
  · rw [e3, q0, get_set]; simp [p6]
  · intro v hv; cases hv
  · exact e2
  · exact e1

theorem rv_xrun (hard : Bool) (P : Prog) (F : Flat) (img : List CInt)
    (h : compile target hard P = some (F, img)) (hd : P.DistinctBlocks) (c : Code) (hc : CodeAt c codeBase img)
    (os : IrM.Os) (s t : IrM.State)
    (hrun : IrM.XRun (rvAbi (emitEnv target hard P F)) (rvProgram hard F) os
      ((rvAbi (emitEnv target hard P F)).blockAddr P.syscallBB) s t)
    (m : State) (hm : Sim s m) : ∃ m', SysReaches c os m m' ∧ Sim t m' := by
  induction hrun with
  | refl => exact ⟨m, .refl _, hm⟩
  | tail _ hst ih =>
    obtain ⟨m1, r1, s1⟩ := ih
    obtain ⟨m2, r2, s2⟩ := C61_rv_refines hard P F img h hd c hc _ _ (.tail (.refl _) hst) m1 s1
    exact ⟨m2, r1.trans (.of r2), s2⟩
  | sys _ hst ih =>
    obtain ⟨m1, r1, s1⟩ := ih
    obtain ⟨m2, r2, s2⟩ := C63_rv_syscall hard P F img h hd c hc os _ _ m1 s1 hst
    exact ⟨m2, r1.trans r2, s2⟩

/-- **C62.** Whole executions: if the IR program, started by the loader with stack pointer `sp0` (where `argc` and
`argv` are), runs its global initialisers and then `main` to completion with result `v`, performing any system calls,
then the machine with the compiled code, started at the entry point, performs the same system calls and ends in
`exit(v)` with the same memory. -/
theorem C62_rv_execution (hard : Bool) (P : Prog) (F : Flat) (img : List CInt)
    (h : compile target hard P = some (F, img)) (hd : P.DistinctBlocks) (c : Code) (hc : CodeAt c codeBase img)
    (os : IrM.Os) (m : State) (hpc : m.pc = codeBase) (v : IrM.Word) (mem : IrM.Mem)
    (hex : IrM.Execution (rvAbi (emitEnv target hard P F)) (rvProgram hard F) os
      ((rvAbi (emitEnv target hard P F)).blockAddr P.syscallBB) P.globalStack
      (codeBase + BitVec.ofNat 32 F.mainJump) ((rvAbi (emitEnv target hard P F)).blockAddr P.mainBB) (codeBase + 20)
      (rvStart hard P F m) v mem) :
    ∃ m', SysReaches c os m m' ∧ step c m' = .ecall m' ∧ m'.get 17#5 = 93#32 ∧ m'.get 10#5 = v ∧ m'.mem = mem := by
  obtain ⟨m1, r1, s1⟩ := C62_rv_entry hard P F img h hd c hc m hpc
  obtain ⟨t1, t2, x1, j1, x2, j2, rfl, rfl⟩ := hex
  obtain ⟨m2, r2, s2⟩ := rv_xrun hard P F img h hd c hc os _ _ x1 m1 s1
  obtain ⟨m3, r3, s3⟩ := C62_rv_main hard P F img h hd c hc _ m2 s2 j1
  obtain ⟨m4, r4, s4⟩ := rv_xrun hard P F img h hd c hc os _ _ x2 m3 s3
  obtain ⟨m5, r5, q1, q2, q3, q4⟩ := C62_rv_exit hard P F img h hd c hc m4 (by rw [s4.pc, j2])
  refine ⟨m5, ((SysReaches.of r1).trans (r2.trans ((SysReaches.of r3).trans (r4.trans (.of r5))))), q1, q2, ?_, ?_⟩
  · rw [q3]; exact s4.reg 0
  · rw [q4]; exact s4.mem

/-- The global-frame pointer never changes, so `main` always gets `argc`/`argv` from the initial stack pointer. -/
theorem C62_gp_constant (A : IrM.Abi) (P : IrM.Program) (os : IrM.Os) (sys : IrM.Word) (s t : IrM.State)
    (h : IrM.XRun A P os sys s t) : t.gp = s.gp := by
  induction h with
  | refl => rfl
  | tail _ hst ih =>
    obtain ⟨ir, nxt, _, hst⟩ := hst
    rw [← ih]
    cases hst <;> simp [IrM.setReg]
  | sys _ hst ih =>
    obtain ⟨_, _, _, _, _, rfl⟩ := hst
    exact ih

/-! Non-vacuity: a program with a global initialiser, a `main` that calls a function with a conditional branch, and an
execution of it. -/

def demoProg : Prog where
  globalBB := 1
  globalInsns := [{ op := .load_constant, dest := 0, src0 := 5 }, { op := .global_store, src0 := 0, src1 := 4 }]
  globalStack := 16
  syscallBB := 0
  fns := [
    { stackSize := 8
      entry := { id := 2, insns := [{ op := .branch, src0 := 0, then_bb := 3, else_bb := 4 }] }
      rest := [
        { id := 3, insns := [{ op := .load_constant, dest := 1, src0 := 100000 }, { op := .ret, src0 := 1 }] },
        { id := 4, insns := [{ op := .negate, dest := 0, src0 := 0 }, { op := .ret, src0 := 0 }] }] },
    { stackSize := 0
      entry := { id := 5, insns := [{ op := .global_load, dest := 0, src0 := 4 }, { op := .call, func_name := "f" },
        { op := .ret, src0 := -1 }] }
      rest := [] }]
  mainBB := 5
  funcBB n := if n = "f" then some 2 else none

example : demoProg.DistinctBlocks := by unfold Prog.DistinctBlocks; decide
example : ((compile target true demoProg).map fun r => (r.2.length, r.1.mainJump)) = some (65, 92) := by decide
example : ((compile target false demoProg).map fun r => r.1.fns.bbs) =
    some [(2, 116), (3, 152), (4, 184), (5, 212)] := by decide

theorem load32_store32 (m : IrM.Mem) (a v : IrM.Word) : IrM.load32 (IrM.store32 m a v) a = v := by
  have e : ∀ i j : IrM.Word, i ≠ j → a + i ≠ a + j := by
    intro i j h h2; exact h (by simpa using h2)
  have e0 : ∀ j : IrM.Word, j ≠ 0#32 → a ≠ a + j := by
    intro j h h2; exact h (by simpa using h2.symm)
  have h1 := e0 1#32 (by decide)
  have h2 := e0 2#32 (by decide)
  have h3 := e0 3#32 (by decide)
  have h12 := e 1#32 2#32 (by decide)
  have h13 := e 1#32 3#32 (by decide)
  have h23 := e 2#32 3#32 (by decide)
  simp only [IrM.load32, IrM.store32, IrM.store8, show (1 : IrM.Word) = 1#32 from rfl,
    show (2 : IrM.Word) = 2#32 from rfl, show (3 : IrM.Word) = 3#32 from rfl]
  simp only [h1, h2, h3, h12, h13, h23, if_true, if_false]
  apply BitVec.eq_of_getLsbD_eq
  intro i hi
  simp only [BitVec.getLsbD_append, BitVec.getLsbD_extractLsb']
  by_cases c1 : i < 8
  · simp [c1]
  · by_cases c2 : i < 16
    · simp [c1, show i - 8 < 8 by omega, show 8 + (i - 8) = i by omega]
    · by_cases c3 : i < 24
      · simp [c1, show ¬ i - 8 < 8 by omega, show i - 8 - 8 < 8 by omega, show 16 + (i - 8 - 8) = i by omega]
      · simp [c1, show ¬ i - 8 < 8 by omega, show ¬ i - 8 - 8 < 8 by omega, show i - 8 - 8 - 8 < 8 by omega,
          show 24 + (i - 8 - 8 - 8) = i by omega]

/-- `int main() { return 7; }` -/
def demoMain : Prog where
  globalBB := 1
  globalInsns := []
  globalStack := 4
  syscallBB := 0
  fns := [{ stackSize := 8, entry := { id := 2, insns := [{ op := .load_constant, dest := 3, src0 := 7 },
    { op := .ret, src0 := 3 }] }, rest := [] }]
  mainBB := 2
  funcBB _ := none

def demoFlat : Flat := ⟨[], 84, ⟨[(2, 108)], [(108, { op := .define, src0 := 8 }),
  (124, { op := .load_constant, dest := 3, src0 := 7 }), (128, { op := .ret, src0 := 3, src1 := 8 })], 152⟩⟩

example : (compile target true demoMain).map (·.1.fns.insns.length) = some 3 := by decide
example : demoMain.DistinctBlocks := by unfold Prog.DistinctBlocks; decide
example : cfgFlatten target true demoMain = some demoFlat := by rfl

/-- The hypotheses of `C62_rv_execution` are met by `demoMain`, which returns 7. -/
example (os : IrM.Os) (m : State) : ∃ mem, IrM.Execution (rvAbi (emitEnv target true demoMain demoFlat))
    (rvProgram true demoFlat) os
    ((rvAbi (emitEnv target true demoMain demoFlat)).blockAddr demoMain.syscallBB) demoMain.globalStack
    (codeBase + BitVec.ofNat 32 demoFlat.mainJump)
    ((rvAbi (emitEnv target true demoMain demoFlat)).blockAddr demoMain.mainBB) (codeBase + 20)
    (rvStart true demoMain demoFlat m) 7 mem := by
  have r0 := IrM.XRun.refl (A := rvAbi (emitEnv target true demoMain demoFlat)) (P := rvProgram true demoFlat)
    (os := os) (sys := (rvAbi (emitEnv target true demoMain demoFlat)).blockAddr demoMain.syscallBB)
    (IrM.enterMain demoMain.globalStack ((rvAbi (emitEnv target true demoMain demoFlat)).blockAddr demoMain.mainBB)
      (rvStart true demoMain demoFlat m))
  have r1 := r0.tail ⟨{ op := .define, src0 := 8 }, codeBase + BitVec.ofNat 32 (108 + 16),
      ⟨108, 16, by decide, rfl, rfl, rfl⟩, .define rfl⟩
  have r2 := r1.tail ⟨{ op := .load_constant, dest := 3, src0 := 7 }, codeBase + BitVec.ofNat 32 (124 + 4),
      ⟨124, 4, by decide, rfl, rfl, rfl⟩, .const (d := 3) rfl rfl⟩
  have r3 := r2.tail ⟨{ op := .ret, src0 := 3, src1 := 8 }, codeBase + BitVec.ofNat 32 (128 + 24),
      ⟨128, 24, by decide, rfl, rfl, rfl⟩, .ret (v := 7) (t := codeBase + 20) rfl (.inr ⟨3, rfl, rfl⟩) (by
        simp only [IrM.setReg, rvAbi, BitVec.ofNat_eq_ofNat, BitVec.add_zero]
        rw [load32_store32]; rfl) (by decide)⟩
  exact ⟨_, _, _, .refl _, rfl, r3, rfl, rfl, rfl⟩

end Shecc.Props
