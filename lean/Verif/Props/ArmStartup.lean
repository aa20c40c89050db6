import Verif.Props.ArmProgram
import Verif.Props.RvStartup

/-!
# C21, C62, C63 (ARM): branches, start-up code, system calls, whole executions
-/

namespace ARM

theorem SysReaches.trans {c : Code} {os : IrM.Os} {s t u : State} (h1 : SysReaches c os s t)
    (h2 : SysReaches c os t u) : SysReaches c os s u := by
  induction h2 with
  | refl => exact h1
  | next _ h ih => exact .next ih h
  | call _ h1 h2 ih => exact .call ih h1 h2

theorem SysReaches.of {c : Code} {os : IrM.Os} {s t : State} (h : Reaches c s t) : SysReaches c os s t := by
  induction h with
  | refl => exact .refl _
  | head h1 _ ih => exact .trans (.next (.refl _) h1) ih

theorem Ev.of_eq {c : Code} {s t : State} (h : s = t) {P : State → Prop} (h2 : Ev c s P) : ∃ u, Reaches c t u ∧ P u :=
  h ▸ h2

/-- `mov pc, rm` -/
theorem Ev.movpc {c : Code} {base : Word} {is : List Instr} {P : State → Prop} {s : State} (h : InstrAt c base is)
    (k : Nat) {rm rn : Reg}
    (hk : is[k]? = some ⟨14#4, .dp .mov false 15#4 rn (.shImm rm 0#2 0#5)⟩) (hr : rm ≠ 15#4)
    (hal : (s.regs rm).toNat % 4 = 0) (hn : Ev c (jumpTo (s.regs rm) s) P) : Ev c (goto base k s) P := by
  refine Ev.step (t := jumpTo (s.regs rm) s) ((h.step k hk rfl).trans ?_) hn
  unfold exec
  rw [if_pos (by simp [condHolds])]
  have e : (op2Val (goto base k s) (.shImm rm 0#2 0#5)).1 = s.regs rm := by
    show (goto base k s).get rm = _
    rw [get_regs _ hr]; rfl
  simp only [execAct, dpVal, DpOp.test, e, branchTo, if_pos hal]
  rfl

end ARM

namespace Shecc.Props
open ARM Shecc.Arm

/-- **C21 (ARM).** The code emitted for a conditional branch goes to the then block exactly when the condition register
is nonzero and to the else block otherwise, preserving memory and all registers but temporaries.  `hnext` is what
the layout must provide: the code after the branch is the block into which control falls through. -/
theorem C21_arm_branch (env : EmitEnv) (hbb : ∀ b, OfsOk (env.bbOfs b)) (hfn : ∀ n o, env.funcOfs n = some o → OfsOk o)
    (idx : CInt) (hidx : OfsOk idx) (hlen : idx.toNat + 12 ≤ 262144)
    (ir : Ph2Ir) (hop : ir.op = .branch) (a : BitVec 3) (ha : IrM.isReg ir.src0 a) (ws : List CInt)
    (he : emit_ph2_ir env idx ir = some ws)
    (hnext : env.bbOfs (if ir.is_branch_detached then ir.then_bb else ir.else_bb) = idx + BitVec.ofNat 32 (4 * ws.length))
    (c : Code) (m : State) (hc : CodeAt c m.pc ws) (hpc : m.pc = env.codeStart + idx) :
    ∃ m', Reaches c m m' ∧
      m'.pc = env.codeStart + env.bbOfs (if m.get (irReg a) ≠ 0#32 then ir.then_bb else ir.else_bb) ∧
      (∀ k, m'.get (irReg k) = m.get (irReg k)) ∧ m'.get 12#4 = m.get 12#4 ∧ m'.get 13#4 = m.get 13#4 ∧
      m'.get 14#4 = m.get 14#4 ∧ m'.mem = m.mem := by
  have hw : 4 * ws.length ≤ 12 := by
    simp only [emit_ph2_ir, hop] at he
    split at he <;> rw [arm_emits_length _ he] <;> simp
  have hs : Sim ⟨fun k => m.get (irReg k), m.get 13#4, m.get 12#4, m.get 14#4, none, m.mem, m.pc⟩ m :=
    ⟨fun _ => rfl, rfl, rfl, rfl, (fun _ h => (by cases h)), rfl, rfl⟩
  obtain ⟨m', r, s'⟩ := sim_insn env hbb hfn idx hidx ir ws he m hc hpc _ _ _ rfl (by omega)
    ⟨if ir.is_branch_detached then 12 else 8, by simp [sizeFlat, hop, target, Arm.sizeOf]⟩
    (fun _ => by rw [hnext, hpc, BitVec.add_assoc]) (IrM.Step.branch (A := armAbi env) hop ha) hs
  refine ⟨m', r, ?_, fun k => s'.reg k, s'.gp, s'.sp, s'.ra, s'.mem⟩
  have := s'.pc
  simp only [armAbi] at this
  rw [this]
  split <;> rfl

/-- The stubs as instructions. -/
def armStubs (g o : CInt) : List Instr :=
  let al (a : Act) : Instr := ⟨14#4, a⟩
  let mov (d m : Reg) : Instr := ⟨14#4, .dp .mov false d 0#4 (.shImm m 0#2 0#5)⟩
  [ al (.movw 8#4 (g.extractLsb' 0 16)), al (.movt 8#4 (g.extractLsb' 16 16)),
    al (.dp .sub false 13#4 13#4 (.shImm 8#4 0#2 0#5)), mov 12#4 13#4, al (.b true (o - 16 - 8)),
    al (.movw 8#4 (g.extractLsb' 0 16)), al (.movt 8#4 (g.extractLsb' 16 16)),
    al (.dp .add false 13#4 13#4 (.shImm 8#4 0#2 0#5)), mov 0#4 0#4, al (.dp .mov false 7#4 0#4 (.imm 1#12)),
    al (.svc 0#24),
    mov 7#4 0#4, mov 0#4 1#4, mov 1#4 2#4, mov 2#4 3#4, mov 3#4 4#4, mov 4#4 5#4, mov 5#4 6#4,
    al (.svc 0#24), mov 15#4 14#4 ]

theorem arm_stubs_decode (g o : CInt) (ho : OfsOk o) : Decodes (stubs g o) (armStubs g o) := by
  obtain ⟨r1, r2, r3⟩ := rel_range ho (b := 16) ⟨by decide, by decide⟩
  unfold stubs armStubs
  have hal : (14#4 : BitVec 4) ≠ 15#4 := by decide
  refine .cons (dec_movw 14#4 hal 8#4 _) ?_
  refine .cons (dec_movt 14#4 hal 8#4 _) ?_
  refine .cons' (dr_sub 14#4 hal 13#4 13#4 8#4) ?_
  refine .cons' (dr_mov 14#4 hal 12#4 13#4) ?_
  refine .cons (dec_bl 14#4 hal _ r1 r2 r3) ?_
  refine .cons (dec_movw 14#4 hal 8#4 _) ?_
  refine .cons (dec_movt 14#4 hal 8#4 _) ?_
  refine .cons' (dr_add 14#4 hal 13#4 13#4 8#4) ?_
  refine .cons' (dr_mov 14#4 hal 0#4 0#4) ?_
  refine .cons' (di_mov 14#4 hal 7#4 1 (by decide)) ?_
  refine .cons dec_svc ?_
  refine .cons' (dr_mov 14#4 hal 7#4 0#4) ?_
  refine .cons' (dr_mov 14#4 hal 0#4 1#4) ?_
  refine .cons' (dr_mov 14#4 hal 1#4 2#4) ?_
  refine .cons' (dr_mov 14#4 hal 2#4 3#4) ?_
  refine .cons' (dr_mov 14#4 hal 3#4 4#4) ?_
  refine .cons' (dr_mov 14#4 hal 4#4 5#4) ?_
  refine .cons' (dr_mov 14#4 hal 5#4 6#4) ?_
  refine .cons dec_svc ?_
  refine .cons' (dr_mov 14#4 hal 15#4 14#4) ?_
  exact .nil

theorem arm_compile_stubs {hard : Bool} {P : Prog} {F : Flat} {img : List CInt}
    (h : compile target hard P = some (F, img)) (hd : P.DistinctBlocks) (hP : P.ArmOk) {c : Code}
    (hc : CodeAt c codeBase img) : InstrAt c codeBase (armStubs P.globalStack 80) := by
  obtain ⟨⟨a, ha, hw, _⟩, _, _, _, _, _, _, h8, _⟩ := compile_spec arm_good h (arm_sizes h hP)
  rw [(h8 hd).2] at ha
  obtain ⟨ws, e1, e2⟩ := arm_stubs_decode P.globalStack 80 ⟨by decide, by decide⟩
  have : a = ws := by
    have h3 : stubs P.globalStack 80 = some a := ha
    rw [h3] at e1; exact Option.some.inj e1
  subst this
  have := arm_codeAt_of (k := 0) hc (by decide) hw
  simp only [BitVec.ofNat_eq_ofNat, BitVec.add_zero] at this
  exact .of_code this e2

/-- The IR state in which the program starts when the machine is in state `m` at the entry point. -/
def armStart (hard : Bool) (P : Prog) (F : Flat) (m : State) : IrM.State where
  reg k := m.get (irReg k)
  sp := m.get 13#4 - P.globalStack
  gp := m.get 13#4 - P.globalStack
  ra := codeBase + 20
  callee := none
  mem := m.mem
  pc := (armAbi (emitEnv target hard P F)).blockAddr P.globalBB

/-- **C62 (entry, ARM).** -/
theorem C62_arm_entry (hard : Bool) (P : Prog) (F : Flat) (img : List CInt)
    (h : compile target hard P = some (F, img)) (hd : P.DistinctBlocks) (hP : P.ArmOk) (c : Code)
    (hc : CodeAt c codeBase img) (m : State) (hpc : m.pc = codeBase) :
    ∃ m', Reaches c m m' ∧ Sim (armStart hard P F m) m' := by
  have hi := arm_compile_stubs h hd hP hc
  have h8 := (compile_spec arm_good h (arm_sizes h hP)).2.2.2.2.2.2.2.1
  have hg : (emitEnv target hard P F).bbOfs P.globalBB = 80#32 := by
    simp only [emitEnv, (h8 hd).2]; rfl
  have hg0 : goto codeBase 0 m = m := goto_of (by rw [hpc, atk_zero])
  have p8 : (8#4 : Reg) ≠ 15#4 := by decide
  apply Ev.of_eq hg0
  refine Ev.act hi 0 rfl p8 (Ev.act hi 1 rfl p8 (Ev.act hi 2 rfl ⟨by decide, by decide, p8⟩
    (Ev.act hi 3 rfl ⟨by decide, by decide, by decide⟩ (Ev.bl hi 4 rfl (Ev.now ?_)))))
  refine sim_of (fun k => ?_) ?_ ?_ ?_ (fun v h => by cases h) ?_ ?_
  · have f := irReg_facts k
    simp [set_regs, f, armStart, get_ir]
  · simp [set_regs, movwt _ 0#32, armStart, get_13]
  · simp [set_regs, movwt _ 0#32, armStart, get_13]
  · simp [set_regs, armStart]; decide
  · simp [armStart]
  · simp only [jumpTo_pc, armStart, armAbi, hg]; rfl

/-- **C62 (exit, ARM).** Returning from `main` to the exit stub performs `exit(result)`. -/
theorem C62_arm_exit (hard : Bool) (P : Prog) (F : Flat) (img : List CInt)
    (h : compile target hard P = some (F, img)) (hd : P.DistinctBlocks) (hP : P.ArmOk) (c : Code)
    (hc : CodeAt c codeBase img) (m : State) (hpc : m.pc = codeBase + 20) :
    ∃ m', Reaches c m m' ∧ step c m' = .svc m' ∧ m'.get 7#4 = 1#32 ∧ m'.get 0#4 = m.get 0#4 ∧ m'.mem = m.mem := by
  have hi := arm_compile_stubs h hd hP hc
  have hg0 : goto codeBase 5 m = m := goto_of (by rw [hpc]; rfl)
  have p8 : (8#4 : Reg) ≠ 15#4 := by decide
  apply Ev.of_eq hg0
  refine Ev.act hi 5 rfl p8 (Ev.act hi 6 rfl p8 (Ev.act hi 7 rfl ⟨by decide, by decide, p8⟩
    (Ev.act hi 8 rfl ⟨by decide, by decide, by decide⟩ (Ev.act hi 9 rfl ⟨by decide, by decide, trivial⟩ (Ev.now ?_)))))
  refine ⟨hi.step 10 rfl rfl, ?_, ?_, ?_⟩
  · rw [get_regs _ (by decide)]; simp [set_regs]
  · rw [get_regs _ (by decide), get_regs _ (by decide)]; simp [set_regs]
  · simp

/-- **C62 (main, ARM).** After the global initialisers, `main` is entered with `argc` and `argv` as the loader left
them at the initial stack pointer. -/
theorem C62_arm_main (hard : Bool) (P : Prog) (F : Flat) (img : List CInt)
    (h : compile target hard P = some (F, img)) (hd : P.DistinctBlocks) (hP : P.ArmOk) (c : Code)
    (hc : CodeAt c codeBase img)
    (s : IrM.State) (m : State) (hs : Sim s m) (hpc : s.pc = codeBase + BitVec.ofNat 32 F.mainJump) :
    ∃ m', Reaches c m m' ∧
      Sim (IrM.enterMain P.globalStack ((armAbi (emitEnv target hard P F)).blockAddr P.mainBB) s) m' := by
  obtain ⟨_, _, ⟨h1, w, h2, h3⟩, _, _, _, h7, _⟩ := compile_spec arm_good h (arm_sizes h hP)
  obtain ⟨hbb, _⟩ := arm_env_ok h hd hP
  have hle := h3.le
  have hw : w.length = 6 := arm_emits_length _ h2
  simp only [maxCode] at h7
  have hlt : (BitVec.ofNat 32 F.mainJump + 20#32).toNat = F.mainJump + 20 := by
    simp only [BitVec.toNat_add, BitVec.toNat_ofNat]; omega
  obtain ⟨r1, r2, r3⟩ := rel_range (hbb P.mainBB) (b := BitVec.ofNat 32 F.mainJump + 20#32)
    ⟨by rw [hlt]; omega, by rw [hlt]; omega⟩
  have hmpc : m.pc = codeBase + BitVec.ofNat 32 F.mainJump := by rw [hs.pc, hpc]
  have hca : CodeAt c m.pc w := by rw [hmpc]; exact arm_codeAt_of hc h1 h3
  have p8 : (8#4 : Reg) ≠ 15#4 := by decide
  have hal : (14#4 : BitVec 4) ≠ 15#4 := by decide
  obtain ⟨hi, _⟩ := instrAt (.cons (dec_movw 14#4 hal 8#4 _) (.cons (dec_movt 14#4 hal 8#4 _)
    (.cons' (dr_add 14#4 hal 8#4 12#4 8#4) (.cons (dt_lw 0#4 8#4 0 (by decide) (by decide))
    (.cons' (di_add 14#4 hal 1#4 8#4 4 (by decide)) (.cons (dec_b 14#4 hal _ r1 r2 r3) .nil)))))) h2 hca
  apply Ev.of_goto
  refine Ev.act hi 0 rfl p8 (Ev.act hi 1 rfl p8 (Ev.act hi 2 rfl ⟨p8, by decide, p8⟩
    (Ev.act hi 3 rfl ⟨by decide, p8⟩ (Ev.act hi 4 rfl ⟨by decide, p8, trivial⟩
    (Ev.bout hi 5 rfl (fun _ => Ev.now ?_) (fun h => by simp [condHolds] at h))))))
  refine sim_of (fun k => ?_) ?_ ?_ ?_ (fun v h => by cases h) ?_ ?_
  · have g := irReg_facts k
    by_cases h0 : k = 0
    · subst h0
      have e0 : irReg 0#3 = 0#4 := by decide
      simp [set_regs, e0, IrM.enterMain, movwt _ 0#32, load32_eq, hs.mem, hs.r12]
    · by_cases h1 : k = 1
      · subst h1
        have e1 : irReg 1#3 = 1#4 := by decide
        simp [set_regs, e1, IrM.enterMain, movwt _ 0#32, hs.r12]
      · have e1 : irReg k ≠ 0#4 := by revert h0; revert k; decide
        have e2 : irReg k ≠ 1#4 := by revert h1; revert k; decide
        simp only [IrM.enterMain, if_neg h0, if_neg h1]
        simp [set_regs, g, e1, e2, hs.regs]
  · simp [set_regs, hs.r13, IrM.enterMain]
  · simp [set_regs, hs.r12, IrM.enterMain]
  · simp [set_regs, hs.r14, IrM.enterMain]
  · simp [hs.mem, IrM.enterMain]
  · simp only [jumpTo_pc, IrM.enterMain, armAbi, hmpc, pc_add]
    exact b_target ..

/-- **C63 (ARM).** Calling `__syscall(n, a1, .., a6)` performs supervisor call `n` with those arguments and returns its
result to the caller. -/
theorem C63_arm_syscall (hard : Bool) (P : Prog) (F : Flat) (img : List CInt)
    (h : compile target hard P = some (F, img)) (hd : P.DistinctBlocks) (hP : P.ArmOk) (c : Code)
    (hc : CodeAt c codeBase img)
    (os : IrM.Os) (s t : IrM.State) (m : State) (hs : Sim s m)
    (hst : IrM.SysStep os ((armAbi (emitEnv target hard P F)).blockAddr P.syscallBB) s t) :
    ∃ m', SysReaches c os m m' ∧ Sim t m' := by
  have hi := arm_compile_stubs h hd hP hc
  have h8 := (compile_spec arm_good h (arm_sizes h hP)).2.2.2.2.2.2.2.1
  have hg : (emitEnv target hard P F).bbOfs P.syscallBB = 44#32 := by
    simp only [emitEnv, (h8 hd).1]; rfl
  obtain ⟨hp, hal, r, mem', ho, rfl⟩ := hst
  have hm : goto codeBase 11 m = m := goto_of (by rw [hs.pc, hp]; simp only [armAbi, hg]; rfl)
  have key : ∃ m1, Reaches c m m1 ∧ m1.pc = atk codeBase 18 ∧ m1.mem = m.mem ∧ m1.regs 7#4 = s.reg 0 ∧
      (∀ k : BitVec 3, k ≠ 7 → k ≠ 6 → m1.regs (irReg k) = s.reg (k + 1)) ∧ m1.regs 6#4 = s.reg 6 ∧
      m1.regs 14#4 = s.ra ∧ m1.regs 13#4 = s.sp ∧ m1.regs 12#4 = s.gp := by
    apply Ev.of_eq hm
    have pl : ∀ d q : Reg, d ≠ 15#4 → q ≠ 15#4 → Act.plain (.dp .mov false d 0#4 (.shImm q 0#2 0#5)) :=
      fun d q h1 h2 => ⟨h1, by decide, h2⟩
    refine Ev.act hi 11 rfl (pl _ _ (by decide) (by decide)) (Ev.act hi 12 rfl (pl _ _ (by decide) (by decide))
      (Ev.act hi 13 rfl (pl _ _ (by decide) (by decide)) (Ev.act hi 14 rfl (pl _ _ (by decide) (by decide))
      (Ev.act hi 15 rfl (pl _ _ (by decide) (by decide)) (Ev.act hi 16 rfl (pl _ _ (by decide) (by decide))
      (Ev.act hi 17 rfl (pl _ _ (by decide) (by decide)) (Ev.now ⟨rfl, ?_, ?_, ?_, ?_, ?_, ?_, ?_⟩)))))))
    · simp
    · have := hs.regs 0
      simpa [set_regs, irReg] using this
    · have h1 := hs.regs 1
      have h2 := hs.regs 2
      have h3 := hs.regs 3
      have h4 := hs.regs 4
      have h5 := hs.regs 5
      have h6 := hs.regs 6
      have all : ∀ k : BitVec 3, k = 0 ∨ k = 1 ∨ k = 2 ∨ k = 3 ∨ k = 4 ∨ k = 5 ∨ k = 6 ∨ k = 7 := by decide
      intro k e7 e6
      rcases all k with rfl | rfl | rfl | rfl | rfl | rfl | rfl | rfl
      · simpa [set_regs, irReg] using h1
      · simpa [set_regs, irReg] using h2
      · simpa [set_regs, irReg] using h3
      · simpa [set_regs, irReg] using h4
      · simpa [set_regs, irReg] using h5
      · simpa [set_regs, irReg] using h6
      · exact absurd rfl e6
      · exact absurd rfl e7
    · have := hs.regs 6
      simpa [set_regs, irReg] using this
    · simpa [set_regs] using hs.r14
    · simpa [set_regs] using hs.r13
    · simpa [set_regs] using hs.r12
  obtain ⟨m1, r1, p1, p2, p3, p4, p5, p6, p7, p8⟩ := key
  have hec : step c m1 = .svc m1 := hi.step 18 rfl p1
  have hos : os (m1.get 7#4) (fun i => m1.get (BitVec.ofNat 4 i.val)) m1.mem r mem' := by
    rw [get_regs _ (by decide), p3, p2, hs.mem]
    have : (fun i : Fin 6 => m1.get (BitVec.ofNat 4 i.val)) = fun i => s.reg (BitVec.ofNat 3 (i.val + 1)) := by
      funext i
      have e1 : irReg (BitVec.ofNat 3 i.val) = BitVec.ofNat 4 i.val := by revert i; decide
      have e2 : BitVec.ofNat 3 i.val + 1 = BitVec.ofNat 3 (i.val + 1) := by clear e1; revert i; decide
      have := p4 (BitVec.ofNat 3 i.val) (by clear e1 e2; revert i; decide) (by clear e1 e2; revert i; decide)
      rw [← get_ir, e1, e2] at this
      exact this
    rw [this]; exact ho
  generalize hm2 : ({ m1.set 0#4 r with mem := mem', pc := m1.pc + 4 } : State) = m2
  have q0 : ∀ q, m2.regs q = (m1.set 0#4 r).regs q := by intro q; rw [← hm2]
  have q1 : m2.mem = mem' := by rw [← hm2]
  have q2 : m2.pc = atk codeBase 19 := by rw [← hm2]; simp only [p1]; exact atk_succ ..
  have hm3 : goto codeBase 19 m2 = m2 := goto_of q2
  have q14 : m2.regs 14#4 = s.ra := by rw [q0]; simp [set_regs, p6]
  have fin : Ev c m2 (fun m' => m'.pc = s.ra ∧ m'.mem = mem' ∧ ∀ q, m'.regs q = m2.regs q) := by
    apply Ev.of_eq hm3
    refine Ev.movpc hi 19 rfl (by decide) (by rw [q14]; exact hal) (Ev.now ⟨?_, ?_, ?_⟩)
    · simp [q14]
    · simp [q1]
    · intro q; simp
  obtain ⟨m4, r4, e1, e2, e3⟩ := fin
  have hr2 : SysReaches c os m m2 := by
    rw [← hm2]
    exact .call (.of r1) hec hos
  refine ⟨m4, hr2.trans (.of r4), ?_⟩
  refine sim_of (fun k => ?_) ?_ ?_ ?_ (fun v h => by cases h) e2 e1
  · rw [e3, q0]
    simp only
    by_cases h0 : k = 0
    · subst h0; simp [set_regs, irReg]
    · have n0 : irReg k ≠ 0#4 := by revert h0; revert k; decide
      rw [if_neg h0]
      rw [set_regs, if_neg n0]
      by_cases h7 : k = 7
      · subst h7; simpa [irReg] using p3
      · rw [if_neg h7]
        by_cases h6 : k = 6
        · subst h6; simpa [irReg] using p5
        · rw [if_neg h6, p4 k h7 h6]
  · rw [e3, q0, set_regs]; simp [p7]
  · rw [e3, q0, set_regs]; simp [p8]
  · rw [e3, q14]

theorem arm_xrun (hard : Bool) (P : Prog) (F : Flat) (img : List CInt)
    (h : compile target hard P = some (F, img)) (hd : P.DistinctBlocks) (hP : P.ArmOk) (c : Code)
    (hc : CodeAt c codeBase img) (os : IrM.Os) (s t : IrM.State)
    (hrun : IrM.XRun (armAbi (emitEnv target hard P F)) (armProgram hard F) os
      ((armAbi (emitEnv target hard P F)).blockAddr P.syscallBB) s t)
    (m : State) (hm : Sim s m) : ∃ m', SysReaches c os m m' ∧ Sim t m' := by
  induction hrun with
  | refl => exact ⟨m, .refl _, hm⟩
  | tail _ hst ih =>
    obtain ⟨m1, r1, s1⟩ := ih
    obtain ⟨m2, r2, s2⟩ := C61_arm_refines hard P F img h hd hP c hc _ _ (.tail (.refl _) hst) m1 s1
    exact ⟨m2, r1.trans (.of r2), s2⟩
  | sys _ hst ih =>
    obtain ⟨m1, r1, s1⟩ := ih
    obtain ⟨m2, r2, s2⟩ := C63_arm_syscall hard P F img h hd hP c hc os _ _ m1 s1 hst
    exact ⟨m2, r1.trans r2, s2⟩

/-- **C62 (ARM).** Whole executions: if the IR program, started by the loader, runs its global initialisers and then
`main` to completion with result `v`, performing any system calls, then the machine with the compiled code, started at
the entry point, performs the same system calls and ends in `exit(v)` with the same memory. -/
theorem C62_arm_execution (hard : Bool) (P : Prog) (F : Flat) (img : List CInt)
    (h : compile target hard P = some (F, img)) (hd : P.DistinctBlocks) (hP : P.ArmOk) (c : Code)
    (hc : CodeAt c codeBase img)
    (os : IrM.Os) (m : State) (hpc : m.pc = codeBase) (v : IrM.Word) (mem : IrM.Mem)
    (hex : IrM.Execution (armAbi (emitEnv target hard P F)) (armProgram hard F) os
      ((armAbi (emitEnv target hard P F)).blockAddr P.syscallBB) P.globalStack
      (codeBase + BitVec.ofNat 32 F.mainJump) ((armAbi (emitEnv target hard P F)).blockAddr P.mainBB) (codeBase + 20)
      (armStart hard P F m) v mem) :
    ∃ m', SysReaches c os m m' ∧ step c m' = .svc m' ∧ m'.get 7#4 = 1#32 ∧ m'.get 0#4 = v ∧ m'.mem = mem := by
  obtain ⟨m1, r1, s1⟩ := C62_arm_entry hard P F img h hd hP c hc m hpc
  obtain ⟨t1, t2, x1, j1, x2, j2, rfl, rfl⟩ := hex
  obtain ⟨m2, r2, s2⟩ := arm_xrun hard P F img h hd hP c hc os _ _ x1 m1 s1
  obtain ⟨m3, r3, s3⟩ := C62_arm_main hard P F img h hd hP c hc _ m2 s2 j1
  obtain ⟨m4, r4, s4⟩ := arm_xrun hard P F img h hd hP c hc os _ _ x2 m3 s3
  obtain ⟨m5, r5, q1, q2, q3, q4⟩ := C62_arm_exit hard P F img h hd hP c hc m4 (by rw [s4.pc, j2])
  refine ⟨m5, ((SysReaches.of r1).trans (r2.trans ((SysReaches.of r3).trans (r4.trans (.of r5))))), q1, q2, ?_, ?_⟩
  · rw [q3]; exact s4.reg 0
  · rw [q4]; exact s4.mem

/-! Non-vacuity.  `ArmOk` can be checked by evaluation. -/

def armOkInsns (next : Option Nat) : List Ph2Ir → Bool
  | [] => true
  | ir :: zs => (decide (ir.op ≠ .assign) || decide (ir.dest ≠ ir.src0)) &&
      (decide (ir.op ≠ .branch) || (zs.isEmpty && !ir.is_branch_detached &&
        (decide (next = some ir.else_bb) || decide (next = some ir.then_bb)))) && armOkInsns next zs

def armOkBlocks : List Block → Bool
  | [] => true
  | b :: post => armOkInsns (post.head?.map (·.id)) b.insns && armOkBlocks post

theorem armOkInsns_spec {next : Option Nat} (l : List Ph2Ir) (h : armOkInsns next l = true) :
    ∀ xs ir zs, l = xs ++ ir :: zs → (ir.op = .assign → ir.dest ≠ ir.src0) ∧
    (ir.op = .branch → zs = [] ∧ ir.is_branch_detached = false ∧ (next = some ir.else_bb ∨ next = some ir.then_bb)) := by
  induction l with
  | nil => intro xs ir zs e; simp at e
  | cons i l ih =>
    simp only [armOkInsns, Bool.and_eq_true, Bool.or_eq_true, decide_eq_true_eq] at h
    obtain ⟨⟨h1, h2⟩, h3⟩ := h
    intro xs ir zs e
    cases xs with
    | nil =>
      simp only [List.nil_append, List.cons.injEq] at e
      obtain ⟨rfl, rfl⟩ := e
      refine ⟨fun e => h1.resolve_left (fun h => h e), fun e => ?_⟩
      obtain ⟨⟨a1, a2⟩, a3⟩ := h2.resolve_left (fun h => h e)
      exact ⟨by simpa using a1, by simpa using a2, a3⟩
    | cons x xs =>
      simp only [List.cons_append, List.cons.injEq] at e
      exact ih h3 xs ir zs e.2

theorem armOkBlocks_spec (l : List Block) (h : armOkBlocks l = true) :
    ∀ pre b post, l = pre ++ b :: post → b.ArmOk (post.head?.map (·.id)) := by
  induction l with
  | nil => intro xs ir zs e; simp at e
  | cons i l ih =>
    simp only [armOkBlocks, Bool.and_eq_true] at h
    intro pre b post e
    cases pre with
    | nil =>
      simp only [List.nil_append, List.cons.injEq] at e
      obtain ⟨rfl, rfl⟩ := e
      exact armOkInsns_spec _ h.1
    | cons x pre =>
      simp only [List.cons_append, List.cons.injEq] at e
      exact ih h.2 pre b post e.2

theorem armOk_of_check {P : Prog}
    (h1 : ∀ ir ∈ P.globalInsns, ir.op ≠ .branch ∧ (ir.op = .assign → ir.dest ≠ ir.src0))
    (h2 : ∀ f ∈ P.fns, armOkBlocks f.blocks = true) : P.ArmOk :=
  ⟨h1, fun f hf => armOkBlocks_spec _ (h2 f hf)⟩

/-- The demo program (a branch whose then block comes next, so the branch is detached) meets the assumptions. -/
example : demoProg.ArmOk := armOk_of_check (by decide) (by decide)
example : ((compile target true demoProg).map fun r => (r.2.length, r.1.mainJump)) = some (62, 88) := by decide
example : ((compile target false demoProg).map fun r => r.1.fns.bbs) =
    some [(2, 112), (3, 140), (4, 172), (5, 200)] := by decide
/-- Same program with the blocks in the other order: the branch falls through to its else block. -/
example : armOkBlocks [{ id := 2, insns := [{ op := .branch, src0 := 0, then_bb := 3, else_bb := 4 }] },
  { id := 4, insns := [] }, { id := 3, insns := [] }] = true := by decide

def armDemoFlat : Flat := ⟨[], 80, ⟨[(2, 104)], [(104, { op := .define, src0 := 8 }),
  (120, { op := .load_constant, dest := 3, src0 := 7 }), (124, { op := .ret, src0 := 3, src1 := 8 })], 148⟩⟩

example : demoMain.ArmOk := armOk_of_check (by decide) (by decide)
example : (compile target true demoMain).map (·.1.fns.insns.length) = some 3 := by decide
example : cfgFlatten target true demoMain = some armDemoFlat := by rfl

/-- The hypotheses of `C62_arm_execution` are met by `demoMain`, which returns 7. -/
example (os : IrM.Os) (m : State) : ∃ mem, IrM.Execution (armAbi (emitEnv target true demoMain armDemoFlat))
    (armProgram true armDemoFlat) os
    ((armAbi (emitEnv target true demoMain armDemoFlat)).blockAddr demoMain.syscallBB) demoMain.globalStack
    (codeBase + BitVec.ofNat 32 armDemoFlat.mainJump)
    ((armAbi (emitEnv target true demoMain armDemoFlat)).blockAddr demoMain.mainBB) (codeBase + 20)
    (armStart true demoMain armDemoFlat m) 7 mem := by
  have r0 := IrM.XRun.refl (A := armAbi (emitEnv target true demoMain armDemoFlat)) (P := armProgram true armDemoFlat)
    (os := os) (sys := (armAbi (emitEnv target true demoMain armDemoFlat)).blockAddr demoMain.syscallBB)
    (IrM.enterMain demoMain.globalStack ((armAbi (emitEnv target true demoMain armDemoFlat)).blockAddr demoMain.mainBB)
      (armStart true demoMain armDemoFlat m))
  have r1 := r0.tail ⟨{ op := .define, src0 := 8 }, codeBase + BitVec.ofNat 32 (104 + 16),
      ⟨104, 16, by decide, rfl, rfl, rfl⟩, .define rfl⟩
  have r2 := r1.tail ⟨{ op := .load_constant, dest := 3, src0 := 7 }, codeBase + BitVec.ofNat 32 (120 + 4),
      ⟨120, 4, by decide, rfl, rfl, rfl⟩, .const (d := 3) rfl rfl⟩
  have r3 := r2.tail ⟨{ op := .ret, src0 := 3, src1 := 8 }, codeBase + BitVec.ofNat 32 (124 + 24),
      ⟨124, 24, by decide, rfl, rfl, rfl⟩, .ret (v := 7) (t := codeBase + 20) rfl (.inr ⟨3, rfl, rfl⟩) (by
        simp only [IrM.setReg, armAbi]
        rw [load32_store32]; rfl) (by decide)⟩
  exact ⟨_, _, _, .refl _, rfl, r3, rfl, rfl, rfl⟩

end Shecc.Props
