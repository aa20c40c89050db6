import Verif.Props.SsaReach
import Verif.Props.SsaImage

/-!
# C92: the image of a program makes the system calls the program makes
-/

namespace RV32
open Shecc Shecc.Riscv Shecc.Props

/-- `__syscall`, up to the environment call. -/
theorem rv_syscall_reach (hard : Bool) (P : Prog) (F : Flat) (img : List CInt)
    (h : compile target hard P = some (F, img)) (hd : P.DistinctBlocks) (c : Code) (hc : CodeAt c codeBase img)
    (s : IrM.State) (m : State) (hs : Sim s m) (hp : s.pc = (rvAbi (emitEnv target hard P F)).blockAddr P.syscallBB) :
    ∃ m1, Reaches c m m1 ∧ step c m1 = .ecall m1 ∧ m1.mem = s.mem ∧ m1.get 17#5 = s.reg 0 ∧
      ∀ i : Fin 6, m1.get (BitVec.ofNat 5 (i.val + 10)) = s.reg (BitVec.ofNat 3 (i.val + 1)) := by
  have hi := compile_stubs h hd hc
  have h8 := (compile_spec rv_good h (rv_sizes _ _)).2.2.2.2.2.2.2.1
  have hg : (emitEnv target hard P F).bbOfs P.syscallBB = 48#32 := by
    simp only [emitEnv, (h8 hd).1]; rfl
  have hm : goto codeBase 12 m = m := goto_of (by rw [hs.pc, hp]; simp only [rvAbi, hg]; rfl)
  have key : ∃ m1, Reaches c m m1 ∧ m1.pc = atk codeBase 19 ∧ m1.mem = m.mem ∧ m1.get 17#5 = s.reg 0 ∧
      (∀ k : BitVec 3, k ≠ 7 → k ≠ 6 → m1.get (irReg k) = s.reg (k + 1)) ∧ m1.get 16#5 = s.reg 6 ∧
      m1.get 1#5 = s.ra ∧ m1.get 2#5 = s.sp ∧ m1.get 3#5 = s.gp := by
    apply Ev.of_eq hm
    refine Ev.i hi 12 rfl (Ev.i hi 13 rfl (Ev.i hi 14 rfl (Ev.i hi 15 rfl (Ev.i hi 16 rfl (Ev.i hi 17 rfl
      (Ev.i hi 18 rfl (Ev.now ⟨rfl, ?_, ?_, ?_, ?_, ?_, ?_, ?_⟩)))))))
    · simp
    · have := hs.reg 0
      simpa [get_set, aluI, irReg] using this
    · have h1 := hs.reg 1
      have h2 := hs.reg 2
      have h3 := hs.reg 3
      have h4 := hs.reg 4
      have h5 := hs.reg 5
      have h6 := hs.reg 6
      have all : ∀ k : BitVec 3, k = 0 ∨ k = 1 ∨ k = 2 ∨ k = 3 ∨ k = 4 ∨ k = 5 ∨ k = 6 ∨ k = 7 := by decide
      intro k e7 e6
      rcases all k with rfl | rfl | rfl | rfl | rfl | rfl | rfl | rfl
      · simpa [get_set, aluI, irReg] using h1
      · simpa [get_set, aluI, irReg] using h2
      · simpa [get_set, aluI, irReg] using h3
      · simpa [get_set, aluI, irReg] using h4
      · simpa [get_set, aluI, irReg] using h5
      · simpa [get_set, aluI, irReg] using h6
      · exact absurd rfl e6
      · exact absurd rfl e7
    · have := hs.reg 6
      simpa [get_set, aluI, irReg] using this
    · simpa [get_set, aluI] using hs.ra
    · simpa [get_set, aluI] using hs.sp
    · simpa [get_set, aluI] using hs.gp
  obtain ⟨m1, r1, p1, p2, p3, p4, p5, p6, p7, p8⟩ := key
  have hec : step c m1 = .ecall m1 := hi.step 19 rfl p1
  refine ⟨m1, r1, hec, by rw [p2, hs.mem], p3, ?_⟩
  intro i
  have e1 : irReg (BitVec.ofNat 3 i.val) = BitVec.ofNat 5 (i.val + 10) := by revert i; decide
  have e2 : BitVec.ofNat 3 i.val + 1 = BitVec.ofNat 3 (i.val + 1) := by clear e1; revert i; decide
  have := p4 (BitVec.ofNat 3 i.val) (by clear e1 e2; revert i; decide) (by clear e1 e2; revert i; decide)
  rw [e1, e2] at this
  exact this

end RV32

namespace ARM
open Shecc Shecc.Arm Shecc.Props

/-- `__syscall`, up to the supervisor call. -/
theorem arm_syscall_reach (hard : Bool) (P : Prog) (F : Flat) (img : List CInt)
    (h : compile target hard P = some (F, img)) (hd : P.DistinctBlocks) (hP : P.ArmOk) (c : Code) (hc : CodeAt c codeBase img)
    (s : IrM.State) (m : State) (hs : Sim s m) (hp : s.pc = (armAbi (emitEnv target hard P F)).blockAddr P.syscallBB) :
    ∃ m1, Reaches c m m1 ∧ step c m1 = .svc m1 ∧ m1.mem = s.mem ∧ m1.get 7#4 = s.reg 0 ∧
      ∀ i : Fin 6, m1.get (BitVec.ofNat 4 i.val) = s.reg (BitVec.ofNat 3 (i.val + 1)) := by
  have hi := arm_compile_stubs h hd hP hc
  have h8 := (compile_spec arm_good h (arm_sizes h hP)).2.2.2.2.2.2.2.1
  have hg : (emitEnv target hard P F).bbOfs P.syscallBB = 44#32 := by
    simp only [emitEnv, (h8 hd).1]; rfl
  have hm : goto codeBase 11 m = m := goto_of (by rw [hs.pc, hp]; simp only [armAbi, hg]; rfl)
  have key : ∃ m1, Reaches c m m1 ∧ m1.pc = atk codeBase 18 ∧ m1.mem = m.mem ∧ m1.regs 7#4 = s.reg 0 ∧
      (∀ k : BitVec 3, k ≠ 7 → k ≠ 6 → m1.regs (irReg k) = s.reg (k + 1)) ∧ m1.regs 6#4 = s.reg 6 ∧
      m1.regs 14#4 = s.ra ∧ m1.regs 13#4 = s.sp ∧ m1.regs 12#4 = s.gp := by
    apply Ev.of_eq hm
    have pl : ∀ d q : Reg, d ≠ 15#4 → q ≠ 15#4 → Act.plain (.dp .mov false d 0#4 (.shImm q 0#2 0#5)) :=
      fun d q h1 h2 => ⟨h1, by decide, h2⟩
    refine Ev.act hi 11 rfl (pl _ _ (by decide) (by decide)) (Ev.act hi 12 rfl (pl _ _ (by decide) (by decide))
      (Ev.act hi 13 rfl (pl _ _ (by decide) (by decide)) (Ev.act hi 14 rfl (pl _ _ (by decide) (by decide))
      (Ev.act hi 15 rfl (pl _ _ (by decide) (by decide)) (Ev.act hi 16 rfl (pl _ _ (by decide) (by decide))
      (Ev.act hi 17 rfl (pl _ _ (by decide) (by decide)) (Ev.now ⟨rfl, ?_, ?_, ?_, ?_, ?_, ?_, ?_⟩)))))))
    · simp
    · have := hs.regs 0
      simpa [set_regs, irReg] using this
    · have h1 := hs.regs 1
      have h2 := hs.regs 2
      have h3 := hs.regs 3
      have h4 := hs.regs 4
      have h5 := hs.regs 5
      have h6 := hs.regs 6
      have all : ∀ k : BitVec 3, k = 0 ∨ k = 1 ∨ k = 2 ∨ k = 3 ∨ k = 4 ∨ k = 5 ∨ k = 6 ∨ k = 7 := by decide
      intro k e7 e6
      rcases all k with rfl | rfl | rfl | rfl | rfl | rfl | rfl | rfl
      · simpa [set_regs, irReg] using h1
      · simpa [set_regs, irReg] using h2
      · simpa [set_regs, irReg] using h3
      · simpa [set_regs, irReg] using h4
      · simpa [set_regs, irReg] using h5
      · simpa [set_regs, irReg] using h6
      · exact absurd rfl e6
      · exact absurd rfl e7
    · have := hs.regs 6
      simpa [set_regs, irReg] using this
    · simpa [set_regs] using hs.r14
    · simpa [set_regs] using hs.r13
    · simpa [set_regs] using hs.r12
  obtain ⟨m1, r1, p1, p2, p3, p4, p5, p6, p7, p8⟩ := key
  have hec : step c m1 = .svc m1 := hi.step 18 rfl p1
  refine ⟨m1, r1, hec, by rw [p2, hs.mem], by rw [get_regs _ (by decide), p3], ?_⟩
  intro i
  have e1 : irReg (BitVec.ofNat 3 i.val) = BitVec.ofNat 4 i.val := by revert i; decide
  have e2 : BitVec.ofNat 3 i.val + 1 = BitVec.ofNat 3 (i.val + 1) := by clear e1; revert i; decide
  have := p4 (BitVec.ofNat 3 i.val) (by clear e1 e2; revert i; decide) (by clear e1 e2; revert i; decide)
  rw [← get_ir, e1, e2] at this
  exact this

end ARM

namespace Shecc.Props
open Shecc Shecc.Ssa Shecc.RegAlloc Shecc.GlobalInit IrM SrcBlock RaFn SsaProg CGlobals

/-- A whole program on the machine of the second-phase instructions, up to a system call. -/
theorem whole_reach {T : Target} (hT : T.Good) {hard : Bool} {Q : Prog} {F : Flat} {img : List CInt}
    (h : compile T hard (Peep.prog Q) = some (F, img)) (hd : Q.DistinctBlocks)
    (hs : SizesAgree T (emitEnv T hard (Peep.prog Q) F) (F.located.map (·.2))) {A : Abi} (hA : AbiOk A)
    (hb : ∀ b, A.blockAddr b = codeBase + (emitEnv T hard (Peep.prog Q) F).bbOfs b)
    (hf : ∀ g, A.funcAddr g = (Q.funcBB g).map A.blockAddr)
    {V : Vars} {K : Nat → Kind} {ds : List Decl} {fin : RA} {sp0 : Word} {Pr : SrcProg}
    (hv : A.byteVal = Pr.byteVal) (hda : A.dataAddr = Pr.dataAddr)
    (W : Whole Q V K ds fin sp0 Pr) {R : (Word → Prop) → List Word → Mem → Prop} {s : State} (hpc : s.pc = A.blockAddr Q.globalBB)
    (hg0 : (emitEnv T hard (Peep.prog Q) F).bbOfs Q.globalBB = BitVec.ofNat 32 T.globalOfs)
    (hsp : s.sp = sp0 - num fin.stack) (hgp : s.gp = sp0 - num fin.stack) (hra : s.ra = codeBase + 20)
    (hx : Makes V K ds fin sp0 Pr R s.mem) :
    ∃ u w, XRun A (progOf T hard F) Pr.os (A.blockAddr Q.syscallBB) s u ∧ u.pc = codeBase + BitVec.ofNat 32 F.mainJump ∧
      XRun A (progOf T hard F) Pr.os (A.blockAddr Q.syscallBB) (enterMain Q.globalStack (A.blockAddr Q.mainBB) u) w ∧
      AtSystemCall (A.blockAddr Q.syscallBB) R w := by
  obtain ⟨fin', e1, ap, run⟩ := C84_globals V K ds W.proper
  rw [W.alloc] at e1
  cases e1
  obtain ⟨g1, g2, g3⟩ := whole_globals W ap
  have L := linked_of hT h hd hs hA hb hf hv hda W.built g2
  obtain ⟨l, l1, l2⟩ := (compile_laid hT h (peep_distinct hd) hb).2
  have l1 : layInsns T hard T.globalOfs Q.globalInsns = some (l, F.mainJump) := l1
  have hout : fin.out = declsCode V K 4 ds := by
    have hsz := W.proper.size
    obtain ⟨f, h1, _, h3, _⟩ := decls_alloc V K ds { stack := 4 } W.proper.distinct W.proper.global W.proper.temp W.proper.noArray
      (by show 4 + total K ds < 2 ^ 31; omega) rfl (Nat.le_refl 4)
    have : some f = some fin := h1.symm.trans W.alloc
    cases this
    exact h3
  have hops : ∀ ir ∈ Q.globalInsns, ir.op ≠ .define ∧ ir.op ≠ .ret ∧ ir.op ≠ .branch := by
    rw [W.code, hout]; exact global_ops ds 4
  have hmap : Q.globalInsns.map (prepInsn T 0 none) = Q.globalInsns := by
    have : ∀ l : List Ph2Ir, (∀ ir ∈ l, ir.op ≠ .define ∧ ir.op ≠ .ret ∧ ir.op ≠ .branch) → l.map (prepInsn T 0 none) = l := by
      intro l hl
      induction l with
      | nil => rfl
      | cons i l ih =>
        simp only [List.map_cons]
        rw [prep_id T 0 none (hl i List.mem_cons_self).2.1 (hl i List.mem_cons_self).2.2, ih (fun j hj => hl j (List.mem_cons_of_mem _ hj))]
    exact this _ hops
  rw [← hmap] at l1
  have hat := lay_at (F := F) _ (fun ir hi => (hops ir hi).1) l1 l2
  rw [W.code] at hat
  obtain ⟨u, x1, q1, q2, q3, q4, q5⟩ := run A _ Pr.os (A.blockAddr Q.syscallBB) _ _ hat s (by rw [hpc, hb, hg0])
  obtain ⟨m1, n, f, i1, hf1, hcall⟩ := hx
  have hm1 : m1 = u.mem := initialised_unique i1 (by rw [← hgp]; exact q5)
  have hlen : (mainArgs m1 sp0 f.params.length).length = f.params.length := by
    cases n with
    | zero => exact hcall.elim
    | succ n =>
      unfold Reaches at hcall
      rw [if_neg (by decide)] at hcall
      obtain ⟨f', e, e2, _⟩ := hcall
      rw [hf1] at e
      cases e
      exact e2
  have hsp0 : s.gp + Q.globalStack = sp0 := by
    rw [hgp, W.size, BitVec.sub_add_cancel]
  have hcd : Called Pr (stackBelow Pr (sp0 - num fin.stack)) (sp0 - num fin.stack) (sp0 - num fin.stack) (A.blockAddr Q.mainBB)
      (codeBase + 20) (mainArgs m1 sp0 f.params.length) m1 (enterMain Q.globalStack (A.blockAddr Q.mainBB) u) := by
    refine ⟨rfl, q4.trans hra, q2.trans hsp, q3.trans hgp, ?_, ?_⟩
    · intro k hk
      have e0 : (mainArgs m1 sp0 f.params.length).getD k 0 = [load32 m1 sp0, sp0 + 4].getD k 0 := by
        unfold mainArgs
        rw [List.getD_eq_getElem?_getD, List.getElem?_take_of_lt (by omega), ← List.getD_eq_getElem?_getD]
      have h2 : (mainArgs m1 sp0 f.params.length).length ≤ 2 := by
        unfold mainArgs; rw [List.length_take]; exact Nat.min_le_right _ _
      have : k = 0 ∨ k = 1 := by omega
      rw [e0]
      rcases this with rfl | rfl
      · show load32 u.mem (u.gp + Q.globalStack) = load32 m1 sp0
        rw [hm1, q3, hsp0]
      · show u.gp + Q.globalStack + 4 = sp0 + 4
        rw [q3, hsp0]
    · intro a _
      rw [hm1]; rfl
  obtain ⟨w, x2, bk⟩ := C92_program_partial L n hcall g3 (a := A.blockAddr Q.mainBB) (ra := codeBase + 20) (by rw [hf, W.main]; rfl)
    (by decide) hcd
  exact ⟨u, w, x1, q1, x2, bk⟩

/-- **C92 (RISC-V).** The image of a whole program, run from the loader: if in the source the global variables are initialised and `main`,
called with `argc` and `argv`, gets to a system call that `R` describes - through any number of calls and earlier system calls - then the machine
gets to an environment call with that number in a7, those arguments in a0, a1, ... and that memory as far as it is visible. Nothing is assumed
about what happens afterwards: the system call need not return, and the program need not end.
Partial: for functions that register allocation and the peephole pass are claimed for. -/
theorem C92_rv_partial (hard : Bool) (Q : Prog) (F : Flat) (img : List CInt)
    (h : compile Riscv.target hard (Peep.prog Q) = some (F, img)) (hd : Q.DistinctBlocks) (c : RV32.Code) (hc : RV32.CodeAt c codeBase img)
    (t : RV32.State) (hpc : t.pc = codeBase)
    (V : Vars) (K : Nat → Kind) (ds : List Decl) (fin : RA) (Pr : SrcProg) (W : Whole Q V K ds fin (t.get 2#5) Pr)
    (hv : Pr.byteVal = fun b => b.signExtend 32) (hda : Pr.dataAddr = codeBase + BitVec.ofNat 32 (4 * img.length))
    (R : (Word → Prop) → List Word → Mem → Prop) (hx : Makes V K ds fin (t.get 2#5) Pr R t.mem) :
    ∃ u hid args mem, RV32.SysReaches c Pr.os t u ∧ RV32.step c u = .ecall u ∧ R hid args mem ∧
      1 ≤ args.length ∧ args.length ≤ 7 ∧ u.get 17#5 = args.getD 0 0 ∧ (∀ k, k + 1 < args.length → u.get (BitVec.ofNat 5 (k + 10)) = args.getD (k + 1) 0) ∧
      Agree hid mem u.mem := by
  have hs := rv_sizes (emitEnv Riscv.target hard (Peep.prog Q) F) (F.located.map (·.2))
  obtain ⟨_, _, _, _, _, h6, _, h8, _⟩ := compile_spec rv_good h hs
  obtain ⟨s1, s2, x1, j1, x2, hid, args, mem, a1, a2, a3, a4, a5, _, a7⟩ := whole_reach rv_good h hd hs (rv_abiOk (emitEnv Riscv.target hard (Peep.prog Q) F)) (fun b => rfl)
    (by
      intro g
      simp only [RV32.rvAbi, emitEnv]
      rw [show (Peep.prog Q).funcBB g = Q.funcBB g from rfl]
      cases Q.funcBB g <;> rfl)
    hv.symm (by rw [hda]; simp only [RV32.rvAbi, emitEnv, h6]; rfl) W (s := rvStart hard (Peep.prog Q) F t) rfl
    (by simp only [emitEnv]; exact congrArg (BitVec.ofNat 32) (h8 (peep_distinct hd)).2)
    (by simp only [rvStart]; rw [← W.size]; rfl) (by simp only [rvStart]; rw [← W.size]; rfl) rfl hx
  have hd' := peep_distinct hd
  obtain ⟨m1, b1, s1'⟩ := C62_rv_entry hard (Peep.prog Q) F img h hd' c hc t hpc
  obtain ⟨m2, b2, s2'⟩ := rv_xrun hard (Peep.prog Q) F img h hd' c hc Pr.os _ _ x1 m1 s1'
  obtain ⟨m3, b3, s3'⟩ := C62_rv_main hard (Peep.prog Q) F img h hd' c hc _ m2 s2' j1
  obtain ⟨m4, b4, s4'⟩ := rv_xrun hard (Peep.prog Q) F img h hd' c hc Pr.os _ _ x2 m3 s3'
  obtain ⟨m5, b5, q1, q2, q3, q4⟩ := RV32.rv_syscall_reach hard (Peep.prog Q) F img h hd' c hc _ m4 s4' a1
  refine ⟨m5, hid, args, mem, ((RV32.SysReaches.of b1).trans (b2.trans ((RV32.SysReaches.of b3).trans (b4.trans (.of b5))))), q1, a7, a2, a3, ?_, ?_, by rw [q2]; exact a5⟩
  · rw [q3]; exact a4 0 (by omega)
  · intro k hk
    have := q4 ⟨k, by omega⟩
    rw [this]
    exact a4 (k + 1) hk

/-- **C92 (ARM).** The same for ARM: number in r7, arguments in r0, r1, ... -/
theorem C92_arm_partial (hard : Bool) (Q : Prog) (F : Flat) (img : List CInt)
    (h : compile Arm.target hard (Peep.prog Q) = some (F, img)) (hd : Q.DistinctBlocks) (hP : (Peep.prog Q).ArmOk) (c : ARM.Code) (hc : ARM.CodeAt c codeBase img)
    (t : ARM.State) (hpc : t.pc = codeBase)
    (V : Vars) (K : Nat → Kind) (ds : List Decl) (fin : RA) (Pr : SrcProg) (W : Whole Q V K ds fin (t.get 13#4) Pr)
    (hv : Pr.byteVal = fun b => b.setWidth 32) (hda : Pr.dataAddr = codeBase + BitVec.ofNat 32 (4 * img.length))
    (R : (Word → Prop) → List Word → Mem → Prop) (hx : Makes V K ds fin (t.get 13#4) Pr R t.mem) :
    ∃ u hid args mem, ARM.SysReaches c Pr.os t u ∧ ARM.step c u = .svc u ∧ R hid args mem ∧
      1 ≤ args.length ∧ args.length ≤ 7 ∧ u.get 7#4 = args.getD 0 0 ∧ (∀ k, k + 1 < args.length → u.get (BitVec.ofNat 4 k) = args.getD (k + 1) 0) ∧
      Agree hid mem u.mem := by
  have hs := arm_sizes h hP
  obtain ⟨_, _, _, _, _, h6, _, h8, _⟩ := compile_spec arm_good h hs
  obtain ⟨s1, s2, x1, j1, x2, hid, args, mem, a1, a2, a3, a4, a5, _, a7⟩ := whole_reach arm_good h hd hs (arm_abiOk (emitEnv Arm.target hard (Peep.prog Q) F)) (fun b => rfl)
    (by
      intro g
      simp only [ARM.armAbi, emitEnv]
      rw [show (Peep.prog Q).funcBB g = Q.funcBB g from rfl]
      cases Q.funcBB g <;> rfl)
    hv.symm (by rw [hda]; simp only [ARM.armAbi, emitEnv, h6]; rfl) W (s := armStart hard (Peep.prog Q) F t) rfl
    (by simp only [emitEnv]; exact congrArg (BitVec.ofNat 32) (h8 (peep_distinct hd)).2)
    (by simp only [armStart]; rw [← W.size]; rfl) (by simp only [armStart]; rw [← W.size]; rfl) rfl hx
  have hd' := peep_distinct hd
  obtain ⟨m1, b1, s1'⟩ := C62_arm_entry hard (Peep.prog Q) F img h hd' hP c hc t hpc
  obtain ⟨m2, b2, s2'⟩ := arm_xrun hard (Peep.prog Q) F img h hd' hP c hc Pr.os _ _ x1 m1 s1'
  obtain ⟨m3, b3, s3'⟩ := C62_arm_main hard (Peep.prog Q) F img h hd' hP c hc _ m2 s2' j1
  obtain ⟨m4, b4, s4'⟩ := arm_xrun hard (Peep.prog Q) F img h hd' hP c hc Pr.os _ _ x2 m3 s3'
  obtain ⟨m5, b5, q1, q2, q3, q4⟩ := ARM.arm_syscall_reach hard (Peep.prog Q) F img h hd' hP c hc _ m4 s4' a1
  refine ⟨m5, hid, args, mem, ((ARM.SysReaches.of b1).trans (b2.trans ((ARM.SysReaches.of b3).trans (b4.trans (.of b5))))), q1, a7, a2, a3, ?_, ?_, by rw [q2]; exact a5⟩
  · rw [q3]; exact a4 0 (by omega)
  · intro k hk
    have := q4 ⟨k, by omega⟩
    rw [this]
    exact a4 (k + 1) hk

end Shecc.Props
