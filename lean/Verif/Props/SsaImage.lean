import Verif.Lemmas.SsaImage
import Verif.Props.SsaProgram
import Verif.Props.GlobalInit
import Verif.Props.RvStartup
import Verif.Props.ArmStartup

/-!
# C83, C85: compiled programs
-/

namespace Shecc.Props
open Shecc Shecc.Ssa Shecc.RegAlloc Shecc.GlobalInit IrM SrcBlock RaFn SsaProg CGlobals

theorem byte_of_load {m m' : Mem} {a : Word} (h : load32 m a = load32 m' a) {k : Nat} (hk : k < 4) :
    m (a + BitVec.ofNat 32 k) = m' (a + BitVec.ofNat 32 k) := by
  have hb : ∀ (x3 x2 x1 x0 : BitVec 8), (x3 ++ x2 ++ x1 ++ x0 : BitVec 32).extractLsb' 0 8 = x0 ∧
      (x3 ++ x2 ++ x1 ++ x0 : BitVec 32).extractLsb' 8 8 = x1 ∧ (x3 ++ x2 ++ x1 ++ x0 : BitVec 32).extractLsb' 16 8 = x2 ∧
      (x3 ++ x2 ++ x1 ++ x0 : BitVec 32).extractLsb' 24 8 = x3 := by
    intro x3 x2 x1 x0
    refine ⟨?_, ?_, ?_, ?_⟩ <;>
    · apply BitVec.eq_of_getLsbD_eq
      intro i hi
      simp only [BitVec.getLsbD_extractLsb', BitVec.getLsbD_append, hi, decide_true, Bool.true_and]
      have e := hi
      repeat' split
      all_goals first
        | (exfalso; omega)
        | (congr 1; omega)
  obtain ⟨a0, a1, a2, a3⟩ := hb (m (a + 3)) (m (a + 2)) (m (a + 1)) (m a)
  obtain ⟨b0, b1, b2, b3⟩ := hb (m' (a + 3)) (m' (a + 2)) (m' (a + 1)) (m' a)
  unfold load32 at h
  rw [h] at a0 a1 a2 a3
  have : k = 0 ∨ k = 1 ∨ k = 2 ∨ k = 3 := by omega
  rcases this with rfl | rfl | rfl | rfl
  · rw [show a + BitVec.ofNat 32 0 = a from BitVec.add_zero _]; exact a0.symm.trans b0
  · exact a1.symm.trans b1
  · exact a2.symm.trans b2
  · exact a3.symm.trans b3

/-- The initialised memory is determined. -/
theorem initialised_unique {V : Vars} {K : Nat → Kind} {ds : List Decl} {ofs : Nat → Nat} {gp : Word} {m m1 m2 : Mem}
    (h1 : Initialised V K ds ofs gp m m1) (h2 : Initialised V K ds ofs gp m m2) : m1 = m2 := by
  funext b
  by_cases hb : ∀ d ∈ ds, initial V K (gp + num (ofs d.var)) d ≠ none → ∀ k, k < 4 → b ≠ gp + num (ofs d.var) + BitVec.ofNat 32 k
  · rw [h1.rest b hb, h2.rest b hb]
  · apply Classical.byContradiction
    intro hne
    apply hb
    rintro d hd hi k hk rfl
    cases hx : initial V K (gp + num (ofs d.var)) d with
    | none => exact hi hx
    | some x => exact hne (byte_of_load ((h1.init d hd x hx).trans (h2.init d hd x hx).symm) hk)

theorem global_ops {V : Vars} {K : Nat → Kind} (ds : List Decl) : ∀ (o : Nat), ∀ ir ∈ declsCode V K o ds,
    ir.op ≠ .define ∧ ir.op ≠ .ret ∧ ir.op ≠ .branch := by
  induction ds with
  | nil => intro o ir h; cases h
  | cons d ds ih =>
    intro o ir h
    simp only [declsCode, List.mem_append] at h
    rcases h with h | h
    · unfold declCode at h
      split at h
      · simp only [List.mem_cons, List.not_mem_nil, or_false] at h
        rcases h with rfl | rfl <;> simp
      · simp only [List.mem_cons, List.not_mem_nil, or_false] at h
        rcases h with rfl | rfl | rfl <;> simp
      · cases h
    · exact ih _ _ h

theorem prep_id (T : Target) (st : CInt) (nx : Option Nat) {ir : Ph2Ir} (h : ir.op ≠ .ret) (h2 : ir.op ≠ .branch) :
    prepInsn T st nx ir = ir := by
  unfold prepInsn
  simp only [if_neg h]
  rw [if_neg (fun e => h2 e.2.1)]

/-- Where the global frame and the variables are. -/
theorem whole_globals {Q : Prog} {V : Vars} {K : Nat → Kind} {ds : List Decl} {fin : RA} {sp0 : Word} {Pr : SrcProg}
    (W : Whole Q V K ds fin sp0 Pr) (ap : CGlobals.Apart K ds fin.offset fin.stack) :
    (sp0 - num fin.stack).toNat = sp0.toNat - fin.stack ∧ GlobalsAt (sp0 - num fin.stack) fin.offset Pr ∧
      StackAt Pr (stackBelow Pr (sp0 - num fin.stack)) (sp0 - num fin.stack) := by
  have hr := W.room
  have hsz := ap.size
  have hlt := sp0.isLt
  have hgp : (sp0 - num fin.stack).toNat = sp0.toNat - fin.stack := by
    rw [BitVec.toNat_sub]
    simp only [num, BitVec.toNat_ofNat]
    omega
  generalize hg : sp0 - num fin.stack = gp at hgp
  have hb : ∀ v, Pr.isGlobal v = true → 4 ≤ fin.offset v ∧ fin.offset v + 4 ≤ fin.stack := by
    intro v hv
    obtain ⟨d, hd, rfl⟩ := W.globals v hv
    have := ap.inside d hd
    have := room_pos (K d.var)
    omega
  refine ⟨hgp, ⟨?_, ?_⟩, ⟨fun a h1 h2 => ⟨h1, h2⟩, ?_, ?_⟩⟩
  · intro v hv
    have := hb v hv
    exact ⟨by omega, by rw [W.gaddr v hv, hg]; rfl⟩
  · intro u v hne hu hv k l hk hl
    have bu := hb u hu
    have bv := hb v hv
    rw [W.gaddr u hu, W.gaddr v hv]
    obtain ⟨d, hd, rfl⟩ := W.globals u hu
    obtain ⟨e, he, rfl⟩ := W.globals v hv
    have := ap.disjoint d hd e he hne
    have r1 := room_pos (K d.var)
    have r2 := room_pos (K e.var)
    exact num_ne (by omega) (by omega) (by omega)
  · have := W.aligned
    omega
  · intro v hv k hk h
    have := hb v hv
    have h := h.2
    rw [W.gaddr v hv, hg] at h
    simp only [num] at h
    rw [BitVec.add_assoc, ← BitVec.ofNat_add, BitVec.toNat_add, BitVec.toNat_ofNat] at h
    omega

/-- A whole program on the machine of the second-phase instructions. -/
theorem whole_execution {T : Target} (hT : T.Good) {hard : Bool} {Q : Prog} {F : Flat} {img : List CInt}
    (h : compile T hard (Peep.prog Q) = some (F, img)) (hd : Q.DistinctBlocks)
    (hs : SizesAgree T (emitEnv T hard (Peep.prog Q) F) (F.located.map (·.2))) {A : Abi} (hA : AbiOk A)
    (hb : ∀ b, A.blockAddr b = codeBase + (emitEnv T hard (Peep.prog Q) F).bbOfs b)
    (hf : ∀ g, A.funcAddr g = (Q.funcBB g).map A.blockAddr)
    {V : Vars} {K : Nat → Kind} {ds : List Decl} {fin : RA} {sp0 : Word} {Pr : SrcProg}
    (hv : A.byteVal = Pr.byteVal) (hda : A.dataAddr = Pr.dataAddr)
    (W : Whole Q V K ds fin sp0 Pr) {m' : Mem} {r : Option Word} {s : State} (hpc : s.pc = A.blockAddr Q.globalBB)
    (hg0 : (emitEnv T hard (Peep.prog Q) F).bbOfs Q.globalBB = BitVec.ofNat 32 T.globalOfs)
    (hsp : s.sp = sp0 - num fin.stack) (hgp : s.gp = sp0 - num fin.stack) (hra : s.ra = codeBase + 20)
    (hx : Exits V K ds fin sp0 Pr s.mem m' r) :
    ∃ v mem, Execution A (progOf T hard F) Pr.os (A.blockAddr Q.syscallBB) Q.globalStack (codeBase + BitVec.ofNat 32 F.mainJump)
      (A.blockAddr Q.mainBB) (codeBase + 20) s v mem ∧ (∀ x, r = some x → v = x) ∧
      Agree (stackBelow Pr (sp0 - num fin.stack)) m' mem := by
  obtain ⟨fin', e1, ap, run⟩ := C84_globals V K ds W.proper
  rw [W.alloc] at e1
  cases e1
  obtain ⟨g1, g2, g3⟩ := whole_globals W ap
  have L := linked_of hT h hd hs hA hb hf hv hda W.built g2
  obtain ⟨l, l1, l2⟩ := (compile_laid hT h (peep_distinct hd) hb).2
  have l1 : layInsns T hard T.globalOfs Q.globalInsns = some (l, F.mainJump) := l1
  have hout : fin.out = declsCode V K 4 ds := by
    have hsz := W.proper.size
    obtain ⟨f, h1, _, h3, _⟩ := decls_alloc V K ds { stack := 4 } W.proper.distinct W.proper.global W.proper.temp W.proper.noArray
      (by show 4 + total K ds < 2 ^ 31; omega) rfl (Nat.le_refl 4)
    have : some f = some fin := h1.symm.trans W.alloc
    cases this
    exact h3
  have hops : ∀ ir ∈ Q.globalInsns, ir.op ≠ .define ∧ ir.op ≠ .ret ∧ ir.op ≠ .branch := by
    rw [W.code, hout]; exact global_ops ds 4
  have hmap : Q.globalInsns.map (prepInsn T 0 none) = Q.globalInsns := by
    have : ∀ l : List Ph2Ir, (∀ ir ∈ l, ir.op ≠ .define ∧ ir.op ≠ .ret ∧ ir.op ≠ .branch) → l.map (prepInsn T 0 none) = l := by
      intro l hl
      induction l with
      | nil => rfl
      | cons i l ih =>
        simp only [List.map_cons]
        rw [prep_id T 0 none (hl i List.mem_cons_self).2.1 (hl i List.mem_cons_self).2.2, ih (fun j hj => hl j (List.mem_cons_of_mem _ hj))]
    exact this _ hops
  rw [← hmap] at l1
  have hat := lay_at (F := F) _ (fun ir hi => (hops ir hi).1) l1 l2
  rw [W.code] at hat
  obtain ⟨u, x1, q1, q2, q3, q4, q5⟩ := run A _ Pr.os (A.blockAddr Q.syscallBB) _ _ hat s (by rw [hpc, hb, hg0])
  obtain ⟨m1, n, f, i1, hf1, hcall⟩ := hx
  have hm1 : m1 = u.mem := initialised_unique i1 (by rw [← hgp]; exact q5)
  have hlen : (mainArgs m1 sp0 f.params.length).length = f.params.length := by
    cases n with
    | zero => exact hcall.elim
    | succ n =>
      have := hcall.2
      rw [if_neg (by decide)] at this
      obtain ⟨f', e, e2, _⟩ := this
      rw [hf1] at e
      cases e
      exact e2
  have hsp0 : s.gp + Q.globalStack = sp0 := by
    rw [hgp, W.size, BitVec.sub_add_cancel]
  have hcd : Called Pr (stackBelow Pr (sp0 - num fin.stack)) (sp0 - num fin.stack) (sp0 - num fin.stack) (A.blockAddr Q.mainBB)
      (codeBase + 20) (mainArgs m1 sp0 f.params.length) m1 (enterMain Q.globalStack (A.blockAddr Q.mainBB) u) := by
    refine ⟨rfl, q4.trans hra, q2.trans hsp, q3.trans hgp, ?_, ?_⟩
    · intro k hk
      have e0 : (mainArgs m1 sp0 f.params.length).getD k 0 = [load32 m1 sp0, sp0 + 4].getD k 0 := by
        unfold mainArgs
        rw [List.getD_eq_getElem?_getD, List.getElem?_take_of_lt (by omega), ← List.getD_eq_getElem?_getD]
      have h2 : (mainArgs m1 sp0 f.params.length).length ≤ 2 := by
        unfold mainArgs; rw [List.length_take]; exact Nat.min_le_right _ _
      have : k = 0 ∨ k = 1 := by omega
      rw [e0]
      rcases this with rfl | rfl
      · show load32 u.mem (u.gp + Q.globalStack) = load32 m1 sp0
        rw [hm1, q3, hsp0]
      · show u.gp + Q.globalStack + 4 = sp0 + 4
        rw [q3, hsp0]
    · intro a _
      rw [hm1]; rfl
  obtain ⟨w, x2, bk⟩ := C83_program_partial L hcall g3 (a := A.blockAddr Q.mainBB) (ra := codeBase + 20) (by rw [hf, W.main]; rfl)
    (by decide) hcd
  exact ⟨w.reg 0, w.mem, ⟨u, w, x1, q1, x2, bk.pc, rfl, rfl⟩, fun x hx => bk.result x hx, bk.mem⟩

/-- **C85 (RISC-V).** The image of a whole program, run from the loader: if in the source the global variables are initialised and
`main`, called with `argc` and `argv`, returns `r` and leaves memory `m'`, then the machine reaches `exit(r)`, with that memory
outside the stack. `Q` is the program after register allocation; the image is made from what the peephole pass makes of it.
Partial: only executions that end, for functions that register allocation and the peephole pass are claimed for. -/
theorem C85_rv_partial (hard : Bool) (Q : Prog) (F : Flat) (img : List CInt)
    (h : compile Riscv.target hard (Peep.prog Q) = some (F, img)) (hd : Q.DistinctBlocks) (c : RV32.Code) (hc : RV32.CodeAt c codeBase img)
    (t : RV32.State) (hpc : t.pc = codeBase)
    (V : Vars) (K : Nat → Kind) (ds : List Decl) (fin : RA) (Pr : SrcProg) (W : Whole Q V K ds fin (t.get 2#5) Pr)
    (hv : Pr.byteVal = fun b => b.signExtend 32) (hda : Pr.dataAddr = codeBase + BitVec.ofNat 32 (4 * img.length))
    (m' : Mem) (r : Option Word) (hx : Exits V K ds fin (t.get 2#5) Pr t.mem m' r) :
    ∃ u, RV32.SysReaches c Pr.os t u ∧ RV32.step c u = .ecall u ∧ u.get 17#5 = 93#32 ∧ (∀ x, r = some x → u.get 10#5 = x) ∧
      Agree (stackBelow Pr (t.get 2#5 - num fin.stack)) m' u.mem := by
  have hs := rv_sizes (emitEnv Riscv.target hard (Peep.prog Q) F) (F.located.map (·.2))
  obtain ⟨_, _, _, _, _, h6, _, h8, _⟩ := compile_spec rv_good h hs
  obtain ⟨v, mem, e1, e2, e3⟩ := whole_execution rv_good h hd hs (rv_abiOk (emitEnv Riscv.target hard (Peep.prog Q) F)) (fun b => rfl)
    (by
      intro g
      simp only [RV32.rvAbi, emitEnv]
      rw [show (Peep.prog Q).funcBB g = Q.funcBB g from rfl]
      cases Q.funcBB g <;> rfl)
    hv.symm (by rw [hda]; simp only [RV32.rvAbi, emitEnv, h6]; rfl) W (s := rvStart hard (Peep.prog Q) F t) rfl
    (by simp only [emitEnv]; exact congrArg (BitVec.ofNat 32) (h8 (peep_distinct hd)).2)
    (by simp only [rvStart]; rw [← W.size]; rfl) (by simp only [rvStart]; rw [← W.size]; rfl) rfl hx
  obtain ⟨u, r1, r2, r3, r4, r5⟩ := C62_rv_execution hard (Peep.prog Q) F img h (peep_distinct hd) c hc Pr.os t hpc v mem e1
  exact ⟨u, r1, r2, r3, fun x hx => by rw [r4, e2 x hx], by rw [r5]; exact e3⟩

/-- **C85 (ARM).** The same for ARM. -/
theorem C85_arm_partial (hard : Bool) (Q : Prog) (F : Flat) (img : List CInt)
    (h : compile Arm.target hard (Peep.prog Q) = some (F, img)) (hd : Q.DistinctBlocks) (hP : (Peep.prog Q).ArmOk) (c : ARM.Code) (hc : ARM.CodeAt c codeBase img)
    (t : ARM.State) (hpc : t.pc = codeBase)
    (V : Vars) (K : Nat → Kind) (ds : List Decl) (fin : RA) (Pr : SrcProg) (W : Whole Q V K ds fin (t.get 13#4) Pr)
    (hv : Pr.byteVal = fun b => b.setWidth 32) (hda : Pr.dataAddr = codeBase + BitVec.ofNat 32 (4 * img.length))
    (m' : Mem) (r : Option Word) (hx : Exits V K ds fin (t.get 13#4) Pr t.mem m' r) :
    ∃ u, ARM.SysReaches c Pr.os t u ∧ ARM.step c u = .svc u ∧ u.get 7#4 = 1#32 ∧ (∀ x, r = some x → u.get 0#4 = x) ∧
      Agree (stackBelow Pr (t.get 13#4 - num fin.stack)) m' u.mem := by
  have hs := arm_sizes h hP
  obtain ⟨_, _, _, _, _, h6, _, h8, _⟩ := compile_spec arm_good h hs
  obtain ⟨v, mem, e1, e2, e3⟩ := whole_execution arm_good h hd hs (arm_abiOk (emitEnv Arm.target hard (Peep.prog Q) F)) (fun b => rfl)
    (by
      intro g
      simp only [ARM.armAbi, emitEnv]
      rw [show (Peep.prog Q).funcBB g = Q.funcBB g from rfl]
      cases Q.funcBB g <;> rfl)
    hv.symm (by rw [hda]; simp only [ARM.armAbi, emitEnv, h6]; rfl) W (s := armStart hard (Peep.prog Q) F t) rfl
    (by simp only [emitEnv]; exact congrArg (BitVec.ofNat 32) (h8 (peep_distinct hd)).2)
    (by simp only [armStart]; rw [← W.size]; rfl) (by simp only [armStart]; rw [← W.size]; rfl) rfl hx
  obtain ⟨u, r1, r2, r3, r4, r5⟩ := C62_arm_execution hard (Peep.prog Q) F img h (peep_distinct hd) hP c hc Pr.os t hpc v mem e1
  exact ⟨u, r1, r2, r3, fun x hx => by rw [r4, e2 x hx], by rw [r5]; exact e3⟩

end Shecc.Props
