import Verif.Lemmas.ArmLayout
import Verif.Spec.Image

/-!
# C19, C20, C21, C61 (ARM): sizes, layout, whole programs on ARM
-/

namespace Shecc.Props
open ARM Shecc.Arm

theorem arm_emits_length (l : List (Option CInt)) : ∀ {ws}, emits l = some ws → ws.length = l.length := by
  induction l with
  | nil => intro ws h; simp [emits] at h; subst h; rfl
  | cons a l ih =>
    intro ws h
    cases a with
    | none => simp [emits] at h
    | some w =>
      simp only [emits, Option.map_eq_some_iff] at h
      obtain ⟨r, h1, rfl⟩ := h
      simp [ih h1]

theorem emitCmp_length {op : Op2} {rd rn rm : CInt} {ws : List CInt} (h : emitCmp op rd rn rm = some ws) :
    ws.length = 3 := by
  unfold emitCmp at h
  split at h
  · cases h
  · exact arm_emits_length _ h

/-- **C19.** What is emitted has the reserved size, instruction by instruction, for every instruction the sizing pass
accepts except an assignment of a register to itself (missing; false there, see `C19_arm_self_assign_wrong`). -/
theorem C19_arm_size_partial (env : EmitEnv) (idx : CInt) (ir : Ph2Ir) (ws : List CInt)
    (h : emit_ph2_ir env idx ir = some ws) (hself : ir.op = .assign → ir.dest ≠ ir.src0) :
    (ir.op = .define → 4 * ws.length = 16) ∧
    (ir.op ≠ .define → ∀ n, Arm.sizeOf env.hardMulDiv ir = some n → n = 4 * ws.length) := by
  unfold emit_ph2_ir at h
  simp only at h
  constructor
  · intro hd
    rw [hd] at h
    rw [arm_emits_length _ h]; rfl
  · intro hd n hn
    unfold Arm.sizeOf at hn
    split at h <;> rename_i hop <;> simp only [hop] at hn
    all_goals first
      | (exact absurd hop hd)
      | (simp at h; done)
      | (simp only [Option.some.injEq] at hn; rw [← hn, arm_emits_length _ h]; rfl)
      | (simp only [Option.some.injEq] at hn; rw [← hn, emitCmp_length h]; done)
      | (rw [if_pos (hself hop), Option.some.injEq] at hn; rw [← hn, arm_emits_length _ h]; rfl)
      | (split at h <;> rename_i hc <;> simp only [hc, if_true, if_false, Bool.false_eq_true, Option.some.injEq] at hn <;>
          first
          | (simp at h; done)
          | (rw [← hn, arm_emits_length _ h]; rfl)
          | (rw [← hn]
             split at h <;> rename_i hc2 <;> first
              | (simp at h; done)
              | (rw [arm_emits_length _ h]; simp [hc2]; done)
              | (rw [arm_emits_length _ h]; rfl))
          | (split at hn
             · simp only [Option.some.injEq] at hn; rw [← hn, arm_emits_length _ h]; rfl
             · cases hn))
      | (simp only [Option.some.injEq] at hn
         rw [← hn]
         split at h <;> rename_i hc
         · rw [arm_emits_length _ h, if_pos hc]; rfl
         · rw [if_neg hc]
           split at h <;> rename_i hc2
           · rw [arm_emits_length _ h, if_pos hc2]; rfl
           · rw [arm_emits_length _ h, if_neg hc2]; rfl)

/-- The exception is real: moving a register to itself reserves nothing and emits one word, which shifts everything
after it. -/
theorem C19_arm_self_assign_wrong (env : EmitEnv) (idx : CInt) (k : BitVec 3) :
    Arm.sizeOf env.hardMulDiv { op := .assign, dest := k.setWidth 32, src0 := k.setWidth 32 } = some 0 ∧
    ∃ w, emit_ph2_ir env idx { op := .assign, dest := k.setWidth 32, src0 := k.setWidth 32 } = some [w] := by
  refine ⟨by simp [Arm.sizeOf], ?_⟩
  obtain ⟨w, h, _⟩ := dr_mov 14#4 (by decide) (irReg k) (irReg k)
  refine ⟨w, ?_⟩
  simp only [emit_ph2_ir, ir_u32]
  rw [AL_u, h]; rfl

theorem arm_sizes {hard : Bool} {P : Prog} {F : Flat} {img : List CInt}
    (h : compile target hard P = some (F, img)) (hP : P.ArmOk) :
    SizesAgree target (emitEnv target hard P F) (F.located.map (·.2)) := by
  intro ir hm idx ws he
  simp only [List.mem_map] at hm
  obtain ⟨⟨k, ir'⟩, hm, rfl⟩ := hm
  obtain ⟨l1, _, l3⟩ := compile_loc (T := target) rfl h hP k ir' hm
  obtain ⟨h1, h2⟩ := C19_arm_size_partial (emitEnv target hard P F) idx ir' ws he l1
  unfold sizeFlat
  split
  · rename_i hd; rw [h1 hd]
  · rename_i hd
    rcases l3 with l3 | ⟨n, l3⟩
    · exact absurd l3 hd
    · have := h2 hd n l3
      show Arm.sizeOf hard ir' = _
      rw [← this]; exact l3

theorem arm_good : target.Good where
  defineNone := by intro hard ir h; simp [target, Arm.sizeOf, h]
  stubsLen := by
    intro g o a h
    have := arm_emits_length _ h
    simp [target, this]
  mainLen := by
    intro g o i c h
    exact arm_emits_length _ h

theorem arm_codeHas_of {img : List CInt} {k : Nat} {w : List CInt} (hk : k % 4 = 0) (h : Within 0 img (k / 4) w) :
    CodeHas img k w := by
  obtain ⟨p, q, h1, h2⟩ := h
  exact ⟨p, q, h1, by omega⟩

/-- **C20 (ARM).** In every successful compilation of a program that meets the back end's assumptions (`ArmOk`): each
basic block's emitted instructions are in the code section at the offset recorded for the block; the global
initialisers are at the offset recorded for the global block; and data starts right after the code. -/
theorem C20_arm_layout (hard : Bool) (P : Prog) (F : Flat) (img : List CInt)
    (h : compile target hard P = some (F, img)) (hd : P.DistinctBlocks) (hP : P.ArmOk) :
    (∀ f ∈ P.fns, ∀ pre b post, f.blocks = pre ++ b :: post →
      ∃ ws, emitAll target (emitEnv target hard P F) (ofsOf (F.bbs target P) b.id / 4)
          (blockCode target f pre b post) = some ws ∧
        CodeHas img (ofsOf (F.bbs target P) b.id) ws) ∧
    (∃ ws, emitAll target (emitEnv target hard P F) 20 P.globalInsns = some ws ∧
      CodeHas img (ofsOf (F.bbs target P) P.globalBB) ws) ∧
    (emitEnv target hard P F).dataStart = codeBase + BitVec.ofNat 32 (4 * img.length) := by
  obtain ⟨h1, h2, h3, h4, h5, h6, h7, h8, h9⟩ := compile_spec arm_good h (arm_sizes h hP)
  refine ⟨?_, ?_, ?_⟩
  · intro f hf pre b post hb
    obtain ⟨k1, w, k2, k3⟩ := h5 hd f hf pre b post hb
    exact ⟨w, k2, arm_codeHas_of k1 k3⟩
  · obtain ⟨w, w1, w2⟩ := h2
    refine ⟨w, w1, ?_⟩
    rw [(h8 hd).2]
    exact arm_codeHas_of (k := 80) (by decide) w2
  · simp only [emitEnv, h6]; rfl

/-- The compiled program seen as located IR: instruction, its address, and the address after it. -/
def armProgram (hard : Bool) (F : Flat) : IrM.Program := fun addr ir nxt =>
  ∃ k n, (k, ir) ∈ F.located ∧ (if ir.op = .define then some 16 else Arm.sizeOf hard ir) = some n ∧
    addr = codeBase + BitVec.ofNat 32 k ∧ nxt = codeBase + BitVec.ofNat 32 (k + n)

theorem arm_codeAt_of {c : Code} {img : List CInt} {k : Nat} {w : List CInt} (hc : CodeAt c codeBase img)
    (hk : k % 4 = 0) (h : Within 0 img (k / 4) w) : CodeAt c (codeBase + BitVec.ofNat 32 k) w := by
  obtain ⟨p, q, rfl, h2⟩ := h
  intro i x hx
  have := hc (p.length + i) x (by
    rw [List.append_assoc, List.getElem?_append_right (by omega)]
    rw [List.getElem?_append_left (by
      have := (List.getElem?_eq_some_iff.mp hx).1; omega)]
    rw [show p.length + i - p.length = i by omega]; exact hx)
  rw [← this]
  congr 1
  rw [BitVec.add_assoc]
  congr 1
  apply BitVec.eq_of_toNat_eq
  simp
  omega

theorem arm_env_ok {hard : Bool} {P : Prog} {F : Flat} {img : List CInt}
    (h : compile target hard P = some (F, img)) (hd : P.DistinctBlocks) (hP : P.ArmOk) :
    (∀ b, OfsOk ((emitEnv target hard P F).bbOfs b)) ∧
    (∀ n o, (emitEnv target hard P F).funcOfs n = some o → OfsOk o) := by
  have hb := ofs_bound arm_good (by decide) h (arm_sizes h hP) hd
  have hm := (compile_spec arm_good h (arm_sizes h hP)).2.2.2.2.2.2.1
  simp only [maxCode] at hm
  have key : ∀ id, OfsOk (BitVec.ofNat 32 (ofsOf (F.bbs target P) id)) := by
    intro id
    have := hb id
    constructor <;> simp only [BitVec.toNat_ofNat] <;> omega
  refine ⟨key, ?_⟩
  intro n o ho
  simp only [emitEnv, Option.map_eq_some_iff] at ho
  obtain ⟨b, _, rfl⟩ := ho
  exact key b

/-- **C61 (ARM).** Compiled code refines the IR, for programs that meet the back end's assumptions. -/
theorem C61_arm_refines (hard : Bool) (P : Prog) (F : Flat) (img : List CInt)
    (h : compile target hard P = some (F, img)) (hd : P.DistinctBlocks) (hP : P.ArmOk) (c : Code)
    (hc : CodeAt c codeBase img)
    (s t : IrM.State) (hrun : IrM.Run (armAbi (emitEnv target hard P F)) (armProgram hard F) s t)
    (m : State) (hm : Sim s m) : ∃ m', Reaches c m m' ∧ Sim t m' := by
  obtain ⟨h1, h2, h3, h4, h5, h6, h7, h8, h9, h10, h11, h12⟩ := compile_spec arm_good h (arm_sizes h hP)
  obtain ⟨hbb, hfn⟩ := arm_env_ok h hd hP
  simp only [maxCode] at h7
  have hnd : ((F.bbs target P).map (·.1)).Nodup := by
    simp only [Flat.bbs, List.map_cons, h12]; exact hd
  induction hrun with
  | refl => exact ⟨m, .refl _, hm⟩
  | @tail t' u _ hst ih =>
    obtain ⟨m1, r1, s1⟩ := ih
    obtain ⟨ir, nxt, ⟨k, n, hk1, hk2, hk3, hk4⟩, hstep⟩ := hst
    obtain ⟨w, q1, q2, q3, q4⟩ := h4 k ir hk1
    obtain ⟨_, l2, _⟩ := compile_loc (T := target) rfl h hP k ir hk1
    have hsz : n = 4 * w.length := by
      rw [sizeFlat] at q2
      have := hk2.symm.trans q2
      simpa using this
    have hbr : ir.op = .branch → nxt = (emitEnv target hard P F).codeStart +
        (emitEnv target hard P F).bbOfs (if ir.is_branch_detached then ir.then_bb else ir.else_bb) := by
      intro hb
      obtain ⟨n', e1, e2⟩ := l2 hb
      have : n' = n := by
        rw [if_neg (by rw [hb]; decide)] at hk2
        have := hk2.symm.trans e1
        simpa using this.symm
      subst this
      simp only [emitEnv, ofsOf_nodup hnd e2, hk4]; rfl
    subst hsz
    have hle := q4.le
    have hpc : m1.pc = codeBase + BitVec.ofNat 32 k := by rw [s1.pc, hk3]
    have hca : CodeAt c m1.pc w := by rw [hpc]; exact arm_codeAt_of hc q3 q4
    have hkn : (BitVec.ofNat 32 k).toNat = k := by simp; omega
    obtain ⟨m2, r2, s2⟩ := sim_insn (emitEnv target hard P F) hbb hfn (BitVec.ofNat 32 k)
      ⟨by rw [hkn]; exact q3, by rw [hkn]; omega⟩ ir w q1 m1 hca hpc t' u nxt
      (by rw [hk4, hpc, BitVec.add_assoc, BitVec.ofNat_add]) (by rw [hkn]; omega) ⟨_, q2⟩ hbr hstep s1
    exact ⟨m2, r1.trans r2, s2⟩

/-- **C61 (entering a block, ARM).** The instructions of a block, in order, are the IR program starting at the block's
address: the `i`-th is at the address where the previous ones end. -/
theorem C61_arm_block_instrs (hard : Bool) (P : Prog) (F : Flat) (img : List CInt)
    (h : compile target hard P = some (F, img)) (hd : P.DistinctBlocks) (hP : P.ArmOk) (f : Fn) (hf : f ∈ P.fns)
    (pre : List Block) (b : Block) (post : List Block) (hb : f.blocks = pre ++ b :: post)
    (a : List Ph2Ir) (ir : Ph2Ir) (z : List Ph2Ir) (hs : blockCode target f pre b post = a ++ ir :: z) :
    ∃ sizes : List Nat,
      a.map (fun x => if x.op = .define then some 16 else Arm.sizeOf hard x) = sizes.map some ∧
      ∃ nxt, armProgram hard F
        ((armAbi (emitEnv target hard P F)).blockAddr b.id + BitVec.ofNat 32 sizes.sum) ir nxt := by
  obtain ⟨h1, h2, h3, h4, h5, h6, h7, h8, h9, h10, h11, h12⟩ := compile_spec arm_good h (arm_sizes h hP)
  obtain ⟨x, y, zz, e, k1, k2, k3⟩ := h11 hd f hf pre b post hb
  replace k2 : y.map (·.2) = a ++ ir :: z := k2.trans hs
  have hsub : ∀ p ∈ y, p ∈ F.located := by
    intro p hp; simp [Flat.located, k1, hp]
  have key : ∀ (a : List Ph2Ir) (y : List (Nat × Ph2Ir)) (o : Nat), y.map (·.2) = a ++ ir :: z →
      (∀ p ∈ y, p ∈ F.located) → Consec (sizeFlat target hard) o y e →
      ∃ sizes : List Nat, a.map (fun x => if x.op = .define then some 16 else Arm.sizeOf hard x) = sizes.map some ∧
      ∃ n, (o + sizes.sum, ir) ∈ F.located ∧ sizeFlat target hard ir = some n := by
    intro a
    induction a with
    | nil =>
      intro y o hy hsub hc
      cases y with
      | nil => simp at hy
      | cons p y =>
        obtain ⟨k, ir'⟩ := p
        simp only [List.map_cons, List.nil_append, List.cons.injEq] at hy
        obtain ⟨rfl, _⟩ := hy
        obtain ⟨rfl, n, hn, _⟩ := hc
        exact ⟨[], rfl, n, by simpa using hsub _ List.mem_cons_self, hn⟩
    | cons x a ih =>
      intro y o hy hsub hc
      cases y with
      | nil => simp at hy
      | cons p y =>
        obtain ⟨k, ir'⟩ := p
        simp only [List.map_cons, List.cons_append, List.cons.injEq] at hy
        obtain ⟨rfl, hy⟩ := hy
        obtain ⟨rfl, n, hn, hc⟩ := hc
        obtain ⟨sz, e1, n', e2, e3⟩ := ih y _ hy (fun p hp => hsub p (List.mem_cons_of_mem _ hp)) hc
        refine ⟨n :: sz, ?_, n', ?_, e3⟩
        · simp only [List.map_cons, e1]; rw [sizeFlat] at hn; rw [← hn]; rfl
        · simpa [Nat.add_assoc] using e2
  obtain ⟨sizes, e1, n, e2, e3⟩ := key a y _ k2 hsub k3
  refine ⟨sizes, e1, _, _, n, e2, by rw [sizeFlat] at e3; exact e3, ?_, rfl⟩
  simp only [armAbi, emitEnv]
  rw [BitVec.ofNat_add, ← BitVec.add_assoc]
  rfl

/-- A program whose `main` starts with a move of a register to itself. -/
def selfMove : Prog where
  globalBB := 1
  globalInsns := []
  globalStack := 4
  syscallBB := 0
  fns := [{ stackSize := 8
            entry := { id := 2, insns := [{ op := .assign, dest := 1, src0 := 1 }] }
            rest := [{ id := 3, insns := [{ op := .ret, src0 := 1 }] }] }]
  mainBB := 2
  funcBB _ := none

theorem codeHas_head {img : List Word} {n : Nat} {w : Word} {ws : List Word} (h : CodeHas img (4 * n) (w :: ws)) :
    img[n]? = some w := by
  obtain ⟨p, q, h1, h2⟩ := h
  have h3 : p.length = n := by omega
  subst h3
  rw [h1]
  simp

/-- C20 fails without the condition on self-moves: block 3 of this program is recorded at offset 120 but its code is
not there. -/
theorem C20_arm_self_move_wrong : ∃ F img, compile target true selfMove = some (F, img) ∧ selfMove.DistinctBlocks ∧
    ∃ f ∈ selfMove.fns, ∃ pre b post, f.blocks = pre ++ b :: post ∧ ofsOf (F.bbs target selfMove) b.id = 120 ∧
      ∃ ws, emitAll target (emitEnv target true selfMove F) 30 (blockCode target f pre b post) = some ws ∧
        ¬ CodeHas img 120 ws := by
  refine ⟨_, _, rfl, by unfold Prog.DistinctBlocks; decide, _, List.mem_cons_self, [{ id := 2, insns := [{ op := .assign, dest := 1, src0 := 1 }] }],
    { id := 3, insns := [{ op := .ret, src0 := 1 }] }, [], rfl, by decide, _, rfl, ?_⟩
  intro h
  have h4 := codeHas_head (n := 30) h
  revert h4
  decide

end Shecc.Props
