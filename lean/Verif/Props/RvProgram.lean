import Verif.Lemmas.RvSim
import Verif.Spec.Image

/-!
# C18, C20, C21 (RISC-V), C61, C62, C63: whole programs on RISC-V
-/

namespace Shecc.Props
open RV32 Shecc.Riscv

theorem emits_length (l : List (Option CInt)) : ∀ {ws}, emits l = some ws → ws.length = l.length := by
  induction l with
  | nil => intro ws h; simp [emits] at h; subst h; rfl
  | cons a l ih =>
    intro ws h
    cases a with
    | none => simp [emits] at h
    | some w =>
      simp only [emits, Option.map_eq_some_iff] at h
      obtain ⟨r, h1, rfl⟩ := h
      simp [ih h1]

/-- **C18.** Whatever is emitted for an IR instruction has exactly the size reserved for it by the sizing pass
(`OP_define`, never sized individually, is reserved 16 bytes by `cfg_flatten`). -/
theorem C18_rv_size (env : EmitEnv) (idx : CInt) (ir : Ph2Ir) (ws : List CInt)
    (h : emit_ph2_ir env idx ir = some ws) :
    (ir.op = .define → 4 * ws.length = 16) ∧
    (ir.op ≠ .define → Riscv.sizeOf env.hardMulDiv ir = some (4 * ws.length)) := by
  unfold emit_ph2_ir at h
  simp only at h
  constructor
  · intro hd
    rw [hd] at h
    rw [emits_length _ h]; rfl
  · intro hd
    unfold Riscv.sizeOf
    split at h <;> rename_i hop <;> simp only [hop]
    all_goals first
      | (exact absurd hop hd)
      | (simp at h; done)
      | (rw [emits_length _ h]; rfl)
      | (split at h <;> first
          | (simp at h; done)
          | (rename_i hc; simp only [hc]; rw [emits_length _ h]; rfl)
          | (rw [emits_length _ h]; rfl)
          | (split at h <;> first
              | (simp at h; done)
              | (rw [emits_length _ h]; rfl)))

theorem rv_sizes (env : EmitEnv) (irs : List Ph2Ir) : SizesAgree target env irs := by
  intro ir _ idx ws h
  obtain ⟨h1, h2⟩ := C18_rv_size env idx ir ws h
  unfold sizeFlat
  split
  · rename_i hd; rw [h1 hd]
  · rename_i hd; exact h2 hd

theorem rv_good : target.Good where
  defineNone := by intro hard ir h; simp [target, Riscv.sizeOf, h]
  stubsLen := by
    intro g o a h
    have := emits_length _ h
    simp [target, this]
  mainLen := by
    intro g o i c h
    exact emits_length _ h

theorem codeHas_of {img : List CInt} {k : Nat} {w : List CInt} (hk : k % 4 = 0) (h : Within 0 img (k / 4) w) :
    CodeHas img k w := by
  obtain ⟨p, q, h1, h2⟩ := h
  exact ⟨p, q, h1, by omega⟩

/-- **C20 (RISC-V).** In every successful compilation: each basic block's emitted instructions are in the code section
at the offset recorded for the block (the entry block of a function starting with its frame allocation); the global
initialisers are at the offset recorded for the global block; and data starts right after the code. -/
theorem C20_rv_layout (hard : Bool) (P : Prog) (F : Flat) (img : List CInt)
    (h : compile target hard P = some (F, img)) (hd : P.DistinctBlocks) :
    (∀ f ∈ P.fns, ∀ pre b post, f.blocks = pre ++ b :: post →
      ∃ ws, emitAll target (emitEnv target hard P F) (ofsOf (F.bbs target P) b.id / 4)
          (blockCode target f pre b post) = some ws ∧
        CodeHas img (ofsOf (F.bbs target P) b.id) ws) ∧
    (∃ ws, emitAll target (emitEnv target hard P F) 21 P.globalInsns = some ws ∧
      CodeHas img (ofsOf (F.bbs target P) P.globalBB) ws) ∧
    (emitEnv target hard P F).dataStart = codeBase + BitVec.ofNat 32 (4 * img.length) := by
  obtain ⟨h1, h2, h3, h4, h5, h6, h7, h8, h9⟩ := compile_spec rv_good h (rv_sizes _ _)
  refine ⟨?_, ?_, ?_⟩
  · intro f hf pre b post hb
    obtain ⟨k1, w, k2, k3⟩ := h5 hd f hf pre b post hb
    exact ⟨w, k2, codeHas_of k1 k3⟩
  · obtain ⟨w, w1, w2⟩ := h2
    refine ⟨w, w1, ?_⟩
    rw [(h8 hd).2]
    exact codeHas_of (k := 84) (by decide) w2
  · simp only [emitEnv, h6]; rfl

/-- The compiled program seen as located IR: instruction, its address, and the address after it. -/
def rvProgram (hard : Bool) (F : Flat) : IrM.Program := fun addr ir nxt =>
  ∃ k n, (k, ir) ∈ F.located ∧ (if ir.op = .define then some 16 else Riscv.sizeOf hard ir) = some n ∧
    addr = codeBase + BitVec.ofNat 32 k ∧ nxt = codeBase + BitVec.ofNat 32 (k + n)

theorem codeAt_of {c : Code} {img : List CInt} {k : Nat} {w : List CInt} (hc : CodeAt c codeBase img)
    (hk : k % 4 = 0) (h : Within 0 img (k / 4) w) : CodeAt c (codeBase + BitVec.ofNat 32 k) w := by
  obtain ⟨p, q, rfl, h2⟩ := h
  intro i x hx
  have := hc (p.length + i) x (by
    rw [List.append_assoc, List.getElem?_append_right (by omega)]
    rw [List.getElem?_append_left (by
      have := (List.getElem?_eq_some_iff.mp hx).1; omega)]
    rw [show p.length + i - p.length = i by omega]; exact hx)
  rw [← this]
  congr 1
  rw [BitVec.add_assoc]
  congr 1
  apply BitVec.eq_of_toNat_eq
  simp
  omega

theorem env_ok {hard : Bool} {P : Prog} {F : Flat} {img : List CInt}
    (h : compile target hard P = some (F, img)) (hd : P.DistinctBlocks) :
    (∀ b, OfsOk ((emitEnv target hard P F).bbOfs b)) ∧
    (∀ n o, (emitEnv target hard P F).funcOfs n = some o → OfsOk o) := by
  have hb := ofs_bound rv_good (by decide) h (rv_sizes _ _) hd
  have hm := (compile_spec rv_good h (rv_sizes _ _)).2.2.2.2.2.2.1
  simp only [maxCode] at hm
  have key : ∀ id, OfsOk (BitVec.ofNat 32 (ofsOf (F.bbs target P) id)) := by
    intro id
    have := hb id
    constructor <;> simp only [BitVec.toNat_ofNat] <;> omega
  refine ⟨key, ?_⟩
  intro n o ho
  simp only [emitEnv, Option.map_eq_some_iff] at ho
  obtain ⟨b, _, rfl⟩ := ho
  exact key b

/-- **C61 (RISC-V).** Compiled code refines the IR: whenever the IR program can go from `s` to `t`, a machine with the
compiled code loaded that represents `s` runs, without trap or environment call, into a state that represents `t`. -/
theorem C61_rv_refines (hard : Bool) (P : Prog) (F : Flat) (img : List CInt)
    (h : compile target hard P = some (F, img)) (hd : P.DistinctBlocks) (c : Code) (hc : CodeAt c codeBase img)
    (s t : IrM.State) (hrun : IrM.Run (rvAbi (emitEnv target hard P F)) (rvProgram hard F) s t)
    (m : State) (hm : Sim s m) : ∃ m', Reaches c m m' ∧ Sim t m' := by
  obtain ⟨h1, h2, h3, h4, h5, h6, h7, h8, h9⟩ := compile_spec rv_good h (rv_sizes _ _)
  obtain ⟨hbb, hfn⟩ := env_ok h hd
  simp only [maxCode] at h7
  induction hrun with
  | refl => exact ⟨m, .refl _, hm⟩
  | @tail t' u _ hst ih =>
    obtain ⟨m1, r1, s1⟩ := ih
    obtain ⟨ir, nxt, ⟨k, n, hk1, hk2, hk3, hk4⟩, hstep⟩ := hst
    obtain ⟨w, q1, q2, q3, q4⟩ := h4 k ir hk1
    have hsz : n = 4 * w.length := by
      rw [sizeFlat] at q2
      have := hk2.symm.trans q2
      simpa using this
    subst hsz
    have hle := q4.le
    have hpc : m1.pc = codeBase + BitVec.ofNat 32 k := by rw [s1.pc, hk3]
    have hca : CodeAt c m1.pc w := by rw [hpc]; exact codeAt_of hc q3 q4
    have hkn : (BitVec.ofNat 32 k).toNat = k := by simp; omega
    obtain ⟨m2, r2, s2⟩ := sim_insn (emitEnv target hard P F) hbb hfn (by show (0x10054#32).toNat % 4 = 0; decide) (BitVec.ofNat 32 k)
      ⟨by rw [hkn]; exact q3, by rw [hkn]; omega⟩ ir w q1 m1 hca hpc t' u nxt
      (by rw [hk4, hpc, BitVec.add_assoc, BitVec.ofNat_add]) (by rw [hkn]; omega) hstep s1
    exact ⟨m2, r1.trans r2, s2⟩

/-- **C61 (entering a block).** The instructions of a block, in order, are the IR program starting at the block's
address: the `i`-th is at the address where the previous ones end. -/
theorem C61_rv_block_instrs (hard : Bool) (P : Prog) (F : Flat) (img : List CInt)
    (h : compile target hard P = some (F, img)) (hd : P.DistinctBlocks) (f : Fn) (hf : f ∈ P.fns)
    (pre : List Block) (b : Block) (post : List Block) (hb : f.blocks = pre ++ b :: post)
    (a : List Ph2Ir) (ir : Ph2Ir) (z : List Ph2Ir) (hs : blockCode target f pre b post = a ++ ir :: z) :
    ∃ sizes : List Nat,
      a.map (fun x => if x.op = .define then some 16 else Riscv.sizeOf hard x) = sizes.map some ∧
      ∃ nxt, rvProgram hard F
        ((rvAbi (emitEnv target hard P F)).blockAddr b.id + BitVec.ofNat 32 sizes.sum) ir nxt := by
  obtain ⟨h1, h2, h3, h4, h5, h6, h7, h8, h9, h10, h11, h12⟩ := compile_spec rv_good h (rv_sizes _ _)
  obtain ⟨x, y, zz, e, k1, k2, k3⟩ := h11 hd f hf pre b post hb
  replace k2 : y.map (·.2) = a ++ ir :: z := k2.trans hs
  have hsub : ∀ p ∈ y, p ∈ F.located := by
    intro p hp; simp [Flat.located, k1, hp]
  have key : ∀ (a : List Ph2Ir) (y : List (Nat × Ph2Ir)) (o : Nat), y.map (·.2) = a ++ ir :: z →
      (∀ p ∈ y, p ∈ F.located) → Consec (sizeFlat target hard) o y e →
      ∃ sizes : List Nat, a.map (fun x => if x.op = .define then some 16 else Riscv.sizeOf hard x) = sizes.map some ∧
      ∃ n, (o + sizes.sum, ir) ∈ F.located ∧ sizeFlat target hard ir = some n := by
    intro a
    induction a with
    | nil =>
      intro y o hy hsub hc
      cases y with
      | nil => simp at hy
      | cons p y =>
        obtain ⟨k, ir'⟩ := p
        simp only [List.map_cons, List.nil_append, List.cons.injEq] at hy
        obtain ⟨rfl, _⟩ := hy
        obtain ⟨rfl, n, hn, _⟩ := hc
        exact ⟨[], rfl, n, by simpa using hsub _ List.mem_cons_self, hn⟩
    | cons x a ih =>
      intro y o hy hsub hc
      cases y with
      | nil => simp at hy
      | cons p y =>
        obtain ⟨k, ir'⟩ := p
        simp only [List.map_cons, List.cons_append, List.cons.injEq] at hy
        obtain ⟨rfl, hy⟩ := hy
        obtain ⟨rfl, n, hn, hc⟩ := hc
        obtain ⟨sz, e1, n', e2, e3⟩ := ih y _ hy (fun p hp => hsub p (List.mem_cons_of_mem _ hp)) hc
        refine ⟨n :: sz, ?_, n', ?_, e3⟩
        · simp only [List.map_cons, e1]; rw [sizeFlat] at hn; rw [← hn]; rfl
        · simpa [Nat.add_assoc] using e2
  obtain ⟨sizes, e1, n, e2, e3⟩ := key a y _ k2 hsub k3
  refine ⟨sizes, e1, _, _, n, e2, by rw [sizeFlat] at e3; exact e3, ?_, rfl⟩
  simp only [rvAbi, emitEnv]
  rw [BitVec.ofNat_add, ← BitVec.add_assoc]
  rfl

end Shecc.Props
