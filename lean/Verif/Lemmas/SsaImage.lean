import Verif.Spec.SsaImage
import Verif.Spec.RvAbi
import Verif.Spec.ArmAbi
import Verif.Lemmas.LayLaid
import Verif.Lemmas.RaFn
import Verif.Props.Peephole
import Verif.Lemmas.RaMem

/-!
# The compiled form of a program: linking
-/

namespace SsaProg
open Shecc Shecc.Ssa Shecc.RegAlloc IrM SrcBlock RaFn

theorem rv_abiOk (env : EmitEnv) : AbiOk (RV32.rvAbi env) where
  divLocal := Shecc.Props.rv_divLocal env
  raSlot := .inl fun _ => rfl
  divOk _ _ _ _ _ _ := trivial
  divMem := by
    intro t k l a _ h
    exact absurd rfl h

theorem spill_ne {m : Mem} {sp : Word} {k l : BitVec 3} {x y a : Word} (h8 : 8 ≤ sp.toNat)
    (h : ARM.spill m sp k l x y a ≠ m a) : sp.toNat - 8 ≤ a.toNat ∧ a.toNat < sp.toNat := by
  apply Classical.byContradiction
  intro hn
  have e8 : (sp - 8#32).toNat = sp.toNat - 8 := by
    rw [BitVec.toNat_sub, BitVec.toNat_ofNat]
    have := sp.isLt
    omega
  have e4 : (sp - 4#32).toNat = sp.toNat - 4 := by
    rw [BitVec.toNat_sub, BitVec.toNat_ofNat]
    have := sp.isLt
    omega
  have n8 : ∀ k, k < 4 → a ≠ (sp - 8#32) + BitVec.ofNat 32 k := by
    rintro k hk rfl
    apply hn
    rw [BitVec.toNat_add, e8, BitVec.toNat_ofNat]
    have := sp.isLt
    omega
  have n4 : ∀ k, k < 4 → a ≠ (sp - 4#32) + BitVec.ofNat 32 k := by
    rintro k hk rfl
    apply hn
    rw [BitVec.toNat_add, e4, BitVec.toNat_ofNat]
    have := sp.isLt
    omega
  apply h
  unfold ARM.spill
  split
  · rw [store32_ne _ _ n4, store32_ne _ _ n8]
  · split
    · rw [store32_ne _ _ n4, store32_ne _ _ n8]
    · rw [store32_ne _ _ n4]

theorem arm_abiOk (env : EmitEnv) : AbiOk (ARM.armAbi env) where
  divLocal := Shecc.Props.arm_divLocal env
  raSlot := .inr fun _ => rfl
  divOk _ _ _ _ h hk := .inr ⟨h, fun _ => hk⟩
  divMem := by
    intro t k l a h8 h
    simp only [ARM.armAbi] at h
    split at h
    · exact absurd rfl h
    · exact spill_ne h8 h

theorem peep_blocks (f : Shecc.Fn) : ({ f with
      entry := { f.entry with insns := Peep.block f.entry.insns }
      rest := f.rest.map fun b => { b with insns := Peep.block b.insns } } : Shecc.Fn).blocks =
      f.blocks.map fun b => { b with insns := Peep.block b.insns } := rfl

/-- The peephole pass does not rename blocks. -/
theorem peep_distinct {Q : Prog} (h : Q.DistinctBlocks) : (Peep.prog Q).DistinctBlocks := by
  unfold Prog.DistinctBlocks at h ⊢
  have : ((Peep.prog Q).fns.flatMap (·.blocks)).map (·.id) = (Q.fns.flatMap (·.blocks)).map (·.id) := by
    simp [Peep.prog, peep_blocks, Function.comp_def, List.flatMap_map, List.map_flatMap]
  rw [this]
  exact h

/-- A compiled program is linked. -/
theorem linked_of {T : Target} (hT : T.Good) {hard : Bool} {Q : Prog} {F : Flat} {img : List CInt}
    (h : compile T hard (Peep.prog Q) = some (F, img)) (hd : Q.DistinctBlocks)
    (hs : SizesAgree T (emitEnv T hard (Peep.prog Q) F) (F.located.map (·.2))) {A : Abi} (hA : AbiOk A)
    (hb : ∀ b, A.blockAddr b = codeBase + (emitEnv T hard (Peep.prog Q) F).bbOfs b)
    (hf : ∀ g, A.funcAddr g = (Q.funcBB g).map A.blockAddr)
    {gp : Word} {gofs : Nat → Nat} {Pr : SrcProg} (hv : A.byteVal = Pr.byteVal) (hda : A.dataAddr = Pr.dataAddr)
    (B : Built gofs Q Pr) (G : GlobalsAt gp gofs Pr) :
    Linked A (progOf T hard F) (A.blockAddr Q.syscallBB) gp gofs Pr where
  abi := hA
  byteVal := hv
  dataAddr := hda
  aligned := compile_aligned hT h hs
  sys := by rw [hf, B.sys]; rfl
  fn := by
    intro g f hg hne
    obtain ⟨h1, h2, exitPrev, use, live, st0, fin, codes, al, c, hc, e1, e2⟩ := B.fn g f hg hne
    obtain ⟨start, p1, p2⟩ := (compile_laid hT h (peep_distinct hd) hb).1 _ (List.mem_map_of_mem hc)
    rw [peep_blocks, List.map_map] at p2
    have hid : c.entry.id = f.entry := by
      have i1 := blocks_ids _ al.alloc
      have i2 : (c.blocks.map (fun b => (b.id, b.insns))).map (·.1) = f.entry :: f.rest := by
        rw [e2, ← i1]; simp [withReturns]
      simp only [Shecc.Fn.blocks, List.map_cons, List.cons.injEq] at i2
      exact i2.1
    refine ⟨h1, exitPrev, use, live, st0, fin, codes, _, A.blockAddr f.entry, start, al, .inr ⟨?_, rfl⟩, by rw [hf, h2]; rfl, ?_, ?_⟩
    · intro p hp
      rw [← e2] at hp
      obtain ⟨b, hb, rfl⟩ := List.mem_map.1 hp
      exact B.peep c hc b hb
    · rw [← hid, ← e1]; exact p1
    · rw [← e1, ← e2, List.map_map]; exact p2
  gaddr := G.gaddr
  gdiff := G.gdiff

end SsaProg
