import Verif.Lemmas.Layout
import Verif.Spec.SsaProgram
import Verif.Spec.Image

/-! The output of the layout pass, as code placed in the program of the IR machine. -/

namespace Shecc
open IrM RaFn

/-- The located instructions as a program. -/
def progOf (T : Target) (hard : Bool) (F : Flat) : IrM.Program := fun addr ir nxt =>
  ∃ k n, (k, ir) ∈ F.located ∧ sizeFlat T hard ir = some n ∧ addr = codeBase + BitVec.ofNat 32 k ∧
    nxt = codeBase + BitVec.ofNat 32 (k + n)

theorem prep_final (T : Target) (st : CInt) (nx : Option Nat) (ir : Ph2Ir) : Final st ir (prepInsn T st nx ir) := by
  unfold prepInsn Final
  simp only
  generalize (if ir.op = .ret then { ir with src1 := st } else ir : Ph2Ir) = x
  by_cases h : T.detaches = true ∧ x.op = .branch ∧ some x.else_bb ≠ nx
  · rw [if_pos h]; exact ⟨true, rfl⟩
  · rw [if_neg h]; exact ⟨x.is_branch_detached, rfl⟩

theorem lay_at {T : Target} {hard : Bool} {F : Flat} {st : CInt} {nx : Option Nat} (code : List Ph2Ir) :
    (∀ ir ∈ code, ir.op ≠ .define) → ∀ {ofs o : Nat} {l : List (Nat × Ph2Ir)},
    layInsns T hard ofs (code.map (prepInsn T st nx)) = some (l, o) → (∀ p ∈ l, p ∈ F.located) →
    At (progOf T hard F) st (codeBase + BitVec.ofNat 32 ofs) code (codeBase + BitVec.ofNat 32 o) := by
  induction code with
  | nil =>
    intro _ ofs o l h _
    simp only [List.map_nil, layInsns, Option.some.injEq, Prod.mk.injEq] at h
    obtain ⟨rfl, rfl⟩ := h
    exact .nil _
  | cons ir code ih =>
    intro hnd ofs o l h hsub
    simp only [List.map_cons, layInsns] at h
    split at h
    · cases h
    rename_i n hn
    split at h
    · cases h
    rename_i l' o' hl
    simp only [Option.some.injEq, Prod.mk.injEq] at h
    obtain ⟨rfl, rfl⟩ := h
    refine .cons (prep_final T st nx ir) ⟨ofs, n, hsub _ List.mem_cons_self, ?_, rfl, rfl⟩
      (ih (fun x hx => hnd x (List.mem_cons_of_mem _ hx)) hl (fun p hp => hsub p (List.mem_cons_of_mem _ hp)))
    rw [sizeFlat, if_neg (by rw [prep_op]; exact hnd ir List.mem_cons_self)]
    exact hn

/-- A block as the allocator returns it. -/
def blkPair (b : Block) : Nat × List Ph2Ir := (b.id, b.insns)

theorem lay_blocks {A : Abi} {T : Target} {hard : Bool} {F : Flat} {st : CInt} (bs : List Block) :
    (∀ b ∈ bs, NoDefine b) → ∀ {ofs : Nat} {L : Layout}, layBlocks T hard st ofs bs = some L → (∀ p ∈ L.insns, p ∈ F.located) →
    (∀ p ∈ L.bbs, A.blockAddr p.1 = codeBase + BitVec.ofNat 32 p.2) →
    Laid A (progOf T hard F) st (codeBase + BitVec.ofNat 32 ofs) (bs.map blkPair) ∧
      (∀ b ∈ bs.head?, A.blockAddr b.id = codeBase + BitVec.ofNat 32 ofs) := by
  induction bs with
  | nil => intro _ ofs L _ _ _; exact ⟨.nil _, fun b hb => by cases hb⟩
  | cons b bs ih =>
    intro hnd ofs L h hsub hbb
    simp only [layBlocks] at h
    split at h
    · cases h
    rename_i l o hl
    split at h
    · cases h
    rename_i r hr
    simp only [Option.some.injEq] at h
    subst h
    obtain ⟨i1, i2⟩ := ih (fun b hb => hnd b (List.mem_cons_of_mem _ hb)) hr (fun p hp => hsub p (by simp [hp])) (fun p hp => hbb p (by simp [hp]))
    refine ⟨.cons (lay_at _ (hnd b List.mem_cons_self) hl (fun p hp => hsub p (by simp [hp]))) ?_ i1, ?_⟩
    · intro c hc
      cases bs with
      | nil => cases hc
      | cons b' bs => cases hc; exact i2 b' rfl
    · intro b' hb'
      cases hb'
      exact hbb (b.id, ofs) (by simp)

theorem lay_fn {A : Abi} {T : Target} {hard : Bool} {F : Flat} (f : Fn) (hnd : ∀ b ∈ f.blocks, NoDefine b) {ofs : Nat} {L : Layout}
    (h : layFn T hard ofs f = some L) (hsub : ∀ p ∈ L.insns, p ∈ F.located)
    (hbb : ∀ p ∈ L.bbs, A.blockAddr p.1 = codeBase + BitVec.ofNat 32 p.2) :
    ∃ start, progOf T hard F (A.blockAddr f.entry.id) { op := .define, src0 := f.stackSize } start ∧
      Laid A (progOf T hard F) f.stackSize start (f.blocks.map blkPair) := by
  unfold layFn at h
  split at h
  · cases h
  rename_i l o hl
  split at h
  · cases h
  rename_i r hr
  simp only [Option.some.injEq] at h
  subst h
  obtain ⟨i1, i2⟩ := lay_blocks (A := A) f.rest (fun b hb => hnd b (by simp [Fn.blocks, hb])) hr (fun p hp => hsub p (by simp [hp])) (fun p hp => hbb p (by simp [hp]))
  refine ⟨codeBase + BitVec.ofNat 32 (ofs + 16), ⟨ofs, 16, hsub _ (by simp), by simp [sizeFlat], hbb (f.entry.id, ofs) (by simp), rfl⟩, ?_⟩
  refine .cons (lay_at _ (hnd f.entry (by simp [Fn.blocks])) hl (fun p hp => hsub p (by simp [hp]))) ?_ i1
  intro c hc
  cases hr' : f.rest with
  | nil => rw [hr'] at hc; cases hc
  | cons b' bs => rw [hr'] at hc i2; cases hc; exact i2 b' rfl

theorem lay_fns {A : Abi} {T : Target} {hard : Bool} {F : Flat} (fs : List Fn) : (∀ f ∈ fs, ∀ b ∈ f.blocks, NoDefine b) →
    ∀ {ofs : Nat} {L : Layout}, layFns T hard ofs fs = some L → (∀ p ∈ L.insns, p ∈ F.located) →
    (∀ p ∈ L.bbs, A.blockAddr p.1 = codeBase + BitVec.ofNat 32 p.2) → ∀ f ∈ fs,
    ∃ start, progOf T hard F (A.blockAddr f.entry.id) { op := .define, src0 := f.stackSize } start ∧
      Laid A (progOf T hard F) f.stackSize start (f.blocks.map blkPair) := by
  induction fs with
  | nil => intro _ ofs L _ _ _ f hf; cases hf
  | cons f0 fs ih =>
    intro hnd ofs L h hsub hbb f hf
    simp only [layFns] at h
    split at h
    · cases h
    rename_i l hl
    split at h
    · cases h
    rename_i r hr
    simp only [Option.some.injEq] at h
    subst h
    rcases List.mem_cons.mp hf with rfl | hf
    · exact lay_fn f (hnd f List.mem_cons_self) hl (fun p hp => hsub p (by simp [hp])) (fun p hp => hbb p (by simp [hp]))
    · exact ih (fun b hb => hnd b (List.mem_cons_of_mem _ hb)) hr (fun p hp => hsub p (by simp [hp])) (fun p hp => hbb p (by simp [hp])) f hf

/-- The functions and the global initialisers of a compiled program are in place. -/
theorem compile_laid {T : Target} (hT : T.Good) {hard : Bool} {Q : Prog} {F : Flat} {img : List CInt}
    (h : compile T hard Q = some (F, img)) (hd : Q.DistinctBlocks) {A : Abi}
    (hA : ∀ b, A.blockAddr b = codeBase + (emitEnv T hard Q F).bbOfs b) :
    (∀ f ∈ Q.fns, ∃ start, progOf T hard F (A.blockAddr f.entry.id) { op := .define, src0 := f.stackSize } start ∧
      Laid A (progOf T hard F) f.stackSize start (f.blocks.map blkPair)) ∧
    ∃ l, layInsns T hard T.globalOfs Q.globalInsns = some (l, F.mainJump) ∧ ∀ p ∈ l, p ∈ F.located := by
  unfold compile at h
  split at h
  · cases h
  rename_i F' hF
  simp only [Option.map_eq_some_iff, Prod.mk.injEq] at h
  obtain ⟨ws, hw, rfl, rfl⟩ := h
  unfold cfgFlatten at hF
  split at hF
  · cases hF
  rename_i g o hg
  split at hF
  · cases hF
  rename_i L hL
  simp only [Option.some.injEq] at hF
  subst hF
  have hnd := layFns_nodef hT _ hL
  obtain ⟨_, hids, _⟩ := layFns_spec _ hnd hL
  refine ⟨?_, g, hg, fun p hp => by simp [Flat.located, hp]⟩
  refine lay_fns _ hnd hL (fun p hp => by simp [Flat.located, hp]) ?_
  intro p hp
  rw [hA]
  simp only [emitEnv]
  congr 2
  refine ofsOf_nodup ?_ (by simp [Flat.bbs, hp])
  simp only [Flat.bbs, List.map_cons, hids]
  exact hd

/-- Addresses of instructions are word aligned. -/
theorem compile_aligned {T : Target} (hT : T.Good) {hard : Bool} {Q : Prog} {F : Flat} {img : List CInt}
    (h : compile T hard Q = some (F, img)) (hs : SizesAgree T (emitEnv T hard Q F) (F.located.map (·.2))) :
    ∀ a ir nxt, progOf T hard F a ir nxt → nxt.toNat % 4 = 0 := by
  obtain ⟨h1, h2, h3, h4, h5, h6, h7, h8, h9⟩ := compile_spec hT h hs
  rintro a ir nxt ⟨k, n, hk, hn, rfl, rfl⟩
  obtain ⟨w, q1, q2, q3, q4⟩ := h4 k ir hk
  rw [hn] at q2
  cases q2
  have := q4.le
  simp only [maxCode] at h7
  have e : (codeBase : Word).toNat = 0x10054 := rfl
  rw [BitVec.toNat_add, BitVec.toNat_ofNat, e]
  omega

end Shecc
