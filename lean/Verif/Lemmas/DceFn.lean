import Verif.Lemmas.PostDom
import Verif.Spec.CDceFn
import Verif.Spec.SsaReach
import Verif.Props.Cfg
import Verif.Props.Dce

/-!
# Dead code elimination on executions of a function
-/

namespace Shecc.Dce
open Shecc Shecc.Ssa CDce Shecc.Props RaFn SrcBlock

/-- The block flags say which blocks have a useful instruction. -/
structure BInv (f : Fn) (st : St) : Prop where
  some_ : ∀ b, st.bbUseful b = true → ∃ i ∈ f.blocks b, st.useful i = true
  all_ : ∀ b, ∀ i ∈ f.blocks b, st.useful i = true → st.bbUseful b = true

theorem BInv.markBb {f : Fn} (hw : ∀ b, ∀ i ∈ f.blocks b, f.blk i = b) {st : St} (I : BInv f st) {i b : Nat} (hi : i ∈ f.blocks b) (j : Nat) :
    BInv f (((st.mark i).markBb b).push j) := by
  refine ⟨?_, ?_⟩
  · intro c hc
    simp only [St.push, St.markBb, St.mark] at hc ⊢
    by_cases hcb : c = b
    · subst hcb; exact ⟨i, hi, by simp⟩
    · rw [if_neg hcb] at hc
      obtain ⟨k, h1, h2⟩ := I.some_ c hc
      exact ⟨k, h1, by split <;> simp_all⟩
  · intro c k hk hu
    simp only [St.push, St.markBb, St.mark] at hu ⊢
    split
    · rfl
    · rename_i hcb
      by_cases hki : k = i
      · subst hki
        exact absurd ((hw c k hk).symm.trans (hw b k hi)) hcb
      · rw [if_neg hki] at hu
        exact I.all_ c k hk hu

theorem BInv.markIn {f : Fn} (hw : ∀ b, ∀ i ∈ f.blocks b, f.blk i = b) {st : St} (I : BInv f st) {i b : Nat} (hi : i ∈ f.blocks b)
    (hb : st.bbUseful b = true) (j : Nat) : BInv f ((st.mark i).push j) ∧ ((st.mark i).push j).bbUseful b = true := by
  refine ⟨⟨?_, ?_⟩, hb⟩
  · intro c hc
    obtain ⟨k, h1, h2⟩ := I.some_ c hc
    exact ⟨k, h1, by simp only [St.push, St.mark]; split <;> simp_all⟩
  · intro c k hk hu
    simp only [St.push, St.mark] at hu ⊢
    by_cases hki : k = i
    · subst hki
      have : c = b := (hw c k hk).symm.trans (hw b k hi)
      rw [this]; exact hb
    · rw [if_neg hki] at hu
      exact I.all_ c k hk hu

theorem markPushes_bb {f : Fn} (hw : ∀ b, ∀ i ∈ f.blocks b, f.blk i = b) {b : Nat} : ∀ (before : List Nat) (st : St),
    (∀ p ∈ before, p ∈ f.blocks b) → BInv f st → st.bbUseful b = true → BInv f (markPushes f before st) := by
  intro before
  induction before with
  | nil => intro st _ I _; exact I
  | cons p ps ih =>
    intro st hb I hu
    rw [markPushes]
    split
    · obtain ⟨h1, h2⟩ := I.markIn hw (hb p (by simp)) hu p
      exact ih _ (fun q hq => hb q (by simp [hq])) h1 h2
    · exact I

theorem initMark_bb {f : Fn} (hw : ∀ b, ∀ i ∈ f.blocks b, f.blk i = b) {b i : Nat} {before : List Nat} {next : Option Nat} {st : St}
    (hi : i ∈ f.blocks b) (hbef : ∀ p ∈ before, p ∈ f.blocks b) (hn : ∀ k, next = some k → k ∈ f.blocks b) (I : BInv f st) :
    BInv f (initMark f before i next st) := by
  have hmark : BInv f (((st.mark i).markBb (f.blk i)).push i) := by
    rw [hw b i hi]; exact I.markBb hw hi i
  have hcall : BInv f (markPushes f before (markFuncRet f i next (((st.mark i).markBb (f.blk i)).push i))) := by
    have hu : (((st.mark i).markBb (f.blk i)).push i).bbUseful b = true := by
      rw [hw b i hi]; simp [St.push, St.markBb]
    unfold markFuncRet
    split
    · exact markPushes_bb hw _ _ hbef hmark hu
    · rename_i k
      split
      · obtain ⟨h1, h2⟩ := hmark.markIn hw (hn k rfl) hu i
        exact markPushes_bb hw _ _ hbef h1 h2
      · exact markPushes_bb hw _ _ hbef hmark hu
  have hglob : BInv f (markGlobal f i st) := by
    unfold markGlobal
    split
    · exact I
    · split
      · exact hmark
      · exact I
  unfold initMark
  split <;> first | exact hmark | exact hcall | exact hglob

theorem initLoop_bb {f : Fn} (hw : ∀ b, ∀ i ∈ f.blocks b, f.blk i = b) {cap b : Nat} : ∀ (is before : List Nat) (st st' : St),
    (∀ p ∈ before, p ∈ f.blocks b) → (∀ p ∈ is, p ∈ f.blocks b) → BInv f st → initLoop f cap before is st = some st' → BInv f st' := by
  intro is
  induction is with
  | nil => intro before st st' _ _ I h; cases h; exact I
  | cons i is ih =>
    intro before st st' h1 h2 I h
    rw [initLoop] at h
    split at h
    · cases h
    · refine ih _ _ _ ?_ (fun p hp => h2 p (by simp [hp])) ?_ h
      · intro p hp
        rcases List.mem_cons.1 hp with rfl | hp
        · exact h2 p (by simp)
        · exact h1 p hp
      · refine initMark_bb hw (h2 i (by simp)) h1 ?_ I
        intro k hk
        exact h2 k (List.mem_cons_of_mem _ (List.mem_of_mem_head? hk))

theorem touch_bb {f : Fn} (hw : ∀ b, ∀ i ∈ f.blocks b, f.blk i = b) {k b : Nat} {st : St} (hk : k ∈ f.blocks b) (I : BInv f st) :
    BInv f (touch f k st) := by
  unfold touch
  split
  · exact I
  · rw [hw b k hk]; exact I.markBb hw hk k

theorem touchOperand_bb {f : Fn} (hw : ∀ b, ∀ i ∈ f.blocks b, f.blk i = b) (hl : ∀ v k, f.lastAssign v = some k → ∃ b, k ∈ f.blocks b)
    {o : Option Nat} {st : St} (I : BInv f st) : BInv f (touchOperand f o st) := by
  unfold touchOperand
  split
  · exact I
  · split
    · exact I
    · rename_i hk
      obtain ⟨b, hb⟩ := hl _ _ hk
      exact touch_bb hw hb I

theorem touchRdf_bb {f : Fn} (hw : ∀ b, ∀ i ∈ f.blocks b, f.blk i = b) : ∀ (rs : List Nat) (st st' : St), BInv f st →
    touchRdf f rs st = some st' → BInv f st' := by
  intro rs
  induction rs with
  | nil => intro st st' I h; cases h; exact I
  | cons r rs ih =>
    intro st st' I h
    rw [touchRdf] at h
    split at h
    · cases h
    · rename_i t ht
      refine ih _ _ ?_ h
      split
      · split
        · exact I
        · exact I.markBb hw (List.mem_of_getLast? ht) t
      · exact I

theorem drain_bb {f : Fn} (hw : ∀ b, ∀ i ∈ f.blocks b, f.blk i = b) (hl : ∀ v k, f.lastAssign v = some k → ∃ b, k ∈ f.blocks b) :
    ∀ (n : Nat) (st st' : St), BInv f st → drain f n st = some st' → BInv f st' := by
  intro n
  induction n with
  | zero => intro st st' _ h; cases h
  | succ n ih =>
    intro st st' I h
    rw [drain] at h
    split at h
    · cases h; exact I
    · rename_i i rest hwl
      simp only at h
      split at h
      · cases h
      · rename_i st3 h3
        refine ih _ _ (touchRdf_bb hw _ _ _ (touchOperand_bb hw hl (touchOperand_bb hw hl ?_)) h3) h
        exact ⟨I.some_, I.all_⟩

theorem dceMark_bb {f : Fn} (hw : ∀ b, ∀ i ∈ f.blocks b, f.blk i = b) (hl : ∀ v k, f.lastAssign v = some k → ∃ b, k ∈ f.blocks b)
    {cap n : Nat} : ∀ (bs : List Nat) (st st' : St), BInv f st → dceMark f cap n bs st = some st' → BInv f st' := by
  intro bs
  induction bs with
  | nil => intro st st' I h; cases h; exact I
  | cons b bs ih =>
    intro st st' I h
    rw [dceMark] at h
    split at h
    · cases h
    · rename_i st1 h1
      unfold dceInsn at h1
      split at h1
      · cases h1
      · rename_i st0 h0
        refine ih _ _ (drain_bb hw hl _ _ _ (initLoop_bb hw (b := b) _ _ _ _ (by simp) (fun p hp => hp) ?_ h0) h1) h
        exact ⟨I.some_, I.all_⟩

/-! ### Steps -/

/-- The states differ at most in the variables `D`. -/
structure SRel (D : Nat → Prop) (s t : SrcBlock.St) : Prop where
  mem : t.mem = s.mem
  args : t.args = s.args
  ret : t.ret = s.ret
  val : ∀ v, ¬ D v → t.val v = s.val v

theorem SRel.refl {D : Nat → Prop} (s : SrcBlock.St) : SRel D s s := ⟨rfl, rfl, rfl, fun _ _ => rfl⟩

variable {C : Ctx} {D : Nat → Prop}

theorem SRel.rd {s t : SrcBlock.St} (h : SRel D s t) {v : Nat} (hv : ¬ D v) : SrcBlock.rd C t v = SrcBlock.rd C s v := by
  unfold SrcBlock.rd
  rw [h.mem, h.val v hv]

theorem SRel.wr {s t : SrcBlock.St} (h : SRel D s t) (d : Nat) (x : IrM.Word) : SRel D (SrcBlock.wr C s d x) (SrcBlock.wr C t d x) := by
  unfold SrcBlock.wr
  split
  · refine ⟨?_, h.args, h.ret, h.val⟩
    show IrM.store32 t.mem _ _ = IrM.store32 s.mem _ _
    rw [h.mem]
  · refine ⟨h.mem, h.args, h.ret, ?_⟩
    intro v hv
    show (if v = d then x else t.val v) = if v = d then x else s.val v
    rw [h.val v hv]

theorem SRel.wrLeft {s t : SrcBlock.St} (h : SRel D s t) {d : Nat} (hg : C.isGlobal d = false) (hd : D d) (x : IrM.Word) :
    SRel D (SrcBlock.wr C s d x) t := by
  unfold SrcBlock.wr
  rw [hg]
  refine ⟨h.mem, h.args, h.ret, ?_⟩
  intro v hv
  show t.val v = if v = d then x else s.val v
  rw [if_neg (by rintro rfl; exact hv hd), h.val v hv]

/-- An instruction that reads none of the variables. -/
theorem step_kept {i : Insn} {s s' t : SrcBlock.St} (h : SRel D s t) (hi : ∀ v, SsaSem.Operand i v → ¬ D v) (hs : SrcBlock.Step C i s s') :
    ∃ t', SrcBlock.Step C i t t' ∧ SRel D s' t' := by
  have h1 : ∀ {a}, i.rs1 = some a → SrcBlock.rd C t a = SrcBlock.rd C s a := fun ha => h.rd (hi _ (Or.inl ha))
  have h2 : ∀ {a}, i.rs2 = some a → SrcBlock.rd C t a = SrcBlock.rd C s a := fun ha => h.rd (hi _ (Or.inr ha))
  cases hs with
  | const ho hd => exact ⟨_, .const ho hd, h.wr _ _⟩
  | data ho hd => exact ⟨_, .data ho hd, h.wr _ _⟩
  | assign ho hd ha => exact ⟨_, .assign ho hd ha, by rw [h1 ha]; exact h.wr _ _⟩
  | phi ho hd ha => exact ⟨_, .phi ho hd ha, by rw [h1 ha]; exact h.wr _ _⟩
  | bin ho hop hd ha hb hv => exact ⟨_, .bin ho hop hd ha hb (by rw [h1 ha, h2 hb]; exact hv), h.wr _ _⟩
  | un ho hop hd ha => exact ⟨_, .un ho hop hd ha, by rw [h1 ha]; exact h.wr _ _⟩
  | read4 ho hz hd ha hv => exact ⟨_, .read4 ho hz hd ha (by rw [h1 ha]; exact hv), by rw [h1 ha, h.mem]; exact h.wr _ _⟩
  | read1 ho hz hd ha hv => exact ⟨_, .read1 ho hz hd ha (by rw [h1 ha]; exact hv), by rw [h1 ha, h.mem]; exact h.wr _ _⟩
  | write4 ho hz ha hb hv hm a1 a2 =>
    refine ⟨{ t with mem := _ }, .write4 ho hz ha hb (by rw [h1 ha]; exact hv) (by rw [h1 ha, h2 hb, h.mem]; exact hm) (by rw [h.mem]; exact a1)
      (by rw [h.mem]; exact a2), ⟨rfl, h.args, h.ret, h.val⟩⟩
  | write1 ho hz ha hb hv hm a1 a2 =>
    refine ⟨{ t with mem := _ }, .write1 ho hz ha hb (by rw [h1 ha]; exact hv) (by rw [h1 ha, h2 hb, h.mem]; exact hm) (by rw [h.mem]; exact a1)
      (by rw [h.mem]; exact a2), ⟨rfl, h.args, h.ret, h.val⟩⟩
  | gaddr ho hd ha hg => exact ⟨_, .gaddr ho hd ha hg, h.wr _ _⟩
  | declare ho hd hb => exact ⟨_, .declare ho hd hb, h⟩
  | object ho hd hb => exact ⟨_, .object ho hd hb, h.wr _ _⟩
  | push ho ha =>
    refine ⟨_, .push ho ha, ⟨h.mem, ?_, h.ret, h.val⟩⟩
    show t.args ++ [SrcBlock.rd C t _] = s.args ++ [SrcBlock.rd C s _]
    rw [h1 ha, h.args]
  | call ho hc => exact ⟨_, .call ho (by rw [h.args, h.mem]; exact hc), ⟨rfl, rfl, rfl, h.val⟩⟩
  | funcRet ho hd hx => exact ⟨_, .funcRet ho hd (by rw [h.ret]; exact hx), h.wr _ _⟩

/-- An instruction that is removed. -/
theorem step_removed {i : Insn} {s s' t : SrcBlock.St} (h : SRel D s t)
    (hop : i.op ≠ .write ∧ i.op ≠ .call ∧ i.op ≠ .address_of ∧ i.op ≠ .allocat ∧ i.op ≠ .push ∧ i.op ≠ .func_ret)
    (hd : ∀ d, i.rd = some d → C.isGlobal d = false ∧ D d) (hs : SrcBlock.Step C i s s') : SRel D s' t := by
  obtain ⟨o1, o2, o3, o4, o5, o6⟩ := hop
  cases hs with
  | const ho hr => exact h.wrLeft (hd _ hr).1 (hd _ hr).2 _
  | data ho hr => exact h.wrLeft (hd _ hr).1 (hd _ hr).2 _
  | assign ho hr ha => exact h.wrLeft (hd _ hr).1 (hd _ hr).2 _
  | phi ho hr ha => exact h.wrLeft (hd _ hr).1 (hd _ hr).2 _
  | bin ho hop hr ha hb hv => exact h.wrLeft (hd _ hr).1 (hd _ hr).2 _
  | un ho hop hr ha => exact h.wrLeft (hd _ hr).1 (hd _ hr).2 _
  | read4 ho hz hr ha hv => exact h.wrLeft (hd _ hr).1 (hd _ hr).2 _
  | read1 ho hz hr ha hv => exact h.wrLeft (hd _ hr).1 (hd _ hr).2 _
  | write4 ho hz ha hb hv hm a1 a2 => exact absurd ho o1
  | write1 ho hz ha hb hv hm a1 a2 => exact absurd ho o1
  | gaddr ho hd ha hg => exact absurd ho o3
  | declare ho hd hb => exact absurd ho o4
  | object ho hd hb => exact absurd ho o4
  | push ho ha => exact absurd ho o5
  | call ho hc => exact absurd ho o2
  | funcRet ho hd hx => exact absurd ho o6

end Shecc.Dce
