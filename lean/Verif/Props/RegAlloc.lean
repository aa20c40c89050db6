import Verif.Lemmas.RegAlloc

/-!
# C56, C58: the register file and the frame during register allocation
-/

namespace Shecc.Props
open Shecc.Ssa Shecc.RegAlloc

theorem Inj.eqv {st st' : RA} (h : Inj st) (e : st'.var = st.var) : Inj st' := (Sub.of_eq e).inj h

theorem clear_inj {st : RA} (h : Inj st) (i : Nat) : Inj (st.clear i) := (Sub.of_var rfl).inj h

theorem allocOp_inj (V : Vars) (B : Block) (idx : Int) (i : Insn) (st st' : RA) (hp : i.op ≠ .push) (hi : Inj st)
    (h : allocOp V B idx i st = some st') : Inj st' := by
  unfold allocOp at h
  split at h
  · rename_i d a _ _ _
    cases h
    refine Inj.eqv (prepareOperand_inj V B a none st hi) ?_
    show (RA.ensureSlot _ _).var = _
    rw [ensureSlot_var]
  · rename_i d _ _
    cases h
    unfold allocAllocat
    split
    · exact hi
    · refine Inj.eqv (prepareDest_inj V B d none none
        { st with offset := upd st.offset d st.stack, stack := st.stack + 4 + (alignSize (num (V.objSize d))).toNat } (Inj.eqv hi rfl)) ?_
      rfl
  · rename_i d _ _
    cases h
    unfold allocConst
    split
    · exact hi
    · refine Inj.eqv (prepareDest_inj V B d none none st hi) ?_
      rw [storeGlobal_var]
      rfl
  · rename_i d _ _
    cases h
    unfold allocConst
    split
    · exact hi
    · refine Inj.eqv (prepareDest_inj V B d none none st hi) ?_
      rw [storeGlobal_var]
      rfl
  · cases h
    refine Inj.eqv (prepareDest_inj V B _ none none _ (Inj.eqv hi ?_)) rfl
    split
    · rw [storeEach_var, ensureSlot_var]
    · rfl
  · rename_i d a _ _ _
    cases h
    unfold allocAssign
    split
    · exact hi
    · have hq := prepareDest_inj V B d (some (prepareOperand V B a none st).2) none _ (prepareOperand_inj V B a none st hi)
      have hs : ∀ q : RA, Inj q → ∀ k ir, Inj (storeGlobal V d k (q.emit ir)) :=
        fun q hq k ir => Inj.eqv hq (by rw [storeGlobal_var]; rfl)
      simp only
      split
      · exact clear_inj (hs _ hq _ _) _
      · exact hs _ hq _ _
  · cases h
    exact Inj.eqv (prepareDest_inj V B _ _ none _ (prepareOperand_inj V B _ none st hi)) rfl
  · cases h
    unfold allocWrite
    split
    · exact Inj.eqv (prepareOperand_inj V B _ none st hi) rfl
    · exact Inj.eqv (prepareOperand_inj V B _ _ _ (prepareOperand_inj V B _ none _ ((spillAlive_sub V B idx st).inj hi))) rfl
  · rename_i x _ _
    cases h
    intro a b v ha hb hva _
    have := spillLiveOut_var V B (prepareOperand V B x none st).1 a ha
    rw [allocBranch] at hva
    simp only [RA.emit] at hva
    rw [this] at hva
    cases hva
  · rename_i hop _
    exact absurd hop hp
  · unfold allocCall at h
    split at h
    · cases h
    · cases h
      intro a b v ha hb hva _
      simp [clearAll, regCnt, ha] at hva
  · cases h
    refine Inj.eqv (prepareOperand_inj V B _ none _ ?_) rfl
    split
    · exact (spillAlive_sub V B idx st).inj hi
    · exact hi
  · cases h
    exact Inj.eqv (prepareDest_inj V B _ none none st hi) rfl
  · cases h
    unfold allocRet
    split
    · exact Inj.eqv hi rfl
    · exact Inj.eqv (prepareOperand_inj V B _ none st hi) rfl
  · split at h
    · cases h
      exact Inj.eqv (prepareDest_inj V B _ _ _ _ (prepareOperand_inj V B _ _ _ (prepareOperand_inj V B _ none st hi))) rfl
    · split at h
      · cases h
        exact Inj.eqv (prepareDest_inj V B _ _ none _ (prepareOperand_inj V B _ none st hi)) rfl
      · cases h
  · split at h
    · cases h
      exact Inj.eqv (prepareDest_inj V B _ _ none _ (prepareOperand_inj V B _ none st hi)) rfl
    · cases h
  · cases h

/-- Arguments are being passed: a push has not been followed by a call yet. -/
def pushPending : List Insn → Bool → Bool
  | [], p => p
  | i :: is, p => pushPending is (if i.op = .push then true else if i.op = .call then false else p)

/-- C56. At every point of the allocation of a block outside argument passing, no variable is recorded in two registers (a
register records at most one variable by construction), for every instruction sequence and every number of variables. -/
theorem C56_no_variable_in_two_registers (V : Vars) (B : Block) (idx : Nat) (insns : List Insn) (st st' : RA)
    (h0 : ∀ i j v, i < 8 → j < 8 → st.var i = some v → st.var j = some v → i = j)
    (h : allocInsns V B idx insns st = some st') (hp : pushPending insns false = false) :
    ∀ i j v, i < 8 → j < 8 → st'.var i = some v → st'.var j = some v → i = j := by
  suffices H : ∀ (insns : List Insn) (idx : Nat) (p : Bool) (st : RA), (p = false → Inj st) →
      allocInsns V B idx insns st = some st' → pushPending insns p = false → Inj st' by
    exact H insns idx false st (fun _ => h0) h hp
  clear h0 h hp insns idx st
  intro insns
  induction insns with
  | nil =>
    intro idx p st hi h hp
    cases h
    exact hi hp
  | cons x xs ih =>
    intro idx p st hi h hp
    rw [allocInsns] at h
    split at h
    · cases h
    · rename_i st1 h1
      rw [pushPending] at hp
      refine ih _ _ st1 ?_ h hp
      intro hq
      have hx : x.op ≠ .push := by
        intro hx
        simp [hx] at hq
      unfold allocInsn at h1
      by_cases hc : x.op = .call
      · unfold allocOp at h1
        rw [hc] at h1
        simp only at h1
        unfold allocCall at h1
        split at h1
        · cases h1
        · cases h1
          intro a b v ha hb hva _
          simp [clearAll, regCnt, ha] at hva
      · rw [if_neg hx, if_neg hc] at hq
        exact allocOp_inj V B _ x _ st1 hx ((refresh_sub B _ st).inj (hi hq)) h1

/-- Every block that continues to another leaves all registers empty, so the hypothesis of the previous theorem holds at the
start of every block but the first, where the registers hold the parameters. -/
theorem C56_registers_empty_between_blocks (V : Vars) (B : Block) (jump : Bool) (insns : List Insn) (st st' : RA)
    (h : allocBlock V B jump insns st = some st') (hn : B.next ≠ none ∨ ∃ xs a rd, insns = xs ++ [{ op := .branch, rd := rd, rs1 := some a }]) :
    ∀ i, i < 8 → st'.var i = none := by
  intro i hi
  unfold allocBlock at h
  split at h
  · cases h
  · rename_i st1 h1
    cases h
    unfold allocEnd
    split
    · rename_i hnx
      rcases hn with hn | ⟨xs, a, rd, hx⟩
      · exact absurd hnx hn
      · subst hx
        have : ∀ (xs : List Insn) (idx : Nat) (s : RA), allocInsns V B idx (xs ++ [{ op := .branch, rd := rd, rs1 := some a }]) s = some st1 →
            st1.var i = none := by
          intro xs
          induction xs with
          | nil =>
            intro idx s hs
            cases hs
            exact spillLiveOut_var V B _ i hi
          | cons y ys ih =>
            intro idx s hs
            rw [List.cons_append, allocInsns] at hs
            split at hs
            · cases hs
            · exact ih _ _ hs
        exact this xs _ _ h1
    · show (if jump then _ else _ : RA).var i = none
      split
      · exact spillLiveOut_var V B _ i hi
      · exact spillLiveOut_var V B _ i hi

/-- A block with more variables than registers: nine constants, each used at the end. -/
def manyConsts : List Insn :=
  (List.range 9).map (fun k => { op := .load_constant, rd := some k }) ++
  (List.range 9).map (fun k => { op := .alu .add, rd := some (20 + k), rs1 := some k, rs2 := some k })

example : ∃ st', allocInsns {} {} 0 manyConsts { consumed := fun v => if v < 9 then 9 + v else -1 } = some st' ∧
    pushPending manyConsts false = false ∧ (st'.out.any (fun ir => ir.op == .store)) = true := by
  refine ⟨_, rfl, ?_, ?_⟩ <;> decide +kernel

/-! ## C58 -/

theorem and_not3 (x : BitVec 32) : (x &&& ~~~ 3#32).toNat = x.toNat / 4 * 4 := by
  have h : x &&& ~~~ 3#32 = (x >>> 2) <<< 2 := by
    apply BitVec.eq_of_getLsbD_eq
    intro i hi
    simp only [BitVec.getLsbD_and, BitVec.getLsbD_not, BitVec.getLsbD_shiftLeft, BitVec.getLsbD_ushiftRight]
    by_cases h2 : i < 2
    · rcases (by omega : i = 0 ∨ i = 1) with rfl | rfl <;> simp
    · have h3 : (3#32).getLsbD i = false := by
        have : (3#32).getLsbD i = (3#2).getLsbD i := by
          simp [BitVec.getLsbD, BitVec.toNat_ofNat]
        rw [this]
        exact BitVec.getLsbD_of_ge _ _ (by omega)
      have h4 : 2 + (i - 2) = i := by omega
      rw [h3, h4]
      simp [hi, h2]
  rw [h, BitVec.toNat_shiftLeft, BitVec.toNat_ushiftRight, Nat.shiftRight_eq_div_pow, Nat.shiftLeft_eq]
  have := x.isLt
  omega

/-- C58, sizes. For every object size that is not too close to the largest `int`, the reserved space is a multiple of four
bytes, at least four, at least the object's size, and less than four bytes more than it if the object is larger than that. -/
theorem C58_align_size (i : BitVec 32) (h0 : 0 ≤ i.toInt) (h1 : i.toInt ≤ 2 ^ 31 - 4) :
    (alignSize i).toInt % 4 = 0 ∧ 4 ≤ (alignSize i).toInt ∧ i.toInt ≤ (alignSize i).toInt ∧
      (4 < i.toInt → (alignSize i).toInt < i.toInt + 4) := by
  have hn : i.toInt = i.toNat := by
    rw [BitVec.toInt_eq_toNat_cond] at h0 ⊢
    have := i.isLt
    split at h0 <;> split <;> omega
  rw [hn] at h0 h1 ⊢
  unfold alignSize
  have h4 : (4#32).toInt = 4 := by decide
  by_cases h : i.sle 4#32
  · rw [if_pos h, h4]
    rw [BitVec.sle_iff_toInt_le, hn, h4] at h
    omega
  · rw [if_neg h]
    rw [BitVec.sle_iff_toInt_le, hn, h4] at h
    have e : (i + 3#32).toNat = i.toNat + 3 := by
      rw [BitVec.toNat_add, show (3#32).toNat = 3 from rfl]
      omega
    have e2 : ((i + 3#32) &&& ~~~ 3#32).toNat = (i.toNat + 3) / 4 * 4 := by rw [and_not3, e]
    have e3 : ((i + 3#32) &&& ~~~ 3#32).toInt = (((i.toNat + 3) / 4 * 4 : Nat) : Int) := by
      rw [BitVec.toInt_eq_toNat_cond, e2, if_pos (by omega)]
    rw [e3]
    omega

/-- Declaration of a local array or structure. -/
def declares (V : Vars) (i : Insn) : Option Nat :=
  if i.op = .allocat then
    match i.rd with
    | none => none
    | some d => if V.basic d then none else some d
  else none

/-- Bytes of the frame reserved for a variable: a word, and for arrays and structures declared so far the object too. -/
def areaSize (V : Vars) (decl : List Nat) (v : Nat) : Nat :=
  if v ∈ decl then 4 + (alignSize (num (V.objSize v))).toNat else 4

/-- The areas of the variables `loc` of a function (its locals) are disjoint, word aligned and within the frame. -/
def FrameOk (V : Vars) (loc : Nat → Prop) (decl : List Nat) (st : RA) : Prop :=
  st.stack % 4 = 0 ∧ 4 ≤ st.stack ∧ (∀ d ∈ decl, st.offset d ≠ 0) ∧
  (∀ v, loc v → st.offset v ≠ 0 →
    4 ≤ st.offset v ∧ st.offset v % 4 = 0 ∧ st.offset v + areaSize V decl v ≤ st.stack) ∧
  ∀ u v, u ≠ v → loc u → loc v → st.offset u ≠ 0 → st.offset v ≠ 0 →
    st.offset u + areaSize V decl u ≤ st.offset v ∨ st.offset v + areaSize V decl v ≤ st.offset u

theorem alignSize_mod (i : BitVec 32) : (alignSize i).toNat % 4 = 0 := by
  unfold alignSize
  split
  · rfl
  · rw [and_not3]; omega

/-- Giving variable `d` the next `4 + n` bytes. -/
theorem FrameOk.grow {V : Vars} {loc : Nat → Prop} {decl decl' : List Nat} {st st' : RA} (h : FrameOk V loc decl st) (d n : Nat) (hn : n % 4 = 0)
    (ho : st'.offset = upd st.offset d st.stack) (hs : st'.stack = st.stack + 4 + n) (hd : areaSize V decl' d ≤ 4 + n)
    (hu : ∀ u, u ≠ d → areaSize V decl' u = areaSize V decl u) (hdd : ∀ u, u ∈ decl' → u = d ∨ u ∈ decl) :
    FrameOk V loc decl' st' := by
  obtain ⟨h1, h2, h5, h3, h4⟩ := h
  refine ⟨by omega, by omega, ?_, ?_, ?_⟩
  · intro u hu'
    rw [ho]
    by_cases hud : u = d
    · subst hud; rw [upd_same]; omega
    · rw [upd_ne _ _ hud]
      exact h5 u ((hdd u hu').resolve_left hud)
  · intro v hg hv
    by_cases hvd : v = d
    · subst hvd
      rw [ho] at hv ⊢
      simp only [upd_same] at hv ⊢
      omega
    · rw [ho, upd_ne _ _ hvd] at hv ⊢
      have := h3 v hg hv
      rw [hu v hvd]
      omega
  · intro u v huv hgu hgv hou hov
    by_cases hud : u = d
    · subst hud
      have hvd : v ≠ u := fun e => huv e.symm
      rw [ho, upd_ne _ _ hvd] at hov
      rw [ho, upd_ne _ _ hvd, upd_same, hu v hvd]
      right
      exact (h3 v hgv hov).2.2
    · by_cases hvd : v = d
      · subst hvd
        rw [ho, upd_ne _ _ hud] at hou
        rw [ho, upd_ne _ _ hud, upd_same, hu u hud]
        left
        exact (h3 u hgu hou).2.2
      · rw [ho, upd_ne _ _ hud] at hou
        rw [ho, upd_ne _ _ hvd] at hov
        rw [ho, upd_ne _ _ hud, upd_ne _ _ hvd, hu u hud, hu v hvd]
        exact h4 u v huv hgu hgv hou hov

theorem FrameOk.closed (V : Vars) (loc : Nat → Prop) (decl : List Nat) : Closed (FrameOk V loc decl) := by
  constructor
  · intro st st' h1 h2 h
    unfold FrameOk at h ⊢
    rw [h1, h2]
    exact h
  · intro st v h
    unfold RA.ensureSlot
    split
    · rename_i h0
      refine h.grow v 0 rfl rfl rfl ?_ (fun u _ => rfl) (fun u hu => Or.inr hu)
      unfold areaSize
      rw [if_neg (fun hm => h.2.2.1 v hm h0)]
      omega
    · exact h

/-- The arrays and structures declared by instructions. -/
def declared (V : Vars) (insns : List Insn) : List Nat := insns.filterMap (declares V)

theorem allocInsns_frame (V : Vars) (loc : Nat → Prop) (B : Block) : ∀ (insns : List Insn) (idx : Nat) (decl : List Nat) (st st' : RA),
    FrameOk V loc decl st → allocInsns V B idx insns st = some st' → FrameOk V loc ((declared V insns).reverse ++ decl) st' := by
  intro insns
  induction insns with
  | nil =>
    intro idx decl st st' h he
    cases he
    exact h
  | cons x xs ih =>
    intro idx decl st st' h he
    rw [allocInsns] at he
    split at he
    · cases he
    · rename_i st1 h1
      unfold allocInsn at h1
      have hr := (FrameOk.closed V loc decl).refresh B idx h
      generalize refresh B idx st = sr at hr h1
      cases hd : declares V x with
      | none =>
        have hne : x.op = .allocat → ∀ d, x.rd = some d → V.basic d = true := by
          intro ho d hrd
          unfold declares at hd
          rw [if_pos ho, hrd] at hd
          simp only at hd
          split at hd
          · assumption
          · cases hd
        have := ih (idx + 1) decl st1 st' ((FrameOk.closed V loc decl).allocOp V B idx x hne hr h1) he
        simpa [declared, hd] using this
      | some d =>
        have : FrameOk V loc (d :: decl) st1 := by
          unfold declares at hd
          split at hd
          · rename_i ho
            cases hrd : x.rd with
            | none => rw [hrd] at hd; cases hd
            | some e =>
              rw [hrd] at hd
              simp only at hd
              split at hd
              · cases hd
              · rename_i hb
                cases hd
                unfold allocOp at h1
                rw [ho, hrd] at h1
                simp only at h1
                cases h1
                unfold allocAllocat
                rw [if_neg hb]
                refine (FrameOk.closed V loc (d :: decl)).emit _ ((FrameOk.closed V loc (d :: decl)).prepareDest V B d none none ?_)
                refine hr.grow d (alignSize (num (V.objSize d))).toNat (alignSize_mod _) rfl rfl ?_ ?_ ?_
                · simp [areaSize]
                · intro u hu
                  simp [areaSize, hu]
                · intro u hu
                  simpa using hu
          · cases hd
        have := ih (idx + 1) (d :: decl) st1 st' this he
        simpa [declared, hd] using this

/-- C58, frame layout. For every function, every sequence of blocks and instructions: at the end of register allocation (and
after every block) the frame areas of all local variables are word aligned, within the frame and pairwise disjoint, where a
variable has one word and a declared array or structure also the space for the object. -/
theorem C58_frame_areas_disjoint (V : Vars) (loc : Nat → Prop) (F : Fn) (order : List Nat) : ∀ (seen : List Nat) (decl : List Nat) (st fin : RA)
    (code : List (Nat × List Ph2Ir)), FrameOk V loc decl st → allocBlocks V F seen order st = some (code, fin) →
    ∃ decl', (∀ d, d ∈ decl' ↔ d ∈ decl ∨ ∃ b ∈ order, d ∈ declared V (F.insns b)) ∧ FrameOk V loc decl' fin := by
  induction order with
  | nil =>
    intro seen decl st fin code h he
    cases he
    exact ⟨decl, by simp, h⟩
  | cons b bs ih =>
    intro seen decl st fin code h he
    rw [allocBlocks] at he
    split at he
    · cases he
    · rename_i st1 h1
      split at he
      · cases he
      · rename_i rest fin' h2
        cases he
        have hF : FrameOk V loc ((declared V (F.insns b)).reverse ++ decl) st1 := by
          unfold allocBlock at h1
          split at h1
          · cases h1
          · rename_i st2 h3
            cases h1
            refine (FrameOk.closed V loc _).allocEnd V _ _ ?_
            refine allocInsns_frame V loc _ _ 0 decl _ _ ?_ h3
            exact (FrameOk.closed V loc decl).of h rfl rfl
        obtain ⟨decl', hm, hf⟩ := ih _ _ _ _ _ hF h2
        refine ⟨decl', ?_, hf⟩
        intro d
        rw [hm]
        simp only [List.mem_append, List.mem_reverse, List.mem_cons, exists_eq_or_imp]
        constructor
        · rintro ((h | h) | h)
          · exact Or.inr (Or.inl h)
          · exact Or.inl h
          · exact Or.inr (Or.inr h)
        · rintro (h | h | h)
          · exact Or.inl (Or.inr h)
          · exact Or.inl (Or.inl h)
          · exact Or.inr h

theorem FrameOk.stackUp {V : Vars} {loc : Nat → Prop} {decl : List Nat} {st st' : RA} (h : FrameOk V loc decl st)
    (ho : st'.offset = st.offset) (hs : st'.stack = st.stack + 4) : FrameOk V loc decl st' := by
  obtain ⟨h1, h2, h5, h3, h4⟩ := h
  unfold FrameOk
  rw [ho, hs]
  refine ⟨by omega, by omega, h5, ?_, h4⟩
  intro v hl hv
  have := h3 v hl hv
  omega

theorem storeVariadic_frame {V : Vars} {loc : Nat → Prop} (params : List Nat) : ∀ (n i : Nat) (st : RA),
    FrameOk V loc [] st → FrameOk V loc [] (storeVariadic params n i st) := by
  intro n
  induction n with
  | zero => intro i st h; exact h
  | succ n ih =>
    intro i st h
    rw [storeVariadic]
    refine ih _ _ ?_
    cases params[i]? with
    | none => exact h.stackUp rfl rfl
    | some p => exact h.grow p 0 rfl rfl rfl (by simp [areaSize]) (fun _ _ => rfl) (fun _ hu => Or.inr hu)

/-- Every function starts with such a frame: it begins at offset 4 (src/globals.c:579), none of the function's variables has a
slot, and the parameters of a variadic function get theirs first. -/
theorem C58_frame_start (V : Vars) (loc : Nat → Prop) (params : List Nat) (variadic : Bool) (st : RA) (hs : st.stack = 4)
    (h0 : ∀ v, loc v → st.offset v = 0) : FrameOk V loc [] (fnStart params variadic st) := by
  have h : FrameOk V loc [] st := by
    refine ⟨by omega, by omega, by simp, ?_, ?_⟩
    · intro v hl h; exact absurd (h0 v hl) h
    · intro u v _ hl _ h; exact absurd (h0 u hl) h
  have h1 : ∀ (ps : List Nat) (i : Nat) (st : RA), FrameOk V loc [] st → FrameOk V loc [] (setParams i ps st) := by
    intro ps
    induction ps with
    | nil => intro i st h; exact h
    | cons p ps ih => intro i st h; exact ih _ _ ((FrameOk.closed V loc []).of h rfl rfl)
  have h2 := h1 params 0 (clearAll st) ((FrameOk.closed V loc []).of h rfl rfl)
  unfold fnStart
  simp only
  split
  · exact storeVariadic_frame params 8 0 _ h2
  · exact h2

/-- Two arrays and a spilled variable. -/
example :
    let V : Vars := { basic := fun v => v ≥ 2, objSize := fun v => 10 * (v + 1) }
    let F : Fn := { block := fun _ => { liveOut := [2], killed := [2], next := some 9 }
                    insns := fun _ => [{ op := .allocat, rd := some 0 }, { op := .allocat, rd := some 1 },
                      { op := .load_constant, rd := some 2 }]
                    rpo := id
                    fnExit := 9 }
    (allocBlocks V F [] [0] { consumed := fun _ => 5 }).map (fun r => (r.2.offset 0, r.2.offset 1, r.2.offset 2, r.2.stack)) =
      some (4, 20, 44, 48) := by
  decide +kernel

end Shecc.Props
