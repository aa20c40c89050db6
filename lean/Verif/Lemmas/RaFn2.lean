import Verif.Lemmas.RaFn

/-! Register allocation of a function: what holds of the allocator's state at the start of each block, whatever is executed. -/

namespace RaFn
open Shecc Shecc.Ssa Shecc.RegAlloc IrM SrcBlock RaLink Shecc.Props

variable {V : Vars} {F : RegAlloc.Fn} {params : List Nat} {use : Nat → Int}

/-- Before the block that follows the blocks `pre`. -/
structure Begin (V : Vars) (F : RegAlloc.Fn) (params : List Nat) (use : Nat → Int) (pre : List Nat) (st : RA) : Prop where
  con : st.consumed = conAt F use pre
  ofs : ∀ v, st.offset v ≠ 0 → Named V F params pre v
  var : pre ≠ [] → ∀ i, i < 8 → st.var i = none
  first : pre = [] → (∀ i, i < 8 → ∀ v, st.var i = some v → v ∈ params) ∧ Inj st

/-- The state in which the instructions of a block are allocated. -/
def reset (st : RA) : RA := { st with pushing := false, args := 0, out := [] }

theorem bumps_append (B : RegAlloc.Block) (xs ys : List Insn) : ∀ (idx : Nat) (con : Nat → Int),
    bumps B idx (xs ++ ys) con = bumps B (idx + xs.length) ys (bumps B idx xs con) := by
  induction xs with
  | nil => intro idx con; rfl
  | cons x xs ih =>
    intro idx con
    simp only [List.cons_append, bumps, List.length_cons]
    rw [ih, Nat.add_assoc, Nat.add_comm 1]

theorem bump_other {B : RegAlloc.Block} {idx : Nat} {i : Insn} {con : Nat → Int} (h : i.op ≠ .push) : bump B idx i con = con := by
  unfold bump
  split
  · rename_i h' _; exact absurd h' h
  · rfl

theorem bump_le (B : RegAlloc.Block) (idx : Nat) (i : Insn) (con : Nat → Int) (v : Nat) : con v ≤ bump B idx i con v := by
  by_cases h : i.op = .push
  · cases ha : i.rs1 with
    | none => simp [bump, h, ha]
    | some a =>
      simp only [bump, h, ha]
      by_cases hl : a ∈ B.liveOut
      · rw [if_pos hl]; exact Int.le_refl _
      · rw [if_neg hl]
        show con v ≤ if v = a then max (con a) ((idx : Int) + i.sz) else con v
        split
        · rename_i e; subst e; exact Int.le_max_left ..
        · exact Int.le_refl _
  · rw [bump_other h]; exact Int.le_refl _

theorem bumps_le (B : RegAlloc.Block) (is : List Insn) : ∀ (idx : Nat) (con : Nat → Int) (v : Nat), con v ≤ bumps B idx is con v := by
  induction is with
  | nil => intro idx con v; exact Int.le_refl _
  | cons i is ih => intro idx con v; exact Int.le_trans (bump_le B idx i con v) (ih _ _ v)

theorem conAt_le (F : RegAlloc.Fn) (pre : List Nat) : ∀ (con : Nat → Int) (v : Nat), con v ≤ conAt F con pre v := by
  induction pre with
  | nil => intro con v; exact Int.le_refl _
  | cons b pre ih => intro con v; exact Int.le_trans (bumps_le _ _ 0 con v) (ih _ v)

theorem track_insns {B : RegAlloc.Block} {O : Nat → Prop} (is : List Insn) : ∀ {M : Nat → Prop} {con : Nat → Int} {idx : Nat} {st st' : RA},
    Track O M con st → (∀ i ∈ is, inner i.op = true) → allocInsns V B idx is st = some st' →
    Track O (fun v => M v ∨ ∃ i ∈ is, mentions i v) (bumps B idx is con) st' := by
  induction is with
  | nil =>
    intro M con idx st st' T _ he
    cases he
    have : (fun v => M v ∨ ∃ i ∈ ([] : List Insn), mentions i v) = M := by funext v; simp
    rw [this]; exact T
  | cons i is ih =>
    intro M con idx st st' T hin he
    unfold allocInsns at he
    split at he
    · cases he
    · rename_i st1 h1
      have hi := hin i (List.mem_cons_self ..)
      have T' := modest_step T (fun e => by rw [e] at hi; cases hi) (fun e => by rw [e] at hi; cases hi)
        (fun e => by rw [e] at hi; cases hi) h1
      have := ih T' (fun j hj => hin j (List.mem_cons_of_mem _ hj)) he
      have e : (fun v => (M v ∨ mentions i v) ∨ ∃ j ∈ is, mentions j v) = (fun v => M v ∨ ∃ j ∈ i :: is, mentions j v) := by
        funext v; simp only [List.mem_cons, exists_eq_or_imp, or_assoc]
      rw [e] at this
      exact this

theorem phis_inner {B : RegAlloc.Block} {D : Nat → Prop} (is : List Insn) : ∀ {T : Nat → Prop} {idx : Nat}, Phis V B use D T idx is →
    ∀ i ∈ is, inner i.op = true := by
  induction is with
  | nil => intro T idx _ i hi; cases hi
  | cons j is ih =>
    intro T idx hP i hi
    obtain ⟨⟨_, _, ho, _⟩, hP⟩ := hP
    rcases List.mem_cons.1 hi with rfl | hi
    · rw [ho]; rfl
    · exact ih hP i hi

theorem within_spillLiveOut {O M : Nat → Prop} {st : RA} (h : Within O M st) (V : Vars) (B : RegAlloc.Block) : Within O M (spillLiveOut V B st) := by
  unfold spillLiveOut
  refine Within.fold _ ?_ h
  intro st i hi h
  unfold spillLiveOut1
  split
  · exact h
  · rename_i v hv
    split
    · split
      · exact h.spillVar V i (h.reg i hi v hv)
      · exact h.set i false (fun v h => by cases h)
    · exact h.set i false (fun v h => by cases h)

theorem spillLiveOut_consumed (V : Vars) (B : RegAlloc.Block) (st : RA) : (spillLiveOut V B st).consumed = st.consumed := by
  unfold spillLiveOut
  generalize List.range regCnt = l
  induction l generalizing st with
  | nil => rfl
  | cons i l ih =>
    rw [List.foldl_cons, ih]
    unfold spillLiveOut1
    split
    · rfl
    · split
      · split
        · unfold spillVar
          split
          · simp only [RA.setReg, RA.emit]
            unfold RA.ensureSlot
            split <;> rfl
          · rfl
        · rfl
      · rfl

theorem operand_consumed (V : Vars) (B : RegAlloc.Block) (v : Nat) (o : Option Nat) (st : RA) :
    (prepareOperand V B v o st).1.consumed = st.consumed :=
  (Ctl.operand (st := st) (K := fun _ => True) ⟨fun _ _ _ _ _ => trivial, rfl, rfl, rfl⟩ V B v o).consumed

theorem refresh_consumed (B : RegAlloc.Block) (idx : Int) (st : RA) : (RegAlloc.refresh B idx st).consumed = st.consumed :=
  (Ctl.refresh (st := st) (K := fun _ => True) ⟨fun _ _ _ _ _ => trivial, rfl, rfl, rfl⟩ B idx).consumed

/-- What a block does to the record. -/
structure After (O M : Nat → Prop) (con : Nat → Int) (st st' : RA) : Prop where
  ofs : ∀ v, st'.offset v ≠ 0 → O v ∨ M v
  con : st'.consumed = con
  var : ∀ i, i < 8 → st'.var i = none
  mono : Mono st st'

theorem end_after {B : RegAlloc.Block} {O M : Nat → Prop} {con : Nat → Int} {st st1 : RA} {n : Nat} (hn : B.next = some n) (jump : Bool)
    (hW : Within O M st1) (hc : st1.consumed = con) (hm : Mono st st1) : After O M con st (allocEnd V B jump st1) := by
  have hw := within_spillLiveOut hW V B
  have e1 : (allocEnd V B jump st1).offset = (spillLiveOut V B st1).offset := by
    unfold allocEnd; rw [hn]; simp only; split <;> rfl
  have e2 : (allocEnd V B jump st1).var = (spillLiveOut V B st1).var := by
    unfold allocEnd; rw [hn]; simp only; split <;> rfl
  have e3 : (allocEnd V B jump st1).consumed = (spillLiveOut V B st1).consumed := by
    unfold allocEnd; rw [hn]; simp only; split <;> rfl
  refine ⟨by rw [e1]; exact hw.ofs, by rw [e3, spillLiveOut_consumed]; exact hc, by rw [e2]; exact spillLiveOut_var V B st1,
    hm.trans (allocEnd_mono V B jump st1)⟩

/-- A block, whatever is executed. -/
theorem block_static {pre : List Nat} {b : Nat} {live out : Nat → Prop} {body phis last : List Insn} {st st' : RA} {jump : Bool}
    (H : Begin V F params use pre st) (K : BlockFine V F params pre use live out b body phis last)
    (he : allocBlock V (F.block b) jump (F.insns b) st = some st') :
    NoClash V (F.block b) 0 body (reset st) ∧ Begin V F params use (pre ++ [b]) st' ∧ Mono st st' := by
  have T : Track (Named V F params pre) (fun v => pre = [] ∧ v ∈ params) (conAt F use pre) (reset st) := by
    refine ⟨⟨?_, fun v hv => Or.inl (H.ofs v hv)⟩, H.con, fun _ => ?_⟩
    · intro j hj v hv
      by_cases hp : pre = []
      · exact ⟨hp, (H.first hp).1 j hj v hv⟩
      · have := H.var hp j hj
        change st.var j = some v at hv
        rw [this] at hv; cases hv
    · by_cases hp : pre = []
      · exact (H.first hp).2
      · intro i j v hi _ hv
        have := H.var hp i hi
        change st.var i = some v at hv
        rw [this] at hv; cases hv
  have hNC : NoClash V (F.block b) 0 body (reset st) :=
    modest_noClash body T (grouped_inner K.grouped) (grouped_push K.grouped) K.modest
  refine ⟨hNC, ?_⟩
  have he' : (match allocInsns V (F.block b) 0 (F.insns b) (reset st) with
    | none => none | some st => some (allocEnd V (F.block b) jump st)) = some st' := by
    unfold allocBlock at he
    change (match allocInsns V (F.block b) 0 (F.insns b) (reset st) with | none => _ | some st => _) = _ at he
    exact he
  have hM : ∀ v, (pre = [] ∧ v ∈ params) ∨ (∃ i ∈ F.insns b, mentions i v) → Named V F params (pre ++ [b]) v := by
    rintro v (⟨_, h⟩ | ⟨i, h1, h2⟩)
    · exact Or.inr (Or.inl h)
    · exact Or.inr (Or.inr ⟨b, by simp, i, h1, h2⟩)
  have hO : ∀ v, Named V F params pre v → Named V F params (pre ++ [b]) v := by
    rintro v (h | h | ⟨c, h1, h2⟩)
    · exact Or.inl h
    · exact Or.inr (Or.inl h)
    · exact Or.inr (Or.inr ⟨c, by simp [h1], h2⟩)
  suffices hA : After (Named V F params pre) (fun v => (pre = [] ∧ v ∈ params) ∨ ∃ i ∈ F.insns b, mentions i v)
      (bumps (F.block b) 0 (F.insns b) (conAt F use pre)) (reset st) st' by
    refine ⟨⟨?_, fun v hv => (hA.ofs v hv).elim (hO v) (hM v), fun _ => hA.var, fun h => by simp at h⟩, hA.mono⟩
    rw [hA.con]
    simp [conAt, List.foldl_append]
  -- the body and the copies
  rw [K.insns] at he'
  rw [allocInsns_append] at he'
  cases h1 : allocInsns V (F.block b) 0 (body ++ phis) (reset st) with
  | none => rw [h1] at he'; cases he'
  | some st1 =>
    rw [h1] at he'
    simp only at he'
    have T1 := track_insns (body ++ phis) T (by
      intro i hi
      rcases List.mem_append.1 hi with hi | hi
      · exact grouped_inner K.grouped i hi
      · exact phis_inner phis K.phi i hi) h1
    have m1 : Mono (reset st) st1 := by
      rw [allocInsns_append] at h1
      split at h1
      · cases h1
      · rename_i sm hm
        exact (allocInsns_mono body hNC hm).trans (phis_mono phis (by rw [Nat.zero_add]; exact K.phi) h1)
    have hl : 0 + (body ++ phis).length = body.length + phis.length := by simp
    rw [hl] at he'
    have hsub : ∀ v, ((pre = [] ∧ v ∈ params) ∨ ∃ i ∈ body ++ phis, mentions i v) →
        (pre = [] ∧ v ∈ params) ∨ ∃ i ∈ F.insns b, mentions i v := by
      rintro v (h | ⟨i, h1, h2⟩)
      · exact Or.inl h
      · exact Or.inr ⟨i, by rw [K.insns]; exact List.mem_append_left _ h1, h2⟩
    have hcon : ∀ x ∈ last, x.op ≠ .push := by
      intro x hx
      cases K.ends with
      | next => cases hx
      | branch _ ho =>
        obtain rfl := List.mem_singleton.1 hx
        rw [ho]; simp
      | ret _ ho =>
        obtain rfl := List.mem_singleton.1 hx
        rw [ho]; simp
      | retVoid _ ho =>
        obtain rfl := List.mem_singleton.1 hx
        rw [ho]; simp
    have hb : bumps (F.block b) 0 (F.insns b) (conAt F use pre) = bumps (F.block b) 0 (body ++ phis) (conAt F use pre) := by
      rw [K.insns, bumps_append]
      have key : ∀ (l : List Insn) (idx : Nat) (con : Nat → Int), (∀ x ∈ l, x.op ≠ .push) → bumps (F.block b) idx l con = con := by
        intro l
        induction l with
        | nil => intros; rfl
        | cons x l ih =>
          intro idx con h
          rw [bumps, bump_other (h x (by simp)), ih _ _ (fun y hy => h y (by simp [hy]))]
      exact key _ _ _ hcon
    rw [hb]
    have W1 := (T1.within.mono hsub).refresh (F.block b) (body.length + phis.length : Nat)
    have mr : Mono (reset st) (RegAlloc.refresh (F.block b) (body.length + phis.length : Nat) st1) :=
      (Mono.closed _).refresh _ _ m1
    have cr : (RegAlloc.refresh (F.block b) (body.length + phis.length : Nat) st1).consumed =
        bumps (F.block b) 0 (body ++ phis) (conAt F use pre) := by rw [refresh_consumed]; exact T1.con
    have hends := K.ends
    have hins := K.insns
    cases hends with
    | next hn =>
      simp only [allocInsns] at he'
      cases he'
      exact end_after hn jump (T1.within.mono hsub) T1.con m1
    | @branch br a hn ho ha =>
      simp only [allocInsns, allocInsn] at he'
      have hao : allocOp V (F.block b) (body.length + phis.length : Nat) br
          (RegAlloc.refresh (F.block b) (body.length + phis.length : Nat) st1) =
          some (allocBranch V (F.block b) a (RegAlloc.refresh (F.block b) (body.length + phis.length : Nat) st1)) := by
        unfold allocOp; rw [ho, ha]
      rw [hao] at he'
      simp only [allocEnd, hn] at he'
      cases he'
      generalize RegAlloc.refresh (F.block b) (body.length + phis.length : Nat) st1 = sr at *
      have hma : (pre = [] ∧ a ∈ params) ∨ ∃ i ∈ F.insns b, mentions i a :=
        Or.inr ⟨br, by rw [hins]; simp, Or.inr (Or.inl ha)⟩
      have Wo := W1.operand V (F.block b) hma none
      unfold allocBranch
      refine ⟨(within_spillLiveOut Wo V (F.block b)).ofs, ?_, spillLiveOut_var V (F.block b) _, ?_⟩
      · show (spillLiveOut V (F.block b) _).consumed = _
        rw [spillLiveOut_consumed, operand_consumed]; exact cr
      · exact (mr.trans (mono_operand V (F.block b) a none sr)).trans (foldLiveOut_mono V (F.block b) _ _)
    | @ret re a hn ho ha =>
      simp only [allocInsns, allocInsn] at he'
      have hao : allocOp V (F.block b) (body.length + phis.length : Nat) re
          (RegAlloc.refresh (F.block b) (body.length + phis.length : Nat) st1) =
          some (allocRet V (F.block b) (some a) (RegAlloc.refresh (F.block b) (body.length + phis.length : Nat) st1)) := by
        unfold allocOp; rw [ho, ha]
      rw [hao] at he'
      simp only at he'
      cases he'
      generalize RegAlloc.refresh (F.block b) (body.length + phis.length : Nat) st1 = sr at *
      have hma : (pre = [] ∧ a ∈ params) ∨ ∃ i ∈ F.insns b, mentions i a :=
        Or.inr ⟨re, by rw [hins]; simp, Or.inr (Or.inl ha)⟩
      have Wo := W1.operand V (F.block b) hma none
      refine end_after hn jump (Wo.emit _) ?_ (mr.trans (mono_operand V (F.block b) a none sr))
      show (prepareOperand V (F.block b) a none sr).1.consumed = _
      rw [operand_consumed]; exact cr
    | @retVoid re hn ho ha =>
      simp only [allocInsns, allocInsn] at he'
      have hao : allocOp V (F.block b) (body.length + phis.length : Nat) re
          (RegAlloc.refresh (F.block b) (body.length + phis.length : Nat) st1) =
          some (allocRet V (F.block b) none (RegAlloc.refresh (F.block b) (body.length + phis.length : Nat) st1)) := by
        unfold allocOp; rw [ho, ha]
      rw [hao] at he'
      simp only at he'
      cases he'
      exact end_after hn jump (W1.emit _) cr mr

/-- The exit block. -/
theorem exit_static {pre : List Nat} {st st' : RA} {jump : Bool} (H : Begin V F params use pre st) (hp : pre ≠ [])
    (h1 : F.insns F.fnExit = []) (h2 : (F.block F.fnExit).next = none)
    (he : allocBlock V (F.block F.fnExit) jump (F.insns F.fnExit) st = some st') :
    Begin V F params use (pre ++ [F.fnExit]) st' ∧ Mono st st' := by
  rw [h1] at he
  simp only [allocBlock, allocInsns, allocEnd, h2, Option.some.injEq] at he
  subst he
  refine ⟨⟨?_, ?_, fun _ => H.var hp, fun h => by simp at h⟩, fun v _ => rfl⟩
  · show st.consumed = _
    rw [H.con]; simp [conAt, List.foldl_append, h1, bumps]
  · intro v hv
    rcases H.ofs v hv with h | h | ⟨c, g1, g2⟩
    · exact Or.inl h
    · exact Or.inr (Or.inl h)
    · exact Or.inr (Or.inr ⟨c, by simp [g1], g2⟩)

/-- Several blocks. -/
theorem blocks_static {exitPrev : List Nat} {entry : Nat} {rest : List Nat} {live : Nat → Nat → Prop}
    (W : FnOk V F params exitPrev entry rest use live) (mid : List Nat) : ∀ {pre post seen : List Nat} {st st' : RA}
    {codes : List (Nat × List Ph2Ir)}, entry :: rest = pre ++ mid ++ post → Begin V F params use pre st →
    allocBlocks V F seen mid st = some (codes, st') → Begin V F params use (pre ++ mid) st' ∧ Mono st st' := by
  induction mid with
  | nil =>
    intro pre post seen st st' codes _ H he
    cases he
    exact ⟨by simpa using H, Mono.refl st⟩
  | cons b mid ih =>
    intro pre post seen st st' codes ho H he
    simp only [allocBlocks] at he
    split at he
    · cases he
    · rename_i st1 h1
      split at he
      · cases he
      · rename_i rest' fin' h2
        cases he
        have ho' : entry :: rest = pre ++ b :: (mid ++ post) := by rw [ho]; simp
        have step : Begin V F params use (pre ++ [b]) st1 ∧ Mono st st1 := by
          by_cases hb : b = F.fnExit
          · subst hb
            have hp : pre ≠ [] := by
              rintro rfl
              simp only [List.nil_append, List.cons.injEq] at ho'
              exact W.entryExit ho'.1
            exact exit_static H hp W.exit.1 W.exit.2 h1
          · obtain ⟨body, phis, last, K⟩ := W.block pre b _ ho' hb
            exact (block_static H K h1).2
        obtain ⟨B1, m1⟩ := step
        have := ih (pre := pre ++ [b]) (post := post) (by rw [ho]; simp) B1 h2
        refine ⟨by simpa using this.1, m1.trans this.2⟩

end RaFn
