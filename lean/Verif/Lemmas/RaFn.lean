import Verif.Spec.RaFn
import Verif.Props.RaBlock
import Verif.Props.Peephole

/-! Register allocation of a function: located code, and the allocator's state at the start of each block. -/

namespace RaFn
open Shecc Shecc.Ssa Shecc.RegAlloc IrM SrcBlock RaLink Shecc.Props

theorem run_trans {A : Abi} {P : Program} {os : Os} {sys : Word} {s t u : State} (h : XRun A P os sys s t)
    (h' : XRun A P os sys t u) : XRun A P os sys s u := by
  induction h' with
  | refl => exact h
  | tail _ hs ih => exact .tail ih hs
  | sys _ hs ih => exact .sys ih hs

theorem run_one {A : Abi} {P : Program} {os : Os} {sys : Word} {s t : State} {ir : Ph2Ir} {nxt : Word} (hp : P s.pc ir nxt)
    (h : IrM.Step A ir nxt s t) : XRun A P os sys s t := .tail (.refl s) ⟨ir, nxt, hp, h⟩

theorem Same.refl (t : State) : Same t t := ⟨rfl, rfl, rfl, rfl⟩
theorem Same.symm {t u : State} (h : Same t u) : Same u t := ⟨h.reg.symm, h.sp.symm, h.gp.symm, h.mem.symm⟩
theorem Same.trans {t u v : State} (h : Same t u) (h' : Same u v) : Same t v :=
  ⟨h'.reg.trans h.reg, h'.sp.trans h.sp, h'.gp.trans h.gp, h'.mem.trans h.mem⟩

theorem final_straight {stack : Word} {ir ir' : Ph2Ir} (h : Final stack ir ir') (hs : ir.op ≠ .ret) :
    ∃ d, ir' = { ir with is_branch_detached := d } := by
  obtain ⟨d, h⟩ := h
  rw [if_neg hs] at h
  exact ⟨d, h⟩

theorem straight_ret {ir : Ph2Ir} (h : straight ir.op = true) : ir.op ≠ .ret := fun e => by rw [e] at h; cases h

set_option maxHeartbeats 1000000 in
/-- The effect of an instruction other than a call, a jump and the like does not depend on where it is. -/
theorem step_same {A : Abi} (hA : A.DivLocal) {ir : Ph2Ir} {nxt : Word} {t u : State} (hs : straight ir.op = true)
    (h : IrM.Step A ir nxt t u) (d : Bool) (nxt0 : Word) {t0 : State} (ht : Same t t0) :
    ∃ u0, IrM.Step A { ir with is_branch_detached := d } nxt0 t0 u0 ∧ Same u u0 ∧ u0.pc = nxt0 := by
  obtain ⟨er, esp, egp, em⟩ := ht
  have key : ∀ {r : BitVec 3 → Word} {mm : Mem} {r0 : BitVec 3 → Word} {mm0 : Mem} {s0 g0 : Word} {c1 c2 : Option Word} {a1 a2 p1 p2 : Word}, r0 = r → mm0 = mm → s0 = t0.sp → g0 = t0.gp →
      Same ({ reg := r, sp := t.sp, gp := t.gp, ra := a1, callee := c1, mem := mm, pc := p1 } : State)
        { reg := r0, sp := s0, gp := g0, ra := a2, callee := c2, mem := mm0, pc := p2 } := by
    intro r mm r0 mm0 s0 g0 c1 c2 a1 a2 p1 p2 h1 h2 h3 h4
    exact ⟨h1, h3.trans esp, h4.trans egp, h2⟩
  cases h with
  | @bin op d a b v hop hd ha hb hv hdm =>
    obtain ⟨e1, e2⟩ := hA t t0 a b (by rw [er]) (by rw [er]) esp.symm em.symm
    exact ⟨_, .bin hop hd ha hb (by rw [er]; exact hv) (fun o ho => e2 o (hdm o ho)), key (by simp only [setReg, er]) (by rw [← e1, em]) rfl rfl, rfl⟩
  | un hop hd ha => exact ⟨_, .un hop hd ha, key (by simp only [setReg, er]) em rfl rfl, rfl⟩
  | assign hop hd ha => exact ⟨_, .assign hop hd ha, key (by simp only [setReg, er]) em rfl rfl, rfl⟩
  | const hop hd => exact ⟨_, .const hop hd, key (by simp only [setReg, er]) em rfl rfl, rfl⟩
  | data hop hd => exact ⟨_, .data hop hd, key (by simp only [setReg, er]) em rfl rfl, rfl⟩
  | addr hop hd => exact ⟨_, .addr hop hd, key (by simp only [setReg, er, esp]) em rfl rfl, rfl⟩
  | gaddr hop hd => exact ⟨_, .gaddr hop hd, key (by simp only [setReg, er, egp]) em rfl rfl, rfl⟩
  | load hop hd => exact ⟨_, .load hop hd, key (by simp only [setReg, er, esp, em]) em rfl rfl, rfl⟩
  | gload hop hd => exact ⟨_, .gload hop hd, key (by simp only [setReg, er, egp, em]) em rfl rfl, rfl⟩
  | store hop ha => exact ⟨_, .store hop ha, key er (by simp only [er, esp, em]) rfl rfl, rfl⟩
  | gstore hop ha => exact ⟨_, .gstore hop ha, key er (by simp only [er, egp, em]) rfl rfl, rfl⟩
  | read4 hop h1 hd ha => exact ⟨_, .read4 hop h1 hd ha, key (by simp only [setReg, er, em]) em rfl rfl, rfl⟩
  | read1 hop h1 hd ha => exact ⟨_, .read1 hop h1 hd ha, key (by simp only [setReg, er, em]) em rfl rfl, rfl⟩
  | write4 hop h1 ha hb => exact ⟨_, .write4 hop h1 ha hb, key er (by simp only [er, em]) rfl rfl, rfl⟩
  | write1 hop h1 ha hb => exact ⟨_, .write1 hop h1 ha hb, key er (by simp only [er, em]) rfl rfl, rfl⟩
  | addrFunc hop ht ha => exact ⟨_, .addrFunc hop ht ha, key er (by simp only [er, em]) rfl rfl, rfl⟩
  | branch hop => rw [hop] at hs; cases hs
  | jump hop => rw [hop] at hs; cases hs
  | call hop => rw [hop] at hs; cases hs
  | loadFunc hop => rw [hop] at hs; cases hs
  | indirect hop => rw [hop] at hs; cases hs
  | define hop => rw [hop] at hs; cases hs
  | ret hop => rw [hop] at hs; cases hs

instance (w : Word) (r : BitVec 3) : Decidable (isReg w r) := by unfold isReg; infer_instance

instance (ir : Ph2Ir) (r : BitVec 3) : Decidable (Reads ir r) := by unfold Reads; split <;> infer_instance

instance (ir : Ph2Ir) (r : BitVec 3) : Decidable (Writes ir r) := by unfold Writes; split <;> infer_instance

instance decNotUsed (nargs : String → Nat) (r : BitVec 3) : ∀ code, Decidable (NotUsed nargs r code)
  | [] => isTrue trivial
  | ir :: rest => by
    have := decNotUsed nargs r rest
    unfold NotUsed
    infer_instance

instance decPeepOk (nargs : String → Nat) : ∀ code, Decidable (PeepOk nargs code)
  | [] => isTrue trivial
  | [_] => isTrue trivial
  | a :: b :: rest => by
    have := decPeepOk nargs (b :: rest)
    unfold PeepOk
    infer_instance

section
variable {A : Abi} {P : Program} {os : Os} {sys : Word} {C : Ctx} {V : Vars} {sp gp stack : Word} {fofs : Nat → Nat}
  {nargs : String → Nat} {Q : Option Ph2Ir → State → Prop}

/-- What has to hold in front of code so that `Q` holds where it ends, whatever a call does within what the source says. The end is the end
of the list or the first instruction that does not go on to the next one. -/
def Wp (A : Abi) (C : Ctx) (V : Vars) (sp gp : Word) (fofs : Nat → Nat) (Q : Option Ph2Ir → State → Prop) : List Ph2Ir → State → Prop
  | [], t => Q none t
  | ir :: rest, t =>
    if ir.op = .call then ∃ args m m' r, CallPre C sp gp args m t ∧ C.call ir.func_name args m m' r ∧
      ∀ u, CallPost C V sp gp fofs m' r t u → Wp A C V sp gp fofs Q rest u
    else if straight ir.op = true then ∃ nxt u, IrM.Step A ir nxt t u ∧ Wp A C V sp gp fofs Q rest u
    else Q (some ir) t

theorem Wp.tail {a : Ph2Ir} {x y : List Ph2Ir} (h : ∀ u, Wp A C V sp gp fofs Q x u → Wp A C V sp gp fofs Q y u) {t : State}
    (hw : Wp A C V sp gp fofs Q (a :: x) t) : Wp A C V sp gp fofs Q (a :: y) t := by
  unfold Wp at hw ⊢
  split
  · rename_i hc
    rw [if_pos hc] at hw
    obtain ⟨args, m, m', r, h1, h2, h3⟩ := hw
    exact ⟨args, m, m', r, h1, h2, fun u hu => h u (h3 u hu)⟩
  · rename_i hc
    rw [if_neg hc] at hw
    split
    · rename_i hs
      rw [if_pos hs] at hw
      obtain ⟨nxt, u, h1, h2⟩ := hw
      exact ⟨nxt, u, h1, h u h2⟩
    · rename_i hs
      rw [if_neg hs] at hw
      exact hw

theorem straight_plain {ir : Ph2Ir} (h : straight ir.op = true) : Plain ir := by
  refine ⟨?_, ?_, ?_, ?_, ?_, ?_⟩ <;> (intro e; rw [e] at h; cases h)

/-- `Q` does not depend on registers that are not used. -/
def QInv (Q : Option Ph2Ir → State → Prop) : Prop :=
  ∀ o D u u', Q o u → SameBut D u u' → (∀ ir, o = some ir → ∀ q, D q → ir.op = .jump ∨ ¬ isReg ir.src0 q) → Q o u'

theorem r3_lt {k : Nat} (hk : k < 8) : (r3 k).toNat = k := by
  unfold r3
  rw [BitVec.toNat_ofNat]
  omega

/-- Registers that are not used do not matter. -/
theorem Wp.frame (hA : A.DivLocal) (hQ : QInv Q) (har : ∀ f args m m' r, C.call f args m m' r → args.length ≤ nargs f) :
    ∀ {code : List Ph2Ir} {t t' : State} {D : BitVec 3 → Prop}, Wp A C V sp gp fofs Q code t → SameBut D t t' →
      (∀ q, D q → NotUsed nargs q code) → Wp A C V sp gp fofs Q code t' := by
  intro code
  induction code with
  | nil =>
    intro t t' D hw hs _
    exact hQ none D t t' hw hs (fun ir h => by cases h)
  | cons ir rest ih =>
    intro t t' D hw hs hd
    unfold Wp at hw ⊢
    by_cases hc : ir.op = .call
    · rw [if_pos hc] at hw ⊢
      obtain ⟨args, m, m', r, h1, h2, h3⟩ := hw
      obtain ⟨a1, a2, a3, a4, a5, a6⟩ := hs
      refine ⟨args, m, m', r, ⟨a2 ▸ h1.sp, a3 ▸ h1.gp, a5 ▸ h1.mem, h1.len, ?_⟩, h2, ?_⟩
      · intro k hk
        rw [← h1.reg k hk]
        refine (a1 _ (fun hq => ?_)).symm
        have := hd _ hq
        unfold NotUsed at this
        rw [if_pos hc, r3_lt (Nat.lt_of_lt_of_le hk h1.len)] at this
        have := har _ _ _ _ _ h2
        omega
      · intro u hu
        refine h3 u ⟨hu.sp, hu.gp, hu.result, hu.mem, fun v hg hv => ?_⟩
        rw [hu.slot v hg hv]
        unfold slot
        rw [a5, a2]
    · rw [if_neg hc] at hw ⊢
      by_cases hst : straight ir.op = true
      · rw [if_pos hst] at hw ⊢
        obtain ⟨nxt, u, h1, h2⟩ := hw
        have hd' : ∀ q, D q → ¬ Reads ir q ∧ (Writes ir q ∨ NotUsed nargs q rest) := by
          intro q hq
          have := hd q hq
          unfold NotUsed at this
          rw [if_neg hc, if_pos hst] at this
          exact this
        obtain ⟨u', g1, g2⟩ := step_frame hA (straight_plain hst) h1 (fun q hr hq => (hd' q hq).1 hr) hs
        exact ⟨nxt, u', g1, ih h2 g2 (fun q hq => (hd' q hq.1).2.resolve_left hq.2)⟩
      · rw [if_neg hst] at hw ⊢
        refine hQ (some ir) D t t' hw hs ?_
        intro ir' e q hq
        cases e
        have := hd q hq
        unfold NotUsed at this
        rw [if_neg hc, if_neg hst] at this
        exact this

theorem fuse_straight {a b c : Ph2Ir} (h : Peep.fuse a b = some c) : straight a.op = true ∧ straight b.op = true ∧ straight c.op = true ∧
    a.op ≠ .call ∧ b.op ≠ .call ∧ c.op ≠ .call := by
  unfold Peep.fuse at h
  split at h
  · rename_i hc
    obtain ⟨h1, h2, _⟩ := hc
    cases h
    unfold Peep.isFusible at h2
    split at h2 <;> simp_all [straight]
  · repeat' split at h
    all_goals first
      | cases h; done
      | (cases h; simp_all [straight])

/-- The peephole pass. -/
theorem Wp.peep (hA : A.DivLocal) (hQ : QInv Q) (har : ∀ f args m m' r, C.call f args m m' r → args.length ≤ nargs f)
    (code : List Ph2Ir) : ∀ {t : State}, Wp A C V sp gp fofs Q code t → PeepOk nargs code → Wp A C V sp gp fofs Q (Peep.block code) t := by
  induction code using Peep.block.induct with
  | case1 => intro t hw _; rw [Peep.block]; exact hw
  | case2 a => intro t hw _; rw [Peep.block]; exact hw
  | case3 a b rest hb ih =>
    intro t hw hp
    rw [Peep.block, if_pos hb]
    have hp2 : PeepOk nargs rest := by
      have := hp.2
      cases rest with
      | nil => trivial
      | cons => exact this.2
    refine Wp.tail (fun u hu => ih ?_ hp2) hw
    obtain ⟨hop, hds⟩ := hb
    unfold Wp at hu
    rw [if_neg (by rw [hop]; simp), if_pos (by rw [hop]; rfl)] at hu
    obtain ⟨nxt, u1, hs, h2⟩ := hu
    refine Wp.frame (nargs := nargs) hA hQ har (D := fun _ => False) h2 ?_ (fun _ h => h.elim)
    cases hs with
    | @assign d x hop hd hx =>
      have : d = x := isReg_inj hd (hds ▸ hx)
      subst this
      refine ⟨?_, rfl, rfl, rfl, rfl, .inl rfl⟩
      intro q _
      simp only [setReg]
      split
      · simp_all
      · rfl
    | _ => simp_all [binOf, unOf]
  | case4 a b rest hb c hc ih =>
    intro t hw hp
    have e : Peep.block (a :: b :: rest) = c :: Peep.block rest := by
      rw [Peep.block, if_neg hb]
      simp only [hc]
    rw [e]
    obtain ⟨h1, h2⟩ := hp.1 (by rw [hc]; rfl)
    have hp2 : PeepOk nargs rest := by
      have := hp.2
      cases rest with
      | nil => trivial
      | cons => exact this.2
    obtain ⟨s1, s2, s3, c1, c2, c3⟩ := fuse_straight hc
    unfold Wp at hw
    rw [if_neg c1, if_pos s1] at hw
    obtain ⟨n1, u1, g1, hw⟩ := hw
    unfold Wp at hw
    rw [if_neg c2, if_pos s2] at hw
    obtain ⟨n2, u2, g2, hw⟩ := hw
    obtain ⟨u', sc, hsame⟩ := Props.C22_fusion_partial A a b c hc h1 n1 n2 _ _ _ g1 g2
    unfold Wp
    rw [if_neg c3, if_pos s3]
    refine ⟨n2, u', sc, ih ?_ hp2⟩
    refine Wp.frame hA hQ har hw hsame ?_
    intro q hq
    exact h2 (fun e => hq.2 (e ▸ hq.1)) q hq.1
  | case5 a b rest hb hc ih =>
    intro t hw hp
    have e : Peep.block (a :: b :: rest) = a :: Peep.block (b :: rest) := by
      rw [Peep.block, if_neg hb]
      simp only [hc]
    rw [e]
    exact Wp.tail (fun u hu => ih hu hp.2) hw

/-- A call of the source, with the worst outcome for the code after it. -/
def worst (A : Abi) (C : Ctx) (V : Vars) (sp gp : Word) (fofs : Nat → Nat) (Q : Option Ph2Ir → State → Prop) (full : List Ph2Ir)
    (n : Nat) (f : String) (t u : State) : Prop :=
  ∃ args m m' r, CallPre C sp gp args m t ∧ C.call f args m m' r ∧ CallPost C V sp gp fofs m' r t u ∧
    (Wp A C V sp gp fofs Q (full.drop (n + 1)) u → ∀ u, CallPost C V sp gp fofs m' r t u → Wp A C V sp gp fofs Q (full.drop (n + 1)) u)

theorem setup_worst (S : Setup A (fun _ _ _ _ => True) C V sp gp fofs) (full : List Ph2Ir) :
    Setup A (worst A C V sp gp fofs Q full) C V sp gp fofs :=
  { S with
    call := by
      intro i f t args m m' r h1 h2 h3 h4 h5 h6
      obtain ⟨t', _, g1, g2, g3, g4, g5⟩ := S.call i f t args m m' r h1 h2 h3 h4 h5 h6
      have hp : CallPost C V sp gp fofs m' r t t' := ⟨g1, g2, g3, g4, g5⟩
      by_cases hall : ∀ u, CallPost C V sp gp fofs m' r t u → Wp A C V sp gp fofs Q (full.drop (i + 1)) u
      · exact ⟨t', ⟨args, m, m', r, ⟨h1, h2, h3, h4, h5⟩, h6, hp, fun _ => hall⟩, g1, g2, g3, g4, g5⟩
      · obtain ⟨u, hu⟩ := Classical.not_forall.1 hall
        obtain ⟨hu, hn⟩ := Classical.not_imp.1 hu
        exact ⟨u, ⟨args, m, m', r, ⟨h1, h2, h3, h4, h5⟩, h6, hu, fun h => absurd h hn⟩, hu.sp, hu.gp, hu.result, hu.mem, hu.slot⟩ }

theorem wp_of_run {full : List Ph2Ir} {n : Nat} {code : List Ph2Ir} {t t' : State}
    (h : TRun A (worst A C V sp gp fofs Q full) n code t t') : ∀ {tail : List Ph2Ir}, full.drop n = code ++ tail →
    (∀ ir ∈ tail.head?, straight ir.op = false ∧ ir.op ≠ .call) → Q tail.head? t' → Wp A C V sp gp fofs Q (code ++ tail) t := by
  induction h with
  | nil t =>
    intro tail _ ht hq
    cases tail with
    | nil => exact hq
    | cons ir rest =>
      obtain ⟨h1, h2⟩ := ht ir (by simp)
      unfold Wp
      simp only [List.nil_append, if_neg h2, h1, Bool.false_eq_true, if_false]
      exact hq
  | @step n ir irs nxt t u v hc hst _ ih =>
    intro tail hf ht hq
    have hf2 : full.drop (n + 1) = irs ++ tail := by rw [← List.tail_drop, hf]; rfl
    have hcall : ir.op ≠ .call := fun e => by rw [e] at hc; cases hc
    unfold Wp
    simp only [List.cons_append, if_neg hcall, if_pos hc]
    exact ⟨nxt, u, hst, ih hf2 ht hq⟩
  | @call n ir irs t u v hc hst _ ih =>
    intro tail hf ht hq
    have hf2 : full.drop (n + 1) = irs ++ tail := by rw [← List.tail_drop, hf]; rfl
    obtain ⟨args, m, m', r, h1, h2, h3, h4⟩ := hst
    rw [hf2] at h4
    unfold Wp
    simp only [List.cons_append, if_pos hc]
    exact ⟨args, m, m', r, h1, h2, h4 (ih hf2 ht hq)⟩

/-- Code in the program. -/
theorem run_wp (hA : A.DivLocal) (hcd : CallsDo A P os sys C V sp gp fofs) {a e : Word} {code : List Ph2Ir} (hat : At P stack a code e) :
    ∀ {t t0 : State}, Wp A C V sp gp fofs Q code t → Same t t0 → t0.pc = a →
    ∃ o u t2, XRun A P os sys t0 t2 ∧ Same u t2 ∧ Q o u ∧ (o = none → t2.pc = e) ∧
      ∀ ir, o = some ir → ∃ ir' nxt, Final stack ir ir' ∧ P t2.pc ir' nxt := by
  induction hat with
  | nil a =>
    intro t t0 hw hs hpc
    exact ⟨none, t, t0, .refl _, hs, hw, fun _ => hpc, fun _ h => by cases h⟩
  | @cons a ir ir' nxt irs e hf hp _ ih =>
    intro t t0 hw hs hpc
    unfold Wp at hw
    by_cases hc : ir.op = .call
    · rw [if_pos hc] at hw
      obtain ⟨args, m, m', r, h1, h2, h3⟩ := hw
      obtain ⟨d, rfl⟩ := final_straight hf (by rw [hc]; simp)
      obtain ⟨b1, b2, b3, b4⟩ := hs
      obtain ⟨u0, g1, g2, g3⟩ := hcd { ir with is_branch_detached := d } nxt t0 args m m' r (by rw [hpc]; exact hp) hc
        ⟨b2.trans h1.sp, b3.trans h1.gp, fun x hx => by rw [b4]; exact h1.mem x hx, h1.len, fun k hk => by rw [b1]; exact h1.reg k hk⟩ h2
      obtain ⟨o, u, t2, q1, q2⟩ := ih (h3 u0 ⟨g3.sp, g3.gp, g3.result, g3.mem, fun v hg hv => by
        rw [g3.slot v hg hv]
        unfold slot
        rw [b4, b2]⟩) (Same.refl u0) g2
      exact ⟨o, u, t2, run_trans g1 q1, q2⟩
    · rw [if_neg hc] at hw
      by_cases hst : straight ir.op = true
      · rw [if_pos hst] at hw
        obtain ⟨nx, u, h1, h2⟩ := hw
        obtain ⟨d, rfl⟩ := final_straight hf (straight_ret hst)
        obtain ⟨u0, g1, g2, g3⟩ := step_same hA hst h1 d nxt hs
        obtain ⟨o, u, t2, q1, q2⟩ := ih h2 g2 g3
        exact ⟨o, u, t2, run_trans (run_one (by rw [hpc]; exact hp) g1) q1, q2⟩
      · rw [if_neg hst] at hw
        refine ⟨some ir, t, t0, .refl _, hs, hw, (fun h => by cases h), ?_⟩
        intro ir2 e
        cases e
        exact ⟨ir', nxt, hf, by rw [hpc]; exact hp⟩

end

/-- The code of a block of a placed function. -/
theorem laid_split {A : Abi} {P : Program} {stack : Word} (pre : List (Nat × List Ph2Ir)) : ∀ {a : Word} {b : Nat} {code : List Ph2Ir}
    {post : List (Nat × List Ph2Ir)}, Laid A P stack a (pre ++ (b, code) :: post) →
    ∃ e, At P stack (if pre = [] then a else A.blockAddr b) code e ∧ ∀ c ∈ post.head?, A.blockAddr c.1 = e := by
  induction pre with
  | nil =>
    intro a b code post h
    cases h with
    | cons h hn hr => exact ⟨_, h, hn⟩
  | cons p pre ih =>
    intro a b code post h
    cases h with
    | @cons _ pb pc e1 _ h hn hr =>
      obtain ⟨e, h1, h2⟩ := ih hr
      refine ⟨e, ?_, h2⟩
      rw [if_neg (by simp)]
      cases pre with
      | nil =>
        have : A.blockAddr b = e1 := hn (b, code) (by simp)
        rw [this]; exact h1
      | cons q pre => exact h1

/-- Allocation of a list of blocks, around one of them. -/
theorem blocks_split {V : Vars} {F : RegAlloc.Fn} (pre : List Nat) : ∀ {seen : List Nat} {b : Nat} {post : List Nat} {st fin : RA}
    {codes : List (Nat × List Ph2Ir)}, allocBlocks V F seen (pre ++ b :: post) st = some (codes, fin) →
    ∃ cpre sb sb' cpost, allocBlocks V F seen pre st = some (cpre, sb) ∧
      allocBlock V (F.block b) (wantJump F (b :: (pre.reverse ++ seen)) b) (F.insns b) sb = some sb' ∧
      allocBlocks V F (b :: (pre.reverse ++ seen)) post sb' = some (cpost, fin) ∧ codes = cpre ++ (b, sb'.out) :: cpost := by
  induction pre with
  | nil =>
    intro seen b post st fin codes h
    simp only [List.nil_append, allocBlocks] at h
    split at h
    · cases h
    · rename_i st' h1
      split at h
      · cases h
      · rename_i rest fin' h2
        cases h
        exact ⟨[], st, st', rest, rfl, h1, h2, rfl⟩
  | cons p pre ih =>
    intro seen b post st fin codes h
    simp only [List.cons_append, allocBlocks] at h
    split at h
    · cases h
    · rename_i st' h1
      split at h
      · cases h
      · rename_i rest fin' h2
        cases h
        obtain ⟨cpre, sb, sb', cpost, g1, g2, g3, g4⟩ := ih h2
        have e : pre.reverse ++ p :: seen = (p :: pre).reverse ++ seen := by simp
        rw [e] at g2 g3
        refine ⟨(p, st'.out) :: cpre, sb, sb', cpost, ?_, g2, g3, by rw [g4]; rfl⟩
        simp only [allocBlocks, h1, g1]

theorem blocks_ids {V : Vars} {F : RegAlloc.Fn} (order : List Nat) : ∀ {seen : List Nat} {st fin : RA}
    {codes : List (Nat × List Ph2Ir)}, allocBlocks V F seen order st = some (codes, fin) → codes.map (·.1) = order := by
  induction order with
  | nil => intro seen st fin codes h; cases h; rfl
  | cons p pre ih =>
    intro seen st fin codes h
    simp only [allocBlocks] at h
    split at h
    · cases h
    · split at h
      · cases h
      · rename_i rest fin' h2
        cases h
        simp [ih h2]

end RaFn
