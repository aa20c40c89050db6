import Verif.Lemmas.RaCall2

/-! Register allocation simulates the source: a whole block. -/

namespace RaLink
open Shecc Shecc.Ssa Shecc.RegAlloc IrM SrcBlock

section
variable {A : Abi} {tcall : Nat → String → State → State → Prop} {C : Ctx} {V : Vars} {sp gp : Word} {fofs : Nat → Nat}

/-- Slots once given stay. -/
theorem allocInsn_mono {B : Block} {idx : Nat} {i : Insn} {st st' : RA} (F : InsnFine V B idx i (RegAlloc.refresh B idx st))
    (he : allocInsn V B idx i st = some st') : Mono st st' := by
  have a1 : Mono st (RegAlloc.refresh B idx st) := (Mono.closed st).refresh B _ (Mono.refl st)
  unfold allocInsn at he
  by_cases hn : i.op = .allocat → ∀ d, i.rd = some d → V.basic d = true
  · exact (Mono.closed st).allocOp V B _ i hn a1 he
  · have : i.op = .allocat ∧ ∃ d, i.rd = some d ∧ V.basic d = false := by
      refine Classical.byContradiction fun h => hn ?_
      intro ho d hd
      cases hb : V.basic d with
      | true => rfl
      | false => exact absurd ⟨ho, d, hd, hb⟩ h
    obtain ⟨ho, d, hd, hb⟩ := this
    have h0 := F.declare d ho hd hb
    unfold allocOp at he
    rw [ho, hd] at he
    simp only [Option.some.injEq, allocAllocat, hb, Bool.false_eq_true, if_false] at he
    subst he
    generalize RegAlloc.refresh B idx st = s1 at *
    intro v hv
    have hvd : v ≠ d := fun e => by
      subst e
      rw [a1 v hv] at h0
      exact hv h0
    have hu : upd s1.offset d s1.stack v = st.offset v := by rw [upd_ne _ _ hvd, a1 v hv]
    have := mono_dest V B d none none
      { s1 with offset := upd s1.offset d s1.stack, stack := s1.stack + 4 + (alignSize (num (V.objSize d))).toNat } v
      (by show upd s1.offset d s1.stack v ≠ 0; rw [hu]; exact hv)
    exact this.trans hu

theorem allocInsns_mono {B : Block} (is : List Insn) : ∀ {idx : Nat} {st st' : RA}, NoClash V B idx is st →
    allocInsns V B idx is st = some st' → Mono st st' := by
  induction is with
  | nil => intro idx st st' _ he; cases he; exact Mono.refl st
  | cons i is ih =>
    intro idx st st' hF he
    unfold allocInsns at he
    split at he
    · cases he
    · rename_i st1 h1
      exact (allocInsn_mono hF.1 h1).trans (ih (hF.2 st1 h1) he)

variable (S : Setup A tcall C V sp gp fofs)
include S

/-- Fetching the result of a call. -/
theorem funcRet_sim {B : Block} {D : Nat → Prop} {use : Nat → Int} {idx : Nat} {st st' : RA} {s s' : St} {t : State} {f : Insn}
    (I : Inv C V sp gp fofs B use D idx st s t) (hret : ∀ x, s.ret = some x → t.reg (r3 0) = x) (U : UseOk V B use D idx f) (ho : f.op = .func_ret)
    (h : Step C f s s') (he : allocInsn V B idx f st = some st') (hto : To fofs st') :
    Sim A tcall st st' t (Inv C V sp gp fofs B use (fun v => D v ∨ result V f = some v) (idx + 1 : Nat) st' s') := by
  have I1 := refresh_inv S I
  have hout := refresh_out B idx st
  unfold allocInsn at he
  generalize RegAlloc.refresh B idx st = st1 at *
  obtain ⟨d, x, hd, hx, rfl⟩ := step_funcRet ho h
  have np : f.op ≠ .push := by rw [ho]; simp
  have c := I1.ctl.allocOp V B idx f np (by rw [ho]; simp) (by rw [ho]; simp) (by rw [ho]; simp) (fun d _ hd => U.killed d hd) he
  have hinj := Props.allocOp_inj V B idx f st1 st' np I1.inj he
  have hg : V.isGlobal d = false := by
    cases hg : V.isGlobal d with
    | false => rfl
    | true => rcases U.local_ d hd hg with h | h | h <;> rw [ho] at h <;> cases h
  unfold allocOp at he
  rw [ho, hd] at he
  simp only [Option.some.injEq, allocFuncRet] at he
  subst he
  have hsim := dest_sim S (x := x) none none (fun q => { op := .assign, src0 := num 0, dest := num q }) I1.rel I1.inj I1.glob hg hto
    (by
      intro t1 h1 _ _ _ q hq
      refine ⟨rfl, t1.pc, _, IrM.Step.assign (d := r3 q) (a := r3 0) rfl (isReg_num hq) (isReg_num (by omega)), setReg_same, ?_⟩
      have : t1.reg (r3 0) = x := by rw [h1]; exact hret x hx
      rw [this]
      exact setReg_at hq)
  obtain ⟨code, t', g1, g2, g3⟩ := hsim
  refine ⟨code, t', by rw [g1, hout], by rw [← hout]; exact g2, g3.weaken ?_ (by omega), hinj, c.pk, c.pushing, c.args, ?_, ?_, ?_⟩
  · intro v hv
    refine hv.imp id fun e => ?_
    unfold result at e
    rw [ho, hd] at e
    cases e
    rfl
  · rw [wr_args]; exact I1.sargs
  · rw [c.consumed]; exact I1.use_le
  · exact fun v hv => Or.inl (I1.glob v hv)

omit S in
theorem Inv.congr {B : Block} {D D' : Nat → Prop} {use : Nat → Int} {idx : Int} {st : RA} {s : St} {t : State}
    (I : Inv C V sp gp fofs B use D idx st s t) (h : D = D') : Inv C V sp gp fofs B use D' idx st s t := h ▸ I

/-- The body of a block. -/
theorem body_sim {B : Block} {use : Nat → Int} {is : List Insn} (G : Grouped V is) : ∀ {D : Nat → Prop} {idx : Nat} {st st' : RA}
    {s s' : St} {t : State}, Inv C V sp gp fofs B use D idx st s t → Uses V B use D idx is → NoClash V B idx is st →
    SrcBlock.Run C is s s' → allocInsns V B idx is st = some st' → To fofs st' →
    Sim A tcall st st' t
      (Inv C V sp gp fofs B use (fun v => D v ∨ ∃ i ∈ is, result V i = some v) (idx + is.length : Nat) st' s') := by
  induction G with
  | nil =>
    intro D idx st st' s s' t I _ _ hr he _
    cases he
    cases hr
    exact Sim.refl (I.congr (by funext v; simp))
  | one hs G ih =>
    rename_i i is
    intro D idx st st' s s' t I hU hF hr he hto
    cases hr with
    | cons hstep hr =>
    unfold allocInsns at he
    split at he
    · cases he
    · rename_i st1 h1
      have hto1 := (allocInsns_mono is (hF.2 st1 h1) he).to hto
      obtain ⟨c, t1, g1, g2, g3⟩ := step_sim S I hU.1 hF.1 hs hstep h1 hto1
      refine Sim.chain g1 g2 ?_
      obtain ⟨c', t', q1, q2, q3⟩ := ih g3 hU.2 (hF.2 st1 h1) hr he hto
      refine ⟨c', t', q1, q2, ?_⟩
      have e1 : idx + 1 + is.length = idx + (i :: is).length := by simp only [List.length_cons]; omega
      rw [e1] at q3
      refine q3.congr ?_
      funext v
      simp only [List.mem_cons, exists_eq_or_imp, or_assoc]
  | call hcs G ih =>
    rename_i ps c is
    intro D idx st st' s s' t I hU hF hr he hto
    have ea : ps ++ c :: is = (ps ++ [c]) ++ is := by simp
    rw [ea] at hU hF hr he
    obtain ⟨U1, U2⟩ := (uses_append ..).1 hU
    obtain ⟨F1, F2⟩ := noClash_append V B _ _ _ _ hF
    obtain ⟨sm, r1, r2⟩ := run_append hr
    rw [allocInsns_append] at he
    split at he
    · cases he
    · rename_i st1 h1
      have hto1 := (allocInsns_mono is (F2 st1 h1) he).to hto
      obtain ⟨cc, t1, g1, g2, g3, _⟩ := call_sim S I hcs U1 F1 h1 r1 hto1
      refine Sim.chain g1 g2 ?_
      have hres : ∀ i ∈ ps ++ [c], result V i = none := by
        intro i hi
        have : i.rd = none ∧ i.op ≠ .allocat := by
          rw [List.mem_append] at hi
          rcases hi with h | h
          · exact ⟨hcs.noDest.2 i h, by rw [hcs.push i h]; simp⟩
          · rw [List.mem_singleton] at h
            subst h
            exact ⟨hcs.noDest.1, by rw [hcs.call]; simp⟩
        unfold result
        rw [this.1]
        cases i.op <;> rfl
      have hDD : (fun v => D v ∨ ∃ i ∈ ps ++ [c], result V i = some v) = D := by
        funext v
        refine propext ⟨fun h => h.elim id ?_, Or.inl⟩
        rintro ⟨i, hi, e⟩
        rw [hres i hi] at e
        cases e
      rw [hDD] at U2
      have el : idx + (ps ++ [c]).length = idx + ps.length + 1 := by simp; omega
      rw [el] at U2 F2 he
      obtain ⟨c', t', q1, q2, q3⟩ := ih g3 U2 (F2 st1 h1) r2 he hto
      refine ⟨c', t', q1, q2, ?_⟩
      have e1 : idx + ps.length + 1 + is.length = idx + (ps ++ c :: is).length := by simp; omega
      rw [e1] at q3
      refine q3.congr ?_
      funext v
      rw [ea]
      refine propext ⟨?_, ?_⟩
      · rintro (h | ⟨i, hi, e⟩)
        · exact Or.inl h
        · exact Or.inr ⟨i, List.mem_append_right _ hi, e⟩
      · rintro (h | ⟨i, hi, e⟩)
        · exact Or.inl h
        · rcases List.mem_append.1 hi with h | h
          · rw [hres i h] at e; cases e
          · exact Or.inr ⟨i, h, e⟩
  | callRet hcs hf G ih =>
    rename_i ps c f is
    intro D idx st st' s s' t I hU hF hr he hto
    have ea : ps ++ c :: f :: is = (ps ++ [c]) ++ f :: is := by simp
    rw [ea] at hU hF hr he
    obtain ⟨U1, U2⟩ := (uses_append ..).1 hU
    obtain ⟨F1, F2⟩ := noClash_append V B _ _ _ _ hF
    obtain ⟨sm, r1, r2⟩ := run_append hr
    rw [allocInsns_append] at he
    split at he
    · cases he
    · rename_i st1 h1
      have hto1 := (allocInsns_mono (f :: is) (F2 st1 h1) he).to hto
      obtain ⟨cc, t1, g1, g2, g3, hret⟩ := call_sim S I hcs U1 F1 h1 r1 hto1
      refine Sim.chain g1 g2 ?_
      have hres : ∀ i ∈ ps ++ [c], result V i = none := by
        intro i hi
        have : i.rd = none ∧ i.op ≠ .allocat := by
          rw [List.mem_append] at hi
          rcases hi with h | h
          · exact ⟨hcs.noDest.2 i h, by rw [hcs.push i h]; simp⟩
          · rw [List.mem_singleton] at h
            subst h
            exact ⟨hcs.noDest.1, by rw [hcs.call]; simp⟩
        unfold result
        rw [this.1]
        cases i.op <;> rfl
      have hDD : (fun v => D v ∨ ∃ i ∈ ps ++ [c], result V i = some v) = D := by
        funext v
        refine propext ⟨fun h => h.elim id ?_, Or.inl⟩
        rintro ⟨i, hi, e⟩
        rw [hres i hi] at e
        cases e
      rw [hDD] at U2
      have el : idx + (ps ++ [c]).length = idx + ps.length + 1 := by simp; omega
      rw [el] at U2 F2 he
      cases r2 with
      | cons hstep r2 =>
      obtain ⟨Uf, U3⟩ := U2
      have F3 := F2 st1 h1
      unfold allocInsns at he
      split at he
      · cases he
      · rename_i st2 h2
        have hto2 := (allocInsns_mono is (F3.2 st2 h2) he).to hto
        obtain ⟨c2, t2, k1, k2, k3⟩ := funcRet_sim S g3 hret Uf hf hstep h2 hto2
        refine Sim.chain k1 k2 ?_
        obtain ⟨c', t', q1, q2, q3⟩ := ih k3 U3 (F3.2 st2 h2) r2 he hto
        refine ⟨c', t', q1, q2, ?_⟩
        have e1 : idx + ps.length + 1 + 1 + is.length = idx + (ps ++ c :: f :: is).length := by simp; omega
        rw [e1] at q3
        refine q3.congr ?_
        funext v
        rw [ea]
        refine propext ⟨?_, ?_⟩
        · rintro ((h | h) | ⟨i, hi, e⟩)
          · exact Or.inl h
          · exact Or.inr ⟨f, List.mem_append_right _ (List.mem_cons_self ..), h⟩
          · exact Or.inr ⟨i, List.mem_append_right _ (List.mem_cons_of_mem _ hi), e⟩
        · rintro (h | ⟨i, hi, e⟩)
          · exact Or.inl (Or.inl h)
          · rcases List.mem_append.1 hi with h | h
            · rw [hres i h] at e; cases e
            · rcases List.mem_cons.1 h with h | h
              · subst h; exact Or.inl (Or.inr e)
              · exact Or.inr ⟨i, h, e⟩

end

end RaLink
