import Verif.Lemmas.CseFn2
import Verif.Props.ConstFoldFn
import Verif.Props.Cse

/-!
# C98: constant folding with common subexpression elimination preserves what a function does
-/

namespace Shecc.Props
open Shecc Shecc.Ssa Shecc.ConstFold Shecc.Optimize SsaSem SrcBlock RaFn CCse

theorem IsSsa.sub {g : Nat → Bool} {l prog : List Insn} (h : IsSsa g prog) (hl : l.Sublist prog) : IsSsa g l := by
  refine ⟨?_, fun i hi => h.2 i (hl.subset hi)⟩
  intro xs i ys v he hv hg ho j hj
  rw [he] at hl
  obtain ⟨r1, r2, rfl, h1, h2⟩ := List.append_sublist_iff.1 hl
  obtain ⟨r3, r4, rfl, h3, h4⟩ := List.cons_sublist_iff.1 h2
  obtain ⟨r5, r6, rfl⟩ := List.append_of_mem h3
  refine h.1 (r1 ++ r5) i (r6 ++ r4) v (by simp) hv hg ho j ?_
  rcases List.mem_append.1 hj with hj | hj
  · simp [h1.subset hj]
  · simp [h4.subset hj]

/-- The states agree but for the variables `D`. -/
structure Sim (D : Nat → Prop) (s t : SrcBlock.St) : Prop where
  mem : t.mem = s.mem
  args : t.args = s.args
  ret : t.ret = s.ret
  val : ∀ v, ¬ D v → t.val v = s.val v

theorem Sim.rd {D : Nat → Prop} {C : Ctx} {s t : SrcBlock.St} (h : Sim D s t) {v : Nat} (hv : ¬ D v) : SrcBlock.rd C t v = SrcBlock.rd C s v := by
  unfold SrcBlock.rd
  rw [h.mem, h.val v hv]

theorem Sim.wr {D : Nat → Prop} {C : Ctx} {s t : SrcBlock.St} (h : Sim D s t) (v : Nat) (x : IrM.Word) : Sim D (wr C s v x) (wr C t v x) := by
  unfold SrcBlock.wr
  split
  · exact ⟨by rw [h.mem], h.args, h.ret, h.val⟩
  · refine ⟨h.mem, h.args, h.ret, fun u hu => ?_⟩
    simp only
    split
    · rfl
    · exact h.val u hu

/-- An instruction that uses none of the variables `D`. -/
theorem Sim.step {D : Nat → Prop} {C : Ctx} {i : Insn} {s s' t : SrcBlock.St} (h : Sim D s t)
    (hD : i.op ≠ .load_constant → ∀ v, Operand i v → ¬ D v) (hs : SrcBlock.Step C i s s') : ∃ t', SrcBlock.Step C i t t' ∧ Sim D s' t' := by
  have r1 : i.op ≠ .load_constant → ∀ {a}, i.rs1 = some a → SrcBlock.rd C t a = SrcBlock.rd C s a := fun ho _ ha => h.rd (hD ho _ (Or.inl ha))
  have r2 : i.op ≠ .load_constant → ∀ {a}, i.rs2 = some a → SrcBlock.rd C t a = SrcBlock.rd C s a := fun ho _ ha => h.rd (hD ho _ (Or.inr ha))
  cases hs with
  | const ho hd => exact ⟨_, .const ho hd, h.wr _ _⟩
  | data ho hd => exact ⟨_, .data ho hd, h.wr _ _⟩
  | assign ho hd ha => exact ⟨_, .assign ho hd ha, by rw [r1 (by rw [ho]; simp) ha]; exact h.wr _ _⟩
  | phi ho hd ha => exact ⟨_, .phi ho hd ha, by rw [r1 (by rw [ho]; simp) ha]; exact h.wr _ _⟩
  | bin ho hop hd ha hb hv => exact ⟨_, .bin ho hop hd ha hb (by rw [r1 (by rw [ho]; simp) ha, r2 (by rw [ho]; simp) hb]; exact hv), h.wr _ _⟩
  | un ho hop hd ha => exact ⟨_, .un ho hop hd ha, by rw [r1 (by rw [ho]; simp) ha]; exact h.wr _ _⟩
  | read4 ho hs hd ha hv =>
    have e := r1 (by rw [ho]; simp) ha
    exact ⟨_, .read4 ho hs hd ha (by rw [e]; exact hv), by rw [e, h.mem]; exact h.wr _ _⟩
  | read1 ho hs hd ha hv =>
    have e := r1 (by rw [ho]; simp) ha
    exact ⟨_, .read1 ho hs hd ha (by rw [e]; exact hv), by rw [e, h.mem]; exact h.wr _ _⟩
  | write4 ho hs ha hb hv hm h1 h2 =>
    have e := r1 (by rw [ho]; simp) ha
    have e' := r2 (by rw [ho]; simp) hb
    exact ⟨_, .write4 ho hs ha hb (by rw [e]; exact hv) (by rw [e, e', h.mem]; exact hm) (by rw [h.mem]; exact h1) (by rw [h.mem]; exact h2),
      ⟨rfl, h.args, h.ret, h.val⟩⟩
  | write1 ho hs ha hb hv hm h1 h2 =>
    have e := r1 (by rw [ho]; simp) ha
    have e' := r2 (by rw [ho]; simp) hb
    exact ⟨_, .write1 ho hs ha hb (by rw [e]; exact hv) (by rw [e, e', h.mem]; exact hm) (by rw [h.mem]; exact h1) (by rw [h.mem]; exact h2),
      ⟨rfl, h.args, h.ret, h.val⟩⟩
  | gaddr ho hd ha hg => exact ⟨_, .gaddr ho hd ha hg, h.wr _ _⟩
  | declare ho hd hb => exact ⟨_, .declare ho hd hb, h⟩
  | object ho hd hb => exact ⟨_, .object ho hd hb, h.wr _ _⟩
  | push ho ha => exact ⟨_, .push ho ha, ⟨h.mem, by rw [r1 (by rw [ho]; simp) ha, h.args], h.ret, h.val⟩⟩
  | call ho hc => exact ⟨_, .call ho (by rw [h.args, h.mem]; exact hc), ⟨rfl, rfl, rfl, h.val⟩⟩
  | funcRet ho hd hx => exact ⟨_, .funcRet ho hd (by rw [h.ret]; exact hx), h.wr _ _⟩

/-- What is known of the function after the pass. -/
structure CseRel (C : Ctx) (F F' : RegAlloc.Fn) (entry : Nat) (order : List Nat) (idom : Nat → Nat) (fuel : Nat) (A : Nat → List Al)
    (PZ : List (Insn × Insn)) (st : CF) (s₀ : SrcBlock.St) : Prop where
  al : ∀ b ∈ order, AlOk C.isGlobal idom fuel F order b (F'.insns b) (A b)
  proc : ∀ b ∈ order, Proc PZ (A b)
  src : (PZ.map Prod.fst).Sublist (order.flatMap F.insns)
  inv : FInv C.isGlobal C.initVal PZ st
  input : CFold.Input F C.isGlobal entry order
  root : idom entry = entry
  idoms : ∀ c, CGraph.Reach (succs F) entry c → c ≠ entry → CGraph.IsIdom (succs F) entry (idom c) c
  un : Unchanged C F entry s₀
  block : F'.block = F.block
  exit : F'.fnExit = F.fnExit

/-- Sums that are not computed any more. -/
def Dead (order : List Nat) (A : Nat → List Al) (v : Nat) : Prop :=
  ∃ c ∈ order, ∃ X i n d Y, A c = X ++ .two i n d :: Y ∧ i.rd = some v

theorem bef_pos (a : Al) : 1 ≤ a.bef.length := by cases a <;> simp [Al.bef]

section
variable {C : Ctx} {F F' : RegAlloc.Fn} {entry : Nat} {order : List Nat} {idom : Nat → Nat} {fuel : Nat} {A : Nat → List Al}
  {PZ : List (Insn × Insn)} {st : CF} {s₀ : SrcBlock.St}

theorem CseRel.ssa (R : CseRel C F F' entry order idom fuel A PZ st s₀) : IsSsa C.isGlobal (PZ.map Prod.fst) := IsSsa.sub R.input.ssa R.src

/-- Instructions that are kept use none of the sums that are not. -/
theorem CseRel.alive (R : CseRel C F F' entry order idom fuel A PZ st s₀) {b : Nat} (hb : b ∈ order) {X Y : List Al} {i i' : Insn}
    (he : A b = X ++ .one i i' :: Y) : ∀ v, Operand i v → ¬ Dead order A v := by
  rintro v hv ⟨c, hc, X', j, k, e, Y', he', hj⟩
  obtain ⟨b0, pre, i0, n0, base, idx, t, r, hb0, hF, hS, hsm, _⟩ := ((R.al c hc).twos X' j k e Y' he').apart R.un.same
  rw [hsm.sum] at hj
  cases hj
  have hcode := (R.al b hb).before
  rw [he] at hcode
  obtain ⟨rfl, h2⟩ := hsm.once b (bef X) i (bef Y) (by rw [← hcode]; simp [bef, Al.bef]) hv
  have hl : (bef X).length = (bef X').length + 1 := by rw [h2]; simp
  rw [he] at he'
  rcases List.append_eq_append_iff.1 he' with ⟨Z, e1, e2⟩ | ⟨Z, e1, e2⟩
  · rw [e1] at hl
    simp only [bef, List.flatMap_append, List.length_append] at hl
    omega
  · cases Z with
    | nil => simp at e2
    | cons z Z =>
      simp only [List.cons_append, List.cons.injEq] at e2
      obtain ⟨rfl, e2⟩ := e2
      rw [e1] at hl
      simp [bef, Al.bef] at hl

/-- One instruction, or a repeated read. -/
theorem CseRel.item (R : CseRel C F F' entry order idom fuel A PZ st s₀) {b : Nat} (hb : b ∈ order) (hreach : CGraph.Reach (succs F) entry b)
    {X Y : List Al} {a : Al} (he : A b = X ++ a :: Y) {P : List Insn} {s s' t : SrcBlock.St} (hat : CCse.At C F entry s₀ b (bef X) s)
    (hk : KnownX (Dead order A) st P s) (hsim : Sim (Dead order A) s t)
    (hu : DefinedBeforeUse C.isGlobal (order.flatMap F.insns) (P ++ a.bef)) (hr : SrcBlock.Run C a.bef s s') :
    (∃ t', SrcBlock.Step (withConsts C st.initVal) a.aft t t' ∧ Sim (Dead order A) s' t') ∧ KnownX (Dead order A) st (P ++ a.bef) s' ∧
      CCse.At C F entry s₀ b (bef (X ++ [a])) s' := by
  have hcode := (R.al b hb).before
  rw [he] at hcode
  have hmem : ∀ i ∈ a.bef, i ∈ order.flatMap F.insns := fun i hi =>
    List.mem_flatMap.2 ⟨b, hb, by rw [← hcode]; simp [bef, hi]⟩
  cases a with
  | one i i' =>
    cases hr with
    | cons h hr =>
      cases hr
      have hD := R.alive hb he
      have hp := R.proc b hb i i' (by rw [he]; simp)
      obtain ⟨h1, h2⟩ := fold_step (p := (i, i')) R.inv R.ssa (prog := order.flatMap F.insns)
        (fun q hq => R.src.subset (List.mem_map_of_mem hq)) hp hk hD (fun v hv hg hd => hu P i [] v (by simp [Al.bef]) hv hg hd) h
      obtain ⟨t', h3, h4⟩ := hsim.step (fun ho v hv => by
        rcases (R.al b hb).ones i i' (by rw [he]; simp) with rfl | h'
        · exact hD v hv
        · exact absurd h' ho) h1
      refine ⟨⟨t', h3, h4⟩, h2, ?_⟩
      have := hat.step (ys := bef Y) (by rw [← hcode]; simp [bef, Al.bef]) h
      simpa [bef, Al.bef] using this
  | two i n d =>
    cases hr with
    | @cons _ _ _ s1 _ h hr =>
    cases hr with
    | cons h' hr =>
      cases hr
      obtain ⟨b0, pre, i0, n0, base, idx, v, r, hb0, hF, hS, hsm, hpos⟩ := ((R.al b hb).twos X i n d Y he).apart R.un.same
      have haft : After F entry b0 pre b (bef X) := by
        rcases hpos with h | ⟨h, h'⟩
        · exact Or.inl h
        · exact Or.inr ⟨h, dom_of_check R.root R.idoms fuel b hreach h'⟩
      have hval := R.un.value b0 pre i0 n0 base idx d hF b (bef X) i n hS haft s s1 s' r hat h h' hsm.into
      have hdead : Dead order A v := ⟨b, hb, X, i, n, d, Y, he, hsm.sum⟩
      -- the value is kept
      have hmem0 : n0 ∈ order.flatMap F.insns := by
        obtain ⟨post, hp⟩ := hF.here.code
        exact List.mem_flatMap.2 ⟨b0, hb0, by rw [hp]; simp⟩
      have hd : ¬ Dead order A d := by
        rintro ⟨c, hc, X', j, k, e, Y', he', hj⟩
        obtain ⟨_, _, _, _, _, _, _, _, _, _, hS', _, _⟩ := ((R.al c hc).twos X' j k e Y' he').apart R.un.same
        have hcode' := (R.al c hc).before
        rw [he'] at hcode'
        have hjm : j ∈ order.flatMap F.insns := List.mem_flatMap.2 ⟨c, hc, by rw [← hcode']; simp [bef, Al.bef]⟩
        obtain ⟨us, vs, hsplit⟩ := List.append_of_mem hmem0
        have hone := R.input.ssa.1 us n0 vs d hsplit hF.into hsm.ld (by rw [hF.here.read]; simp)
        have hne : j ∉ us ++ vs := fun hm => hone j hm hj
        rw [hsplit] at hjm
        simp only [List.mem_append, List.mem_cons] at hjm hne
        rcases hjm with hjm | rfl | hjm
        · exact hne (Or.inl hjm)
        · have := hF.here.read
          rw [hS'.add] at this
          cases this
        · exact hne (Or.inr hjm)
      have hs1 : s1.mem = s.mem ∧ s1.args = s.args ∧ s1.ret = s.ret ∧ ∀ u, u ≠ v → s1.val u = s.val u := by
        have : ∃ x, s1 = wr C s v x := by
          have hop := hS.add
          have hsum := hsm.sum
          cases h with
          | bin _ _ hd => rw [hsum] at hd; cases hd; exact ⟨_, rfl⟩
          | un _ _ hd => rw [hsum] at hd; cases hd; exact ⟨_, rfl⟩
          | _ => simp_all
        obtain ⟨x, rfl⟩ := this
        unfold SrcBlock.wr
        rw [hsm.lsum]
        refine ⟨rfl, rfl, rfl, fun u hu => ?_⟩
        simp [hu]
      have hs1t : Sim (Dead order A) s1 t :=
        ⟨hsim.mem.trans hs1.1.symm, hsim.args.trans hs1.2.1.symm, hsim.ret.trans hs1.2.2.1.symm, fun u hu => by
          rw [hs1.2.2.2 u (by rintro rfl; exact hu hdead)]; exact hsim.val u hu⟩
      refine ⟨⟨wr (withConsts C st.initVal) t r (SrcBlock.rd (withConsts C st.initVal) t d), .assign rfl hsm.into rfl, ?_⟩, ?_, ?_⟩
      · have : SrcBlock.rd (withConsts C st.initVal) t d = s.val d := by
          unfold SrcBlock.rd
          rw [show (withConsts C st.initVal).isGlobal d = false from hsm.ld]
          exact hsim.val d hd
        rw [this, hval]
        exact hs1t.wr (C := C) r (s.val d)
      · intro u hu hc hdef
        have hur : n.rd ≠ some u := by
          intro hnr
          obtain ⟨q, hq, hqr, _⟩ := R.inv.isc u hc
          have hg := (img_const R.inv R.ssa hq hqr hc).1
          have := not_const R.inv R.input.ssa (fun p hp => R.src.subset (List.mem_map_of_mem hp)) (hmem n (by simp [Al.bef])) hS.read hnr hg
          rw [this] at hc
          cases hc
        have hui : i.rd ≠ some u := by
          rw [hsm.sum]
          intro h
          cases h
          exact hu hdead
        rw [Step.other h' hur, Step.other h hui]
        apply hk u hu hc
        obtain ⟨j, hj, hjr⟩ := hdef
        simp only [Al.bef, List.mem_append, List.mem_cons, List.not_mem_nil, or_false] at hj
        rcases hj with hj | rfl | rfl
        · exact ⟨j, hj, hjr⟩
        · exact absurd hjr hui
        · exact absurd hjr hur
      · have h1 := hat.step (ys := n :: bef Y) (by rw [← hcode]; simp [bef, Al.bef]) h
        have h2 := h1.step (ys := bef Y) (by rw [← hcode]; simp [bef, Al.bef]) h'
        simpa [bef, Al.bef] using h2

theorem srcRun_append {C : Ctx} {xs ys : List Insn} {s u : SrcBlock.St} (h : SrcBlock.Run C (xs ++ ys) s u) :
    ∃ t, SrcBlock.Run C xs s t ∧ SrcBlock.Run C ys t u := by
  induction xs generalizing s with
  | nil => exact ⟨s, .nil _, h⟩
  | cons x xs ih =>
    cases h with
    | cons h hr =>
      obtain ⟨t, h1, h2⟩ := ih hr
      exact ⟨t, .cons h h1, h2⟩

/-- Part of a block. -/
theorem CseRel.run (R : CseRel C F F' entry order idom fuel A PZ st s₀) {b : Nat} (hb : b ∈ order) (hreach : CGraph.Reach (succs F) entry b) :
    ∀ (Z X Y : List Al) (P : List Insn) (s s' t : SrcBlock.St), A b = X ++ Z ++ Y → CCse.At C F entry s₀ b (bef X) s →
      KnownX (Dead order A) st P s → Sim (Dead order A) s t → DefinedBeforeUse C.isGlobal (order.flatMap F.insns) (P ++ bef Z) →
      SrcBlock.Run C (bef Z) s s' →
      (∃ t', SrcBlock.Run (withConsts C st.initVal) (Z.map Al.aft) t t' ∧ Sim (Dead order A) s' t') ∧
        KnownX (Dead order A) st (P ++ bef Z) s' ∧ CCse.At C F entry s₀ b (bef (X ++ Z)) s' := by
  intro Z
  induction Z with
  | nil =>
    intro X Y P s s' t he hat hk hsim hu h
    cases h
    exact ⟨⟨t, .nil _, hsim⟩, by simpa [bef] using hk, by simpa using hat⟩
  | cons a Z ih =>
    intro X Y P s s' t he hat hk hsim hu h
    obtain ⟨u, h1, h2⟩ := srcRun_append (xs := a.bef) (ys := bef Z) (by simpa [bef] using h)
    obtain ⟨⟨t1, h3, h4⟩, h5, h6⟩ := R.item (a := a) hb hreach (X := X) (Y := Z ++ Y) (by rw [he]; simp) hat hk hsim
      (dbu_prefix (ys := bef Z) (by simpa [bef] using hu)) h1
    obtain ⟨⟨t2, h7, h8⟩, h9, h10⟩ := ih (X ++ [a]) Y (P ++ a.bef) u s' t1 (by rw [he]; simp) h6 h5 h4 (by simpa [bef] using hu) h2
    exact ⟨⟨t2, .cons h3 h7, h8⟩, by simpa [bef] using h9, by simpa using h10⟩

/-- An instruction that is neither an addition nor a read stands alone. -/
theorem alone {i : Insn} (h1 : i.op ≠ .alu .add) (h2 : i.op ≠ .read) : ∀ (A : List Al) (xs ys : List Insn), bef A = xs ++ i :: ys →
    (∀ X j k e Y, A = X ++ .two j k e :: Y → j.op = .alu .add ∧ k.op = .read) →
    ∃ X i' Y, A = X ++ .one i i' :: Y ∧ bef X = xs ∧ bef Y = ys := by
  intro A
  induction A with
  | nil => intro xs ys h; simp [bef] at h
  | cons a A ih =>
    intro xs ys h ht
    have ih' := fun xs ys h => ih xs ys h fun X j k e Y he => ht (a :: X) j k e Y (by rw [he]; rfl)
    cases a with
    | one j j' =>
      cases xs with
      | nil =>
        simp only [bef, List.flatMap_cons, Al.bef, List.cons_append, List.nil_append, List.cons.injEq] at h
        exact ⟨[], j', A, by rw [h.1]; rfl, rfl, h.2⟩
      | cons x xs =>
        simp only [bef, List.flatMap_cons, Al.bef, List.cons_append, List.nil_append, List.cons.injEq] at h
        obtain ⟨X, i', Y, e1, e2, e3⟩ := ih' xs ys h.2
        exact ⟨.one j j' :: X, i', Y, by rw [e1]; rfl, by simp [bef, Al.bef] at e2 ⊢; exact ⟨h.1, e2⟩, e3⟩
    | two j k e =>
      obtain ⟨o1, o2⟩ := ht [] j k e A rfl
      match xs with
      | [] =>
        simp only [bef, List.flatMap_cons, Al.bef, List.cons_append, List.nil_append, List.cons.injEq] at h
        rw [← h.1] at h1
        exact absurd o1 h1
      | [x] =>
        simp only [bef, List.flatMap_cons, Al.bef, List.cons_append, List.nil_append, List.cons.injEq] at h
        rw [← h.2.1] at h2
        exact absurd o2 h2
      | x :: y :: xs =>
        simp only [bef, List.flatMap_cons, Al.bef, List.cons_append, List.nil_append, List.cons.injEq] at h
        obtain ⟨X, i', Y, e1, e2, e3⟩ := ih' xs ys h.2.2
        exact ⟨.two j k e :: X, i', Y, by rw [e1]; rfl, by simp [bef, Al.bef] at e2 ⊢; exact ⟨h.1, h.2.1, e2⟩, e3⟩

theorem CseRel.dbu (R : CseRel C F F' entry order idom fuel A PZ st s₀) {l : List Nat} {b : Nat} (hp : CGraph.Path (succs F) entry (l ++ [b]) b) :
    DefinedBeforeUse C.isGlobal (order.flatMap F.insns) (traceF F.insns l ++ F.insns b) := by
  have := R.input.strict l b hp
  unfold traceF at *
  simpa using this

theorem CseRel.whole (R : CseRel C F F' entry order idom fuel A PZ st s₀) {l : List Nat} {b : Nat} (hp : CGraph.Path (succs F) entry (l ++ [b]) b)
    (hb : b ∈ order) {s s' t : SrcBlock.St} (hat : CCse.At C F entry s₀ b [] s) (hk : KnownX (Dead order A) st (traceF F.insns l) s)
    (hsim : Sim (Dead order A) s t) (h : SrcBlock.Run C (F.insns b) s s') :
    (∃ t', SrcBlock.Run (withConsts C st.initVal) (F'.insns b) t t' ∧ Sim (Dead order A) s' t') ∧
      KnownX (Dead order A) st (traceF F.insns (l ++ [b])) s' ∧ CCse.At C F entry s₀ b (F.insns b) s' := by
  have hbf := (R.al b hb).before
  rw [← hbf] at h
  have := R.run hb ⟨_, hp⟩ (A b) [] [] _ s s' t (by simp) hat hk hsim (by rw [hbf]; exact R.dbu hp) h
  rw [(R.al b hb).after, List.nil_append, hbf] at this
  refine ⟨this.1, ?_, this.2.2⟩
  unfold traceF at *
  simpa using this.2.1

theorem CseRel.part (R : CseRel C F F' entry order idom fuel A PZ st s₀) {l : List Nat} {b : Nat} (hp : CGraph.Path (succs F) entry (l ++ [b]) b)
    (hb : b ∈ order) {xs ys : List Insn} {i : Insn} (hi : F.insns b = xs ++ i :: ys) (h1 : i.op ≠ .assign) (h2 : ∀ o, i.op ≠ .alu o)
    (h3 : i.op ≠ .read) {s s' t : SrcBlock.St} (hat : CCse.At C F entry s₀ b [] s) (hk : KnownX (Dead order A) st (traceF F.insns l) s)
    (hsim : Sim (Dead order A) s t) (h : SrcBlock.Run C xs s s') :
    ∃ xs' ys' t', F'.insns b = xs' ++ i :: ys' ∧ (ys = [] → ys' = []) ∧ SrcBlock.Run (withConsts C st.initVal) xs' t t' ∧
      Sim (Dead order A) s' t' ∧ (∀ v, Operand i v → ¬ Dead order A v) ∧ CCse.At C F entry s₀ b xs s' ∧
      (i.rd = none → ys = [] → KnownX (Dead order A) st (traceF F.insns (l ++ [b])) s') := by
  have hbf := (R.al b hb).before
  have htw : ∀ X j k e Y, A b = X ++ .two j k e :: Y → j.op = .alu .add ∧ k.op = .read := by
    intro X j k e Y he
    obtain ⟨_, _, _, _, _, _, _, _, hS, _⟩ := (R.al b hb).twos X j k e Y he
    exact ⟨hS.add, hS.read⟩
  obtain ⟨X, i', Y, he, hX, hY⟩ := alone (h2 _) h3 (A b) xs ys (hbf.trans hi) htw
  have hii : i' = i :=
    Img.plain (st := st) (cv0 := C.initVal) (R.inv.img (i, i') (R.proc b hb i i' (by rw [he]; simp))) h1 h2
  subst hii
  subst hX
  obtain ⟨⟨t', h5, h6⟩, h7, h8⟩ := R.run hb ⟨_, hp⟩ X [] (.one i' i' :: Y) _ s s' t (by rw [he]; simp) hat hk hsim (by
      have := R.dbu hp
      rw [hi, ← List.append_assoc] at this
      exact dbu_prefix this) h
  refine ⟨X.map Al.aft, Y.map Al.aft, t', ?_, ?_, h5, h6, R.alive hb he, h8, ?_⟩
  · rw [← (R.al b hb).after, he]
    simp [Al.aft]
  · intro hy
    cases Y with
    | nil => rfl
    | cons y Y =>
      have := bef_pos y
      rw [hy] at hY
      simp only [bef, List.flatMap_cons, List.append_eq_nil_iff] at hY
      rw [hY.1] at this
      simp at this
  · intro hrd hy v hvD hv hdef
    apply h7 v hvD hv
    obtain ⟨j, hj, hjr⟩ := hdef
    refine ⟨j, ?_, hjr⟩
    unfold traceF at hj ⊢
    rw [List.flatMap_append] at hj
    rcases List.mem_append.1 hj with hj | hj
    · exact List.mem_append.2 (Or.inl hj)
    · simp only [List.flatMap_cons, List.flatMap_nil, List.append_nil, hi, hy] at hj
      rcases List.mem_append.1 hj with hj | hj
      · exact List.mem_append.2 (Or.inr hj)
      · simp only [List.mem_singleton] at hj
        subst hj
        rw [hrd] at hjr
        cases hjr

theorem CseRel.exec (R : CseRel C F F' entry order idom fuel A PZ st s₀) {void : Bool} {b : Nat} {s : SrcBlock.St} {r : Option IrM.Word} {m : IrM.Mem}
    (hx : Exec C F void b s r m) : ∀ l t, CGraph.Path (succs F) entry (l ++ [b]) b → b ∈ order → b ≠ F.fnExit → CCse.At C F entry s₀ b [] s →
      KnownX (Dead order A) st (traceF F.insns l) s → Sim (Dead order A) s t → Exec (withConsts C st.initVal) F' void b t r m := by
  induction hx with
  | @next b c s s' r m hr hn hne hx ih =>
    intro l t hp hb hbe hat hk hsim
    obtain ⟨⟨t', h1, h2⟩, h3, h4⟩ := R.whole hp hb hat hk hsim hr
    have hc : c ∈ succs F b := by simp [succs, hbe, hn]
    exact .next h1 (by rw [R.block]; exact hn) (by rw [R.exit]; exact hne)
      (ih (l ++ [b]) t' (Cfg.Path.snoc hp hc) (R.input.closed b hb c hc) hne (.next h4 hn hne) h3 h2)
  | @branch b is br a s s' r m hi ho ha hr hn hne hx ih =>
    intro l t hp hb hbe hat hk hsim
    obtain ⟨xs', ys', t', e1, e2, e3, e4, e5, e6, e7⟩ := R.part hp hb (ys := []) hi (by rw [ho]; simp) (by rw [ho]; simp) (by rw [ho]; simp) hat hk hsim hr
    rw [e2 rfl] at e1
    have hc := succs_ite (p := SrcBlock.rd C s' a ≠ 0#32) hbe hn
    have hkn := e7 (R.input.branch br (List.mem_flatMap.2 ⟨b, hb, by rw [hi]; simp⟩) ho) rfl
    have hrd : SrcBlock.rd (withConsts C st.initVal) t' a = SrcBlock.rd C s' a := e4.rd (C := C) (e5 a (Or.inl ha))
    exact .branch e1 ho ha e3 (by rw [R.block]; exact hn) (by rw [R.block, R.exit, hrd]; exact hne)
      (by rw [R.block, hrd]; exact ih (l ++ [b]) t' (Cfg.Path.snoc hp hc) (R.input.closed b hb _ hc) hne (.branch e6 hi ho ha hn hne) hkn e4)
  | @ret b is re a s s' hi ho ha hr =>
    intro l t hp hb hbe hat hk hsim
    obtain ⟨xs', ys', t', e1, e2, e3, e4, e5, e6, e7⟩ := R.part hp hb (ys := []) hi (by rw [ho]; simp) (by rw [ho]; simp) (by rw [ho]; simp) hat hk hsim hr
    rw [e2 rfl] at e1
    have := Exec.ret (C := withConsts C st.initVal) (void := void) e1 ho ha e3
    rw [show SrcBlock.rd (withConsts C st.initVal) t' a = SrcBlock.rd C s' a from e4.rd (C := C) (e5 a (Or.inl ha)), e4.mem] at this
    exact this
  | @retVoid b is re s s' hi ho ha hr =>
    intro l t hp hb hbe hat hk hsim
    obtain ⟨xs', ys', t', e1, e2, e3, e4, e5, e6, e7⟩ := R.part hp hb (ys := []) hi (by rw [ho]; simp) (by rw [ho]; simp) (by rw [ho]; simp) hat hk hsim hr
    rw [e2 rfl] at e1
    have := Exec.retVoid (C := withConsts C st.initVal) (void := void) e1 ho ha e3
    rw [e4.mem] at this
    exact this
  | @fall b s s' hr hn hv =>
    intro l t hp hb hbe hat hk hsim
    obtain ⟨⟨t', h1, h2⟩, h3, h4⟩ := R.whole hp hb hat hk hsim hr
    have := Exec.fall (C := withConsts C st.initVal) (F := F') (void := void) h1 (by rw [R.block, R.exit]; exact hn) hv
    rw [h2.mem] at this
    exact this

theorem CseRel.reach (R : CseRel C F F' entry order idom fuel A PZ st s₀) {T : String → List IrM.Word → IrM.Mem → Prop} {b : Nat} {s : SrcBlock.St}
    (hx : RaFn.Reach C F T b s) : ∀ l t, CGraph.Path (succs F) entry (l ++ [b]) b → b ∈ order → b ≠ F.fnExit → CCse.At C F entry s₀ b [] s →
      KnownX (Dead order A) st (traceF F.insns l) s → Sim (Dead order A) s t → RaFn.Reach (withConsts C st.initVal) F' T b t := by
  induction hx with
  | @next b c s s' hr hn hne hx ih =>
    intro l t hp hb hbe hat hk hsim
    obtain ⟨⟨t', h1, h2⟩, h3, h4⟩ := R.whole hp hb hat hk hsim hr
    have hc : c ∈ succs F b := by simp [succs, hbe, hn]
    exact .next h1 (by rw [R.block]; exact hn) (by rw [R.exit]; exact hne)
      (ih (l ++ [b]) t' (Cfg.Path.snoc hp hc) (R.input.closed b hb c hc) hne (.next h4 hn hne) h3 h2)
  | @branch b is br a s s' hi ho ha hr hn hne hx ih =>
    intro l t hp hb hbe hat hk hsim
    obtain ⟨xs', ys', t', e1, e2, e3, e4, e5, e6, e7⟩ := R.part hp hb (ys := []) hi (by rw [ho]; simp) (by rw [ho]; simp) (by rw [ho]; simp) hat hk hsim hr
    rw [e2 rfl] at e1
    have hc := succs_ite (p := SrcBlock.rd C s' a ≠ 0#32) hbe hn
    have hkn := e7 (R.input.branch br (List.mem_flatMap.2 ⟨b, hb, by rw [hi]; simp⟩) ho) rfl
    have hrd : SrcBlock.rd (withConsts C st.initVal) t' a = SrcBlock.rd C s' a := e4.rd (C := C) (e5 a (Or.inl ha))
    exact .branch e1 ho ha e3 (by rw [R.block]; exact hn) (by rw [R.block, R.exit, hrd]; exact hne)
      (by rw [R.block, hrd]; exact ih (l ++ [b]) t' (Cfg.Path.snoc hp hc) (R.input.closed b hb _ hc) hne (.branch e6 hi ho ha hn hne) hkn e4)
  | @call b xs c ys s s' hi ho hr ht =>
    intro l t hp hb hbe hat hk hsim
    obtain ⟨xs', ys', t', e1, e2, e3, e4, e5, e6, e7⟩ := R.part hp hb hi (by rw [ho]; simp) (by rw [ho]; simp) (by rw [ho]; simp) hat hk hsim hr
    exact .call e1 ho e3 (by rw [e4.args, e4.mem]; exact ht)

/-- **C98**. After constant folding and common subexpression elimination, done together as `optimize` does them, a function returns the same value
and leaves the same memory, and it makes every call it made before, in the same memory and with the same arguments: for every meaning of calls,
every initial state and every number of iterations of its loops. (partial: provided a repeated `p[i]` would read what the first one read,
`Unchanged`; see `C54_store_between_wrong`, `C54_other_read_wrong` for functions in which it does not; provided the pass itself does not divide by
zero, `C50_dead_division_crashes`; addresses of locals other than arrays and structures are not taken, `C50_address_taken_wrong`.) -/
theorem C98_optimize_partial (C : Ctx) (F F' : RegAlloc.Fn) (entry : Nat) (order : List Nat) (idom : Nat → Nat) (fuel : Nat)
    (cur' : Nat → List Insn) (st st' : CF) (I : CFold.Input F C.isGlobal entry order) (he : entry ≠ F.fnExit)
    (hroot : idom entry = entry) (hidom : ∀ c, CGraph.Reach (succs F) entry c → c ≠ entry → CGraph.IsIdom (succs F) entry (idom c) c)
    (h0 : ∀ v, st.isConst v = false) (hv : st.initVal = C.initVal)
    (hopt : optFn C.isGlobal idom fuel order F.insns st = .ok (cur', st'))
    (hins : ∀ b ∈ order, F'.insns b = cur' b) (hblock : F'.block = F.block) (hexit : F'.fnExit = F.fnExit)
    (s : SrcBlock.St) (U : Unchanged C F entry s) :
    (∀ void r m, Exec C F void entry s r m → Exec { C with initVal := st'.initVal } F' void entry s r m) ∧
    ∀ T, RaFn.Reach C F T entry s → RaFn.Reach { C with initVal := st'.initVal } F' T entry s := by
  obtain ⟨A, PZ, H, hP, hsrc⟩ := optFn_al (cv0 := C.initVal) I.ssa U.same I.nodup h0 hv hopt
  have R : CseRel C F F' entry order idom fuel A PZ st' s :=
    ⟨fun b hb => by rw [hins b hb]; exact H.al b, hP, hsrc, H.fi, I, hroot, hidom, U, hblock, hexit⟩
  have hk : KnownX (Dead order A) st' (traceF F.insns []) s := by
    rintro v _ _ ⟨i, hi, _⟩
    cases hi
  have hsim : Sim (Dead order A) s s := ⟨rfl, rfl, rfl, fun _ _ => rfl⟩
  exact ⟨fun void r m hx => R.exec hx [] s (.nil _) I.start he .start hk hsim, fun T hx => R.reach hx [] s (.nil _) I.start he .start hk hsim⟩

end

/-! ### No store in between -/

/-- Instructions executed along a path; branches change nothing. -/
inductive Steps (C : Ctx) : List Insn → SrcBlock.St → SrcBlock.St → Prop
  | nil (s) : Steps C [] s s
  | step {i is s t u} (h : SrcBlock.Step C i s t) (hr : Steps C is t u) : Steps C (i :: is) s u
  | branch {i is s u} (h : i.op = .branch) (hr : Steps C is s u) : Steps C (i :: is) s u

theorem Steps.append {C : Ctx} {xs ys : List Insn} {s t u : SrcBlock.St} (h : Steps C xs s t) (h' : Steps C ys t u) : Steps C (xs ++ ys) s u := by
  induction h with
  | nil => exact h'
  | step h _ ih => exact .step h (ih h')
  | branch h _ ih => exact .branch h (ih h')

theorem Steps.split {C : Ctx} {xs ys : List Insn} {s u : SrcBlock.St} (h : Steps C (xs ++ ys) s u) : ∃ t, Steps C xs s t ∧ Steps C ys t u := by
  induction xs generalizing s with
  | nil => exact ⟨s, .nil _, h⟩
  | cons x xs ih =>
    cases h with
    | step h hr =>
      obtain ⟨t, h1, h2⟩ := ih hr
      exact ⟨t, .step h h1, h2⟩
    | branch h hr =>
      obtain ⟨t, h1, h2⟩ := ih hr
      exact ⟨t, .branch h h1, h2⟩

theorem at_steps {C : Ctx} {F : RegAlloc.Fn} {entry : Nat} {s₀ : SrcBlock.St} (he : entry ≠ F.fnExit) {b : Nat} {xs : List Insn} {s : SrcBlock.St}
    (h : CCse.At C F entry s₀ b xs s) : b ≠ F.fnExit ∧ ∃ l, CGraph.Path (succs F) entry (l ++ [b]) b ∧ Steps C (traceF F.insns l ++ xs) s₀ s := by
  induction h with
  | start => exact ⟨he, [], .nil _, .nil _⟩
  | @step b xs i ys s s' _ hi hs ih =>
    obtain ⟨hb, l, hp, hr⟩ := ih
    refine ⟨hb, l, hp, ?_⟩
    rw [← List.append_assoc]
    exact hr.append (.step hs (.nil _))
  | @next b n s _ hn hne ih =>
    obtain ⟨hb, l, hp, hr⟩ := ih
    refine ⟨hne, l ++ [b], Cfg.Path.snoc hp (by simp [succs, hb, hn]), ?_⟩
    unfold traceF at *
    simpa using hr
  | @branch b is br a s _ hi ho ha hn hne ih =>
    obtain ⟨hb, l, hp, hr⟩ := ih
    refine ⟨hne, l ++ [b], Cfg.Path.snoc hp (succs_ite hb hn), ?_⟩
    have := hr.append (ys := [br]) (.branch ho (.nil s))
    unfold traceF at *
    simpa [hi] using this

theorem Harmless.step {C : Ctx} {vs : List Nat} {w : Insn} (h : Harmless C.isGlobal vs w) {s s' : SrcBlock.St} (hs : SrcBlock.Step C w s s') :
    s'.mem = s.mem ∧ ∀ v ∈ vs, s'.val v = s.val v := by
  refine ⟨?_, fun v hv => Step.other hs fun hr => (h.2.2 v hr).2 hv⟩
  have hw : ∀ {d x}, w.rd = some d → (wr C s d x).mem = s.mem := by
    intro d x hd
    unfold SrcBlock.wr
    rw [(h.2.2 d hd).1]
    rfl
  obtain ⟨h1, h2, _⟩ := h
  cases hs <;> first | rfl | exact hw (by assumption) | exact absurd (by assumption) h1 | exact absurd (by assumption) h2

theorem Harmless.steps {C : Ctx} {vs : List Nat} {ws : List Insn} {s s' : SrcBlock.St} (h : ∀ w ∈ ws, Harmless C.isGlobal vs w) (hs : Steps C ws s s') :
    s'.mem = s.mem ∧ ∀ v ∈ vs, s'.val v = s.val v := by
  induction hs with
  | nil => exact ⟨rfl, fun _ _ => rfl⟩
  | step hs _ ih =>
    obtain ⟨h1, h2⟩ := Harmless.step (h _ (by simp)) hs
    obtain ⟨h3, h4⟩ := ih fun w hw => h w (by simp [hw])
    exact ⟨h3.trans h1, fun v hv => (h4 v hv).trans (h2 v hv)⟩
  | branch _ _ ih => exact ih fun w hw => h w (by simp [hw])

/-- What an addition and the read from the sum give. -/
theorem sum_read {C : Ctx} {i n : Insn} {base idx t d : Nat} {s s1 s2 : SrcBlock.St} (ho : i.op = .alu .add) (h1 : i.rs1 = some base)
    (h2 : i.rs2 = some idx) (ht : i.rd = some t) (hr : n.op = .read) (hf : n.rs1 = some t) (hd : n.rd = some d)
    (lb : C.isGlobal base = false) (li : C.isGlobal idx = false) (lt : C.isGlobal t = false)
    (hs : SrcBlock.Step C i s s1) (hs' : SrcBlock.Step C n s1 s2) : s1.mem = s.mem ∧
    s2 = wr C s1 d (if n.sz = 4 then IrM.load32 s.mem (s.val base + s.val idx) else C.byteVal (s.mem (s.val base + s.val idx))) := by
  have e1 : s1 = wr C s t (s.val base + s.val idx) := by
    cases hs with
    | bin ho' hop hd' ha hb hv =>
      rw [ho] at ho'; cases ho'
      rw [h1] at ha; cases ha
      rw [h2] at hb; cases hb
      rw [ht] at hd'; cases hd'
      cases hop
      unfold SrcBlock.rd at hv
      rw [lb, li] at hv
      cases hv
      rfl
    | un ho' hop _ _ => rw [ho] at ho'; cases ho'; cases hop
    | _ => simp_all
  have hm : s1.mem = s.mem := by
    rw [e1]
    unfold SrcBlock.wr
    rw [lt]
    rfl
  have hv : SrcBlock.rd C s1 t = s.val base + s.val idx := by
    rw [e1]
    unfold SrcBlock.rd SrcBlock.wr
    simp [lt]
  refine ⟨hm, ?_⟩
  cases hs' with
  | read4 _ hsz hd' ha _ =>
    rw [hf] at ha; cases ha
    rw [hd] at hd'; cases hd'
    rw [if_pos hsz, hv, hm]
  | read1 _ hsz hd' ha _ =>
    rw [hf] at ha; cases ha
    rw [hd] at hd'; cases hd'
    rw [if_neg (by omega), hv, hm]
  | _ => simp_all

/-- C98. If nothing is stored between a first `p[i]` and a repeated one, and repeated reads have the usual shape, the value is unchanged in every
execution, so `C98_optimize_partial` applies. -/
theorem C98_no_store (C : Ctx) (F : RegAlloc.Fn) (entry : Nat) (he : entry ≠ F.fnExit)
    (same : ∀ b pre i n base idx d, First F C.isGlobal b pre i n base idx d → ∀ c pre' i' n', SumRead F c pre' i' n' base idx →
      (c, pre'.length) ≠ (b, pre.length) → ∃ t r, CCse.Same F C.isGlobal n d c pre' i' n' t r)
    (h : NoStore F C.isGlobal entry) (s₀ : SrcBlock.St) : Unchanged C F entry s₀ := by
  refine ⟨same, ?_⟩
  intro b pre i n base idx d hF c pre' i' n' hS haft s s1 s2 r hat hst hst' hr
  obtain ⟨t, r', hsm⟩ := same b pre i n base idx d hF c pre' i' n' hS (by
    rcases haft with ⟨rfl, h⟩ | ⟨h, _⟩
    · intro hh; have := congrArg Prod.snd hh; simp only at this; omega
    · intro hh; exact h (congrArg Prod.fst hh))
  obtain ⟨_, l, hp, hrun⟩ := at_steps he hat
  obtain ⟨us, ws, htr, hi, hdb, hdi, hws⟩ := h b pre i n base idx d hF c pre' i' n' hS haft l hp
  rw [htr] at hrun
  obtain ⟨sa, _, hrun⟩ := hrun.split
  cases hrun with
  | branch h => have := hF.here.add; rw [h] at this; cases this
  | @step _ _ _ sb _ ha hrun =>
  cases hrun with
  | branch h => have := hF.here.read; rw [h] at this; cases this
  | @step _ _ _ sc _ hb hrun =>
  obtain ⟨k1, k2⟩ := Harmless.step hi ha
  obtain ⟨k3, k4⟩ := Harmless.steps hws hrun
  have hn1 : ∃ v, i.rd = some v := by
    have hop := hF.here.add
    cases ha with
    | bin _ _ hd => exact ⟨_, hd⟩
    | un _ _ hd => exact ⟨_, hd⟩
    | _ => simp_all
  obtain ⟨v, hv⟩ := hn1
  obtain ⟨_, q⟩ := sum_read hF.here.add hF.here.base hF.here.idx hv hF.here.read (hF.from_.trans hv) hF.into hF.lbase hF.lidx (hi.2.2 v hv).1 ha hb
  have q1 : sc.mem = sa.mem := by
    rw [q]
    unfold SrcBlock.wr
    rw [hsm.ld]
    exact k1
  have q2 : sc.val d = if n.sz = 4 then IrM.load32 sa.mem (sa.val base + sa.val idx) else C.byteVal (sa.mem (sa.val base + sa.val idx)) := by
    rw [q]
    unfold SrcBlock.wr
    rw [hsm.ld]
    simp
  have q3 : sc.val base = sa.val base := by
    rw [q, wr_other (Ne.symm hdb)]
    exact k2 base (by simp)
  have q4 : sc.val idx = sa.val idx := by
    rw [q, wr_other (Ne.symm hdi)]
    exact k2 idx (by simp)
  obtain ⟨_, w⟩ := sum_read hS.add hS.base hS.idx hsm.sum hS.read hsm.from_ hr hF.lbase hF.lidx hsm.lsum hst hst'
  rw [w, k4 d (by simp), k4 base (by simp), k4 idx (by simp), k3, q1, q2, q3, q4, hsm.size]

end Shecc.Props
