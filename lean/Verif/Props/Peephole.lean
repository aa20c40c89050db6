import Verif.Model.Peephole
import Verif.Spec.Segment
import Verif.Spec.RvAbi
import Verif.Spec.ArmAbi

/-!
# C22: peephole fusion
-/

namespace IrM
open Shecc

theorem isReg_inj {x : Word} {a b : BitVec 3} (h : isReg x a) (k : isReg x b) : a = b := by
  unfold isReg at h k
  rw [h] at k
  have := congrArg BitVec.toNat k
  simp at this
  exact BitVec.eq_of_toNat_eq (by omega)

theorem SameBut.trans {D : BitVec 3 → Prop} {s t u : State} (h : SameBut D s t) (k : SameBut D t u) : SameBut D s u := by
  obtain ⟨a1, a2, a3, a4, a5, a6⟩ := h
  obtain ⟨b1, b2, b3, b4, b5, b6⟩ := k
  refine ⟨fun q hq => (a1 q hq).trans (b1 q hq), a2.trans b2, a3.trans b3, a4.trans b4, a5.trans b5, ?_⟩
  rcases a6 with a6 | a6
  · exact .inl a6
  · rcases b6 with b6 | b6
    · exact .inl (a6.trans b6)
    · exact .inr (a6.trans b6)

theorem SameBut.rfl' {D : BitVec 3 → Prop} {s : State} : SameBut D s s :=
  ⟨fun _ _ => rfl, rfl, rfl, rfl, rfl, .inr rfl⟩

theorem SameBut.mono {D E : BitVec 3 → Prop} {s t : State} (h : SameBut D s t) (hd : ∀ q, D q → E q) : SameBut E s t :=
  ⟨fun q hq => h.1 q (fun k => hq (hd q k)), h.2⟩

theorem SameEvents.trans {live : Ph2Ir → BitVec 3 → Prop} : ∀ {a b c : List Event},
    SameEvents live a b → SameEvents live b c → SameEvents live a c
  | [], [], [], _, _ => trivial
  | e :: es, f :: fs, g :: gs, h, k => by
    obtain ⟨h1, h2, h3, h4⟩ := h
    obtain ⟨k1, k2, k3, k4⟩ := k
    refine ⟨h1.trans k1, SameBut.trans h2 (h1 ▸ k2), h3.trans k3, SameEvents.trans h4 k4⟩
  | [], [], _ :: _, _, k => k.elim
  | [], _ :: _, _, h, _ => h.elim
  | _ :: _, [], _, h, _ => h.elim
  | _ :: _, _ :: _, [], _, k => k.elim

theorem SameEvents.rfl' {live : Ph2Ir → BitVec 3 → Prop} : ∀ {a : List Event}, SameEvents live a a
  | [] => trivial
  | _ :: _ => ⟨rfl, SameBut.rfl', rfl, SameEvents.rfl'⟩

theorem Simulates.trans {A : Abi} {live out is s is' s' is'' s''} (h : Simulates A live out is s is' s')
    (k : Simulates A live out is' s' is'' s'') : Simulates A live out is s is'' s'' := by
  intro es u he
  obtain ⟨es', u', h1, h2, h3⟩ := h es u he
  obtain ⟨es'', u'', k1, k2, k3⟩ := k es' u' h1
  exact ⟨es'', u'', k1, h2.trans k2, h3.trans k3⟩

theorem sameBut_setReg {D : BitVec 3 → Prop} {s s' : State} (h : SameBut D s s') (d : BitVec 3) (v : Word) (m m' : Mem)
    (hm : m = m') (p p' : Word) :
    SameBut (fun q => D q ∧ q ≠ d) { setReg s d v with callee := none, mem := m, pc := p }
      { setReg s' d v with callee := none, mem := m', pc := p' } := by
  obtain ⟨a1, a2, a3, a4, a5, a6⟩ := h
  refine ⟨?_, a2, a3, a4, hm, .inl rfl⟩
  intro q hq
  simp only [setReg]
  split
  · rfl
  · exact a1 q (fun k => hq ⟨k, by assumption⟩)

theorem sameBut_mem {D : BitVec 3 → Prop} {s s' : State} (h : SameBut D s s') (m m' : Mem)
    (hm : m = m') (p p' : Word) (c : Option Word) :
    SameBut D { s with callee := c, mem := m, pc := p } { s' with callee := c, mem := m', pc := p' } := by
  obtain ⟨a1, a2, a3, a4, a5, a6⟩ := h
  exact ⟨a1, a2, a3, a4, hm, .inr rfl⟩

/-- A step depends only on the registers it reads. -/
theorem step_frame {A : Abi} (hA : A.DivLocal) {D : BitVec 3 → Prop} {ir : Ph2Ir} {n : Word} {s s' t : State}
    (hp : Plain ir) (h : Step A ir n s t) (hr : ∀ q, Reads ir q → ¬ D q) (hs : SameBut D s s') :
    ∃ t', Step A ir n s' t' ∧ SameBut (fun q => D q ∧ ¬ Writes ir q) t t' := by
  have hs' := hs
  obtain ⟨a1, a2, a3, a4, a5, a6⟩ := hs'
  have w : ∀ {d : BitVec 3}, isReg ir.dest d → (ir.op ≠ .store ∧ ir.op ≠ .global_store ∧ ir.op ≠ .write ∧
      ir.op ≠ .address_of_func ∧ ir.op ≠ .load_func) → ∀ q, (D q ∧ q ≠ d) → (D q ∧ ¬ Writes ir q) := by
    intro d hd ho q hq
    refine ⟨hq.1, fun hw => ?_⟩
    unfold Writes at hw
    split at hw
    all_goals first
      | exact hw
      | exact hq.2 (isReg_inj hw hd)
  have w0 : Writes ir = (fun _ => False) → ∀ q, D q → (D q ∧ ¬ Writes ir q) := by
    intro e q hq
    rw [e]; exact ⟨hq, fun h => h⟩
  have r0 : ∀ {a : BitVec 3}, isReg ir.src0 a → Reads ir a → s.reg a = s'.reg a := fun _ h => a1 _ (hr _ h)
  cases h with
  | @bin op d a b v hop hd ha hb hv hdm =>
    have ho : ∀ q, isReg ir.src0 q ∨ isReg ir.src1 q → Reads ir q := by
      intro q hq
      unfold Reads
      split <;> simp_all [binOf]
    have ea := a1 a (hr a (ho a (.inl ha)))
    have eb := a1 b (hr b (ho b (.inr hb)))
    obtain ⟨d1, d2⟩ := hA s s' a b ea eb a2 a5
    refine ⟨_, Step.bin hop hd ha hb (by rw [← ea, ← eb]; exact hv) (fun o k => d2 o (hdm o k)),
      SameBut.mono (sameBut_setReg hs d v _ _ ?_ n n) (w hd ?_)⟩
    · rw [d1, a5]
    · refine ⟨?_, ?_, ?_, ?_, ?_⟩ <;> (intro e; rw [e] at hop; cases hop)
  | @un op d a hop hd ha =>
    have ea : s.reg a = s'.reg a := a1 a (hr a (by unfold Reads; split <;> simp_all [unOf]))
    refine ⟨_, Step.un hop hd ha, ?_⟩
    rw [← ea]
    refine SameBut.mono (sameBut_setReg hs d _ _ _ a5 n n) (w hd ?_)
    refine ⟨?_, ?_, ?_, ?_, ?_⟩ <;> (intro e; rw [e] at hop; cases hop)
  | @assign d a hop hd ha =>
    have ea : s.reg a = s'.reg a := a1 a (hr a (by simp [Reads, hop, ha]))
    refine ⟨_, Step.assign hop hd ha, ?_⟩
    rw [← ea]
    exact SameBut.mono (sameBut_setReg hs d _ _ _ a5 n n) (w hd (by simp [hop]))
  | @const d hop hd =>
    exact ⟨_, Step.const hop hd, SameBut.mono (sameBut_setReg hs d _ _ _ a5 n n) (w hd (by simp [hop]))⟩
  | @data d hop hd =>
    exact ⟨_, Step.data hop hd, SameBut.mono (sameBut_setReg hs d _ _ _ a5 n n) (w hd (by simp [hop]))⟩
  | @addr d hop hd =>
    refine ⟨_, Step.addr hop hd, ?_⟩
    rw [← a2]
    exact SameBut.mono (sameBut_setReg hs d _ _ _ a5 n n) (w hd (by simp [hop]))
  | @gaddr d hop hd =>
    refine ⟨_, Step.gaddr hop hd, ?_⟩
    rw [← a3]
    exact SameBut.mono (sameBut_setReg hs d _ _ _ a5 n n) (w hd (by simp [hop]))
  | @load d hop hd =>
    refine ⟨_, Step.load hop hd, ?_⟩
    rw [← a2, ← a5]
    exact SameBut.mono (sameBut_setReg hs d _ _ _ a5 n n) (w hd (by simp [hop]))
  | @gload d hop hd =>
    refine ⟨_, Step.gload hop hd, ?_⟩
    rw [← a3, ← a5]
    exact SameBut.mono (sameBut_setReg hs d _ _ _ a5 n n) (w hd (by simp [hop]))
  | @store a hop ha =>
    have ea : s.reg a = s'.reg a := a1 a (hr a (by simp [Reads, hop, ha]))
    refine ⟨_, Step.store hop ha, ?_⟩
    refine SameBut.mono (sameBut_mem hs _ _ ?_ n n none) (w0 (by unfold Writes; rw [hop]))
    rw [a2, a5, ea]
  | @gstore a hop ha =>
    have ea : s.reg a = s'.reg a := a1 a (hr a (by simp [Reads, hop, ha]))
    refine ⟨_, Step.gstore hop ha, ?_⟩
    refine SameBut.mono (sameBut_mem hs _ _ ?_ n n none) (w0 (by unfold Writes; rw [hop]))
    rw [a3, a5, ea]
  | @read4 d a hop hz hd ha =>
    have ea : s.reg a = s'.reg a := a1 a (hr a (by simp [Reads, hop, ha]))
    refine ⟨_, Step.read4 hop hz hd ha, ?_⟩
    rw [← ea, ← a5]
    exact SameBut.mono (sameBut_setReg hs d _ _ _ a5 n n) (w hd (by simp [hop]))
  | @read1 d a hop hz hd ha =>
    have ea : s.reg a = s'.reg a := a1 a (hr a (by simp [Reads, hop, ha]))
    refine ⟨_, Step.read1 hop hz hd ha, ?_⟩
    rw [← ea, ← a5]
    exact SameBut.mono (sameBut_setReg hs d _ _ _ a5 n n) (w hd (by simp [hop]))
  | @write4 a b hop hz ha hb =>
    have ea : s.reg a = s'.reg a := a1 a (hr a (by simp [Reads, hop, ha]))
    have eb : s.reg b = s'.reg b := a1 b (hr b (by simp [Reads, hop, hb]))
    refine ⟨_, Step.write4 hop hz ha hb, ?_⟩
    refine SameBut.mono (sameBut_mem hs _ _ ?_ n n none) (w0 (by unfold Writes; rw [hop]))
    rw [a5, ea, eb]
  | @write1 a b hop hz ha hb =>
    have ea : s.reg a = s'.reg a := a1 a (hr a (by simp [Reads, hop, ha]))
    have eb : s.reg b = s'.reg b := a1 b (hr b (by simp [Reads, hop, hb]))
    refine ⟨_, Step.write1 hop hz ha hb, ?_⟩
    refine SameBut.mono (sameBut_mem hs _ _ ?_ n n none) (w0 (by unfold Writes; rw [hop]))
    rw [a5, ea, eb]
  | @addrFunc a tt hop ht ha =>
    have ea : s.reg a = s'.reg a := a1 a (hr a (by simp [Reads, hop, ha]))
    refine ⟨_, Step.addrFunc hop ht ha, ?_⟩
    refine SameBut.mono (sameBut_mem hs _ _ ?_ n n none) (w0 (by unfold Writes; rw [hop]))
    rw [a5, ea]
  | @loadFunc a hop ha =>
    have ea : s.reg a = s'.reg a := a1 a (hr a (by simp [Reads, hop, ha]))
    refine ⟨_, Step.loadFunc hop ha, ?_⟩
    rw [ea]
    exact SameBut.mono (sameBut_mem hs _ _ a5 n n _) (w0 (by unfold Writes; rw [hop]))
  | branch hop => exact absurd hp (by simp [Plain, hop])
  | jump hop => exact absurd hp (by simp [Plain, hop])
  | call hop => exact absurd hp (by simp [Plain, hop])
  | indirect hop => exact absurd hp (by simp [Plain, hop])
  | define hop => exact absurd hp (by simp [Plain, hop])
  | ret hop => exact absurd hp (by simp [Plain, hop])

/-- Runs from states that differ only in what does not matter. -/
theorem exec_frame {A : Abi} (hA : A.DivLocal) (live : Ph2Ir → BitVec 3 → Prop) (out : BitVec 3 → Prop)
    {is : List Ph2Ir} {s s' : State} (hs : SameBut (fun _ => False) s s') : Simulates A live out is s is s' := by
  intro es u h
  induction h generalizing s' with
  | nil s => exact ⟨[], s', .nil _, trivial, hs.mono (fun _ h => h.elim)⟩
  | plain nxt hp h r ih =>
    obtain ⟨t', h', e⟩ := step_frame hA hp h (fun _ _ h => h) hs
    obtain ⟨es', u', r', e1, e2⟩ := ih (e.mono (fun _ h => h.1))
    exact ⟨es', u', .plain nxt hp h' r', e1, e2⟩
  | @ctrl ir is s t es u hp r ih =>
    obtain ⟨es', u', r', e1, e2⟩ := ih SameBut.rfl'
    exact ⟨⟨ir, s', t⟩ :: es', u', .ctrl hp r', ⟨rfl, hs.mono (fun _ h => h.elim), rfl, e1⟩, e2⟩

/-- A register is dead before an instruction that does not read it and after which it is dead, ... -/
theorem dead_skip {A : Abi} (hA : A.DivLocal) {live out} {ir : Ph2Ir} {is : List Ph2Ir} {r : BitVec 3}
    (hp : Plain ir) (hr : ¬ Reads ir r) (h : DeadBefore A live out r is) : DeadBefore A live out r (ir :: is) := by
  intro s s' hs es u he
  cases he with
  | ctrl hp' _ => exact absurd hp hp'
  | plain nxt _ st rest =>
    obtain ⟨t', st', e⟩ := step_frame (D := fun q => q = r) hA hp st (fun q hq hqr => hr (hqr ▸ hq)) hs
    obtain ⟨es', u', r', e1, e2⟩ := h _ t' (e.mono (fun _ h => h.1)) _ _ rest
    exact ⟨es', u', .plain nxt hp st' r', e1, e2⟩

/-- ... or that overwrites it without reading it, ... -/
theorem dead_write {A : Abi} (hA : A.DivLocal) {live out} {ir : Ph2Ir} {is : List Ph2Ir} {r : BitVec 3}
    (hp : Plain ir) (hr : ¬ Reads ir r) (hw : Writes ir r) : DeadBefore A live out r (ir :: is) := by
  intro s s' hs es u he
  cases he with
  | ctrl hp' _ => exact absurd hp hp'
  | plain nxt _ st rest =>
    obtain ⟨t', st', e⟩ := step_frame (D := fun q => q = r) hA hp st (fun q hq hqr => hr (hqr ▸ hq)) hs
    obtain ⟨es', u', r', e1, e2⟩ := exec_frame hA live out (e.mono (fun q h => h.2 (h.1 ▸ hw))) _ _ rest
    exact ⟨es', u', .plain nxt hp st' r', e1, e2⟩

/-- ... or before a control transfer to which it does not matter, ... -/
theorem dead_ctrl {A : Abi} {live out} {ir : Ph2Ir} {is : List Ph2Ir} {r : BitVec 3}
    (hp : ¬ Plain ir) (hl : ¬ live ir r) : DeadBefore A live out r (ir :: is) := by
  intro s s' hs es u he
  cases he with
  | plain nxt hp' _ _ => exact absurd hp' hp
  | @ctrl _ _ _ t es _ _ rest =>
    exact ⟨⟨ir, s', t⟩ :: es, u, .ctrl hp rest, ⟨rfl, hs.mono (fun q h => h ▸ hl), rfl, SameEvents.rfl'⟩, SameBut.rfl'⟩

/-- ... or at the end of the block, if it does not matter there. -/
theorem dead_end {A : Abi} {live out} {r : BitVec 3} (ho : ¬ out r) : DeadBefore A live out r [] := by
  intro s s' hs es u he
  cases he
  exact ⟨[], s', .nil _, trivial, hs.mono (fun q h => h ▸ ho)⟩

end IrM

namespace Shecc.Props
open Shecc IrM

/-- C22: if the pass replaces the adjacent instructions `a`, `b` by `c`, then whatever `a; b` compute from any state,
`c` computes too, except that the intermediate register (the destination of `a`) is no longer written.  Missing: pairs in
which both operands of `b` are that intermediate register, for which the claim is false. -/
theorem C22_fusion_partial (A : Abi) (a b c : Ph2Ir) (hf : Peep.fuse a b = some c)
    (hne : a.op = .load_constant → b.src0 ≠ b.src1) (n₁ n₂ : Word) (s t u : State)
    (h₁ : Step A a n₁ s t) (h₂ : Step A b n₂ t u) :
    ∃ u', Step A c n₂ s u' ∧ SameBut (fun q => isReg a.dest q ∧ ¬ isReg b.dest q) u u' := by
  unfold Peep.fuse at hf
  split at hf
  · rename_i hc
    obtain ⟨hb, hfu, hd⟩ := hc
    injection hf with hf
    subst hf
    have key : ∀ (v : Word) (d : BitVec 3) (m : Mem), isReg a.dest d → t.reg = (fun q => if q = d then v else s.reg q) →
        t.sp = s.sp → t.gp = s.gp → t.ra = s.ra → t.mem = m →
        (∀ d', isReg b.dest d' → Step A { a with dest := b.dest } n₂ s
          { setReg s d' v with callee := none, mem := m, pc := n₂ }) →
        ∃ u', Step A { a with dest := b.dest } n₂ s u' ∧ SameBut (fun q => isReg a.dest q ∧ ¬ isReg b.dest q) u u' := by
      intro v d m hd' e1 e2 e3 e4 e5 hs
      have hass : ∃ d' x, isReg b.dest d' ∧ isReg b.src0 x ∧
          u = { setReg t d' (t.reg x) with callee := none, pc := n₂ } := by
        cases h₂ with
        | assign hop hx hy => exact ⟨_, _, hx, hy, rfl⟩
        | _ => simp_all [binOf, unOf]
      obtain ⟨d', x, hx, hy, rfl⟩ := hass
      rw [← hd] at hy
      have hxd : x = d := isReg_inj hy hd'
      subst hxd
      refine ⟨_, hs d' hx, ?_, ?_⟩
      · intro q hq
        simp only [setReg, e1]
        by_cases hqd : q = d'
        · simp [hqd]
        · have : q ≠ x := by
            intro hqx; subst hqx
            exact hqd (isReg_inj (Classical.not_not.mp (fun k => hq ⟨hd', k⟩)) hx)
          simp [hqd, this]
      · simp [setReg, e2, e3, e4, e5]
    cases h₁ with
    | bin hop hd1 ha hb1 hv hdm =>
      refine key _ _ _ hd1 rfl rfl rfl rfl rfl ?_
      intro d' hd'
      exact Step.bin (ir := { a with dest := b.dest }) hop hd' ha hb1 hv hdm
    | un hop hd1 ha =>
      refine key _ _ _ hd1 rfl rfl rfl rfl rfl ?_
      intro d' hd'
      exact Step.un (ir := { a with dest := b.dest }) hop hd' ha
    | data hop hd1 =>
      refine key _ _ _ hd1 rfl rfl rfl rfl rfl ?_
      intro d' hd'
      exact Step.data (ir := { a with dest := b.dest }) hop hd'
    | load hop hd1 =>
      refine key _ _ _ hd1 rfl rfl rfl rfl rfl ?_
      intro d' hd'
      exact Step.load (ir := { a with dest := b.dest }) hop hd'
    | gload hop hd1 =>
      refine key _ _ _ hd1 rfl rfl rfl rfl rfl ?_
      intro d' hd'
      exact Step.gload (ir := { a with dest := b.dest }) hop hd'
    | assign hop => simp [Peep.isFusible, hop] at hfu
    | const hop => simp [Peep.isFusible, hop] at hfu
    | addr hop => simp [Peep.isFusible, hop] at hfu
    | gaddr hop => simp [Peep.isFusible, hop] at hfu
    | store hop => simp [Peep.isFusible, hop] at hfu
    | gstore hop => simp [Peep.isFusible, hop] at hfu
    | read4 hop => simp [Peep.isFusible, hop] at hfu
    | read1 hop => simp [Peep.isFusible, hop] at hfu
    | write4 hop => simp [Peep.isFusible, hop] at hfu
    | write1 hop => simp [Peep.isFusible, hop] at hfu
    | branch hop => simp [Peep.isFusible, hop] at hfu
    | jump hop => simp [Peep.isFusible, hop] at hfu
    | call hop => simp [Peep.isFusible, hop] at hfu
    | addrFunc hop => simp [Peep.isFusible, hop] at hfu
    | loadFunc hop => simp [Peep.isFusible, hop] at hfu
    | indirect hop => simp [Peep.isFusible, hop] at hfu
    | define hop => simp [Peep.isFusible, hop] at hfu
    | ret hop => simp [Peep.isFusible, hop] at hfu
  · -- a constant followed by an addition, subtraction or multiplication
    have hli : a.op = .load_constant := by
      revert hf; repeat' split
      all_goals simp_all
    have hne' := hne hli
    have hcst : ∃ r, isReg a.dest r ∧ t = { setReg s r a.src0 with callee := none, pc := n₁ } := by
      cases h₁ with
      | const hop hd1 => exact ⟨_, hd1, rfl⟩
      | _ => simp_all [binOf, unOf]
    obtain ⟨r, hr, rfl⟩ := hcst
    have hb : b.op = .add ∨ b.op = .sub ∨ b.op = .mul := by
      revert hf; repeat' split
      all_goals simp_all
    have hbin : ∃ op d x y v, binOf b.op = some op ∧ isReg b.dest d ∧ isReg b.src0 x ∧ isReg b.src1 y ∧
        CArith.bin op (if x = r then a.src0 else s.reg x) (if y = r then a.src0 else s.reg y) = some v ∧
        u = { setReg (setReg s r a.src0) d v with callee := none, pc := n₂ } := by
      cases h₂ with
      | bin hop hd1 ha hb1 hv hdm =>
        refine ⟨_, _, _, _, _, hop, hd1, ha, hb1, hv, ?_⟩
        rename_i op _ _ _ _
        have : divModOf op = none := by
          rcases hb with hb | hb | hb <;> rw [hb] at hop <;> cases hop <;> rfl
        rw [this]
        rfl
      | _ => rcases hb with hb | hb | hb <;> simp_all [unOf]
    obtain ⟨op, d, x, y, v, hop, hd, hx, hy, hv, rfl⟩ := hbin
    have hxy : x ≠ y := by rintro rfl; exact hne' (hx.trans hy.symm)
    have fin : ∀ w, (w = v) → Step A c n₂ s { setReg s d w with callee := none, pc := n₂ } → ∃ u', Step A c n₂ s u' ∧
        SameBut (fun q => isReg a.dest q ∧ ¬ isReg b.dest q)
          { setReg (setReg s r a.src0) d v with callee := none, pc := n₂ } u' := by
      rintro w rfl hs
      refine ⟨_, hs, ?_, rfl, rfl, rfl, rfl, .inl rfl⟩
      intro q hq
      simp only [setReg]
      by_cases hqd : q = d
      · simp [hqd]
      · have : q ≠ r := by
          intro hqx; subst hqx
          exact hqd (isReg_inj (Classical.not_not.mp (fun k => hq ⟨hr, k⟩)) hd)
        simp [hqd, this]
    have hdx : a.dest = b.src0 ↔ r = x := by
      constructor
      · intro h; exact isReg_inj hr (h ▸ hx)
      · rintro rfl; exact hr.trans hx.symm
    have hdy : a.dest = b.src1 ↔ r = y := by
      constructor
      · intro h; exact isReg_inj hr (h ▸ hy)
      · rintro rfl; exact hr.trans hy.symm
    simp only [hdx, hdy] at hf
    split at hf
    · rename_i h; injection hf with hf; subst hf; obtain ⟨_, h0, hadd, hor⟩ := h
      rw [hadd] at hop; cases hop
      simp only [CArith.bin, Option.some.injEq, h0] at hv
      rcases Classical.em (r = x) with e | e
      · refine fin (s.reg y) ?_ (Step.assign rfl hd (by simp [e, hy]))
        rw [← hv, if_pos e.symm, if_neg (by rw [e]; exact hxy.symm)]; simp
      · have e' : r = y := hor.resolve_left e
        refine fin (s.reg x) ?_ (Step.assign rfl hd (by simp [e, hx]))
        rw [← hv, if_pos e'.symm, if_neg (Ne.symm e)]; simp
    split at hf
    · rename_i h; injection hf with hf; subst hf; obtain ⟨_, h0, hsub, e⟩ := h
      rw [hsub] at hop; cases hop
      simp only [CArith.bin, Option.some.injEq, h0] at hv
      refine fin (s.reg x) ?_ (Step.assign rfl hd hx)
      rw [← hv, if_pos e.symm, if_neg (by rw [e]; exact hxy)]; simp
    split at hf
    · rename_i h; injection hf with hf; subst hf; obtain ⟨_, h0, hsub, e⟩ := h
      rw [hsub] at hop; cases hop
      simp only [CArith.bin, Option.some.injEq, h0] at hv
      refine fin (CArith.un .neg (s.reg y)) ?_ (Step.un rfl hd hy)
      rw [← hv, if_pos e.symm, if_neg (by rw [e]; exact hxy.symm)]; simp [CArith.un]
    split at hf
    · rename_i h; injection hf with hf; subst hf; obtain ⟨_, h0, hmul, hor⟩ := h
      rw [hmul] at hop; cases hop
      simp only [CArith.bin, Option.some.injEq, h0] at hv
      refine fin 0#32 ?_ (Step.const rfl hd)
      rw [← hv]
      rcases hor with e | e
      · rw [if_pos e.symm]; simp
      · rw [if_pos e.symm (c := y = r)]; simp
    split at hf
    · rename_i h; injection hf with hf; subst hf; obtain ⟨_, h0, hmul, hor⟩ := h
      rw [hmul] at hop; cases hop
      simp only [CArith.bin, Option.some.injEq, h0] at hv
      rcases Classical.em (r = x) with e | e
      · refine fin (s.reg y) ?_ (Step.assign rfl hd (by simp [e, hy]))
        rw [← hv, if_pos e.symm, if_neg (by rw [e]; exact hxy.symm)]; simp
      · have e' : r = y := hor.resolve_left e
        refine fin (s.reg x) ?_ (Step.assign rfl hd (by simp [e, hx]))
        rw [← hv, if_pos e'.symm, if_neg (Ne.symm e)]; simp
    cases hf

/-- C22 fails when both operands are the intermediate register: `li r1, 0; add r2, r1, r1` becomes `mv r2, r1`, which
leaves the stale value of `r1` in `r2`. -/
theorem C22_same_operand_wrong (A : Abi) (n₁ n₂ : Word) (s : State) (hs : s.reg 1#3 ≠ 0#32) :
    ∃ a b c t u, Peep.fuse a b = some c ∧ Step A a n₁ s t ∧ Step A b n₂ t u ∧ u.reg 2#3 = 0#32 ∧
      ∀ u', Step A c n₂ s u' → u'.reg 2#3 ≠ 0#32 := by
  refine ⟨{ op := .load_constant, src0 := 0#32, dest := 1#32 }, { op := .add, src0 := 1#32, src1 := 1#32, dest := 2#32 },
    { op := .assign, src0 := 1#32, dest := 2#32 }, _, _, by decide,
    Step.const (d := 1#3) rfl rfl, Step.bin (op := .add) (d := 2#3) (a := 1#3) (b := 1#3) rfl rfl rfl rfl rfl
      (fun o ho => (by cases ho)), rfl, ?_⟩
  intro u' hu
  have : ∃ d a, isReg 2#32 d ∧ isReg 1#32 a ∧ u'.reg = (setReg s d (s.reg a)).reg := by
    cases hu with
    | assign hop hd ha => exact ⟨_, _, hd, ha, rfl⟩
    | _ => simp_all [binOf, unOf]
  obtain ⟨d, a, hd, ha, e⟩ := this
  have h1 : d = 2#3 := isReg_inj hd rfl
  have h2 : a = 1#3 := isReg_inj ha rfl
  subst h1 h2
  rw [e]
  simpa [setReg] using hs

/-- The condition on the intermediate register is needed: after `neg r1, r2; mv r3, r1` is fused, `r1` keeps its old
value. -/
theorem C22_live_intermediate_wrong (A : Abi) (n₁ n₂ : Word) (s : State) (hs : s.reg 1#3 ≠ - s.reg 2#3) :
    ∃ a b c t u, Peep.fuse a b = some c ∧ Step A a n₁ s t ∧ Step A b n₂ t u ∧ u.reg 1#3 = - s.reg 2#3 ∧
      ∀ u', Step A c n₂ s u' → u'.reg 1#3 ≠ - s.reg 2#3 := by
  refine ⟨{ op := .negate, src0 := 2#32, dest := 1#32 }, { op := .assign, src0 := 1#32, dest := 3#32 },
    { op := .negate, src0 := 2#32, dest := 3#32 }, _, _, by decide,
    Step.un (op := .neg) (d := 1#3) (a := 2#3) rfl rfl rfl, Step.assign (d := 3#3) (a := 1#3) rfl rfl rfl, rfl, ?_⟩
  intro u' hu
  have : ∃ d v, isReg 3#32 d ∧ u'.reg = (setReg s d v).reg := by
    cases hu with
    | un hop hd ha => exact ⟨_, _, hd, rfl⟩
    | _ => simp_all [binOf, unOf]
  obtain ⟨d, v, hd, e⟩ := this
  have h1 : d = 3#3 := isReg_inj hd rfl
  subst h1
  rw [e]
  simpa [setReg] using hs

/-- Fusion can create a move of a register to itself, which the pass does not remove (the ARM back end reserves no
space for it, see `C19_arm_self_assign_wrong`). -/
theorem C22_creates_self_move :
    Peep.block [{ op := .load_constant, src0 := 0#32, dest := 1#32 },
      { op := .add, src0 := 0#32, src1 := 1#32, dest := 0#32 }] = [{ op := .assign, src0 := 0#32, dest := 0#32 }] := by
  simp [Peep.block, Peep.fuse]

theorem fuse_plain {a b c : Ph2Ir} (h : Peep.fuse a b = some c) : Plain a ∧ Plain b ∧ Plain c := by
  unfold Peep.fuse at h
  have hp : Peep.isFusible a = true → Plain a := by
    intro h; unfold Peep.isFusible at h; unfold Plain
    split at h <;> simp_all
  repeat' split at h
  all_goals first
    | (cases h; done)
    | (injection h with h; subst h; simp_all [Plain]; done)
    | skip

/-- C22 for a whole block: if at every place where two adjacent instructions could be fused the intermediate register
is dead afterwards (or overwritten by the second instruction) and is not both operands, then the block after the pass
does everything the block did: it reaches the same control transfers in states that agree on all registers that matter
there, and ends in a state that agrees on all registers that matter at the end. -/
theorem C22_block_partial (A : Abi) (hA : A.DivLocal) (live : Ph2Ir → BitVec 3 → Prop) (out : BitVec 3 → Prop) (is : List Ph2Ir)
    (hsafe : ∀ pre a b rest, is = pre ++ a :: b :: rest → (Peep.fuse a b).isSome →
      (a.op = .load_constant → b.src0 ≠ b.src1) ∧
      ∀ r, isReg a.dest r → a.dest ≠ b.dest → DeadBefore A live out r rest)
    (s : State) : Simulates A live out is s (Peep.block is) s := by
  induction is using Peep.block.induct generalizing s with
  | case1 => intro es u h; rw [Peep.block]; exact ⟨es, u, h, SameEvents.rfl', SameBut.rfl'⟩
  | case2 a => intro es u h; rw [Peep.block]; exact ⟨es, u, h, SameEvents.rfl', SameBut.rfl'⟩
  | case3 a b rest hb ih =>
    have ih := ih (fun pre a' b' rest' e => hsafe (a :: b :: pre) a' b' rest' (by rw [e]; rfl))
    rw [Peep.block, if_pos hb]
    obtain ⟨hop, hds⟩ := hb
    have hself : ∀ t, Simulates A live out (b :: rest) t (Peep.block rest) t := by
      intro t es u h
      cases h with
      | ctrl hp _ => exact absurd (by simp [Plain, hop]) hp
      | @plain _ _ _ t1 _ _ nxt _ hs r =>
        have : SameBut (fun _ => False) t1 t := by
          cases hs with
          | @assign d x hop hd hx =>
            have : d = x := isReg_inj hd (hds ▸ hx)
            subst this
            refine ⟨?_, rfl, rfl, rfl, rfl, .inl rfl⟩
            intro q _
            simp only [setReg]
            split
            · simp_all
            · rfl
          | _ => simp_all [binOf, unOf]
        exact (exec_frame hA live out this).trans (ih t) es u r
    intro es u h
    cases h with
    | plain nxt hp st r =>
      obtain ⟨es', u', r', e1, e2⟩ := hself _ _ _ r
      exact ⟨es', u', .plain nxt hp st r', e1, e2⟩
    | @ctrl _ _ _ t es _ hp r =>
      obtain ⟨es', u', r', e1, e2⟩ := hself _ _ _ r
      exact ⟨⟨a, s, t⟩ :: es', u', .ctrl hp r', ⟨rfl, SameBut.rfl', rfl, e1⟩, e2⟩
  | case4 a b rest hb c hc ih =>
    have ih := ih (fun pre a' b' rest' e => hsafe (a :: b :: pre) a' b' rest' (by rw [e]; rfl))
    obtain ⟨h1, h2⟩ := hsafe [] a b rest rfl (by rw [hc]; rfl)
    obtain ⟨pa, pb, pc⟩ := fuse_plain hc
    have e : Peep.block (a :: b :: rest) = c :: Peep.block rest := by
      rw [Peep.block, if_neg hb]
      simp only [hc]
    rw [e]
    intro es u h
    cases h with
    | ctrl hp _ => exact absurd pa hp
    | plain n₁ _ sa h =>
      cases h with
      | ctrl hp _ => exact absurd pb hp
      | @plain _ _ _ t2 _ _ n₂ _ sb r =>
        obtain ⟨t', sc, hsame⟩ := C22_fusion_partial A a b c hc h1 n₁ n₂ _ _ _ sa sb
        have hd : Simulates A live out rest t2 rest t' := by
          rcases Classical.em (∃ r, isReg a.dest r ∧ a.dest ≠ b.dest) with ⟨r, hr, hne⟩ | hno
          · exact h2 r hr hne _ _ (hsame.mono (fun q hq => isReg_inj hq.1 hr))
          · refine exec_frame hA live out (hsame.mono (fun q hq => hno ⟨q, hq.1, fun e => hq.2 (e ▸ hq.1)⟩))
        obtain ⟨es', u', r', e1, e2⟩ := hd.trans (ih t') _ _ r
        exact ⟨es', u', .plain n₂ pc sc r', e1, e2⟩
  | case5 a b rest hb hc ih =>
    have ih := ih (fun pre a' b' rest' e => hsafe (a :: pre) a' b' rest' (by rw [e]; rfl))
    have e : Peep.block (a :: b :: rest) = a :: Peep.block (b :: rest) := by
      rw [Peep.block, if_neg hb]
      simp only [hc]
    rw [e]
    intro es u h
    cases h with
    | plain nxt hp st r =>
      obtain ⟨es', u', r', e1, e2⟩ := ih _ _ _ r
      exact ⟨es', u', .plain nxt hp st r', e1, e2⟩
    | @ctrl _ _ _ t es _ hp r =>
      obtain ⟨es', u', r', e1, e2⟩ := ih _ _ _ r
      exact ⟨⟨a, s, t⟩ :: es', u', .ctrl hp r', ⟨rfl, SameBut.rfl', rfl, e1⟩, e2⟩

theorem rv_divLocal (env : EmitEnv) : (RV32.rvAbi env).DivLocal := by
  intro s t a b ha hb hsp hm
  exact ⟨hm, fun _ h => h⟩

theorem arm_divLocal (env : EmitEnv) : (ARM.armAbi env).DivLocal := by
  intro s t a b ha hb hsp hm
  simp only [ARM.armAbi]
  rw [ha, hb, hsp, hm]
  exact ⟨rfl, fun _ h => h⟩

/-- A block to which `C22_block_partial` applies and in which two pairs are fused, one move is dropped, and a call is
crossed. -/
def peepDemo : List Ph2Ir :=
  [{ op := .load_constant, src0 := 0#32, dest := 1#32 },
   { op := .sub, src0 := 1#32, src1 := 2#32, dest := 3#32 },
   { op := .assign, src0 := 3#32, dest := 0#32 },
   { op := .call, func_name := "f" },
   { op := .assign, src0 := 0#32, dest := 0#32 },
   { op := .add, src0 := 0#32, src1 := 0#32, dest := 4#32 },
   { op := .assign, src0 := 4#32, dest := 2#32 },
   { op := .ret, src0 := 2#32 }]

theorem peepDemo_result : Peep.block peepDemo =
    [{ op := .negate, src0 := 2#32, dest := 3#32 },
     { op := .assign, src0 := 3#32, dest := 0#32 },
     { op := .call, func_name := "f" },
     { op := .add, src0 := 0#32, src1 := 0#32, dest := 2#32 },
     { op := .ret, src0 := 2#32 }] := by
  simp [peepDemo, Peep.block, Peep.fuse, Peep.isFusible]

/-- Registers that matter: argument register 0 at a call, the source at a return. -/
def demoLive (ir : Ph2Ir) (q : BitVec 3) : Prop := (ir.op = .call ∧ q = 0#3) ∨ (ir.op = .ret ∧ isReg ir.src0 q)

example (env : EmitEnv) (s : State) :
    Simulates (RV32.rvAbi env) demoLive (fun _ => False) peepDemo s (Peep.block peepDemo) s := by
  refine C22_block_partial _ (rv_divLocal env) _ _ _ ?_ s
  intro pre a b rest h hf
  have reg : ∀ {x : Word} {k : BitVec 3}, x = k.setWidth 32 → ∀ r, isReg x r → r = k := fun h r hr => isReg_inj hr h
  have hd := rv_divLocal env
  match pre, h with
  | [], h =>
    simp only [peepDemo, List.nil_append, List.cons.injEq] at h
    obtain ⟨rfl, rfl, rfl⟩ := h
    refine ⟨by simp, fun r hr _ => ?_⟩
    obtain rfl := reg (k := 1#3) rfl r hr
    refine dead_skip hd (by decide) (by simp [Reads, isReg]) (dead_ctrl (by decide) (by simp [demoLive]))
  | [_], h =>
    simp only [peepDemo, List.cons_append, List.nil_append, List.cons.injEq] at h
    obtain ⟨-, rfl, rfl, rfl⟩ := h
    refine ⟨by simp, fun r hr _ => ?_⟩
    obtain rfl := reg (k := 3#3) rfl r hr
    exact dead_ctrl (by decide) (by simp [demoLive])
  | [_, _], h =>
    simp only [peepDemo, List.cons_append, List.nil_append, List.cons.injEq] at h
    obtain ⟨-, -, rfl, rfl, rfl⟩ := h
    simp [Peep.fuse, Peep.isFusible] at hf
  | [_, _, _], h =>
    simp only [peepDemo, List.cons_append, List.nil_append, List.cons.injEq] at h
    obtain ⟨-, -, -, rfl, rfl, rfl⟩ := h
    simp [Peep.fuse, Peep.isFusible] at hf
  | [_, _, _, _], h =>
    simp only [peepDemo, List.cons_append, List.nil_append, List.cons.injEq] at h
    obtain ⟨-, -, -, -, rfl, rfl, rfl⟩ := h
    simp [Peep.fuse, Peep.isFusible] at hf
  | [_, _, _, _, _], h =>
    simp only [peepDemo, List.cons_append, List.nil_append, List.cons.injEq] at h
    obtain ⟨-, -, -, -, -, rfl, rfl, rfl⟩ := h
    refine ⟨by simp, fun r hr _ => ?_⟩
    obtain rfl := reg (k := 4#3) rfl r hr
    exact dead_ctrl (by decide) (by simp [demoLive, isReg])
  | [_, _, _, _, _, _], h =>
    simp only [peepDemo, List.cons_append, List.nil_append, List.cons.injEq] at h
    obtain ⟨-, -, -, -, -, -, rfl, rfl, rfl⟩ := h
    simp [Peep.fuse, Peep.isFusible] at hf
  | _ :: _ :: _ :: _ :: _ :: _ :: _ :: pre, h =>
    have := congrArg List.length h
    simp [peepDemo] at this
    omega

end Shecc.Props
