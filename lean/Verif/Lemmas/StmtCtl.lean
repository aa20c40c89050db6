import Verif.Lemmas.StmtStmt

/-! # Translation of `if` and of loops -/

namespace Shecc.Stmt
open Shecc.Cfg
open CRename (Ins Mach Home run)
open CStmt

variable {M : Mach} {H : Home Nat}

/-- A new block after the current one. -/
theorem enter_ok {s : PS} {bb : Nat} (hr : Ready s bb) {s1 : PS} (h1 : s1 = s.create.link bb s.n .next) :
    Post [bb] s s1 ∧ Ready s1 s.n ∧ s1.n = s.n + 1 ∧ s1.code s.n = [] ∧ s1.code bb = s.code bb ∧
      ∀ F, Le s1 F → ∀ σ : S M, Go M H F ⟨bb, (s.code bb).length, σ⟩ ⟨s.n, 0, σ⟩ := by
  subst h1
  have lt := hr.lt
  have p : Post [bb] s (s.create.link bb s.n .next) := (Post.nil s).create.link (by simp; omega) (hr.opn.create.ptr _) (by simp) (fun _ => hr.opn.clean)
  refine ⟨p, ⟨p.fresh hr.fresh, by simp, ?_⟩, rfl, ?_, rfl, ?_⟩
  · exact (hr.fresh s.n (Nat.le_refl _)).2.create.link (by omega)
  · exact (hr.fresh s.n (Nat.le_refl _)).1
  · intro F hF σ
    exact hF.jump (link_next _ _ _) σ

theorem cond_ok (B : Basic M) {c : Expr} (hc : c.Plain H) {s : PS} {bb : Nat} (hr : Ready s bb) {r : PS × Option Nat × Nat}
    (h : lowerC c s (some bb) = some r) :
    ∃ s' b', r = (s', some b', c.res) ∧ EPost s bb s' b' ∧
      ∀ F, Le s' F → ∀ (σ σ' : S M) t, test M H c σ = some (σ', t) →
        Go M H F ⟨bb, (s.code bb).length, σ⟩ ⟨b', (s'.code b').length, σ'⟩ ∧ truth M H σ' c.res = t := by
  obtain ⟨s1, b1, k1, p1, e1⟩ := expr_ok B c hc.1 hc.2 s bb hr
  unfold lowerC at h
  split at h
  · cases h
  · rw [k1, Option.some.injEq] at h
    refine ⟨s1, b1, h.symm, p1, ?_⟩
    intro F hF σ σ' t ht
    simp only [test, Option.bind_eq_some_iff, Option.map_eq_some_iff, Prod.mk.injEq] at ht
    obtain ⟨q, h1, σ1, h2, rfl, rfl⟩ := ht
    rw [eval_noSe c hc.2 σ q.1 q.2 h1] at h2
    simp only [run, Option.some.injEq] at h2
    subst h2
    exact ⟨e1 F hF σ q.1 q.2 h1, rfl⟩

/-- The two ways out of a block that ends in a branch. -/
theorem branch_ok {s : PS} {b v : Nat} (hr : Ready s b) {s3 : PS}
    (h3 : s3 = (((s.emit (some b) [branchIns v]).create.create.link b s.n .then_).link b (s.n + 1) .else_)) :
    Post [b] s s3 ∧ s3.n = s.n + 2 ∧ Ready s3 s.n ∧ Ready s3 (s.n + 1) ∧ s3.code s.n = [] ∧ s3.code (s.n + 1) = [] ∧
      (s3.block s.n).prev ≠ [] ∧ (s3.block (s.n + 1)).prev ≠ [] ∧
      ∀ F, Le s3 F → ∀ σ : S M, St M H F 1 ⟨b, (s.code b).length, σ⟩ ⟨if truth M H σ v then s.n else s.n + 1, 0, σ⟩ := by
  subst h3
  have lt := hr.lt
  have p : Post [b] s (((s.emit (some b) [branchIns v]).create.create.link b s.n .then_).link b (s.n + 1) .else_) := by
    refine Post.link (Post.link (((Post.nil s).emit hr.lt hr.opn.notFrozen hr.opn.clean (Tail.single _) (by simp)).create.create) (by simp; omega)
      (hr.opn.ptr .then_) (by simp) (hx := nonext hr.opn.next)) (by simp; omega) ?_ (by simp) (hx := nonext hr.opn.next)
    show Block.else_ _ = none
    rw [link_else_ne _ _ _ (.inr (by simp))]
    exact hr.opn.else_
  have op : ∀ k, s.n ≤ k → Open (((s.emit (some b) [branchIns v]).create.create.link b s.n .then_).link b (s.n + 1) .else_) k := by
    intro k hk
    exact (((hr.fresh k hk).2.emit _ _ (.inl (by simp; omega))).create.create.link (by omega)).link (by omega)
  have cd : ∀ k, s.n ≤ k → (((s.emit (some b) [branchIns v]).create.create.link b s.n .then_).link b (s.n + 1) .else_).code k = [] := by
    intro k hk
    show (s.emit (some b) [branchIns v]).code k = []
    rw [emit_code_ne _ _ (by omega)]
    exact (hr.fresh k hk).1
  refine ⟨p, rfl, ⟨p.fresh hr.fresh, by simp; omega, op _ (by omega)⟩, ⟨p.fresh hr.fresh, by simp, op _ (by omega)⟩, cd _ (by omega),
    cd _ (by omega), ?_, link_prev_ne _ _ _ _, ?_⟩
  · rw [link_prev, if_neg (by omega)]
    exact link_prev_ne _ _ _ _
  · intro F hF σ
    refine hF.branchStep (pre := s.code b) ?_ ?_ ?_ σ
    · show (s.emit (some b) [branchIns v]).code b = _
      simp
    · rw [link_then_ne _ _ _ (.inr (by simp))]
      simp
    · simp

/-- A result of the body of a compound statement, when the statement continues translation. -/
theorem Reach.join {F : PS} {n : Nat} {c : Conf M} {s1 s2 : PS} {q q' : Option Nat} {V : List Nat} {r : Res (S M)}
    (h : Reach F n c s1 q H r) (p : Post V s1 s2)
    (hn : ∀ b σ, q = some b → ∃ b', q' = some b' ∧ Go M H F ⟨b, (s1.code b).length, σ⟩ ⟨b', (s2.code b').length, σ⟩) :
    Reach F n c s2 q' H r := by
  match r, h with
  | .ok .normal σ, ⟨b, h1, h2⟩ =>
    obtain ⟨b', k1, k2⟩ := hn b σ h1
    exact ⟨b', k1, h2.trans k2⟩
  | .undef, _ => trivial
  | .timeout, h => exact h
  | .ok .brk σ, h => exact Reach.later h p (by simp)
  | .ok .cont σ, h => exact Reach.later h p (by simp)
  | .ok .ret σ, h => exact Reach.later h p (by simp)

theorem ite_stmt (B : Basic M) {c : Expr} {t : Stmt} (hc : c.Plain H) (ht : StmtOk M H t) : StmtOk M H (.ite c t) := by
  intro s bb s' bb' hr hs h
  simp only [lowerS, PS.connect, Option.map_some, Option.bind_some, Option.bind_eq_some_iff] at h
  obtain ⟨r, h1, h2⟩ := h
  obtain ⟨s1, hs1⟩ : ∃ s1, s1 = s.create.link bb s.n .next := ⟨_, rfl⟩
  obtain ⟨p1, r1, n1, c1, _, g1⟩ := enter_ok (M := M) (H := H) hr hs1
  rw [← hs1] at h1
  obtain ⟨s2, b2, rfl, p2, e2⟩ := cond_ok B hc r1 h1
  have r2 := p2.ready r1
  simp only [Option.map_some, Option.bind_some, Option.map_eq_some_iff, emit_n, Option.some.injEq, exists_eq_left'] at h2
  obtain ⟨s3, hs3⟩ : ∃ s3, s3 = (((s2.emit (some b2) [branchIns c.res]).create.create.link b2 s2.n .then_).link b2 (s2.n + 1) .else_) :=
    ⟨_, rfl⟩
  rw [← hs3] at h2
  obtain ⟨p3, n3, rx, ry, cx, cy, vx, vy, e3⟩ := branch_ok (M := M) (H := H) r2 hs3
  obtain ⟨⟨s4, q⟩, h3, h4⟩ := h2
  have se3 : s3.se = [] := by rw [p3.se, p2.post.se, p1.se, hs]
  obtain ⟨p4, k4, e4⟩ := ht s3 s2.n s4 q rx se3 h3
  have nn2 := p2.post.n
  have nn4 := p4.post.n
  have lt2 := r2.lt
  have lt := hr.lt
  -- the block after the condition
  have y4 := p4.post.same (s2.n + 1) (by omega) (by simp)
  have oy4 := ry.opn.same y4
  have cy4 := y4.code.trans cy
  have p03 : Post [bb] s s3 := by
    refine (p1.trans p2.post (by simp)).trans p3 ?_
    intro x hx
    simp at hx
    subst hx
    right
    rcases p2.new with h | h <;> omega
  have p04 : Post [bb] s s4 := p03.trans p4.post (by simp; omega)
  have go3 : ∀ F, Le s3 F → ∀ (σ σ' : S M) tt, test M H c σ = some (σ', tt) →
      Go M H F ⟨bb, (s.code bb).length, σ⟩ ⟨if tt then s2.n else s2.n + 1, 0, σ'⟩ := by
    intro F hF σ σ' tt htt
    have hF2 := p3.le.trans hF
    have hF1 := p2.post.le.trans hF2
    obtain ⟨a1, a2⟩ := e2 F hF2 σ σ' tt htt
    rw [c1] at a1
    have := e3 F hF σ'
    rw [a2] at this
    exact ((g1 F hF1 σ).trans a1).trans ⟨1, this⟩
  cases q with
  | none =>
    simp only [Prod.mk.injEq] at h4
    obtain ⟨rfl, rfl⟩ := h4
    refine ⟨⟨p04, ?_⟩, (fun _ => by simp), ?_⟩
    · intro b hb
      cases hb
      exact ⟨by omega, .inr (by omega), oy4⟩
    · intro n F hF σ
      simp only [exec]
      cases htt : test M H c σ with
      | none => trivial
      | some x =>
        obtain ⟨σ', tt⟩ := x
        have g := go3 F (p4.post.le.trans hF) σ σ' tt htt
        cases tt with
        | true =>
          have := e4 n F hF σ'
          rw [cx] at this
          exact (this.join (Post.refl s4) (by simp)).before g
        | false =>
          refine ⟨s2.n + 1, rfl, ?_⟩
          rw [cy4]
          exact g
  | some tb =>
    simp only [Prod.mk.injEq] at h4
    obtain ⟨rfl, rfl⟩ := h4
    obtain ⟨ltb, newb, ob⟩ := p4.end_ tb rfl
    have hne : tb ≠ s2.n + 1 := by rcases newb with h | h <;> omega
    have p5 : Post [tb, s2.n + 1] s4 ((s4.create.link tb s4.n .next).link (s2.n + 1) s4.n .next) := by
      refine Post.link (Post.link (Post.nil s4).create (by simp; omega) (ob.create.ptr _) (by simp) (fun _ => ob.clean)) (by simp; omega)
        ((oy4.create.link hne.symm).ptr _) (by simp) (fun _ => oy4.clean)
    have f4 := p4.post.fresh rx.fresh
    have oz : Open ((s4.create.link tb s4.n .next).link (s2.n + 1) s4.n .next) s4.n :=
      ((f4 s4.n (Nat.le_refl _)).2.create.link (by omega)).link (by omega)
    have cz : ((s4.create.link tb s4.n .next).link (s2.n + 1) s4.n .next).code s4.n = [] := (f4 s4.n (Nat.le_refl _)).1
    refine ⟨⟨p04.trans p5 ?_, ?_⟩, (fun _ => by simp), ?_⟩
    · intro x hx
      simp at hx
      right
      rcases hx with rfl | rfl
      · rcases newb with h | h <;> omega
      · omega
    · intro b hb
      cases hb
      exact ⟨by simp, .inr (by omega), oz⟩
    · intro n F hF σ
      simp only [exec]
      cases htt : test M H c σ with
      | none => trivial
      | some x =>
        obtain ⟨σ', tt⟩ := x
        have hF4 := p5.le.trans hF
        have g := go3 F (p4.post.le.trans hF4) σ σ' tt htt
        cases tt with
        | true =>
          have := e4 n F hF4 σ'
          rw [cx] at this
          refine (this.join p5 ?_).before g
          intro b σ1 hb
          cases hb
          refine ⟨s4.n, rfl, ?_⟩
          rw [cz]
          have := hF.jump (M := M) (H := H) (b := tb) (q := s4.n) (by rw [link_next_ne _ _ _ (.inl hne)]; simp) σ1
          exact this
        | false =>
          refine ⟨s4.n, rfl, ?_⟩
          rw [cz]
          refine g.trans ?_
          have := hF.jump (M := M) (H := H) (b := s2.n + 1) (q := s4.n) (by simp) σ'
          rw [show ((s4.create.link tb s4.n .next).link (s2.n + 1) s4.n .next).code (s2.n + 1) = [] from cy4] at this
          exact this

/-- Entering a statement with a condition. -/
theorem head_ok (B : Basic M) {c : Expr} (hc : c.Plain H) {s : PS} {bb : Nat} (hr : Ready s bb) {s2 : PS} {b2 : Nat} {v : Nat}
    (h : lowerC c (s.create.link bb s.n .next) (some s.n) = some (s2, some b2, v)) {s3 : PS}
    (hs3 : s3 = (((s2.emit (some b2) [branchIns v]).create.create.link b2 s2.n .then_).link b2 (s2.n + 1) .else_)) :
    Post [bb] s s3 ∧ s.n + 1 ≤ s2.n ∧ s3.n = s2.n + 2 ∧ Ready s3 s2.n ∧ Ready s3 (s2.n + 1) ∧ s3.code s2.n = [] ∧
      s3.code (s2.n + 1) = [] ∧
      ∀ F, Le s3 F → ∀ (σ σ' : S M) tt, test M H c σ = some (σ', tt) →
        Go M H F ⟨bb, (s.code bb).length, σ⟩ ⟨if tt then s2.n else s2.n + 1, 0, σ'⟩ := by
  obtain ⟨s1, hs1⟩ : ∃ s1, s1 = s.create.link bb s.n .next := ⟨_, rfl⟩
  obtain ⟨p1, r1, n1, c1, _, g1⟩ := enter_ok (M := M) (H := H) hr hs1
  rw [← hs1] at h
  obtain ⟨s2', b2', e, p2, e2⟩ := cond_ok B hc r1 h
  simp only [Prod.mk.injEq, Option.some.injEq] at e
  obtain ⟨rfl, rfl, rfl⟩ := e
  have r2 := p2.ready r1
  obtain ⟨p3, n3, rx, ry, cx, cy, vx, vy, e3⟩ := branch_ok (M := M) (H := H) r2 hs3
  have nn2 := p2.post.n
  refine ⟨?_, by omega, n3, rx, ry, cx, cy, ?_⟩
  · refine (p1.trans p2.post (by simp)).trans p3 ?_
    intro x hx
    simp at hx
    subst hx
    right
    rcases p2.new with h | h <;> omega
  · intro F hF σ σ' tt htt
    have hF2 := p3.le.trans hF
    have hF1 := p2.post.le.trans hF2
    obtain ⟨a1, a2⟩ := e2 F hF2 σ σ' tt htt
    rw [c1] at a1
    have := e3 F hF σ'
    rw [a2] at this
    exact ((g1 F hF1 σ).trans a1).trans ⟨1, this⟩

theorem lowerC_some (B : Basic M) {c : Expr} (hc : c.Plain H) {s : PS} {bb : Nat} (hr : Ready s bb) {r : PS × Option Nat × Nat}
    (h : lowerC c s (some bb) = some r) : ∃ s' b', r = (s', some b', c.res) := by
  obtain ⟨s', b', e, _⟩ := cond_ok B hc hr h
  exact ⟨s', b', e⟩

theorem iteElse_stmt (B : Basic M) {c : Expr} {t e : Stmt} (hc : c.Plain H) (ht : StmtOk M H t) (he : StmtOk M H e) :
    StmtOk M H (.iteElse c t e) := by
  intro s bb s' bb' hr hs h
  simp only [lowerS, PS.connect, Option.map_some, Option.bind_some, Option.bind_eq_some_iff] at h
  obtain ⟨r, h1, h2⟩ := h
  have rn := (enter_ok (M := M) (H := H) hr rfl).2.1
  obtain ⟨s2, b2, rfl⟩ := lowerC_some B hc rn h1
  simp only [Option.map_some, Option.bind_some, Option.map_eq_some_iff, emit_n, Option.some.injEq, exists_eq_left'] at h2
  obtain ⟨s3, hs3⟩ : ∃ s3, s3 = (((s2.emit (some b2) [branchIns c.res]).create.create.link b2 s2.n .then_).link b2 (s2.n + 1) .else_) :=
    ⟨_, rfl⟩
  rw [← hs3] at h2
  obtain ⟨p03, nn2, n3, rx, ry, cx, cy, go3⟩ := head_ok B hc hr h1 hs3
  obtain ⟨⟨s4, q⟩, h3, ⟨s6, q2⟩, h5, h6⟩ := h2
  have se3 : s3.se = [] := by rw [p03.se, hs]
  obtain ⟨p4, k4, e4⟩ := ht s3 s2.n s4 q rx se3 h3
  have nn4 := p4.post.n
  have lt := hr.lt
  have y4 := p4.post.same (s2.n + 1) (by omega) (by simp)
  have p04 : Post [bb] s s4 := p03.trans p4.post (by simp; omega)
  have f4 := p4.post.fresh rx.fresh
  have se4 : s4.se = [] := by rw [p4.post.se, se3]
  -- the end of the first branch
  obtain ⟨s5, hs5⟩ : ∃ s5, s5 = (match q with
    | none => s4
    | some tb => s4.create.link tb s4.n .next) := ⟨_, rfl⟩
  have h5 : lowerS e s5 (some (s2.n + 1)) = some (s6, q2) := by
    rw [hs5]
    cases q <;> exact h5
  have H5 : Post [bb] s s5 ∧ Post q.toList s4 s5 ∧ Ready s5 (s2.n + 1) ∧ s5.code (s2.n + 1) = [] ∧ s5.se = [] ∧
      (∀ tb, q = some tb → s5.n = s4.n + 1 ∧ Ready s5 s4.n ∧ s5.code s4.n = [] ∧
        ∀ F, Le s5 F → ∀ σ : S M, Go M H F ⟨tb, (s4.code tb).length, σ⟩ ⟨s4.n, 0, σ⟩) := by
    cases q with
    | none =>
      simp only at hs5
      subst hs5
      exact ⟨p04, Post.nil _, ⟨f4, by omega, ry.opn.same y4⟩, y4.code.trans cy, se4, fun tb h => by cases h⟩
    | some tb =>
      simp only at hs5
      obtain ⟨ltb, newb, ob⟩ := p4.end_ tb rfl
      obtain ⟨a1, a2, a3, a4, a5, a6⟩ := enter_ok (M := M) (H := H) (s := s4) (bb := tb) ⟨f4, ltb, ob⟩ hs5
      have hne : s2.n + 1 ≠ tb := by rcases newb with h | h <;> omega
      have y5 := y4.trans (a1.same (s2.n + 1) (by omega) (by simpa using hne))
      refine ⟨p04.trans a1 (by simp; right; rcases newb with h | h <;> omega), a1, ⟨a1.fresh f4, by omega, ry.opn.same y5⟩,
        y5.code.trans cy, by rw [a1.se, se4], ?_⟩
      intro tb' h
      cases h
      exact ⟨a3, a2, a4, a6⟩
  obtain ⟨p05, p45, r5, c5, se5, T5⟩ := H5
  obtain ⟨p6, k6, e6⟩ := he s5 (s2.n + 1) s6 q2 r5 se5 h5
  have nn5 := p45.n
  have nn6 := p6.post.n
  have f6 := p6.post.fresh r5.fresh
  have p06 : Post [bb] s s6 := p05.trans p6.post (by simp; omega)
  obtain ⟨s7, hs7⟩ : ∃ s7, s7 = (match q2 with
    | none => s6
    | some eb => s6.create.link eb s6.n .next) := ⟨_, rfl⟩
  have h6 : (match q.map fun _ => s4.n, q2.map fun _ => s6.n with
      | some a, some b => ((s7.create.link a s7.n .next).link b s7.n .next, some s7.n)
      | some a, none => (s7, some a)
      | none, en => (s7, en)) = (s', bb') := by
    rw [hs7, ← h6]
    cases q <;> cases q2 <;> rfl
  have H7 : Post [bb] s s7 ∧ Post q2.toList s6 s7 ∧ Fresh s7 ∧
      (∀ eb, q2 = some eb → s7.n = s6.n + 1 ∧ Ready s7 s6.n ∧ s7.code s6.n = [] ∧ (eb = s2.n + 1 ∨ s5.n ≤ eb) ∧
        ∀ F, Le s7 F → ∀ σ : S M, Go M H F ⟨eb, (s6.code eb).length, σ⟩ ⟨s6.n, 0, σ⟩) := by
    cases q2 with
    | none =>
      simp only at hs7
      subst hs7
      exact ⟨p06, Post.nil _, f6, fun tb h => by cases h⟩
    | some eb =>
      simp only at hs7
      obtain ⟨ltb, newb, ob⟩ := p6.end_ eb rfl
      obtain ⟨a1, a2, a3, a4, a5, a6⟩ := enter_ok (M := M) (H := H) (s := s6) (bb := eb) ⟨f6, ltb, ob⟩ hs7
      refine ⟨p06.trans a1 (by simp; right; rcases newb with h | h <;> omega), a1, a1.fresh f6, ?_⟩
      intro tb' h
      cases h
      exact ⟨a3, a2, a4, newb, a6⟩
  obtain ⟨p07, p67, f7, T7⟩ := H7
  have nn7 := p67.n
  -- the block after the first branch is not touched by the second
  have A7 : ∀ tb, q = some tb → s4.n < s7.n ∧ Open s7 s4.n ∧ s7.code s4.n = [] := by
    intro tb hq
    obtain ⟨b1, b2', b3, _⟩ := T5 tb hq
    have w1 := p6.post.same s4.n (by omega) (by simp; omega)
    have w2 := p67.same s4.n (by omega) (by
      intro hm
      simp only [Option.mem_toList] at hm
      obtain ⟨_, _, _, hh, _⟩ := T7 s4.n hm
      omega)
    have w := w1.trans w2
    exact ⟨by omega, b2'.opn.same w, w.code.trans b3⟩
  have fin : ∀ (V : List Nat), Post V s7 s' →
      (∀ F, Le s' F → ∀ (tb : Nat) (σ : S M), q = some tb → ∃ b', bb' = some b' ∧ Go M H F ⟨s4.n, 0, σ⟩ ⟨b', (s'.code b').length, σ⟩) →
      (∀ F, Le s' F → ∀ (eb : Nat) (σ : S M), q2 = some eb → ∃ b', bb' = some b' ∧ Go M H F ⟨s6.n, 0, σ⟩ ⟨b', (s'.code b').length, σ⟩) →
      ∀ n F, Le s' F → ∀ σ : S M, Reach F n ⟨bb, (s.code bb).length, σ⟩ s' bb' H (exec M H n (.iteElse c t e) σ) := by
    intro V p7 jT jE n F hF σ
    have hF7 := p7.le.trans hF
    have hF6 := p67.le.trans hF7
    have hF5 := p6.post.le.trans hF6
    have hF4 := p45.le.trans hF5
    have hF3 := p4.post.le.trans hF4
    simp only [exec]
    cases htt : test M H c σ with
    | none => trivial
    | some x =>
      obtain ⟨σ', tt⟩ := x
      have g := go3 F hF3 σ σ' tt htt
      cases tt with
      | true =>
        have := e4 n F hF4 σ'
        rw [cx] at this
        have pt : Post (q.toList ++ [s2.n + 1] ++ q2.toList ++ V) s4 s' := by
          refine (((p45.mono ?_).trans p6.post ?_).trans p67 ?_).trans p7 ?_ <;> intro x hx <;> simp_all
        refine (this.join pt ?_).before g
        intro b σ1 hb
        obtain ⟨b', z1, z2⟩ := jT F hF b σ1 hb
        exact ⟨b', z1, ((T5 b hb).2.2.2 F hF5 σ1).trans z2⟩
      | false =>
        have := e6 n F hF6 σ'
        rw [c5] at this
        have pt : Post (q2.toList ++ V) s6 s' := by
          refine (p67.mono ?_).trans p7 ?_ <;> intro x hx <;> simp_all
        refine (this.join pt ?_).before g
        intro b σ1 hb
        obtain ⟨b', z1, z2⟩ := jE F hF b σ1 hb
        exact ⟨b', z1, ((T7 b hb).2.2.2.2 F hF7 σ1).trans z2⟩
  cases q with
  | none =>
    cases q2 with
    | none =>
      simp only [Option.map_none, Prod.mk.injEq] at h6
      obtain ⟨rfl, rfl⟩ := h6
      refine ⟨⟨p07, fun b hb => by cases hb⟩, ?_, fin [] (Post.refl _) (fun _ _ _ _ h => by cases h) (fun _ _ _ _ h => by cases h)⟩
      intro hcc
      simp only [Stmt.completes, Bool.or_eq_true] at hcc
      rcases hcc with h | h
      · exact absurd rfl (k4 h)
      · exact absurd rfl (k6 h)
    | some eb =>
      simp only [Option.map_none, Option.map_some, Prod.mk.injEq] at h6
      obtain ⟨rfl, rfl⟩ := h6
      obtain ⟨w1, w2, w3, _, w4⟩ := T7 eb rfl
      refine ⟨⟨p07, ?_⟩, (fun _ => by simp), fin [] (Post.refl _) (fun _ _ _ _ h => by cases h) ?_⟩
      · intro b hb
        cases hb
        exact ⟨by omega, .inr (by omega), w2.opn⟩
      · intro F hF eb' σ hb
        cases hb
        exact ⟨s6.n, rfl, by rw [w3]; exact Go.refl _ _⟩
  | some tb =>
    obtain ⟨z1, z2, z3⟩ := A7 tb rfl
    cases q2 with
    | none =>
      simp only [Option.map_none, Option.map_some, Prod.mk.injEq] at h6
      obtain ⟨rfl, rfl⟩ := h6
      refine ⟨⟨p07, ?_⟩, (fun _ => by simp), fin [] (Post.refl _) ?_ (fun _ _ _ _ h => by cases h)⟩
      · intro b hb
        cases hb
        exact ⟨by omega, .inr (by omega), z2⟩
      · intro F hF eb' σ hb
        cases hb
        exact ⟨s4.n, rfl, by rw [z3]; exact Go.refl _ _⟩
    | some eb =>
      simp only [Option.map_some, Prod.mk.injEq] at h6
      obtain ⟨rfl, rfl⟩ := h6
      obtain ⟨w1, w2, w3, _, w4⟩ := T7 eb rfl
      obtain ⟨u1, _⟩ := T5 tb rfl
      have hne : s4.n ≠ s6.n := by omega
      have p8 : Post [s4.n, s6.n] s7 ((s7.create.link s4.n s7.n .next).link s6.n s7.n .next) := by
        refine Post.link (Post.link (Post.nil s7).create (by simp; omega) (z2.create.ptr _) (by simp) (fun _ => z2.clean)) (by simp; omega)
          ((w2.opn.create.link hne.symm).ptr _) (by simp) (fun _ => w2.opn.clean)
      have oz : Open ((s7.create.link s4.n s7.n .next).link s6.n s7.n .next) s7.n :=
        ((f7 s7.n (Nat.le_refl _)).2.create.link (by omega)).link (by omega)
      have cz : ((s7.create.link s4.n s7.n .next).link s6.n s7.n .next).code s7.n = [] := (f7 s7.n (Nat.le_refl _)).1
      refine ⟨⟨p07.trans p8 (by simp; omega), ?_⟩, (fun _ => by simp), fin _ p8 ?_ ?_⟩
      · intro b hb
        cases hb
        exact ⟨by simp, .inr (by omega), oz⟩
      · intro F hF tb' σ hb
        refine ⟨s7.n, rfl, ?_⟩
        rw [cz]
        have := hF.jump (M := M) (H := H) (b := s4.n) (q := s7.n) (by rw [link_next_ne _ _ _ (.inl hne)]; simp) σ
        rw [show ((s7.create.link s4.n s7.n .next).link s6.n s7.n .next).code s4.n = [] from z3] at this
        exact this
      · intro F hF tb' σ hb
        refine ⟨s7.n, rfl, ?_⟩
        rw [cz]
        have := hF.jump (M := M) (H := H) (b := s6.n) (q := s7.n) (by simp) σ
        rw [show ((s7.create.link s4.n s7.n .next).link s6.n s7.n .next).code s6.n = [] from w3] at this
        exact this

end Shecc.Stmt
