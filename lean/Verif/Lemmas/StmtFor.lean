import Verif.Lemmas.StmtLoop

/-! # Translation of `for` -/

namespace Shecc.Stmt
open Shecc.Cfg
open CRename (Ins Mach Home run)
open CStmt

variable {M : Mach} {H : Home Nat}

/-! ### Optional expressions -/

theorem opt_ok (B : Basic M) {e : Option Expr} (he : ∀ x, e = some x → x.Plain H) {s : PS} {bb : Nat} (hr : Ready s bb)
    {r : PS × Option Nat} (h : lowerOpt e s (some bb) = some r) :
    ∃ s' b', r = (s', some b') ∧ EPost s bb s' b' ∧ ∀ F, Le s' F → ∀ σ σ' : S M, fullOpt M H e σ = some σ' →
      Go M H F ⟨bb, (s.code bb).length, σ⟩ ⟨b', (s'.code b').length, σ'⟩ := by
  cases e with
  | none =>
    simp only [lowerOpt, Option.some.injEq] at h
    refine ⟨s, bb, h.symm, ?_, ?_⟩
    · have := emit_epost hr [] Clean.nil
      rwa [emit_nil] at this
    · intro F _ σ σ' h
      simp only [fullOpt, Option.some.injEq] at h
      subst h
      exact Go.refl _ _
  | some e =>
    obtain ⟨hg, hn⟩ := he e rfl
    obtain ⟨s1, b1, k1, p1, e1⟩ := expr_ok B e hg hn s bb hr
    simp only [lowerOpt, k1, Option.map_some, Option.some.injEq] at h
    refine ⟨s1, b1, h.symm, p1, ?_⟩
    intro F hF σ σ' h
    simp only [fullOpt, full, Option.bind_eq_some_iff] at h
    obtain ⟨q, h1, h2⟩ := h
    rw [eval_noSe e hn σ q.1 q.2 h1] at h2
    simp only [run, Option.some.injEq] at h2
    subst h2
    exact e1 F hF σ q.1 q.2 h1

theorem forC_ok (B : Basic M) {c : Option Expr} {one : Nat} (hc : ∀ x, c = some x → x.Plain H) (h1 : H.mem one = false) {s : PS}
    {bb : Nat} (hr : Ready s bb) {r : PS × Option Nat × Nat} (h : lowerForC c one s (some bb) = some r) :
    ∃ s' b' v, r = (s', some b', v) ∧ EPost s bb s' b' ∧
      ∀ F, Le s' F → ∀ (σ σ' : S M) t, forTest M H c one σ = some (σ', t) →
        Go M H F ⟨bb, (s.code bb).length, σ⟩ ⟨b', (s'.code b').length, σ'⟩ ∧ truth M H σ' v = t := by
  cases c with
  | none =>
    simp only [lowerForC, Option.some.injEq] at h
    refine ⟨_, bb, one, h.symm, emit_epost hr _ (.one rfl), ?_⟩
    intro F hF σ σ' t ht
    simp only [forTest, Option.map_eq_some_iff, Prod.mk.injEq] at ht
    obtain ⟨σ1, h2, rfl, rfl⟩ := ht
    refine ⟨hF.steps (emit_code_self s bb _) (by simp [constIns]) h2, ?_⟩
    simp [run, CRename.step, constIns, CRename.Ins.tag, B.const, CRename.wr, h1] at h2
    subst h2
    simp [truth, CRename.rd, h1]
  | some c =>
    obtain ⟨s1, b1, k1, k2, k3⟩ := cond_ok B (hc c rfl) hr h
    exact ⟨s1, b1, c.res, k1, k2, k3⟩

theorem inc_lower {e : Option Expr} (he : ∀ x, e = some x → x.Plain H ∧ x.straight = true) (s : PS) (z : Nat) :
    lowerOpt e s (some z) = some (s.emit (some z) (optCode e), some z) := by
  cases e with
  | none => simp [lowerOpt, optCode, emit_nil]
  | some e =>
    obtain ⟨⟨_, hn⟩, hs⟩ := he e rfl
    simp only [lowerOpt, lowerE_plain hs hn, Option.map_some, optCode]

theorem inc_run {e : Option Expr} (he : ∀ x, e = some x → x.Plain H ∧ x.straight = true) (σ : S M) :
    fullOpt M H e σ = run M H (optCode e) σ := by
  cases e with
  | none => rfl
  | some e =>
    obtain ⟨⟨_, hn⟩, hs⟩ := he e rfl
    simp only [fullOpt, full, eval_straight e hs, ses_noSe e hn, optCode]
    cases run M H e.code σ <;> rfl

theorem inc_clean {e : Option Expr} (he : ∀ x, e = some x → x.Plain H ∧ x.straight = true) : Clean (optCode e) := by
  cases e with
  | none => exact Clean.nil
  | some e => exact (straight_good e (he e rfl).2 (he e rfl).1.1).1

theorem inc_noBranch {e : Option Expr} (he : ∀ x, e = some x → x.Plain H ∧ x.straight = true) : ∀ i ∈ optCode e, i.op ≠ .branch :=
  (inc_clean he).nb

/-! ### No `continue` leaves a statement without one -/

theorem iter_done {α : Type} {f : α → Turn α} {P : Res α → Prop} (h : ∀ σ r, f σ = .done r → P r) (h0 : P .timeout) :
    ∀ n σ, P (iter f n σ) := by
  intro n
  induction n with
  | zero => intro σ; exact h0
  | succ n ih =>
    intro σ
    simp only [iter]
    cases hf : f σ with
    | again σ' => exact ih σ'
    | done r => exact h σ r hf

/-- The result is not a `continue`. -/
def NotCont (r : Res (S M)) : Prop := ∀ σ, r ≠ .ok .cont σ

theorem bodyTurn_notCont {k : S M → Turn (S M)} (hk : ∀ σ r, k σ = .done r → NotCont r) (r0 : Res (S M)) :
    ∀ r, bodyTurn k r0 = .done r → NotCont r := by
  intro r h
  match r0, h with
  | .timeout, h => simp only [bodyTurn, Turn.done.injEq] at h; subst h; intro σ; simp
  | .undef, h => simp only [bodyTurn, Turn.done.injEq] at h; subst h; intro σ; simp
  | .ok .normal s, h => exact hk s r h
  | .ok .cont s, h => exact hk s r h
  | .ok .brk s, h => simp only [bodyTurn, Turn.done.injEq] at h; subst h; intro σ; simp
  | .ok .ret s, h => simp only [bodyTurn, Turn.done.injEq] at h; subst h; intro σ; simp

theorem while_notCont {c : Expr} {body : S M → Res (S M)} : ∀ σ r, whileTurn M H c body σ = .done r → NotCont r := by
  intro σ r h
  unfold whileTurn at h
  split at h
  · simp only [Turn.done.injEq] at h; subst h; intro σ; simp
  · simp only [Turn.done.injEq] at h; subst h; intro σ; simp
  · exact bodyTurn_notCont (by intro _ _ h; cases h) _ r h

theorem do_notCont {c : Expr} {body : S M → Res (S M)} : ∀ σ r, doTurn M H body c σ = .done r → NotCont r := by
  intro σ r h
  unfold doTurn at h
  refine bodyTurn_notCont ?_ _ r h
  intro σ r h
  split at h
  · simp only [Turn.done.injEq] at h; subst h; intro σ; simp
  · cases h
  · simp only [Turn.done.injEq] at h; subst h; intro σ; simp

theorem for_notCont {c inc : Option Expr} {one : Nat} {body : S M → Res (S M)} :
    ∀ σ r, forTurn M H c one inc body σ = .done r → NotCont r := by
  intro σ r h
  unfold forTurn at h
  split at h
  · simp only [Turn.done.injEq] at h; subst h; intro σ; simp
  · simp only [Turn.done.injEq] at h; subst h; intro σ; simp
  · refine bodyTurn_notCont ?_ _ r h
    intro σ r h
    split at h
    · simp only [Turn.done.injEq] at h; subst h; intro σ; simp
    · cases h

theorem ofOpt_notCont {o : Out} (h : o ≠ .cont) (x : Option (S M)) : NotCont (.ofOpt o x) := by
  intro σ
  cases x <;> simp [Res.ofOpt, h]

theorem andThen_notCont {r : Res (S M)} {k : S M → Res (S M)} (h : NotCont r) (hk : ∀ σ, NotCont (k σ)) : NotCont (r.andThen k) := by
  match r, h with
  | .timeout, _ => intro σ; simp [Res.andThen]
  | .undef, _ => intro σ; simp [Res.andThen]
  | .ok .normal s, _ => exact hk s
  | .ok .brk s, _ => intro σ; simp [Res.andThen]
  | .ok .ret s, _ => intro σ; simp [Res.andThen]
  | .ok .cont s, h => exact absurd rfl (h s)

mutual
theorem exec_notCont (n : Nat) (st : Stmt) (h : st.conts = false) (σ : S M) : NotCont (exec M H n st σ) := by
  match st with
  | .expr e => exact ofOpt_notCont (by simp) _
  | .empty => intro σ; simp [exec]
  | .block ss => exact execs_notCont n ss h σ
  | .ret none => exact ofOpt_notCont (by simp) _
  | .ret (some e) => exact ofOpt_notCont (by simp) _
  | .ite c t =>
    simp only [exec]
    split
    · intro σ; simp
    · split
      · exact exec_notCont n t h _
      · intro σ; simp
  | .iteElse c t e =>
    simp only [Stmt.conts, Bool.or_eq_false_iff] at h
    simp only [exec]
    split
    · intro σ; simp
    · split
      · exact exec_notCont n t h.1 _
      · exact exec_notCont n e h.2 _
  | .while_ c b => exact iter_done while_notCont (by intro σ; simp) _ _
  | .doWhile b c => exact iter_done do_notCont (by intro σ; simp) _ _
  | .for_ init c one inc b =>
    simp only [exec]
    split
    · intro σ; simp
    · exact iter_done for_notCont (by intro σ; simp) _ _
  | .switch_ e cs =>
    simp only [exec]
    split
    · intro σ; simp
    · split
      · intro σ; simp
      · split
        · intro σ; simp
        · split
          · intro σ; simp
          · exact execFrom_notCont n cs h _ _
  | .brk => intro σ; simp [exec]
  | .cont => simp [Stmt.conts] at h
theorem execs_notCont (n : Nat) (ss : Stmts) (h : ss.conts = false) (σ : S M) : NotCont (execs M H n ss σ) := by
  match ss with
  | .nil => intro σ; simp [execs]
  | .cons st ss =>
    simp only [Stmts.conts, Bool.or_eq_false_iff] at h
    exact andThen_notCont (exec_notCont n st h.1 σ) (fun σ => execs_notCont n ss h.2 σ)
theorem execFrom_notCont (n : Nat) (cs : Cases) (h : cs.conts = false) (i : Nat) (σ : S M) : NotCont (execFrom M H n cs i σ) := by
  match cs, i with
  | .nil, _ => intro σ; simp [execFrom]
  | .cons _ b r, i + 1 =>
    simp only [Cases.conts, Bool.or_eq_false_iff] at h
    exact execFrom_notCont n r h.2 i σ
  | .cons _ b r, 0 =>
    simp only [Cases.conts, Bool.or_eq_false_iff] at h
    exact andThen_notCont (execs_notCont n b h.1 σ) (fun σ => execFrom_notCont n r h.2 0 σ)
end

/-! ### The loop -/

/-- The blocks after the condition of a `for`. -/
theorem for_head {s : PS} {b y v : Nat} {ic : List (Ins Nat)} (hic : Clean ic) (hr : Ready s b) (hy : y < s.n) (hyb : y ≠ b) (oy : Open s y) {s6 : PS}
    (h6 : s6 = ((((s.link b y .else_).emit (some b) [branchIns v]).create.emit (some s.n) ic).create.link b (s.n + 1) .then_)) :
    Post [b] s s6 ∧ s6.n = s.n + 2 ∧ Ready s6 (s.n + 1) ∧ s6.code (s.n + 1) = [] ∧ s6.code s.n = ic ∧ Open s6 s.n ∧
      ∀ F, Le s6 F → ∀ σ : S M, St M H F 1 ⟨b, (s.code b).length, σ⟩ ⟨if truth M H σ v then s.n + 1 else y, 0, σ⟩ := by
  have lt := hr.lt
  obtain ⟨a1, ha1⟩ : ∃ a, a = s.link b y .else_ := ⟨_, rfl⟩
  have p1 : Post [b] s a1 := by rw [ha1]; exact post_link s b y .else_ lt (hr.opn.ptr _) (hx := nonext hr.opn.next)
  have nf1 : ¬ Frozen a1 b := by
    rw [ha1]
    intro h
    rcases h with h | h
    · rw [link_next_ne _ _ _ (.inr (by simp))] at h
      exact h hr.opn.next
    · rw [link_then_ne _ _ _ (.inr (by simp))] at h
      exact h.1 hr.opn.then_
  have n1 : a1.n = s.n := by rw [ha1]; rfl
  obtain ⟨a2, ha2⟩ : ∃ a, a = a1.emit (some b) [branchIns v] := ⟨_, rfl⟩
  have p2 : Post [b] s a2 := by rw [ha2]; exact p1.emit (by omega) nf1 (by rw [ha1]; exact hr.opn.clean) (Tail.single _) (by simp)
  have n2 : a2.n = s.n := by rw [ha2]; simp; omega
  have f2 : ∀ k, s.n ≤ k → a2.code k = [] ∧ Open a2 k := by
    intro k hk
    exact p2.fresh hr.fresh k (by omega)
  obtain ⟨a3, ha3⟩ : ∃ a, a = a2.create.emit (some s.n) ic := ⟨_, rfl⟩
  have o3 : Open a2.create s.n := (f2 s.n (Nat.le_refl _)).2.create
  have p3 : Post [b] s a3 := by rw [ha3]; exact p2.create.emit (by simp; omega) o3.notFrozen o3.clean hic.tail (.inr (Nat.le_refl _))
  have n3 : a3.n = s.n + 1 := by rw [ha3]; simp; omega
  have h6 : s6 = a3.create.link b (s.n + 1) .then_ := by rw [h6, ha3, ha2, ha1]
  have th3 : (a3.block b).then_ = none := by
    rw [ha3, ha2]
    simp only [emit_block, create_block]
    rw [ha1, link_then_ne _ _ _ (.inr (by simp))]
    exact hr.opn.then_
  have nx3 : (a3.block b).next = none := by
    rw [ha3, ha2]
    simp only [emit_block, create_block]
    rw [ha1, link_next_ne _ _ _ (.inr (by simp))]
    exact hr.opn.next
  have p6 : Post [b] s s6 := by rw [h6]; exact p3.create.link (by simp; omega) th3 (by simp) (hx := nonext nx3)
  have n6 : s6.n = s.n + 2 := by rw [h6]; simp; omega
  have c3 : a3.code (s.n + 1) = [] := by
    rw [ha3, emit_code_ne _ _ (by omega)]
    exact (f2 _ (by omega)).1
  have o3' : Open a3 (s.n + 1) := by
    rw [ha3]
    exact (f2 _ (by omega)).2.create.emit _ _ (.inr hic)
  refine ⟨p6, n6, ⟨p6.fresh hr.fresh, by omega, ?_⟩, ?_, ?_, ?_, ?_⟩
  · rw [h6]; exact o3'.create.link (by omega)
  · rw [h6]; exact c3
  · rw [h6]
    show a3.code s.n = ic
    rw [ha3, emit_code_self]
    show a2.code s.n ++ ic = ic
    rw [(f2 _ (Nat.le_refl _)).1]
    rfl
  · rw [h6, ha3]
    exact (o3.emit _ _ (.inr hic)).create.link (by omega)
  · intro F hF σ
    refine hF.branchStep (pre := s.code b) ?_ ?_ ?_ σ
    · rw [h6]
      show a3.code b = _
      rw [ha3, emit_code_ne _ _ (by omega)]
      show a2.code b = _
      rw [ha2, emit_code_self, ha1]
      rfl
    · rw [h6]; simp
    · rw [h6, link_else_ne _ _ _ (.inr (by simp)), ha3, ha2]
      simp only [emit_block, create_block]
      rw [ha1]
      simp

theorem for_stmt (B : Basic M) {init c inc : Option Expr} {one : Nat} {b : Stmt} (hi : ∀ e, init = some e → e.Plain H)
    (hc : ∀ e, c = some e → e.Plain H) (h1 : H.mem one = false) (hinc : ∀ e, inc = some e → e.Plain H ∧ e.straight = true)
    (hcc : optCode inc ≠ [] ∨ b.conts = false ∨ b.completes = true) (hb : StmtOk M H b) : StmtOk M H (.for_ init c one inc b) := by
  intro s bb s' bb' hr hs h
  simp only [lowerS, PS.connect, Option.map_some, Option.bind_some, Option.bind_eq_some_iff] at h
  obtain ⟨ri, k1, h⟩ := h
  obtain ⟨s1, hs1⟩ : ∃ s1, s1 = s.create.link bb s.n .next := ⟨_, rfl⟩
  obtain ⟨p1, r1, n1, c1, _, g1⟩ := enter_ok (M := M) (H := H) hr hs1
  rw [← hs1] at k1
  obtain ⟨s2, b2, rfl, p2, e2⟩ := opt_ok B hi r1 k1
  have r2 := p2.ready r1
  have lt2 := r2.lt
  simp only [Option.map_some, Option.some.injEq, exists_eq_left'] at h
  obtain ⟨s3, hs3⟩ : ∃ s3, s3 = s2.create.create.link b2 s2.n .next := ⟨_, rfl⟩
  rw [← hs3] at h
  have p3 : Post [b2] s2 s3 := by
    rw [hs3]; exact ((Post.nil s2).create.create).link (by simp; omega) (r2.opn.create.create.ptr _) (by simp) (fun _ => r2.opn.clean)
  have n3 : s3.n = s2.n + 2 := by rw [hs3]; rfl
  have f3 : ∀ k, s2.n ≤ k → s3.code k = [] ∧ Open s3 k := by
    intro k hk
    rw [hs3]
    exact ⟨(r2.fresh k hk).1, (r2.fresh k hk).2.create.create.link (by omega)⟩
  have r3 : Ready s3 s2.n := ⟨p3.fresh r2.fresh, by omega, (f3 _ (Nat.le_refl _)).2⟩
  obtain ⟨rc, k2, h⟩ := h
  obtain ⟨s4, b4, v, rfl, p4, e4⟩ := forC_ok B hc h1 r3 k2
  have r4 := p4.ready r3
  have n4 := p4.post.n
  have lt4 := r4.lt
  have y4 := p4.post.same (s2.n + 1) (by omega) (by simp)
  have yb4 : s2.n + 1 ≠ b4 := by
    rcases p4.new with h | h <;> omega
  simp only [Option.map_some, Option.some.injEq, exists_eq_left', emit_n, link_n, create_n] at h
  obtain ⟨rz, k3, h⟩ := h
  rw [inc_lower hinc, Option.some.injEq] at k3
  subst k3
  simp only [emit_n, create_n, link_n, Option.some.injEq, exists_eq_left', Option.getD_some] at h
  obtain ⟨⟨s9, q⟩, k4, h⟩ := h
  obtain ⟨s6, hs6⟩ : ∃ s6, s6 = ((((s4.link b4 (s2.n + 1) .else_).emit (some b4) [branchIns v]).create.emit (some s4.n)
      (optCode inc)).create.link b4 (s4.n + 1) .then_) := ⟨_, rfl⟩
  obtain ⟨p6, n6, r6, c6, z6, oz6, e6⟩ := for_head (M := M) (H := H) (inc_clean hinc) r4 (by omega) yb4 ((f3 _ (by omega)).2.same y4) hs6
  obtain ⟨t3, ht3⟩ : ∃ t3, t3 = s6.setBC ((s2.n + 1) :: s6.brk) (s4.n :: s6.cont) := ⟨_, rfl⟩
  have k4 : lowerS b t3 (some (s4.n + 1)) = some (s9, q) := by rw [ht3, hs6]; exact k4
  have rt3 : Ready t3 (s4.n + 1) := by rw [ht3]; exact r6.bc _ _
  have se3 : t3.se = [] := by rw [ht3]; simp [p6.se, p4.post.se, p3.se, p2.post.se, p1.se, hs]
  obtain ⟨p9, kc, e9⟩ := hb t3 (s4.n + 1) s9 q rt3 se3 k4
  have nt3 : t3.n = s4.n + 2 := by rw [ht3]; simp; omega
  have nn9 := p9.post.n
  have z9 := p9.post.same s4.n (by omega) (by simp)
  have oz9 : Open s9 s4.n := Open.same (by rw [ht3]; exact oz6.bc _ _) z9
  have cz9 : s9.code s4.n = optCode inc := z9.code.trans (by rw [ht3]; exact z6)
  obtain ⟨s10, hs10⟩ : ∃ s10, s10 = (match q with
    | some v => (s9.link v s4.n .next).link s4.n s2.n .next
    | none => if s9.code s4.n = [] then s9 else s9.link s4.n s2.n .next) := ⟨_, rfl⟩
  have H10 : Post [s4.n + 1, s4.n] t3 s10 ∧ (∃ V, Post V s9 s10) ∧ s10.code s4.n = optCode inc ∧
      (q ≠ none ∨ optCode inc ≠ [] → (s10.block s4.n).next = some s2.n) ∧
      (∀ z, q = some z → ∀ F, Le s10 F → ∀ σ : S M, Go M H F ⟨z, (s9.code z).length, σ⟩ ⟨s4.n, 0, σ⟩) := by
    have pz : Post [s4.n] s9 (s9.link s4.n s2.n .next) := post_link s9 s4.n s2.n .next (by omega) (oz9.ptr _) (fun _ => oz9.clean)
    cases q with
    | none =>
      simp only at hs10
      subst hs10
      split
      · rename_i hz
        refine ⟨p9.post.mono (by simp), ⟨[], Post.nil _⟩, cz9, ?_, fun z hz => by cases hz⟩
        intro h
        rcases h with h | h
        · exact absurd rfl h
        · rw [cz9] at hz; exact absurd hz h
      · refine ⟨(p9.post.mono (by simp)).trans pz (by simp), ⟨_, pz⟩, cz9, (fun _ => link_next _ _ _), fun z hz => by cases hz⟩
    | some z =>
      simp only at hs10
      subst hs10
      obtain ⟨lz, nz, oz⟩ := p9.end_ z rfl
      have hne : s4.n ≠ z := by rcases nz with h | h <;> omega
      have pl := post_link s9 z s4.n .next lz (oz.ptr _) (fun _ => oz.clean)
      have oz' : Open (s9.link z s4.n .next) s4.n := oz9.link hne
      have pl2 := post_link (s9.link z s4.n .next) s4.n s2.n .next (by simp; omega) (oz'.ptr _) (fun _ => oz'.clean)
      refine ⟨((p9.post.mono (by simp)).trans pl (by simp; omega)).trans pl2 (by simp),
        ⟨[z, s4.n], (pl.mono (by simp)).trans pl2 (by simp)⟩, cz9, (fun _ => link_next _ _ _), ?_⟩
      intro z' hz' F hF σ
      cases hz'
      exact (pl2.le.trans hF).jump (link_next _ _ _) σ
  obtain ⟨p310, ⟨V, p910⟩, cz10, nz10, T10⟩ := H10
  have brk10 : s10.brk = (s2.n + 1) :: s6.brk := by rw [p310.brk, ht3]; rfl
  have cont10 : s10.cont = s4.n :: s6.cont := by rw [p310.cont, ht3]; rfl
  have hb6 : s6.brk = s.brk := by rw [p6.brk, p4.post.brk, p3.brk, p2.post.brk, p1.brk]
  have hc6 : s6.cont = s.cont := by rw [p6.cont, p4.post.cont, p3.cont, p2.post.cont, p1.cont]
  have hs' : s' = s10.setBC s6.brk s6.cont ∧ bb' = some (s2.n + 1) := by
    have : ({ s10 with brk := s10.brk.tail, cont := s10.cont.tail } : PS) = s10.setBC s6.brk s6.cont := by
      rw [brk10, cont10]; rfl
    rw [← this, hs10]
    cases q with
    | none =>
      simp only [Option.map_eq_some_iff] at h
      obtain ⟨a, h, h'⟩ := h
      simp only [Prod.mk.injEq] at h'
      by_cases hz : s9.code s4.n = []
      · rw [if_pos hz] at h ⊢
        cases h
        exact ⟨h'.1.symm, h'.2.symm⟩
      · rw [if_neg hz] at h ⊢
        cases h
        exact ⟨h'.1.symm, h'.2.symm⟩
    | some z =>
      simp only [Option.map_some, Option.some.injEq, Prod.mk.injEq] at h
      exact ⟨h.1.symm, h.2.symm⟩
  obtain ⟨rfl, rfl⟩ := hs'
  have n10 := p310.n
  have y6 := p6.same (s2.n + 1) (by omega) (by simpa using yb4)
  have y10 : Same s6 s10 (s2.n + 1) := by
    have := p310.same (s2.n + 1) (by omega) (by simp; omega)
    rw [ht3] at this
    exact this.ofBC
  have y310 := (y4.trans y6).trans y10
  have cy10 : (s10.setBC s6.brk s6.cont).code (s2.n + 1) = [] := y310.code.trans (f3 _ (by omega)).1
  have oy10 := (f3 (s2.n + 1) (by omega)).2.same y310
  have pfin : Post [bb] s (s10.setBC s6.brk s6.cont) := by
    have a1 : Post [s4.n + 1, s4.n] s6 (s10.setBC s6.brk s6.cont) := by rw [ht3] at p310; exact p310.bc
    have a2 : Post [b4] s4 (s10.setBC s6.brk s6.cont) := p6.trans a1 (by simp)
    have a3 : Post [s2.n] s3 (s10.setBC s6.brk s6.cont) := p4.post.trans a2 (by simp; exact p4.new)
    have a4 : Post [b2] s2 (s10.setBC s6.brk s6.cont) := p3.trans a3 (by simp)
    have a5 : Post [s.n] s1 (s10.setBC s6.brk s6.cont) := p2.post.trans a4 (by simp; exact p2.new)
    exact p1.trans a5 (by simp)
  refine ⟨⟨pfin, ?_⟩, (fun _ => by simp), ?_⟩
  · intro k hk
    cases hk
    have := p2.post.n
    exact ⟨by simp; omega, .inr (by omega), oy10.bc _ _⟩
  · intro N F hF σ
    have hF10 : Le s10 F := hF.ofBC
    have hF9 : Le s9 F := p910.le.trans hF10
    have hFt3 : Le t3 F := p9.post.le.trans hF9
    have hF6 : Le s6 F := by rw [ht3] at hFt3; exact hFt3.ofBC
    have hF4 : Le s4 F := p6.le.trans hF6
    have hF3 : Le s3 F := p4.post.le.trans hF4
    have hF2 : Le s2 F := p3.le.trans hF3
    have hF1 : Le s1 F := p2.post.le.trans hF2
    have cx3 : s3.code s2.n = [] := (f3 _ (Nat.le_refl _)).1
    have ct3 : t3.code (s4.n + 1) = [] := by rw [ht3]; exact c6
    simp only [exec]
    cases hin : fullOpt M H init σ with
    | none => trivial
    | some σ0 =>
      have gi := e2 F hF2 σ σ0 hin
      rw [c1] at gi
      have gx : Go M H F ⟨b2, (s2.code b2).length, σ0⟩ ⟨s2.n, 0, σ0⟩ := by
        have : s3.code b2 = s2.code b2 := by rw [hs3]; rfl
        rw [← this]
        exact hF3.jump (by rw [hs3]; exact link_next _ _ _) σ0
      refine (iter_reach (N := N) (c0 := fun σ => ⟨s2.n, 0, σ⟩) ?_ N (Nat.le_refl _) σ0).before (((g1 F hF1 σ).trans gi).trans gx)
      intro σ
      have key : ∀ σ' tt, forTest M H c one σ = some (σ', tt) →
          ∃ k, 0 < k ∧ St M H F k ⟨s2.n, 0, σ⟩ ⟨if tt then s4.n + 1 else s2.n + 1, 0, σ'⟩ := by
        intro σ' tt htt
        obtain ⟨a1, a2⟩ := e4 F hF4 σ σ' tt htt
        have := e6 F hF6 σ'
        rw [a2] at this
        rw [cx3] at a1
        exact a1.thenStep this
      unfold forTurn
      cases htt : forTest M H c one σ with
      | none => exact ⟨(fun _ h => by cases h), (fun r h => by cases h; trivial)⟩
      | some x =>
        obtain ⟨σ', tt⟩ := x
        obtain ⟨k, hk, hst⟩ := key σ' tt htt
        cases tt with
        | false =>
          refine ⟨(fun _ h => by cases h), ?_⟩
          intro r h
          cases h
          exact ⟨s2.n + 1, rfl, by rw [cy10]; exact ⟨k, hst⟩⟩
        | true =>
          have hbody := e9 N F hF9 σ'
          rw [ct3] at hbody
          refine body_turn (w := fun σ => ⟨s4.n, 0, σ⟩) hst hbody (fun z σ1 hz => T10 z hz F hF10 σ1) ?_ ?_ ?_ p910.exit
          · intro y σ1 hy
            rw [← p910.cont, cont10] at hy
            cases hy
            rfl
          · intro σ1 hreach
            have hz : (s10.block s4.n).next = some s2.n := by
              refine nz10 ?_
              rcases hreach with ⟨_, hq⟩ | ⟨hr0, _⟩
              · exact .inl hq
              · rcases hcc with h | h | h
                · exact .inr h
                · exact absurd hr0 (exec_notCont N b h σ' σ1)
                · exact .inl (kc h)
            rw [inc_run hinc]
            cases hrun : run M H (optCode inc) σ1 with
            | none => exact ⟨(fun _ h => by simp at h), (fun r h => by simp at h; subst h; trivial)⟩
            | some σ2 =>
              refine ⟨?_, (fun r h => by simp at h)⟩
              intro σ3 h
              simp only [Turn.again.injEq] at h
              subst h
              have ga := hF10.steps (b := s4.n) (pre := []) (is := optCode inc) cz10 (inc_noBranch hinc) hrun
              obtain ⟨j, gj⟩ := ga.trans (hF10.jump hz σ2)
              exact ⟨j, by omega, gj⟩
          · intro y σ1 hy _
            rw [← p910.brk, brk10] at hy
            cases hy
            exact ⟨s2.n + 1, rfl, by rw [cy10]; exact Go.refl _ _⟩

end Shecc.Stmt
