import Verif.Lemmas.StmtCtl

/-! # Translation of loops -/

namespace Shecc.Stmt
open Shecc.Cfg
open CRename (Ins Mach Home run)
open CStmt

variable {M : Mach} {H : Home Nat}

/-! ### The targets of `break` and `continue` -/

def PS.setBC (s : PS) (b c : List Nat) : PS := { s with brk := b, cont := c }

@[simp] theorem setBC_n (s : PS) (b c : List Nat) : (s.setBC b c).n = s.n := rfl
@[simp] theorem setBC_code (s : PS) (b c : List Nat) : (s.setBC b c).code = s.code := rfl
@[simp] theorem setBC_block (s : PS) (b c : List Nat) : (s.setBC b c).block = s.block := rfl
@[simp] theorem setBC_brk (s : PS) (b c : List Nat) : (s.setBC b c).brk = b := rfl
@[simp] theorem setBC_cont (s : PS) (b c : List Nat) : (s.setBC b c).cont = c := rfl
@[simp] theorem setBC_se (s : PS) (b c : List Nat) : (s.setBC b c).se = s.se := rfl
@[simp] theorem setBC_exit (s : PS) (b c : List Nat) : (s.setBC b c).exit = s.exit := rfl

theorem Open.bc {s : PS} {k : Nat} (h : Open s k) (b c : List Nat) : Open (s.setBC b c) k :=
  ⟨h.next, h.then_, h.else_, h.clean⟩
theorem Ready.bc {s : PS} {k : Nat} (h : Ready s k) (b c : List Nat) : Ready (s.setBC b c) k :=
  ⟨fun x hx => ⟨(h.fresh x hx).1, (h.fresh x hx).2.bc b c⟩, h.lt, h.opn.bc b c⟩

theorem Le.ofBC {s F : PS} {b c : List Nat} (h : Le (s.setBC b c) F) : Le s F := ⟨h.code, h.next, h.then_, h.else_, h.frozen, h.prev⟩
theorem Le.toBC {s F : PS} {b c : List Nat} (h : Le s F) : Le s (F.setBC b c) := ⟨h.code, h.next, h.then_, h.else_, h.frozen, h.prev⟩
theorem Le.bcL {s F : PS} {b c : List Nat} (h : Le s F) : Le (s.setBC b c) F := ⟨h.code, h.next, h.then_, h.else_, h.frozen, h.prev⟩
theorem Same.ofBC {s t : PS} {b c : List Nat} {k : Nat} (h : Same (s.setBC b c) t k) : Same s t k := ⟨h.code, h.next, h.then_, h.else_⟩

/-- Targets set for a part of the translation and removed afterwards. -/
theorem Post.bc {V : List Nat} {s t : PS} {b c : List Nat} (h : Post V (s.setBC b c) t) : Post V s (t.setBC s.brk s.cont) := by
  refine ⟨⟨h.n, ?_, ?_, ?_, rfl, rfl, h.se, h.exit, h.sym⟩, h.ends⟩
  · intro k hk hv
    have := h.same k hk hv
    exact ⟨this.code, this.next, this.then_, this.else_⟩
  · exact h.le.toBC.ofBC
  · intro f k hk
    have f' : Fresh (s.setBC b c) := fun x hx => ⟨(f x hx).1, (f x hx).2.bc b c⟩
    have := h.fresh f' k hk
    exact ⟨this.1, this.2.bc _ _⟩

/-! ### Turns of a loop -/

theorem iter_reach {F : PS} {N : Nat} {c0 : S M → Conf M} {f : S M → Turn (S M)} {s' : PS} {bb' : Option Nat}
    (h : ∀ σ, (∀ σ', f σ = .again σ' → ∃ k, 0 < k ∧ St M H F k (c0 σ) (c0 σ')) ∧
      ∀ r, f σ = .done r → Reach F N (c0 σ) s' bb' H r) :
    ∀ m, m ≤ N → ∀ σ, Reach F m (c0 σ) s' bb' H (iter f m σ) := by
  intro m
  induction m with
  | zero =>
    intro _ σ
    exact ⟨0, _, Nat.le_refl _, .refl _⟩
  | succ m ih =>
    intro hm σ
    simp only [iter]
    cases hf : f σ with
    | again σ' =>
      obtain ⟨k, hk, hs⟩ := (h σ).1 σ' hf
      have := ih (by omega) σ'
      simp only
      cases hr : iter f m σ' with
      | timeout =>
        rw [hr] at this
        exact GoN.more hs hk this
      | undef => trivial
      | ok o σ1 =>
        rw [hr] at this
        have := Reach.before (H := H) ⟨k, hs⟩ this
        cases o <;> exact this
    | done r => exact ((h σ).2 r hf).less hm

theorem Go.thenStep {F : PS} {c d e : Conf M} (h : Go M H F c d) (k : St M H F 1 d e) : ∃ n, 0 < n ∧ St M H F n c e := by
  obtain ⟨j, h⟩ := h
  exact ⟨j + 1, by omega, steps_trans h k⟩

theorem stepsGo {F : PS} {n : Nat} {c d e : Conf M} (hn : 0 < n) (h : St M H F n c d) (k : Go M H F d e) :
    ∃ n, 0 < n ∧ St M H F n c e := by
  obtain ⟨j, k⟩ := k
  exact ⟨n + j, by omega, steps_trans h k⟩

/-- What a turn of a loop does after the start of the body at `d`; `w`: where the loop goes on after the body. -/
theorem body_turn {F : PS} {N k : Nat} {c d : Conf M} {c0 w : S M → Conf M} {s4 s' : PS} {q bb' : Option Nat} {r0 : Res (S M)}
    {kont : S M → Turn (S M)} (hst : St M H F k c d) (hb : Reach F N d s4 q H r0)
    (hnorm : ∀ (z : Nat) (σ1 : S M), q = some z → Go M H F ⟨z, (s4.code z).length, σ1⟩ (w σ1))
    (hcont : ∀ (y : Nat) (σ1 : S M), s4.cont.head? = some y → w σ1 = ⟨y, 0, σ1⟩)
    (hkont : ∀ (σ1 : S M), (r0 = .ok .normal σ1 ∧ q ≠ none) ∨ (r0 = .ok .cont σ1 ∧ ∃ y, s4.cont.head? = some y ∧ (s4.block y).prev ≠ []) →
      (∀ σ', kont σ1 = .again σ' → ∃ j, 0 < k + j ∧ St M H F j (w σ1) (c0 σ')) ∧
      ∀ r, kont σ1 = .done r → Reach F N (w σ1) s' bb' H r)
    (hbrk : ∀ (y : Nat) (σ1 : S M), s4.brk.head? = some y → (s4.block y).prev ≠ [] → Reach F N ⟨y, 0, σ1⟩ s' bb' H (.ok .normal σ1))
    (hexit : s'.exit = s4.exit) :
    (∀ σ', bodyTurn kont r0 = .again σ' → ∃ k, 0 < k ∧ St M H F k c (c0 σ')) ∧
      ∀ r, bodyTurn kont r0 = .done r → Reach F N c s' bb' H r := by
  have go : Go M H F c d := ⟨k, hst⟩
  match r0, hb with
  | .undef, _ => exact ⟨(fun _ h => by simp [bodyTurn] at h), (fun r h => by simp [bodyTurn] at h; subst h; trivial)⟩
  | .timeout, hb => exact ⟨(fun _ h => by simp [bodyTurn] at h), (fun r h => by simp [bodyTurn] at h; subst h; exact go.thenN hb)⟩
  | .ok .normal σ1, ⟨z, hz, g⟩ =>
    obtain ⟨k1, k2⟩ := hkont σ1 (.inl ⟨rfl, by simp [hz]⟩)
    have g' := g.trans (hnorm z σ1 hz)
    refine ⟨?_, ?_⟩
    · intro σ' h
      simp only [bodyTurn] at h
      obtain ⟨j, hj, hs⟩ := k1 σ' h
      obtain ⟨i, g'⟩ := g'
      exact ⟨k + (i + j), by omega, steps_trans hst (steps_trans g' hs)⟩
    · intro r h
      simp only [bodyTurn] at h
      exact (k2 r h).before (go.trans g')
  | .ok .cont σ1, ⟨y, hy, hp, g⟩ =>
    obtain ⟨k1, k2⟩ := hkont σ1 (.inr ⟨rfl, y, hy, hp⟩)
    rw [← hcont y σ1 hy] at g
    refine ⟨?_, ?_⟩
    · intro σ' h
      simp only [bodyTurn] at h
      obtain ⟨j, hj, hs⟩ := k1 σ' h
      obtain ⟨i, g⟩ := g
      exact ⟨k + (i + j), by omega, steps_trans hst (steps_trans g hs)⟩
    · intro r h
      simp only [bodyTurn] at h
      exact (k2 r h).before (go.trans g)
  | .ok .brk σ1, ⟨y, hy, hp, g⟩ =>
    refine ⟨(fun _ h => by simp [bodyTurn] at h), ?_⟩
    intro r h
    simp only [bodyTurn, Turn.done.injEq] at h
    subst h
    exact (hbrk y σ1 hy hp).before (go.trans g)
  | .ok .ret σ1, g =>
    refine ⟨(fun _ h => by simp [bodyTurn] at h), ?_⟩
    intro r h
    simp only [bodyTurn, Turn.done.injEq] at h
    subst h
    show Go M H F _ ⟨s'.exit, 0, σ1⟩
    rw [hexit]
    exact go.trans g

theorem while_stmt (B : Basic M) {c : Expr} {b : Stmt} (hc : c.Plain H) (hb : StmtOk M H b) : StmtOk M H (.while_ c b) := by
  intro s bb s' bb' hr hs h
  simp only [lowerS, PS.connect, Option.map_some, Option.bind_some, Option.bind_eq_some_iff] at h
  obtain ⟨r, h1, h2⟩ := h
  obtain ⟨s1, hs1⟩ : ∃ s1, s1 = s.create.link bb s.n .next := ⟨_, rfl⟩
  obtain ⟨p1, r1, n1, c1, _, g1⟩ := enter_ok (M := M) (H := H) hr hs1
  obtain ⟨t1, ht1⟩ : ∃ t1, t1 = s1.create.setBC s1.brk (s.n :: s1.cont) := ⟨_, rfl⟩
  have h1 : lowerC c t1 (some s.n) = some r := by rw [ht1, hs1]; exact h1
  have rt1 : Ready t1 s.n := by
    rw [ht1]
    exact Ready.bc ⟨(post_create s1).fresh r1.fresh, by simp; omega, r1.opn.create⟩ _ _
  obtain ⟨s2, b2, rfl, p2, e2⟩ := cond_ok B hc rt1 h1
  have r2 := p2.ready rt1
  simp only [Option.map_some, Option.bind_some, Option.map_eq_some_iff, emit_n, Option.some.injEq, exists_eq_left'] at h2
  obtain ⟨s3, hs3⟩ : ∃ s3, s3 = (((s2.emit (some b2) [branchIns c.res]).create.create.link b2 s2.n .then_).link b2 (s2.n + 1) .else_) :=
    ⟨_, rfl⟩
  rw [← hs3] at h2
  obtain ⟨p3, n3, rx, ry, cx, cy, vx, vy, e3⟩ := branch_ok (M := M) (H := H) r2 hs3
  obtain ⟨⟨s4, q⟩, h3, h4⟩ := h2
  obtain ⟨t3, ht3⟩ : ∃ t3, t3 = s3.setBC ((s2.n + 1) :: s3.brk) s3.cont := ⟨_, rfl⟩
  have h3 : lowerS b t3 (some s2.n) = some (s4, q) := by rw [ht3]; exact h3
  have rx3 : Ready t3 s2.n := by rw [ht3]; exact rx.bc _ _
  have se1 : t1.se = [] := by rw [ht1]; simp [p1.se, hs]
  have se3 : t3.se = [] := by rw [ht3]; simp [p3.se, p2.post.se, se1]
  obtain ⟨p4, _, e4⟩ := hb t3 s2.n s4 q rx3 se3 h3
  have nt1 : t1.n = s.n + 2 := by rw [ht1]; simp; omega
  have nt3 : t3.n = s2.n + 2 := by rw [ht3]; simp; omega
  have nn2 := p2.post.n
  have nn4 := p4.post.n
  have lt2 := r2.lt
  obtain ⟨s5, hs5⟩ : ∃ s5, s5 = (match q with
    | none => s4
    | some z => s4.link z s.n .next) := ⟨_, rfl⟩
  have H5 : Post [s2.n] t3 s5 ∧ Post q.toList s4 s5 ∧ (∀ z, q = some z → ∀ F, Le s5 F → ∀ σ : S M,
      Go M H F ⟨z, (s4.code z).length, σ⟩ ⟨s.n, 0, σ⟩) := by
    cases q with
    | none =>
      simp only at hs5
      subst hs5
      exact ⟨p4.post, Post.nil _, fun z hz => by cases hz⟩
    | some z =>
      simp only at hs5
      subst hs5
      obtain ⟨lz, nz, oz⟩ := p4.end_ z rfl
      have pl := post_link s4 z s.n .next lz (oz.ptr _) (fun _ => oz.clean)
      refine ⟨p4.post.trans pl (by simpa using nz), pl, ?_⟩
      intro z' hz' F hF σ
      cases hz'
      exact hF.jump (link_next _ _ _) σ
  obtain ⟨p35, p45, T5⟩ := H5
  have brk5 : s5.brk = (s2.n + 1) :: s3.brk := by rw [p35.brk, ht3]; rfl
  have cont5 : s5.cont = s.n :: s1.cont := by rw [p35.cont, ht3]; simp only [setBC_cont]; rw [p3.cont, p2.post.cont, ht1]; rfl
  have hbrk3 : s3.brk = s1.brk := by rw [p3.brk, p2.post.brk, ht1]; rfl
  have hs' : s' = s5.setBC s1.brk s1.cont ∧ bb' = some (s2.n + 1) := by
    have : ({ s5 with brk := s5.brk.tail, cont := s5.cont.tail } : PS) = s5.setBC s1.brk s1.cont := by
      rw [brk5, cont5, ← hbrk3]; rfl
    rw [← this, hs5]
    cases q <;> simp only [Prod.mk.injEq] at h4 <;> exact ⟨h4.1.symm, h4.2.symm⟩
  obtain ⟨rfl, rfl⟩ := hs'
  have y5 : Same s3 s5 (s2.n + 1) := by
    have := p35.same (s2.n + 1) (by omega) (by simp)
    rw [ht3] at this
    exact this.ofBC
  have pfin : Post [bb] s (s5.setBC s1.brk s1.cont) := by
    have a1 : Post [s2.n] s3 (s5.setBC s3.brk s3.cont) := by rw [ht3] at p35; exact p35.bc
    have a2 : Post [b2] s2 (s5.setBC s3.brk s3.cont) := p3.trans a1 (by simp)
    have a3 : Post [s.n] t1 (s5.setBC s3.brk s3.cont) := p2.post.trans a2 (by simp; exact p2.new)
    have a4 : Post [s.n] s1.create ((s5.setBC s3.brk s3.cont).setBC s1.create.brk s1.create.cont) := by rw [ht1] at a3; exact a3.bc
    exact (p1.create).trans a4 (by simp)
  refine ⟨⟨pfin, ?_⟩, (fun _ => by simp), ?_⟩
  · intro k hk
    cases hk
    exact ⟨by have := p35.n; simp; omega, .inr (by omega), (ry.opn.same y5).bc _ _⟩
  · intro N F hF σ
    have hF5 : Le s5 F := hF.ofBC
    have hF4 : Le s4 F := p45.le.trans hF5
    have hF3' : Le t3 F := p4.post.le.trans hF4
    have hF3 : Le s3 F := by rw [ht3] at hF3'; exact hF3'.ofBC
    have hF2 : Le s2 F := p3.le.trans hF3
    have hFt1 : Le t1 F := p2.post.le.trans hF2
    have hF1 : Le s1 F := by rw [ht1] at hFt1; exact (post_create s1).le.trans hFt1.ofBC
    have ct1 : t1.code s.n = [] := by rw [ht1]; exact c1
    have ct3 : t3.code s2.n = [] := by rw [ht3]; exact cx
    refine (iter_reach (N := N) (c0 := fun σ => ⟨s.n, 0, σ⟩) ?_ N (Nat.le_refl _) σ).before (g1 F hF1 σ)
    intro σ
    have key : ∀ σ' tt, test M H c σ = some (σ', tt) →
        ∃ k, 0 < k ∧ St M H F k ⟨s.n, 0, σ⟩ ⟨if tt then s2.n else s2.n + 1, 0, σ'⟩ := by
      intro σ' tt htt
      obtain ⟨a1, a2⟩ := e2 F hF2 σ σ' tt htt
      have := e3 F hF3 σ'
      rw [a2] at this
      rw [ct1] at a1
      exact a1.thenStep this
    unfold whileTurn
    cases htt : test M H c σ with
    | none => exact ⟨(fun _ h => by cases h), (fun r h => by cases h; trivial)⟩
    | some x =>
      obtain ⟨σ', tt⟩ := x
      obtain ⟨k, hk, hst⟩ := key σ' tt htt
      have cy5 : (s5.setBC s1.brk s1.cont).code (s2.n + 1) = [] := y5.code.trans cy
      cases tt with
      | false =>
        refine ⟨(fun _ h => by cases h), ?_⟩
        intro r h
        cases h
        refine ⟨s2.n + 1, rfl, ?_⟩
        rw [cy5]
        exact ⟨k, hst⟩
      | true =>
        have hbody := e4 N F hF4 σ'
        rw [ct3] at hbody
        refine body_turn (w := fun σ => ⟨s.n, 0, σ⟩) hst hbody (fun z σ1 hz => T5 z hz F hF5 σ1) ?_ ?_ ?_ p45.exit
        · intro y σ1 hy
          rw [← p45.cont, cont5] at hy
          cases hy
          rfl
        · intro σ1 _
          refine ⟨?_, (fun r h => by cases h)⟩
          intro σ2 h
          cases h
          exact ⟨0, by omega, .refl _⟩
        · intro y σ1 hy _
          rw [← p45.brk, brk5] at hy
          cases hy
          exact ⟨s2.n + 1, rfl, by rw [cy5]; exact Go.refl _ _⟩

theorem do_stmt (B : Basic M) {c : Expr} {b : Stmt} (hc : c.Plain H) (hb : StmtOk M H b) : StmtOk M H (.doWhile b c) := by
  intro s bb s' bb' hr hs h
  simp only [lowerS, PS.connect, Option.map_some, Option.bind_some, Option.bind_eq_some_iff] at h
  obtain ⟨⟨s4, q⟩, h1, h2⟩ := h
  obtain ⟨s1, hs1⟩ : ∃ s1, s1 = s.create.link bb s.n .next := ⟨_, rfl⟩
  obtain ⟨p1, r1, n1, c1, _, g1⟩ := enter_ok (M := M) (H := H) hr hs1
  obtain ⟨t1, ht1⟩ : ∃ t1, t1 = s1.create.create.setBC ((s1.n + 1) :: s1.brk) (s1.n :: s1.cont) := ⟨_, rfl⟩
  have h1 : lowerS b t1 (some s.n) = some (s4, q) := by rw [ht1, hs1]; exact h1
  have fcc : Fresh s1.create.create := (post_create _).fresh ((post_create s1).fresh r1.fresh)
  have rt1 : Ready t1 s.n := by
    rw [ht1]
    exact Ready.bc ⟨fcc, by simp; omega, r1.opn.create.create⟩ _ _
  have se1 : t1.se = [] := by rw [ht1]; simp [p1.se, hs]
  obtain ⟨p4, _, e4⟩ := hb t1 s.n s4 q rt1 se1 h1
  have nt1 : t1.n = s.n + 3 := by rw [ht1]; simp; omega
  have nn4 := p4.post.n
  have lt := hr.lt
  have x1 : Open t1 s1.n ∧ t1.code s1.n = [] := by
    rw [ht1]
    exact ⟨(r1.fresh s1.n (Nat.le_refl _)).2.create.create.bc _ _, (r1.fresh s1.n (Nat.le_refl _)).1⟩
  have y1 : Open t1 (s1.n + 1) ∧ t1.code (s1.n + 1) = [] := by
    rw [ht1]
    exact ⟨(r1.fresh (s1.n + 1) (by omega)).2.create.create.bc _ _, (r1.fresh (s1.n + 1) (by omega)).1⟩
  obtain ⟨s5, hs5⟩ : ∃ s5, s5 = (match q with
    | none => s4
    | some z => s4.link z s1.n .next) := ⟨_, rfl⟩
  have H5 : Post [s.n] t1 s5 ∧ Post q.toList s4 s5 ∧ (∀ z, q = some z → (s5.block s1.n).prev ≠ [] ∧ ∀ F, Le s5 F → ∀ σ : S M,
      Go M H F ⟨z, (s4.code z).length, σ⟩ ⟨s1.n, 0, σ⟩) := by
    cases q with
    | none =>
      simp only at hs5
      subst hs5
      exact ⟨p4.post, Post.nil _, fun z hz => by cases hz⟩
    | some z =>
      simp only at hs5
      subst hs5
      obtain ⟨lz, nz, oz⟩ := p4.end_ z rfl
      have pl := post_link s4 z s1.n .next lz (oz.ptr _) (fun _ => oz.clean)
      refine ⟨p4.post.trans pl (by simpa using nz), pl, ?_⟩
      intro z' hz'
      cases hz'
      exact ⟨link_prev_ne _ _ _ _, fun F hF σ => hF.jump (link_next _ _ _) σ⟩
  obtain ⟨p15, p45, T5⟩ := H5
  have nn5 := p15.n
  have x5 := p15.same s1.n (by omega) (by simp; omega)
  have y5 := p15.same (s1.n + 1) (by omega) (by simp; omega)
  have r5 : Ready s5 s1.n := ⟨p15.fresh rt1.fresh, by omega, x1.1.same x5⟩
  have h2' : ∃ r, lowerC c s5 (some s1.n) = some r ∧ (s', bb') = (
      let u := r.1.emit r.2.1 [branchIns r.2.2]
      let u := match r.2.1 with
        | none => u
        | some z => if (u.block z).prev = [] then u else (u.link z s.n .then_).link z (s1.n + 1) .else_
      ({ u with brk := u.brk.tail, cont := u.cont.tail }, some (s1.n + 1))) := by
    rw [hs5, hs1]
    simp only [Option.map_eq_some_iff] at h2
    obtain ⟨r, k1, k2⟩ := h2
    refine ⟨r, ?_, ?_⟩
    · cases q <;> exact k1
    · rw [← k2]
      cases r.2.1 <;> rfl
  obtain ⟨r, k1, k2⟩ := h2'
  obtain ⟨s6, b6, rfl, p6, e6⟩ := cond_ok B hc r5 k1
  have r6 := p6.ready r5
  have nn6 := p6.post.n
  obtain ⟨s7, hs7⟩ : ∃ s7, s7 = s6.emit (some b6) [branchIns c.res] := ⟨_, rfl⟩
  have p7 : Post [b6] s6 s7 := by rw [hs7]; exact post_emit _ _ _ r6.lt r6.opn.notFrozen r6.opn.clean (Tail.single _)
  have q7 : (s7.block b6).then_ = none ∧ (s7.block b6).else_ = none := by rw [hs7]; exact ⟨r6.opn.then_, r6.opn.else_⟩
  obtain ⟨s8, hs8⟩ : ∃ s8, s8 = (if (s7.block b6).prev = [] then s7 else (s7.link b6 s.n .then_).link b6 (s1.n + 1) .else_) := ⟨_, rfl⟩
  have lb6 := r6.lt
  have nn7 : s7.n = s6.n := by rw [hs7]; simp
  have p8 : Post [b6] s7 s8 := by
    rw [hs8]
    split
    · exact Post.nil _
    · have q8 : (s7.block b6).next = none := by rw [hs7]; exact r6.opn.next
      refine Post.link (Post.link (k := .then_) (Post.nil s7) (by omega) q7.1 (by simp) (hx := nonext q8)) (by simp; omega) ?_ (by simp) (hx := nonext q8)
      show Block.else_ _ = none
      rw [link_else_ne _ _ _ (.inr (by simp))]
      exact q7.2
  have p58 : Post [s1.n] s5 s8 := by
    have p67 : Post [b6] s6 s8 := p7.trans p8 (by simp)
    refine p6.post.trans p67 ?_
    intro x hx
    simp at hx
    subst hx
    rcases p6.new with h | h
    · left; simp [h]
    · right; exact h
  have p18 : Post [s.n, s1.n] t1 s8 := (p15.mono (by simp)).trans p58 (by simp)
  have brk8 : s8.brk = (s1.n + 1) :: s1.brk := by rw [p18.brk, ht1]; rfl
  have cont8 : s8.cont = s1.n :: s1.cont := by rw [p18.cont, ht1]; rfl
  have brk4 : s4.brk = (s1.n + 1) :: s1.brk := by rw [p4.post.brk, ht1]; rfl
  have cont4 : s4.cont = s1.n :: s1.cont := by rw [p4.post.cont, ht1]; rfl
  have hs' : s' = s8.setBC s1.brk s1.cont ∧ bb' = some (s1.n + 1) := by
    have : ({ s8 with brk := s8.brk.tail, cont := s8.cont.tail } : PS) = s8.setBC s1.brk s1.cont := by
      rw [brk8, cont8]; rfl
    rw [← this, hs8, hs7]
    simp only [Prod.mk.injEq] at k2
    exact k2
  obtain ⟨rfl, rfl⟩ := hs'
  have y58 := p58.same (s1.n + 1) (by omega) (by simp)
  have cy8 : (s8.setBC s1.brk s1.cont).code (s1.n + 1) = [] := y58.code.trans (y5.code.trans y1.2)
  have pfin : Post [bb] s (s8.setBC s1.brk s1.cont) := by
    have a1 : Post [s.n, s1.n] s1.create.create ((s8).setBC s1.create.create.brk s1.create.create.cont) := by
      rw [ht1] at p18; exact p18.bc
    exact (p1.create.create).trans a1 (by simp; omega)
  refine ⟨⟨pfin, ?_⟩, (fun _ => by simp), ?_⟩
  · intro k hk
    cases hk
    exact ⟨by have := p58.n; simp; omega, .inr (by omega), ((y1.1.same y5).same y58).bc _ _⟩
  · intro N F hF σ
    have hF8 : Le s8 F := hF.ofBC
    have hF7 : Le s7 F := p8.le.trans hF8
    have hF6 : Le s6 F := p7.le.trans hF7
    have hF5 : Le s5 F := p6.post.le.trans hF6
    have hF4 : Le s4 F := p45.le.trans hF5
    have hFt1 : Le t1 F := p4.post.le.trans hF4
    have hF1 : Le s1 F := by rw [ht1] at hFt1; exact ((post_create s1).create).le.trans hFt1.ofBC
    have ct1 : t1.code s.n = [] := by rw [ht1]; exact c1
    have cx5 : s5.code s1.n = [] := x5.code.trans x1.2
    refine (iter_reach (N := N) (c0 := fun σ => ⟨s.n, 0, σ⟩) ?_ N (Nat.le_refl _) σ).before (g1 F hF1 σ)
    intro σ
    have hbody := e4 N F hF4 σ
    rw [ct1] at hbody
    refine body_turn (w := fun σ => ⟨s1.n, 0, σ⟩) (.refl _) hbody (fun z σ1 hz => (T5 z hz).2 F hF5 σ1) ?_ ?_ ?_ (by
      show s8.exit = _
      rw [p58.exit, p45.exit])
    · intro y σ1 hy
      rw [cont4] at hy
      cases hy
      rfl
    · intro σ1 hreach
      -- the block of the condition has a predecessor
      have hx : (s5.block s1.n).prev ≠ [] := by
        rcases hreach with ⟨_, hq⟩ | ⟨_, y, hy, hp⟩
        · obtain ⟨z, hz⟩ := Option.ne_none_iff_exists'.mp hq
          exact (T5 z hz).1
        · rw [cont4] at hy
          cases hy
          exact p45.le.prev _ hp
      have hb6 : (s7.block b6).prev ≠ [] := by
        rw [hs7]
        show (s6.block b6).prev ≠ []
        by_cases hbx : b6 = s1.n
        · subst hbx
          exact p6.post.le.prev _ hx
        · exact p6.prev hbx
      rw [if_neg hb6] at hs8
      have key : ∀ σ' tt, test M H c σ1 = some (σ', tt) →
          ∃ j, 0 < j ∧ St M H F j ⟨s1.n, 0, σ1⟩ ⟨if tt then s.n else s1.n + 1, 0, σ'⟩ := by
        intro σ' tt htt
        obtain ⟨a1, a2⟩ := e6 F hF6 σ1 σ' tt htt
        rw [cx5] at a1
        have := hF8.branchStep (M := M) (H := H) (b := b6) (x := s.n) (y := s1.n + 1) (v := c.res) (pre := s6.code b6) (by
          rw [hs8]
          show s7.code b6 = _
          rw [hs7]; simp) (by
          rw [hs8, link_then_ne _ _ _ (.inr (by simp))]; simp) (by rw [hs8]; simp) σ'
        rw [a2] at this
        exact a1.thenStep this
      cases htt : test M H c σ1 with
      | none => exact ⟨(fun _ h => by simp at h), (fun r h => by simp at h; subst h; trivial)⟩
      | some x =>
        obtain ⟨σ', tt⟩ := x
        obtain ⟨j, hj, hst⟩ := key σ' tt htt
        cases tt with
        | true =>
          refine ⟨?_, (fun r h => by cases h)⟩
          intro σ2 h
          cases h
          exact ⟨j, by omega, hst⟩
        | false =>
          refine ⟨(fun _ h => by cases h), ?_⟩
          intro r h
          cases h
          exact ⟨s1.n + 1, rfl, by rw [cy8]; exact ⟨j, hst⟩⟩
    · intro y σ1 hy _
      rw [brk4] at hy
      cases hy
      exact ⟨s1.n + 1, rfl, by rw [cy8]; exact Go.refl _ _⟩

end Shecc.Stmt
