import Verif.Lemmas.StmtExpr

/-! # Translation of statements -/

namespace Shecc.Stmt
open Shecc.Cfg
open CRename (Ins Mach Home run)
open CStmt

variable {M : Mach} {H : Home Nat}

/-! ### Unreachable code: nothing is translated -/

/-- No block has changed. -/
structure Still (s s' : PS) : Prop where
  n : s.n ≤ s'.n
  code : s'.code = s.code
  block : s'.block = s.block
  brk : s'.brk = s.brk
  cont : s'.cont = s.cont
  exit : s'.exit = s.exit

theorem Still.refl (s : PS) : Still s s := ⟨Nat.le_refl _, rfl, rfl, rfl, rfl, rfl⟩
theorem Still.trans {s t u : PS} (h : Still s t) (k : Still t u) : Still s u :=
  ⟨Nat.le_trans h.n k.n, k.code.trans h.code, k.block.trans h.block, k.brk.trans h.brk, k.cont.trans h.cont, k.exit.trans h.exit⟩

mutual
theorem lowerE_none (e : Expr) (s s' : PS) (b : Option Nat) (v : Nat) (h : lowerE e s none = some (s', b, v)) :
    b = none ∧ Still s s' := by
  match e with
  | .comp args code _ se =>
    simp only [lowerE, Option.map_eq_some_iff, Prod.mk.injEq] at h
    obtain ⟨r, h1, rfl, rfl, rfl⟩ := h
    obtain ⟨k1, k2⟩ := lowerArgs_none args s r.1 r.2 h1
    rw [k1]
    exact ⟨rfl, ⟨k2.n, k2.code, k2.block, k2.brk, k2.cont, k2.exit⟩⟩
  | .logic (.one (.one e)) tmp =>
    simp only [lowerE, lowerOrs, lowerAnds, Option.bind_eq_some_iff, Option.map_eq_some_iff, finish, Option.some.injEq,
      Prod.mk.injEq] at h
    obtain ⟨r, ⟨r', h1, rfl⟩, rfl, rfl, rfl⟩ := h
    obtain ⟨k1, k2⟩ := lowerE_none e _ r'.1 r'.2.1 r'.2.2 h1
    exact ⟨k1, Still.trans (t := s.create.create) ⟨by simp; omega, rfl, rfl, rfl, rfl, rfl⟩ k2⟩
  | .logic (.one (.more e r)) tmp =>
    simp only [lowerE, lowerOrs, lowerAnds, Option.bind_eq_some_iff] at h
    obtain ⟨_, ⟨q, h1, x, h2, _⟩, _⟩ := h
    obtain ⟨k1, _⟩ := lowerE_none e _ q.1 q.2.1 q.2.2 h1
    rw [k1] at h2
    simp [applyOp, readLogical, PS.connect] at h2
  | .logic (.more (.one e) r) tmp =>
    simp only [lowerE, lowerOrs, lowerAnds, Option.bind_eq_some_iff, Option.map_eq_some_iff] at h
    obtain ⟨_, ⟨q, h1, rfl⟩, x, h2, _⟩ := h
    obtain ⟨k1, _⟩ := lowerE_none e _ q.1 q.2.1 q.2.2 h1
    simp only [k1] at h2
    simp [applyOp, readLogical, PS.connect] at h2
  | .logic (.more (.more e r') r) tmp =>
    simp only [lowerE, lowerOrs, lowerAnds, Option.bind_eq_some_iff] at h
    obtain ⟨_, ⟨q, h1, x, h2, _⟩, _⟩ := h
    obtain ⟨k1, _⟩ := lowerE_none e _ q.1 q.2.1 q.2.2 h1
    rw [k1] at h2
    simp [applyOp, readLogical, PS.connect] at h2
  | .tern c a b' t =>
    simp only [lowerE, Option.bind_eq_some_iff] at h
    obtain ⟨r, h1, ra, h2, x, h3, _⟩ := h
    obtain ⟨k1, _⟩ := lowerE_none c _ r.1 r.2.1 r.2.2 h1
    rw [k1] at h3
    simp [PS.connect] at h3
theorem lowerArgs_none (es : Exprs) (s s' : PS) (b : Option Nat) (h : lowerArgs es s none = some (s', b)) :
    b = none ∧ Still s s' := by
  match es with
  | .nil =>
    simp only [lowerArgs, Option.some.injEq, Prod.mk.injEq] at h
    obtain ⟨rfl, rfl⟩ := h
    exact ⟨rfl, Still.refl _⟩
  | .cons e es =>
    simp only [lowerArgs, Option.bind_eq_some_iff] at h
    obtain ⟨r, h1, h2⟩ := h
    obtain ⟨k1, k2⟩ := lowerE_none e s r.1 r.2.1 r.2.2 h1
    rw [k1] at h2
    obtain ⟨k3, k4⟩ := lowerArgs_none es r.1 s' b h2
    exact ⟨k3, k2.trans k4⟩
end

theorem flush_nil {s : PS} (p : Option Nat) (h : s.se = []) : s.flush p = s := by
  unfold PS.flush
  rw [h, emit_nil]
  show ({ s with se := [] } : PS) = s
  rw [← h]

theorem lowerS_none (st : Stmt) (s s' : PS) (b : Option Nat) (h : lowerS st s none = some (s', b)) (hs : s.se = []) :
    b = none ∧ Still s s' ∧ s'.se = [] := by
  cases st with
  | expr e =>
    simp only [lowerS, Option.map_eq_some_iff, Prod.mk.injEq] at h
    obtain ⟨r, h1, rfl, rfl⟩ := h
    obtain ⟨k1, k2⟩ := lowerE_none e s r.1 r.2.1 r.2.2 h1
    rw [k1]
    exact ⟨rfl, ⟨k2.n, k2.code, k2.block, k2.brk, k2.cont, k2.exit⟩, rfl⟩
  | empty =>
    simp only [lowerS, Option.some.injEq, Prod.mk.injEq] at h
    obtain ⟨rfl, rfl⟩ := h
    exact ⟨rfl, Still.refl _, hs⟩
  | block ss => simp [lowerS] at h
  | ret e =>
    cases e with
    | none => simp [lowerS, PS.connect] at h
    | some e =>
      simp only [lowerS, Option.bind_eq_some_iff] at h
      obtain ⟨r, h1, h2⟩ := h
      obtain ⟨k1, k2⟩ := lowerE_none e s r.1 r.2.1 r.2.2 h1
      rw [k1] at h2
      simp [PS.connect] at h2
  | ite c t => simp [lowerS, PS.connect] at h
  | iteElse c t e => simp [lowerS, PS.connect] at h
  | while_ c b => simp [lowerS, PS.connect] at h
  | doWhile b c => simp [lowerS, PS.connect] at h
  | for_ i c o inc b => simp [lowerS, PS.connect] at h
  | switch_ e cs => simp [lowerS, PS.connect] at h
  | brk =>
    simp only [lowerS, Option.bind_eq_some_iff] at h
    obtain ⟨y, _, h2⟩ := h
    simp [PS.connect] at h2
  | cont =>
    simp only [lowerS, Option.bind_eq_some_iff] at h
    obtain ⟨y, _, h2⟩ := h
    simp [PS.connect] at h2

theorem lowerBody_none : ∀ (ss : Stmts) (s s' : PS) (b : Option Nat), lowerBody ss s none = some (s', b) → s.se = [] →
    b = none ∧ Still s s' ∧ s'.se = []
  | .nil, s, s', b, h, hs => by
    simp only [lowerBody, Option.some.injEq, Prod.mk.injEq] at h
    obtain ⟨rfl, rfl⟩ := h
    exact ⟨rfl, Still.refl _, hs⟩
  | .cons st ss, s, s', b, h, hs => by
    simp only [lowerBody, Option.bind_eq_some_iff] at h
    obtain ⟨r, h1, h2⟩ := h
    obtain ⟨k1, k2, k3⟩ := lowerS_none st s r.1 r.2 h1 hs
    rw [k1] at h2
    obtain ⟨j1, j2, j3⟩ := lowerBody_none ss r.1 s' b h2 k3
    exact ⟨j1, k2.trans j2, j3⟩

theorem Still.post {s s' : PS} (h : Still s s') (hs : s.se = []) (hs' : s'.se = []) : Post [] s s' := by
  have hb : ∀ b, Same s s' b := fun b => ⟨by rw [h.code], by rw [h.block], by rw [h.block], by rw [h.block]⟩
  refine ⟨⟨h.n, fun b _ _ => hb b, ⟨fun b => by rw [h.code]; exact List.prefix_refl _, fun b q k => by rw [h.block]; exact k,
    fun b q k => by rw [h.block]; exact k, fun b q k => by rw [h.block]; exact k, fun b _ => by rw [h.code],
    fun b k => by rw [h.block]; exact k⟩, ?_, h.brk, h.cont, hs'.trans hs.symm, h.exit,
    fun y a b => by rw [h.block]; exact y a b⟩, fun y b xs i ys e => by rw [h.block, h.exit]; rw [h.code] at e; exact y b xs i ys e⟩
  intro f b hb'
  have := f b (by have := h.n; omega)
  exact ⟨(hb b).code.trans this.1, this.2.same (hb b)⟩

/-! ### Statement of correctness -/

/-- What executing the graph from `c` does, for a result of executing the source. -/
def Reach (F : PS) (n : Nat) (c : Conf M) (s' : PS) (bb' : Option Nat) (H : Home Nat) : Res (S M) → Prop
  | .undef => True
  | .timeout => GoN M H F n c
  | .ok .normal σ' => ∃ b, bb' = some b ∧ Go M H F c ⟨b, (s'.code b).length, σ'⟩
  | .ok .brk σ' => ∃ y, s'.brk.head? = some y ∧ (s'.block y).prev ≠ [] ∧ Go M H F c ⟨y, 0, σ'⟩
  | .ok .cont σ' => ∃ y, s'.cont.head? = some y ∧ (s'.block y).prev ≠ [] ∧ Go M H F c ⟨y, 0, σ'⟩
  | .ok .ret σ' => Go M H F c ⟨s'.exit, 0, σ'⟩

theorem Reach.before {F : PS} {n : Nat} {c d : Conf M} {s' : PS} {bb' : Option Nat} {r : Res (S M)} (g : Go M H F c d)
    (h : Reach F n d s' bb' H r) : Reach F n c s' bb' H r := by
  match r, h with
  | .undef, _ => trivial
  | .timeout, h => exact g.thenN h
  | .ok .normal σ, ⟨b, h1, h2⟩ => exact ⟨b, h1, g.trans h2⟩
  | .ok .brk σ, ⟨b, h1, h2, h3⟩ => exact ⟨b, h1, h2, g.trans h3⟩
  | .ok .cont σ, ⟨b, h1, h2, h3⟩ => exact ⟨b, h1, h2, g.trans h3⟩
  | .ok .ret σ, h => exact g.trans h

/-- A result other than normal completion is not affected by further translation. -/
theorem Reach.later {F : PS} {n : Nat} {c : Conf M} {s' s'' : PS} {q q' : Option Nat} {V : List Nat} {r : Res (S M)}
    (h : Reach F n c s' q H r) (p : Post V s' s'') (hr : ∀ σ, r ≠ .ok .normal σ) : Reach F n c s'' q' H r := by
  match r, h with
  | .undef, _ => trivial
  | .timeout, h => exact h
  | .ok .normal σ, _ => exact absurd rfl (hr σ)
  | .ok .brk σ, ⟨b, h1, h2, h3⟩ => exact ⟨b, by rw [p.brk]; exact h1, p.le.prev b h2, h3⟩
  | .ok .cont σ, ⟨b, h1, h2, h3⟩ => exact ⟨b, by rw [p.cont]; exact h1, p.le.prev b h2, h3⟩
  | .ok .ret σ, h =>
    show Go M H F c ⟨s''.exit, 0, σ⟩
    rw [p.exit]
    exact h

theorem Reach.less {F : PS} {n m : Nat} {c : Conf M} {s' : PS} {bb' : Option Nat} {r : Res (S M)} (hm : m ≤ n)
    (h : Reach F n c s' bb' H r) : Reach F m c s' bb' H r := by
  match r, h with
  | .undef, _ => trivial
  | .timeout, ⟨k, d, hk, h⟩ => exact ⟨k, d, by omega, h⟩
  | .ok .normal σ, h => exact h
  | .ok .brk σ, h => exact h
  | .ok .cont σ, h => exact h
  | .ok .ret σ, h => exact h

/-- Translation of a statement from the open block `bb`. -/
structure SPost (s : PS) (bb : Nat) (s' : PS) (bb' : Option Nat) : Prop where
  post : Post [bb] s s'
  end_ : ∀ b, bb' = some b → b < s'.n ∧ (b = bb ∨ s.n ≤ b) ∧ Open s' b

def StmtOk (M : Mach) (H : Home Nat) (st : Stmt) : Prop := ∀ s bb s' bb', Ready s bb → s.se = [] →
  lowerS st s (some bb) = some (s', bb') → SPost s bb s' bb' ∧ (st.completes = true → bb' ≠ none) ∧
    ∀ n F, Le s' F → ∀ σ : S M, Reach F n ⟨bb, (s.code bb).length, σ⟩ s' bb' H (exec M H n st σ)

def BodyOk (M : Mach) (H : Home Nat) (ss : Stmts) : Prop := ∀ s bb s' bb', Ready s bb → s.se = [] →
  lowerBody ss s (some bb) = some (s', bb') → SPost s bb s' bb' ∧ (ss.completes = true → bb' ≠ none) ∧
    ∀ n F, Le s' F → ∀ σ : S M, Reach F n ⟨bb, (s.code bb).length, σ⟩ s' bb' H (execs M H n ss σ)

theorem EPost.spost {s s' : PS} {bb bb' : Nat} (h : EPost s bb s' bb') : SPost s bb s' (some bb') :=
  ⟨h.post, fun b hb => by cases hb; exact ⟨h.lt, h.new, h.opn⟩⟩

/-! ### Simple statements -/

theorem expr_stmt (B : Basic M) {e : Expr} (hg : e.Good H) (hn : e.noSe = true ∨ e.straight = true) : StmtOk M H (.expr e) := by
  intro s bb s' bb' hr hs h
  simp only [lowerS, Option.map_eq_some_iff, Prod.mk.injEq] at h
  obtain ⟨r, h1, h2, h3⟩ := h
  by_cases hn' : e.straight = true
  · rw [lowerE_straight e hn', Option.some.injEq] at h1
    subst h1
    simp only at h2 h3
    have e2 : s' = s.emit (some bb) (e.code ++ ses e) := by
      rw [← h2, hs, List.nil_append, ← emit_emit]
      show ({ s with code := _, se := [] } : PS) = { s with code := _ }
      rw [← hs]
      rfl
    subst h3
    have p := emit_epost hr (e.code ++ ses e) (Clean.append (straight_good e hn' hg).1 (straight_good e hn' hg).2)
    rw [e2]
    refine ⟨p.spost, fun _ => by simp, ?_⟩
    intro n F hF σ
    obtain ⟨g1, g2⟩ := straight_good e hn' hg
    simp only [exec, full, eval_straight e hn']
    cases h4 : run M H e.code σ with
    | none => trivial
    | some σ1 =>
      simp only [Option.map_some, Option.bind_some]
      cases h5 : run M H (ses e) σ1 with
      | none => trivial
      | some σ2 =>
        refine ⟨bb, rfl, ?_⟩
        refine hF.steps (emit_code_self s bb _) ?_ (by rw [run_append, h4]; exact h5)
        intro i hi
        rcases List.mem_append.mp hi with hi | hi
        · exact simple_nb (g1 i hi)
        · exact simple_nb (g2 i hi)
  · have hn : e.noSe = true := by
      rcases hn with h | h
      · exact h
      · exact absurd h hn'
    obtain ⟨s1, b1, k1, p1, e1⟩ := expr_ok B e hg hn s bb hr
    rw [k1, Option.some.injEq] at h1
    subst h1
    simp only at h2 h3
    subst h3
    rw [flush_nil _ (p1.post.se.trans hs)] at h2
    subst h2
    refine ⟨p1.spost, fun _ => by simp, ?_⟩
    intro n F hF σ
    simp only [exec, full]
    cases h4 : eval M H e σ with
    | none => trivial
    | some q =>
      rw [Option.bind_some, eval_noSe e hn σ q.1 q.2 h4]
      exact ⟨b1, rfl, e1 F hF σ q.1 q.2 h4⟩

/-- Ending a block with a jump. -/
theorem jump_post {s : PS} {bb q : Nat} (hr : Ready s bb) : SPost s bb (s.link bb q .next) none :=
  ⟨post_link s bb q .next hr.lt (hr.opn.ptr _) (fun _ => hr.opn.clean), fun b hb => by cases hb⟩

theorem ret_stmt (B : Basic M) {e : Option Expr} (hg : ∀ e', e = some e' → e'.Plain H) : StmtOk M H (.ret e) := by
  intro s bb s' bb' hr hs h
  cases e with
  | none =>
    simp only [lowerS, PS.connect, Option.map_some, Option.some.injEq, Prod.mk.injEq] at h
    obtain ⟨rfl, rfl⟩ := h
    have j0 := post0_link (s.emit (some bb) [retIns none]) bb s.exit .next hr.lt hr.opn.next
    refine ⟨⟨post_ret s bb none hr.lt hr.opn, fun b hb => by cases hb⟩, (by simp [Stmt.completes]), ?_⟩
    intro n F hF σ
    simp only [exec]
    cases h1 : run M H [retIns none] σ with
    | none => trivial
    | some σ1 =>
      show Go M H F _ ⟨s.exit, 0, σ1⟩
      have hF1 := j0.le.trans hF
      refine (hF1.steps (emit_code_self s bb _) (by simp [retIns]) h1).trans ?_
      exact hF.jump (link_next _ _ _) σ1
  | some e =>
    obtain ⟨hg, hn⟩ := hg e rfl
    simp only [lowerS, Option.bind_eq_some_iff] at h
    obtain ⟨r, h1, h2⟩ := h
    obtain ⟨s1, b1, k1, p1, e1⟩ := expr_ok B e hg hn s bb hr
    rw [k1, Option.some.injEq] at h1
    subst h1
    simp only [flush_nil _ (p1.post.se.trans hs), PS.connect, Option.map_some, Option.some.injEq, Prod.mk.injEq, emit_exit] at h2
    obtain ⟨rfl, rfl⟩ := h2
    have r1 := p1.ready hr
    have p2 := post0_emit s1 b1 [retIns (some e.res)] r1.lt r1.opn.notFrozen
    have j0 := post0_link (s1.emit (some b1) [retIns (some e.res)]) b1 s1.exit .next r1.lt r1.opn.next
    refine ⟨⟨p1.post.trans (post_ret s1 b1 (some e.res) r1.lt r1.opn) ?_, (fun b hb => by cases hb)⟩, (by simp [Stmt.completes]), ?_⟩
    · intro x hx
      simp at hx
      subst hx
      rcases p1.new with h | h
      · left; simp [h]
      · right; exact h
    intro n F hF σ
    simp only [exec]
    cases h4 : eval M H e σ with
    | none => trivial
    | some q =>
      rw [Option.bind_some, eval_noSe e hn σ q.1 q.2 h4]
      cases h5 : run M H [retIns (some e.res)] q.1 with
      | none => trivial
      | some σ1 =>
        show Go M H F _ ⟨s1.exit, 0, σ1⟩
        have hF2 := j0.le.trans hF
        have hF1 := p2.le.trans hF2
        refine (e1 F hF1 σ q.1 q.2 h4).trans ?_
        refine (hF2.steps (emit_code_self s1 b1 _) (by simp [retIns]) h5).trans ?_
        exact hF.jump (link_next _ _ _) σ1

theorem brk_stmt : StmtOk M H .brk := by
  intro s bb s' bb' hr hs h
  simp only [lowerS, PS.connect, Option.map_some, Option.bind_eq_some_iff, Option.some.injEq, Prod.mk.injEq] at h
  obtain ⟨y, h1, rfl, rfl⟩ := h
  refine ⟨jump_post hr, (by simp [Stmt.completes]), ?_⟩
  intro n F hF σ
  exact ⟨y, h1, link_prev_ne _ _ _ _, hF.jump (link_next _ _ _) σ⟩

theorem cont_stmt : StmtOk M H .cont := by
  intro s bb s' bb' hr hs h
  simp only [lowerS, PS.connect, Option.map_some, Option.bind_eq_some_iff, Option.some.injEq, Prod.mk.injEq] at h
  obtain ⟨y, h1, rfl, rfl⟩ := h
  refine ⟨jump_post hr, (by simp [Stmt.completes]), ?_⟩
  intro n F hF σ
  exact ⟨y, h1, link_prev_ne _ _ _ _, hF.jump (link_next _ _ _) σ⟩

theorem nil_spost {s : PS} {bb : Nat} (hr : Ready s bb) : SPost s bb s (some bb) :=
  ⟨Post.nil s, fun b hb => by cases hb; exact ⟨hr.lt, .inl rfl, hr.opn⟩⟩

theorem empty_stmt : StmtOk M H .empty := by
  intro s bb s' bb' hr hs h
  simp only [lowerS, Option.some.injEq, Prod.mk.injEq] at h
  obtain ⟨rfl, rfl⟩ := h
  refine ⟨nil_spost hr, fun _ => by simp, ?_⟩
  intro n F hF σ
  exact ⟨bb, rfl, Go.refl _ _⟩

/-! ### Sequences -/

theorem body_nil : BodyOk M H .nil := by
  intro s bb s' bb' hr hs h
  simp only [lowerBody, Option.some.injEq, Prod.mk.injEq] at h
  obtain ⟨rfl, rfl⟩ := h
  refine ⟨nil_spost hr, fun _ => by simp, ?_⟩
  intro n F hF σ
  exact ⟨bb, rfl, Go.refl _ _⟩

theorem SPost.trans {s t u : PS} {a b : Nat} {c : Option Nat} (h : SPost s a t (some b)) (k : SPost t b u c) : SPost s a u c := by
  obtain ⟨_, hb, _⟩ := h.end_ b rfl
  have := h.post.n
  refine ⟨h.post.trans k.post ?_, ?_⟩
  · intro x hx
    simp at hx
    subst hx
    rcases hb with h | h
    · left; simp [h]
    · right; exact h
  · intro d hd
    obtain ⟨d1, d2, d3⟩ := k.end_ d hd
    refine ⟨d1, ?_, d3⟩
    rcases d2 with d2 | d2
    · rw [d2]; exact hb
    · right; omega

theorem SPost.ready {s s' : PS} {bb b : Nat} (h : SPost s bb s' (some b)) (r : Ready s bb) : Ready s' b := by
  obtain ⟨h1, _, h3⟩ := h.end_ b rfl
  exact ⟨h.post.fresh r.fresh, h1, h3⟩

theorem body_cons {st : Stmt} {ss : Stmts} (h1 : StmtOk M H st) (h2 : BodyOk M H ss) : BodyOk M H (.cons st ss) := by
  intro s bb s' bb' hr hs h
  simp only [lowerBody, Option.bind_eq_some_iff] at h
  obtain ⟨⟨s1, q⟩, k1, k2⟩ := h
  obtain ⟨p1, c1, e1⟩ := h1 s bb s1 q hr hs k1
  have hs1 := p1.post.se.trans hs
  cases q with
  | none =>
    obtain ⟨j1, j2, j3⟩ := lowerBody_none ss s1 s' bb' k2 hs1
    subst j1
    have p2 := j2.post hs1 j3
    refine ⟨⟨p1.post.trans p2 (by simp), fun b hb => by cases hb⟩, ?_, ?_⟩
    · intro hc
      simp only [Stmts.completes, Bool.and_eq_true] at hc
      exact absurd rfl (c1 hc.1)
    · intro n F hF σ
      have := e1 n F (p2.le.trans hF) σ
      simp only [execs]
      cases hx : exec M H n st σ with
      | timeout => rw [hx] at this; exact this
      | undef => trivial
      | ok o σ1 =>
        rw [hx] at this
        cases o with
        | normal =>
          obtain ⟨b, hb, _⟩ := this
          cases hb
        | brk => exact this.later p2 (by simp)
        | cont => exact this.later p2 (by simp)
        | ret => exact this.later p2 (by simp)
  | some b1 =>
    have r1 := p1.ready hr
    obtain ⟨p2, c2, e2⟩ := h2 s1 b1 s' bb' r1 hs1 k2
    refine ⟨p1.trans p2, ?_, ?_⟩
    · intro hc
      simp only [Stmts.completes, Bool.and_eq_true] at hc
      exact c2 hc.2
    · intro n F hF σ
      have := e1 n F (p2.post.le.trans hF) σ
      simp only [execs]
      cases hx : exec M H n st σ with
      | timeout => rw [hx] at this; exact this
      | undef => trivial
      | ok o σ1 =>
        rw [hx] at this
        cases o with
        | normal =>
          obtain ⟨b, hb, g⟩ := this
          cases hb
          exact (e2 n F hF σ1).before g
        | brk => exact this.later p2.post (by simp)
        | cont => exact this.later p2.post (by simp)
        | ret => exact this.later p2.post (by simp)


/-- Between the statements of a block the pending side effects are emitted; there are none. -/
def SsEq (ss : Stmts) : Prop := ∀ s q r, (∀ b, q = some b → Ready s b) → s.se = [] → lowerSs ss s q = some r →
  lowerBody ss s q = some r

theorem ssEq_nil : SsEq .nil := by
  intro s q r _ _ h
  exact h

theorem ssEq_cons {st : Stmt} {ss : Stmts} (h1 : StmtOk M H st) (h2 : SsEq ss) : SsEq (.cons st ss) := by
  intro s q r hq hs h
  simp only [lowerSs, Option.bind_eq_some_iff] at h
  obtain ⟨⟨s1, q1⟩, k1, k2⟩ := h
  simp only [lowerBody, k1, Option.bind_some]
  cases q with
  | none =>
    obtain ⟨j1, j2, j3⟩ := lowerS_none st s s1 q1 k1 hs
    simp only [flush_nil _ j3] at k2
    subst j1
    exact h2 s1 none r (fun b hb => by cases hb) j3 k2
  | some b =>
    obtain ⟨p1, -, -⟩ := h1 s b s1 q1 (hq b rfl) hs k1
    have hs1 := p1.post.se.trans hs
    simp only [flush_nil _ hs1] at k2
    exact h2 s1 q1 r (fun b' hb => by subst hb; exact p1.ready (hq b rfl)) hs1 k2

theorem block_stmt {ss : Stmts} (h1 : BodyOk M H ss) (h2 : SsEq ss) : StmtOk M H (.block ss) := by
  intro s bb s' bb' hr hs h
  simp only [lowerS, Option.bind_some] at h
  have h := h2 s (some bb) _ (fun b hb => by cases hb; exact hr) hs h
  simpa only [exec, Stmt.completes] using h1 s bb s' bb' hr hs h

end Shecc.Stmt
