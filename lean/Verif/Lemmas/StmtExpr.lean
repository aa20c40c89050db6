import Verif.Lemmas.StmtLogic

/-! # Translation of expressions -/

namespace Shecc.Stmt
open Shecc.Cfg
open CRename (Ins Mach Home run)
open CStmt

variable {M : Mach} {H : Home Nat}

/-! ### Expressions without control flow -/

mutual
/-- The side effects due at the next sequence point. -/
def ses : Expr → List (Ins Nat)
  | .comp args _ _ se => sess args ++ se
  | _ => []
def sess : Exprs → List (Ins Nat)
  | .nil => []
  | .cons e es => ses e ++ sess es
end

mutual
theorem lowerE_straight (e : Expr) (h : e.straight = true) (s : PS) (bb : Option Nat) :
    lowerE e s bb = some ({ s.emit bb e.code with se := s.se ++ ses e }, bb, e.res) := by
  match e, h with
  | .comp args code v se, h =>
    simp only [Expr.straight] at h
    simp only [lowerE, lowerArgs_straight args h s bb, Option.map_some, Expr.code, ses, Expr.res, Option.some.injEq, Prod.mk.injEq,
      and_true]
    cases bb with
    | none => simp [PS.emit]
    | some b =>
      rw [← emit_emit]
      simp only [emit_se, List.append_assoc]
      rfl
theorem lowerArgs_straight (es : Exprs) (h : es.straight = true) (s : PS) (bb : Option Nat) :
    lowerArgs es s bb = some ({ s.emit bb es.code with se := s.se ++ sess es }, bb) := by
  match es, h with
  | .nil, _ =>
    simp [lowerArgs, Exprs.code, sess, emit_nil]
  | .cons e es, h =>
    simp only [Exprs.straight, Bool.and_eq_true] at h
    simp only [lowerArgs, lowerE_straight e h.1 s bb, Option.bind_some, lowerArgs_straight es h.2, Exprs.code, sess,
      Option.some.injEq, Prod.mk.injEq, and_true]
    cases bb with
    | none => simp [PS.emit]
    | some b =>
      rw [← emit_emit]
      simp only [List.append_assoc]
      rfl
end

mutual
theorem eval_straight (e : Expr) (h : e.straight = true) (σ : S M) : eval M H e σ = (run M H e.code σ).map fun s => (s, ses e) := by
  match e, h with
  | .comp args code v se, h =>
    simp only [Expr.straight] at h
    simp only [eval, evals_straight args h σ, Expr.code, ses, run_append]
    cases run M H args.code σ with
    | none => rfl
    | some s1 => simp
theorem evals_straight (es : Exprs) (h : es.straight = true) (σ : S M) :
    evals M H es σ = (run M H es.code σ).map fun s => (s, sess es) := by
  match es, h with
  | .nil, _ => simp [evals, Exprs.code, sess, run]
  | .cons e es, h =>
    simp only [Exprs.straight, Bool.and_eq_true] at h
    simp only [evals, eval_straight e h.1 σ, Exprs.code, sess, run_append]
    cases run M H e.code σ with
    | none => rfl
    | some s1 =>
      simp only [Option.map_some, Option.bind_some, evals_straight es h.2 s1]
      cases run M H es.code s1 <;> simp
end

mutual
theorem straight_good (e : Expr) (h : e.straight = true) (hg : e.Good H) :
    (∀ i ∈ e.code, Simple i) ∧ ∀ i ∈ ses e, Simple i := by
  match e, h with
  | .comp args code v se, h =>
    simp only [Expr.straight] at h
    simp only [Expr.Good] at hg
    have := straight_goods args h hg.1
    simp only [Expr.code, ses, List.mem_append]
    exact ⟨fun i hi => hi.elim (this.1 i) (hg.2.1 i), fun i hi => hi.elim (this.2 i) (hg.2.2 i)⟩
theorem straight_goods (es : Exprs) (h : es.straight = true) (hg : es.Good H) :
    (∀ i ∈ es.code, Simple i) ∧ ∀ i ∈ sess es, Simple i := by
  match es, h with
  | .nil, _ => simp [Exprs.code, sess]
  | .cons e es, h =>
    simp only [Exprs.straight, Bool.and_eq_true] at h
    simp only [Exprs.Good] at hg
    have h1 := straight_good e h.1 hg.1
    have h2 := straight_goods es h.2 hg.2
    simp only [Exprs.code, sess, List.mem_append]
    exact ⟨fun i hi => hi.elim (h1.1 i) (h2.1 i), fun i hi => hi.elim (h1.2 i) (h2.2 i)⟩
end

mutual
theorem ses_noSe (e : Expr) (h : e.noSe = true) : ses e = [] := by
  match e, h with
  | .comp args code v se, h =>
    simp only [Expr.noSe, Bool.and_eq_true, List.isEmpty_iff] at h
    simp [ses, sess_noSe args h.1, h.2]
  | .logic _ _, _ => rfl
  | .tern _ _ _ _, _ => rfl
theorem sess_noSe (es : Exprs) (h : es.noSe = true) : sess es = [] := by
  match es, h with
  | .nil, _ => rfl
  | .cons e es, h =>
    simp only [Exprs.noSe, Bool.and_eq_true] at h
    simp [sess, ses_noSe e h.1, sess_noSe es h.2]
end

mutual
theorem eval_noSe (e : Expr) (h : e.noSe = true) (σ σ' : S M) (p : List (Ins Nat)) (he : eval M H e σ = some (σ', p)) : p = [] := by
  match e, h with
  | .comp args code v se, h =>
    simp only [Expr.noSe, Bool.and_eq_true, List.isEmpty_iff] at h
    simp only [eval, Option.bind_eq_some_iff, Option.map_eq_some_iff, Prod.mk.injEq] at he
    obtain ⟨r, h1, s1, -, -, h2⟩ := he
    have := evals_noSe args h.1 σ r.1 r.2 h1
    rw [this, h.2] at h2
    simpa using h2.symm
  | .logic (.one (.one e)) tmp, h =>
    simp only [Expr.noSe, Ors.noSe, Ands.noSe] at h
    simp only [eval] at he
    exact eval_noSe e h σ σ' p he
  | .logic (.one (.more e r)) tmp, h =>
    simp only [eval, Option.bind_eq_some_iff, Option.map_eq_some_iff, Prod.mk.injEq] at he
    obtain ⟨_, _, _, _, _, h2⟩ := he
    exact h2.symm
  | .logic (.more a r) tmp, h =>
    simp only [eval, Option.bind_eq_some_iff, Option.map_eq_some_iff, Prod.mk.injEq] at he
    obtain ⟨_, _, _, _, _, h2⟩ := he
    exact h2.symm
  | .tern c a b t, h =>
    simp only [eval, Option.bind_eq_some_iff] at he
    obtain ⟨_, _, _, _, h3⟩ := he
    split at h3
    · simp only [Option.bind_eq_some_iff, Option.map_eq_some_iff, Prod.mk.injEq] at h3
      obtain ⟨_, _, _, _, _, h2⟩ := h3
      exact h2.symm
    · simp only [Option.bind_eq_some_iff, Option.map_eq_some_iff, Prod.mk.injEq] at h3
      obtain ⟨_, _, _, _, _, h2⟩ := h3
      exact h2.symm
theorem evals_noSe (es : Exprs) (h : es.noSe = true) (σ σ' : S M) (p : List (Ins Nat)) (he : evals M H es σ = some (σ', p)) :
    p = [] := by
  match es, h with
  | .nil, _ =>
    simp only [evals, Option.some.injEq, Prod.mk.injEq] at he
    exact he.2.symm
  | .cons e es, h =>
    simp only [Exprs.noSe, Bool.and_eq_true] at h
    simp only [evals, Option.bind_eq_some_iff, Option.map_eq_some_iff, Prod.mk.injEq] at he
    obtain ⟨r, h1, q, h2, -, h3⟩ := he
    rw [← h3, eval_noSe e h.1 σ r.1 r.2 h1, evals_noSe es h.2 r.1 q.1 q.2 h2]
    rfl
end

theorem lowerE_plain {e : Expr} (h : e.straight = true) (hn : e.noSe = true) (s : PS) (bb : Option Nat) :
    lowerE e s bb = some (s.emit bb e.code, bb, e.res) := by
  rw [lowerE_straight e h, ses_noSe e hn, List.append_nil]
  cases bb <;> rfl

/-! ### Statements of correctness -/

/-- Translation from the open block `bb` ends in the open block `bb'`. -/
structure EPost (s : PS) (bb : Nat) (s' : PS) (bb' : Nat) : Prop where
  post : Post [bb] s s'
  lt : bb' < s'.n
  new : bb' = bb ∨ s.n ≤ bb'
  opn : Open s' bb'
  prev : bb' ≠ bb → (s'.block bb').prev ≠ []

/-- Where translation starts. -/
structure Ready (s : PS) (bb : Nat) : Prop where
  fresh : Fresh s
  lt : bb < s.n
  opn : Open s bb

theorem EPost.ready {s s' : PS} {bb bb' : Nat} (h : EPost s bb s' bb') (r : Ready s bb) : Ready s' bb' :=
  ⟨h.post.fresh r.fresh, h.lt, h.opn⟩

theorem EPost.trans {s t u : PS} {a b c : Nat} (h : EPost s a t b) (k : EPost t b u c) : EPost s a u c := by
  have hn := h.post.n
  refine ⟨h.post.trans k.post ?_, k.lt, ?_, k.opn, ?_⟩
  · intro x hx
    simp at hx
    subst hx
    rcases h.new with h | h
    · left; simp [h]
    · right; exact h
  · rcases k.new with k | k
    · rw [k]; exact h.new
    · right; omega
  · intro hc
    by_cases hcb : c = b
    · subst hcb
      exact k.post.le.prev _ (h.prev hc)
    · exact k.prev hcb

def ExprOk (M : Mach) (H : Home Nat) (e : Expr) : Prop := ∀ s bb, Ready s bb →
  ∃ s' bb', lowerE e s (some bb) = some (s', some bb', e.res) ∧ EPost s bb s' bb' ∧
    ∀ F, Le s' F → ∀ (σ σ' : S M) p, eval M H e σ = some (σ', p) →
      Go M H F ⟨bb, (s.code bb).length, σ⟩ ⟨bb', (s'.code bb').length, σ'⟩

def ArgsOk (M : Mach) (H : Home Nat) (es : Exprs) : Prop := ∀ s bb, Ready s bb →
  ∃ s' bb', lowerArgs es s (some bb) = some (s', some bb') ∧ EPost s bb s' bb' ∧
    ∀ F, Le s' F → ∀ (σ σ' : S M) p, evals M H es σ = some (σ', p) →
      Go M H F ⟨bb, (s.code bb).length, σ⟩ ⟨bb', (s'.code bb').length, σ'⟩

/-- A shared block waiting to be filled. -/
structure Shared (s : PS) (bb x : Nat) : Prop where
  lt : x < s.n
  opn : Open s x
  code : s.code x = []
  ne : x ≠ bb

theorem Shared.keep {s s' : PS} {bb bb' x : Nat} (h : Shared s bb x) (p : EPost s bb s' bb') : Shared s' bb' x := by
  have hs := p.post.same x h.lt (by simpa using h.ne)
  have := p.post.n
  have := h.lt
  refine ⟨by omega, h.opn.same hs, hs.code.trans h.code, ?_⟩
  rcases p.new with e | e
  · rw [e]; exact h.ne
  · omega

def AndsOk (M : Mach) (H : Home Nat) (a : Ands) : Prop := ∀ (tmp : Nat → Tmp) (L : Log) s bb, Ready s bb → Shared s bb L.and →
  ∃ s' bb' L' v, lowerAnds a tmp L s (some bb) = some (s', some bb', L', v) ∧ EPost s bb s' bb' ∧
    L' = (if a.multi then { L with prev := some .and, pprev := if L.prev = some .or then some .or else L.pprev } else L) ∧
    ∀ F, Le s' F → ∀ (σ σ' : S M) b, evalAnds M H a σ = some (σ', b) →
      (Go M H F ⟨bb, (s.code bb).length, σ⟩ ⟨bb', (s'.code bb').length, σ'⟩ ∧ truth M H σ' v = b) ∨
      (a.multi = true ∧ b = false ∧ Go M H F ⟨bb, (s.code bb).length, σ⟩ ⟨L.and, 0, σ'⟩)

def OrsOk (M : Mach) (H : Home Nat) (r : Ors) : Prop := ∀ (tmp : Nat → Tmp) (L : Log) s bb, Ready s bb → Shared s bb L.and →
  Shared s bb L.or → L.and ≠ L.or → L.prev = some .or → L.pprev = none → (∀ i, (tmp i).Ok H) →
  ∃ s' bb', lowerOrs r tmp L s (some bb) = some (s', some bb', (tmp (L.i + r.multis)).res) ∧ Post [bb, L.and, L.or] s s' ∧
    bb' < s'.n ∧ s.n ≤ bb' ∧ Open s' bb' ∧ s'.code bb' = [] ∧ (s'.block bb').prev ≠ [] ∧
    ∀ F, Le s' F →
      (∀ σ σ' : S M, run M H (setBool (tmp (L.i + r.multis)) true) σ = some σ' → Go M H F ⟨L.or, 0, σ⟩ ⟨bb', 0, σ'⟩) ∧
      (∀ (σ σ1 σ' : S M) b, evalOrs M H r tmp L.i σ = some (σ1, b) →
        run M H (setBool (tmp (L.i + r.multis)) b) σ1 = some σ' →
        Go M H F ⟨bb, (s.code bb).length, σ⟩ ⟨bb', 0, σ'⟩)

/-! ### The cases -/

theorem emit_epost {s : PS} {bb : Nat} (r : Ready s bb) (is : List (Ins Nat)) (hc : Clean is) :
    EPost s bb (s.emit (some bb) is) bb :=
  ⟨post_emit s bb is r.lt r.opn.notFrozen r.opn.clean hc.tail, r.lt, .inl rfl, r.opn.emit _ _ (.inr hc), fun h => absurd rfl h⟩

theorem comp_ok {args : Exprs} {code : List (Ins Nat)} {v : Nat} (ha : ArgsOk M H args) (hc : ∀ i ∈ code, Simple i) :
    ExprOk M H (.comp args code v []) := by
  intro s bb hr
  obtain ⟨s1, b1, h1, p1, e1⟩ := ha s bb hr
  have r1 := p1.ready hr
  refine ⟨s1.emit (some b1) code, b1, ?_, p1.trans (emit_epost r1 code hc), ?_⟩
  · simp [lowerE, h1, Expr.res, PS.emit]
  · intro F hF σ σ' p he
    simp only [eval, Option.bind_eq_some_iff, Option.map_eq_some_iff, Prod.mk.injEq] at he
    obtain ⟨q, h2, σ1, h3, h4, -⟩ := he
    subst h4
    refine (e1 F ((emit_epost r1 code hc).post.le.trans hF) σ q.1 q.2 h2).trans ?_
    exact hF.steps (emit_code_self s1 b1 code) (Clean.nb hc) h3

theorem args_nil : ArgsOk M H .nil := by
  intro s bb hr
  refine ⟨s, bb, rfl, ⟨(Post.nil s), hr.lt, .inl rfl, hr.opn, fun h => absurd rfl h⟩, ?_⟩
  intro F hF σ σ' p he
  simp only [evals, Option.some.injEq, Prod.mk.injEq] at he
  rw [he.1]
  exact Go.refl _ _

theorem args_cons {e : Expr} {es : Exprs} (h : ExprOk M H e) (hs : ArgsOk M H es) : ArgsOk M H (.cons e es) := by
  intro s bb hr
  obtain ⟨s1, b1, h1, p1, e1⟩ := h s bb hr
  obtain ⟨s2, b2, h2, p2, e2⟩ := hs s1 b1 (p1.ready hr)
  refine ⟨s2, b2, by simp [lowerArgs, h1, h2], p1.trans p2, ?_⟩
  intro F hF σ σ' p he
  simp only [evals, Option.bind_eq_some_iff, Option.map_eq_some_iff, Prod.mk.injEq] at he
  obtain ⟨r, h3, q, h4, h5, -⟩ := he
  subst h5
  exact (e1 F (p2.post.le.trans hF) σ r.1 r.2 h3).trans (e2 F hF r.1 q.1 q.2 h4)

theorem ands_one {e : Expr} (h : ExprOk M H e) (hn : e.noSe = true) : AndsOk M H (.one e) := by
  intro tmp L s bb hr _
  obtain ⟨s1, b1, h1, p1, e1⟩ := h s bb hr
  refine ⟨s1, b1, L, e.res, by simp [lowerAnds, h1], p1, by simp [Ands.multi], ?_⟩
  intro F hF σ σ' b he
  simp only [evalAnds, Option.bind_eq_some_iff, Option.map_eq_some_iff, Prod.mk.injEq] at he
  obtain ⟨r, h2, σ2, h3, h4, h5⟩ := he
  have hp := eval_noSe e hn σ r.1 r.2 h2
  rw [hp] at h3
  simp only [run, Option.some.injEq] at h3
  subst h4 h3
  exact .inl ⟨e1 F hF σ r.1 r.2 h2, h5⟩

theorem ands_more {e : Expr} {r : Ands} (h : ExprOk M H e) (hn : e.noSe = true) (hs : AndsOk M H r) : AndsOk M H (.more e r) := by
  intro tmp L s bb hr hL
  obtain ⟨s1, b1, h1, p1, e1⟩ := h s bb hr
  have r1 := p1.ready hr
  have hL1 := hL.keep p1
  obtain ⟨s2, h2, p2, n2, o2, c2, v2', e2⟩ := readLogical_ok (M := M) (H := H) .and (shared := L.and) (v := e.res) r1.fresh r1.lt r1.opn
  have hn1 := p1.post.n
  have p2' : EPost s1 b1 s2 s1.n := ⟨p2, by omega, .inr (Nat.le_refl _), o2, fun _ => v2'⟩
  have r2 := p2'.ready r1
  let L2 : Log := { L with prev := some .and, pprev := if L.prev = some .or then some .or else L.pprev }
  have happ : applyOp .and tmp e.res L s1 (some b1) = some (s2, some s1.n, L2) := by
    unfold applyOp
    cases hp : L.prev with
    | none =>
      simp only [true_or, if_true, Log.shared, h2, Option.map_some, L2, hp]
      rfl
    | some o =>
      cases o with
      | and =>
        simp only [or_true, if_true, Log.shared, h2, Option.map_some, L2, hp]
        rfl
      | or =>
        simp only [reduceCtorEq, or_self, if_false, h2, Option.map_some, L2, hp, Option.some.injEq, if_true]
  obtain ⟨s3, b3, L3, v, h3, p3, hL3, e3⟩ := hs tmp L2 s2 s1.n r2 (hL1.keep p2')
  refine ⟨s3, b3, L3, v, ?_, (p1.trans p2').trans p3, ?_, ?_⟩
  · simp [lowerAnds, h1, happ, h3]
  · rw [hL3]
    simp only [Ands.multi, if_true]
    split <;> simp [L2]
  · intro F hF σ σ' b he
    simp only [evalAnds, Option.bind_eq_some_iff] at he
    obtain ⟨q, h4, σ2, h5, h6⟩ := he
    have hp := eval_noSe e hn σ q.1 q.2 h4
    rw [hp] at h5
    simp only [run, Option.some.injEq] at h5
    subst h5
    have hF2 : Le s2 F := p3.post.le.trans hF
    have hF1 : Le s1 F := p2.le.trans hF2
    have g1 := (e1 F hF1 σ q.1 q.2 h4).trans (e2 F hF2 q.1)
    cases ht : truth M H q.1 e.res with
    | false =>
      simp only [ht, Bool.false_eq_true, if_false, Option.some.injEq, Prod.mk.injEq] at h6
      obtain ⟨rfl, rfl⟩ := h6
      right
      refine ⟨rfl, rfl, ?_⟩
      simpa [ht] using g1
    | true =>
      simp only [ht, if_true] at h6
      have g1' : Go M H F ⟨bb, (s.code bb).length, σ⟩ ⟨s1.n, (s2.code s1.n).length, q.1⟩ := by
        rw [c2]
        simpa [ht] using g1
      rcases e3 F hF q.1 σ' b h6 with ⟨k1, k2⟩ | ⟨k1, k2, k3⟩
      · exact .inl ⟨g1'.trans k1, k2⟩
      · exact .inr ⟨rfl, k2, g1'.trans k3⟩

/-- A group of operands, with its result if it has operators. -/
theorem group_ok (B : Basic M) {a : Ands} (ha : AndsOk M H a) (tmp : Nat → Tmp) (ht : ∀ i, (tmp i).Ok H) (L : Log) (s : PS)
    (bb : Nat) (hr : Ready s bb) (hL : Shared s bb L.and) :
    ∃ s1 b1 v s2 b2 v2, lowerAnds a tmp L s (some bb) = some (s1, some b1,
        (if a.multi then { L with prev := some .and, pprev := if L.prev = some .or then some .or else L.pprev } else L), v) ∧
      (a.multi = false → s2 = s1 ∧ b2 = b1 ∧ v2 = v ∧ EPost s bb s2 b2) ∧
      (a.multi = true → finalize .and L.and (tmp L.i) v s1 (some b1) = some (s2, some b2) ∧ v2 = (tmp L.i).res ∧ s.n ≤ b2 ∧
        s2.code b2 = [] ∧ (s2.block b2).prev ≠ []) ∧
      Post [bb, L.and] s s2 ∧ Open s2 b2 ∧ b2 < s2.n ∧ (b2 = bb ∨ s.n ≤ b2) ∧
      ∀ F, Le s2 F → ∀ (σ σ1 σ' : S M) b, evalAnds M H a σ = some (σ1, b) →
        (if a.multi then run M H (setBool (tmp L.i) b) σ1 else some σ1) = some σ' →
        Go M H F ⟨bb, (s.code bb).length, σ⟩ ⟨b2, (s2.code b2).length, σ'⟩ ∧ truth M H σ' v2 = b := by
  obtain ⟨s1, b1, L1, v, h1, p1, hL1, e1⟩ := ha tmp L s bb hr hL
  have r1 := p1.ready hr
  have n1 := p1.post.n
  cases hm : a.multi with
  | false =>
    rw [hm] at hL1
    refine ⟨s1, b1, v, s1, b1, v, ?_, fun _ => ⟨rfl, rfl, rfl, p1⟩, (fun h => by cases h), p1.post.mono (by simp), p1.opn, p1.lt,
      p1.new, ?_⟩
    · rw [h1, hL1]
    · intro F hF σ σ1 σ' b h2 h3
      simp only [Bool.false_eq_true, if_false, Option.some.injEq] at h3
      subst h3
      rcases e1 F hF σ σ1 b h2 with h | h
      · exact h
      · rw [hm] at h; cases h.1
  | true =>
    rw [hm] at hL1
    have hS := hL.keep p1
    obtain ⟨s2, h2, p2, n2, o2, c2, v2', e2⟩ := finalize_ok (M := M) (H := H) .and (v := v) (t := tmp L.i) r1.fresh r1.lt r1.opn hS.lt hS.opn
      hS.code hS.ne
    refine ⟨s1, b1, v, s2, s1.n, (tmp L.i).res, ?_, (fun h => by cases h), fun _ => ⟨h2, rfl, n1, c2, v2'⟩, ?_, o2, by omega, .inr n1, ?_⟩
    · rw [h1, hL1]
    · refine (p1.post.mono (W := [bb, L.and]) (by simp)).trans p2 ?_
      intro x hx
      simp at hx
      rcases hx with rfl | rfl
      · rcases p1.new with h | h
        · left; simp [h]
        · right; exact h
      · left; simp
    · intro F hF σ σ1 σ' b h3 h4
      simp only [if_true] at h4
      refine ⟨?_, truth_setBool B (ht L.i) h4⟩
      rw [c2]
      obtain ⟨k1, k2⟩ := e2 F hF
      rcases e1 F (p2.le.trans hF) σ σ1 b h3 with ⟨g, gt⟩ | ⟨_, rfl, g⟩
      · rw [← gt] at h4
        exact g.trans (k2 σ1 σ' h4)
      · exact g.trans (k1 σ1 σ' h4)

theorem Shared.post {s s' : PS} {bb bb' x : Nat} {V : List Nat} (h : Shared s bb x) (p : Post V s s') (hV : x ∉ V)
    (hb : bb' = bb ∨ s.n ≤ bb') : Shared s' bb' x := by
  have hs := p.same x h.lt hV
  have := p.n
  have := h.lt
  refine ⟨by omega, h.opn.same hs, hs.code.trans h.code, ?_⟩
  rcases hb with e | e
  · rw [e]; exact h.ne
  · omega

theorem Ready.post {s s' : PS} {bb b : Nat} {V : List Nat} (h : Ready s bb) (p : Post V s s') (ho : Open s' b) (hb : b < s'.n) :
    Ready s' b := ⟨p.fresh h.fresh, hb, ho⟩

theorem ors_one (B : Basic M) {a : Ands} (ha : AndsOk M H a) : OrsOk M H (.one a) := by
  intro tmp L s bb hr hA hO hne hprev hpp ht
  obtain ⟨s1, b1, v, s2, b2, v2, h1, hm0, hm1, p, o, lt, new, sim⟩ := group_ok B ha tmp ht L s bb hr hA
  have n2 := p.n
  have hS : Shared s2 b2 L.or := hO.post p (by simp; exact ⟨hO.ne, hne.symm⟩) new
  have r2 := hr.post p o lt
  have hm : L.i + (Ors.one a).multis = L.i + (if a.multi then 1 else 0) := rfl
  obtain ⟨s3, h3, p3, n3, o3, c3, v3', e3⟩ := finalize_ok (M := M) (H := H) .or (v := v2) (t := tmp (L.i + (Ors.one a).multis)) r2.fresh r2.lt
    r2.opn hS.lt hS.opn hS.code hS.ne
  refine ⟨s3, s2.n, ?_, ?_, by omega, by omega, o3, c3, v3', ?_⟩
  · simp only [lowerOrs, h1, Option.bind_some]
    cases hmu : a.multi with
    | false =>
      obtain ⟨rfl, rfl, rfl, _⟩ := hm0 hmu
      simp only [hmu, Bool.false_eq_true, if_false] at hm ⊢
      rw [hm] at h3 ⊢
      simp only [Nat.add_zero] at h3 ⊢
      simp [finish, hprev, Log.shared, h3, hpp]
    | true =>
      obtain ⟨hf, hv, _⟩ := hm1 hmu
      simp only [hmu, if_true] at hm ⊢
      rw [hm] at h3 ⊢
      simp only [hprev, if_true]
      rw [hv] at h3
      simp [finish, Log.shared, hf, h3]
  · refine (p.mono (W := [bb, L.and, L.or]) (by simp)).trans p3 ?_
    intro x hx
    simp at hx
    rcases hx with rfl | rfl
    · rcases new with h | h
      · left; simp [h]
      · right; exact h
    · left; simp
  · intro F hF
    obtain ⟨k1, k2⟩ := e3 F hF
    refine ⟨k1, ?_⟩
    intro σ σ1 σ' b he hrun
    simp only [evalOrs, Option.bind_eq_some_iff, Option.map_eq_some_iff, Prod.mk.injEq] at he
    obtain ⟨q, h4, σ2, h5, rfl, rfl⟩ := he
    obtain ⟨g1, g2⟩ := sim F (p3.le.trans hF) σ q.1 σ2 q.2 h4 h5
    rw [← g2] at hrun
    exact g1.trans (k2 σ2 σ' hrun)

/-- `||` after a group, from any state in which no `&&` is pending. -/
theorem ors_more (B : Basic M) {a : Ands} {r : Ors} (ha : AndsOk M H a) (hrr : OrsOk M H r) :
    ∀ (tmp : Nat → Tmp) (L : Log) s bb, Ready s bb → Shared s bb L.and →
    Shared s bb L.or → L.and ≠ L.or → L.prev ≠ some .and → L.pprev = none → (∀ i, (tmp i).Ok H) →
    ∃ s' bb', lowerOrs (.more a r) tmp L s (some bb) = some (s', some bb', (tmp (L.i + (Ors.more a r).multis)).res) ∧
      Post [bb, L.and, L.or] s s' ∧
      bb' < s'.n ∧ s.n ≤ bb' ∧ Open s' bb' ∧ s'.code bb' = [] ∧ (s'.block bb').prev ≠ [] ∧
      ∀ F, Le s' F →
        (∀ σ σ' : S M, run M H (setBool (tmp (L.i + (Ors.more a r).multis)) true) σ = some σ' → Go M H F ⟨L.or, 0, σ⟩ ⟨bb', 0, σ'⟩) ∧
        (∀ (σ σ1 σ' : S M) b, evalOrs M H (.more a r) tmp L.i σ = some (σ1, b) →
          run M H (setBool (tmp (L.i + (Ors.more a r).multis)) b) σ1 = some σ' →
          Go M H F ⟨bb, (s.code bb).length, σ⟩ ⟨bb', 0, σ'⟩) := by
  intro tmp L s bb hr hA hO hne hprev hpp ht
  obtain ⟨s1, b1, v, s2, b2, v2, h1, hm0, hm1, p, o, lt, new, sim⟩ := group_ok B ha tmp ht L s bb hr hA
  have n2 := p.n
  have hS : Shared s2 b2 L.or := hO.post p (by simp; exact ⟨hO.ne, hne.symm⟩) new
  have r2 := hr.post p o lt
  -- the state before the test of the group
  let s2' : PS := if a.multi then s2.create else s2
  let L2 : Log := if a.multi then { L with and := s2.n, i := L.i + 1, prev := some .or, pprev := none } else { L with prev := some .or }
  have q2 : Post [] s2 s2' := by
    show Post [] s2 (if a.multi then s2.create else s2)
    split
    · exact post_create s2
    · exact Post.refl s2
  have r2' : Ready s2' b2 := ⟨q2.fresh r2.fresh, by have := q2.n; have := r2.lt; omega, r2.opn.same (q2.same b2 r2.lt (by simp))⟩
  have hcode : s2'.code b2 = s2.code b2 := (q2.same b2 r2.lt (by simp)).code
  have hS' : Shared s2' b2 L.or := hS.post q2 (by simp) (.inl rfl)
  obtain ⟨s3, h3, p3, n3, o3, c3, v3', e3⟩ := readLogical_ok (M := M) (H := H) .or (shared := L.or) (v := v2) r2'.fresh r2'.lt r2'.opn
  have p3' : EPost s2' b2 s3 s2'.n := ⟨p3, by omega, .inr (Nat.le_refl _), o3, fun _ => v3'⟩
  have r3 := p3'.ready r2'
  have q2n := q2.n
  have happ : applyOp .or tmp v (if a.multi then { L with prev := some .and, pprev := if L.prev = some .or then some .or else L.pprev } else L)
      s1 (some b1) = some (s3, some s2'.n, L2) := by
    cases hmu : a.multi with
    | false =>
      obtain ⟨rfl, rfl, rfl, _⟩ := hm0 hmu
      have e1 : s2' = s2 := by simp [s2', hmu]
      have e2 : L2 = { L with prev := some .or } := by simp [L2, hmu]
      rw [e1] at h3 ⊢
      rw [e2]
      have hc : L.prev = none ∨ L.prev = some .or := by
        cases hq : L.prev with
        | none => simp
        | some o => cases o <;> simp_all
      simp only [Bool.false_eq_true, if_false]
      unfold applyOp
      rw [if_pos hc]
      simp [Log.shared, h3]
    | true =>
      obtain ⟨hf, hv, _⟩ := hm1 hmu
      have e1 : s2' = s2.create := by simp [s2', hmu]
      have e2 : L2 = { L with and := s2.n, i := L.i + 1, prev := some .or, pprev := none } := by simp [L2, hmu]
      rw [e1] at h3 ⊢
      rw [e2]
      rw [hv] at h3
      simp only [if_true]
      unfold applyOp
      simp [hf, h3]
  have hL2and : Shared s3 s2'.n L2.and ∧ L2.and ≠ L.or ∧ (L2.and = L.and ∨ s.n ≤ L2.and) ∧ (a.multi = false → L2.and = L.and) := by
    cases hmu : a.multi with
    | false =>
      obtain ⟨rfl, rfl, rfl, ep⟩ := hm0 hmu
      have e1 : s2' = s2 := by simp [s2', hmu]
      have e2 : L2.and = L.and := by simp [L2, hmu]
      rw [e2]
      refine ⟨?_, hne, .inl rfl, fun _ => rfl⟩
      have := hA.keep ep
      have := (this.post q2 (by simp) (.inl rfl)).keep p3'
      exact this
    | true =>
      have e1 : s2' = s2.create := by simp [s2', hmu]
      have e2 : L2.and = s2.n := by simp [L2, hmu]
      rw [e2]
      have hn : s2'.n = s2.n + 1 := by rw [e1]; rfl
      refine ⟨?_, by have := hS.lt; omega, .inr n2, fun h => by cases h⟩
      have hsh : Shared s2' b2 s2.n := by
        refine ⟨by omega, ?_, ?_, by have := r2.lt; omega⟩
        · rw [e1]; exact (r2.fresh s2.n (Nat.le_refl _)).2.create
        · rw [e1]; exact (r2.fresh s2.n (Nat.le_refl _)).1
      exact hsh.keep p3'
  have hL2or : L2.or = L.or := by simp only [L2]; split <;> rfl
  have hL2prev : L2.prev = some .or := by simp only [L2]; split <;> rfl
  have hL2pp : L2.pprev = none := by simp only [L2]; split <;> simp [hpp]
  have hL2i : L2.i = L.i + (if a.multi then 1 else 0) := by simp only [L2]; split <;> simp
  obtain ⟨s4, b4, h4, p4, lt4, ge4, o4, c4, v4', e4⟩ := hrr tmp L2 s3 s2'.n r3 hL2and.1 (by rw [hL2or]; exact hS'.keep p3') (by rw [hL2or]; exact hL2and.2.1)
    hL2prev hL2pp ht
  have hmul : L2.i + r.multis = L.i + (Ors.more a r).multis := by
    rw [hL2i]; simp only [Ors.multis]; omega
  rw [hmul] at h4 e4
  have n3' := p3.n
  have p03 : Post [bb, L.and, L.or] s s3 := by
    refine ((p.mono (W := [bb, L.and, L.or]) (by simp)).trans q2 (by simp)).trans p3 ?_
    intro x hx
    simp at hx
    subst hx
    rcases new with h | h
    · left; simp [h]
    · right; exact h
  refine ⟨s4, b4, ?_, ?_, lt4, by omega, o4, c4, v4', ?_⟩
  · simp only [lowerOrs, h1, Option.bind_some, happ, h4]
  · refine p03.trans p4 ?_
    intro x hx
    simp only [hL2or, List.mem_cons, List.not_mem_nil, or_false] at hx
    rcases hx with rfl | rfl | rfl
    · right; omega
    · rcases hL2and.2.2.1 with h | h
      · left; simp [h]
      · right; exact h
    · left; simp
  · intro F hF
    obtain ⟨k1, k2⟩ := e4 F hF
    rw [hL2or] at k1
    refine ⟨k1, ?_⟩
    intro σ σ1 σ' b he hrun
    simp only [evalOrs, Option.bind_eq_some_iff] at he
    obtain ⟨q, h5, σ2, h6, h7⟩ := he
    have hF3 : Le s3 F := p4.le.trans hF
    have hF2' : Le s2' F := p3.le.trans hF3
    have hF2 : Le s2 F := q2.le.trans hF2'
    obtain ⟨g1, g2⟩ := sim F hF2 σ q.1 σ2 q.2 h5 h6
    have g3 := e3 F hF3 σ2
    rw [hcode, g2] at g3
    cases hq : q.2 with
    | true =>
      rw [hq] at h7 g3
      simp only [if_true, Option.some.injEq, Prod.mk.injEq] at h7
      obtain ⟨rfl, rfl⟩ := h7
      simp only [reduceCtorEq, decide_false, Bool.true_eq_false, if_false] at g3
      exact (g1.trans g3).trans (k1 σ2 σ' hrun)
    | false =>
      rw [hq] at h7 g3
      simp only [Bool.false_eq_true, if_false] at h7
      simp only [reduceCtorEq, decide_false, if_true] at g3
      have hi : (if a.multi then L.i + 1 else L.i) = L2.i := by rw [hL2i]; split <;> simp
      rw [hi] at h7
      have := k2 σ2 σ1 σ' b h7 hrun
      rw [c3] at this
      exact (g1.trans g3).trans this

theorem ors_more_ok (B : Basic M) {a : Ands} {r : Ors} (ha : AndsOk M H a) (hrr : OrsOk M H r) : OrsOk M H (.more a r) := by
  intro tmp L s bb hr hA hO hne hprev hpp ht
  exact ors_more B ha hrr tmp L s bb hr hA hO hne (by rw [hprev]; simp) hpp ht

theorem logic_ok (B : Basic M) {g : Ors} {tmp : Nat → Tmp} (ht : ∀ i, (tmp i).Ok H)
    (h1 : ∀ e, g = .one (.one e) → ExprOk M H e) (h2 : ∀ e r, g = .one (.more e r) → AndsOk M H (.more e r))
    (h3 : ∀ a r, g = .more a r → AndsOk M H a ∧ OrsOk M H r) : ExprOk M H (.logic g tmp) := by
  intro s bb hr
  have q : Post [] s s.create.create := (post_create s).create
  have r0 : Ready s.create.create bb := ⟨q.fresh hr.fresh, by have := hr.lt; simp; omega, hr.opn.create.create⟩
  have lt := hr.lt
  have sA : Shared s.create.create bb s.n :=
    ⟨by simp; omega, (hr.fresh s.n (Nat.le_refl _)).2.create.create, (hr.fresh s.n (Nat.le_refl _)).1, by omega⟩
  have sO : Shared s.create.create bb (s.n + 1) :=
    ⟨by simp, (hr.fresh (s.n + 1) (Nat.le_succ _)).2.create.create, (hr.fresh (s.n + 1) (Nat.le_succ _)).1, by omega⟩
  have lift : ∀ {V : List Nat} {s' : PS}, (∀ x ∈ V, x = bb ∨ s.n ≤ x) → Post V s.create.create s' → Post [bb] s s' := by
    intro V s' hV p
    refine (q.mono (W := [bb]) (by simp)).trans p ?_
    intro x hx
    rcases hV x hx with h | h
    · left; simp [h]
    · right; exact h
  match g, h1, h2, h3 with
  | .one (.one e), h1, _, _ =>
    obtain ⟨s1, b1, k1, p1, e1⟩ := h1 e rfl s.create.create bb r0
    refine ⟨s1, b1, ?_, ⟨lift (by simp) p1.post, p1.lt, ?_, p1.opn, p1.prev⟩, ?_⟩
    · simp [lowerE, lowerOrs, lowerAnds, k1, finish, Expr.res, Ors.res, Ands.res]
    · rcases p1.new with h | h
      · exact .inl h
      · right; simp at h; omega
    · intro F hF σ σ' p he
      simp only [eval] at he
      exact e1 F hF σ σ' p he
  | .one (.more e r), _, h2, _ =>
    obtain ⟨s1, b1, v, s2, b2, v2, k1, hm0, hm1, p, o, lt2, new, sim⟩ := group_ok B (h2 e r rfl) tmp ht { and := s.n, or := s.n + 1 }
      s.create.create bb r0 sA
    obtain ⟨hf, hv, ge, c2, w2⟩ := hm1 rfl
    refine ⟨s2, b2, ?_, ⟨lift (by simp) p, lt2, ?_, o, fun _ => w2⟩, ?_⟩
    · simp only [lowerE, lowerOrs, k1, Option.bind_some]
      simp [Ands.multi, finish, Log.shared, hf, Expr.res, Ors.res, Ands.res]
    · right; simp at ge; omega
    · intro F hF σ σ' p' he
      simp only [eval, Option.bind_eq_some_iff, Option.map_eq_some_iff, Prod.mk.injEq] at he
      obtain ⟨q1, h5, σ2, h6, rfl, -⟩ := he
      exact (sim F hF σ q1.1 σ2 q1.2 h5 (by simpa [Ands.multi] using h6)).1
  | .more a r, _, _, h3 =>
    obtain ⟨s1, b1, k1, p1, lt1, ge1, o1, c1, w1, e1⟩ := ors_more B (h3 a r rfl).1 (h3 a r rfl).2 tmp { and := s.n, or := s.n + 1 }
      s.create.create bb r0 sA sO (by simp) (by simp) rfl ht
    simp only [Nat.zero_add] at k1 e1
    refine ⟨s1, b1, ?_, ⟨lift (by simp) p1, lt1, ?_, o1, fun _ => w1⟩, ?_⟩
    · simp [lowerE, k1, Expr.res, Ors.res]
    · right; simp at ge1; omega
    · intro F hF σ σ' p' he
      simp only [eval, Option.bind_eq_some_iff, Option.map_eq_some_iff, Prod.mk.injEq] at he
      obtain ⟨q1, h5, σ2, h6, rfl, -⟩ := he
      rw [c1]
      exact (e1 F hF).2 σ q1.1 σ2 q1.2 h5 h6

theorem tern_ok {c a b : Expr} {t : Nat} (hc : ExprOk M H c) (nc : c.noSe = true) (ga : a.Good H) (gb : b.Good H)
    (sa : a.straight = true) (sb : b.straight = true) (na : a.noSe = true) (nb : b.noSe = true) : ExprOk M H (.tern c a b t) := by
  intro s bb hr
  obtain ⟨s1, b1, h1, p1, e1⟩ := hc s bb hr
  have r1 := p1.ready hr
  have n1 := p1.post.n
  have lt1 := r1.lt
  have f := r1.fresh
  have ox : Open s1.create.create.create s1.n := (f s1.n (Nat.le_refl _)).2.create.create.create
  have oy : Open s1.create.create.create (s1.n + 1) := (f (s1.n + 1) (by omega)).2.create.create.create
  have oe : Open s1.create.create.create (s1.n + 2) := (f (s1.n + 2) (by omega)).2.create.create.create
  obtain ⟨s', hs'⟩ : ∃ s', s' = (((((((s1.create.create.create.emit (some b1) [branchIns c.res]).emit (some s1.n)
    (a.code ++ [moveIns t a.res])).emit (some (s1.n + 1)) (b.code ++ [moveIns t b.res])).link b1 s1.n .then_).link b1 (s1.n + 1)
    .else_).link s1.n (s1.n + 2) .next).link (s1.n + 1) (s1.n + 2) .next) := ⟨_, rfl⟩
  obtain ⟨p, pn, c1, c2, c3, t1, e2, n2, n3, pe⟩ := diamond_ok (s := s1.create.create.create) (b := b1) (x := s1.n) (y := s1.n + 1)
    (e := s1.n + 2) (cx := a.code ++ [moveIns t a.res]) (cy := b.code ++ [moveIns t b.res]) (v := c.res)
    (by simp; omega) (by simp; omega) (by simp) (by omega) (by omega) (by omega) r1.opn.create.create.create ox oy
    (Clean.append (straight_good a sa ga).1 (.one rfl)) (Clean.append (straight_good b sb gb).1 (.one rfl)) hs'
  rw [show s1.create.create.create.code s1.n = [] from (f s1.n (Nat.le_refl _)).1, List.nil_append] at c2
  rw [show s1.create.create.create.code (s1.n + 1) = [] from (f (s1.n + 1) (by omega)).1, List.nil_append] at c3
  have q : Post [b1] s1 s1.create.create.create := ((Post.nil s1).create).create.create
  have sme := p.same (s1.n + 2) (by simp) (by simp <;> omega)
  refine ⟨s', s1.n + 2, ?_, ?_, ?_⟩
  rotate_left
  · refine p1.trans (t := s1) (b := b1) ⟨q.trans p ?_, by rw [pn]; simp, .inr (by omega), oe.same sme, fun _ => pe⟩
    intro x hx
    simp at hx
    rcases hx with rfl | rfl | rfl
    · left; simp
    · right; omega
    · right; omega
  · intro F hF σ σ' p' he
    simp only [eval, Option.bind_eq_some_iff] at he
    obtain ⟨r, h5, σ2, h6, h7⟩ := he
    rw [eval_noSe c nc σ r.1 r.2 h5] at h6
    simp only [run, Option.some.injEq] at h6
    subst h6
    have hF1 : Le s1 F := q.le.trans (p.le.trans hF)
    have g1 := (e1 F hF1 σ r.1 r.2 h5).trans (hF.branch (M := M) (H := H) (pre := s1.code b1) c1 t1 e2 r.1)
    have ce := sme.code.trans (f (s1.n + 2) (by omega)).1
    rw [ce]
    have side : ∀ (d : Expr), d.straight = true → d.noSe = true → d.Good H → ∀ k, (k = s1.n ∨ k = s1.n + 1) →
        s'.code k = d.code ++ [moveIns t d.res] → (s'.block k).next = some (s1.n + 2) →
        (eval M H d r.1).bind (fun q => (run M H (moveIns t d.res :: q.2) q.1).map fun s' => (s', ([] : List (Ins Nat)))) = some (σ', p') →
        Go M H F ⟨k, 0, r.1⟩ ⟨s1.n + 2, 0, σ'⟩ := by
      intro d sd nd gd k _ hk hn he
      rw [eval_straight d sd, ses_noSe d nd] at he
      simp only [Option.bind_eq_some_iff, Option.map_eq_some_iff, Prod.mk.injEq] at he
      obtain ⟨q1, ⟨σ3, h8, rfl⟩, σ4, h9, rfl, -⟩ := he
      have hb : ∀ i ∈ d.code ++ [moveIns t d.res], i.op ≠ .branch := by
        intro i hi
        simp only [List.mem_append, List.mem_singleton] at hi
        rcases hi with hi | rfl
        · exact simple_nb ((straight_good d sd gd).1 i hi)
        · simp [moveIns]
      have := hF.steps (M := M) (H := H) (b := k) (pre := []) (is := d.code ++ [moveIns t d.res]) (by simpa using hk) hb (σ := r.1) (σ' := σ4) (by
        rw [run_append, h8]
        exact h9)
      exact this.trans (hF.jump hn σ4)
    cases ht : truth M H r.1 c.res with
    | true =>
      rw [ht] at h7 g1
      exact g1.trans (side a sa na ga s1.n (.inl rfl) c2 n2 h7)
    | false =>
      rw [ht] at h7 g1
      exact g1.trans (side b sb nb gb (s1.n + 1) (.inr rfl) c3 n3 h7)
  · simp only [lowerE, h1, Option.bind_some]
    simp only [lowerE_plain sa na, lowerE_plain sb nb, Option.bind_some, PS.connect, Option.map_some, Option.getD_some, Expr.res,
      emit_n]
    rw [hs']
    congr 2
    simp only [link_emit]
    have e1 : ((s1.emit (some b1) [branchIns c.res]).create.create.create) = s1.create.create.create.emit (some b1) [branchIns c.res] := rfl
    rw [e1, emit_emit, emit_emit]
    have hl : ∀ u : PS, ((((u.link s1.n (s1.n + 2) .next).link (s1.n + 1) (s1.n + 2) .next).link b1 s1.n .then_).link b1 (s1.n + 1) .else_) =
        ((((u.link b1 s1.n .then_).link b1 (s1.n + 1) .else_).link s1.n (s1.n + 2) .next).link (s1.n + 1) (s1.n + 2) .next) := by
      intro u
      rw [link_comm (u.link s1.n (s1.n + 2) .next) (p := s1.n + 1) (p' := b1) (by omega) (by omega)]
      rw [link_comm u (p := s1.n) (p' := b1) (by omega) (by omega)]
      rw [link_comm ((u.link b1 s1.n .then_).link s1.n (s1.n + 2) .next) (p := s1.n + 1) (p' := b1) (by omega) (by omega)]
      rw [link_comm (u.link b1 s1.n .then_) (p := s1.n) (p' := b1) (by omega) (by omega)]
    exact hl _

mutual
theorem expr_ok (B : Basic M) (e : Expr) (hg : e.Good H) (hn : e.noSe = true) : ExprOk M H e := by
  match e, hg, hn with
  | .comp args code v se, hg, hn =>
    simp only [Expr.noSe, Bool.and_eq_true, List.isEmpty_iff] at hn
    simp only [Expr.Good] at hg
    rw [hn.2]
    exact comp_ok (args_ok B args hg.1 hn.1) hg.2.1
  | .logic (.one (.one e)) tmp, hg, hn =>
    simp only [Expr.Good, Ors.Good, Ands.Good] at hg
    simp only [Expr.noSe, Ors.noSe, Ands.noSe] at hn
    have := expr_ok B e hg.1 hn
    exact logic_ok B hg.2 (fun e' he => by cases he; exact this) (fun _ _ h => by cases h) (fun _ _ h => by cases h)
  | .logic (.one (.more e r)) tmp, hg, hn =>
    simp only [Expr.Good, Ors.Good, Ands.Good] at hg
    simp only [Expr.noSe, Ors.noSe, Ands.noSe, Bool.and_eq_true] at hn
    have h1 := expr_ok B e hg.1.1 hn.1
    have h2 := ands_ok B r hg.1.2 hn.2
    exact logic_ok B hg.2 (fun _ h => by cases h) (fun _ _ h => by cases h; exact ands_more h1 hn.1 h2) (fun _ _ h => by cases h)
  | .logic (.more a r) tmp, hg, hn =>
    simp only [Expr.Good, Ors.Good] at hg
    simp only [Expr.noSe, Ors.noSe, Bool.and_eq_true] at hn
    have h1 := ands_ok B a hg.1.1 hn.1
    have h2 := ors_ok B r hg.1.2 hn.2
    exact logic_ok B hg.2 (fun _ h => by cases h) (fun _ _ h => by cases h) (fun _ _ h => by cases h; exact ⟨h1, h2⟩)
  | .tern c a b t, hg, hn =>
    simp only [Expr.Good] at hg
    simp only [Expr.noSe, Bool.and_eq_true] at hn
    exact tern_ok (expr_ok B c hg.1 hn.1.1) hn.1.1 hg.2.1 hg.2.2.1 hg.2.2.2.1 hg.2.2.2.2 hn.1.2 hn.2
theorem args_ok (B : Basic M) (es : Exprs) (hg : es.Good H) (hn : es.noSe = true) : ArgsOk M H es := by
  match es, hg, hn with
  | .nil, _, _ => exact args_nil
  | .cons e es, hg, hn =>
    simp only [Exprs.Good] at hg
    simp only [Exprs.noSe, Bool.and_eq_true] at hn
    exact args_cons (expr_ok B e hg.1 hn.1) (args_ok B es hg.2 hn.2)
theorem ors_ok (B : Basic M) (r : Ors) (hg : r.Good H) (hn : r.noSe = true) : OrsOk M H r := by
  match r, hg, hn with
  | .one a, hg, hn =>
    simp only [Ors.Good] at hg
    simp only [Ors.noSe] at hn
    exact ors_one B (ands_ok B a hg hn)
  | .more a r, hg, hn =>
    simp only [Ors.Good] at hg
    simp only [Ors.noSe, Bool.and_eq_true] at hn
    exact ors_more_ok B (ands_ok B a hg.1 hn.1) (ors_ok B r hg.2 hn.2)
theorem ands_ok (B : Basic M) (a : Ands) (hg : a.Good H) (hn : a.noSe = true) : AndsOk M H a := by
  match a, hg, hn with
  | .one e, hg, hn =>
    simp only [Ands.Good] at hg
    simp only [Ands.noSe] at hn
    exact ands_one (expr_ok B e hg hn) hn
  | .more e r, hg, hn =>
    simp only [Ands.Good] at hg
    simp only [Ands.noSe, Bool.and_eq_true] at hn
    exact ands_more (expr_ok B e hg.1 hn.1) hn.1 (ands_ok B r hg.2 hn.2)
end

end Shecc.Stmt
