import Verif.Lemmas.Body2

/-!
# Function bodies: assignments, calls, declarations
-/

namespace Shecc.Body
open CEval CSyntax CBody CArith
open Shecc.ExprGen (Conv Keeps Val Ext Comp CompS CompL TOk okHead phEx)
open Shecc.Ssa (Insn Op1)
open Shecc.Parser (getOperator prio)
open CRename (Ins Home)
open CStmt (Expr Exprs eval evals evalAnds evalOrs)

variable {T : Types.Table} {U : CBody.Unit} {base nv0 : Nat}

/-- Changes of state. -/
abbrev Change (nv0 : Nat) := (X : Mc nv0) → CStmt.S X.M → CStmt.S X.M → Prop

/-- The expression tree makes the change. -/
def SimX (base : Nat) (E : Expr) (P : Change nv0) : Prop :=
  ∀ X : Mc nv0, E.Plain X.H ∧ ∀ s s' e, P X s s' → Keeps base s.2 e → ∃ e', eval X.M X.H E (s.1, e) = some ((s'.1, e'), []) ∧ Keeps base s'.2 e'

def chAsg (U : CBody.Unit) (a : Asg) : Change nv0 := fun X s s' => EvAsg X.C.toLang U.E U.decl s.2 s.1 a s'

theorem evSet_inv {M : SsaSem.Mach} {C : CEval.Lang M} {E : CTypes.Env} {decl : Nat → CTypes.Declr} {ρ : Nat → Word} {l : Lv} {e : Ex} {w : M.World} {s' : SsaSem.State M}
    (h : EvAsg C E decl ρ w (.set l e) s') : ∃ w1 t pl k w2 x, EvLv C E decl ρ w l w1 t pl ∧ (∃ r, EvEx C E decl ρ w1 e w2 r ∧ x = r.use ρ w2) ∧ CTypes.HasSize E t k ∧
      pl.write C t k (w2, ρ) x = some s' := by
  cases h with
  | set h1 h2 h3 h4 => exact ⟨_, _, _, _, _, _, h1, ⟨_, h2, rfl⟩, h3, h4⟩

theorem run_move (M : SsaSem.Mach) (cv : Nat → Word) (a v : Nat) (w : M.World) (e : Nat → Word) :
    SsaSem.run M cv [{ op := .assign, rd := some a, rs1 := some v }] (w, e) = some (SsaSem.wrVar M (w, e) a (SsaSem.rdVar M (w, e) v)) := by
  rw [ExprGen.run_one]; rfl

theorem run_write (M : SsaSem.Mach) (cv : Nat → Word) (a v k : Nat) {w w' : M.World} (e : Nat → Word) {m x u : Word} (hm : SsaSem.rdVar M (w, e) a = m)
    (hx : SsaSem.rdVar M (w, e) v = x) (h : M.ext { op := .write, rs1 := some a, rs2 := some v, sz := k } (some m) (some x) w = some (w', u)) :
    SsaSem.run M cv [{ op := .write, rs1 := some a, rs2 := some v, sz := k }] (w, e) = some (w', e) := by
  rw [ExprGen.run_one]
  simp only [SsaSem.step, Option.map_some, hm, hx, h]
  rfl

theorem eval_two (M : CRename.Mach) (H : Home Nat) {A B : Expr} {c : List (Ins Nat)} {r : Nat} {s s1 s2 s3 : CStmt.S M} (h1 : eval M H A s = some (s1, []))
    (h2 : eval M H B s1 = some (s2, [])) (h3 : CRename.run M H c s2 = some s3) : eval M H (.comp (.cons A (.cons B .nil)) c r []) s = some (s3, []) := by
  simp only [eval, evals, h1, h2, h3, Option.bind_some, Option.map_some, List.append_nil]

/-- The instruction that stores the value. -/
theorem store_ok (X : Mc nv0) (hn : nv0 ≤ base) {fs : List Frame} {ρ : Nat → Word} {l : Lv} {t : CTypes.T} {ts : List Tk} {d d1 : List Char}
    (hw : WLv (U.scope fs) l t ts d d1) (ha : Assignable l t) {w w1 w2 : X.M.World} {pl : Place} (hev : EvLv X.C.toLang U.E U.decl ρ w l w1 t pl) {k a v n : Nat}
    {x : Word} {e : Nat → Word} {s' : CStmt.S X.M} (hk : Keeps base ρ e) (hval : Val base n e a (ExprGen.Place.res pl)) (hv : CRename.rd X.M X.H (w2, e) v = x)
    (hs : pl.write (M := machOf X.M X.H X.da X.load) X.C.toLang t k (w2, ρ) x = some s') :
    ∃ e', CRename.run X.M X.H [storeIns (!ExprGen.isVar l) k a v] (w2, e) = some (s'.1, e') ∧ Keeps base s'.2 e' := by
  have hsp := ExprGen.write_split (X := X.ctx hn ρ []) (S := U.scope fs) hw ha hev k (w2, ρ) x
  have e2 : SsaSem.rdVar (machOf X.M X.H X.da X.load) (w2, e) v = x := hv
  cases hiv : ExprGen.isVar l with
  | true =>
    obtain ⟨y, rfl, hy⟩ := hsp.2 hiv
    have hs' := hy s' hs
    subst hs'
    obtain ⟨rfl, hy'⟩ := hval
    refine ⟨(SsaSem.wrVar (machOf X.M X.H X.da X.load) (w2, e) a x).2, ?_, ?_⟩
    · refine run_bridge (da := X.da) (load := X.load) X.K.std [] [{ op := .assign, rd := some a, rs1 := some v }] (w2, e) _ ?_
      refine (run_move (machOf X.M X.H X.da X.load) _ a v w2 e).trans ?_
      rw [e2]
      refine congrArg some (Prod.ext ?_ rfl)
      show (SsaSem.wrVar (machOf X.M X.H X.da X.load) (w2, e) a x).1 = (SsaSem.wrVar (machOf X.M X.H X.da X.load) (w2, ρ) a x).1
      unfold SsaSem.wrVar
      split <;> rfl
    · intro z hz
      show (SsaSem.wrVar (machOf X.M X.H X.da X.load) (w2, e) a x).2 z = (SsaSem.wrVar (machOf X.M X.H X.da X.load) (w2, ρ) a x).2 z
      unfold SsaSem.wrVar
      split
      · exact hk z hz
      · dsimp only
        rw [hk z hz]
  | false =>
    obtain ⟨m, rfl, hm⟩ := hsp.1 hiv
    obtain ⟨w3, h3, rfl⟩ := hm s' hs
    have e1 := hval.rd (X.ctx hn ρ []) hk w2
    obtain ⟨u, hu⟩ := X.K.expr.write_ok a v k m x w2 w3 h3
    refine ⟨e, ?_, hk⟩
    refine run_bridge (da := X.da) (load := X.load) X.K.std [] [{ op := .write, rs1 := some a, rs2 := some v, sz := k }] (w2, e) _ ?_
    have e1' : SsaSem.rdVar (machOf X.M X.H X.da X.load) (w2, e) a = m := e1
    exact run_write (machOf X.M X.H X.da X.load) _ a v k e e1' e2 hu

/-- What an assignment with `=` does: the place is determined before the value is. -/
def chSet (U : CBody.Unit) (l : Lv) (P : Valued nv0) : Change nv0 := fun X s s' =>
  ∃ w1 t pl k w2 x, EvLv X.C.toLang U.E U.decl s.2 s.1 l w1 t pl ∧ P X s.2 w1 w2 x ∧ CTypes.HasSize U.E t k ∧
    pl.write (M := machOf X.M X.H X.da X.load) X.C.toLang t k (w2, s.2) x = some s'

theorem assignSet_ok (hok : TOk T U.E) (hn : nv0 ≤ base) {fs : List Frame} (hfs : Below base (fs ++ [U.params, U.globals])) {l : Lv} {t : CTypes.T} {s : List Char}
    {tl tv rest : List Tk} {d d1 d2 : List Char} (hl : WLv (U.scope fs) l t ((.identifier, s) :: tl) d d1) (ha : Assignable l t) (nv next : Nat) (hb : base ≤ next)
    {P : Valued nv0} {st : Prop} (hv : ∀ next1, next ≤ next1 → ∃ E next', Conv (fun n => value (glob T U) n (tv ++ rest) (stOf U next1 d1 fs nv)) (E, stOf U next' d2 fs nv, rest) ∧
      next1 ≤ next' ∧ (st → E.straight = true) ∧ SimL (nv0 := nv0) base next1 E P) :
    ∃ E next', Conv (fun n => assign (glob T U) n none s (tl ++ p .assign :: tv ++ rest) (stOf U next d fs nv)) (E, stOf U next' d2 fs nv, rest) ∧ next ≤ next' ∧
      (st → E.straight = true) ∧ E.code ≠ [] ∧ SimX (nv0 := nv0) base E (chSet U l P) := by
  obtain ⟨s', x, tl', he, h2, h3⟩ := ExprGen.lvalue_asg (S := U.scope fs) (base := base) hok (scope_below hfs) hl ha
  cases he
  obtain ⟨ls, g1, a1, a2, a3, a4, a5, a6, _⟩ := h3 { next := next, data := d } (p .assign :: (tv ++ rest)) hb rfl rfl
  obtain ⟨E, next', b1, b2, b3, b4⟩ := hv g1.next a3.next
  obtain ⟨k0, hk0⟩ := Props.assignable_size (E := U.E) ha
  obtain ⟨c, a, c1, c2, c3, c4⟩ := a3
  have hcode : g1.code = c := by rw [c1.code]; rfl
  have hnext : next ≤ g1.next := c1.next
  have hsz : ls.size = k0 := a6 k0 hk0
  refine ⟨.comp (.cons (.comp .nil (g1.code.map (toIns g1.consts)) a []) (.cons E .nil)) [storeIns (!ExprGen.isVar l) k0 a E.res] 0 [], next', ?_, by omega, ?_, ?_, ?_⟩
  · have hseg : ∀ n, assign (glob T U) n none s (tl ++ p .assign :: tv ++ rest) (stOf U next d fs nv) =
        (ExprGen.lvalue (ExprGen.names T (U.scope fs)) n false x (Types.readVar (U.decl x)) (tl ++ p .assign :: (tv ++ rest)) { next := next, data := d }).bind fun r =>
      match r.2.2 with
      | (.assign, _) :: ts =>
        match r.2.1.stack with
        | [a] =>
          (value (glob T U) n ts (after (stOf U next d fs nv) r.2.1)).map fun q =>
            (.comp (.cons (.comp .nil (r.2.1.code.map (toIns r.2.1.consts)) a []) (.cons q.1 .nil))
              [storeIns (r.1.isFunc || r.1.isRef) (if r.1.isFunc then 4 else r.1.size) a q.1.res] 0 [], q.2)
        | _ => none
      | _ => (ExprGen.assignment (ExprGen.names T (U.scope fs)) n s (tl ++ p .assign :: (tv ++ rest)) { next := next, data := d }).bind (finish (stOf U next d fs nv)) := by
      intro n
      have e1 : tl ++ p .assign :: tv ++ rest = tl ++ p .assign :: (tv ++ rest) := by simp
      unfold assign
      rw [names_eq, e1, h2]
      rfl
    refine Conv.eq hseg (Conv.bind a1 ?_)
    have hst : after (stOf U next d fs nv) g1 = stOf U g1.next d1 fs nv := by rw [← a2]; rfl
    refine Conv.eq (h := fun n => (value (glob T U) n (tv ++ rest) (stOf U g1.next d1 fs nv)).map fun q =>
            (.comp (.cons (.comp .nil (g1.code.map (toIns g1.consts)) a []) (.cons q.1 .nil)) [storeIns (!ExprGen.isVar l) k0 a q.1.res] 0 [], q.2)) (fun n => ?_) (b1.map _)
    simp only [p, c2, a4, Bool.false_or, a5, Bool.false_eq_true, if_false, hsz, hst]
  · intro h
    simp only [Expr.straight, Exprs.straight, b3 h, Bool.and_self]
  · simp [Expr.code, Exprs.code]
  · intro X
    obtain ⟨⟨p1, p2⟩, p3⟩ := b4 X
    refine ⟨⟨⟨⟨⟨trivial, map_ops _ (hcode ▸ c1.ops), by simp⟩, p1, trivial⟩, ?_, by simp⟩, ?_⟩, ?_⟩
    · intro i hi
      simp only [List.mem_singleton] at hi
      subst hi
      unfold storeIns
      split <;> rfl
    · simp [Expr.noSe, Exprs.noSe, p2]
    · rintro s1 s2 e ⟨w1, t0, pl, k, w2, xv, hev, hP, hk', hs⟩ hk
      obtain ⟨kk, hk1, hk2, hk3⟩ := c1.consts
      simp only [List.append_nil] at hk1
      have hkn : ExprGen.Knows (X.ctx hn s1.2 g1.consts) g1 := fun p hp => constOf_mem (hk1 ▸ hk3) p hp
      have ht := (ExprGen.evLv_type (S := U.scope fs) hl hev).1
      subst ht
      have := Types.HasSize.fun' hk0 hk'
      subst this
      obtain ⟨ρ2, q1, q2, q3⟩ := c4 (X.ctx hn s1.2 g1.consts) hkn s1.1 w1 (ExprGen.Place.res pl) e hk ⟨pl, hev, rfl⟩
      have hk'' := hk.trans q2 hb
      obtain ⟨ρ3, r1, r2, r3⟩ := p3 s1.2 w1 w2 xv ρ2 hP hk''
      have hk3' := hk''.trans r2 (Nat.le_trans hb hnext)
      obtain ⟨e4, t1, t2⟩ := store_ok X hn hl ha hev hk3' (q3.mono r2 (Nat.le_refl _)) r3 hs
      refine ⟨e4, ?_, t2⟩
      have q4 : CRename.run X.M X.H (c.map (toIns g1.consts)) (s1.1, e) = some (w1, ρ2) := run_bridge X.K.std g1.consts c _ _ q1
      have q5 : eval X.M X.H (.comp .nil (g1.code.map (toIns g1.consts)) a []) (s1.1, e) = some ((w1, ρ2), []) := by
        rw [eval_comp, hcode, q4]
        rfl
      exact eval_two X.M X.H q5 r1 t1

theorem not_question {t : Lex.Tok} {k : List Char} {r : List Tk} (h : t ≠ .question) : ∀ k' r', (t, k) :: r ≠ (.question, k') :: r' := by
  intro k' r' he
  cases he
  exact h rfl

theorem value_one (hok : TOk T U.E) (hn : nv0 ≤ base) {fs : List Frame} (hfs : Below base (fs ++ [U.params, U.globals])) {e : Ex} {t : CTypes.T} {ts : List Tk}
    {fl : Bool} {d d1 : List Char} (he : WEx (U.scope fs) 0 e t ts fl d d1) (nv next : Nat) (hb : base ≤ next) {rest : List Tk} (hr : Ends rest)
    (hq : ∀ k r, rest ≠ (.question, k) :: r) :
    ∃ E next', Conv (fun n => value (glob T U) n (ts ++ rest) (stOf U next d fs nv)) (E, stOf U next' d1 fs nv, rest) ∧ next ≤ next' ∧
      E.straight = true ∧ SimL (nv0 := nv0) base next E (valEx U e) := by
  obtain ⟨E, next', h1, h2, h3, h4, h5⟩ := rexpr_one (nv0 := nv0) hok hn hfs he nv next hb hr
  refine ⟨E, next', Conv.bind h1 ⟨0, fun n _ => ?_⟩, h2, h4, h5⟩
  cases rest with
  | nil => rfl
  | cons t r =>
    obtain ⟨t, k⟩ := t
    cases t <;> first | rfl | exact absurd rfl (hq k r)

/-- The tree of instructions without control flow. -/
theorem finish_ok (hn : nv0 ≤ base) {fs : List Frame} {a : Asg} {next nv : Nat} {d d1 : List Char} (hb : base ≤ next) {g' : ExprGen.G} {rest : List Tk} (h3 : g'.data = d1)
    (hc : CompS base { next := next, data := d } g' (ExprGen.phAsg (U.scope fs) a)) :
    ∃ E, finish (stOf U next d fs nv) (g', rest) = some (E, stOf U g'.next d1 fs nv, rest) ∧ next ≤ g'.next ∧ E.straight = true ∧ E.code ≠ [] ∧
      SimX (nv0 := nv0) base E (chAsg U a) := by
  obtain ⟨c, h4, h5, h6, h7⟩ := hc
  have hcode : g'.code = c := by rw [h4.code]; rfl
  refine ⟨.comp .nil (g'.code.map (toIns g'.consts)) 0 [], ?_, h4.next, rfl, ?_, fun X => ⟨plain_comp _ (map_ops _ (hcode ▸ h4.ops)) _, ?_⟩⟩
  · simp only [finish, h6]
    rw [← h3]
    rfl
  · simp only [Expr.code, Exprs.code, List.nil_append, hcode]
    simpa using h5
  · intro s1 s2 e hev hk
    obtain ⟨k, hk1, hk2, hk3⟩ := h4.consts
    simp only [List.append_nil] at hk1
    have hkn : ExprGen.Knows (X.ctx hn s1.2 g'.consts) g' := fun p hp => constOf_mem (hk1 ▸ hk3) p hp
    obtain ⟨ρ2, q1, q2, _⟩ := h7 (X.ctx hn s1.2 g'.consts) hkn s1.1 s2 e hk hev
    have q3 : CRename.run X.M X.H (c.map (toIns g'.consts)) (s1.1, e) = some (s2.1, ρ2) := run_bridge X.K.std g'.consts c _ _ q1
    refine ⟨ρ2, ?_, q2⟩
    rw [eval_comp, hcode, q3]
    rfl

/-- Assignments other than with `=`. -/
theorem assignOp_ok (hok : TOk T U.E) (hn : nv0 ≤ base) {fs : List Frame} (hfs : Below base (fs ++ [U.params, U.globals])) {a : Asg} {s : List Char} {ts rest : List Tk}
    {fl : Bool} {d d1 : List Char} (h : WAsg (U.scope fs) a ((.identifier, s) :: ts) fl d d1) (nv next : Nat) (hb : base ≤ next) (hr : Ends rest)
    {l : Lv} {t : CTypes.T} {tl te : List Tk} {k : Lex.Tok} {d0 : List Char} (hl : WLv (U.scope fs) l t tl d d0) (ha : Assignable l t) (hts : (.identifier, s) :: ts = tl ++ p k :: te)
    (hk : k ≠ .assign) (hacc : ∀ r, ExprGen.isAccess (p k :: r) = false) :
    ∃ E next', Conv (fun n => assign (glob T U) n none s (ts ++ rest) (stOf U next d fs nv)) (E, stOf U next' d1 fs nv, rest) ∧ next ≤ next' ∧
      E.straight = true ∧ E.code ≠ [] ∧ SimX (nv0 := nv0) base E (chAsg U a) := by
  obtain ⟨s', ts', he, h1⟩ := Props.wAsg_ok (S := U.scope fs) (base := base) hok (scope_below hfs) h
  cases he
  have hr' := Props.ends_ok hr fl
  obtain ⟨g', h2, h3, hc⟩ := h1 { next := next, data := d } rest hb rfl hr'.1 hr'.2
  obtain ⟨E, f1, f2, f3, f4, f5⟩ := finish_ok (nv0 := nv0) (nv := nv) (rest := rest) hn hb h3 hc
  refine ⟨E, g'.next, ?_, f2, f3, f4, f5⟩
  obtain ⟨s', x, tl', he, v1, v2⟩ := ExprGen.lvalue_asg (S := U.scope fs) (base := base) hok (scope_below hfs) hl ha
  subst he
  simp only [List.cons_append, List.cons.injEq, Prod.mk.injEq, true_and] at hts
  obtain ⟨rfl, rfl⟩ := hts
  obtain ⟨ls, g1, a1, _⟩ := v2 { next := next, data := d } (p k :: (te ++ rest)) hb rfl (hacc _)
  have hseg : ∀ n, assign (glob T U) n none s (tl' ++ p k :: te ++ rest) (stOf U next d fs nv) =
        (ExprGen.lvalue (ExprGen.names T (U.scope fs)) n false x (Types.readVar (U.decl x)) (tl' ++ p k :: (te ++ rest)) { next := next, data := d }).bind fun r =>
      match r.2.2 with
      | (.assign, _) :: ts =>
        match r.2.1.stack with
        | [a] =>
          (value (glob T U) n ts (after (stOf U next d fs nv) r.2.1)).map fun q =>
            (.comp (.cons (.comp .nil (r.2.1.code.map (toIns r.2.1.consts)) a []) (.cons q.1 .nil))
              [storeIns (r.1.isFunc || r.1.isRef) (if r.1.isFunc then 4 else r.1.size) a q.1.res] 0 [], q.2)
        | _ => none
      | _ => (ExprGen.assignment (ExprGen.names T (U.scope fs)) n s (tl' ++ p k :: te ++ rest) { next := next, data := d }).bind (finish (stOf U next d fs nv)) := by
    intro n
    have e1 : tl' ++ p k :: te ++ rest = tl' ++ p k :: (te ++ rest) := by simp
    unfold assign
    rw [names_eq, e1, v1]
    rfl
  refine Conv.eq hseg (Conv.bind a1 ?_)
  refine Conv.eq (h := fun n => (ExprGen.assignment (ExprGen.names T (U.scope fs)) n s (tl' ++ p k :: te ++ rest) { next := next, data := d }).bind (finish (stOf U next d fs nv)))
    (fun n => ?_) (Conv.bind h2 ⟨0, fun n _ => f1⟩)
  cases k <;> first | rfl | exact absurd rfl hk

theorem assign_ok (hok : TOk T U.E) (hn : nv0 ≤ base) {fs : List Frame} (hfs : Below base (fs ++ [U.params, U.globals])) {a : Asg} {s : List Char} {ts rest : List Tk}
    {fl : Bool} {d d1 : List Char} (h : WAsg (U.scope fs) a ((.identifier, s) :: ts) fl d d1) (nv next : Nat) (hb : base ≤ next) (hr : Ends rest)
    (hq : ∀ k r, rest ≠ (.question, k) :: r) :
    ∃ E next', Conv (fun n => assign (glob T U) n none s (ts ++ rest) (stOf U next d fs nv)) (E, stOf U next' d1 fs nv, rest) ∧ next ≤ next' ∧
      E.straight = true ∧ E.code ≠ [] ∧ SimX (nv0 := nv0) base E (chAsg U a) := by
  have h0 := h
  obtain ⟨ts0, hts⟩ : ∃ ts0, ts0 = (Lex.Tok.identifier, s) :: ts := ⟨_, rfl⟩
  rw [← hts] at h
  cases h with
  | @set l e t t' tl te _ _ d1' _ hl he ha =>
    obtain ⟨s', x, tl', rfl, _⟩ := ExprGen.lvalue_asg (S := U.scope fs) (base := base) hok (scope_below hfs) hl ha
    simp only [List.cons_append, List.cons.injEq, Prod.mk.injEq, true_and] at hts
    obtain ⟨rfl, rfl⟩ := hts
    obtain ⟨E, next', h1, h2, h3, h4, h5⟩ := assignSet_ok (nv0 := nv0) (tv := te) (rest := rest) (st := True) hok hn hfs hl ha nv next hb
      (fun next1 hn1 => by
        obtain ⟨E, next', q1, q2, q3, q4⟩ := value_one (nv0 := nv0) hok hn hfs he nv next1 (by omega) hr hq
        exact ⟨E, next', q1, q2, fun _ => q3, q4⟩)
    refine ⟨E, next', h1, h2, h3 trivial, h4, fun X => ⟨(h5 X).1, fun s1 s2 e1 hev hk => (h5 X).2 s1 s2 e1 ?_ hk⟩⟩
    have hev : EvAsg X.C.toLang U.E U.decl s1.2 s1.1 (.set l e) s2 := hev
    exact evSet_inv hev
  | @op o k l e t tl te _ _ _ _ i hk hl he ha _ _ _ =>
    obtain ⟨_, _, _, k3, k4⟩ := ExprGen.assignOp_tok hk
    exact assignOp_ok hok hn hfs h0 nv next hb hr hl ha hts.symm k3 k4
  | @incr l t tl _ _ i hl ha _ _ => exact assignOp_ok hok hn hfs h0 nv next hb hr (te := []) hl ha hts.symm (by simp) (fun _ => rfl)
  | @decr l t tl _ _ i hl ha _ _ => exact assignOp_ok hok hn hfs h0 nv next hb hr (te := []) hl ha hts.symm (by simp) (fun _ => rfl)

/-- The operator of a prefix. -/
def stepOp (up : Bool) : Op2 := if up then .add else .sub

theorem assignPre_ok (hok : TOk T U.E) (hn : nv0 ≤ base) {fs : List Frame} (hfs : Below base (fs ++ [U.params, U.globals])) {up : Bool} {l : Lv} {t : CTypes.T} {s : List Char}
    {ts rest : List Tk} {i : Nat} {d d1 : List Char} (hl : WLv (U.scope fs) l t ((.identifier, s) :: ts) d d1) (ha : Assignable l t) (hc : Changeable (U.scope fs) l t)
    (hi : Unit1 U.E t i) (nv next : Nat) (hb : base ≤ next) (hr : Ends rest) :
    ∃ E next', Conv (fun n => assign (glob T U) n (some (stepOp up)) s (ts ++ rest) (stOf U next d fs nv)) (E, stOf U next' d1 fs nv, rest) ∧ next ≤ next' ∧
      E.straight = true ∧ E.code ≠ [] ∧ SimX (nv0 := nv0) base E (chAsg U (stepAsg up l)) := by
  obtain ⟨k0, hk0⟩ := Props.assignable_size (E := U.E) ha
  obtain ⟨s', ts', he, h1⟩ := ExprGen.rPre_step (S := U.scope fs) (base := base) hok (scope_below hfs) up hl ha hc hk0 hi
  cases he
  obtain ⟨g', h2, h3, hc⟩ := h1 { next := next, data := d } rest hb rfl hr
  obtain ⟨E, f1, f2, f3, f4, f5⟩ := finish_ok (nv0 := nv0) (nv := nv) (rest := rest) hn hb h3 hc
  refine ⟨E, g'.next, ?_, f2, f3, f4, f5⟩
  refine Conv.eq (h := fun n => (ExprGen.prefixed (ExprGen.names T (U.scope fs)) (stepOp up) n s (ts ++ rest) { next := next, data := d }).bind (finish (stOf U next d fs nv)))
    (fun n => ?_) (Conv.bind h2 ⟨0, fun n _ => f1⟩)
  unfold assign
  rw [names_eq]
  rfl

def chCall (U : CBody.Unit) (f : List Char) (es : Exs) : Change nv0 := fun X s s' =>
  ∃ w1 rs w2, EvArgs X.C.toLang U.E U.decl s.2 s.1 es w1 rs ∧ X.C.scall f (rs.map (·.use (M := machOf X.M X.H X.da X.load) s.2 w1)) w1 = some w2 ∧ s' = (w2, s.2)

theorem callStmt_ok (hok : TOk T U.E) (hn : nv0 ≤ base) {fs : List Frame} (hfs : Below base (fs ++ [U.params, U.globals])) {f : List Char} {es : Exs} {ts rest : List Tk}
    {d d1 : List Char} (h : WArgs (U.scope fs) es ts d d1) (nv next : Nat) (hb : base ≤ next) :
    ∃ E next', Conv (fun n => callStmt (glob T U) n f (p .open_bracket :: ts ++ rest) (stOf U next d fs nv)) (E, stOf U next' d1 fs nv, rest) ∧ next ≤ next' ∧
      SimX (nv0 := nv0) base E (chCall U f es) := by
  obtain ⟨g', m, h1, h2, c, rs, h3, h4, h5, h6⟩ := ExprGen.wArgs_ok (S := U.scope fs) (base := base) hok (scope_below hfs) h { next := next, data := d } rest 0 hb rfl
  simp only [Nat.zero_add] at h1
  subst h4
  have hpop := ExprGen.popN_ok h5
  have hcode : g'.code = c := by rw [h3.code]; rfl
  refine ⟨.comp .nil ((g'.code ++ (ExprGen.pushes rs ++ [({ op := .call, str := String.ofList f } : Insn)])).map (toIns g'.consts)) 0 [], g'.next, ?_, h3.next,
    fun X => ⟨plain_comp _ (map_ops _ ?_) _, ?_⟩⟩
  · have hseg : ∀ n, callStmt (glob T U) n f (p .open_bracket :: ts ++ rest) (stOf U next d fs nv) =
        (ExprGen.args (ExprGen.names T (U.scope fs)) n (ts ++ rest) { next := next, data := d } 0).bind fun q => (q.1.popN q.2.1).bind fun a =>
          match a.2.stack with
          | [] =>
            some (.comp .nil (((a.2.emit (ExprGen.pushes a.1 ++ [{ op := .call, str := String.ofList f }])).code).map (toIns a.2.consts)) 0 [],
              after (stOf U next d fs nv) a.2, q.2.2)
          | _ => none := by
      intro n
      simp only [callStmt, p, List.cons_append]
      rw [names_eq]
      rfl
    refine Conv.eq hseg (Conv.bind h1 ⟨0, fun n _ => ?_⟩)
    simp only [hpop, Option.bind_some]
    rw [← h2]
    rfl
  · intro i hi
    rw [hcode] at hi
    simp only [List.mem_append, List.mem_singleton] at hi
    rcases hi with hi | hi | rfl
    · exact h3.ops i hi
    · exact ExprGen.pushes_ops rs i hi
    · simp
  · rintro s1 s2 e ⟨w1, vs, w2, hev, hc, rfl⟩ hk
    obtain ⟨k, hk1, hk2, hk3⟩ := h3.consts
    simp only [List.append_nil] at hk1
    have hkn : ExprGen.Knows (X.ctx hn s1.2 g'.consts) g' := fun p hp => constOf_mem (hk1 ▸ hk3) p hp
    obtain ⟨ρ2, q1, q2, q3⟩ := h6 (X.ctx hn s1.2 g'.consts) hkn s1.1 w1 vs e hk hev
    have hk' := hk.trans q2 hb
    obtain ⟨u, q4⟩ := X.K.scall f _ w1 w2 hc
    have q5 := (ExprGen.run_pushes (X.ctx hn s1.2 g'.consts) hk' (w := w1) q3 (fun _ => rfl)).1
    have q6 : SsaSem.run (machOf X.M X.H X.da X.load) (constOf g'.consts) (c ++ (ExprGen.pushes rs ++ [{ op := .call, str := String.ofList f }])) (s1.1, e) =
        some (w2, ρ2) := by
      have q1' : SsaSem.run (machOf X.M X.H X.da X.load) (constOf g'.consts) c (s1.1, e) = some (w1, ρ2) := q1
      have q5' : SsaSem.run (machOf X.M X.H X.da X.load) (constOf g'.consts) (ExprGen.pushes rs) (w1, ρ2) = some (_, ρ2) := q5
      rw [ExprGen.run_append, q1', Option.bind_some, ExprGen.run_append, q5', Option.bind_some, ExprGen.run_one]
      have q8 : X.M.act ⟨.call, 0, String.ofList f⟩ none none (List.foldl X.K.expr.push w1 (vs.map (·.use (M := machOf X.M X.H X.da X.load) s1.2 w1))) = some (w2, u) := q4
      have q9 := congrArg (Option.map fun r => ((r.1, ρ2) : CStmt.S X.M)) q8
      simp only [SsaSem.step, Option.map_none]
      exact q9
    refine ⟨ρ2, ?_, hk'⟩
    have q7 : CRename.run X.M X.H _ (s1.1, e) = some (w2, ρ2) := run_bridge X.K.std g'.consts _ _ _ q6
    rw [eval_comp, hcode, q7]
    rfl

/-! ### Declarations -/

def SimXs (base : Nat) (E : Exprs) (P : Change nv0) : Prop :=
  ∀ X : Mc nv0, (E.Good X.H ∧ E.noSe = true) ∧ ∀ s s' e, P X s s' → Keeps base s.2 e → ∃ e', evals X.M X.H E (s.1, e) = some ((s'.1, e'), []) ∧ Keeps base s'.2 e'

def chDecs (U : CBody.Unit) (ds : List Dec) : Change nv0 := fun X s s' => ExecDecs X.C U.E U.decl ds s s'

theorem keeps_wr {X : Mc nv0} {x : Nat} (hx : X.H.mem x = false) (v : Word) {w : X.M.World} {ρ e : Nat → Word} (hk : Keeps base ρ e) :
    SsaSem.wrVar (machOf X.M X.H X.da X.load) (w, ρ) x v = (w, ExprGen.upd ρ x v) ∧ Keeps base (ExprGen.upd ρ x v) (ExprGen.upd e x v) := by
  constructor
  · simp only [SsaSem.wrVar, machOf, hx]
    rfl
  · intro y hy
    simp only [ExprGen.upd]
    split
    · rfl
    · exact hk y hy

theorem eval_alloc (X : Mc nv0) {x : Nat} (hx : X.H.mem x = false) (w : X.M.World) (e : Nat → Word) :
    eval X.M X.H (.comp .nil [{ op := .allocat, rd := some x, sz := x }] x []) (w, e) = some ((w, ExprGen.upd e x (X.C.alloc x)), []) := by
  rw [eval_comp]
  simp only [CRename.run, CRename.step, CRename.Ins.tag, CRename.arg1, Option.map_none, X.K.alloc, Option.map_some, hx, Bool.false_eq_true, and_false, if_false,
    CRename.wr, Option.bind_some]
  rfl

/-- The initial value is computed. -/
def InitOk {α : Type} (P : α → Valued nv0) (base : Nat) : Option α → Option Expr → Prop
  | none, none => True
  | some c, some E => SimV (nv0 := nv0) base E (P c)
  | _, _ => False

theorem declCode_ok {x : Nat} (hx : nv0 ≤ x) {i : Option CBody.Value} {I : Option Expr} (hI : InitOk (valVal (nv0 := nv0) U) base i I) {ds : List Dec} {R : Exprs} (hR : SimXs (nv0 := nv0) base R (chDecs U ds)) :
    SimXs (nv0 := nv0) base (declCode x I R) (chDecs U (⟨x, i⟩ :: ds)) := by
  intro X
  have hm := X.K.outside x hx
  obtain ⟨⟨r1, r2⟩, r3⟩ := hR X
  cases i with
  | none =>
    cases I with
    | some E => exact hI.elim
    | none =>
      refine ⟨⟨⟨⟨trivial, by simp [CStmt.Simple], by simp⟩, r1⟩, ?_⟩, ?_⟩
      · simp [declCode, Exprs.noSe, Expr.noSe, r2]
      · rintro s s' e ⟨s1, s2, rfl, rfl, hs⟩ hk
        obtain ⟨k1, k2⟩ := keeps_wr (X := X) hm (X.C.alloc x) (w := s.1) hk
        have k1' : SsaSem.wrVar (machOf X.M X.H X.da X.load) s x (X.C.alloc x) = (s.1, ExprGen.upd s.2 x (X.C.alloc x)) := k1
        have hs' : ExecDecs X.C U.E U.decl ds (s.1, ExprGen.upd s.2 x (X.C.alloc x)) s' := k1' ▸ hs
        obtain ⟨e', q1, q2⟩ := r3 _ _ _ hs' k2
        refine ⟨e', ?_, q2⟩
        simp only [declCode, evals, eval_alloc X hm, Option.bind_some]
        rw [q1]
        rfl
  | some c =>
    cases I with
    | none => exact hI.elim
    | some E =>
      obtain ⟨⟨g1, g2⟩, g3⟩ := hI X
      refine ⟨⟨⟨⟨trivial, by simp [CStmt.Simple], by simp⟩, ⟨⟨g1, trivial⟩, by simp [CStmt.moveIns, CStmt.Simple], by simp⟩, r1⟩, ?_⟩, ?_⟩
      · simp [declCode, Exprs.noSe, Expr.noSe, r2, g2]
      · rintro s s' e ⟨s1, s2, rfl, ⟨w, v, hev, rfl⟩, hs⟩ hk
        obtain ⟨k1, k2⟩ := keeps_wr (X := X) hm (X.C.alloc x) (w := s.1) hk
        have k1' : SsaSem.wrVar (machOf X.M X.H X.da X.load) s x (X.C.alloc x) = (s.1, ExprGen.upd s.2 x (X.C.alloc x)) := k1
        rw [k1'] at hev hs
        obtain ⟨e1, q1, q2, q3⟩ := g3 _ s.1 w v _ hev k2
        obtain ⟨k3, k4⟩ := keeps_wr (X := X) hm v (w := w) q2
        have hs' : ExecDecs X.C U.E U.decl ds (w, ExprGen.upd (ExprGen.upd s.2 x (X.C.alloc x)) x v) s' := k3 ▸ hs
        obtain ⟨e', q4, q5⟩ := r3 _ _ _ hs' k4
        refine ⟨e', ?_, q5⟩
        have hmove : CRename.run X.M X.H [CStmt.moveIns x E.res] (w, e1) = some (w, ExprGen.upd e1 x v) := by
          have hmv := X.K.std.move 0 "" v none w
          simp only [CRename.run, CRename.step, CStmt.moveIns, CRename.Ins.tag, CRename.arg1, Option.map_some, Option.map_none, reduceCtorEq, if_false, q3,
            false_and, CRename.wr, hm, Bool.false_eq_true]
          have hmv' := congrArg (Option.map fun r : X.M.World × Word => ((r.1, fun y => if y = x then r.2 else e1 y) : CStmt.S X.M)) hmv
          exact (congrArg (fun o => Option.bind o fun x => some x) hmv').trans rfl
        have q6 : eval X.M X.H (.comp (.cons E .nil) [CStmt.moveIns x E.res] x []) (s.1, ExprGen.upd e x (X.C.alloc x)) = some ((w, ExprGen.upd e1 x v), []) := by
          simp only [eval, evals, q1, Option.bind_some, Option.map_some, hmove, List.append_nil]
          rfl
        have q4' : evals X.M X.H R (w, ExprGen.upd e1 x v) = some ((s'.1, e'), []) := q4
        simp only [declCode, evals, eval_alloc X hm, Option.bind_some, q6]
        have q9 := congrArg (Option.map fun q : CStmt.S X.M × List (Ins Nat) => (q.1, [] ++ q.2)) (congrArg (Option.map fun q : CStmt.S X.M × List (Ins Nat) => (q.1, [] ++ q.2)) q4')
        exact q9

theorem map_addVar (e : List Char × Nat) (fs : List Frame) :
    addVar (ent U e) (fs.map fun f => f.map (ent U)) = (CBody.addVar e fs).map fun f => f.map (ent U) := by
  cases fs <;> simp [addVar, CBody.addVar]

theorem below_addVar {fs gs : List Frame} (h : Below base (fs ++ gs)) {s : List Char} {x : Nat} (hx : x < base) : Below base (CBody.addVar (s, x) fs ++ gs) := by
  intro f hf e he
  cases fs with
  | nil =>
    simp only [CBody.addVar, List.cons_append, List.nil_append, List.mem_cons] at hf
    rcases hf with rfl | hf
    · simp only [List.mem_singleton] at he
      subst he; exact hx
    · exact h f (by simpa using hf) e he
  | cons g fs =>
    simp only [CBody.addVar, List.cons_append, List.mem_cons] at hf
    rcases hf with rfl | hf
    · rcases List.mem_append.1 he with he | he
      · exact h g (by simp) e he
      · simp only [List.mem_singleton] at he
        subst he; exact hx
    · exact h f (by simp only [List.cons_append, List.mem_cons]; exact .inr hf) e he

theorem stars (n : Nat) {t : Tk} (ht : t.1 ≠ .asterisk) (rest : List Tk) :
    (List.replicate n (p .asterisk) ++ t :: rest).takeWhile (fun t => decide (t.1 = .asterisk)) = List.replicate n (p .asterisk) := by
  induction n with
  | zero => simp [ht]
  | succ n ih => rw [List.replicate_succ, List.cons_append, List.takeWhile_cons_of_pos (by simp [p]), ih]

theorem declarator_ok {ty s : List Char} {n : Nat} {f : CTypes.Form} {tf rest : List Tk} (hf : WForm f tf) (hr : ∀ k r, rest ≠ (.open_square, k) :: r) :
    declarator ty (List.replicate n (p .asterisk) ++ (.identifier, s) :: (tf ++ rest)) =
      some (s, { spec := .name (String.ofList ty), ptrs := n, form := f, name := String.ofList s }, rest) := by
  have hd : (List.replicate n (p .asterisk) ++ (Lex.Tok.identifier, s) :: (tf ++ rest)).drop (List.replicate n (p .asterisk)).length =
      (Lex.Tok.identifier, s) :: (tf ++ rest) := List.drop_left' rfl
  unfold declarator
  simp only [stars n (t := (Lex.Tok.identifier, s)) (by simp) (tf ++ rest), hd]
  simp only [List.length_replicate]
  cases hf with
  | plain =>
    cases rest with
    | nil => rfl
    | cons t r =>
      obtain ⟨t, k⟩ := t
      cases t <;> first | rfl | exact absurd rfl (hr k r)
  | unsized => rfl
  | @array l hl hn =>
    have h1 := (Props.C47_literal l hl false).1
    simp only [p, List.cons_append, List.nil_append, arraySize, h1, BitVec.toNat_ofNat]
    rw [Nat.mod_eq_of_lt (by omega), if_pos hn]
    rfl

/-- One declarator with its initial value. -/
theorem initDecl_ok (hok : TOk T U.E) (hn : nv0 ≤ base) {fs : List Frame} (hfs : Below base (fs ++ [U.params, U.globals])) {ty s : List Char} {nv n next : Nat}
    {f : CTypes.Form} {tf ti rest : List Tk} {first : Bool} {i : Option CBody.Value} {d d1 : List Char}
    (hd : U.decl nv = { spec := .name (String.ofList ty), ptrs := n, form := f, name := String.ofList s }) (hf : WForm f tf) (hx : nv < base)
    (hi : WInit (U.scope (CBody.addVar (s, nv) fs)) nv first i ti d d1) (hb : base ≤ next) (hr : Ends rest) (hq : ∀ k r, rest ≠ (.question, k) :: r)
    (hr' : (∀ k r, rest ≠ (.assign, k) :: r) ∧ ∀ k r, rest ≠ (.open_square, k) :: r) :
    ∃ I next', Conv (fun m => initDecl (glob T U) m first ty (List.replicate n (p .asterisk) ++ (.identifier, s) :: (tf ++ (ti ++ rest))) (stOf U next d fs nv))
        (nv, I, stOf U next' d1 (CBody.addVar (s, nv) fs) (nv + 1), rest) ∧ next ≤ next' ∧ InitOk (valVal (nv0 := nv0) U) base i I := by
  have hst : ∀ next d, ({ stOf U next d fs nv with frames := addVar (s, nv, Types.readVar (U.decl nv)) (stOf U next d fs nv).frames, nv := nv + 1 } : St) =
      stOf U next d (CBody.addVar (s, nv) fs) (nv + 1) := by
    intro next d
    simp only [stOf, ← map_addVar]
    rfl
  cases hi with
  | none =>
    refine ⟨none, next, ⟨0, fun m _ => ?_⟩, Nat.le_refl _, trivial⟩
    have hdec := declarator_ok (ty := ty) (s := s) (n := n) (rest := rest) hf hr'.2
    simp only [List.nil_append, initDecl, hdec, Option.bind_some, ← hd]
    have hs := hst next d
    have e : (stOf U next d fs nv).nv = nv := rfl
    rw [e, hs]
    cases rest with
    | nil => rfl
    | cons t r =>
      obtain ⟨t, k⟩ := t
      cases t <;> first | rfl | exact absurd rfl (hr'.1 k r)
  | @some c t ts _ _ hc hf1 ht ha =>
    have hdec := declarator_ok (ty := ty) (s := s) (n := n) (rest := p .assign :: ts ++ rest) hf (by simp [p])
    have hs := hst next d
    have e : (stOf U next d fs nv).nv = nv := rfl
    have hfs' := below_addVar hfs (s := s) hx
    have key : ∃ E next', Conv (fun m => if first then value (glob T U) m (ts ++ rest) (stOf U next d (CBody.addVar (s, nv) fs) (nv + 1))
          else rexpr (glob T U) m (ts ++ rest) (stOf U next d (CBody.addVar (s, nv) fs) (nv + 1))) (E, stOf U next' d1 (CBody.addVar (s, nv) fs) (nv + 1), rest) ∧
        next ≤ next' ∧ SimL (nv0 := nv0) base next E (valVal U c) := by
      cases first with
      | true =>
        obtain ⟨E, next', h1, h2, h3, h4⟩ := value_ok (nv0 := nv0) hok hn hfs' hc (nv + 1) next hb hr hq
        exact ⟨E, next', h1, h2, h4⟩
      | false =>
        cases hc with
        | tern _ _ _ _ _ => exact absurd (hf1 rfl) (by simp)
        | cond hc =>
          obtain ⟨E, next', h1, h2, h3, h4⟩ := rexpr_ok (nv0 := nv0) hok hn hfs' hc (nv + 1) next hb hr
          refine ⟨E, next', h1, h2, fun X => ⟨(h4 X).1, fun ρ w w' v e hev hk => (h4 X).2 ρ w w' v e (evVal_cond hev) hk⟩⟩
    obtain ⟨E, next', h1, h2, h4⟩ := key
    refine ⟨some E, next', ?_, h2, h4.weak hb⟩
    refine Conv.eq (h := fun m => (if first then value (glob T U) m (ts ++ rest) (stOf U next d (CBody.addVar (s, nv) fs) (nv + 1))
          else rexpr (glob T U) m (ts ++ rest) (stOf U next d (CBody.addVar (s, nv) fs) (nv + 1))).map fun r => (nv, some r.1, r.2.1, r.2.2)) (fun m => ?_) (h1.map _)
    unfold initDecl
    rw [hdec]
    simp only [Option.bind_some, ← hd, e, hs, p, List.cons_append]

theorem decls_ok (hok : TOk T U.E) (hn : nv0 ≤ base) (hbase : U.base = base) {ty : List Char} {first : Bool} {fs fs' : List Frame} {nv nv' : Nat} {ds : List Dec} {ts : List Tk}
    {d d1 : List Char} (h : WDecs U ty first fs nv ds ts fs' nv' d d1) : ∀ (next : Nat) (r : List Tk), base ≤ next → nv0 ≤ nv →
    Below base (fs ++ [U.params, U.globals]) →
    ∃ ES next', Conv (fun n => decls (glob T U) n first ty (ts ++ p .semicolon :: r) (stOf U next d fs nv)) (ES, stOf U next' d1 fs' nv', p .semicolon :: r) ∧ next ≤ next' ∧
      nv ≤ nv' ∧ Below base (fs' ++ [U.params, U.globals]) ∧ SimXs (nv0 := nv0) base ES (chDecs U ds) := by
  have nil : SimXs (nv0 := nv0) base .nil (chDecs U []) := by
    intro X
    refine ⟨⟨trivial, rfl⟩, ?_⟩
    rintro s s' e rfl hk
    exact ⟨e, rfl, hk⟩
  induction h with
  | @last first fs nv n s f tf ti i t k d d1 hd hf ht hk hs hx hi =>
    intro next r hb hnv hfs
    rw [hbase] at hx
    obtain ⟨I, next', h1, h2, h3⟩ := initDecl_ok (nv0 := nv0) (next := next) (rest := p .semicolon :: r) hok hn hfs hd hf hx hi hb ⟨_, _, _, rfl, by simp⟩ (not_question (by simp)) (by simp [p])
    refine ⟨declCode nv I .nil, next', ?_, h2, by omega, below_addVar hfs hx, declCode_ok hnv h3 nil⟩
    have e1 : List.replicate n (p .asterisk) ++ (Lex.Tok.identifier, s) :: (tf ++ ti) ++ p .semicolon :: r =
      List.replicate n (p .asterisk) ++ (Lex.Tok.identifier, s) :: (tf ++ (ti ++ p .semicolon :: r)) := by simp
    rw [e1]
    exact Conv.succ (fun n => by simp only [decls]; rfl) (Conv.bind h1 ⟨0, fun n _ => rfl⟩)
  | @cons first fs fs' nv nv' n s f tf ti ts i t k ds d d1 d2 hd hf ht hk hs hx hi hr ih =>
    intro next r hb hnv hfs
    rw [hbase] at hx
    obtain ⟨I, next1, h1, h2, h3⟩ := initDecl_ok (nv0 := nv0) (next := next) (rest := p .comma :: (ts ++ p .semicolon :: r)) hok hn hfs hd hf hx hi hb
      ⟨_, _, _, rfl, by simp⟩ (not_question (by simp)) (by simp [p])
    obtain ⟨ES, next', h4, h5, h6, h7, h8⟩ := ih next1 r (by omega) (by omega) (below_addVar hfs hx)
    refine ⟨declCode nv I ES, next', ?_, by omega, by omega, h7, declCode_ok hnv h3 h8⟩
    have e1 : List.replicate n (p .asterisk) ++ (Lex.Tok.identifier, s) :: (tf ++ ti ++ p .comma :: ts) ++ p .semicolon :: r =
      List.replicate n (p .asterisk) ++ (Lex.Tok.identifier, s) :: (tf ++ (ti ++ p .comma :: (ts ++ p .semicolon :: r))) := by simp
    rw [e1]
    exact Conv.succ (fun n => by simp only [decls]; rfl) (Conv.bind h1 (h4.map _))

theorem declExpr_ok {ES : Exprs} {P : Change nv0} (h : SimXs (nv0 := nv0) base ES P) : SimX (nv0 := nv0) base (declExpr ES) P := by
  intro X
  obtain ⟨⟨h1, h2⟩, h3⟩ := h X
  refine ⟨⟨⟨h1, by simp, by simp⟩, by simp [declExpr, Expr.noSe, h2]⟩, ?_⟩
  intro s s' e hs hk
  obtain ⟨e', q1, q2⟩ := h3 s s' e hs hk
  exact ⟨e', by simp [declExpr, eval, q1, CRename.run], q2⟩

end Shecc.Body
