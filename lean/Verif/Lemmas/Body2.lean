import Verif.Lemmas.Body1

/-!
# Function bodies: expressions and conditions
-/

namespace Shecc.Body
open CEval CSyntax CBody CArith
open Shecc.ExprGen (Conv Keeps Val Ext Comp CompS CompL TOk okHead phEx)
open Shecc.Ssa (Insn Op1)
open Shecc.Parser (getOperator prio)
open CRename (Ins Home)
open CStmt (Expr Exprs eval evals evalAnds evalOrs)

variable {T : Types.Table} {U : CBody.Unit} {base nv0 : Nat}

theorem constOf_mem : ∀ {k : List (Nat × BitVec 32)}, (k.map (·.1)).Nodup → ∀ p ∈ k, constOf k p.1 = p.2
  | [], _, _, h => by cases h
  | q :: k, hn, p, hp => by
    simp only [List.map_cons, List.nodup_cons] at hn
    by_cases he : p.1 = q.1
    · rcases List.mem_cons.1 hp with rfl | hp
      · simp [constOf, List.lookup]
      · exact absurd (List.mem_map.2 ⟨p, hp, he⟩) hn.1
    · rcases List.mem_cons.1 hp with rfl | hp
      · exact absurd rfl he
      · have := constOf_mem hn.2 p hp
        have hf : (p.1 == q.1) = false := by simpa using he
        simp only [constOf, List.lookup, hf] at this ⊢
        exact this

/-- The context of the translation of expressions. -/
def Mc.ctx (X : Mc nv0) (h : nv0 ≤ base) (ρ : Nat → Word) (cs : List (Nat × BitVec 32)) : ExprGen.Ctx base where
  M := machOf X.M X.H X.da X.load
  C := X.C.toLang
  L := X.K.expr
  ρ := ρ
  cv := constOf cs
  temps := fun x hx => X.K.outside x (Nat.le_trans h hx)

/-- The values that evaluations may have. -/
abbrev Valued (nv0 : Nat) := (X : Mc nv0) → (Nat → Word) → X.M.World → X.M.World → Word → Prop

/-- The expression tree computes the value, with its effects. -/
def SimV (base : Nat) (E : Expr) (P : Valued nv0) : Prop :=
  ∀ X : Mc nv0, E.Plain X.H ∧ ∀ ρ w w' v e, P X ρ w w' v → Keeps base ρ e →
    ∃ e', eval X.M X.H E (w, e) = some ((w', e'), []) ∧ Keeps base ρ e' ∧ CRename.rd X.M X.H (w', e') E.res = v

/-- It also leaves the variables below `lo` as they are. -/
def SimL (base lo : Nat) (E : Expr) (P : Valued nv0) : Prop :=
  ∀ X : Mc nv0, E.Plain X.H ∧ ∀ ρ w w' v e, P X ρ w w' v → Keeps base ρ e →
    ∃ e', eval X.M X.H E (w, e) = some ((w', e'), []) ∧ Keeps lo e e' ∧ CRename.rd X.M X.H (w', e') E.res = v

theorem SimL.weak {lo : Nat} {E : Expr} {P : Valued nv0} (h : SimL (nv0 := nv0) base lo E P) (hb : base ≤ lo) : SimV (nv0 := nv0) base E P := by
  intro X
  refine ⟨(h X).1, fun ρ w w' v e hp hk => ?_⟩
  obtain ⟨e', h1, h2, h3⟩ := (h X).2 ρ w w' v e hp hk
  exact ⟨e', h1, hk.trans h2 hb, h3⟩

theorem SimL.mono {lo lo' : Nat} {E : Expr} {P : Valued nv0} (h : SimL (nv0 := nv0) base lo' E P) (hb : lo ≤ lo') : SimL (nv0 := nv0) base lo E P := by
  intro X
  refine ⟨(h X).1, fun ρ w w' v e hp hk => ?_⟩
  obtain ⟨e', h1, h2, h3⟩ := (h X).2 ρ w w' v e hp hk
  exact ⟨e', h1, fun x hx => h2 x (by omega), h3⟩

/-- The value of an expression. -/
def valEx (U : CBody.Unit) (e : Ex) : Valued nv0 := fun X ρ w w' v => ∃ r, EvEx X.C.toLang U.E U.decl ρ w e w' r ∧ v = r.use (M := machOf X.M X.H X.da X.load) ρ w'

theorem map_ops (cs : List (Nat × BitVec 32)) {c : List Insn} (h : ∀ i ∈ c, CStmt.simple i.op i.rd.isSome = true) :
    ∀ i ∈ c.map (toIns cs), CStmt.Simple i := by
  intro i hi
  obtain ⟨j, hj, rfl⟩ := List.mem_map.1 hi
  exact h j hj

theorem plain_comp (H : Home Nat) {c : List (Ins Nat)} (h : ∀ i ∈ c, CStmt.Simple i) (r : Nat) : (Expr.comp .nil c r []).Plain H := by
  refine ⟨⟨trivial, h, by simp⟩, rfl⟩

theorem eval_comp (M : CRename.Mach) (H : Home Nat) (c : List (Ins Nat)) (r : Nat) (s : CStmt.S M) :
    eval M H (.comp .nil c r []) s = (CRename.run M H c s).map fun s' => (s', []) := by
  simp only [eval, evals, Option.bind_some, List.append_nil]

theorem comp_sim (hn : nv0 ≤ base) {g' : ExprGen.G} {next : Nat} {d : List Char} {e : Ex} {fs : List Frame}
    (hc : Comp base { next := next, data := d } g' (phEx (U.scope fs) e)) (hb : base ≤ next) :
    ∃ v, g'.stack = [v] ∧ v < g'.next ∧ SimL (nv0 := nv0) base next (.comp .nil (g'.code.map (toIns g'.consts)) v []) (valEx U e) := by
  obtain ⟨c, r, h1, h2, h3, h4⟩ := hc
  have hcode : g'.code = c := by rw [h1.code]; rfl
  refine ⟨r, h2, ?_, fun X => ⟨plain_comp _ (map_ops _ (hcode ▸ h1.ops)) _, ?_⟩⟩
  · have := h1.next
    simp only at this
    omega
  · rintro ρ w w' v e' ⟨res, hev, rfl⟩ hk
    obtain ⟨k, hk1, hk2, hk3⟩ := h1.consts
    simp only [List.append_nil] at hk1
    have hkn : ExprGen.Knows (X.ctx hn ρ g'.consts) g' := fun p hp => constOf_mem (hk1 ▸ hk3) p hp
    obtain ⟨ρ2, h5, h6, h7⟩ := h4 (X.ctx hn ρ g'.consts) hkn w w' res e' hk hev
    have hk' := hk.trans h6 hb
    refine ⟨ρ2, ?_, h6, h7.rd (X.ctx hn ρ g'.consts) hk' w'⟩
    have h8 : CRename.run X.M X.H (c.map (toIns g'.consts)) (w, e') = some (w', ρ2) := run_bridge X.K.std g'.consts c _ _ h5
    rw [eval_comp, hcode, h8]
    rfl

/-- What may stand behind an operand of a logical operator. -/
def Follows (p : Nat) (rest : List Tk) : Prop :=
  okHead true rest = true ∧ (getOperator rest = (none, rest) ∨ (5 < p ∧ ((∃ r, getOperator rest = (some .log_and, r)) ∨ ∃ r, getOperator rest = (some .log_or, r))))

theorem Follows.ends {rest : List Tk} (h : Ends rest) (p : Nat) : Follows p rest := ⟨(Props.ends_ok h true).1, .inl (Props.ends_ok h true).2⟩

theorem segment_ok (hok : TOk T U.E) (hn : nv0 ≤ base) {fs : List Frame} (hfs : Below base (fs ++ [U.params, U.globals])) {p : Nat} {e : Ex} {t : CTypes.T}
    {ts rest : List Tk} {fl lg : Bool} {d d1 : List Char} (he : WEx (U.scope fs) p e t ts fl d d1) (hlg : lg = true → 0 < p) {next : Nat} (nv : Nat)
    (hb : base ≤ next) (hr : Follows p rest) :
    ∃ E next', Conv (fun n => segment (glob T U) n lg (ts ++ rest) (stOf U next d fs nv)) (E, stOf U next' d1 fs nv, rest) ∧ next ≤ next' ∧
      E.res < next' ∧ E.straight = true ∧ SimL (nv0 := nv0) base next E (valEx U e) := by
  have hrex := ExprGen.wEx_ok (S := U.scope fs) (base := base) hok (scope_below hfs) he
  have hpr : ∀ q ts, getOperator rest = (some q, ts) → prio q ≤ p := by
    intro q ts hq
    rcases hr.2 with h | ⟨hp, ⟨r, h⟩ | ⟨r, h⟩⟩ <;> rw [h] at hq <;> cases hq
    · have : prio .log_and ≤ 5 := by decide
      omega
    · have : prio .log_or ≤ 5 := by decide
      omega
  obtain ⟨g', h1, h2, h3⟩ := hrex lg [] { next := next, data := d } rest hb rfl (ExprGen.okHead_weak hr.1) hlg (by simp) hpr
  obtain ⟨v, h4, h5, h6⟩ := comp_sim (nv0 := nv0) hn h2 hb
  refine ⟨.comp .nil (g'.code.map (toIns g'.consts)) v [], g'.next, ?_, h2.next, h5, rfl, h6⟩
  have hl : Conv (fun n => ExprGen.exprLoop (ExprGen.names T (U.scope fs)) n lg [] rest g') (g', rest) := by
    refine Conv.const fun n => ?_
    rcases hr.2 with h | ⟨_, ⟨r, h⟩ | ⟨r, h⟩⟩
    · simp only [ExprGen.exprLoop, h, ExprGen.flush, Option.map_some]
    · simp [ExprGen.exprLoop, h, ExprGen.popOps]
    · simp [ExprGen.exprLoop, h, ExprGen.popOps]
  have hc := h3 _ hl
  have hseg : ∀ n, segment (glob T U) n lg (ts ++ rest) (stOf U next d fs nv) =
      ((ExprGen.operand (ExprGen.names T (U.scope fs)) n (ts ++ rest) { next := next, data := d }).bind fun r =>
        ExprGen.exprLoop (ExprGen.names T (U.scope fs)) n lg [] r.2 r.1).bind fun q =>
          match q.1.stack with
          | [v] => some (.comp .nil (q.1.code.map (toIns q.1.consts)) v [], after (stOf U next d fs nv) q.1, q.2)
          | _ => none := by
    intro n
    unfold segment
    rw [names_eq, Option.bind_assoc]
    rfl
  refine Conv.eq hseg (Conv.bind hc ?_)
  refine ⟨0, fun n _ => ?_⟩
  simp only [h4]
  rw [← h1]
  rfl

/-! ### Operands of logical operators -/

abbrev Tested (nv0 : Nat) := (X : Mc nv0) → (Nat → Word) → X.M.World → X.M.World → Bool → Prop

def SimA (base lo : Nat) (A : CStmt.Ands) (P : Tested nv0) : Prop :=
  ∀ X : Mc nv0, (A.Good X.H ∧ A.noSe = true) ∧ ∀ ρ w w' b e, P X ρ w w' b → Keeps base ρ e →
    ∃ e', evalAnds X.M X.H A (w, e) = some ((w', e'), b) ∧ Keeps lo e e'

theorem SimA.mono {lo lo' : Nat} {A : CStmt.Ands} {P : Tested nv0} (h : SimA (nv0 := nv0) base lo' A P) (hb : lo ≤ lo') : SimA (nv0 := nv0) base lo A P := by
  intro X
  refine ⟨(h X).1, fun ρ w w' v e hp hk => ?_⟩
  obtain ⟨e', h1, h2⟩ := (h X).2 ρ w w' v e hp hk
  exact ⟨e', h1, fun x hx => h2 x (by omega)⟩

def multi : CBody.Ands → Bool
  | .one _ => false
  | .more _ _ => true

theorem truth_eq {X : Mc nv0} {w : X.M.World} {e : Nat → Word} {x : Nat} {v : Word} (h : CRename.rd X.M X.H (w, e) x = v) :
    CStmt.truth X.M X.H (w, e) x = decide (v ≠ 0) := by
  simp only [CStmt.truth, h]

theorem sim_one {lo : Nat} {E : Expr} {e : Ex} (h : SimL (nv0 := nv0) base lo E (valEx U e)) :
    SimA (nv0 := nv0) base lo (.one E) fun X ρ w w' b => EvAnds X.C U.E U.decl ρ (.one e) w w' b := by
  intro X
  obtain ⟨⟨h1, h2⟩, h3⟩ := h X
  refine ⟨⟨by simpa only [CStmt.Ands.Good] using h1, by simpa only [CStmt.Ands.noSe] using h2⟩, ?_⟩
  rintro ρ w w' b e ⟨r, hr, rfl⟩ hk
  obtain ⟨e', h4, h5, h6⟩ := h3 ρ w w' _ e ⟨r, hr, rfl⟩ hk
  refine ⟨e', ?_, h5⟩
  simp only [evalAnds, h4, Option.bind_some, CRename.run, Option.map_some, truth_eq h6]

theorem sim_more {lo : Nat} (hlo : base ≤ lo) {E : Expr} {A : CStmt.Ands} {e : Ex} {a : CBody.Ands} (h : SimL (nv0 := nv0) base lo E (valEx U e))
    (ha : SimA (nv0 := nv0) base lo A fun X ρ w w' b => EvAnds X.C U.E U.decl ρ a w w' b) :
    SimA (nv0 := nv0) base lo (.more E A) fun X ρ w w' b => EvAnds X.C U.E U.decl ρ (.more e a) w w' b := by
  intro X
  obtain ⟨⟨h1, h2⟩, h3⟩ := h X
  obtain ⟨⟨h1', h2'⟩, h3'⟩ := ha X
  refine ⟨⟨by simp only [CStmt.Ands.Good]; exact ⟨h1, h1'⟩, by simp only [CStmt.Ands.noSe, h2, h2', Bool.and_self]⟩, ?_⟩
  rintro ρ w w' b e ⟨w1, r, hr, hc⟩ hk
  obtain ⟨e1, h4, h5, h6⟩ := h3 ρ w w1 _ e ⟨r, hr, rfl⟩ hk
  rcases hc with ⟨hz, rfl, rfl⟩ | ⟨hz, hr'⟩
  · refine ⟨e1, ?_, h5⟩
    simp [evalAnds, h4, CRename.run, truth_eq h6, hz]
  · obtain ⟨e2, h7, h8⟩ := h3' ρ w1 w' b e1 hr' (hk.trans h5 hlo)
    refine ⟨e2, ?_, h5.trans h8 (Nat.le_refl _)⟩
    have ht := truth_eq h6
    rw [decide_eq_true hz] at ht
    simp only [evalAnds, h4, Option.bind_some, CRename.run, ht, if_true, h7]

theorem followsAnd (p : Nat) (hp : 5 < p) (s : List Char) (r : List Tk) : Follows p ((.log_and, s) :: r) := ⟨rfl, .inr ⟨hp, .inl ⟨r, rfl⟩⟩⟩
theorem followsOr (p : Nat) (hp : 5 < p) (s : List Char) (r : List Tk) : Follows p ((.log_or, s) :: r) := ⟨rfl, .inr ⟨hp, .inr ⟨r, rfl⟩⟩⟩

/-- What may stand behind a group of operands. -/
def FollowsG (rest : List Tk) : Prop := okHead true rest = true ∧ (getOperator rest = (none, rest) ∨ ∃ r, getOperator rest = (some .log_or, r))

theorem FollowsG.follows {rest : List Tk} (h : FollowsG rest) {p : Nat} (hp : 5 < p) : Follows p rest :=
  ⟨h.1, h.2.elim .inl fun h => .inr ⟨hp, .inr h⟩⟩

theorem ands_ok (hok : TOk T U.E) (hn : nv0 ≤ base) {fs : List Frame} (hfs : Below base (fs ++ [U.params, U.globals])) {a : CBody.Ands} {ts : List Tk}
    {d d1 : List Char} (h : WAnds (U.scope fs) a ts d d1) (nv : Nat) : ∀ (lg : Bool) (next : Nat) (rest : List Tk), base ≤ next → FollowsG rest →
    ∃ A next', Conv (fun n => ands (glob T U) n lg (ts ++ rest) (stOf U next d fs nv)) (A, stOf U next' d1 fs nv, rest) ∧ next ≤ next' ∧
      A.multi = multi a ∧ SimA (nv0 := nv0) base next A fun X ρ w w' b => EvAnds X.C U.E U.decl ρ a w w' b := by
  induction h with
  | @one e t ts fl d d1 he ht =>
    intro lg next rest hb hr
    obtain ⟨E, next', h1, h2, h3, _, h4⟩ := segment_ok (nv0 := nv0) hok hn hfs he (lg := lg) (fun _ => by omega) nv hb (hr.follows (by omega))
    refine ⟨.one E, next', ?_, h2, rfl, sim_one h4⟩
    refine Conv.succ (fun n => by simp only [ands]; rfl) (Conv.bind h1 ⟨0, fun n _ => ?_⟩)
    rcases hr.2 with h | ⟨r, h⟩ <;> simp only [h]
  | @more e a t ts tr fl d d1 d2 he ht hr' ih =>
    intro lg next rest hb hr
    obtain ⟨E, next1, h1, h2, h3, _, h4⟩ := segment_ok (nv0 := nv0) hok hn hfs he (lg := lg) (fun _ => by omega) nv hb (followsAnd 6 (by omega) [] (tr ++ rest))
    obtain ⟨A, next', h5, h6, h8, h9⟩ := ih true next1 rest (by omega) hr
    refine ⟨.more E A, next', ?_, by omega, rfl, sim_more hb h4 (h9.mono h2)⟩
    have e1 : ts ++ p .log_and :: tr ++ rest = ts ++ (Lex.Tok.log_and, []) :: (tr ++ rest) := by simp [p]
    rw [e1]
    refine Conv.succ (fun n => by simp only [ands]; rfl) (Conv.bind h1 ?_)
    have hg : getOperator ((Lex.Tok.log_and, ([] : List Char)) :: (tr ++ rest)) = (some .log_and, tr ++ rest) := rfl
    simp only [hg]
    exact h5.map _

/-! ### Groups -/

theorem setBool_ok (X : Mc nv0) (hn : nv0 ≤ base) {t : CStmt.Tmp} (h1 : base ≤ t.one) (h0 : base ≤ t.zero) (hr : base ≤ t.res) (b : Bool) (w : X.M.World)
    (e : Nat → Word) : ∃ e', CRename.run X.M X.H (CStmt.setBool t b) (w, e) = some (w, e') ∧ Keeps base e e' ∧
      CRename.rd X.M X.H (w, e') t.res = if b then 1 else 0 := by
  have m1 := X.K.outside t.one (by omega)
  have m0 := X.K.outside t.zero (by omega)
  have mr := X.K.outside t.res (by omega)
  have key : ∀ x k, base ≤ x → X.H.mem x = false → CRename.run X.M X.H [CStmt.constIns x k, CStmt.moveIns t.res x] (w, e) =
      some (w, ExprGen.upd (ExprGen.upd e x (BitVec.ofNat 32 k)) t.res (BitVec.ofNat 32 k)) := by
    intro x k hx hm
    simp only [CRename.run, CRename.step, CStmt.constIns, CStmt.moveIns, CRename.Ins.tag, CRename.arg1, X.K.std.const, X.K.std.move, Option.map_some, Option.map_none,
      reduceCtorEq, false_and, if_false, CRename.wr, CRename.rd, hm, mr, Option.bind_some, Bool.false_eq_true, if_true]
    rfl
  cases b with
  | true =>
    refine ⟨_, key t.one 1 h1 m1, ?_, ?_⟩
    · exact (ExprGen.keeps_upd _ _ h1).trans (ExprGen.keeps_upd _ _ hr) (Nat.le_refl _)
    · simp [CRename.rd, mr, ExprGen.upd]
  | false =>
    refine ⟨_, key t.zero 0 h0 m0, ?_, ?_⟩
    · exact (ExprGen.keeps_upd _ _ h0).trans (ExprGen.keeps_upd _ _ hr) (Nat.le_refl _)
    · simp [CRename.rd, mr, ExprGen.upd]

def TmpsOk (base : Nat) (tmp : Nat → CStmt.Tmp) : Prop := ∀ i, base ≤ (tmp i).one ∧ base ≤ (tmp i).zero ∧ base ≤ (tmp i).res

theorem tmps_ok {b : Nat} (h : base ≤ b) : TmpsOk base (tmps b) := fun i => by
  simp only [tmps]
  omega

def SimO (base lo : Nat) (O : CStmt.Ors) (P : Tested nv0) : Prop :=
  ∀ X : Mc nv0, (O.Good X.H ∧ O.noSe = true) ∧ ∀ tmp, TmpsOk lo tmp → ∀ i ρ w w' b e, P X ρ w w' b → Keeps base ρ e →
    ∃ e', evalOrs X.M X.H O tmp i (w, e) = some ((w', e'), b) ∧ Keeps lo e e'

theorem group_set {lo : Nat} (X : Mc nv0) (hn : nv0 ≤ lo) {tmp : Nat → CStmt.Tmp} (ht : TmpsOk lo tmp) (i : Nat) (m b : Bool) (w : X.M.World)
    (e : Nat → Word) : ∃ e', (if m then CRename.run X.M X.H (CStmt.setBool (tmp i) b) (w, e) else some (w, e)) = some (w, e') ∧ Keeps lo e e' := by
  cases m with
  | false => exact ⟨e, rfl, Keeps.refl _ _⟩
  | true =>
    obtain ⟨e', h1, h2, _⟩ := setBool_ok (nv0 := nv0) X hn (ht i).1 (ht i).2.1 (ht i).2.2 b w e
    exact ⟨e', h1, h2⟩

theorem sim_ors_one {lo : Nat} (hn : nv0 ≤ lo) {A : CStmt.Ands} {a : CBody.Ands} (h : SimA (nv0 := nv0) base lo A fun X ρ w w' b => EvAnds X.C U.E U.decl ρ a w w' b) :
    SimO (nv0 := nv0) base lo (.one A) fun X ρ w w' b => EvOrs X.C U.E U.decl ρ (.one a) w w' b := by
  intro X
  obtain ⟨⟨h1, h2⟩, h3⟩ := h X
  refine ⟨⟨by simpa only [CStmt.Ors.Good] using h1, by simpa only [CStmt.Ors.noSe] using h2⟩, ?_⟩
  intro tmp ht i ρ w w' b e hev hk
  obtain ⟨e1, h4, h5⟩ := h3 ρ w w' b e hev hk
  obtain ⟨e2, h6, h7⟩ := group_set (nv0 := nv0) X hn ht i A.multi b w' e1
  refine ⟨e2, ?_, h5.trans h7 (Nat.le_refl _)⟩
  simp only [evalOrs, h4, Option.bind_some, h6, Option.map_some]

theorem sim_ors_more {lo : Nat} (hn : nv0 ≤ lo) (hlo : base ≤ lo) {A : CStmt.Ands} {a : CBody.Ands} {O : CStmt.Ors} {o : CBody.Ors}
    (h : SimA (nv0 := nv0) base lo A fun X ρ w w' b => EvAnds X.C U.E U.decl ρ a w w' b)
    (ho : SimO (nv0 := nv0) base lo O fun X ρ w w' b => EvOrs X.C U.E U.decl ρ o w w' b) :
    SimO (nv0 := nv0) base lo (.more A O) fun X ρ w w' b => EvOrs X.C U.E U.decl ρ (.more a o) w w' b := by
  intro X
  obtain ⟨⟨h1, h2⟩, h3⟩ := h X
  obtain ⟨⟨h1', h2'⟩, h3'⟩ := ho X
  refine ⟨⟨by simp only [CStmt.Ors.Good]; exact ⟨h1, h1'⟩, by simp only [CStmt.Ors.noSe, h2, h2', Bool.and_self]⟩, ?_⟩
  rintro tmp ht i ρ w w' b e ⟨w1, b1, hev, hc⟩ hk
  obtain ⟨e1, h4, h5⟩ := h3 ρ w w1 b1 e hev hk
  obtain ⟨e2, h6, h7⟩ := group_set (nv0 := nv0) X hn ht i A.multi b1 w1 e1
  have h57 := h5.trans h7 (Nat.le_refl _)
  rcases hc with ⟨rfl, rfl, rfl⟩ | ⟨rfl, hr⟩
  · refine ⟨e2, ?_, h57⟩
    simp only [evalOrs, h4, Option.bind_some, h6, if_true]
  · obtain ⟨e3, h8, h9⟩ := h3' tmp ht (if A.multi then i + 1 else i) ρ w1 w' b e2 hr (hk.trans h57 hlo)
    refine ⟨e3, ?_, h57.trans h9 (Nat.le_refl _)⟩
    simp only [evalOrs, h4, Option.bind_some, h6, Bool.false_eq_true, if_false, h8]

/-- The tree has the shape of the expression. -/
def Shaped : CStmt.Ors → CBody.Ors → Prop
  | .one A, .one a => A.multi = multi a
  | .more _ _, .more _ _ => True
  | _, _ => False

theorem ors_ok (hok : TOk T U.E) (hn : nv0 ≤ base) {fs : List Frame} (hfs : Below base (fs ++ [U.params, U.globals])) {o : CBody.Ors} {ts : List Tk}
    {d d1 : List Char} (h : WOrs (U.scope fs) o ts d d1) (nv : Nat) : ∀ (lg : Bool) (next : Nat) (rest : List Tk), base ≤ next → Ends rest →
    ∃ O next', Conv (fun n => ors (glob T U) n lg (ts ++ rest) (stOf U next d fs nv)) (O, stOf U next' d1 fs nv, rest) ∧ next ≤ next' ∧
      Shaped O o ∧ (∀ A, O = .one A → SimA (nv0 := nv0) base next A fun X ρ w w' b => ∀ a, o = .one a → EvAnds X.C U.E U.decl ρ a w w' b) ∧
      ∀ lo, base ≤ lo → lo ≤ next → SimO (nv0 := nv0) base lo O fun X ρ w w' b => EvOrs X.C U.E U.decl ρ o w w' b := by
  induction h with
  | @one a ts d d1 ha =>
    intro lg next rest hb hr
    have hr' := Props.ends_ok hr true
    obtain ⟨A, next', h1, h2, h4, h5⟩ := ands_ok (nv0 := nv0) hok hn hfs ha nv lg next rest hb ⟨hr'.1, .inl hr'.2⟩
    refine ⟨.one A, next', ?_, h2, h4, ?_, fun lo h6 h7 => sim_ors_one (Nat.le_trans hn h6) (h5.mono h7)⟩
    · refine Conv.succ (fun n => by simp only [ors]; rfl) (Conv.bind h1 ⟨0, fun n _ => ?_⟩)
      simp only [hr'.2]
    · rintro A' hA
      cases hA
      exact fun X => ⟨(h5 X).1, fun ρ w w' b e hev hk => (h5 X).2 ρ w w' b e (hev a rfl) hk⟩
  | @more a o ts tr d d1 d2 ha ho ih =>
    intro lg next rest hb hr
    obtain ⟨A, next1, h1, h2, h4, h5⟩ := ands_ok (nv0 := nv0) hok hn hfs ha nv lg next ((Lex.Tok.log_or, []) :: (tr ++ rest)) hb ⟨rfl, .inr ⟨_, rfl⟩⟩
    obtain ⟨O, next', h6, h7, h8, h9, h10⟩ := ih true next1 rest (by omega) hr
    refine ⟨.more A O, next', ?_, by omega, trivial, (fun A h => by cases h), fun lo h11 h12 => sim_ors_more (Nat.le_trans hn h11) h11 (h5.mono h12) (h10 lo h11 (by omega))⟩
    have e1 : ts ++ p .log_or :: tr ++ rest = ts ++ (Lex.Tok.log_or, []) :: (tr ++ rest) := by simp [p]
    rw [e1]
    refine Conv.succ (fun n => by simp only [ors]; rfl) (Conv.bind h1 ?_)
    have hg : getOperator ((Lex.Tok.log_or, ([] : List Char)) :: (tr ++ rest)) = (some .log_or, tr ++ rest) := rfl
    simp only [hg]
    exact h6.map _

theorem wEx_zero {S : Scope} {n : Nat} {e : Ex} {t : CTypes.T} {ts : List Tk} {fl : Bool} {d d1 : List Char} (h : WEx S n e t ts fl d d1) :
    WEx S 0 e t ts fl d d1 := by
  cases h with
  | op he => exact .op he
  | bin ho hs ha hb ht hp => exact .bin (Nat.zero_le _) hs ha hb ht hp
  | shift hs ha hb => exact .shift hs ha hb

theorem evCond_one {M : SsaSem.Mach} {C : CBody.Lang M} {E : CTypes.Env} {decl : Nat → CTypes.Declr} {ρ : Nat → Word} {e : Ex} {w w' : M.World} {v : Word}
    (h : EvCond C E decl ρ (.one (.one e)) w w' v) : ∃ r, EvEx C.toLang E decl ρ w e w' r ∧ v = r.use ρ w' := by
  cases h with
  | one h => exact ⟨_, h, rfl⟩

theorem evCond_inv {M : SsaSem.Mach} {C : CBody.Lang M} {E : CTypes.Env} {decl : Nat → CTypes.Declr} {ρ : Nat → Word} {c : CBody.Ors} {w w' : M.World} {v : Word}
    (h : EvCond C E decl ρ c w w' v) : (∃ e, c = .one (.one e)) ∨
      (∃ e a b, c = .one (.more e a) ∧ EvAnds C E decl ρ (.more e a) w w' b ∧ v = if b then 1 else 0) ∨
      ∃ a o b, c = .more a o ∧ EvOrs C E decl ρ (.more a o) w w' b ∧ v = if b then 1 else 0 := by
  cases h with
  | one h => exact .inl ⟨_, rfl⟩
  | more h => exact .inr (.inl ⟨_, _, _, rfl, h, rfl⟩)
  | ors h => exact .inr (.inr ⟨_, _, _, rfl, h, rfl⟩)

/-- The value of a condition. -/
def valCond (U : CBody.Unit) (c : CBody.Ors) : Valued nv0 := fun X ρ w w' v => EvCond X.C U.E U.decl ρ c w w' v

/-- The value of a full expression. -/
def valVal (U : CBody.Unit) (c : CBody.Value) : Valued nv0 := fun X ρ w w' v => EvVal X.C U.E U.decl ρ c w w' v

theorem rexpr_one (hok : TOk T U.E) (hn : nv0 ≤ base) {fs : List Frame} (hfs : Below base (fs ++ [U.params, U.globals])) {e : Ex} {t : CTypes.T} {ts : List Tk}
    {fl : Bool} {d d1 : List Char} (he : WEx (U.scope fs) 0 e t ts fl d d1) (nv next : Nat) (hb : base ≤ next) {rest : List Tk} (hr : Ends rest) :
    ∃ E next', Conv (fun n => rexpr (glob T U) n (ts ++ rest) (stOf U next d fs nv)) (E, stOf U next' d1 fs nv, rest) ∧ next ≤ next' ∧
      E.res < next' ∧ E.straight = true ∧ SimL (nv0 := nv0) base next E (valEx U e) := by
  have hr' := Props.ends_ok hr true
  obtain ⟨E, next1, h1, h2, h3, h5, h4⟩ := segment_ok (nv0 := nv0) hok hn hfs he (lg := false) (fun h => by cases h) nv hb (Follows.ends hr 0)
  refine ⟨E, next1 + 3 * ((CStmt.Ors.one (.one E)).multis + 1), ?_, by omega, by omega, h5, h4⟩
  have ha : Conv (fun n => ands (glob T U) n false (ts ++ rest) (stOf U next d fs nv)) (.one E, stOf U next1 d1 fs nv, rest) :=
    Conv.succ (fun n => by simp only [ands]; rfl) (Conv.bind h1 ⟨0, fun n _ => by simp only [hr'.2]⟩)
  have ho : Conv (fun n => ors (glob T U) n false (ts ++ rest) (stOf U next d fs nv)) (.one (.one E), stOf U next1 d1 fs nv, rest) :=
    Conv.succ (fun n => by simp only [ors]; rfl) (Conv.bind ha ⟨0, fun n _ => by simp only [hr'.2]⟩)
  exact ho.map _

theorem rexpr_ok (hok : TOk T U.E) (hn : nv0 ≤ base) {fs : List Frame} (hfs : Below base (fs ++ [U.params, U.globals])) {c : CBody.Ors} {ts : List Tk}
    {d d1 : List Char} (h : WCond (U.scope fs) c ts d d1) (nv next : Nat) (hb : base ≤ next) {rest : List Tk} (hr : Ends rest) :
    ∃ E next', Conv (fun n => rexpr (glob T U) n (ts ++ rest) (stOf U next d fs nv)) (E, stOf U next' d1 fs nv, rest) ∧ next ≤ next' ∧
      E.res < next' ∧ SimL (nv0 := nv0) base next E (valCond U c) := by
  have one : ∀ {e t ts fl d d1}, WEx (U.scope fs) 0 e t ts fl d d1 →
      ∃ E next', Conv (fun n => rexpr (glob T U) n (ts ++ rest) (stOf U next d fs nv)) (E, stOf U next' d1 fs nv, rest) ∧ next ≤ next' ∧
        E.res < next' ∧ SimL (nv0 := nv0) base next E (valCond U (.one (.one e))) := by
    intro e t ts fl d d1 he
    obtain ⟨E, next1, h1, h2, h3, _, h4⟩ := rexpr_one (nv0 := nv0) hok hn hfs he nv next hb hr
    refine ⟨E, next1, h1, h2, h3, fun X => ?_⟩
    obtain ⟨g1, g3⟩ := h4 X
    refine ⟨g1, ?_⟩
    intro ρ w w' v e' hev hk
    obtain ⟨r, hev', rfl⟩ := evCond_one hev
    exact g3 ρ w w' _ e' ⟨r, hev', rfl⟩ hk
  cases h with
  | one he ht => exact one he
  | ors ho =>
    by_cases h1 : ∃ e, c = .one (.one e)
    · obtain ⟨e, rfl⟩ := h1
      cases ho with
      | one ha =>
        cases ha with
        | one he ht => exact one (wEx_zero he)
    · obtain ⟨O, next1, q1, q2, q3, q4, q5⟩ := ors_ok (nv0 := nv0) hok hn hfs ho nv false next rest hb hr
      have hO : ∀ E, O ≠ .one (.one E) := by
        rintro E rfl
        cases c with
        | more a o => exact q3
        | one a =>
          cases a with
          | one e => exact h1 ⟨e, rfl⟩
          | more e a => simp [Shaped, multi, CStmt.Ands.multi] at q3
      refine ⟨.logic O (tmps next1), next1 + 3 * (O.multis + 1), ?_, by omega, ?_, ?_⟩
      · have hw : wrap O (tmps next1) = .logic O (tmps next1) := by
          cases O with
          | more A O => rfl
          | one A =>
            cases A with
            | more E A => rfl
            | one E => exact absurd rfl (hO E)
        rw [← hw]
        exact q1.map _
      · cases O with
        | more A O => simp only [Expr.res, CStmt.Ors.res, tmps]; omega
        | one A =>
          cases A with
          | more E A => simp only [Expr.res, CStmt.Ors.res, CStmt.Ands.res, tmps]; omega
          | one E => exact absurd rfl (hO E)
      · intro X
        obtain ⟨⟨g1, g2⟩, g3⟩ := q5 next hb (Nat.le_refl _) X
        have ht := tmps_ok (base := next) (show next ≤ next1 by omega)
        have hnn : nv0 ≤ next := Nat.le_trans hn hb
        refine ⟨⟨?_, ?_⟩, ?_⟩
        · simp only [Expr.Good]
          exact ⟨g1, fun i => ⟨X.K.outside _ (by have := ht i; omega), X.K.outside _ (by have := ht i; omega), X.K.outside _ (by have := ht i; omega)⟩⟩
        · simpa only [Expr.noSe] using g2
        · intro ρ w w' v e' hev hk
          rcases evCond_inv hev with ⟨e, rfl⟩ | ⟨e, a, b, rfl, hev', rfl⟩ | ⟨a, o, b, rfl, hev', rfl⟩
          · exact absurd ⟨_, rfl⟩ h1
          · cases O with
            | more A O => exact q3.elim
            | one A =>
              cases A with
              | one E => simp [Shaped, multi, CStmt.Ands.multi] at q3
              | more E A =>
                obtain ⟨e2, r1, r2⟩ := (q4 _ rfl X).2 ρ w w' b e' (fun a' ha' => by cases ha'; exact hev') hk
                obtain ⟨e3, r3, r4, r5⟩ := setBool_ok (nv0 := nv0) X hnn (ht 0).1 (ht 0).2.1 (ht 0).2.2 b w' e2
                refine ⟨e3, ?_, r2.trans r4 (Nat.le_refl _), ?_⟩
                · simp only [eval, r1, Option.bind_some, r3, Option.map_some]
                · simp only [Expr.res, CStmt.Ors.res, CStmt.Ands.res]; exact r5
          · cases O with
            | one A => exact q3.elim
            | more A O =>
              obtain ⟨e2, r1, r2⟩ := g3 (tmps next1) ht 0 ρ w w' b e' hev' hk
              obtain ⟨e3, r3, r4, r5⟩ := setBool_ok (nv0 := nv0) X hnn (ht (CStmt.Ors.more A O).multis).1 (ht (CStmt.Ors.more A O).multis).2.1
                (ht (CStmt.Ors.more A O).multis).2.2 b w' e2
              refine ⟨e3, ?_, r2.trans r4 (Nat.le_refl _), ?_⟩
              · simp only [eval, r1, Option.bind_some, r3, Option.map_some]
              · simp only [Expr.res, CStmt.Ors.res]; exact r5

theorem evVal_cond {M : SsaSem.Mach} {C : CBody.Lang M} {E : CTypes.Env} {decl : Nat → CTypes.Declr} {ρ : Nat → Word} {c : CBody.Ors} {w w' : M.World} {v : Word}
    (h : EvVal C E decl ρ (.cond c) w w' v) : EvCond C E decl ρ c w w' v := by
  cases h with
  | cond h => exact h

theorem evVal_tern {M : SsaSem.Mach} {C : CBody.Lang M} {E : CTypes.Env} {decl : Nat → CTypes.Declr} {ρ : Nat → Word} {c : CBody.Ors} {a b : Ex} {w w' : M.World}
    {v : Word} (h : EvVal C E decl ρ (.tern c a b) w w' v) :
    (∃ w1 x r, EvCond C E decl ρ c w w1 x ∧ x ≠ 0 ∧ EvEx C.toLang E decl ρ w1 a w' r ∧ v = r.use ρ w') ∨
      ∃ w1 x r, EvCond C E decl ρ c w w1 x ∧ x = 0 ∧ EvEx C.toLang E decl ρ w1 b w' r ∧ v = r.use ρ w' := by
  cases h with
  | yes h1 h2 h3 => exact .inl ⟨_, _, _, h1, h2, h3, rfl⟩
  | no h1 h2 h3 => exact .inr ⟨_, _, _, h1, h2, h3, rfl⟩

/-- `?:`. -/
theorem sim_tern {next n1 n2 t : Nat} {C A B : Expr} {c : CBody.Ors} {a b : Ex} (hn : nv0 ≤ next) (hb : base ≤ next) (ht : next ≤ t) (h1 : next ≤ n1)
    (h2 : next ≤ n2) (hc : SimL (nv0 := nv0) base next C (valCond U c)) (ha : SimL (nv0 := nv0) base n1 A (valEx U a)) (hA : A.straight = true)
    (hB : B.straight = true) (hbb : SimL (nv0 := nv0) base n2 B (valEx U b)) : SimL (nv0 := nv0) base next (.tern C A B t) (valVal U (.tern c a b)) := by
  intro X
  obtain ⟨⟨c1, c2⟩, c3⟩ := hc X
  obtain ⟨⟨a1, a2⟩, a3⟩ := ha X
  obtain ⟨⟨b1, b2⟩, b3⟩ := hbb X
  refine ⟨⟨⟨c1, a1, b1, hA, hB⟩, by simp only [Expr.noSe, c2, a2, b2, Bool.and_self]⟩, ?_⟩
  intro ρ w w' v e hev hk
  have hm := X.K.outside t (by omega)
  have fin : ∀ (r : Nat) (e2 : Nat → Word) (x : Word), CRename.rd X.M X.H (w', e2) r = x →
      CRename.run X.M X.H [CStmt.moveIns t r] (w', e2) = some (w', ExprGen.upd e2 t x) := by
    intro r e2 x hx
    have hmv := X.K.std.move 0 "" x none w'
    simp only [CRename.run, CRename.step, CStmt.moveIns, CRename.Ins.tag, CRename.arg1, Option.map_some, Option.map_none, reduceCtorEq, if_false, hx,
      false_and, CRename.wr, hm, Bool.false_eq_true]
    have hmv' := congrArg (Option.map fun r : X.M.World × Word => ((r.1, fun y => if y = t then r.2 else e2 y) : CStmt.S X.M)) hmv
    exact (congrArg (fun o => Option.bind o fun x => some x) hmv').trans rfl
  have key : ∀ (w1 : X.M.World) (e1 e2 : Nat → Word), Keeps next e e1 → Keeps next e1 e2 → Keeps next e (ExprGen.upd e2 t v) ∧
      CRename.rd X.M X.H (w', ExprGen.upd e2 t v) t = v := by
    intro w1 e1 e2 k1 k2
    refine ⟨(k1.trans k2 (Nat.le_refl _)).trans (ExprGen.keeps_upd _ _ ht) (Nat.le_refl _), ?_⟩
    simp only [CRename.rd, hm, Bool.false_eq_true, if_false, ExprGen.upd, if_true]
  rcases evVal_tern hev with ⟨w1, x, r, hcv, hx, hav, rfl⟩ | ⟨w1, x, r, hcv, hx, hav, rfl⟩
  · obtain ⟨e1, q1, q2, q3⟩ := c3 ρ w w1 x e hcv hk
    obtain ⟨e2, q4, q5, q6⟩ := a3 ρ w1 w' _ e1 ⟨r, hav, rfl⟩ (hk.trans q2 hb)
    have q7 := key w1 e1 e2 q2 (fun y hy => q5 y (by omega))
    have ht' : CStmt.truth X.M X.H (w1, e1) C.res = true := by rw [truth_eq q3]; simpa using hx
    refine ⟨_, ?_, q7.1, q7.2⟩
    simp only [eval, q1, Option.bind_some, CRename.run, ht', if_true, q4]
    have q8 := fin A.res e2 _ q6
    exact (congrArg (Option.map fun s' : CStmt.S X.M => (s', ([] : List (Ins Nat)))) q8).trans rfl
  · obtain ⟨e1, q1, q2, q3⟩ := c3 ρ w w1 x e hcv hk
    obtain ⟨e2, q4, q5, q6⟩ := b3 ρ w1 w' _ e1 ⟨r, hav, rfl⟩ (hk.trans q2 hb)
    have q7 := key w1 e1 e2 q2 (fun y hy => q5 y (by omega))
    have ht' : CStmt.truth X.M X.H (w1, e1) C.res = false := by rw [truth_eq q3]; simpa using hx
    refine ⟨_, ?_, q7.1, q7.2⟩
    simp only [eval, q1, Option.bind_some, CRename.run, ht', Bool.false_eq_true, if_false, q4]
    have q8 := fin B.res e2 _ q6
    exact (congrArg (Option.map fun s' : CStmt.S X.M => (s', ([] : List (Ins Nat)))) q8).trans rfl

theorem expect_eq {α : Type} (t : Lex.Tok) (s : List Char) (ts : List Tk) (k : List Tk → Option α) : expect t ((t, s) :: ts) k = k ts := by
  simp [expect]

theorem value_ok (hok : TOk T U.E) (hn : nv0 ≤ base) {fs : List Frame} (hfs : Below base (fs ++ [U.params, U.globals])) {c : CBody.Value} {ts : List Tk}
    {d d1 : List Char} (h : WValue (U.scope fs) c ts d d1) (nv next : Nat) (hb : base ≤ next) {rest : List Tk} (hr : Ends rest)
    (hq : ∀ k r, rest ≠ (.question, k) :: r) :
    ∃ E next', Conv (fun n => value (glob T U) n (ts ++ rest) (stOf U next d fs nv)) (E, stOf U next' d1 fs nv, rest) ∧ next ≤ next' ∧
      E.res < next' ∧ SimL (nv0 := nv0) base next E (valVal U c) := by
  cases h with
  | @cond c _ _ _ hc =>
    obtain ⟨E, next', h1, h2, h3, h4⟩ := rexpr_ok (nv0 := nv0) hok hn hfs hc nv next hb hr
    refine ⟨E, next', Conv.bind h1 ⟨0, fun n _ => ?_⟩, h2, h3, ?_⟩
    · cases rest with
      | nil => rfl
      | cons t r =>
        obtain ⟨t, k⟩ := t
        cases t <;> first | rfl | exact absurd rfl (hq k r)
    · intro X
      refine ⟨(h4 X).1, fun ρ w w' v e hev hk => ?_⟩
      exact (h4 X).2 ρ w w' v e (evVal_cond hev) hk
  | @tern c a b ta tb tc t1 t2 fa fb _ d1 d2 _ hc ha _ hb' _ =>
    obtain ⟨C, n1, c1, c2, c3, c4⟩ := rexpr_ok (nv0 := nv0) hok hn hfs hc nv next hb (rest := p .question :: (t1 ++ p .colon :: (t2 ++ rest))) ⟨_, _, _, rfl, by simp⟩
    obtain ⟨A, n2, a1, a2, a3, a4, a5⟩ := rexpr_one (nv0 := nv0) hok hn hfs ha nv n1 (by omega) (rest := p .colon :: (t2 ++ rest)) ⟨_, _, _, rfl, by simp⟩
    obtain ⟨B, n3, b1, b2, b3, b4, b5⟩ := rexpr_one (nv0 := nv0) hok hn hfs hb' nv (n2 + 1) (by omega) hr
    refine ⟨.tern C A B n2, n3, ?_, by omega, by simp only [Expr.res]; omega, sim_tern (by omega) hb (by omega) c2 (by omega) c4 a5 a4 b4 b5⟩
    have e1 : tc ++ p .question :: t1 ++ p .colon :: t2 ++ rest = tc ++ p .question :: (t1 ++ p .colon :: (t2 ++ rest)) := by simp
    rw [e1]
    refine Conv.bind c1 ?_
    refine Conv.eq (h := fun n => (rexpr (glob T U) n (t1 ++ p .colon :: (t2 ++ rest)) (stOf U n1 d1 fs nv)).bind fun a => expect .colon a.2.2 fun ts =>
        (rexpr (glob T U) n ts { a.2.1 with next := a.2.1.next + 1 }).map fun b => (.tern C a.1 b.1 a.2.1.next, b.2.1, b.2.2)) (fun n => rfl) (Conv.bind a1 ?_)
    refine Conv.eq (h := fun n => (rexpr (glob T U) n (t2 ++ rest) (stOf U (n2 + 1) d2 fs nv)).map fun b => (.tern C A b.1 n2, b.2.1, b.2.2)) (fun n => ?_) (b1.map _)
    simp only [p, expect_eq]
    rfl

end Shecc.Body
