import Verif.Lemmas.ExprGen6

/-!
# Translation of assignments
-/

namespace Shecc.ExprGen
open CTypes CEval CSyntax CArith SsaSem
open Shecc.Ssa (Insn Op1)
open Shecc.Parser (POp prio getOperator operator)

variable {base : Nat} {T : Types.Table} {S : Scope}

/-- The code leaves two operands on the stack. -/
def Comp2 (base : Nat) (g g' : G) (P : (X : Ctx base) → X.M.World → X.M.World → Res → Res → Prop) : Prop :=
  ∃ c r r', Ext g g' c ∧ g'.stack = r' :: r :: g.stack ∧ ∀ X : Ctx base, Knows X g' → ∀ w w' ra rb ρ1, Keeps base X.ρ ρ1 → P X w w' ra rb →
    ∃ ρ2, run X.M X.cv c (w, ρ1) = some (w', ρ2) ∧ Keeps g.next ρ1 ρ2 ∧ Val base g'.next ρ2 r ra ∧ Val base g'.next ρ2 r' rb

theorem Comp.pair2 {g g1 g2 : G} {P Q : Phrase base} (h : Comp base g g1 P) (h' : Comp base g1 g2 Q) (hb : base ≤ g.next) :
    Comp2 base g g2 fun X w w' ra rb => ∃ w1, P X w w1 ra ∧ Q X w1 w' rb := by
  obtain ⟨c, r, r', h1, h2, h3⟩ := h.pair h' hb
  refine ⟨c, r, r', h1, h2, ?_⟩
  rintro X hX w w' ra rb ρ1 hk ⟨w1, hP, hQ⟩
  exact h3 X hX w w1 w' ra rb ρ1 hk hP hQ

/-- The object stays on the stack, its value is put on top. -/
theorem Comp.old {g g1 : G} {l : Lv} {t : CTypes.T} (h : Comp base g g1 (phLv S l t)) (hb : base ≤ g.next) {ts : List Tk} {d d1 : List Char}
    (hw : WLv S l t ts d d1) (k : Nat) : ∃ a st g2, g1.stack = a :: st ∧
      (if !isVar l then ({ g1 with stack := a :: g1.stack } : G).un .read k else some { g1 with stack := a :: g1.stack }) = some g2 ∧ g2.data = g1.data ∧
      Comp2 base g g2 fun X w w' ra rb => ∃ pl, EvLv X.C S.E S.decl X.ρ w l w' t pl ∧ ra = Place.res pl ∧ pl.Read k w' rb := by
  obtain ⟨c, a, h1, h2, _, h3⟩ := h
  have hn := h1.next
  cases hv : isVar l with
  | true =>
    refine ⟨a, g.stack, { g1 with stack := a :: g1.stack }, h2, rfl, rfl, c, a, a, ?_, by simp [h2], ?_⟩
    · have := h1.trans (Ext.refl g1 { g1 with stack := a :: g1.stack } rfl rfl rfl)
      simpa using this
    · rintro X hX w w' ra rb ρ1 hk ⟨pl, hev, rfl, hrd⟩
      obtain ⟨ρ2, h4, h5, h6⟩ := h3 X hX w w' _ ρ1 hk ⟨pl, hev, rfl⟩
      refine ⟨ρ2, h4, h5, h6, ?_⟩
      cases l with
      | var x =>
        have := ((evLv_type hw hev).2 x).2 rfl
        subst this
        cases hrd
        exact h6
      | _ => simp [isVar] at hv
  | false =>
    refine ⟨a, g.stack, { g1 with
      code := g1.code ++ [{ op := .read, rd := some g1.next, rs1 := some a, sz := k }]
      next := g1.next + 1
      stack := g1.next :: g1.stack }, h2, rfl, rfl, c ++ [{ op := .read, rd := some g1.next, rs1 := some a, sz := k }], a, g1.next, ?_, by simp [h2], ?_⟩
    · exact h1.trans ⟨by simp, rfl, Nat.le_succ _, [], rfl, by simp, by simp⟩
    · rintro X hX w w' ra rb ρ1 hk ⟨pl, hev, rfl, hrd⟩
      obtain ⟨ρ2, h4, h5, h6⟩ := h3 X hX w w' _ ρ1 hk ⟨pl, hev, rfl⟩
      cases pl with
      | var x =>
        rw [((evLv_type hw hev).2 x).1 rfl] at hv
        simp [isVar] at hv
      | mem m =>
        obtain ⟨v, hv', rfl⟩ : ∃ v, X.M.load k w' m = some v ∧ rb = .val v := by cases hrd with | mem h => exact ⟨_, h, rfl⟩
        have hkp := keeps_upd ρ2 v (Nat.le_refl g1.next)
        refine ⟨upd ρ2 g1.next v, ?_, h5.trans hkp hn, h6.mono hkp (Nat.le_succ _), by omega, Nat.lt_succ_self _, by simp [upd]⟩
        rw [run_append, h4, Option.bind_some, run_one]
        have e1 := h6.rd X (hk.trans h5 hb) w'
        simp only [Place.res, Res.use] at e1
        simp only [step, e1, hv', Option.map_some, wrVar_temp X (show base ≤ g1.next by omega)]

theorem Comp2.alu2 {g g1 g2 : G} {P : (X : Ctx base) → X.M.World → X.M.World → Res → Res → Prop} {Q : Phrase base} (h : Comp2 base g g1 P)
    (h' : Comp base g1 g2 Q) (hb : base ≤ g.next) {op : Op2} {o : BinOp} (ho : IrM.binOf op = some o) :
    ∃ g3, g2.bin op = some g3 ∧ g3.data = g2.data ∧ Comp2 base g g3 fun X w w' ra res =>
      ∃ w1 ro rb v, P X w w1 ra ro ∧ Q X w1 w' rb ∧ CArith.bin o (ro.use X.ρ w') (rb.use X.ρ w') = some v ∧ res = .val v := by
  obtain ⟨c, a0, a, h1, h2, h3⟩ := h
  obtain ⟨c', b, h1', h2', _, h3'⟩ := h'
  refine ⟨{ g2 with
    code := g2.code ++ [{ op := .alu op, rd := some g2.next, rs1 := some a, rs2 := some b }]
    next := g2.next + 1
    stack := g2.next :: a0 :: g.stack }, by simp only [G.bin, h2', h2], rfl,
    (c ++ c') ++ [{ op := .alu op, rd := some g2.next, rs1 := some a, rs2 := some b }], a0, g2.next, ?_, rfl, ?_⟩
  · exact (h1.trans h1').trans ⟨by simp, rfl, Nat.le_succ _, [], rfl, by simp, by simp⟩
  · rintro X hX w w' r0 res ρ1 hk ⟨w1, ra, rb, v, hP, hQ, hv, rfl⟩
    have hn := h1.next
    have hn' := h1'.next
    obtain ⟨ρ2, h4, h5, h60, h6⟩ := h3 X (fun p hp => hX p (h1'.sub hp)) w w1 r0 ra ρ1 hk hP
    have hk2 := hk.trans h5 hb
    obtain ⟨ρ3, h4', h5', h6'⟩ := h3' X hX w1 w' rb ρ2 hk2 hQ
    have hk3 := hk2.trans h5' (by omega)
    have hkp := keeps_upd ρ3 v (Nat.le_refl g2.next)
    refine ⟨upd ρ3 g2.next v, ?_, (h5.trans h5' hn).trans hkp (by omega), (h60.mono h5' hn').mono hkp (Nat.le_succ _), by omega, Nat.lt_succ_self _, by simp [upd]⟩
    rw [run_append, run_append, h4, Option.bind_some, h4', Option.bind_some, run_one]
    simp only [step, ho, (h6.mono h5' hn').rd X hk3, h6'.rd X hk3, hv, Option.map_some, wrVar_temp X (show base ≤ g2.next by omega)]

/-- The code between `g` and `g'` performs the assignment. -/
def CompS (base : Nat) (g g' : G) (P : (X : Ctx base) → X.M.World → State X.M → Prop) : Prop :=
  ∃ c, Ext g g' c ∧ c ≠ [] ∧ g'.stack = g.stack ∧ ∀ X : Ctx base, Knows X g' → ∀ w s' ρ1, Keeps base X.ρ ρ1 → P X w s' →
    ∃ ρ2, run X.M X.cv c (w, ρ1) = some (s'.1, ρ2) ∧ Keeps base s'.2 ρ2 ∧ (ρ1 = X.ρ → Keeps g.next s'.2 ρ2)

theorem Comp2.store {g g1 : G} {P : (X : Ctx base) → X.M.World → X.M.World → Res → Res → Prop} (h : Comp2 base g g1 P) (hb : base ≤ g.next) (ref : Bool) (k : Nat)
    {Q : (X : Ctx base) → X.M.World → State X.M → Prop}
    (hq : ∀ X w s', Q X w s' → ∃ w' r, match ref with
      | true => ∃ a, P X w w' (.val a) r ∧ ∃ w2, X.C.store k w' a (r.use X.ρ w') = some w2 ∧ s' = (w2, X.ρ)
      | false => ∃ x, P X w w' (.var x) r ∧ s' = wrVar X.M (w', X.ρ) x (r.use X.ρ w')) :
    ∃ g2, g1.store ref k = some g2 ∧ g2.data = g1.data ∧ CompS base g g2 Q := by
  obtain ⟨c, a, v, h1, h2, h3⟩ := h
  have hn := h1.next
  obtain ⟨i, hi⟩ : ∃ i : Insn, i = (if ref then { op := .write, rs1 := some a, rs2 := some v, sz := k } else { op := .assign, rd := some a, rs1 := some v }) := ⟨_, rfl⟩
  refine ⟨{ g1 with code := g1.code ++ [i], stack := g.stack }, by simp only [G.store, h2, hi], rfl, c ++ [i], ?_, by simp, rfl, ?_⟩
  · exact h1.trans ⟨by rw [hi]; cases ref <;> simp, rfl, Nat.le_refl _, [], rfl, by simp, by simp⟩
  · intro X hX w s' ρ1 hk1 hQ
    obtain ⟨w', r, hcase⟩ := hq X w s' hQ
    cases ref with
    | true =>
      obtain ⟨m, hP, w2, hst, rfl⟩ := hcase
      obtain ⟨ρ2, h4, h5, h6, h7⟩ := h3 X hX w w' _ _ ρ1 hk1 hP
      have hk := hk1.trans h5 hb
      refine ⟨ρ2, ?_, hk, fun h => h ▸ h5⟩
      obtain ⟨u, hu⟩ := X.L.write_ok a v k m (r.use X.ρ w') w' w2 hst
      rw [run_append, h4, Option.bind_some, run_one, hi]
      have e1 := h6.rd X hk w'
      have e2 := h7.rd X hk w'
      simp only [Res.use] at e1
      simp only [step, if_true, Option.map_some, e1, e2, hu, wrOpt]
    | false =>
      obtain ⟨x, hP, rfl⟩ := hcase
      obtain ⟨ρ2, h4, h5, h6, h7⟩ := h3 X hX w w' _ _ ρ1 hk1 hP
      have hk := hk1.trans h5 hb
      obtain ⟨rfl, hx⟩ := h6
      have e2 := h7.rd X hk w'
      refine ⟨(wrVar X.M (w', ρ2) a (r.use X.ρ w')).2, ?_, ?_, ?_⟩
      · rw [run_append, h4, Option.bind_some, run_one, hi]
        simp only [Bool.false_eq_true, if_false, step, e2]
        congr 1
        unfold wrVar
        split <;> rfl
      · intro y hy
        unfold wrVar
        split
        · exact hk y hy
        · dsimp only
          rw [hk y hy]
      · rintro rfl y hy
        unfold wrVar
        split
        · exact h5 y hy
        · dsimp only
          rw [h5 y hy]

/-- The lvalue of an assignment. -/
theorem lvalue_asg (h : TOk T S.E) (hv : ∀ s x, S.var s = some x → x < base) {l : Lv} {t : CTypes.T} {ts : List Tk} {d d1 : List Char} (hw : WLv S l t ts d d1)
    (ha : Assignable l t) : ∃ s x ts', ts = (.identifier, s) :: ts' ∧ (names T S).var s = some (x, Types.readVar (S.decl x)) ∧
      ∀ g rest, base ≤ g.next → g.data = d → isAccess rest = false → ∃ st g1,
        Conv (fun n => lvalue (names T S) n false x (Types.readVar (S.decl x)) (ts' ++ rest) g) (st, g1, rest) ∧ g1.data = d1 ∧ Comp base g g1 (phLv S l t) ∧
        st.isFunc = false ∧ st.isRef = !isVar l ∧ (∀ k, HasSize S.E t k → st.size = k) ∧
        (Changeable S l t → ∀ i, Unit1 S.E t i → (if st.isPtr > 0 then tySize T st.ty else some 1) = some i) := by
  obtain ⟨s, x, ts', h1, _, h3, hl⟩ := wLv_ok h hv hw
  refine ⟨s, x, ts', h1, names_var h3, fun g rest hb hd hr => ?_⟩
  obtain ⟨st, sp, b, g1, e1, efa, e2, e3, e4⟩ := hl g rest hb hd
  rw [hr] at e1
  have hna : isArr t = false := by cases t <;> first | rfl | exact ha.elim
  have hfn : t ≠ .ptr .fn := by rintro rfl; exact ha rfl
  obtain ⟨hb1, hb2, hb3⟩ := base_kind h e1.hb
  refine ⟨st, g1, lvalue_of (e4 _ (access_end _ hr st g1)) (Conv.const fun _ => rfl), e2, e3, ?_, ?_, fun k hk => lv_size h e1 hna hk, ?_⟩
  · rw [e1.hf]
    cases hi : isIndex l with
    | true => exact (e1.hidx hi).2.2.1
    | false =>
      have hs := (e1.hdir hi).1
      cases hs with
      | obj _ hf => exact hf
      | arr _ hf => exact hf
      | fn _ hf => exact absurd rfl hfn
  · rw [lv_isRef h e1, hna]; simp
  · intro hc i hi
    have hiff : 0 < st.isPtr ↔ isPtr t = true := by
      cases hx : isIndex l with
      | true =>
        obtain ⟨l', e, rfl⟩ : ∃ l' e, l = .index l' e := by cases l <;> simp_all [isIndex]
        obtain ⟨n, hn⟩ := hc.2 l' e rfl
        exact efa l' e n rfl hn
      | false =>
        have hs := (e1.hdir hx).1
        rw [e1.hp]
        cases hs with
        | obj ha' hf => rw [isPtr_pointers hb1]; simp
        | arr _ hf => simp [isArr] at hna
        | fn _ hf => exact absurd rfl hfn
    cases hi with
    | ptr hk =>
      rw [if_pos (hiff.2 rfl)]
      exact sum_size h e1 (.ptr _) hk (hc.1 _ rfl)
    | other hne =>
      rw [if_neg]
      intro hp
      have := hiff.1 hp
      cases t <;> simp [isPtr] at this
      exact hne _ rfl

theorem convert_var {l : Lv} {t : CTypes.T} (ha : Assignable l t) (hv : isVar l = true) (v : Word) : convert t v = v := by
  cases t with
  | char =>
    cases l with
    | var x => exact absurd rfl (ha x)
    | _ => simp [isVar] at hv
  | bool => exact ha.elim
  | _ => rfl

/-- An assignment to the place that is on the stack. -/
theorem write_split {X : Ctx base} {l : Lv} {t : CTypes.T} {ts : List Tk} {d d1 : List Char} (hw : WLv S l t ts d d1) (ha : Assignable l t)
    {w w1 : X.M.World} {pl : Place} (hev : EvLv X.C S.E S.decl X.ρ w l w1 t pl) (k : Nat) (s : State X.M) (v : Word) :
    (isVar l = false → ∃ a, pl = .mem a ∧ ∀ s', pl.write X.C t k s v = some s' → ∃ w2, X.C.store k s.1 a v = some w2 ∧ s' = (w2, s.2)) ∧
    (isVar l = true → ∃ x, pl = .var x ∧ ∀ s', pl.write X.C t k s v = some s' → s' = wrVar X.M s x v) := by
  obtain ⟨_, h2⟩ := evLv_type hw hev
  constructor
  · intro hv
    cases pl with
    | var x => rw [(h2 x).1 rfl] at hv; simp [isVar] at hv
    | mem a =>
      refine ⟨a, rfl, fun s' h => ?_⟩
      simp only [Place.write, Option.map_eq_some_iff] at h
      obtain ⟨w2, e, rfl⟩ := h
      exact ⟨w2, e, rfl⟩
  · intro hv
    cases l with
    | var x =>
      have := (h2 x).2 rfl
      subst this
      refine ⟨x, rfl, fun s' h => ?_⟩
      simp only [Place.write, convert_var ha rfl, Option.some.injEq] at h
      exact h.symm
    | _ => simp [isVar] at hv

def phAsg (S : Scope) (a : Asg) : (X : Ctx base) → X.M.World → State X.M → Prop := fun X w s' => EvAsg X.C S.E S.decl X.ρ w a s'

def RAsg (base : Nat) (T : Types.Table) (S : Scope) (a : Asg) (ts : List Tk) (fl : Bool) (d d1 : List Char) : Prop :=
  ∃ s ts', ts = (.identifier, s) :: ts' ∧ ∀ g rest, base ≤ g.next → g.data = d → okHead fl rest = true → getOperator rest = (none, rest) →
    ∃ g', Conv (fun n => assignment (names T S) n s (ts' ++ rest) g) (g', rest) ∧ g'.data = d1 ∧ CompS base g g' (phAsg S a)

theorem rAsg_set (h : TOk T S.E) (hv : ∀ s x, S.var s = some x → x < base) {l : Lv} {e : Ex} {t t' : CTypes.T} {tl te : List Tk} {fl : Bool} {d d1 d2 : List Char}
    (hl : WLv S l t tl d d1) (he : WEx S 0 e t' te fl d1 d2) (ha : Assignable l t) : RAsg base T S (.set l e) (tl ++ p .assign :: te) fl d d2 := by
  obtain ⟨s, x, tl', rfl, h2, h3⟩ := lvalue_asg h hv hl ha
  refine ⟨s, tl' ++ p .assign :: te, rfl, fun g rest hb hd hr ho => ?_⟩
  obtain ⟨st, g1, a1, a2, a3, a4, a5, a6, _⟩ := h3 g (p .assign :: (te ++ rest)) hb hd rfl
  have hn := a3.next
  obtain ⟨g2, b1, b2, b3⟩ := (wEx_ok h hv he).expr (g := g1) (rest := rest) (by omega) a2 hr ho
  obtain ⟨g3, c1, c2, c3⟩ := (a3.pair2 b3 hb).store hb st.isRef st.size (Q := phAsg S (.set l e)) (by
    intro X w s' hev
    cases hev with
    | @set w1 w2 _ _ t0 pl r k _ hl' he' hk' hs' =>
      have := (evLv_type hl hl').1
      subst this
      have hs := write_split (t := t0) hl ha hl' k (w2, X.ρ) (r.use X.ρ w2)
      rw [a6 k hk']
      rw [a5]
      refine ⟨w2, r, ?_⟩
      cases hiv : isVar l with
      | true =>
        obtain ⟨y, rfl, hy⟩ := hs.2 hiv
        exact ⟨y, ⟨w1, ⟨_, hl', rfl⟩, he'⟩, hy _ hs'⟩
      | false =>
        obtain ⟨y, rfl, hy⟩ := hs.1 hiv
        exact ⟨y, ⟨w1, ⟨_, hl', rfl⟩, he'⟩, hy _ hs'⟩)
  refine ⟨g3, ?_, by rw [c2, b2], c3⟩
  obtain ⟨n0, a1⟩ := a1
  obtain ⟨n1, b1⟩ := b1
  refine ⟨n0 + n1, fun n hn => ?_⟩
  have a1 : lvalue (names T S) n false x (Types.readVar (S.decl x)) (tl' ++ p .assign :: (te ++ rest)) g = _ := a1 n (by omega)
  have b1 := b1 n (by omega)
  simp only [assignment, h2, Option.bind_some, List.append_assoc, List.cons_append, a1]
  simp only [p, b1, Option.bind_some, a4, Bool.false_or, Bool.false_eq_true, if_false, c1, Option.map_some]

theorem assignOp_tok {o : BinOp} {k : Lex.Tok} (h : asgTok o = some k) : ∃ c, assignOp k = some (c, false) ∧ IrM.binOf c = some o ∧ k ≠ .assign ∧
    ∀ r, isAccess (p k :: r) = false := by
  cases o <;> cases h <;> exact ⟨_, rfl, rfl, by simp, fun _ => rfl⟩

theorem asg_unfold {N : Names} {n : Nat} {s : List Char} {ts : List Parser.T} {g g1 g2 : G} {x : Nat} {v : Types.Var} {st : LvSt} {k : Lex.Tok} {rest : List Parser.T}
    {o : Op2 × Bool} {inc a : Nat} {stk : List Nat} {y : G × List Parser.T}
    (h1 : N.var s = some (x, v)) (h2 : lvalue N n false x v ts g = some (st, g1, p k :: rest)) (hk : k ≠ .assign) (ho : assignOp k = some o)
    (hi : (if st.isPtr > 0 then tySize N.types st.ty else some 1) = some inc) (hs : g1.stack = a :: stk)
    (hold : (if st.isRef then ({ g1 with stack := a :: g1.stack } : G).un .read st.size else some { g1 with stack := a :: g1.stack }) = some g2)
    (hy : (if o.2 then ((g2.const (BitVec.ofNat 32 inc)).bin o.1).bind fun g => (g.store st.isRef st.size).map fun g => (g, rest)
      else (expr N n rest g2).bind fun q => ((q.1.const (BitVec.ofNat 32 inc)).bin .mul).bind fun g => (g.bin o.1).bind fun g =>
                (g.store st.isRef st.size).map fun g => (g, q.2)) = some y) : assignment N n s ts g = some y := by
  simp only [assignment, h1, Option.bind_some, h2, p, ho, hi, hs]
  rw [hs] at hold
  simp only [hold, Option.bind_some]
  exact hy

theorem rAsg_op (h : TOk T S.E) (hv : ∀ s x, S.var s = some x → x < base) {o : BinOp} {k : Lex.Tok} {l : Lv} {e : Ex} {t : CTypes.T} {tl te : List Tk} {fl : Bool}
    {d d1 d2 : List Char} (hk : asgTok o = some k) (hl : WLv S l t tl d d1) (he : WEx S 0 e .int te fl d1 d2) (ha : Assignable l t) (hc : Changeable S l t)
    {sz i : Nat} (hsz : HasSize S.E t sz) (hi : Unit1 S.E t i) :
    RAsg base T S (.op o l e) (tl ++ p k :: te) fl d d2 := by
  obtain ⟨c, k1, k2, k3, k4⟩ := assignOp_tok hk
  obtain ⟨s, x, tl', rfl, h2, h3⟩ := lvalue_asg h hv hl ha
  refine ⟨s, tl' ++ p k :: te, rfl, fun g rest hb hd hr ho => ?_⟩
  obtain ⟨st, g1, a1, a2, a3, a4, a5, a6, a7⟩ := h3 g (p k :: (te ++ rest)) hb hd (k4 _)
  have hsz' := a6 sz hsz
  obtain ⟨a, stk, g2, o1, o2, o3, o4⟩ := a3.old hb hl sz
  have hn2 : g.next ≤ g2.next := by obtain ⟨_, _, _, hx, _⟩ := o4; exact hx.next
  obtain ⟨g3, b1, b2, b3⟩ := (wEx_ok h hv he).expr (g := g2) (rest := rest) (by omega) (by rw [o3, a2]) hr ho
  have hn3 := b3.next
  obtain ⟨g4, m1, m2, m3⟩ := b3.alu2 (comp_const (base := base) (g := g3) (by omega) (BitVec.ofNat 32 i)) (by omega) (op := .mul) (o := .mul) rfl
  obtain ⟨g5, n1, n2, n3⟩ := o4.alu2 m3 hb k2
  obtain ⟨g6, c1, c2, c3⟩ := n3.store hb st.isRef st.size (Q := phAsg S (.op o l e)) (by
    intro X w s' hev
    cases hev with
    | @op w1 w2 _ _ _ t0 pl q r k0 i0 v _ hl' hq' he' hk' hi' hv' hs' =>
      have := (evLv_type hl hl').1
      subst this
      have hkk := Types.HasSize.fun' hsz hk'
      subst hkk
      have hii : i0 = i := by
        cases hi with
        | ptr h1 =>
          cases hi' with
          | ptr h2 => exact Types.HasSize.fun' h2 h1
          | other h2 => exact absurd rfl (h2 _)
        | other h1 =>
          cases hi' with
          | ptr h2 => exact absurd rfl (h1 _)
          | other h2 => rfl
      subst hii
      have hs := write_split (t := t0) hl ha hl' sz (w2, X.ρ) v
      rw [hsz', a5]
      refine ⟨w2, .val v, ?_⟩
      have key : ∃ (w1 : X.M.World) (ro rb : Res) (v' : Word), (∃ pl', EvLv X.C S.E S.decl X.ρ w l w1 t0 pl' ∧ Place.res pl = Place.res pl' ∧ pl'.Read sz w1 ro) ∧
          (∃ w1_1 ra rb_1 v, phEx S e X w1 w1_1 ra ∧ (w2 = w1_1 ∧ rb_1 = Res.val (BitVec.ofNat 32 i0)) ∧
            CArith.bin .mul (ra.use X.ρ w2) (rb_1.use X.ρ w2) = some v ∧ rb = Res.val v) ∧
          CArith.bin o (ro.use X.ρ w2) (rb.use X.ρ w2) = some v' ∧ Res.val v = .val v' :=
        ⟨w1, _, Res.val (r.use X.ρ w2 * BitVec.ofNat 32 i0), v, ⟨pl, hl', rfl, hq'⟩, ⟨w2, r, _, _, he', ⟨rfl, rfl⟩, rfl, rfl⟩, hv', rfl⟩
      cases hiv : isVar l with
      | true =>
        obtain ⟨y, rfl, hy⟩ := hs.2 hiv
        exact ⟨y, key, hy _ hs'⟩
      | false =>
        obtain ⟨y, rfl, hy⟩ := hs.1 hiv
        exact ⟨y, key, hy _ hs'⟩)
  refine ⟨g6, ?_, by rw [c2, n2, m2]; exact b2, c3⟩
  obtain ⟨n0, a1⟩ := a1
  obtain ⟨n1', b1⟩ := b1
  refine ⟨n0 + n1', fun n hn => ?_⟩
  have a1 := a1 n (by omega)
  have b1 := b1 n (by omega)
  refine asg_unfold (k := k) (rest := te ++ rest) h2 (by simpa using a1) k3 k1 (a7 hc i hi) o1 (by rw [a5, hsz']; exact o2) ?_
  simp only [Bool.false_eq_true, if_false, b1, Option.bind_some, m1, n1, c1, Option.map_some]

/-- The instructions of `++` and `--` behind those of the object. -/
theorem step_core {l : Lv} {t : CTypes.T} {tl : List Tk} {d d1 : List Char} {up : Bool} (hl : WLv S l t tl d d1) (ha : Assignable l t)
    {sz i : Nat} (hsz : HasSize S.E t sz) (hi : Unit1 S.E t i) {c : Op2} {o : BinOp} (k2 : IrM.binOf c = some o) (k4 : o = if up then .add else .sub)
    {g g1 : G} (hb : base ≤ g.next) (a3 : Comp base g g1 (phLv S l t)) {st : LvSt} (a5 : st.isRef = !isVar l) (hsz' : st.size = sz) :
    ∃ a stk g2 g5 g6, g1.stack = a :: stk ∧
      (if !isVar l then ({ g1 with stack := a :: g1.stack } : G).un .read sz else some { g1 with stack := a :: g1.stack }) = some g2 ∧
      (g2.const (BitVec.ofNat 32 i)).bin c = some g5 ∧ g5.store st.isRef st.size = some g6 ∧ g6.data = g1.data ∧
      CompS base g g6 (phAsg S (if up then .incr l else .decr l)) := by
  obtain ⟨a, stk, g2, o1, o2, o3, o4⟩ := a3.old hb hl sz
  have hn2 : g.next ≤ g2.next := by obtain ⟨_, _, _, hx, _⟩ := o4; exact hx.next
  obtain ⟨g5, n1, n2, n3⟩ := o4.alu2 (comp_const (base := base) (g := g2) (by omega) (BitVec.ofNat 32 i)) hb k2
  obtain ⟨g6, c1, c2, c3⟩ := n3.store hb st.isRef st.size (Q := phAsg S (if up then .incr l else .decr l)) (by
    intro X w s' hev
    have : ∃ w1 pl q v, EvLv X.C S.E S.decl X.ρ w l w1 t pl ∧ pl.Read sz w1 q ∧ CArith.bin o (q.use X.ρ w1) (BitVec.ofNat 32 i) = some v ∧
        pl.write X.C t sz (w1, X.ρ) v = some s' := by
      have hii : ∀ {i0}, Unit1 S.E t i0 → i0 = i := by
        intro i0 hi'
        cases hi with
        | ptr h1 =>
          cases hi' with
          | ptr h2 => exact Types.HasSize.fun' h2 h1
          | other h2 => exact absurd rfl (h2 _)
        | other h1 =>
          cases hi' with
          | ptr h2 => exact absurd rfl (h1 _)
          | other h2 => rfl
      cases up with
      | true =>
        have hev : EvAsg X.C S.E S.decl X.ρ w (.incr l) s' := hev
        cases hev with
        | incr hl' hq' hk' hi' hs' =>
          have := (evLv_type hl hl').1
          subst this
          have hkk := Types.HasSize.fun' hsz hk'
          subst hkk
          have := hii hi'
          subst this
          subst k4
          exact ⟨_, _, _, _, hl', hq', rfl, hs'⟩
      | false =>
        have hev : EvAsg X.C S.E S.decl X.ρ w (.decr l) s' := hev
        cases hev with
        | decr hl' hq' hk' hi' hs' =>
          have := (evLv_type hl hl').1
          subst this
          have hkk := Types.HasSize.fun' hsz hk'
          subst hkk
          have := hii hi'
          subst this
          subst k4
          exact ⟨_, _, _, _, hl', hq', rfl, hs'⟩
    obtain ⟨w1, pl, q, v, hl', hq', hv', hs'⟩ := this
    have hs := write_split (t := t) hl ha hl' sz (w1, X.ρ) v
    rw [hsz', a5]
    refine ⟨w1, .val v, ?_⟩
    have key : ∃ (w1_1 : X.M.World) (ro rb : Res) (v' : Word), (∃ pl', EvLv X.C S.E S.decl X.ρ w l w1_1 t pl' ∧ Place.res pl = Place.res pl' ∧ pl'.Read sz w1_1 ro) ∧
          (w1 = w1_1 ∧ rb = Res.val (BitVec.ofNat 32 i)) ∧
          CArith.bin o (ro.use X.ρ w1) (rb.use X.ρ w1) = some v' ∧ Res.val v = .val v' :=
        ⟨w1, _, _, v, ⟨pl, hl', rfl, hq'⟩, ⟨rfl, rfl⟩, hv', rfl⟩
    cases hiv : isVar l with
    | true =>
      obtain ⟨y, rfl, hy⟩ := hs.2 hiv
      exact ⟨y, key, hy _ hs'⟩
    | false =>
      obtain ⟨y, rfl, hy⟩ := hs.1 hiv
      exact ⟨y, key, hy _ hs'⟩)
  exact ⟨a, stk, g2, g5, g6, o1, o2, n1, c1, by rw [c2, n2]; exact o3, c3⟩

theorem rAsg_step (h : TOk T S.E) (hv : ∀ s x, S.var s = some x → x < base) {k : Lex.Tok} {l : Lv} {t : CTypes.T} {tl : List Tk}
    {d d1 : List Char} (up : Bool) (hk : k = if up then .increment else .decrement) (hl : WLv S l t tl d d1) (ha : Assignable l t) (hc : Changeable S l t)
    {sz i : Nat} (hsz : HasSize S.E t sz) (hi : Unit1 S.E t i) :
    RAsg base T S (if up then .incr l else .decr l) (tl ++ [p k]) false d d1 := by
  obtain ⟨c, o, k1, k2, k3, k4⟩ : ∃ c o, assignOp k = some (c, true) ∧ IrM.binOf c = some o ∧ k ≠ .assign ∧
      (o = if up then .add else .sub) := by
    cases up <;> subst hk <;> exact ⟨_, _, rfl, rfl, by simp, rfl⟩
  obtain ⟨s, x, tl', rfl, h2, h3⟩ := lvalue_asg h hv hl ha
  refine ⟨s, tl' ++ [p k], rfl, fun g rest hb hd hr ho => ?_⟩
  obtain ⟨st, g1, a1, a2, a3, a4, a5, a6, a7⟩ := h3 g (p k :: rest) hb hd (by cases up <;> subst hk <;> rfl)
  have hsz' := a6 sz hsz
  obtain ⟨a, stk, g2, g5, g6, o1, o2, n1, c1, c2, c3⟩ := step_core (up := up) hl ha hsz hi k2 k4 hb a3 a5 hsz'
  refine ⟨g6, ?_, by rw [c2]; exact a2, c3⟩
  obtain ⟨n0, a1⟩ := a1
  refine ⟨n0, fun n hn => ?_⟩
  have a1 := a1 n (by omega)
  refine asg_unfold (k := k) (rest := rest) h2 (by simpa using a1) k3 k1 (a7 hc i hi) o1 (by rw [a5, hsz']; exact o2) ?_
  simp only [if_true, n1, Option.bind_some, c1, Option.map_some]

/-- Behind a prefix `++` or `--`. -/
theorem rPre_step (h : TOk T S.E) (hv : ∀ s x, S.var s = some x → x < base) {l : Lv} {t : CTypes.T} {tl : List Tk}
    {d d1 : List Char} (up : Bool) (hl : WLv S l t tl d d1) (ha : Assignable l t) (hc : Changeable S l t) {sz i : Nat} (hsz : HasSize S.E t sz) (hi : Unit1 S.E t i) :
    ∃ s ts', tl = (.identifier, s) :: ts' ∧ ∀ g rest, base ≤ g.next → g.data = d → Ends rest →
      ∃ g', Conv (fun n => prefixed (names T S) (if up then .add else .sub) n s (ts' ++ rest) g) (g', rest) ∧ g'.data = d1 ∧
        CompS base g g' (phAsg S (if up then .incr l else .decr l)) := by
  obtain ⟨s, x, tl', rfl, h2, h3⟩ := lvalue_asg h hv hl ha
  refine ⟨s, tl', rfl, fun g rest hb hd hr => ?_⟩
  obtain ⟨k, ks, r, rfl, hk⟩ := hr
  have hk' : k ≠ .open_bracket ∧ (assignOp k).isSome = false ∧ isAccess ((k, ks) :: r) = false := by
    simp only [List.mem_cons, List.not_mem_nil, or_false] at hk
    rcases hk with rfl | rfl | rfl | rfl | rfl | rfl | rfl <;> exact ⟨by simp, rfl, rfl⟩
  obtain ⟨st, g1, a1, a2, a3, a4, a5, a6, a7⟩ := h3 g ((k, ks) :: r) hb hd hk'.2.2
  have hsz' := a6 sz hsz
  obtain ⟨a, stk, g2, g5, g6, o1, o2, n1, c1, c2, c3⟩ := step_core (up := up) (c := if up then .add else .sub) (o := if up then .add else .sub) hl ha hsz hi
    (by cases up <;> rfl) rfl hb a3 a5 hsz'
  refine ⟨g6, ?_, by rw [c2]; exact a2, c3⟩
  obtain ⟨n0, a1⟩ := a1
  refine ⟨n0, fun n hn => ?_⟩
  have a1 := a1 n (by omega)
  rw [hsz'] at c1
  rw [o1] at o2
  have hi' : (if st.isPtr > 0 then tySize (names T S).types st.ty else some 1) = some i := a7 hc i hi
  simp only [prefixed, h2, Option.bind_some, a1, if_neg hk'.1, hk'.2.1, Bool.false_eq_true, if_false, hi', o1, a5, hsz', o2, n1]
  rw [a5] at c1
  simp only [c1, Option.map_some]

end Shecc.ExprGen
