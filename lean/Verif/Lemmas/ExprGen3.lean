import Verif.Lemmas.ExprGen2

/-!
# Translation of expressions: calls, operators, lvalues
-/

namespace Shecc.ExprGen
open CEval CSyntax CArith SsaSem
open Shecc.Ssa (Insn Op1)
open Shecc.Parser (POp prio getOperator operator)

/-- What the compiler knows about names and types in the scope. -/
def names (T : Types.Table) (S : Scope) : Names where
  types := T
  const := S.const
  var := fun s => (S.var s).map fun x => (x, Types.readVar (S.decl x))
  fn := fun s => (S.fn s).isSome

variable {base : Nat}

theorem Conv.unsucc {α : Type} {f h : Nat → Option α} {x : α} (k : Nat) (he : ∀ n, f (n + k) = h n) (hc : Conv f x) : Conv h x := by
  obtain ⟨n0, hn⟩ := hc
  exact ⟨n0, fun n hle => by rw [← he]; exact hn _ (by omega)⟩

/-! ### Arguments and calls -/

def Vals (base n : Nat) (ρ : Nat → Word) : List Nat → List Res → Prop
  | [], [] => True
  | r :: rs, v :: vs => Val base n ρ r v ∧ Vals base n ρ rs vs
  | _, _ => False

theorem Vals.mono {n m : Nat} {ρ ρ' : Nat → Word} (hk : Keeps n ρ ρ') (hn : n ≤ m) : ∀ {rs : List Nat} {vs : List Res}, Vals base n ρ rs vs → Vals base m ρ' rs vs
  | [], [], _ => trivial
  | _ :: _, _ :: _, h => ⟨h.1.mono hk hn, Vals.mono hk hn h.2⟩
  | [], _ :: _, h => h.elim
  | _ :: _, [], h => h.elim

/-- The code between `g` and `g'` evaluates the phrase and leaves its operands on the stack. -/
def CompL (base : Nat) (g g' : G) (m : Nat) (P : (X : Ctx base) → X.M.World → X.M.World → List Res → Prop) : Prop :=
  ∃ c rs, Ext g g' c ∧ rs.length = m ∧ g'.stack = rs.reverse ++ g.stack ∧ ∀ X : Ctx base, Knows X g' → ∀ w w' vs ρ1, Keeps base X.ρ ρ1 → P X w w' vs →
    ∃ ρ2, run X.M X.cv c (w, ρ1) = some (w', ρ2) ∧ Keeps g.next ρ1 ρ2 ∧ Vals base g'.next ρ2 rs vs

theorem compL_nil (g : G) : CompL base g g 0 fun _ w w' vs => w' = w ∧ vs = [] := by
  refine ⟨[], [], Ext.refl _ _ rfl rfl rfl, rfl, rfl, ?_⟩
  rintro X _ w w' vs ρ1 _ ⟨rfl, rfl⟩
  exact ⟨ρ1, rfl, Keeps.refl _ _, trivial⟩

theorem CompL.cons {g g1 g2 : G} {m : Nat} {P : Phrase base} {Q : (X : Ctx base) → X.M.World → X.M.World → List Res → Prop} (h : Comp base g g1 P)
    (h' : CompL base g1 g2 m Q) (hb : base ≤ g.next) : CompL base g g2 (m + 1) fun X w w' vs => ∃ w1 r rs, P X w w1 r ∧ Q X w1 w' rs ∧ vs = r :: rs := by
  obtain ⟨c, a, h1, h2, _, h3⟩ := h
  obtain ⟨c', rs, h1', hl, h2', h3'⟩ := h'
  refine ⟨c ++ c', a :: rs, h1.trans h1', by simp [hl], by rw [h2', h2]; simp, ?_⟩
  rintro X hX w w' vs ρ1 hk ⟨w1, r, vs', hP, hQ, rfl⟩
  have hn := h1.next
  have hn' := h1'.next
  obtain ⟨ρ2, h4, h5, h6⟩ := h3 X (fun p hp => hX p (h1'.sub hp)) w w1 r ρ1 hk hP
  obtain ⟨ρ3, h4', h5', h6'⟩ := h3' X hX w1 w' vs' ρ2 (hk.trans h5 hb) hQ
  exact ⟨ρ3, by rw [run_append, h4, Option.bind_some, h4'], h5.trans h5' hn, h6.mono h5' hn', h6'⟩

theorem CompL.mono {g g' : G} {m : Nat} {P Q : (X : Ctx base) → X.M.World → X.M.World → List Res → Prop} (h : CompL base g g' m P)
    (hpq : ∀ X w w' vs, Q X w w' vs → P X w w' vs) : CompL base g g' m Q := by
  obtain ⟨c, rs, h1, h2, h3, h4⟩ := h
  exact ⟨c, rs, h1, h2, h3, fun X hX w w' vs ρ1 hk hq => h4 X hX w w' vs ρ1 hk (hpq X w w' vs hq)⟩

theorem use_push (X : Ctx base) {w W : X.M.World} (h : ∀ x, X.M.get W x = X.M.get w x) (r : Res) : r.use X.ρ W = r.use X.ρ w := by
  cases r with
  | val v => rfl
  | var x => simp only [Res.use, rdVar, h]

theorem run_pushes (X : Ctx base) {n : Nat} {ρ' : Nat → Word} (hk : Keeps base X.ρ ρ') {w : X.M.World} : ∀ {rs : List Nat} {vs : List Res} {W : X.M.World},
    Vals base n ρ' rs vs → (∀ x, X.M.get W x = X.M.get w x) →
      run X.M X.cv (pushes rs) (W, ρ') = some ((vs.map (·.use X.ρ w)).foldl X.L.push W, ρ') ∧
      ∀ x, X.M.get ((vs.map (·.use X.ρ w)).foldl X.L.push W) x = X.M.get w x
  | [], [], W, _, hW => ⟨rfl, hW⟩
  | r :: rs, v :: vs, W, h, hW => by
    obtain ⟨u, hu⟩ := X.L.push_ok r (rs.length + 1) (v.use X.ρ w) W
    have ih := run_pushes X hk (w := w) (rs := rs) (vs := vs) (W := X.L.push W (v.use X.ρ w)) h.2 (fun x => by rw [X.L.push_get, hW])
    refine ⟨?_, ih.2⟩
    simp only [pushes, run, step, Option.map_some, Option.map_none, h.1.rd X hk, use_push X hW, hu, wrOpt, Option.bind_some, List.map_cons, List.foldl_cons]
    exact ih.1
  | [], _ :: _, _, h, _ => h.elim
  | _ :: _, [], _, h, _ => h.elim

theorem popN_ok {g g1 : G} {rs : List Nat} (hs : g1.stack = rs.reverse ++ g.stack) : g1.popN rs.length = some (rs, { g1 with stack := g.stack }) := by
  unfold G.popN
  rw [if_neg (by rw [hs]; simp)]
  simp [hs, List.take_left', List.drop_left']

theorem pushes_ops : ∀ rs : List Nat, ∀ i ∈ pushes rs, CStmt.simple i.op i.rd.isSome = true
  | [], _, h => by cases h
  | _ :: rs, i, h => by
    simp only [pushes, List.mem_cons] at h
    rcases h with rfl | h
    · rfl
    · exact pushes_ops rs i h

theorem callOps (rs : List Nat) (j : Insn) (hj : CStmt.simple j.op j.rd.isSome = true) (k : Insn) (hk : CStmt.simple k.op k.rd.isSome = true) :
    ∀ i ∈ (pushes rs ++ [j]) ++ [k], CStmt.simple i.op i.rd.isSome = true := by
  intro i hi
  simp only [List.mem_append, List.mem_singleton] at hi
  rcases hi with (hi | rfl) | rfl
  · exact pushes_ops rs i hi
  · exact hj
  · exact hk

theorem comp_call {g g1 : G} {m : Nat} {Q : (X : Ctx base) → X.M.World → X.M.World → List Res → Prop} (h : CompL base g g1 m Q) (hb : base ≤ g.next)
    (f : List Char) : ∃ a, g1.popN m = some a ∧ (a.2.emit (pushes a.1 ++ [{ op := .call, str := String.ofList f }])).funcRet.data = g1.data ∧
      Comp base g (a.2.emit (pushes a.1 ++ [{ op := .call, str := String.ofList f }])).funcRet fun X w w' res =>
        ∃ w1 vs v, Q X w w1 vs ∧ X.C.call f (vs.map (·.use X.ρ w1)) w1 = some (w', v) ∧ res = .val v := by
  obtain ⟨c, rs, h1, hl, h2, h3⟩ := h
  subst hl
  refine ⟨_, popN_ok h2, rfl, c ++ ((pushes rs ++ [{ op := .call, str := String.ofList f }]) ++ [{ op := .func_ret, rd := some g1.next }]), g1.next, ?_, rfl, .inr (Nat.lt_succ_self _), ?_⟩
  · exact h1.trans ⟨callOps rs _ (by simp) _ (by simp), by simp [G.funcRet, G.emit], Nat.le_succ _, [], rfl, by simp, by simp⟩
  · rintro X hX w w' res ρ1 hk ⟨w1, vs, v, hQ, hc, rfl⟩
    have hn := h1.next
    obtain ⟨ρ2, h4, h5, h6⟩ := h3 X hX w w1 vs ρ1 hk hQ
    have hk2 := hk.trans h5 hb
    obtain ⟨w2, u, h7, h8⟩ := X.L.call_ok f _ w1 w' v hc
    refine ⟨upd ρ2 g1.next v, ?_, h5.trans (keeps_upd _ _ (Nat.le_refl _)) hn, by omega, Nat.lt_succ_self _, by simp [upd]⟩
    rw [run_append, h4, Option.bind_some, run_append, run_append, (run_pushes X hk2 h6 (fun _ => rfl)).1, Option.bind_some, run_one]
    simp only [step, Option.map_none, h7, Option.map_some, wrOpt, Option.bind_some, run_one, h8, wrVar_temp X (show base ≤ g1.next by omega)]

theorem comp_icall {g g0 g1 : G} {m : Nat} {P : Phrase base} {Q : (X : Ctx base) → X.M.World → X.M.World → List Res → Prop} (hf : Comp base g g0 P)
    (h : CompL base g0 g1 m Q) (hb : base ≤ g.next) : ∃ a f st, g1.popN m = some a ∧ a.2.stack = f :: st ∧
      ((({ a.2 with stack := st } : G).emit (pushes a.1 ++ [{ op := .indirect, rs1 := some f }])).funcRet).data = g1.data ∧
      Comp base g ((({ a.2 with stack := st } : G).emit (pushes a.1 ++ [{ op := .indirect, rs1 := some f }])).funcRet) fun X w w' res =>
        ∃ w0 w1 r vs v, P X w w0 r ∧ Q X w0 w1 vs ∧ X.C.icall (r.use X.ρ w1) (vs.map (·.use X.ρ w1)) w1 = some (w', v) ∧ res = .val v := by
  obtain ⟨c0, f, e1, e2, _, e3⟩ := hf
  obtain ⟨c, rs, h1, hl, h2, h3⟩ := h
  subst hl
  refine ⟨_, f, g.stack, popN_ok h2, e2, rfl, (c0 ++ c) ++ ((pushes rs ++ [{ op := .indirect, rs1 := some f }]) ++ [{ op := .func_ret, rd := some g1.next }]),
    g1.next, ?_, rfl, .inr (Nat.lt_succ_self _), ?_⟩
  · exact (e1.trans h1).trans ⟨callOps rs _ (by simp) _ (by simp), by simp [G.funcRet, G.emit], Nat.le_succ _, [], rfl, by simp, by simp⟩
  · rintro X hX w w' res ρ1 hk ⟨w0, w1, r, vs, v, hP, hQ, hc, rfl⟩
    have hn := h1.next
    have hn0 := e1.next
    obtain ⟨ρ0, e4, e5, e6⟩ := e3 X (fun p hp => hX p (h1.sub hp)) w w0 r ρ1 hk hP
    have hk1 := hk.trans e5 hb
    obtain ⟨ρ2, h4, h5, h6⟩ := h3 X hX w0 w1 vs ρ0 hk1 hQ
    have hk2 := hk1.trans h5 (by omega)
    obtain ⟨w2, u, h7, h8⟩ := X.L.icall_ok (r.use X.ρ w1) _ w1 w' v hc
    obtain ⟨hp1, hp2⟩ := run_pushes X hk2 h6 (fun _ => rfl)
    refine ⟨upd ρ2 g1.next v, ?_, (e5.trans h5 (by omega)).trans (keeps_upd _ _ (Nat.le_refl _)) (by omega), by omega, Nat.lt_succ_self _, by simp [upd]⟩
    rw [run_append, run_append, e4, Option.bind_some, h4, Option.bind_some, run_append, run_append, hp1, Option.bind_some, run_one]
    have hr := (e6.mono h5 hn).rd X hk2 ((vs.map (·.use X.ρ w1)).foldl X.L.push w1)
    rw [use_push X hp2] at hr
    simp only [step, Option.map_none, Option.map_some, hr, h7, wrOpt, Option.bind_some, run_one, h8, wrVar_temp X (show base ≤ g1.next by omega)]

/-! ### Operators -/

def popOf : BinOp → POp
  | .add => .add
  | .sub => .sub
  | .mul => .mul
  | .div => .div
  | .mod => .mod
  | .shl => .lshift
  | .shr => .rshift
  | .eq => .eq
  | .ne => .neq
  | .lt => .lt
  | .le => .leq
  | .gt => .gt
  | .ge => .geq
  | .and => .bit_and
  | .or => .bit_or
  | .xor => .bit_xor

theorem operator_opTok (o : BinOp) : operator (opTok o) = some (popOf o) := by cases o <;> rfl
theorem popOf_log (o : BinOp) : ¬ (popOf o = .log_and ∨ popOf o = .log_or) := by cases o <;> simp [popOf]
theorem prio_popOf {o : BinOp} (h : isShift o = false) : prio (popOf o) = prec o := by cases o <;> first | rfl | cases h
theorem prio_shift {o : BinOp} (h : isShift o = true) : prio (popOf o) = 0 := by cases o <;> first | rfl | cases h
theorem opcode_popOf (o : BinOp) : ∃ c, opcode (popOf o) = some c ∧ IrM.binOf c = some o := by cases o <;> exact ⟨_, rfl, rfl⟩

theorem apply_ok {g g1 g2 : G} {P Q : Phrase base} (h : Comp base g g1 P) (h' : Comp base g1 g2 Q) (hb : base ≤ g.next) (o : BinOp) :
    ∃ g3, g2.apply (popOf o) = some g3 ∧ g3.data = g2.data ∧ Comp base g g3 fun X w w' res =>
      ∃ w1 ra rb v, P X w w1 ra ∧ Q X w1 w' rb ∧ CArith.bin o (ra.use X.ρ w') (rb.use X.ρ w') = some v ∧ res = .val v := by
  obtain ⟨c, h1, h2⟩ := opcode_popOf o
  obtain ⟨g3, e1, e2, e3⟩ := h.alu2 h' hb h2
  exact ⟨g3, by simp only [G.apply, h1, Option.bind_some, e1], e2, e3⟩

/-- An operator on the stack is applied before a looser one. -/
theorem exprLoop_apply (N : Names) {g g' : G} {o : POp} (ha : g.apply o = some g') (lg : Bool) (os : List POp) (rest : List Parser.T)
    (hr : ∀ q ts, getOperator rest = (some q, ts) → prio q ≤ prio o) (n : Nat) : exprLoop N n lg (o :: os) rest g = exprLoop N n lg os rest g' := by
  cases n with
  | zero => simp only [exprLoop]
  | succ n =>
    simp only [exprLoop]
    cases hg : getOperator rest with
    | mk q ts =>
      cases q with
      | none => simp only [flush, ha, Option.bind_some]
      | some q =>
        have := hr q ts hg
        simp only [popOps, ge_iff_le, this, if_true, ha, Option.bind_some]

theorem exprLoop_op (N : Names) {o : BinOp} {os : List POp} {lg : Bool} (ho : ∀ q ∈ os, prio q < prio (popOf o)) (hlg : lg = true → isShift o = false)
    (ts : List Parser.T) (g : G) (n : Nat) :
    exprLoop N (n + 1) lg os (p (opTok o) :: ts) g = (operand N n ts g).bind fun r => exprLoop N n lg (popOf o :: os) r.2 r.1 := by
  have hg : getOperator (p (opTok o) :: ts) = (some (popOf o), ts) := by simp only [p, getOperator, operator_opTok]
  have hp : popOps (prio (popOf o)) os g = some (os, g) := by
    cases os with
    | nil => rfl
    | cons q os =>
      have := ho q (by simp)
      simp only [popOps, ge_iff_le]
      rw [if_neg (by omega)]
  have hlg' : ¬ (lg = true ∧ prio (popOf o) < prio .log_or) := by
    rintro ⟨h1, h2⟩
    have := hlg h1
    revert h2 this
    cases o <;> simp [popOf, prio, isShift]
  simp only [exprLoop, hg, hp, Option.bind_some, if_neg (popOf_log o), if_neg hlg']

/-! ### What may follow -/

/-- The token may follow an operand; `fl`: it must not be a `+`. -/
def okTok (fl : Bool) : Lex.Tok → Bool
  | .open_square | .arrow | .dot | .open_bracket | .increment | .decrement => false
  | .plus => !fl
  | _ => true

def okHead (fl : Bool) : List Parser.T → Bool
  | [] => true
  | (t, _) :: _ => okTok fl t

theorem okHead_weak {fl : Bool} {rest : List Parser.T} (h : okHead true rest = true) : okHead fl rest = true := by
  cases rest with
  | nil => rfl
  | cons t r =>
    obtain ⟨t, s⟩ := t
    cases fl with
    | true => exact h
    | false => revert h; simp only [okHead]; cases t <;> simp [okTok]

theorem okHead_access {fl : Bool} {rest : List Parser.T} (h : okHead fl rest = true) : isAccess rest = false := by
  cases rest with
  | nil => rfl
  | cons t r =>
    obtain ⟨t, s⟩ := t
    revert h; simp only [okHead]; cases t <;> simp [okTok, isAccess]

theorem access_end (N : Names) {rest : List Parser.T} (h : isAccess rest = false) (st : LvSt) (g : G) : Conv (fun n => access N n st g rest) (st, g, rest) := by
  refine Conv.const fun n => ?_
  cases rest with
  | nil => simp only [access]
  | cons t r =>
    obtain ⟨t, s⟩ := t
    revert h; cases t <;> simp [isAccess, access]

theorem lvEnd_end (N : Names) {fl : Bool} {rest : List Parser.T} (h : okHead fl rest = true) {st : LvSt} (hf : st.var.isPtr > 0 ∨ st.var.arraySize > 0 → fl = true)
    {g g' : G} (hg : (if st.isRef then g.un .read st.size else some g) = some g') : Conv (fun n => lvEnd N n st g rest) (st, g', rest) := by
  refine Conv.const fun n => ?_
  cases rest with
  | nil => simp only [lvEnd, hg, Option.map_some]
  | cons t r =>
    obtain ⟨t, s⟩ := t
    by_cases hp : t = .plus
    · subst hp
      have : fl = false := by simpa [okHead, okTok] using h
      simp only [lvEnd]
      rw [if_neg (fun h => by rw [hf h] at this; cases this)]
      simp only [hg, Option.map_some]
    · revert h; cases t <;> simp_all [okHead, okTok, lvEnd]

end Shecc.ExprGen
