import Verif.Lemmas.Body4

/-!
# Function bodies: reading the statements
-/

namespace Shecc.Body
open CEval CSyntax CBody CArith
open Shecc.ExprGen (Conv Keeps TOk)
open Shecc.Ssa (Insn Op1)
open CRename (Ins Home)
open CStmt (Expr Exprs eval evals Out Res Turn exec execs execFrom iter)

variable {T : Types.Table} {U : CBody.Unit} {base nv0 : Nat}

/-- What is assumed about the tables and the numbers. -/
structure Setup (T : Types.Table) (U : CBody.Unit) (base nv0 : Nat) : Prop where
  ok : TOk T U.E
  nv : nv0 ≤ base
  base : U.base = base

/-! ### Names and tokens -/

theorem findFrom_none {x : String} : ∀ {T : Types.Table} {i : Nat}, (∀ e ∈ T, e.name = x → e.base = .struct) → Types.findFrom x .names i T = none
  | [], _, _ => rfl
  | t :: ts, i, h => by
    have ih := findFrom_none (T := ts) (i := i + 1) fun e he => h e (by simp [he])
    simp only [Types.findFrom]
    by_cases hs : t.base = .struct
    · rw [if_pos hs]; simp only [if_true]; exact ih
    · rw [if_neg hs, if_neg (by simp), if_neg (fun hx => hs (h t (by simp) hx))]; exact ih

theorem ofList_ne {s : List Char} (h : s ≠ []) : String.ofList s ≠ "" := by
  intro he
  have := congrArg String.toList he
  simp at this
  exact h this

theorem plain_type (hok : TOk T U.E) {s : List Char} (h : U.Plain s) : (Types.findType T (String.ofList s) .names).isSome = false := by
  rw [Types.findType, findFrom_none (hok.inv.freshN _ (ofList_ne h.1) h.2.1)]
  rfl

theorem type_some (hok : TOk T U.E) {s : List Char} {t : CTypes.T} (h : U.E.tydef (String.ofList s) = some t) :
    (Types.findType T (String.ofList s) .names).isSome = true := by
  obtain ⟨i, h1, _⟩ := hok.inv.names _ _ h
  rw [h1]
  rfl

theorem ends_semi (r : List Tk) : Ends (p .semicolon :: r) := ⟨_, _, _, rfl, by simp⟩
theorem ends_close (r : List Tk) : Ends (p .close_bracket :: r) := ⟨_, _, _, rfl, by simp⟩

theorem rexpr_semi (G : Glob) (n : Nat) (s : List Char) (r : List Tk) (st : St) : rexpr G n ((.semicolon, s) :: r) st = none := by
  have h1 : ∀ n, segment G n false ((.semicolon, s) :: r) st = none := by
    intro n
    unfold segment
    match n with
    | 0 => simp [ExprGen.operand]
    | 1 => simp [ExprGen.operand, ExprGen.operandBody]
    | n + 2 => simp [ExprGen.operand, ExprGen.operandBody]
  unfold rexpr
  match n with
  | 0 => simp [ors]
  | 1 => simp [ors, ands]
  | n + 2 => simp [ors, ands, h1]

theorem not_semi {G : Glob} {ts : List Tk} {st : St} {y : Expr × St × List Tk} (h : Conv (fun n => rexpr G n ts st) y) : ∀ s r, ts ≠ (.semicolon, s) :: r := by
  rintro s r rfl
  obtain ⟨n0, h0⟩ := h
  have := h0 n0 (Nat.le_refl _)
  simp only [rexpr_semi] at this
  cases this

theorem not_semiV {G : Glob} {ts : List Tk} {st : St} {y : Expr × St × List Tk} (h : Conv (fun n => value G n ts st) y) : ∀ s r, ts ≠ (.semicolon, s) :: r := by
  rintro s r rfl
  obtain ⟨n0, h0⟩ := h
  have := h0 n0 (Nat.le_refl _)
  simp only [value, rexpr_semi, Option.bind_none] at this
  cases this

/-- The tokens a statement begins with. -/
def NotEnd (ts : List Tk) : Prop := ∃ t r, ts = t :: r ∧ t.1 ≠ .else_ ∧ t.1 ≠ .case_ ∧ t.1 ≠ .default ∧ t.1 ≠ .close_curly

theorem NotEnd.append {ts : List Tk} (h : NotEnd ts) (r : List Tk) : NotEnd (ts ++ r) := by
  obtain ⟨t, r', rfl, h⟩ := h
  exact ⟨t, r' ++ r, rfl, h⟩

theorem wStmt_head {fs : List Frame} {nv nv' : Nat} {a : CBody.Stmt} {ts : List Tk} {d d1 : List Char} (h : WStmt U fs nv a ts nv' d d1) : NotEnd ts := by
  cases h with
  | @pre _ _ up _ _ _ _ _ _ _ hs hf hl ha hc hi => exact ⟨_, _, rfl, by cases up <;> simp [p, stepTok]⟩
  | _ => exact ⟨_, _, rfl, by simp [p, kw]⟩

/-! ### Parts of statements -/

section
variable (R : Setup T U base nv0) {fs : List Frame} (hfs : Below base (fs ++ [U.params, U.globals]))
include R hfs

theorem cond_ok {c : CBody.Ors} {tc : List Tk} {d d1 : List Char} (h : WCond (U.scope fs) c tc d d1) (nv next : Nat) (hb : base ≤ next) (r : List Tk) :
    ∃ E next', Conv (fun n => cond (glob T U) n (p .open_bracket :: tc ++ p .close_bracket :: r) (stOf U next d fs nv)) (E, stOf U next' d1 fs nv, r) ∧
      next ≤ next' ∧ E.res < next' ∧ SimV (nv0 := nv0) base E (valCond U c) := by
  obtain ⟨E, next', h1, h2, h3, h4⟩ := rexpr_ok (nv0 := nv0) R.ok R.nv hfs h nv next hb (ends_close r)
  refine ⟨E, next', ?_, h2, h3, h4.weak hb⟩
  refine Conv.eq (h := fun n => (rexpr (glob T U) n (tc ++ p .close_bracket :: r) (stOf U next d fs nv)).bind fun r => expect .close_bracket r.2.2 fun ts => some (r.1, r.2.1, ts))
    (fun n => ?_) (Conv.bind h1 ⟨0, fun n _ => ?_⟩)
  · simp only [cond, p, List.cons_append, expect_eq]
  · simp only [p, expect_eq]

theorem decl_ok {pre : Option Op2} {ty : List Char} {fs' : List Frame} {nv nv' : Nat} {ds : List Dec} {ts : List Tk} {d d1 : List Char} {t : CTypes.T}
    (ht : U.E.tydef (String.ofList ty) = some t) (h : WDecs U ty true fs nv ds ts fs' nv' d d1) (next : Nat) (r : List Tk) (hb : base ≤ next) (hnv : nv0 ≤ nv) :
    ∃ E next', Conv (fun n => named (glob T U) n pre ty (ts ++ p .semicolon :: r) (stOf U next d fs nv)) (.expr E, stOf U next' d1 fs' nv', r) ∧ next ≤ next' ∧
      nv ≤ nv' ∧ Below base (fs' ++ [U.params, U.globals]) ∧ SimX (nv0 := nv0) base E (chDecs U ds) := by
  obtain ⟨ES, next', h1, h2, h3, h4, h5⟩ := decls_ok (nv0 := nv0) R.ok R.nv R.base h next r hb hnv hfs
  refine ⟨declExpr ES, next', ?_, h2, h3, h4, declExpr_ok h5⟩
  have hty : (Types.findType (glob T U).types (String.ofList ty) .names).isSome = true := type_some R.ok ht
  refine Conv.eq (h := fun n => ((decls (glob T U) n true ty (ts ++ p .semicolon :: r) (stOf U next d fs nv)).map fun r => (declExpr r.1, r.2)).bind fun r =>
    expect .semicolon r.2.2 fun ts => some (.expr r.1, r.2.1, ts)) (fun n => ?_) (Conv.bind (h1.map _) ⟨0, fun n _ => ?_⟩)
  · simp only [named, hty, if_true]
  · simp only [p, expect_eq]

theorem asgStmt_ok {a : Asg} {s : List Char} {ts : List Tk} {fl : Bool} {d d1 : List Char} (hs : U.Plain s) (hf : U.fn s = none)
    (ha : WAsg (U.scope fs) a ((.identifier, s) :: ts) fl d d1) (nv next : Nat) (r : List Tk) (hb : base ≤ next) :
    ∃ E next', Conv (fun n => named (glob T U) n none s (ts ++ p .semicolon :: r) (stOf U next d fs nv)) (.expr E, stOf U next' d1 fs nv, r) ∧ next ≤ next' ∧
      SimX (nv0 := nv0) base E (chAsg U a) := by
  obtain ⟨E, next', h1, h2, _, _, h3⟩ := assign_ok (nv0 := nv0) R.ok R.nv hfs ha nv next hb (ends_semi r) (not_question (by simp))
  refine ⟨E, next', ?_, h2, h3⟩
  have hty : (Types.findType (glob T U).types (String.ofList s) .names).isSome = false := plain_type R.ok hs
  have hmac : (glob T U).macro_ s = false := hs.2.2
  have hfn : (glob T U).fn s = false := by simp [glob, hf]
  refine Conv.eq (h := fun n => (assign (glob T U) n none s (ts ++ p .semicolon :: r) (stOf U next d fs nv)).bind fun r =>
    expect .semicolon r.2.2 fun ts => some (.expr r.1, r.2.1, ts)) (fun n => ?_) (Conv.bind h1 ⟨0, fun n _ => ?_⟩)
  · simp only [named, hty, hmac, hfn, Bool.false_eq_true, if_false]
  · simp only [p, expect_eq]

theorem setStmt_ok {l : Lv} {v : CBody.Value} {t : CTypes.T} {s : List Char} {tl tv : List Tk} {d d1 d2 : List Char} (hs : U.Plain s) (hf : U.fn s = none)
    (hl : WLv (U.scope fs) l t ((.identifier, s) :: tl) d d1) (hv : WValue (U.scope fs) v tv d1 d2) (ha : Assignable l t) (nv next : Nat) (r : List Tk) (hb : base ≤ next) :
    ∃ E next', Conv (fun n => named (glob T U) n none s (tl ++ p .assign :: tv ++ p .semicolon :: r) (stOf U next d fs nv)) (.expr E, stOf U next' d2 fs nv, r) ∧ next ≤ next' ∧
      SimX (nv0 := nv0) base E (chSet U l (valVal U v)) := by
  obtain ⟨E, next', h1, h2, _, _, h3⟩ := assignSet_ok (nv0 := nv0) (P := valVal U v) (st := False) (tv := tv) (rest := p .semicolon :: r) (d2 := d2) R.ok R.nv hfs hl ha nv next hb
    (fun next1 hn1 => by
      obtain ⟨E, next', q1, q2, q3, q4⟩ := value_ok (nv0 := nv0) R.ok R.nv hfs hv nv next1 (by omega) (ends_semi r) (not_question (by simp))
      exact ⟨E, next', q1, q2, False.elim, q4⟩)
  refine ⟨E, next', ?_, h2, h3⟩
  have hty : (Types.findType (glob T U).types (String.ofList s) .names).isSome = false := plain_type R.ok hs
  have hmac : (glob T U).macro_ s = false := hs.2.2
  have hfn : (glob T U).fn s = false := by simp [glob, hf]
  refine Conv.eq (h := fun n => (assign (glob T U) n none s (tl ++ p .assign :: tv ++ p .semicolon :: r) (stOf U next d fs nv)).bind fun r =>
    expect .semicolon r.2.2 fun ts => some (.expr r.1, r.2.1, ts)) (fun n => ?_) (Conv.bind h1 ⟨0, fun n _ => ?_⟩)
  · simp only [named, hty, hmac, hfn, Bool.false_eq_true, if_false]
  · simp only [p, expect_eq]

theorem preStmt_ok {up : Bool} {l : Lv} {t : CTypes.T} {s : List Char} {ts : List Tk} {i : Nat} {d d1 : List Char} (hs : U.Plain s) (hf : U.fn s = none)
    (hl : WLv (U.scope fs) l t ((.identifier, s) :: ts) d d1) (ha : Assignable l t) (hc : Changeable (U.scope fs) l t) (hi : Unit1 U.E t i) (nv next : Nat) (r : List Tk)
    (hb : base ≤ next) :
    ∃ E next', Conv (fun n => named (glob T U) n (some (stepOp up)) s (ts ++ p .semicolon :: r) (stOf U next d fs nv)) (.expr E, stOf U next' d1 fs nv, r) ∧ next ≤ next' ∧
      SimX (nv0 := nv0) base E (chAsg U (stepAsg up l)) := by
  obtain ⟨E, next', h1, h2, _, _, h3⟩ := assignPre_ok (nv0 := nv0) (up := up) R.ok R.nv hfs hl ha hc hi nv next hb (ends_semi r)
  refine ⟨E, next', ?_, h2, h3⟩
  have hty : (Types.findType (glob T U).types (String.ofList s) .names).isSome = false := plain_type R.ok hs
  have hmac : (glob T U).macro_ s = false := hs.2.2
  have hfn : (glob T U).fn s = false := by simp [glob, hf]
  refine Conv.eq (h := fun n => (assign (glob T U) n (some (stepOp up)) s (ts ++ p .semicolon :: r) (stOf U next d fs nv)).bind fun r =>
    expect .semicolon r.2.2 fun ts => some (.expr r.1, r.2.1, ts)) (fun n => ?_) (Conv.bind h1 ⟨0, fun n _ => ?_⟩)
  · simp only [named, hty, hmac, hfn, Bool.false_eq_true, if_false]
  · simp only [p, expect_eq]

theorem callSt_ok {f : List Char} {es : Exs} {ts : List Tk} {d d1 : List Char} {t : CTypes.T} (hs : U.Plain f) (hf : U.fn f = some t)
    (ha : WArgs (U.scope fs) es ts d d1) (nv next : Nat) (r : List Tk) (hb : base ≤ next) :
    ∃ E next', Conv (fun n => named (glob T U) n none f (p .open_bracket :: ts ++ p .semicolon :: r) (stOf U next d fs nv)) (.expr E, stOf U next' d1 fs nv, r) ∧
      next ≤ next' ∧ SimX (nv0 := nv0) base E (chCall U f es) := by
  obtain ⟨E, next', h1, h2, h3⟩ := callStmt_ok (nv0 := nv0) (f := f) (rest := p .semicolon :: r) R.ok R.nv hfs ha nv next hb
  refine ⟨E, next', ?_, h2, h3⟩
  have hty : (Types.findType (glob T U).types (String.ofList f) .names).isSome = false := plain_type R.ok hs
  have hmac : (glob T U).macro_ f = false := hs.2.2
  have hfn : (glob T U).fn f = true := by simp [glob, hf]
  refine Conv.eq (h := fun n => (callStmt (glob T U) n f (p .open_bracket :: ts ++ p .semicolon :: r) (stOf U next d fs nv)).bind fun r =>
    expect .semicolon r.2.2 fun ts => some (.expr r.1, r.2.1, ts)) (fun n => ?_) (Conv.bind h1 ⟨0, fun n _ => ?_⟩)
  · simp only [named, hty, hmac, hfn, Bool.false_eq_true, if_false, if_true]
  · simp only [p, expect_eq]

theorem forInit_ok {i : Init} {ti : List Tk} {fs' : List Frame} {nv nv' : Nat} {d d1 : List Char} (h : WFor U fs nv i ti fs' nv' d d1) (next : Nat) (r : List Tk)
    (hb : base ≤ next) (hnv : nv0 ≤ nv) :
    ∃ I next', Conv (fun n => forInit (glob T U) n (ti ++ r) (stOf U next d fs nv)) (I, stOf U next' d1 fs' nv', r) ∧ next ≤ next' ∧ nv ≤ nv' ∧
      Below base (fs' ++ [U.params, U.globals]) ∧ OptX (nv0 := nv0) base I (chInit U i) := by
  cases h with
  | none => exact ⟨none, next, ⟨0, fun n _ => rfl⟩, Nat.le_refl _, Nat.le_refl _, hfs, optX_none⟩
  | asg hs ha =>
    rename_i a s ts fl
    obtain ⟨E, next', h1, h2, _, _, h3⟩ := assign_ok (nv0 := nv0) R.ok R.nv hfs ha nv next hb (ends_semi r) (not_question (by simp))
    refine ⟨some E, next', ?_, h2, Nat.le_refl _, hfs, optX_some h3⟩
    have hty : (Types.findType (glob T U).types (String.ofList s) .names).isSome = false := plain_type R.ok hs
    refine Conv.eq (h := fun n => (assign (glob T U) n none s (ts ++ p .semicolon :: r) (stOf U next d fs nv)).bind fun r =>
      expect .semicolon r.2.2 fun ts => some (some r.1, r.2.1, ts)) (fun n => ?_) (Conv.bind h1 ⟨0, fun n _ => ?_⟩)
    · simp only [List.cons_append, List.append_assoc, List.nil_append, forInit, hty, Bool.false_eq_true, if_false]
    · simp only [p, expect_eq]
  | decl ht hd =>
    rename_i ds ty ts t
    obtain ⟨ES, next', h1, h2, h3, h4, h5⟩ := decls_ok (nv0 := nv0) R.ok R.nv R.base hd next r hb hnv hfs
    refine ⟨some (declExpr ES), next', ?_, h2, h3, h4, optX_some (declExpr_ok h5)⟩
    have hty : (Types.findType (glob T U).types (String.ofList ty) .names).isSome = true := type_some R.ok ht
    refine Conv.eq (h := fun n => ((decls (glob T U) n true ty (ts ++ p .semicolon :: r) (stOf U next d fs nv)).map fun r => (declExpr r.1, r.2)).bind fun r =>
      expect .semicolon r.2.2 fun ts => some (some r.1, r.2.1, ts)) (fun n => ?_) (Conv.bind (h1.map _) ⟨0, fun n _ => ?_⟩)
    · simp only [List.cons_append, List.append_assoc, List.nil_append, forInit, hty, if_true]
    · simp only [p, expect_eq]

theorem forCond_ok {c : Option CBody.Ors} {tc : List Tk} {d d1 : List Char} (h : WForCond (U.scope fs) c tc d d1) (nv next : Nat) (r : List Tk) (hb : base ≤ next) :
    ∃ C next', Conv (fun n => forCond (glob T U) n (tc ++ r) (stOf U next d fs nv)) (C, next, stOf U next' d1 fs nv, r) ∧ next ≤ next' ∧
      InitOk (valCond (nv0 := nv0) U) base c C := by
  cases h with
  | none => exact ⟨none, next + 1, ⟨0, fun n _ => rfl⟩, by omega, trivial⟩
  | @some c ts _ _ hc =>
    obtain ⟨E, next', h1, h2, _, h3⟩ := rexpr_ok (nv0 := nv0) R.ok R.nv hfs hc nv next hb (ends_semi r)
    refine ⟨some E, next', ?_, h2, h3.weak hb⟩
    have hne := not_semi h1
    have e1 : ts ++ [p .semicolon] ++ r = ts ++ p .semicolon :: r := by simp
    rw [e1]
    refine Conv.eq (h := fun n => (rexpr (glob T U) n (ts ++ p .semicolon :: r) (stOf U next d fs nv)).bind fun r =>
      expect .semicolon r.2.2 fun ts => some (some r.1, next, r.2.1, ts)) (fun n => ?_) (Conv.bind h1 ⟨0, fun n _ => ?_⟩)
    · unfold forCond
      split
      · rename_i s' r' heq
        exact absurd heq (hne s' r')
      · rfl
    · simp only [p, expect_eq]

theorem forInc_ok {inc : Option Asg} {tj : List Tk} {d d1 : List Char} (h : WForInc (U.scope fs) inc tj d d1) (nv next : Nat) (r : List Tk) (hb : base ≤ next) :
    ∃ J next', Conv (fun n => forInc (glob T U) n (tj ++ r) (stOf U next d fs nv)) (J, stOf U next' d1 fs nv, r) ∧ next ≤ next' ∧
      OptX (nv0 := nv0) base J (chInc U inc) ∧ (∀ e, J = some e → e.straight = true) ∧ (inc ≠ none → CStmt.optCode J ≠ []) := by
  cases h with
  | none => exact ⟨none, next, ⟨0, fun n _ => rfl⟩, Nat.le_refl _, optX_none, (fun e h => by cases h), fun h => absurd rfl h⟩
  | @some a s ts fl _ _ ha =>
    obtain ⟨E, next', h1, h2, h4, h5, h3⟩ := assign_ok (nv0 := nv0) R.ok R.nv hfs ha nv next hb (ends_close r) (not_question (by simp))
    refine ⟨some E, next', ?_, h2, optX_some h3, (fun e h => by cases h; exact h4), fun _ => h5⟩
    refine Conv.eq (h := fun n => (assign (glob T U) n none s (ts ++ p .close_bracket :: r) (stOf U next d fs nv)).bind fun r =>
      expect .close_bracket r.2.2 fun ts => some (some r.1, r.2.1, ts)) (fun n => ?_) (Conv.bind h1 ⟨0, fun n _ => ?_⟩)
    · simp only [List.cons_append, List.append_assoc, List.nil_append, forInc]
    · simp only [p, expect_eq]
  | @pre up l t s ts i _ _ hl ha hc hi =>
    obtain ⟨E, next', h1, h2, h4, h5, h3⟩ := assignPre_ok (nv0 := nv0) (up := up) R.ok R.nv hfs hl ha hc hi nv next hb (ends_close r)
    refine ⟨some E, next', ?_, h2, optX_some h3, (fun e h => by cases h; exact h4), fun _ => h5⟩
    refine Conv.eq (h := fun n => (assign (glob T U) n (some (stepOp up)) s (ts ++ p .close_bracket :: r) (stOf U next d fs nv)).bind fun r =>
      expect .close_bracket r.2.2 fun ts => some (some r.1, r.2.1, ts)) (fun n => ?_) (Conv.bind h1 ⟨0, fun n _ => ?_⟩)
    · cases up <;> simp only [List.cons_append, List.append_assoc, List.nil_append, p, stepTok, Bool.false_eq_true, if_false, if_true, forInc] <;> rfl
    · simp only [p, expect_eq]
end

theorem caseVal_ok {t : Tk} {v : Word} (h : CaseVal U t v) : caseVal (glob T U) t = some v := by
  cases h with
  | @num l hl => simp only [caseVal, (Props.C47_literal l hl false).1]
  | @chr c hc => rfl
  | const hc => exact hc

/-! ### Statements -/

def RStmt (T : Types.Table) (U : CBody.Unit) (base nv0 : Nat) (fs : List Frame) (nv : Nat) (a : CBody.Stmt) (ts : List Tk) (nv' : Nat) (d d1 : List Char) : Prop :=
  ∀ next rest, base ≤ next → nv0 ≤ nv → Below base (fs ++ [U.params, U.globals]) → (a.open_ = true → ∀ k r, rest ≠ (.else_, k) :: r) →
    ∃ S next', Conv (fun n => stmt (glob T U) n (ts ++ rest) (stOf U next d fs nv)) (S, stOf U next' d1 fs nv', rest) ∧ next ≤ next' ∧ nv ≤ nv' ∧
      S.conts = a.conts ∧ SimS (nv0 := nv0) base U S a

def RItems (T : Types.Table) (U : CBody.Unit) (base nv0 : Nat) (fs : List Frame) (nv : Nat) (ss : CBody.Stmts) (ts : List Tk) (nv' : Nat) (d d1 : List Char) : Prop :=
  ∀ next rest, base ≤ next → nv0 ≤ nv → Below base (fs ++ [U.params, U.globals]) →
    ∃ S next' fs', Conv (fun n => items (glob T U) n (ts ++ rest) (stOf U next d fs nv)) (S, stOf U next' d1 fs' nv', rest) ∧ next ≤ next' ∧ nv ≤ nv' ∧
      S.conts = ss.conts ∧ SimSs (nv0 := nv0) base U S ss

def RCases (T : Types.Table) (U : CBody.Unit) (base nv0 : Nat) (fs : List Frame) (nv : Nat) (cs : CBody.Cases) (ts : List Tk) (nv' : Nat) (d d1 : List Char) : Prop :=
  ∀ next rest, base ≤ next → nv0 ≤ nv → Below base (fs ++ [U.params, U.globals]) →
    ∃ S next', Conv (fun n => cases (glob T U) n (ts ++ rest) (stOf U next d fs nv)) (S, stOf U next' d1 fs nv', rest) ∧ next ≤ next' ∧ nv ≤ nv' ∧
      S.conts = cs.conts ∧ (cs ≠ .nil → S ≠ .nil) ∧ SimCs (nv0 := nv0) base next U S cs

/-- What ends a group. -/
def GroupEnd (rest : List Tk) : Prop := ∃ t r, rest = t :: r ∧ (t.1 = .case_ ∨ t.1 = .default ∨ t.1 = .close_curly)

def RGroup (T : Types.Table) (U : CBody.Unit) (base nv0 : Nat) (fs : List Frame) (nv : Nat) (ss : CBody.Stmts) (ts : List Tk) (nv' : Nat) (d d1 : List Char) : Prop :=
  ∀ next rest, base ≤ next → nv0 ≤ nv → Below base (fs ++ [U.params, U.globals]) → GroupEnd rest →
    ∃ S next', Conv (fun n => group (glob T U) n (ts ++ rest) (stOf U next d fs nv)) (S, stOf U next' d1 fs nv', rest) ∧ next ≤ next' ∧ nv ≤ nv' ∧
      S.conts = ss.conts ∧ SimSs (nv0 := nv0) base U S ss

section
variable (R : Setup T U base nv0) {fs : List Frame} {nv : Nat} {d : List Char}

theorem GroupEnd.not_else {rest : List Tk} (h : GroupEnd rest) : ∀ k r, rest ≠ (.else_, k) :: r := by
  rintro k r rfl
  obtain ⟨t, r', he, h⟩ := h
  cases he
  simp at h

theorem NotEnd.not_else {rest : List Tk} (h : NotEnd rest) : ∀ k r, rest ≠ (.else_, k) :: r := by
  rintro k r rfl
  obtain ⟨t, r', he, h⟩ := h
  cases he
  simp at h

theorem items_step (G : Glob) {ts : List Tk} (h : NotEnd ts) (n : Nat) (st : St) :
    items G (n + 1) ts st = (stmt G n ts st).bind fun r => (items G n r.2.2 r.2.1).map fun q => (.cons r.1 q.1, q.2) := by
  obtain ⟨⟨t, k⟩, r, rfl, h⟩ := h
  cases t <;> first | (simp only [items]; done) | (exfalso; simp at h)

theorem group_step (G : Glob) {ts : List Tk} (h : NotEnd ts) (n : Nat) (st : St) :
    group G (n + 1) ts st = (stmt G n ts st).bind fun r => (group G n r.2.2 r.2.1).map fun q => (.cons r.1 q.1, q.2) := by
  obtain ⟨⟨t, k⟩, r, rfl, h⟩ := h
  cases t <;> first | (simp only [group]; done) | (exfalso; simp at h)

theorem group_end (G : Glob) {ts : List Tk} (h : GroupEnd ts) (n : Nat) (st : St) : group G (n + 1) ts st = some (.nil, st, ts) := by
  obtain ⟨⟨t, k⟩, r, rfl, h⟩ := h
  simp only at h
  rcases h with rfl | rfl | rfl <;> simp only [group]

theorem ret_step (G : Glob) {k : List Char} {ts : List Tk} (h : ∀ s r, ts ≠ (.semicolon, s) :: r) (n : Nat) (st : St) :
    stmt G (n + 1) ((.return_, k) :: ts) st = (value G n ts st).bind fun r => expect .semicolon r.2.2 fun ts => some (.ret (some r.1), r.2.1, ts) := by
  cases ts with
  | nil => simp only [stmt]
  | cons t r =>
    obtain ⟨t, s⟩ := t
    cases t <;> first | (simp only [stmt]; done) | exact absurd rfl (h s r)

include R

theorem rS_asg {a : Asg} {s : List Char} {ts : List Tk} {fl : Bool} {d1 : List Char} (hs : U.Plain s) (hf : U.fn s = none)
    (ha : WAsg (U.scope fs) a ((.identifier, s) :: ts) fl d d1) :
    RStmt T U base nv0 fs nv (.asg a) ((.identifier, s) :: ts ++ [p .semicolon]) nv d d1 := by
  intro next rest hb hnv hfs _
  obtain ⟨E, next', h1, h2, h3⟩ := asgStmt_ok R hfs hs hf ha nv next rest hb
  refine ⟨.expr E, next', ?_, h2, Nat.le_refl _, rfl, sim_expr h3 fun X s o s' h => h⟩
  refine Conv.succ (fun n => ?_) h1
  simp only [List.cons_append, List.append_assoc, List.nil_append, stmt]

theorem rS_set {l : Lv} {v : CBody.Value} {t : CTypes.T} {s : List Char} {tl tv : List Tk} {d1 d2 : List Char} (hs : U.Plain s) (hf : U.fn s = none)
    (hl : WLv (U.scope fs) l t ((.identifier, s) :: tl) d d1) (hv : WValue (U.scope fs) v tv d1 d2) (ha : Assignable l t) :
    RStmt T U base nv0 fs nv (.set l v) ((.identifier, s) :: tl ++ p .assign :: tv ++ [p .semicolon]) nv d d2 := by
  intro next rest hb hnv hfs _
  obtain ⟨E, next', h1, h2, h3⟩ := setStmt_ok R hfs hs hf hl hv ha nv next rest hb
  refine ⟨.expr E, next', ?_, h2, Nat.le_refl _, rfl, sim_expr h3 fun X s o s' h => h⟩
  have e1 : (Lex.Tok.identifier, s) :: tl ++ p .assign :: tv ++ [p .semicolon] ++ rest = (Lex.Tok.identifier, s) :: (tl ++ p .assign :: tv ++ p .semicolon :: rest) := by simp
  rw [e1]
  refine Conv.succ (fun n => ?_) h1
  simp only [stmt]

theorem rS_pre {up : Bool} {l : Lv} {t : CTypes.T} {s : List Char} {ts : List Tk} {i : Nat} {d1 : List Char} (hs : U.Plain s) (hf : U.fn s = none)
    (hl : WLv (U.scope fs) l t ((.identifier, s) :: ts) d d1) (ha : Assignable l t) (hc : Changeable (U.scope fs) l t) (hi : Unit1 U.E t i) :
    RStmt T U base nv0 fs nv (.asg (stepAsg up l)) (p (stepTok up) :: (.identifier, s) :: ts ++ [p .semicolon]) nv d d1 := by
  intro next rest hb hnv hfs _
  obtain ⟨E, next', h1, h2, h3⟩ := preStmt_ok R (up := up) hfs hs hf hl ha hc hi nv next rest hb
  refine ⟨.expr E, next', ?_, h2, Nat.le_refl _, rfl, sim_expr h3 fun X s o s' h => h⟩
  refine Conv.succ (fun n => ?_) h1
  cases up <;> simp only [List.cons_append, List.append_assoc, List.nil_append, p, stepTok, Bool.false_eq_true, if_false, if_true, stmt] <;> rfl

theorem rS_call {f : List Char} {es : Exs} {t : CTypes.T} {ts : List Tk} {d1 : List Char} (hs : U.Plain f) (hf : U.fn f = some t)
    (ha : WArgs (U.scope fs) es ts d d1) :
    RStmt T U base nv0 fs nv (.call f es) ((.identifier, f) :: p .open_bracket :: ts ++ [p .semicolon]) nv d d1 := by
  intro next rest hb hnv hfs _
  obtain ⟨E, next', h1, h2, h3⟩ := callSt_ok R hfs hs hf ha nv next rest hb
  refine ⟨.expr E, next', ?_, h2, Nat.le_refl _, rfl, sim_expr h3 fun X s o s' h => h⟩
  refine Conv.succ (fun n => ?_) h1
  simp only [List.cons_append, List.append_assoc, List.nil_append, stmt]

theorem rS_empty : RStmt T U base nv0 fs nv .empty [p .semicolon] nv d d := by
  intro next rest hb hnv hfs _
  exact ⟨.empty, next, Conv.const fun n => by simp only [p, List.cons_append, List.nil_append, stmt], Nat.le_refl _, Nat.le_refl _, rfl, sim_empty⟩

theorem rS_block {nv' : Nat} {ss : CBody.Stmts} {ts : List Tk} {d1 : List Char} (ih : RItems T U base nv0 ([] :: fs) nv ss ts nv' d d1) :
    RStmt T U base nv0 fs nv (.block ss) (p .open_curly :: ts) nv' d d1 := by
  intro next rest hb hnv hfs _
  obtain ⟨S, next', fs', h1, h2, h3, h4, h5⟩ := ih next rest hb hnv (by
    intro f hf
    simp only [List.cons_append, List.mem_cons] at hf
    rcases hf with rfl | hf
    · simp
    · exact hfs f hf)
  refine ⟨.block S, next', ?_, h2, h3, h4, sim_block h5⟩
  refine Conv.succ (fun n => ?_) (h1.map fun r => (CStmt.Stmt.block r.1, leave (stOf U next d fs nv) r.2.1, r.2.2))
  simp only [p, List.cons_append, stmt]
  rfl

theorem rS_ret0 : RStmt T U base nv0 fs nv (.ret none) [kw .return_ "return", p .semicolon] nv d d := by
  intro next rest hb hnv hfs _
  exact ⟨.ret none, next, Conv.const fun n => by simp only [p, kw, List.cons_append, List.nil_append, stmt], Nat.le_refl _, Nat.le_refl _, rfl, sim_ret0⟩

theorem rS_ret {e : CBody.Value} {ts : List Tk} {d1 : List Char} (he : WValue (U.scope fs) e ts d d1) :
    RStmt T U base nv0 fs nv (.ret (some e)) (kw .return_ "return" :: ts ++ [p .semicolon]) nv d d1 := by
  intro next rest hb hnv hfs _
  obtain ⟨E, next', h1, h2, _, h3⟩ := value_ok (nv0 := nv0) R.ok R.nv hfs he nv next hb (ends_semi rest) (not_question (by simp))
  have e1 : kw .return_ "return" :: ts ++ [p .semicolon] ++ rest = kw .return_ "return" :: (ts ++ p .semicolon :: rest) := by simp
  rw [e1]
  refine ⟨.ret (some E), next', ?_, h2, Nat.le_refl _, rfl, sim_ret (h3.weak hb)⟩
  refine Conv.succ (fun n => ret_step _ (not_semiV h1) n _) (Conv.bind h1 ⟨0, fun n _ => ?_⟩)
  simp only [p, expect_eq]

theorem rS_ite {nv' : Nat} {c : CBody.Ors} {t : CBody.Stmt} {tc tt : List Tk} {d1 d2 : List Char} (hc : WCond (U.scope fs) c tc d d1)
    (ih : RStmt T U base nv0 fs nv t tt nv' d1 d2) : RStmt T U base nv0 fs nv (.ite c t) (kw .if_ "if" :: p .open_bracket :: tc ++ p .close_bracket :: tt) nv' d d2 := by
  intro next rest hb hnv hfs ho
  have ho := ho rfl
  obtain ⟨E, next1, h1, h2, _, h3⟩ := cond_ok R hfs hc nv next hb (tt ++ rest)
  obtain ⟨S, next', h4, h5, h6, h7, h8⟩ := ih next1 rest (by omega) hnv hfs fun _ => ho
  refine ⟨.ite E S, next', ?_, by omega, h6, h7, sim_ite h3 h8⟩
  have e1 : kw .if_ "if" :: p .open_bracket :: tc ++ p .close_bracket :: tt ++ rest = kw .if_ "if" :: (p .open_bracket :: tc ++ p .close_bracket :: (tt ++ rest)) := by simp
  rw [e1]
  refine Conv.succ (fun n => by simp only [kw, stmt]; rfl) (Conv.bind h1 (Conv.bind h4 ⟨0, fun n _ => ?_⟩))
  cases rest with
  | nil => rfl
  | cons t r =>
    obtain ⟨t, k⟩ := t
    cases t <;> first | rfl | exact absurd rfl (ho k r)

theorem rS_iteElse {nv1 nv2 : Nat} {c : CBody.Ors} {t e : CBody.Stmt} {tc tt te : List Tk} {d1 d2 d3 : List Char} (hc : WCond (U.scope fs) c tc d d1)
    (iht : RStmt T U base nv0 fs nv t tt nv1 d1 d2) (ho : t.open_ = false) (ihe : RStmt T U base nv0 fs nv1 e te nv2 d2 d3) :
    RStmt T U base nv0 fs nv (.iteElse c t e) (kw .if_ "if" :: p .open_bracket :: tc ++ p .close_bracket :: tt ++ kw .else_ "else" :: te) nv2 d d3 := by
  intro next rest hb hnv hfs hre
  obtain ⟨E, next1, h1, h2, _, h3⟩ := cond_ok R hfs hc nv next hb (tt ++ kw .else_ "else" :: (te ++ rest))
  obtain ⟨S, next2, h4, h5, h6, h7, h8⟩ := iht next1 (kw .else_ "else" :: (te ++ rest)) (by omega) hnv hfs (by simp [ho])
  obtain ⟨S', next', h9, h10, h11, h12, h13⟩ := ihe next2 rest (by omega) (by omega) hfs hre
  refine ⟨.iteElse E S S', next', ?_, by omega, by omega, by simp only [CStmt.Stmt.conts, CBody.Stmt.conts, h7, h12], sim_iteElse h3 h8 h13⟩
  have e1 : kw .if_ "if" :: p .open_bracket :: tc ++ p .close_bracket :: tt ++ kw .else_ "else" :: te ++ rest =
    kw .if_ "if" :: (p .open_bracket :: tc ++ p .close_bracket :: (tt ++ kw .else_ "else" :: (te ++ rest))) := by simp
  rw [e1]
  exact Conv.succ (fun n => by simp only [kw, stmt]; rfl) (Conv.bind h1 (Conv.bind h4 (h9.map _)))

theorem rS_while {nv' : Nat} {c : CBody.Ors} {b : CBody.Stmt} {tc tb : List Tk} {d1 d2 : List Char} (hc : WCond (U.scope fs) c tc d d1)
    (ih : RStmt T U base nv0 fs nv b tb nv' d1 d2) :
    RStmt T U base nv0 fs nv (.while_ c b) (kw .while_ "while" :: p .open_bracket :: tc ++ p .close_bracket :: tb) nv' d d2 := by
  intro next rest hb hnv hfs ho
  obtain ⟨E, next1, h1, h2, _, h3⟩ := cond_ok R hfs hc nv next hb (tb ++ rest)
  obtain ⟨S, next', h4, h5, h6, h7, h8⟩ := ih next1 rest (by omega) hnv hfs ho
  refine ⟨.while_ E S, next', ?_, by omega, h6, rfl, sim_while h3 h8⟩
  have e1 : kw .while_ "while" :: p .open_bracket :: tc ++ p .close_bracket :: tb ++ rest =
    kw .while_ "while" :: (p .open_bracket :: tc ++ p .close_bracket :: (tb ++ rest)) := by simp
  rw [e1]
  exact Conv.succ (fun n => by simp only [kw, stmt]; rfl) (Conv.bind h1 (h4.map _))

theorem rS_do {nv' : Nat} {c : CBody.Ors} {b : CBody.Stmt} {tc tb : List Tk} {d1 d2 : List Char} (ih : RStmt T U base nv0 fs nv b tb nv' d d1)
    (hc : WCond (U.scope fs) c tc d1 d2) :
    RStmt T U base nv0 fs nv (.doWhile b c) (kw .do_ "do" :: tb ++ kw .while_ "while" :: p .open_bracket :: tc ++ [p .close_bracket, p .semicolon]) nv' d d2 := by
  intro next rest hb hnv hfs ho
  obtain ⟨S, next1, h4, h5, h6, h7, h8⟩ := ih next (kw .while_ "while" :: (p .open_bracket :: tc ++ p .close_bracket :: p .semicolon :: rest)) hb hnv hfs (by simp [kw])
  obtain ⟨E, next', h1, h2, _, h3⟩ := cond_ok R hfs hc nv' next1 (by omega) (p .semicolon :: rest)
  refine ⟨.doWhile S E, next', ?_, by omega, h6, rfl, sim_do h3 h8⟩
  have e1 : kw .do_ "do" :: tb ++ kw .while_ "while" :: p .open_bracket :: tc ++ [p .close_bracket, p .semicolon] ++ rest =
    kw .do_ "do" :: (tb ++ kw .while_ "while" :: (p .open_bracket :: tc ++ p .close_bracket :: p .semicolon :: rest)) := by simp
  rw [e1]
  refine Conv.succ (fun n => by simp only [kw, stmt]; rfl) (Conv.bind h4 ?_)
  refine Conv.eq (fun n => by simp only [kw, expect_eq]; rfl) (Conv.bind h1 ⟨0, fun n _ => ?_⟩)
  simp only [p, expect_eq]

theorem rS_for {fs' : List Frame} {nv1 nv2 : Nat} {i : Init} {c : Option CBody.Ors} {inc : Option Asg} {b : CBody.Stmt} {ti tc tj tb : List Tk}
    {d1 d2 d3 d4 : List Char} (hi : WFor U ([] :: fs) nv i ti fs' nv1 d d1) (hc : WForCond (U.scope fs') c tc d1 d2)
    (hj : WForInc (U.scope fs') inc tj d2 d3) (ih : RStmt T U base nv0 fs' nv1 b tb nv2 d3 d4) (hr : inc = none → b.conts = false) :
    RStmt T U base nv0 fs nv (.for_ i c inc b) (kw .for_ "for" :: p .open_bracket :: ti ++ tc ++ tj ++ tb) nv2 d d4 := by
  intro next rest hb hnv hfs ho
  have hfs1 : Below base (([] :: fs) ++ [U.params, U.globals]) := by
    intro f hf
    simp only [List.cons_append, List.mem_cons] at hf
    rcases hf with rfl | hf
    · simp
    · exact hfs f hf
  obtain ⟨I, next1, a1, a2, a3, a4, a5⟩ := forInit_ok R hfs1 hi next (tc ++ (tj ++ (tb ++ rest))) hb hnv
  obtain ⟨C, next2, b1, b2, b3⟩ := forCond_ok R a4 hc nv1 next1 (tj ++ (tb ++ rest)) (by omega)
  obtain ⟨J, next3, c1, c2, c3, c4, c5⟩ := forInc_ok R a4 hj nv1 next2 (tb ++ rest) (by omega)
  obtain ⟨S, next', h4, h5, h6, h7, h8⟩ := ih next3 rest (by omega) (by omega) a4 ho
  have := R.nv
  refine ⟨.for_ I C next1 J S, next', ?_, by omega, by omega, rfl, sim_for (by omega) (by omega) a5 b3 c3 ⟨c4, ?_⟩ h8⟩
  · have e1 : kw .for_ "for" :: p .open_bracket :: ti ++ tc ++ tj ++ tb ++ rest = kw .for_ "for" :: p .open_bracket :: (ti ++ (tc ++ (tj ++ (tb ++ rest)))) := by simp
    rw [e1]
    exact Conv.succ (fun n => by simp only [kw, p, stmt, expect_eq]; rfl) (Conv.bind a1 (Conv.bind b1 (Conv.bind c1 (h4.map fun b =>
      (CStmt.Stmt.for_ I C next1 J b.1, leave (stOf U next d fs nv) b.2.1, b.2.2)))))
  · by_cases hinc : inc = none
    · exact .inr (by rw [h7]; exact hr hinc)
    · exact .inl (c5 hinc)

theorem rS_switch {nv' : Nat} {e : CBody.Ors} {cs : CBody.Cases} {te tc : List Tk} {d1 d2 : List Char} (he : WCond (U.scope fs) e te d d1)
    (ih : RCases T U base nv0 fs nv cs tc nv' d1 d2) (hn : cs ≠ .nil) :
    RStmt T U base nv0 fs nv (.switch_ e cs) (kw .switch "switch" :: p .open_bracket :: te ++ p .close_bracket :: p .open_curly :: tc) nv' d d2 := by
  intro next rest hb hnv hfs ho
  obtain ⟨E, next1, h1, h2, h3, h4⟩ := cond_ok R hfs he nv next hb (p .open_curly :: (tc ++ rest))
  obtain ⟨S, next', h5, h6, h7, h8, h9, h10⟩ := ih next1 rest (by omega) hnv hfs
  refine ⟨.switch_ E S, next', ?_, by omega, h7, h8, sim_switch h4 h3 h10 (h9 hn)⟩
  have e1 : kw .switch "switch" :: p .open_bracket :: te ++ p .close_bracket :: p .open_curly :: tc ++ rest =
    kw .switch "switch" :: (p .open_bracket :: te ++ p .close_bracket :: p .open_curly :: (tc ++ rest)) := by simp
  rw [e1]
  refine Conv.succ (fun n => by simp only [kw, stmt]; rfl) (Conv.bind h1 ?_)
  refine Conv.eq (fun n => by simp only [p, expect_eq]; rfl) (h5.map _)

theorem rS_brk : RStmt T U base nv0 fs nv .brk [kw .break_ "break", p .semicolon] nv d d := by
  intro next rest hb hnv hfs _
  exact ⟨.brk, next, Conv.const fun n => by simp only [p, kw, List.cons_append, List.nil_append, stmt, expect_eq], Nat.le_refl _, Nat.le_refl _, rfl, sim_brk⟩

theorem rS_cont : RStmt T U base nv0 fs nv .cont [kw .continue_ "continue", p .semicolon] nv d d := by
  intro next rest hb hnv hfs _
  exact ⟨.cont, next, Conv.const fun n => by simp only [p, kw, List.cons_append, List.nil_append, stmt, expect_eq], Nat.le_refl _, Nat.le_refl _, rfl, sim_cont⟩

theorem rI_nil : RItems T U base nv0 fs nv .nil [p .close_curly] nv d d := by
  intro next rest hb hnv hfs
  exact ⟨.nil, next, fs, Conv.const fun n => by simp only [p, List.cons_append, List.nil_append, items], Nat.le_refl _, Nat.le_refl _, rfl, sim_nil⟩

theorem rI_decl {fs' : List Frame} {nv1 nv2 : Nat} {ds : List Dec} {ss : CBody.Stmts} {ty : List Char} {td ts : List Tk} {t : CTypes.T} {d1 d2 : List Char}
    (ht : U.E.tydef (String.ofList ty) = some t) (hd : WDecs U ty true fs nv ds td fs' nv1 d d1) (ih : RItems T U base nv0 fs' nv1 ss ts nv2 d1 d2) :
    RItems T U base nv0 fs nv (.cons (.decl ds) ss) ((.identifier, ty) :: td ++ p .semicolon :: ts) nv2 d d2 := by
  intro next rest hb hnv hfs
  obtain ⟨E, next1, h1, h2, h3, h4, h5⟩ := decl_ok R (pre := none) hfs ht hd next (ts ++ rest) hb hnv
  obtain ⟨S, next', fs2, h6, h7, h8, h9, h10⟩ := ih next1 rest (by omega) (by omega) h4
  refine ⟨.cons (.expr E) S, next', fs2, ?_, by omega, by omega, ?_, sim_cons (sim_expr h5 fun X s o s' h => h) h10⟩
  · have e1 : (Lex.Tok.identifier, ty) :: td ++ p .semicolon :: ts ++ rest = (Lex.Tok.identifier, ty) :: (td ++ p .semicolon :: (ts ++ rest)) := by simp
    rw [e1]
    have h11 : Conv (fun n => stmt (glob T U) n ((Lex.Tok.identifier, ty) :: (td ++ p .semicolon :: (ts ++ rest))) (stOf U next d fs nv)) (.expr E, stOf U next1 d1 fs' nv1, ts ++ rest) :=
      Conv.succ (fun n => by simp only [stmt]) h1
    exact Conv.succ (fun n => items_step _ ⟨_, _, rfl, by simp⟩ n _) (Conv.bind h11 (h6.map _))
  · simp only [CStmt.Stmts.conts, CBody.Stmts.conts, CStmt.Stmt.conts, CBody.Stmt.conts, h9]

theorem rI_stmt {nv1 nv2 : Nat} {st : CBody.Stmt} {ss : CBody.Stmts} {t1 ts : List Tk} {d1 d2 : List Char} (hh : NotEnd t1) (hne : ∀ k r rest, ts ++ rest ≠ (.else_, k) :: r)
    (h : RStmt T U base nv0 fs nv st t1 nv1 d d1) (ih : RItems T U base nv0 fs nv1 ss ts nv2 d1 d2) : RItems T U base nv0 fs nv (.cons st ss) (t1 ++ ts) nv2 d d2 := by
  intro next rest hb hnv hfs
  obtain ⟨S1, next1, h1, h2, h3, h4, h5⟩ := h next (ts ++ rest) hb hnv hfs (fun _ k r => hne k r rest)
  obtain ⟨S, next', fs2, h6, h7, h8, h9, h10⟩ := ih next1 rest (by omega) (by omega) hfs
  refine ⟨.cons S1 S, next', fs2, ?_, by omega, by omega, ?_, sim_cons h5 h10⟩
  · rw [List.append_assoc]
    exact Conv.succ (fun n => items_step _ (hh.append _) n _) (Conv.bind h1 (h6.map _))
  · simp only [CStmt.Stmts.conts, CBody.Stmts.conts, h4, h9]

theorem rG_nil : RGroup T U base nv0 fs nv .nil [] nv d d := by
  intro next rest hb hnv hfs he
  exact ⟨.nil, next, Conv.const fun n => by simp only [List.nil_append, group_end _ he], Nat.le_refl _, Nat.le_refl _, rfl, sim_nil⟩

theorem rG_cons {nv1 nv2 : Nat} {st : CBody.Stmt} {ss : CBody.Stmts} {t1 ts : List Tk} {d1 d2 : List Char} (hh : NotEnd t1)
    (hne : ∀ k r rest, GroupEnd rest → ts ++ rest ≠ (.else_, k) :: r)
    (h : RStmt T U base nv0 fs nv st t1 nv1 d d1) (ih : RGroup T U base nv0 fs nv1 ss ts nv2 d1 d2) : RGroup T U base nv0 fs nv (.cons st ss) (t1 ++ ts) nv2 d d2 := by
  intro next rest hb hnv hfs he
  obtain ⟨S1, next1, h1, h2, h3, h4, h5⟩ := h next (ts ++ rest) hb hnv hfs (fun _ k r => hne k r rest he)
  obtain ⟨S, next', h6, h7, h8, h9, h10⟩ := ih next1 rest (by omega) (by omega) hfs he
  refine ⟨.cons S1 S, next', ?_, by omega, by omega, ?_, sim_cons h5 h10⟩
  · rw [List.append_assoc]
    exact Conv.succ (fun n => group_step _ (hh.append _) n _) (Conv.bind h1 (h6.map _))
  · simp only [CStmt.Stmts.conts, CBody.Stmts.conts, h4, h9]

theorem rC_nil : RCases T U base nv0 fs nv .nil [p .close_curly] nv d d := by
  intro next rest hb hnv hfs
  exact ⟨.nil, next, Conv.const fun n => by simp only [p, List.cons_append, List.nil_append, cases], Nat.le_refl _, Nat.le_refl _, rfl, fun h => absurd rfl h, simCs_nil⟩

theorem rC_default {nv' : Nat} {b : CBody.Stmts} {ts : List Tk} {d1 : List Char} (ih : RGroup T U base nv0 fs nv b ts nv' d d1) :
    RCases T U base nv0 fs nv (.cons none b .nil) (kw .default "default" :: p .colon :: ts ++ [p .close_curly]) nv' d d1 := by
  intro next rest hb hnv hfs
  obtain ⟨S, next', h1, h2, h3, h4, h5⟩ := ih next (p .close_curly :: rest) hb hnv hfs ⟨_, _, rfl, by simp [p]⟩
  refine ⟨.cons none S .nil, next', ?_, h2, h3, ?_, (fun _ h => by cases h), simCs_default h5⟩
  · have e1 : kw .default "default" :: p .colon :: ts ++ [p .close_curly] ++ rest = kw .default "default" :: p .colon :: (ts ++ p .close_curly :: rest) := by simp
    rw [e1]
    refine Conv.succ (fun n => by simp only [kw, p, cases, expect_eq]; rfl) (Conv.bind h1 ⟨0, fun n _ => ?_⟩)
    simp only [p, expect_eq]
  · simp only [CStmt.Cases.conts, CBody.Cases.conts, h4]

theorem rC_case {nv1 nv2 : Nat} {t : Tk} {v : Word} {b : CBody.Stmts} {r : CBody.Cases} {tb tr : List Tk} {d1 d2 : List Char} (hv : CaseVal U t v)
    (hg : ∀ rest, GroupEnd (tr ++ rest)) (ihb : RGroup T U base nv0 fs nv b tb nv1 d d1) (ihr : RCases T U base nv0 fs nv1 r tr nv2 d1 d2) :
    RCases T U base nv0 fs nv (.cons (some v) b r) (kw .case_ "case" :: t :: p .colon :: tb ++ tr) nv2 d d2 := by
  intro next rest hb hnv hfs
  obtain ⟨S, next1, h1, h2, h3, h4, h5⟩ := ihb (next + 2) (tr ++ rest) (by omega) hnv hfs (hg rest)
  obtain ⟨S', next', h6, h7, h8, h9, _, h10⟩ := ihr next1 rest (by omega) (by omega) hfs
  have hcs : SimCs (nv0 := nv0) base next U S' r := fun X => by
    obtain ⟨q1, q2⟩ := h10 X
    exact ⟨fun v hv => q1 v (by omega), q2⟩
  refine ⟨.cons (some ⟨v.toNat, next, next + 1⟩) S S', next', ?_, by omega, by omega, ?_, (fun _ h => by cases h), simCs_case R.nv hb (Nat.le_refl _) (by omega) h5 hcs⟩
  · have e1 : kw .case_ "case" :: t :: p .colon :: tb ++ tr ++ rest = kw .case_ "case" :: t :: p .colon :: (tb ++ (tr ++ rest)) := by simp
    rw [e1]
    have hst : ∀ n, cases (glob T U) (n + 1) (kw .case_ "case" :: t :: p .colon :: (tb ++ (tr ++ rest))) (stOf U next d fs nv) =
        (group (glob T U) n (tb ++ (tr ++ rest)) (stOf U (next + 2) d fs nv)).bind fun r => (cases (glob T U) n r.2.2 r.2.1).map fun q =>
          (.cons (some ⟨v.toNat, next, next + 1⟩) r.1 q.1, q.2) := by
      intro n
      simp only [kw, p, cases, caseVal_ok hv, Option.bind_some, expect_eq]
      rfl
    exact Conv.succ hst (Conv.bind h1 (h6.map _))
  · simp only [CStmt.Cases.conts, CBody.Cases.conts, h4, h9]
end

theorem wItems_head {fs : List Frame} {nv nv' : Nat} {ss : CBody.Stmts} {ts : List Tk} {d d1 : List Char} (h : WItems U fs nv ss ts nv' d d1) :
    ∀ k r rest, ts ++ rest ≠ (.else_, k) :: r := by
  intro k r rest
  cases h with
  | nil => simp [p]
  | decl => simp
  | stmt h hs =>
    rw [List.append_assoc]
    exact ((wStmt_head h).append _).not_else k r

theorem wGroup_head {fs : List Frame} {nv nv' : Nat} {ss : CBody.Stmts} {ts : List Tk} {d d1 : List Char} (h : WGroup U fs nv ss ts nv' d d1) :
    ∀ k r rest, GroupEnd rest → ts ++ rest ≠ (.else_, k) :: r := by
  intro k r rest he
  cases h with
  | nil => exact he.not_else k r
  | cons h hs =>
    rw [List.append_assoc]
    exact ((wStmt_head h).append _).not_else k r

theorem wCases_head {fs : List Frame} {nv nv' : Nat} {cs : CBody.Cases} {ts : List Tk} {d d1 : List Char} (h : WCases U fs nv cs ts nv' d d1) (rest : List Tk) :
    GroupEnd (ts ++ rest) := by
  cases h <;> exact ⟨_, _, rfl, by simp [p, kw]⟩

mutual
theorem wStmt_ok (R : Setup T U base nv0) : ∀ {fs : List Frame} {nv nv' : Nat} {a : CBody.Stmt} {ts : List Tk} {d d1 : List Char},
    WStmt U fs nv a ts nv' d d1 → RStmt T U base nv0 fs nv a ts nv' d d1
  | _, _, _, _, _, _, _, .asg hs hf ha => rS_asg R hs hf ha
  | _, _, _, _, _, _, _, .set hs hf hl hv ha => rS_set R hs hf hl hv ha
  | _, _, _, _, _, _, _, .pre hs hf hl ha hc hi => rS_pre R hs hf hl ha hc hi
  | _, _, _, _, _, _, _, .call hs hf _ ha => rS_call R hs hf ha
  | _, _, _, _, _, _, _, .empty => rS_empty R
  | _, _, _, _, _, _, _, .block hs => rS_block R (wItems_ok R hs)
  | _, _, _, _, _, _, _, .ret0 => rS_ret0 R
  | _, _, _, _, _, _, _, .ret he => rS_ret R he
  | _, _, _, _, _, _, _, .ite hc ht => rS_ite R hc (wStmt_ok R ht)
  | _, _, _, _, _, _, _, .iteElse hc ht ho he => rS_iteElse R hc (wStmt_ok R ht) ho (wStmt_ok R he)
  | _, _, _, _, _, _, _, .while_ hc hb => rS_while R hc (wStmt_ok R hb)
  | _, _, _, _, _, _, _, .doWhile hb hc => rS_do R (wStmt_ok R hb) hc
  | _, _, _, _, _, _, _, .for_ hi hc hj hb hr => rS_for R hi hc hj (wStmt_ok R hb) hr
  | _, _, _, _, _, _, _, .switch_ he hc hn => rS_switch R he (wCases_ok R hc) hn
  | _, _, _, _, _, _, _, .brk => rS_brk R
  | _, _, _, _, _, _, _, .cont => rS_cont R
theorem wItems_ok (R : Setup T U base nv0) : ∀ {fs : List Frame} {nv nv' : Nat} {ss : CBody.Stmts} {ts : List Tk} {d d1 : List Char},
    WItems U fs nv ss ts nv' d d1 → RItems T U base nv0 fs nv ss ts nv' d d1
  | _, _, _, _, _, _, _, .nil => rI_nil R
  | _, _, _, _, _, _, _, .decl ht hd hs => rI_decl R ht hd (wItems_ok R hs)
  | _, _, _, _, _, _, _, .stmt h hs => rI_stmt R (wStmt_head h) (wItems_head hs) (wStmt_ok R h) (wItems_ok R hs)
theorem wCases_ok (R : Setup T U base nv0) : ∀ {fs : List Frame} {nv nv' : Nat} {cs : CBody.Cases} {ts : List Tk} {d d1 : List Char},
    WCases U fs nv cs ts nv' d d1 → RCases T U base nv0 fs nv cs ts nv' d d1
  | _, _, _, _, _, _, _, .nil => rC_nil R
  | _, _, _, _, _, _, _, .default hb => rC_default R (wGroup_ok R hb)
  | _, _, _, _, _, _, _, .case_ hv hb hr => rC_case R hv (wCases_head hr) (wGroup_ok R hb) (wCases_ok R hr)
theorem wGroup_ok (R : Setup T U base nv0) : ∀ {fs : List Frame} {nv nv' : Nat} {ss : CBody.Stmts} {ts : List Tk} {d d1 : List Char},
    WGroup U fs nv ss ts nv' d d1 → RGroup T U base nv0 fs nv ss ts nv' d d1
  | _, _, _, _, _, _, _, .nil => rG_nil R
  | _, _, _, _, _, _, _, .cons h hs => rG_cons R (wStmt_head h) (wGroup_head hs) (wStmt_ok R h) (wGroup_ok R hs)
end

end Shecc.Body
