import Verif.Props.BodyExample

/-!
# C96: a body with `?:`, a logical operator in an assignment, and a prefix `++`

`{ int s = n ? n : 7; s = s && g; ++s; return s == 2 ? g : n; }`
-/

namespace Shecc.Props.BodyExample
open Shecc CTypes CEval CSyntax CBody IrM
open Shecc.Body (glob funcBody)
open CStmt (Out)

def valInit : CBody.Value := .tern (.one (.one (v 0))) (v 0) (num 7)
def valSet : CBody.Value := .cond (.one (.more (v 2) (.one (v 1))))
def valRet : CBody.Value := .tern (.one (.one (.bin .eq (v 2) (num 2)))) (v 1) (v 0)

def values : CBody.Stmts :=
  .cons (.decl [⟨2, some valInit⟩]) (.cons (.set (.var 2) valSet) (.cons (.asg (stepAsg true (.var 2))) (.cons (.ret (some valRet)) .nil)))

def valuesText : String := "{ int s = n ? n : 7; s = s && g; ++s; return s == 2 ? g : n; }"

/-- The text writes the body. -/
theorem values_written :
    ∃ ts, p .open_curly :: ts ++ [(.eof, [])] = (Lex.lexAll plainEnv 200 valuesText.toList).getD [] ∧ WItems U [[]] 2 values ts 3 [] [] := by
  have h0 : WValue (U.scope f1) valInit _ [] [] :=
    .tern (ta := .int) (tb := .int) (.one (.op (wo "n" rfl [])) trivial) (.op (wo "n" rfl [])) trivial
      (.op (.num (l := .dec ['7']) ⟨by decide, by decide, by decide⟩)) trivial
  have h1 : WValue (U.scope f1) valSet _ [] [] :=
    .cond (.ors (.one (.more (.op (wo "s" rfl [])) trivial (.one (.op (wo "g" rfl [])) trivial))))
  have h2 : WValue (U.scope f1) valRet _ [] [] :=
    .tern (ta := .int) (tb := .int) (.one (.bin (o := .eq) (by decide) rfl (.op (wo "s" rfl []))
      (.op (.num (l := .dec ['2']) ⟨by decide, by decide, by decide⟩)) (.inl ⟨rfl, rfl⟩) (fun h => by cases h)) trivial)
      (.op (wo "g" rfl [])) trivial (.op (wo "n" rfl [])) trivial
  have h : WItems U [[]] 2 values _ 3 [] [] :=
    .decl (t := .int) (ty := "int".toList) rfl (.last (n := 0) (s := "s".toList) (f := .plain) (t := .int) rfl .plain (int_ 2) .int (fun _ h => by cases h) (by decide)
      (.some (t := .int) h0 (fun _ => rfl) (int_ 2) (.inl rfl)))
      (.stmt (.set ⟨by decide, by decide, rfl⟩ rfl (wv "s" rfl []) h1 trivial)
        (.stmt (.pre (up := true) ⟨by decide, by decide, rfl⟩ rfl (wv "s" rfl []) trivial (changeable 2) (unit1 f1)) (.stmt (.ret h2) .nil)))
  exact ⟨_, by decide +kernel, h⟩

section
variable {M : CRename.Mach} {da : Word} {load : Nat → M.World → Word → Option Word} (H : CRename.Home Nat) (hH : ∀ x, H.mem x = decide (x = 1))
  (C : CBody.Lang (machOf M H da load))
include hH

theorem var_ok (w : M.World) (ρ : Nat → Word) (x : Nat) (hx : x ≠ 1) :
    EvCond C U.E U.decl ρ (.one (.one (v x))) w w (ρ x) := by
  have := EvCond.one (C := C) (E := U.E) (decl := U.decl) (ρ := ρ) (e := v x) (w := w) (w' := w) (.lvar (.var (int_ x)) trivial)
  rwa [rd H hH w ρ hx] at this

theorem init_ok (w : M.World) (ρ : Nat → Word) : EvVal C U.E U.decl ρ valInit w w (if ρ 0 ≠ 0 then ρ 0 else 7) := by
  have hc := var_ok H hH C w ρ 0 (by decide)
  by_cases h : ρ 0 = 0
  · rw [if_neg (by simp [h])]
    exact .no (r := .val 7) hc h .num
  · rw [if_pos h]
    have := EvVal.yes (C := C) (b := num 7) (r := .var 0) hc h (.lvar (.var (int_ 0)) trivial)
    rwa [rd H hH w ρ (by decide)] at this

theorem set_ok (w : M.World) (ρ : Nat → Word) (h2 : ρ 2 ≠ 0) :
    EvVal C U.E U.decl ρ valSet w w (if M.get w (H.addr 1) ≠ 0 then 1 else 0) := by
  have h : EvCond C U.E U.decl ρ (.one (.more (v 2) (.one (v 1)))) w w (if decide (M.get w (H.addr 1) ≠ 0) then 1 else 0) := by
    refine .more (b := decide (M.get w (H.addr 1) ≠ 0)) ⟨w, _, .lvar (.var (int_ 2)) trivial, Or.inr ⟨?_, _, .lvar (.var (int_ 1)) trivial, ?_⟩⟩
    · rwa [rd H hH w ρ (by decide)]
    · rw [rdg H hH w ρ]
  refine .cond ?_
  by_cases hg : M.get w (H.addr 1) = 0
  · simpa [hg] using h
  · simpa [hg] using h

theorem ret_ok (w : M.World) (ρ : Nat → Word) : EvVal C U.E U.decl ρ valRet w w (if ρ 2 = 2 then M.get w (H.addr 1) else ρ 0) := by
  have hc : EvCond C U.E U.decl ρ (.one (.one (.bin .eq (v 2) (num 2)))) w w (CArith.ofBool (decide ((ρ 2).toInt = (2#32 : Word).toInt))) := by
    refine .one (r := .val _) (.bin (.lvar (.var (int_ 2)) trivial) .num ?_)
    rw [rd H hH w ρ (by decide)]
    rfl
  by_cases h : ρ 2 = 2
  · rw [if_pos h]
    have := EvVal.yes (C := C) (b := v 0) (r := .var 1) hc (by rw [h]; decide) (.lvar (.var (int_ 1)) trivial)
    rwa [rdg H hH w ρ] at this
  · rw [if_neg h]
    have := EvVal.no (C := C) (a := v 1) (r := .var 0) hc (by rw [show decide ((ρ 2).toInt = (2#32 : Word).toInt) = false from decide_eq_false (fun e => h (BitVec.eq_of_toInt_eq e))]; rfl) (.lvar (.var (int_ 0)) trivial)
    rwa [rd H hH w ρ (by decide)] at this

/-- The body has an execution, and it returns `g` unless that is 0, else `n`. -/
theorem values_run (w : M.World) (ρ : Nat → Word) :
    ∃ ρ', ExecAll C U.E U.decl values (w, ρ) .ret
      (C.ret (some (if M.get w (H.addr 1) ≠ 0 then M.get w (H.addr 1) else ρ 0)) w, ρ') := by
  let ρ0 : Nat → Word := fun z => if z = 2 then C.alloc 2 else ρ z
  let ρ1 : Nat → Word := fun z => if z = 2 then (if ρ0 0 ≠ 0 then ρ0 0 else 7) else ρ0 z
  let ρ2 : Nat → Word := fun z => if z = 2 then (if M.get w (H.addr 1) ≠ 0 then 1 else 0) else ρ1 z
  let ρ3 : Nat → Word := fun z => if z = 2 then ρ2 2 + 1 else ρ2 z
  have hn : ρ1 2 ≠ 0 := by
    show (if ρ 0 ≠ 0 then ρ 0 else 7) ≠ 0
    by_cases h : ρ 0 = 0
    · rw [if_neg (by simp [h])]; decide
    · rwa [if_pos h]
  have e1 : ExecDecs C U.E U.decl [⟨2, some valInit⟩] (w, ρ) (w, ρ1) := by
    refine ⟨_, _, rfl, ?_, rfl⟩
    rw [wrv H hH w ρ (by decide)]
    exact ⟨w, _, init_ok H hH C w ρ0, (wrv H hH w ρ0 (by decide) _).symm⟩
  have e2 : Exec C U.E U.decl (.set (.var 2) valSet) (w, ρ1) .normal (w, ρ2) := by
    refine ⟨rfl, w, .int, _, _, w, _, .var (int_ 2), set_ok H hH C w ρ1 hn, .int, ?_⟩
    show some (SsaSem.wrVar _ _ _ _) = _
    rw [wrv H hH w ρ1 (by decide)]
    rfl
  have e3 : Exec C U.E U.decl (.asg (stepAsg true (.var 2))) (w, ρ2) .normal (w, ρ3) := ⟨rfl, incr H hH C w ρ2 (by decide)⟩
  have hv : (if ρ3 2 = 2 then M.get w (H.addr 1) else ρ3 0) = if M.get w (H.addr 1) ≠ 0 then M.get w (H.addr 1) else ρ 0 := by
    show (if (if M.get w (H.addr 1) ≠ 0 then (1 : Word) else 0) + 1 = 2 then _ else ρ 0) = _
    by_cases h : M.get w (H.addr 1) = 0
    · simp [h]
    · rw [if_pos h, if_pos h, if_pos (by decide)]
  have e4 := ret_ok H hH C w ρ3
  rw [hv] at e4
  exact ⟨ρ3, _, _, ⟨rfl, e1⟩, Or.inl ⟨rfl, _, _, e2, Or.inl ⟨rfl, _, _, e3, Or.inl ⟨rfl, _, .ret, ⟨rfl, w, _, e4, rfl⟩, Or.inr ⟨by decide, rfl, rfl⟩⟩⟩⟩⟩
end

/-- What comes out for this body: the parser reads it, and the tree returns `g`, or `n` when `g` is 0. -/
theorem C96_example_values (M : CRename.Mach) (H : CRename.Home Nat) (hH : ∀ x, H.mem x = decide (x = 1)) (da : Word)
    (load : Nat → M.World → Word → Option Word) (C : CBody.Lang (machOf M H da load)) (K : CBody.Linked M H da load C 2) :
    ∃ tree st n0, funcBody (glob Types.builtin U) n0 4 2 [] ((Lex.lexAll plainEnv 200 valuesText.toList).getD []) = some (tree, st, [(.eof, [])]) ∧
      ∀ (w : M.World) (ρ : Nat → Word), ∃ ρ' k, CStmt.execs M H k tree (w, ρ) =
        .ok .ret (C.ret (some (if M.get w (H.addr 1) ≠ 0 then M.get w (H.addr 1) else ρ 0)) w, ρ') := by
  obtain ⟨ts, h1, h2⟩ := values_written
  obtain ⟨tree, st, ⟨n0, h3⟩, _, _, _, _, h4⟩ := C96_body_partial (ds := []) (E := Env.init) .nil (fun _ _ _ h => (by cases h)) (fun _ _ h => (by cases h)) (T := Types.builtin) rfl
    (U := U) rfl (by decide) (by decide) h2 [(.eof, [])]
  rw [h1] at h3
  refine ⟨tree, st, n0, h3, fun w ρ => ?_⟩
  obtain ⟨ρ', h5⟩ := values_run H hH C w ρ
  obtain ⟨ρ2, k, _, h6⟩ := (h4 M H da load C K).2 _ _ _ h5
  exact ⟨ρ2, k, h6 k (Nat.le_refl _)⟩

end Shecc.Props.BodyExample
