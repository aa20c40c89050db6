import Verif.Props.CBodyProg
import Verif.Props.ExprExample

/-!
# C96: the hypotheses are met

`{ int s = 0; for (int i = 0; i < n; i++) { if (i == 3 && s) continue; switch (i) { case 1: s = s + g; break; default: s++; } } return s; }`
-/

namespace Shecc.Props.BodyExample
open Shecc CTypes CEval CSyntax CBody IrM
open Shecc.Body (glob funcBody)
open CStmt (Out)

def intOf (s : String) : Declr := { spec := .name "int", name := s }

def names : List String := ["n", "g", "s", "i"]

/-- Variable 0 is `n`, 1 is `g`, 2 is `s`, 3 is `i`. -/
def U : CBody.Unit where
  E := Env.init
  const := fun _ => none
  fn := fun _ => none
  macro_ := fun _ => false
  params := [("n".toList, 0)]
  globals := [("g".toList, 1)]
  decl := fun x => intOf (names.getD x "")
  base := 4

def v (x : Nat) : Ex := .lval (.var x)
def num (k : Nat) : Ex := .num (BitVec.ofNat 32 k)

def skip : CBody.Stmt := .ite (.one (.more (.bin .eq (v 3) (num 3)) (.one (v 2)))) .cont

def choose : CBody.Stmt :=
  .switch_ (.one (.one (v 3))) (.cons (some 1#32) (.cons (.asg (.set (.var 2) (.bin .add (v 2) (v 1)))) (.cons .brk .nil))
    (.cons none (.cons (.asg (.incr (.var 2))) .nil) .nil))

def loopBody : CBody.Stmt := .block (.cons skip (.cons choose .nil))

def loop : CBody.Stmt :=
  .for_ (.decl [⟨3, some (.cond (.one (.one (num 0))))⟩]) (some (.one (.one (.bin .lt (v 3) (v 0))))) (some (.incr (.var 3))) loopBody

def body : CBody.Stmts :=
  .cons (.decl [⟨2, some (.cond (.one (.one (num 0))))⟩]) (.cons loop (.cons (.ret (some (.cond (.one (.one (v 2)))))) .nil))

def source : String :=
  "{ int s = 0; for (int i = 0; i < n; i++) { if (i == 3 && s) continue; switch (i) { case 1: s = s + g; break; default: s++; } } return s; }"

theorem int_ (x : Nat) : (U.decl x).type U.E = some .int := rfl

/-- A variable that is in scope. -/
theorem wv {fs : List Frame} (s : String) {x : Nat} (h : lookup s.toList (fs ++ [U.params, U.globals]) = some x) (d : List Char) :
    WLv (U.scope fs) (.var x) .int [(.identifier, s.toList)] d d := .var rfl h (int_ x) .int

theorem wo {fs : List Frame} (s : String) {x : Nat} (h : lookup s.toList (fs ++ [U.params, U.globals]) = some x) (d : List Char) :
    WOp (U.scope fs) (v x) .int [(.identifier, s.toList)] false d d := .lval (wv s h d) .int

theorem changeable {fs : List Frame} (x : Nat) : Changeable (U.scope fs) (.var x) .int := ⟨fun _ h => (by cases h), fun _ _ h => (by cases h)⟩

theorem unit1 (fs : List Frame) : Unit1 (U.scope fs).E .int 1 := .other (fun _ h => by cases h)

def f1 : List Frame := [[("s".toList, 2)]]
def f2 : List Frame := [[("i".toList, 3)], [("s".toList, 2)]]
def f3 : List Frame := [[], [("i".toList, 3)], [("s".toList, 2)]]

theorem zero (S : Scope) : WCond S (.one (.one (num 0))) [(.numeric, "0".toList)] [] [] :=
  .one (.op (.num (l := .oct []) (fun _ h => by cases h))) trivial

/-- The text writes the body. -/
theorem written : ∃ ts, p .open_curly :: ts ++ [(.eof, [])] = (Lex.lexAll plainEnv 200 source.toList).getD [] ∧ WItems U [[]] 2 body ts 4 [] [] := by
  have wskip : WStmt U f3 4 skip _ 4 [] [] :=
    .ite (.ors (.one (.more (.bin (o := .eq) (by decide) rfl (.op (wo "i" rfl [])) (.op (.num (l := .dec ['3']) ⟨by decide, by decide, by decide⟩)) (.inl ⟨rfl, rfl⟩) (fun h => by cases h)) trivial
      (.one (.op (wo "s" rfl [])) trivial)))) .cont
  have wchoose : WStmt U f3 4 choose _ 4 [] [] :=
    .switch_ (.one (.op (wo "i" rfl [])) trivial)
      (.case_ (.num (l := .dec ['1']) ⟨by decide, by decide, by decide⟩)
        (.cons (.asg ⟨by decide, by decide, rfl⟩ rfl
            (.set (wv "s" rfl []) (.bin (o := .add) (by decide) rfl (.op (wo "s" rfl [])) (.op (wo "g" rfl [])) ⟨rfl, rfl⟩ (fun _ => rfl)) trivial))
          (.cons .brk .nil))
        (.default (.cons (.asg ⟨by decide, by decide, rfl⟩ rfl (.incr (wv "s" rfl []) trivial (changeable 2) (unit1 f3))) .nil)))
      (fun h => by cases h)
  have wloop : WStmt U f1 3 loop _ 4 [] [] :=
    .for_ (.decl (t := .int) (ty := "int".toList) rfl (.last (n := 0) (s := "i".toList) (f := .plain) (t := .int) rfl .plain (int_ 3) .int (fun _ h => by cases h) (by decide)
        (.some (t := .int) (.cond (zero _)) (fun h => by cases h) (int_ 3) (.inl rfl))))
      (.some (.one (.bin (o := .lt) (by decide) rfl (.op (wo (fs := f2) "i" rfl [])) (.op (wo "n" rfl [])) ⟨rfl, rfl⟩ (fun h => by cases h)) trivial))
      (.some (.incr (wv "i" rfl []) trivial (changeable 3) (unit1 f2)))
      (.block (.stmt wskip (.stmt wchoose .nil))) (fun h => by cases h)
  have h : WItems U [[]] 2 body _ 4 [] [] :=
    .decl (t := .int) (ty := "int".toList) rfl (.last (n := 0) (s := "s".toList) (f := .plain) (t := .int) rfl .plain (int_ 2) .int (fun _ h => by cases h) (by decide)
      (.some (t := .int) (.cond (zero _)) (fun h => by cases h) (int_ 2) (.inl rfl))) (.stmt wloop (.stmt (.ret (.cond (.one (.op (wo (fs := f1) "s" rfl [])) trivial))) .nil))
  exact ⟨_, by decide +kernel, h⟩

/-! ### What it does -/

/-- `s` after the turn with this `i`. -/
def turn (g : Word) (i : Nat) (s : Word) : Word := if i = 3 ∧ s ≠ 0 then s else if i = 1 then s + g else s + 1

def turns (g : Word) : Nat → Word
  | 0 => 0
  | i + 1 => turn g i (turns g i)

section
variable {M : CRename.Mach} {da : Word} {load : Nat → M.World → Word → Option Word} (H : CRename.Home Nat) (hH : ∀ x, H.mem x = decide (x = 1))
  (C : CBody.Lang (machOf M H da load))
include hH

theorem rd (w : M.World) (ρ : Nat → Word) {x : Nat} (h : x ≠ 1) : (Res.var x).use (M := machOf M H da load) ρ w = ρ x := by
  show (if H.mem x then _ else _) = _
  rw [hH, decide_eq_false h]
  rfl

theorem rdg (w : M.World) (ρ : Nat → Word) : (Res.var 1).use (M := machOf M H da load) ρ w = M.get w (H.addr 1) := by
  show (if H.mem 1 then _ else _) = _
  rw [hH]
  rfl

theorem wrv (w : M.World) (ρ : Nat → Word) {x : Nat} (h : x ≠ 1) (y : Word) :
    SsaSem.wrVar (machOf M H da load) (w, ρ) x y = (w, fun z => if z = x then y else ρ z) := by
  show (if H.mem x then _ else _) = _
  rw [hH, decide_eq_false h]
  rfl

/-- Assignment of a value to a variable. -/
theorem incr (w : M.World) (ρ : Nat → Word) {x : Nat} (h : x ≠ 1) :
    EvAsg C.toLang U.E U.decl ρ w (.incr (.var x)) (w, fun z => if z = x then ρ x + 1 else ρ z) := by
  refine .incr (.var (int_ x)) .var .int (i := 1) (.other (fun _ h => by cases h)) ?_
  show some (SsaSem.wrVar _ _ _ _) = _
  rw [wrv H hH w ρ h, rd H hH w ρ h]
  rfl

/-- One turn: `s` changes, and the body ends normally or with `continue`. -/
theorem turn_ok (w : M.World) (ρ : Nat → Word) (i : Nat) (hi : i < 2 ^ 31) (h3 : ρ 3 = BitVec.ofNat 32 i) :
    ∃ o ρ', (o = .normal ∨ o = .cont) ∧ Exec C U.E U.decl loopBody (w, ρ) o (w, ρ') ∧
      ρ' 2 = turn (M.get w (H.addr 1)) i (ρ 2) ∧ ∀ x, x ≠ 2 → ρ' x = ρ x := by
  have ne (k : Nat) (hk : k < 100) : (BitVec.ofNat 32 i = BitVec.ofNat 32 k) ↔ i = k := by
    constructor
    · intro e
      have := congrArg BitVec.toNat e
      simp only [BitVec.toNat_ofNat] at this
      omega
    · rintro rfl; rfl
  have hev : EvEx C.toLang U.E U.decl ρ w (.bin .eq (v 3) (num 3)) w (.val (if i = 3 then 1 else 0)) := by
    refine .bin (.lvar (.var (int_ 3)) trivial) .num ?_
    rw [rd H hH w ρ (by decide), h3]
    show some (CArith.ofBool (decide ((BitVec.ofNat 32 i).toInt = (BitVec.ofNat 32 3).toInt))) = _
    by_cases h : i = 3
    · rw [if_pos h, h]; rfl
    · rw [if_neg h, decide_eq_false (fun e => h ((ne 3 (by decide)).1 (BitVec.eq_of_toInt_eq e)))]; rfl
  have htest : Test C U.E U.decl (.one (.more (.bin .eq (v 3) (num 3)) (.one (v 2)))) (w, ρ) (w, ρ) (decide (i = 3 ∧ ρ 2 ≠ 0)) := by
    refine ⟨w, _, .more (b := decide (i = 3 ∧ ρ 2 ≠ 0)) ⟨w, _, hev, ?_⟩, rfl, ?_⟩
    · by_cases h : i = 3
      · refine Or.inr ⟨?_, _, .lvar (.var (int_ 2)) trivial, ?_⟩
        · rw [if_pos h]; show (1#32 : Word) ≠ 0#32; decide
        · rw [rd H hH w ρ (by decide)]
          simp only [h, true_and]
      · refine Or.inl ⟨?_, rfl, decide_eq_false fun e => h e.1⟩
        rw [if_neg h]; rfl
    · by_cases h : i = 3 ∧ ρ 2 ≠ 0 <;> simp [h]
  by_cases hskip : i = 3 ∧ ρ 2 ≠ 0
  · rw [decide_eq_true hskip] at htest
    refine ⟨.cont, ρ, Or.inr rfl, ⟨_, _, ⟨_, _, htest, Or.inl ⟨rfl, rfl, rfl⟩⟩, Or.inr ⟨by decide, rfl, rfl⟩⟩, ?_, fun _ _ => rfl⟩
    rw [turn, if_pos hskip]
  · rw [decide_eq_false hskip] at htest
    have hsw : EvCond C U.E U.decl ρ (.one (.one (v 3))) w w (ρ 3) := by
      have := EvCond.one (C := C) (E := U.E) (decl := U.decl) (ρ := ρ) (e := v 3) (w := w) (w' := w) (.lvar (.var (int_ 3)) trivial)
      rwa [rd H hH w ρ (by decide)] at this
    by_cases h1 : i = 1
    · refine ⟨.normal, fun z => if z = 2 then ρ 2 + M.get w (H.addr 1) else ρ z, Or.inl rfl,
        ⟨_, _, ⟨_, _, htest, Or.inr ⟨rfl, rfl, rfl⟩⟩, Or.inl ⟨rfl, _, .normal, ⟨w, _, hsw, ?_⟩, Or.inl ⟨rfl, rfl, rfl⟩⟩⟩, ?_, ?_⟩
      · have hp : pick (ρ 3) (.cons (some 1#32) (.cons (.asg (.set (.var 2) (.bin .add (v 2) (v 1)))) (.cons .brk .nil))
            (.cons none (.cons (.asg (.incr (.var 2))) .nil) .nil)) = some 0 := by
          rw [h3, h1]; rfl
        rw [hp]
        refine ⟨.brk, ⟨_, .brk, ⟨_, .normal, ⟨rfl, ?_⟩, Or.inl ⟨rfl, _, .brk, ⟨rfl, rfl⟩, Or.inr ⟨by decide, rfl, rfl⟩⟩⟩, Or.inr ⟨by decide, rfl, rfl⟩⟩, rfl⟩
        refine .set (.var (int_ 2)) (.bin (v := ρ 2 + M.get w (H.addr 1)) (.lvar (.var (int_ 2)) trivial) (.lvar (.var (int_ 1)) trivial) ?_) .int ?_
        · rw [rd H hH w ρ (by decide), rdg H hH w ρ]
          rfl
        · show some (SsaSem.wrVar _ _ _ _) = _
          rw [wrv H hH w ρ (by decide)]
          rfl
      · simp only [turn, if_neg hskip, if_pos h1, if_true]
      · intro x hx
        simp only [if_neg hx]
    · refine ⟨.normal, fun z => if z = 2 then ρ 2 + 1 else ρ z, Or.inl rfl,
        ⟨_, _, ⟨_, _, htest, Or.inr ⟨rfl, rfl, rfl⟩⟩, Or.inl ⟨rfl, _, .normal, ⟨w, _, hsw, ?_⟩, Or.inl ⟨rfl, rfl, rfl⟩⟩⟩, ?_, ?_⟩
      · have hp : pick (ρ 3) (.cons (some 1#32) (.cons (.asg (.set (.var 2) (.bin .add (v 2) (v 1)))) (.cons .brk .nil))
            (.cons none (.cons (.asg (.incr (.var 2))) .nil) .nil)) = some 1 := by
          have : ¬ (1#32 = ρ 3) := by
            rw [h3]
            intro e
            exact h1 ((ne 1 (by decide)).1 e.symm)
          simp only [pick, if_neg this, Option.map_some]
        rw [hp]
        exact ⟨.normal, ⟨_, .normal, ⟨_, .normal, ⟨rfl, incr H hH C w ρ (by decide)⟩, Or.inl ⟨rfl, rfl, rfl⟩⟩, Or.inl ⟨rfl, rfl, rfl⟩⟩, rfl⟩
      · simp only [turn, if_neg hskip, if_neg h1, if_true]
      · intro x hx
        simp only [if_neg hx]

/-- The loop, when `k` turns are left. -/
theorem loop_ok (w : M.World) (n : Nat) (hn : n < 2 ^ 31) : ∀ (k i : Nat) (ρ : Nat → Word), i + k = n → ρ 0 = BitVec.ofNat 32 n → ρ 3 = BitVec.ofNat 32 i →
    ρ 2 = turns (M.get w (H.addr 1)) i →
    ∃ ρ', ρ' 2 = turns (M.get w (H.addr 1)) n ∧ Loop (Test C U.E U.decl (.one (.one (.bin .lt (v 3) (v 0))))) (Exec C U.E U.decl loopBody)
      (fun x y => EvAsg C.toLang U.E U.decl x.2 x.1 (.incr (.var 3)) y) (w, ρ) .normal (w, ρ') := by
  intro k
  induction k with
  | zero =>
    intro i ρ hik h0 h3 h2
    obtain rfl : i = n := hik
    refine ⟨ρ, h2, .stop ⟨w, 0, ?_, rfl, rfl⟩⟩
    refine .one (r := .val 0) (.bin (.lvar (.var (int_ 3)) trivial) (.lvar (.var (int_ 0)) trivial) ?_)
    rw [rd H hH w ρ (by decide), rd H hH w ρ (by decide), h0, h3]
    simp [CArith.bin, CArith.ofBool]
  | succ k ih =>
    intro i ρ hik h0 h3 h2
    obtain ⟨o, ρ1, ho, hb, h2', hx⟩ := turn_ok H hH C w ρ i (by omega) h3
    obtain ⟨ρ', h4, h5⟩ := ih (i + 1) (fun z => if z = 3 then ρ1 3 + 1 else ρ1 z) (by omega) ((hx 0 (by decide)).trans h0)
      (by
        show ρ1 3 + 1 = _
        rw [hx 3 (by decide), h3]
        exact (BitVec.ofNat_add i 1).symm)
      (by
        show ρ1 2 = _
        rw [h2', h2]
        rfl)
    refine ⟨ρ', h4, .again ⟨w, 1, ?_, rfl, rfl⟩ hb ho (incr H hH C w ρ1 (by decide)) h5⟩
    refine .one (r := .val 1) (.bin (.lvar (.var (int_ 3)) trivial) (.lvar (.var (int_ 0)) trivial) ?_)
    rw [rd H hH w ρ (by decide), rd H hH w ρ (by decide), h0, h3]
    have : (BitVec.ofNat 32 i).toInt < (BitVec.ofNat 32 n).toInt := by
      simp only [BitVec.toInt_eq_toNat_cond, BitVec.toNat_ofNat]
      omega
    simp only [CArith.bin, decide_eq_true this]
    rfl

/-- For every `n` the body has an execution, and it returns the sum. -/
theorem runs (w : M.World) (ρ : Nat → Word) (n : Nat) (hn : n < 2 ^ 31) (h0 : ρ 0 = BitVec.ofNat 32 n) :
    ∃ ρ', ExecAll C U.E U.decl body (w, ρ) .ret (C.ret (some (turns (M.get w (H.addr 1)) n)) w, ρ') := by
  let ρ1 : Nat → Word := fun z => if z = 2 then 0 else if z = 2 then C.alloc 2 else ρ z
  let ρ2 : Nat → Word := fun z => if z = 3 then 0 else if z = 3 then C.alloc 3 else ρ1 z
  obtain ⟨ρ', h1, h2⟩ := loop_ok H hH C w n hn n 0 ρ2 (Nat.zero_add n) h0 rfl rfl
  have decl (ρ : Nat → Word) (x : Nat) (hx : x ≠ 1) :
      ExecDecs C U.E U.decl [⟨x, some (.cond (.one (.one (num 0))))⟩] (w, ρ) (w, fun z => if z = x then 0 else if z = x then C.alloc x else ρ z) := by
    refine ⟨_, _, rfl, ?_, rfl⟩
    rw [wrv H hH w ρ hx]
    exact ⟨w, 0, .cond (.one .num), (wrv H hH w _ hx 0).symm⟩
  have hr : EvCond C U.E U.decl ρ' (.one (.one (v 2))) w w (turns (M.get w (H.addr 1)) n) := by
    have := EvCond.one (C := C) (E := U.E) (decl := U.decl) (ρ := ρ') (e := v 2) (w := w) (w' := w) (.lvar (.var (int_ 2)) trivial)
    rwa [rd H hH w ρ' (by decide), h1] at this
  exact ⟨ρ', _, _, ⟨rfl, decl ρ 2 (by decide)⟩, Or.inl ⟨rfl, _, .normal, ⟨_, decl ρ1 3 (by decide), h2⟩, Or.inl ⟨rfl, _, .ret, ⟨rfl, w, _, .cond hr, rfl⟩,
    Or.inr ⟨by decide, rfl, rfl⟩⟩⟩⟩
end

/-- What comes out for this body: the parser reads it, and the tree returns the same sum. -/
theorem C96_example (M : CRename.Mach) (H : CRename.Home Nat) (hH : ∀ x, H.mem x = decide (x = 1)) (da : Word) (load : Nat → M.World → Word → Option Word)
    (C : CBody.Lang (machOf M H da load)) (K : CBody.Linked M H da load C 2) :
    ∃ tree st n0, funcBody (glob Types.builtin U) n0 4 2 [] ((Lex.lexAll plainEnv 200 source.toList).getD []) = some (tree, st, [(.eof, [])]) ∧
      ∀ (w : M.World) (ρ : Nat → Word) (n : Nat), n < 2 ^ 31 → ρ 0 = BitVec.ofNat 32 n →
        ∃ ρ' k, CStmt.execs M H k tree (w, ρ) = .ok .ret (C.ret (some (turns (M.get w (H.addr 1)) n)) w, ρ') := by
  obtain ⟨ts, h1, h2⟩ := written
  obtain ⟨tree, st, ⟨n0, h3⟩, _, _, _, _, h4⟩ := C96_body_partial (ds := []) (E := Env.init) .nil (fun _ _ _ h => (by cases h)) (fun _ _ h => (by cases h)) (T := Types.builtin) rfl
    (U := U) rfl (by decide) (by decide) h2 [(.eof, [])]
  rw [h1] at h3
  refine ⟨tree, st, n0, h3, fun w ρ n hn h0 => ?_⟩
  obtain ⟨ρ', h5⟩ := runs H hH C w ρ n hn h0
  obtain ⟨ρ2, k, _, h6⟩ := (h4 M H da load C K).2 _ _ _ h5
  exact ⟨ρ2, k, h6 k (Nat.le_refl _)⟩

end Shecc.Props.BodyExample
