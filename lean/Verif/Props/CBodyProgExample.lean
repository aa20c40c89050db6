import Verif.Props.CProgramExample
import Verif.Props.CBodyProg
import Verif.Props.ExprExample
import Verif.Spec.CUnit

/-!
# C97: an example

`int f(int n) { if (n) return n + f(n - 1); return 0; } int g = 100; int main() { return f(g); }`, from its text on.
-/

namespace Shecc.Props.CProgExample
open Shecc CTypes CEval CSyntax CBody IrM
open Shecc.Body (glob funcBody)
open CProg (World SFn)

def intVar (s : String) : Declr := { spec := .name "int", name := s }

/-- What is declared when the body of `f` is read. -/
def D1 : CUnit.Decls := CUnit.Decls.init.declare "f".toList .int

/-- What is declared when the body of `main` is read. -/
def D2 : CUnit.Decls := ({ D1 with
    bodies := ["f".toList]
    globals := [("g".toList, intVar "g")] } : CUnit.Decls).declare "main".toList .int

/-- What is known in `f`. -/
def fUnit : CBody.Unit where
  E := Env.init
  const := fun _ => none
  fn := D1.fn
  macro_ := fun _ => false
  params := [("n".toList, 0)]
  globals := []
  decl := fun _ => intVar "n"
  base := 1

/-- What is known in `main`. -/
def mUnit : CBody.Unit where
  E := Env.init
  const := fun _ => none
  fn := D2.fn
  macro_ := fun _ => false
  params := []
  globals := [("g".toList, 0)]
  decl := fun _ => intVar "g"
  base := 1

def fCall : Ex := .bin .add (.lval (.var 0)) (.call "f".toList (.cons (.bin .sub (.lval (.var 0)) (.num 1)) .nil))

/-- `if (n) return n + f(n - 1); return 0;` -/
def fStmts : CBody.Stmts :=
  .cons (.ite (.one (.one (.lval (.var 0)))) (.ret (some (.cond (.one (.one fCall)))))) (.cons (.ret (some (.cond (.one (.one (.num 0)))))) .nil)

/-- `return f(g);` -/
def mStmts : CBody.Stmts := .cons (.ret (some (.cond (.one (.one (.call "f".toList (.cons (.lval (.var 0)) .nil))))))) .nil

theorem fType : (fUnit.decl 0).type fUnit.E = some .int := by decide
theorem mType : (mUnit.decl 0).type mUnit.E = some .int := by decide

theorem fN (d : List Char) : WLv (fUnit.scope [[]]) (.var 0) .int [(.identifier, "n".toList)] d d := .var (by decide) (by decide) fType .int
theorem mG (d : List Char) : WLv (mUnit.scope [[]]) (.var 0) .int [(.identifier, "g".toList)] d d := .var (by decide) (by decide) mType .int

theorem fWritten : ∃ ts, p .open_curly :: ts ++ [(.eof, [])] = text "{ if (n) return n + f(n - 1); return 0; }" ∧ WItems fUnit [[]] 1 fStmts ts 1 [] [] := by
  have hs : WEx (fUnit.scope [[]]) 0 (.bin .sub (.lval (.var 0)) (.num 1)) .int _ _ [] [] :=
    .bin (o := .sub) (by decide) rfl (.op (.lval (fN []) .int)) (.op (.num (l := .dec ['1']) ⟨by decide, by decide, by decide⟩)) ⟨rfl, rfl⟩ (fun h => by cases h)
  have hc : WEx (fUnit.scope [[]]) 0 fCall .int _ _ [] [] :=
    .bin (o := .add) (by decide) rfl (.op (.lval (fN []) .int))
      (.op (.call (t := .int) (by decide) (by decide) (by decide) (.last hs))) ⟨rfl, rfl⟩ (fun _ => rfl)
  have h : WItems fUnit [[]] 1 fStmts _ 1 [] [] :=
    .stmt (.ite (.one (.op (.lval (fN []) .int)) trivial) (.ret (.cond (.one hc trivial))))
      (.stmt (.ret (.cond (.one (.op (.num (l := .oct []) (fun _ h => by cases h))) trivial))) .nil)
  exact ⟨_, by decide +kernel, h⟩

theorem mWritten : ∃ ts, p .open_curly :: ts ++ [(.eof, [])] = text "{ return f(g); }" ∧ WItems mUnit [[]] 1 mStmts ts 1 [] [] := by
  have h : WItems mUnit [[]] 1 mStmts _ 1 [] [] :=
    .stmt (.ret (.cond (.one (.op (.call (t := .int) (by decide) (by decide) (by decide) (.last (.op (.lval (mG []) .int))))) trivial))) .nil
  exact ⟨_, by decide +kernel, h⟩

/-! ### What the parser makes of them -/

def fToks : List Tk :=
  [p .open_curly, kw .if_ "if", p .open_bracket, (.identifier, "n".toList), p .close_bracket, kw .return_ "return", (.identifier, "n".toList), p .plus,
    (.identifier, "f".toList), p .open_bracket, (.identifier, "n".toList), p .minus, (.numeric, "1".toList), p .close_bracket, p .semicolon,
    kw .return_ "return", (.numeric, "0".toList), p .semicolon, p .close_curly, (.eof, [])]
def mToks : List Tk :=
  [p .open_curly, kw .return_ "return", (.identifier, "f".toList), p .open_bracket, (.identifier, "g".toList), p .close_bracket, p .semicolon,
    p .close_curly, (.eof, [])]

theorem fRead : funcBody (glob Types.builtin fUnit) 20 1 1 [] fToks = some (fBody, ⟨15, [], [[]], 1⟩, [(.eof, [])]) := by cbv
theorem mRead : funcBody (glob Types.builtin mUnit) 20 1 1 [] mToks = some (mBody, ⟨5, [], [[]], 1⟩, [(.eof, [])]) := by cbv

def fB : BFn where
  unit := fUnit
  body := fStmts
  void := false
  gaddr := fun _ => 0xffffc#32
  alloc := fun _ _ => 0
  keep := fun _ => False

def mB : BFn where
  unit := mUnit
  body := mStmts
  void := false
  gaddr := fun _ => 0xffffc#32
  alloc := fun _ _ => 0
  keep := fun _ => False

theorem fTree : withTree fB fBody = fSrc := rfl

theorem mTree : withTree mB mBody = mSrc := by
  have h : mB.isGlobal = fun v => v == 0 := by
    funext v
    show ((0 == v) || false) = (v == 0)
    rw [Bool.or_false]
    exact Bool.beq_comm
  show ({ body := mBody, params := [], void := false, isGlobal := mB.isGlobal, gaddr := fun _ => 0xffffc#32, alloc := fun _ _ _ => 0, keep := fun _ => False } : SFn) = _
  rw [h]
  rfl

theorem fParsed : ∃ ts, Parsed Env.init Types.builtin fB fBody ts := by
  obtain ⟨ts, h1, h2⟩ := fWritten
  refine ⟨ts, rfl, 1, 1, [], [], [(.eof, [])], ⟨15, [], [[]], 1⟩, 20, by decide, by decide, h2, ?_⟩
  rw [h1, show text "{ if (n) return n + f(n - 1); return 0; }" = fToks by decide +kernel]
  exact fRead

theorem mParsed : ∃ ts, Parsed Env.init Types.builtin mB mBody ts := by
  obtain ⟨ts, h1, h2⟩ := mWritten
  refine ⟨ts, rfl, 1, 1, [], [], [(.eof, [])], ⟨5, [], [[]], 1⟩, 20, by decide, by decide, h2, ?_⟩
  rw [h1, show text "{ return f(g); }" = mToks by decide +kernel]
  exact mRead

/-- The functions as they are written. -/
def texts (g : String) : Option BFn := if g = "f" then some fB else if g = "main" then some mB else none

theorem parsed (da : Word) (bv : BitVec 8 → Word) (os : IrM.Os) : ∀ g f bf, g ≠ "__syscall" → (src da bv os).fn g = some f → texts g = some bf →
    ∃ ts tree st, Parsed Env.init Types.builtin bf tree ts ∧ CProg.Compiled (src da bv os) (withTree bf tree) f st := by
  intro g f bf _ hf hs
  simp only [src] at hf
  unfold texts at hs
  split at hf
  · rename_i h
    rw [if_pos h] at hs
    cases hf; cases hs
    obtain ⟨ts, hp⟩ := fParsed
    exact ⟨ts, _, _, hp, fCompiled da bv os⟩
  · rename_i h
    rw [if_neg h] at hs
    split at hf
    · rename_i h
      rw [if_pos h] at hs
      cases hf; cases hs
      obtain ⟨ts, hp⟩ := mParsed
      exact ⟨ts, _, _, hp, mTree ▸ mCompiled da bv os⟩
    · cases hf

/-! ### What they do -/

open SrcBlock (Ctx)

/-- The answer the script gives. -/
theorem callAt_ok (C : Ctx) (f : List Char) (vs : List Word) (μ : Mem) (y : Word) (hc : C.call (String.ofList f) vs μ μ (some y)) :
    callAt C f vs (⟨μ, [], none, none, [(μ, some y)]⟩ : World) = some (⟨μ, [], some y, none, []⟩, some y) := by
  unfold callAt
  exact if_pos ⟨rfl, hc⟩

theorem call_ok (C : Ctx) (al : Nat → Word) (keep : Word → Prop) (H : CRename.Home Nat) (f : List Char) (vs : List Word) (μ : Mem) (y : Word)
    (hc : C.call (String.ofList f) vs μ μ (some y)) :
    (lang C al keep H).call f vs (⟨μ, [], none, none, [(μ, some y)]⟩ : World) = some ((⟨μ, [], some y, none, []⟩ : World), y) := by
  show ((callAt C f vs (⟨μ, [], none, none, [(μ, some y)]⟩ : World)).bind fun q => q.2.map fun r => (q.1, r)) = _
  rw [callAt_ok C f vs μ y hc]
  rfl

theorem f_zeroT (C : Ctx) (al : Nat → Word) (keep : Word → Prop) (μ : Mem) :
    ExecAll (lang C al keep fB.home) fUnit.E fUnit.decl fStmts ((⟨μ, [], none, none, []⟩ : World), fun _ => (0#32 : Word)) .ret
      ((⟨μ, [], none, some (some 0#32), []⟩ : World), fun _ => (0#32 : Word)) := by
  refine ⟨_, _, ⟨_, _, ⟨_, _, .one (.lvar (.var fType) trivial), rfl, rfl⟩, Or.inr ⟨rfl, rfl, rfl⟩⟩, Or.inl ⟨rfl, ?_⟩⟩
  exact ⟨_, _, ⟨rfl, _, _, .cond (.one .num), rfl⟩, Or.inr ⟨by decide, rfl, rfl⟩⟩

theorem f_succT (C : Ctx) (al : Nat → Word) (keep : Word → Prop) (μ : Mem) (x y : Word) (hx : x ≠ 0#32) (hc : C.call "f" [x - 1#32] μ μ (some y)) :
    ExecAll (lang C al keep fB.home) fUnit.E fUnit.decl fStmts ((⟨μ, [], none, none, [(μ, some y)]⟩ : World), fun _ => x) .ret
      ((⟨μ, [], some y, some (some (x + y)), []⟩ : World), fun _ => x) := by
  refine ⟨_, _, ⟨_, true, ⟨_, _, .one (.lvar (.var fType) trivial), rfl, (decide_eq_true hx).symm⟩, Or.inl ⟨rfl, ?_⟩⟩, Or.inr ⟨?_, rfl, rfl⟩⟩
  rotate_left
  · exact fun h => by cases h
  · exact ⟨rfl, _, _, .cond (.one (.bin (v := x + y) (.lvar (.var fType) trivial)
      (.call (.cons (.bin (v := x - 1#32) (.lvar (.var fType) trivial) .num rfl) .nil) (call_ok C al keep fB.home "f".toList [x - 1#32] μ y hc)) rfl)), rfl⟩

theorem m_runT (C : Ctx) (al : Nat → Word) (keep : Word → Prop) (μ : Mem) (y : Word) (hc : C.call "f" [load32 μ 0xffffc#32] μ μ (some y)) :
    ExecAll (lang C al keep mB.home) mUnit.E mUnit.decl mStmts ((⟨μ, [], none, none, [(μ, some y)]⟩ : World), fun _ => (0#32 : Word)) .ret
      ((⟨μ, [], some y, some (some y), []⟩ : World), fun _ => (0#32 : Word)) := by
  refine ⟨_, _, ⟨rfl, _, _, .cond (.one (.call (.cons (.lvar (.var mType) trivial) .nil) (call_ok C al keep mB.home "f".toList [load32 μ 0xffffc#32] μ y hc))), rfl⟩,
    Or.inr ⟨?_, rfl, rfl⟩⟩
  exact fun h => by cases h

open Shecc.RegAlloc (num) in
open SsaProg (inside hiddenIn stackBelow) in
/-- `f` computes the sum `n + (n - 1) + … + 1`, if the stack is deep enough. -/
theorem callT (da : Word) (bv : BitVec 8 → Word) (os : IrM.Os) : ∀ (n : Nat) (hid : Word → Prop) (sp : Word) (m : Mem),
    n < 2 ^ 32 → 0x1000 + 24 + 16 * n ≤ sp.toNat →
    CBody.Call (src da bv os) texts (n + 1) hid sp "f" [BitVec.ofNat 32 n] m m (some (total n)) := by
  intro n
  induction n with
  | zero =>
    intro hid sp m _ hr
    rw [CBody.Call]
    refine ⟨fun _ _ => rfl, ?_⟩
    rw [if_neg (by decide)]
    refine ⟨srcF, fB, rfl, rfl, rfl, by show 0x1000 + 12 + 12 ≤ _; omega, fun μ hμ => ?_⟩
    refine ⟨_, _, _, _, _, ?_, f_zeroT _ _ _ μ, Or.inl ?_, hμ⟩ <;> rfl
  | succ n ih =>
    intro hid sp m hn hr
    rw [CBody.Call]
    refine ⟨fun _ _ => rfl, ?_⟩
    rw [if_neg (by decide)]
    refine ⟨srcF, fB, rfl, rfl, rfl, by show 0x1000 + 12 + 12 ≤ _; omega, fun μ hμ => ?_⟩
    have hz : BitVec.ofNat 32 (n + 1) ≠ 0#32 := by
      intro e
      have := congrArg BitVec.toNat e
      simp only [BitVec.toNat_ofNat, Nat.mod_eq_of_lt hn] at this
      omega
    have hsub : BitVec.ofNat 32 (n + 1) - 1#32 = BitVec.ofNat 32 n := by
      apply BitVec.eq_of_toNat_eq
      simp only [BitVec.toNat_sub, BitVec.toNat_ofNat]
      omega
    have hsp : (inside srcF sp).toNat = sp.toNat - 16 := by
      show (sp - 16#32).toNat = _
      rw [BitVec.toNat_sub]
      simp only [BitVec.toNat_ofNat]
      have := sp.isLt
      omega
    have hc := ih (hiddenIn srcF (inside srcF sp) hid) (inside srcF sp) μ (by omega) (by rw [hsp]; omega)
    rw [← hsub] at hc
    refine ⟨_, _, _, _, _, ?_, f_succT _ _ _ μ _ _ hz hc, Or.inl ?_, hμ⟩ <;> rfl

open Shecc.RegAlloc (num) in
open SsaProg (inside hiddenIn stackBelow) in
set_option maxRecDepth 4000 in
/-- The program, executed as it is written, exits with 5050, whatever memory it is started in. -/
theorem exitsT (da : Word) (bv : BitVec 8 → Word) (os : IrM.Os) (m : Mem) :
    ∃ m', CBody.Exits vars (fun _ => .word) ds gRes sp0 (src da bv os) texts m m' (some 5050#32) := by
  have hg : sp0 - num gRes.stack + num (gRes.offset 0) = 0xffffc#32 := by rw [gFrame.1, gFrame.2]; rfl
  have hl : load32 (store32 m 0xffffc#32 100#32) 0xffffc#32 = 100#32 := load32_same _ _ _
  refine ⟨store32 m 0xffffc#32 100#32, store32 m 0xffffc#32 100#32, 102, mB, ⟨?_, ?_⟩, rfl, ?_⟩
  · intro d hd x hx
    obtain rfl := List.mem_singleton.1 hd
    cases hx
    rw [hg]
    exact hl
  · intro b hb
    have := hb _ (List.mem_singleton.2 rfl) (by simp [CGlobals.initial])
    rw [hg] at this
    exact store32_ne _ _ (fun k hk => this k hk)
  · rw [CBody.Call]
    refine ⟨fun _ _ => rfl, ?_⟩
    rw [if_neg (by decide)]
    refine ⟨srcMain, mB, rfl, rfl, rfl, by rw [gFrame.1]; show 0x1000 + 4 + 12 ≤ (sp0 - 8#32).toNat; decide, fun μ hμ => ?_⟩
    have hv : load32 μ 0xffffc#32 = BitVec.ofNat 32 100 := by
      rw [show BitVec.ofNat 32 100 = 100#32 from rfl, ← hl]
      apply load32_congr
      intro k hk
      refine hμ _ ?_
      intro h
      have h := h.2
      have e : (sp0 - num gRes.stack).toNat = 0xffff8 := by rw [gFrame.1]; rfl
      rw [e] at h
      rcases (by omega : k = 0 ∨ k = 1 ∨ k = 2 ∨ k = 3) with rfl | rfl | rfl | rfl <;> revert h <;> decide
    refine ⟨_, _, _, _, _, ?_, m_runT _ _ _ μ 5050#32 (by
         rw [hv]
         exact five_thousand ▸ callT da bv os 100 _ _ μ (by decide) (by decide)), Or.inl ?_, hμ⟩ <;> rfl

theorem types : Program [] Env.init ∧ Env.init.Apart ∧ NoStructAlias [] Env.init ∧ Types.declares Types.builtin [] = some Types.builtin :=
  ⟨.nil, fun _ _ _ h => (by cases h), fun _ _ h => (by cases h), rfl⟩

/-- The hypotheses of `C97_rv_partial` hold: compiled from its text, the program exits with 5050. -/
theorem C97_example_rv : ∃ F img, compile Riscv.target false (Peep.prog prog) = some (F, img) ∧ ∀ (c : RV32.Code), RV32.CodeAt c codeBase img →
    ∀ (os : IrM.Os) (t : RV32.State), t.pc = codeBase → t.get 2#5 = sp0 →
    ∃ u, RV32.SysReaches c os t u ∧ RV32.step c u = .ecall u ∧ u.get 17#5 = 93#32 ∧ u.get 10#5 = 5050#32 := by
  have hc : (compile Riscv.target false (Peep.prog prog)).isSome = true := by decide +kernel
  obtain ⟨⟨F, img⟩, hc⟩ := Option.isSome_iff_exists.1 hc
  refine ⟨F, img, hc, fun c hci os t hpc hsp => ?_⟩
  obtain ⟨m', hx⟩ := exitsT (codeBase + BitVec.ofNat 32 (4 * img.length)) (fun b => b.signExtend 32) os t.mem
  rw [← hsp] at hx
  have W := whole (codeBase + BitVec.ofNat 32 (4 * img.length)) (fun b => b.signExtend 32) os
  rw [← hsp] at W
  obtain ⟨p1, p2, p3, p4⟩ := types
  obtain ⟨u, h1, h2, h3, h4, _⟩ := C97_rv_partial p1 p2 p3 p4 false prog F img hc distinct c hci t hpc _ _ _ _ _ W rfl rfl texts (parsed _ _ _) m' _ hx
  exact ⟨u, h1, h2, h3, h4 _ rfl⟩

theorem C97_example_arm : ∃ F img, compile Arm.target false (Peep.prog prog) = some (F, img) ∧ ∀ (c : ARM.Code), ARM.CodeAt c codeBase img →
    ∀ (os : IrM.Os) (t : ARM.State), t.pc = codeBase → t.get 13#4 = sp0 →
    ∃ u, ARM.SysReaches c os t u ∧ ARM.step c u = .svc u ∧ u.get 7#4 = 1#32 ∧ u.get 0#4 = 5050#32 := by
  have hc : (compile Arm.target false (Peep.prog prog)).isSome = true := by decide +kernel
  obtain ⟨⟨F, img⟩, hc⟩ := Option.isSome_iff_exists.1 hc
  refine ⟨F, img, hc, fun c hci os t hpc hsp => ?_⟩
  obtain ⟨m', hx⟩ := exitsT (codeBase + BitVec.ofNat 32 (4 * img.length)) (fun b => b.setWidth 32) os t.mem
  rw [← hsp] at hx
  have W := whole (codeBase + BitVec.ofNat 32 (4 * img.length)) (fun b => b.setWidth 32) os
  rw [← hsp] at W
  obtain ⟨p1, p2, p3, p4⟩ := types
  obtain ⟨u, h1, h2, h3, h4, _⟩ := C97_arm_partial p1 p2 p3 p4 false prog F img hc distinct armOk c hci t hpc _ _ _ _ _ W rfl rfl texts (parsed _ _ _) m' _ hx
  exact ⟨u, h1, h2, h3, h4 _ rfl⟩

end Shecc.Props.CProgExample
