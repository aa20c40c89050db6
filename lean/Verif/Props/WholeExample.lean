import Verif.Props.Whole
import Verif.Props.CBodyProgExample

/-!
# C100: an example

`int f(int n) { if (n) return n + f(n - 1); return 0; } int g = 100; int main() { return f(g); }`, from its text to the executable.
-/

namespace Shecc.Props.CProgExample
open Shecc CTypes CEval CSyntax CBody IrM CUnit
open Shecc.Top (Tab program)

def n_ : Named := ("n".toList, intVar "n")
def g_ : Named := ("g".toList, intVar "g")

def fDef : FnDef := ⟨"f".toList, [n_], fUnit, 1, fStmts, .int⟩
def mDef : FnDef := ⟨"main".toList, [], mUnit, 1, mStmts, .int⟩
def tops : List CUnit.Top := [.fn fDef, .var g_ (some 100#32), .fn mDef]

def D1a : Decls := { D1 with bodies := ["f".toList] }
def D1b : Decls := { D1 with
  bodies := ["f".toList]
  globals := [g_] }
def D3 : Decls := { D2 with bodies := ["f".toList, "main".toList] }

theorem fInside : Inside 1 D1 [n_] fUnit where
  E := rfl
  const := rfl
  fn := rfl
  macro_ := rfl
  globals := rfl
  params := rfl
  decl := fun i e h => by
    match i with
    | 0 => cases h; rfl
    | i + 1 => cases h
  room := by decide
  below := rfl

theorem mInside : Inside 1 D2 [] mUnit where
  E := rfl
  const := rfl
  fn := rfl
  macro_ := rfl
  globals := rfl
  params := rfl
  decl := fun i e h => by
    match i with
    | 0 => cases h; rfl
    | i + 1 => cases h
  room := by decide
  below := rfl

def wholeText : String := "int f(int n) { if (n) return n + f(n - 1); return 0; } int g = 100; int main() { return f(g); }"

theorem wholeWritten : ∃ ts, ts ++ [(.eof, [])] = toks wholeText ∧ WProgram 1 tops ts D3 := by
  obtain ⟨tf, e1, hf⟩ := fWritten
  obtain ⟨tm, e2, hm⟩ := mWritten
  have q1 : text "{ if (n) return n + f(n - 1); return 0; }" = fToks := by decide +kernel
  have q2 : text "{ return f(g); }" = mToks := by decide +kernel
  rw [q1] at e1
  rw [q2] at e2
  have e1' : tf = fToks.tail.dropLast := by
    have := congrArg (fun l => l.tail.dropLast) e1
    simpa using this
  have e2' : tm = mToks.tail.dropLast := by
    have := congrArg (fun l => l.tail.dropLast) e2
    simpa using this
  subst e1' e2'
  have h1 : WTop 1 Decls.init (.fn fDef) _ D1a :=
    .fn (.mk (ty := "int".toList) (n := 0) (u := .int) (by decide) rfl (.inr (.inl rfl))
      (.some (.one (.mk (ty := "int".toList) (.var (n := 0) (s := "n".toList) (f := .plain) .plain) (t := .int) (by decide) (.inl rfl)))) (by decide)
      (.inl ⟨by decide, by decide, by decide, by decide⟩)) (by decide) fInside hf
  have h2 : WTop 1 D1a (.var g_ (some 100#32)) _ D1b :=
    .var (ty := "int".toList) (.var (n := 0) (s := "g".toList) (f := .plain) .plain) (fun h => by cases h) (t := .int) (by decide) .int
      ⟨by decide, by decide, by decide, by decide⟩
      (.some rfl (.expr (.expr (t := .leaf 100#32) (.one (.pos (.num (l := .dec ['1', '0', '0']) ⟨by decide, by decide, by decide⟩ (by decide)))) (.inl (fun _ h => by cases h)) ⟨rfl, rfl, trivial⟩ (.leaf _))))
  have h3 : WTop 1 D1b (.fn mDef) _ D3 :=
    .fn (.mk (ty := "int".toList) (n := 0) (u := .int) (by decide) rfl (.inr (.inl rfl)) .none (by decide)
      (.inl ⟨by decide, by decide, by decide, by decide⟩)) (by decide) mInside hm
  exact ⟨_, by decide +kernel, .cons h1 (.cons h2 (.cons h3 .nil)), fun h => by cases h⟩

def addr : Nat → Word := fun _ => 0xffffc#32

theorem source_texts : source tops addr (fun _ _ _ => 0) (fun _ _ => False) = texts := by
  funext g
  unfold texts
  by_cases h1 : g = "f"
  · subst h1; rfl
  · rw [if_neg h1]
    by_cases h2 : g = "main"
    · subst h2; rfl
    · rw [if_neg h2]
      have e1 : (String.ofList fDef.name = g) = False := eq_false fun h => h1 h.symm
      have e2 : (String.ofList mDef.name = g) = False := eq_false fun h => h2 h.symm
      show (([fDef, mDef] : List FnDef).find? _).map _ = none
      simp only [List.find?, e1, e2, decide_false]
      rfl

def wholeTab : Tab where
  types := Types.builtin
  consts := []
  funcs := ["__syscall".toList, "f".toList, "main".toList]
  globals := [(g_, some 100#32)]
  data := []
  defs := [⟨"f".toList, [n_], 1, fBody⟩, ⟨"main".toList, [], 1, mBody⟩]

def wholeToks : List Tk :=
  [(.identifier, "int".toList), (.identifier, "f".toList), p .open_bracket, (.identifier, "int".toList), (.identifier, "n".toList), p .close_bracket] ++ fToks.dropLast ++
    [(.identifier, "int".toList), (.identifier, "g".toList), p .assign, (.numeric, "100".toList), p .semicolon,
      (.identifier, "int".toList), (.identifier, "main".toList), p .open_bracket, p .close_bracket] ++ mToks

theorem wholeRead : program 1 40 (toks wholeText) = some wholeTab := by
  rw [show toks wholeText = wholeToks by decide +kernel]
  cbv

theorem wholeGlobals : Top.Globals wholeTab vars (fun _ => .word) ds where
  all := rfl
  each := fun i e v d hi hd => by
    match i with
    | 0 => cases hi; cases hd; exact ⟨by decide, rfl⟩
    | i + 1 => cases hi

/-- The program, executed as it is written, exits with 5050, whatever memory it is started in. -/
theorem exitsW (da : Word) (bv : BitVec 8 → Word) (os : IrM.Os) (m : Mem) :
    ∃ m', CUnit.Exits Env.init tops addr texts (sp0 - RegAlloc.num gRes.stack) sp0 (src da bv os) m m' (some 5050#32) := by
  obtain ⟨m', m1, n, bf, hi, hb, hc⟩ := exitsT da bv os m
  have hg : sp0 - RegAlloc.num gRes.stack + RegAlloc.num (gRes.offset 0) = 0xffffc#32 := by rw [gFrame.1, gFrame.2]; rfl
  refine ⟨m', m1, n, bf, ⟨fun i e w h => ?_, fun i e v k t h ht => ?_, fun b h => hi.rest b fun d hd _ k hk => ?_⟩, hb, hc⟩
  · match i with
    | 0 =>
      cases h
      have := hi.init _ (List.mem_singleton.2 rfl) 100#32 rfl
      rw [hg] at this
      exact this
    | i + 1 => cases h
  · match i with
    | 0 => cases h; cases ht
    | i + 1 => cases h
  · obtain rfl := List.mem_singleton.1 hd
    have h0 := h 0 g_ _ rfl (.inl (fun e => by cases e)) k hk
    rw [hg]
    exact h0

theorem compiledW (da : Word) (bv : BitVec 8 → Word) (os : IrM.Os) : ∀ g f bf d, g ≠ "__syscall" → (src da bv os).fn g = some f →
    texts g = some bf → d ∈ wholeTab.defs → String.ofList d.name = g → ∃ st, CProg.Compiled (src da bv os) (withTree bf d.body) f st := by
  intro g f bf d _ hf hs hd hn
  subst hn
  rcases List.mem_cons.1 hd with rfl | hd
  · cases hs
    cases hf
    exact ⟨_, fCompiled da bv os⟩
  · obtain rfl := List.mem_singleton.1 hd
    cases hs
    cases hf
    exact ⟨_, mTree ▸ mCompiled da bv os⟩

/-- The hypotheses of `C100_rv_partial` hold: from its text on, the program exits with 5050. -/
theorem C100_example_rv : ∃ F img, compile Riscv.target false (Peep.prog prog) = some (F, img) ∧ ∀ (c : RV32.Code), RV32.CodeAt c codeBase img →
    ∀ (os : IrM.Os) (t : RV32.State), t.pc = codeBase → t.get 2#5 = sp0 →
    ∃ u, RV32.SysReaches c os t u ∧ RV32.step c u = .ecall u ∧ u.get 17#5 = 93#32 ∧ u.get 10#5 = 5050#32 := by
  have hc : (compile Riscv.target false (Peep.prog prog)).isSome = true := by decide +kernel
  obtain ⟨⟨F, img⟩, hc⟩ := Option.isSome_iff_exists.1 hc
  refine ⟨F, img, hc, fun c hci os t hpc hsp => ?_⟩
  obtain ⟨m', hx⟩ := exitsW (codeBase + BitVec.ofNat 32 (4 * img.length)) (fun b => b.signExtend 32) os t.mem
  have W := whole (codeBase + BitVec.ofNat 32 (4 * img.length)) (fun b => b.signExtend 32) os
  obtain ⟨_, p2, p3, _⟩ := types
  obtain ⟨ts, e, hw⟩ := wholeWritten
  obtain ⟨u, h1, h2, h3, h4, _⟩ := C100_rv_partial hw p2 p3 (e.symm ▸ wholeRead) false prog F img hc distinct c hci t hpc _ _ _ _ _ (hsp.symm ▸ W) rfl rfl wholeGlobals addr
    (fun _ _ _ => 0) (fun _ _ => False) (fun i d hd => by
      match i with
      | 0 => cases hd; rw [hsp]; show _ = sp0 - RegAlloc.num gRes.stack + RegAlloc.num (gRes.offset 0); rw [gFrame.1, gFrame.2]; rfl
      | i + 1 => cases hd) (source_texts ▸ compiledW _ _ _) m' _ (by rw [source_texts, hsp]; exact hx)
  exact ⟨u, h1, h2, h3, h4 _ rfl⟩

theorem C100_example_arm : ∃ F img, compile Arm.target false (Peep.prog prog) = some (F, img) ∧ ∀ (c : ARM.Code), ARM.CodeAt c codeBase img →
    ∀ (os : IrM.Os) (t : ARM.State), t.pc = codeBase → t.get 13#4 = sp0 →
    ∃ u, ARM.SysReaches c os t u ∧ ARM.step c u = .svc u ∧ u.get 7#4 = 1#32 ∧ u.get 0#4 = 5050#32 := by
  have hc : (compile Arm.target false (Peep.prog prog)).isSome = true := by decide +kernel
  obtain ⟨⟨F, img⟩, hc⟩ := Option.isSome_iff_exists.1 hc
  refine ⟨F, img, hc, fun c hci os t hpc hsp => ?_⟩
  obtain ⟨m', hx⟩ := exitsW (codeBase + BitVec.ofNat 32 (4 * img.length)) (fun b => b.setWidth 32) os t.mem
  have W := whole (codeBase + BitVec.ofNat 32 (4 * img.length)) (fun b => b.setWidth 32) os
  obtain ⟨_, p2, p3, _⟩ := types
  obtain ⟨ts, e, hw⟩ := wholeWritten
  obtain ⟨u, h1, h2, h3, h4, _⟩ := C100_arm_partial hw p2 p3 (e.symm ▸ wholeRead) false prog F img hc distinct armOk c hci t hpc _ _ _ _ _ (hsp.symm ▸ W) rfl rfl wholeGlobals addr
    (fun _ _ _ => 0) (fun _ _ => False) (fun i d hd => by
      match i with
      | 0 => cases hd; rw [hsp]; show _ = sp0 - RegAlloc.num gRes.stack + RegAlloc.num (gRes.offset 0); rw [gFrame.1, gFrame.2]; rfl
      | i + 1 => cases hd) (source_texts ▸ compiledW _ _ _) m' _ (by rw [source_texts, hsp]; exact hx)
  exact ⟨u, h1, h2, h3, h4 _ rfl⟩

/-- The hypotheses of `C100_storage_partial` hold: `g` has four bytes of the frame. -/
theorem C100_storage_example : ∃ fin, GlobalInit.allocGlobals vars (fun _ => .word) ds = some fin ∧ 4 ≤ fin.offset 0 ∧ fin.offset 0 + 4 ≤ fin.stack := by
  obtain ⟨_, p2, p3, _⟩ := types
  obtain ⟨ts, e, hw⟩ := wholeWritten
  have W := whole 0 (fun b => b.signExtend 32) (fun _ _ _ _ _ => False)
  obtain ⟨fin, h1, h2⟩ := C100_storage_partial hw p2 p3 (e.symm ▸ wholeRead) W.proper wholeGlobals
  obtain ⟨t, k, _, _, h3, h4, _, _, _, h5, h6, _⟩ := h2 0 0 g_ _ g_ _ _ _ rfl rfl rfl rfl
  cases h3
  cases h4
  exact ⟨fin, h1, h5, h6⟩

end Shecc.Props.CProgExample
