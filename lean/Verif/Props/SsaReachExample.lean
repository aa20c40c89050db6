import Verif.Props.SsaReachImage
import Verif.Props.SsaImageExample

/-!
# C92: a program that does not end

`int g = 7; int f(int n) { __syscall(1, n); return f(n + 1); } int main() { return f(g); }` makes the system calls `(1, 7)`, `(1, 8)`, ...
-/

namespace Shecc.Props.SsaReachExample
open Shecc Shecc.Ssa Shecc.RegAlloc Shecc.GlobalInit IrM SrcBlock RaLink RaFn SsaProg CGlobals
open Shecc.Props.SsaImageExample (blocks sp0 armBlocks armBlocks_ok)

/-- Variable 0 is `g`, 1 is `n`, 2 and 3 the constant 1, 9 the initialiser of `g`. -/
def vars : Vars :=
  { isGlobal := fun v => v == 0
    initVal := fun v => if v = 2 then 1#32 else if v = 3 then 1#32 else if v = 9 then 7#32 else 0#32
    numParams := fun g => if g = "f" then some 1 else if g = "__syscall" then some 0 else none }

def b0 : RegAlloc.Block := { killed := [1, 2, 3, 4, 5], next := some 1 }

def body : List Insn :=
  [{ op := .load_constant, rd := some 2 }, { op := .push, rs1 := some 2, sz := 2 }, { op := .push, rs1 := some 1, sz := 1 },
   { op := .call, str := "__syscall" }, { op := .load_constant, rd := some 3 }, { op := .alu .add, rd := some 4, rs1 := some 1, rs2 := some 3 },
   { op := .push, rs1 := some 4, sz := 1 }, { op := .call, str := "f" }, { op := .func_ret, rd := some 5 }]

/-- The function `f`. -/
def fn : RegAlloc.Fn :=
  { block := fun b => if b = 0 then b0 else {}
    insns := fun b => if b = 0 then body ++ [{ op := .ret, rs1 := some 5 }] else []
    rpo := fun b => b
    fnExit := 1 }

def use (v : Nat) : Int := [-1, 5, 1, 5, 6, 9].getD v (-1)

/-- The variables with a value at the start of a block. -/
def live (b v : Nat) : Prop := v ∈ [[1]].getD b []

def b10 : RegAlloc.Block := { killed := [7], next := some 11 }

/-- The function `main`. -/
def mainFn : RegAlloc.Fn :=
  { block := fun b => if b = 10 then b10 else {}
    insns := fun b => if b = 10 then
      [{ op := .push, rs1 := some 0, sz := 1 }, { op := .call, str := "f" }, { op := .func_ret, rd := some 7 },
       { op := .ret, rs1 := some 7 }] else []
    rpo := fun b => b
    fnExit := 11 }

def mainUse (v : Nat) : Int := [0, -1, -1, -1, -1, -1, -1, 3].getD v (-1)

def st0 : RA := { offset := fun v => if v = 0 then 4 else 0, consumed := use }
def mst0 : RA := { offset := fun v => if v = 0 then 4 else 0, consumed := mainUse }

def ds : List Decl := [{ var := 0, tmp := some 9 }]

/-- What the allocator makes of the functions and of the declaration. -/
def fRes : List (Nat × List Ph2Ir) × RA := (allocBlocks vars fn [] [0, 1] (fnStart [1] false st0)).getD ([], st0)
def mainRes : List (Nat × List Ph2Ir) × RA := (allocBlocks vars mainFn [] [10, 11] (fnStart [] false mst0)).getD ([], st0)
def gRes : RA := (allocGlobals vars (fun _ => .word) ds).getD st0

theorem fAlloc : allocBlocks vars fn [] [0, 1] (fnStart [1] false st0) = some (fRes.1, fRes.2) := rfl
theorem mainAlloc : allocBlocks vars mainFn [] [10, 11] (fnStart [] false mst0) = some (mainRes.1, mainRes.2) := rfl
theorem gAlloc : allocGlobals vars (fun _ => .word) ds = some gRes := rfl

theorem fFrame : fRes.2.stack = 16 := by decide +kernel
theorem mainFrame : mainRes.2.stack = 4 := by decide +kernel
theorem gFrame : gRes.stack = 8 ∧ gRes.offset 0 = 4 := by decide +kernel

def srcF : SrcFn :=
  { F := fn
    vars := vars
    params := [1]
    entry := 0
    rest := [1]
    void := false
    size := 16
    ofs := fRes.2.offset }

def srcMain : SrcFn :=
  { F := mainFn
    vars := vars
    params := []
    entry := 10
    rest := [11]
    void := false
    size := 4
    ofs := mainRes.2.offset }

/-- The program. -/
def src (da : Word) (bv : BitVec 8 → Word) (os : Os) : SrcProg :=
  { fn := fun g => if g = "f" then some srcF else if g = "main" then some srcMain else none
    isGlobal := vars.isGlobal
    gaddr := fun _ => 0xffffc#32
    dataAddr := da
    byteVal := bv
    os := os
    lo := 0x1000 }

/-- What code generation is given. -/
def prog : Prog :=
  { globalBB := 20
    globalInsns := gRes.out
    globalStack := num gRes.stack
    syscallBB := 21
    fns := [{ stackSize := num fRes.2.stack
              entry := (blocks (withReturns fn false [0] fRes.1)).headD ⟨0, []⟩
              rest := (blocks (withReturns fn false [0] fRes.1)).tail },
            { stackSize := num mainRes.2.stack
              entry := (blocks (withReturns mainFn false [10] mainRes.1)).headD ⟨0, []⟩
              rest := (blocks (withReturns mainFn false [10] mainRes.1)).tail }]
    mainBB := 10
    funcBB := fun g => if g = "f" then some 0 else if g = "main" then some 10 else if g = "__syscall" then some 21 else none }

theorem global_is {v : Nat} (h : vars.isGlobal v = true) : v = 0 := by simpa [vars] using h

theorem fnOk : FnOk vars fn [1] [0] 0 [1] use live where
  nodup := by decide
  numbered := by
    intro k b h
    rcases k with _ | _ | k <;> simp at h <;> subst h <;> rfl
  entryExit := by decide
  exit := ⟨rfl, rfl⟩
  prev := by
    intro b
    by_cases h0 : b = 0
    · subst h0; decide
    · simp only [List.mem_singleton, h0, false_iff]
      by_cases h1 : b = 1
      · subst h1; decide
      · simp [succs, fn, h0, h1]
  closed := by decide
  reached := by
    intro n hn hne
    simp only [List.mem_cons, List.not_mem_nil, or_false] at hn
    exact absurd hn hne
  block := by
    intro pre b post h hb
    rcases pre with _ | ⟨p0, _ | ⟨p1, pre⟩⟩
    · simp only [List.nil_append, List.cons.injEq] at h
      obtain ⟨rfl, rfl⟩ := h
      refine ⟨body, [], [{ op := .ret, rs1 := some 5 }], rfl, .ret rfl rfl rfl ?_,
        .one rfl (.call (ps := [{ op := .push, rs1 := some 2, sz := 2 }, { op := .push, rs1 := some 1, sz := 1 }])
          ⟨?_, ?_, by decide, rfl, ⟨0, rfl, by simp⟩, rfl, by simp⟩
          (.one rfl (.one rfl (.callRet (ps := [{ op := .push, rs1 := some 4, sz := 1 }]) ⟨?_, ?_, by decide, rfl, ⟨1, rfl, by simp⟩, rfl, by simp⟩ rfl .nil)))),
        ?_, ?_, trivial, ?_⟩
      · exact ⟨Or.inr ⟨{ op := .func_ret, rd := some 5 }, by simp [body], rfl⟩, by simp, Or.inr (by decide)⟩
      · simp
      · intro k hk
        rcases k with _ | _ | k
        · rfl
        · rfl
        · simp at hk; omega
      · simp
      · intro k hk
        have : k = 0 := by simpa using hk
        subst this; rfl
      · refine ⟨⟨?_, ?_, ?_, ?_, ?_, ?_⟩, ⟨?_, ?_, ?_, ?_, ?_, ?_⟩, ⟨?_, ?_, ?_, ?_, ?_, ?_⟩, ⟨?_, ?_, ?_, ?_, ?_, ?_⟩,
          ⟨?_, ?_, ?_, ?_, ?_, ?_⟩, ⟨?_, ?_, ?_, ?_, ?_, ?_⟩, ⟨?_, ?_, ?_, ?_, ?_, ?_⟩, ⟨?_, ?_, ?_, ?_, ?_, ?_⟩, ⟨?_, ?_, ?_, ?_, ?_, ?_⟩, trivial⟩
        all_goals intros
        all_goals simp_all [fn, b0, result, live]
        all_goals first
          | (subst_vars; simp_all [use, vars]; done)
          | (rename_i h; rcases h with rfl | rfl <;> simp [use, vars])
      · refine ⟨⟨⟨[1], by decide, ?_⟩, ?_, ?_, ?_, ?_, ?_⟩, ⟨⟨[1, 2], by decide, ?_⟩, ?_, ?_, ?_, ?_, ?_⟩,
          ⟨⟨[1, 2], by decide, ?_⟩, ?_, ?_, ?_, ?_, ?_⟩, ⟨⟨[1, 2], by decide, ?_⟩, ?_, ?_, ?_, ?_, ?_⟩,
          ⟨⟨[1, 2], by decide, ?_⟩, ?_, ?_, ?_, ?_, ?_⟩, ⟨⟨[1, 2, 3], by decide, ?_⟩, ?_, ?_, ?_, ?_, ?_⟩,
          ⟨⟨[1, 2, 3, 4], by decide, ?_⟩, ?_, ?_, ?_, ?_, ?_⟩, ⟨⟨[1, 2, 3, 4], by decide, ?_⟩, ?_, ?_, ?_, ?_, ?_⟩,
          ⟨⟨[1, 2, 3, 4], by decide, ?_⟩, ?_, ?_, ?_, ?_, ?_⟩, trivial⟩
        all_goals intros
        all_goals simp_all [mentions, fn, b0]
        all_goals first
          | omega
          | decide
          | (intro v h hne
             rcases h with (((rfl | rfl) | rfl) | rfl) | rfl | rfl | rfl <;> first | exact absurd rfl hne | decide)
      · rintro v ⟨_, n, hn, hne, _⟩
        simp [succs, fn, b0] at hn
        exact absurd hn hne
    · simp only [List.cons_append, List.nil_append, List.cons.injEq] at h
      obtain ⟨rfl, rfl, rfl⟩ := h
      exact absurd rfl hb
    · simp only [List.cons_append, List.nil_append, List.cons.injEq] at h
      obtain ⟨rfl, rfl, h⟩ := h
      simp at h
  param := by
    refine ⟨by decide, by decide, ?_⟩
    intro p hp
    obtain rfl := List.mem_singleton.1 hp
    exact ⟨rfl, by decide⟩
  start := by intro v; exact Iff.rfl

theorem mainOk : FnOk vars mainFn [] [10] 10 [11] mainUse (fun _ _ => False) where
  nodup := by decide
  numbered := by
    intro k b h
    rcases k with _ | _ | k <;> simp at h <;> subst h <;> rfl
  entryExit := by decide
  exit := ⟨rfl, rfl⟩
  prev := by
    intro b
    by_cases h10 : b = 10
    · subst h10; decide
    · simp only [List.mem_singleton, h10, false_iff]
      by_cases h11 : b = 11
      · subst h11; decide
      · simp [succs, mainFn, h10, h11]
  closed := by decide
  reached := by
    intro n hn hne
    simp only [List.mem_cons, List.not_mem_nil, or_false] at hn
    exact absurd hn hne
  block := by
    intro pre b post h hb
    rcases pre with _ | ⟨p0, _ | ⟨p1, pre⟩⟩
    · simp only [List.nil_append, List.cons.injEq] at h
      obtain ⟨rfl, rfl⟩ := h
      refine ⟨[{ op := .push, rs1 := some 0, sz := 1 }, { op := .call, str := "f" }, { op := .func_ret, rd := some 7 }], [],
        [{ op := .ret, rs1 := some 7 }], rfl, .ret rfl rfl rfl ?_,
        .callRet (ps := [{ op := .push, rs1 := some 0, sz := 1 }]) ⟨?_, ?_, by decide, rfl, ⟨1, rfl, by simp⟩, rfl, by simp⟩ rfl .nil,
        ?_, ?_, trivial, ?_⟩
      · exact ⟨Or.inr ⟨_, List.mem_cons_of_mem _ (List.mem_cons_of_mem _ (List.mem_cons_self ..)), rfl⟩, by simp, Or.inr (by decide)⟩
      · simp
      · intro k hk
        have : k = 0 := by simpa using hk
        subst this; rfl
      · refine ⟨⟨?_, ?_, ?_, ?_, ?_, ?_⟩, ⟨?_, ?_, ?_, ?_, ?_, ?_⟩, ⟨?_, ?_, ?_, ?_, ?_, ?_⟩, trivial⟩
        all_goals intros
        all_goals simp_all [mainFn, b10, result]
        all_goals (subst_vars; simp_all [mainUse, vars]; done)
      · refine ⟨⟨⟨[], by decide, ?_⟩, ?_, ?_, ?_, ?_, ?_⟩, ⟨⟨[0], by decide, ?_⟩, ?_, ?_, ?_, ?_, ?_⟩,
          ⟨⟨[0], by decide, ?_⟩, ?_, ?_, ?_, ?_, ?_⟩, trivial⟩
        all_goals intros
        all_goals simp_all [mentions, mainFn, b10]
      · rintro v ⟨_, n, hn, hne, _⟩
        simp [succs, mainFn, b10] at hn
        exact absurd hn hne
    · simp only [List.cons_append, List.nil_append, List.cons.injEq] at h
      obtain ⟨rfl, rfl, rfl⟩ := h
      exact absurd rfl hb
    · simp only [List.cons_append, List.nil_append, List.cons.injEq] at h
      obtain ⟨rfl, rfl, h⟩ := h
      simp at h
  param := ⟨by decide, by decide, by simp⟩
  start := by intro v; simp

theorem ofs0 {v : Nat} (h : vars.isGlobal v = false) : (if v = 0 then 4 else 0 : Nat) = 0 := by
  have : v ≠ 0 := fun e => by subst e; cases h
  simp [this]

set_option maxRecDepth 4000 in
theorem fAllocated : Allocated gRes.offset srcF [0] use live st0 fRes.2 fRes.1 where
  ok := fnOk
  stack4 := rfl
  consumed := rfl
  locals v hv := ofs0 hv
  globals v hv := by rw [global_is hv, gFrame.2]; decide
  alloc := fAlloc
  size := fFrame
  ofs := rfl

theorem mainAllocated : Allocated gRes.offset srcMain [10] mainUse (fun _ _ => False) mst0 mainRes.2 mainRes.1 where
  ok := mainOk
  stack4 := rfl
  consumed := rfl
  locals v hv := ofs0 hv
  globals v hv := by rw [global_is hv, gFrame.2]; decide
  alloc := mainAlloc
  size := mainFrame
  ofs := rfl

/-- The number of arguments of each function. -/
def nargs (g : String) : Nat :=
  if g = "__syscall" then 7 else (if g = "f" then some srcF else if g = "main" then some srcMain else none).elim 0 (·.params.length)

theorem arity_src (da : Word) (bv : BitVec 8 → Word) (os : Os) : arity (src da bv os) = nargs := rfl

theorem peepOk : ∀ c ∈ prog.fns, ∀ b ∈ c.blocks, PeepOk nargs b.insns := by decide +kernel

theorem whole (da : Word) (bv : BitVec 8 → Word) (os : Os) : Whole prog vars (fun _ => .word) ds gRes sp0 (src da bv os) where
  proper := by
    refine ⟨by decide, by decide, ?_, ?_, by decide⟩
    · intro d hd t ht
      obtain rfl := List.mem_singleton.1 hd
      cases ht; rfl
    · intro d hd n h; cases h
  alloc := gAlloc
  code := rfl
  size := rfl
  main := rfl
  room := by rw [gFrame.1]; decide
  aligned := by decide
  globals v hv := ⟨_, List.mem_singleton.2 rfl, (global_is hv).symm⟩
  gaddr v hv := by rw [global_is hv, gFrame.1, gFrame.2]; rfl
  built :=
    { sys := rfl
      fn := by
        intro g f hf _
        simp only [src] at hf
        split at hf
        · rename_i h
          cases hf; subst h
          exact ⟨rfl, rfl, [0], use, live, st0, fRes.2, fRes.1, fAllocated, _, List.mem_cons_self .., by rw [show num srcF.size = num fRes.2.stack by rw [fFrame]; rfl], rfl⟩
        · split at hf
          · rename_i h
            cases hf; subst h
            exact ⟨rfl, rfl, [10], mainUse, _, mst0, mainRes.2, mainRes.1, mainAllocated, _,
              List.mem_cons_of_mem _ (List.mem_cons_self ..), by rw [show num srcMain.size = num mainRes.2.stack by rw [mainFrame]; rfl], rfl⟩
          · cases hf
      peep := by rw [arity_src]; exact peepOk }


/-- The number and the argument of the `k`-th system call. -/
def kth (k : Nat) (_ : Word → Prop) (args : List Word) (_ : Mem) : Prop := args = [1#32, 7#32 + BitVec.ofNat 32 k]

/-- The operating system answers call 1 with 0 and leaves memory alone. -/
def Answers (os : Os) : Prop := ∀ pad μ, os 1#32 pad μ 0#32 μ

theorem sysCall {da : Word} {bv : BitVec 8 → Word} {os : Os} (h : Answers os) (n : Nat) (hid : Word → Prop) (sp x : Word) (m : Mem) :
    Call (src da bv os) (n + 1) hid sp "__syscall" [1#32, x] m m (some 0#32) := by
  refine ⟨fun _ _ => rfl, ?_⟩
  rw [if_pos rfl]
  exact ⟨1#32, [x], rfl, by simp, fun μ pad hμ _ => ⟨0#32, μ, h pad μ, rfl, hμ, fun _ _ => rfl⟩⟩

theorem inside_f {sp : Word} (h : 20 ≤ sp.toNat) : (inside srcF sp).toNat = sp.toNat - 20 := by
  show (sp - 20#32).toNat = _
  rw [BitVec.toNat_sub]
  simp only [BitVec.toNat_ofNat]
  have := sp.isLt
  omega

theorem reachesF {da : Word} {bv : BitVec 8 → Word} {os : Os} (hos : Answers os) (k : Nat) : ∀ (j : Nat) (hid : Word → Prop) (sp : Word) (m : Mem),
    j ≤ k → 0x1000 + 28 + 20 * j ≤ sp.toNat →
    Reaches (src da bv os) (kth k) (j + 2) hid sp "f" [7#32 + BitVec.ofNat 32 (k - j)] m := by
  intro j
  induction j with
  | zero =>
    intro hid sp m hk hr
    unfold Reaches
    rw [if_neg (by decide)]
    refine ⟨srcF, rfl, rfl, by show 0x1000 + 16 + 12 ≤ _; omega, fun μ _ => ⟨{ mem := μ, val := fun _ => 7#32 + BitVec.ofNat 32 (k - 0) }, rfl, rfl, rfl, ?_⟩⟩
    refine .call (b := 0) (xs := body.take 3) (c := { op := .call, str := "__syscall" }) (ys := body.drop 4 ++ [{ op := .ret, rs1 := some 5 }]) rfl rfl
      (.cons (.const rfl rfl) (.cons (.push rfl rfl) (.cons (.push rfl rfl) (.nil _)))) ?_
    unfold Reaches
    rw [if_pos rfl]
    exact ⟨Nat.le_of_ble_eq_true rfl, Nat.le_of_ble_eq_true rfl, rfl⟩
  | succ j ih =>
    intro hid sp m hk hr
    unfold Reaches
    rw [if_neg (by decide)]
    refine ⟨srcF, rfl, rfl, by show 0x1000 + 16 + 12 ≤ _; omega, fun μ _ => ⟨{ mem := μ, val := fun _ => 7#32 + BitVec.ofNat 32 (k - (j + 1)) }, rfl, rfl, rfl, ?_⟩⟩
    have := ih (hiddenIn srcF (inside srcF sp) hid) (inside srcF sp) μ (by omega) (by rw [inside_f (by omega)]; omega)
    have e : 7#32 + BitVec.ofNat 32 (k - j) = 7#32 + BitVec.ofNat 32 (k - (j + 1)) + 1#32 := by
      have h1 : k - j = k - (j + 1) + 1 := by omega
      rw [h1, BitVec.add_assoc, BitVec.ofNat_add (k - (j + 1)) 1]
    rw [e] at this
    exact .call (b := 0) (xs := body.take 7) (c := { op := .call, str := "f" }) (ys := [{ op := .func_ret, rd := some 5 }, { op := .ret, rs1 := some 5 }]) rfl rfl
      (.cons (.const rfl rfl) (.cons (.push rfl rfl) (.cons (.push rfl rfl) (.cons (.call rfl (sysCall hos (j + 1) _ _ _ _))
        (.cons (.const rfl rfl) (.cons (.bin (op := .add) rfl rfl rfl rfl rfl rfl) (.cons (.push rfl rfl) (.nil _)))))))) this

set_option maxRecDepth 4000 in
/-- The program makes the `k`-th system call, for every `k` the stack has room for, whatever memory it is started in. -/
theorem makes (da : Word) (bv : BitVec 8 → Word) {os : Os} (hos : Answers os) (k : Nat) (hk : k ≤ 50000) (m : Mem) :
    Makes vars (fun _ => .word) ds gRes sp0 (src da bv os) (kth k) m := by
  have hg : sp0 - num gRes.stack + num (gRes.offset 0) = 0xffffc#32 := by rw [gFrame.1, gFrame.2]; rfl
  have hl : load32 (store32 m 0xffffc#32 7#32) 0xffffc#32 = 7#32 := load32_same _ _ _
  refine ⟨store32 m 0xffffc#32 7#32, k + 3, srcMain, ⟨?_, ?_⟩, rfl, ?_⟩
  · intro d hd x hx
    obtain rfl := List.mem_singleton.1 hd
    cases hx
    rw [hg]
    exact hl
  · intro b hb
    have := hb _ (List.mem_singleton.2 rfl) (by simp [initial])
    rw [hg] at this
    exact store32_ne _ _ (fun k hk => this k hk)
  · unfold Reaches
    rw [if_neg (by decide)]
    refine ⟨srcMain, rfl, rfl, by rw [gFrame.1]; show 0x1000 + 4 + 12 ≤ (sp0 - 8#32).toNat; decide, fun μ hμ => ⟨{ mem := μ, val := fun _ => 0 }, rfl, rfl, rfl, ?_⟩⟩
    have hv : rd (ctx (src da bv os) srcMain (inside srcMain (sp0 - num gRes.stack)) (hiddenIn srcMain (inside srcMain (sp0 - num gRes.stack)) (stackBelow (src da bv os) (sp0 - num gRes.stack)))
       (Call (src da bv os) (k + 2) (hiddenIn srcMain (inside srcMain (sp0 - num gRes.stack)) (stackBelow (src da bv os) (sp0 - num gRes.stack))) (inside srcMain (sp0 - num gRes.stack))))
       { mem := μ, val := fun _ => 0 } 0 = 7#32 := by
      show load32 μ 0xffffc#32 = _
      rw [← hl]
      apply load32_congr
      intro k hk
      refine hμ _ ?_
      intro h
      have h := h.2
      have e : (sp0 - num gRes.stack).toNat = 0xffff8 := by rw [gFrame.1]; rfl
      rw [e] at h
      rcases (by omega : k = 0 ∨ k = 1 ∨ k = 2 ∨ k = 3) with rfl | rfl | rfl | rfl <;> revert h <;> decide
    refine .call (b := 10) (xs := [{ op := .push, rs1 := some 0, sz := 1 }]) (c := { op := .call, str := "f" })
      (ys := [{ op := .func_ret, rd := some 7 }, { op := .ret, rs1 := some 7 }]) rfl rfl (.cons (.push rfl rfl) (.nil _)) ?_
    have e : (inside srcMain (sp0 - num gRes.stack)).toNat = 0xffff0 := by rw [gFrame.1]; decide
    have := reachesF (da := da) (bv := bv) hos k k (hiddenIn srcMain (inside srcMain (sp0 - num gRes.stack)) (stackBelow (src da bv os) (sp0 - num gRes.stack)))
      (inside srcMain (sp0 - num gRes.stack)) μ (Nat.le_refl k) (by rw [e]; omega)
    rw [Nat.sub_self, show 7#32 + BitVec.ofNat 32 0 = 7#32 from by decide] at this
    show Reaches _ _ _ _ _ _ ([] ++ [rd _ _ 0]) _
    rw [hv]
    exact this

theorem distinct : prog.DistinctBlocks := by unfold Prog.DistinctBlocks; decide +kernel

/-- The hypotheses of `C92_rv_partial` hold: the compiled program, which never ends, makes its system calls. -/
example : ∃ F img, compile Riscv.target false (Peep.prog prog) = some (F, img) ∧ ∀ (c : RV32.Code), RV32.CodeAt c codeBase img →
    ∀ (os : Os), Answers os → ∀ (t : RV32.State), t.pc = codeBase → t.get 2#5 = sp0 → ∀ k, k ≤ 50000 →
    ∃ u, RV32.SysReaches c os t u ∧ RV32.step c u = .ecall u ∧ u.get 17#5 = 1#32 ∧ u.get 10#5 = 7#32 + BitVec.ofNat 32 k := by
  have hc : (compile Riscv.target false (Peep.prog prog)).isSome = true := by decide +kernel
  obtain ⟨⟨F, img⟩, hc⟩ := Option.isSome_iff_exists.1 hc
  refine ⟨F, img, hc, fun c hci os hos t hpc hsp k hk => ?_⟩
  have hx := makes (codeBase + BitVec.ofNat 32 (4 * img.length)) (fun b => b.signExtend 32) hos k hk t.mem
  rw [← hsp] at hx
  have W := whole (codeBase + BitVec.ofNat 32 (4 * img.length)) (fun b => b.signExtend 32) os
  rw [← hsp] at W
  obtain ⟨u, hid, args, mem, h1, h2, rfl, _, _, h4, h5, _⟩ := C92_rv_partial false prog F img hc distinct c hci t hpc _ _ _ _ _ W rfl rfl (kth k) hx
  exact ⟨u, h1, h2, h4, h5 0 (by simp)⟩

theorem armOk : (Peep.prog prog).ArmOk := by
  refine ⟨by decide +kernel, ?_⟩
  have : ∀ f ∈ (Peep.prog prog).fns, armBlocks f.blocks = true := by decide +kernel
  intro f hf
  exact armBlocks_ok (this f hf)

/-- The hypotheses of `C92_arm_partial` hold. -/
example : ∃ F img, compile Arm.target false (Peep.prog prog) = some (F, img) ∧ ∀ (c : ARM.Code), ARM.CodeAt c codeBase img →
    ∀ (os : Os), Answers os → ∀ (t : ARM.State), t.pc = codeBase → t.get 13#4 = sp0 → ∀ k, k ≤ 50000 →
    ∃ u, ARM.SysReaches c os t u ∧ ARM.step c u = .svc u ∧ u.get 7#4 = 1#32 ∧ u.get 0#4 = 7#32 + BitVec.ofNat 32 k := by
  have hc : (compile Arm.target false (Peep.prog prog)).isSome = true := by decide +kernel
  obtain ⟨⟨F, img⟩, hc⟩ := Option.isSome_iff_exists.1 hc
  refine ⟨F, img, hc, fun c hci os hos t hpc hsp k hk => ?_⟩
  have hx := makes (codeBase + BitVec.ofNat 32 (4 * img.length)) (fun b => b.setWidth 32) hos k hk t.mem
  rw [← hsp] at hx
  have W := whole (codeBase + BitVec.ofNat 32 (4 * img.length)) (fun b => b.setWidth 32) os
  rw [← hsp] at W
  obtain ⟨u, hid, args, mem, h1, h2, rfl, _, _, h4, h5, _⟩ := C92_arm_partial false prog F img hc distinct armOk c hci t hpc _ _ _ _ _ W rfl rfl (kth k) hx
  exact ⟨u, h1, h2, h4, h5 0 (by simp)⟩

end Shecc.Props.SsaReachExample
