import Verif.Props.SsaImage

/-!
# C83, C85: a program that meets the hypotheses

`int g = 100; int f(int n) { if (n) return n + f(n - 1); return 0; } int main() { return f(g); }`
-/

namespace Shecc.Props.SsaImageExample
open Shecc Shecc.Ssa Shecc.RegAlloc Shecc.GlobalInit IrM SrcBlock RaLink RaFn SsaProg CGlobals

/-- Variable 0 is `g`, 1 is `n`, 2 the constant 1 (in `f`), 9 the initialiser of `g`. -/
def vars : Vars :=
  { isGlobal := fun v => v == 0
    initVal := fun v => if v = 2 then 1#32 else if v = 9 then 100#32 else 0#32
    numParams := fun g => if g = "f" then some 1 else none }

def b0 : RegAlloc.Block := { liveOut := [1], killed := [1], then_ := 1, else_ := 2 }
def b1 : RegAlloc.Block := { killed := [2, 3, 4, 5], next := some 3 }
def b2 : RegAlloc.Block := { killed := [6], next := some 3 }
def b3 : RegAlloc.Block := {}

/-- The function `f`. -/
def fn : RegAlloc.Fn :=
  { block := fun b => [b0, b1, b2].getD b b3
    insns := fun b =>
      [[{ op := .branch, rs1 := some 1 }],
       [{ op := .load_constant, rd := some 2 }, { op := .alu .sub, rd := some 3, rs1 := some 1, rs2 := some 2 },
        { op := .push, rs1 := some 3, sz := 1 }, { op := .call, str := "f" }, { op := .func_ret, rd := some 4 },
        { op := .alu .add, rd := some 5, rs1 := some 1, rs2 := some 4 }, { op := .ret, rs1 := some 5 }],
       [{ op := .load_constant, rd := some 6 }, { op := .ret, rs1 := some 6 }]].getD b []
    rpo := fun b => b
    fnExit := 3 }

def use (v : Nat) : Int := [-1, 5, 1, 2, 5, 6, 1].getD v (-1)

/-- The variables with a value at the start of a block. -/
def live (b v : Nat) : Prop := v ∈ [[1], [1]].getD b []

def b10 : RegAlloc.Block := { killed := [7], next := some 11 }

/-- The function `main`. -/
def mainFn : RegAlloc.Fn :=
  { block := fun b => if b = 10 then b10 else {}
    insns := fun b => if b = 10 then
      [{ op := .push, rs1 := some 0, sz := 1 }, { op := .call, str := "f" }, { op := .func_ret, rd := some 7 },
       { op := .ret, rs1 := some 7 }] else []
    rpo := fun b => b
    fnExit := 11 }

def mainUse (v : Nat) : Int := [0, -1, -1, -1, -1, -1, -1, 3].getD v (-1)

def st0 : RA := { offset := fun v => if v = 0 then 4 else 0, consumed := use }
def mst0 : RA := { offset := fun v => if v = 0 then 4 else 0, consumed := mainUse }

def ds : List Decl := [{ var := 0, tmp := some 9 }]


/-- What the allocator makes of the functions and of the declaration. -/
def fRes : List (Nat × List Ph2Ir) × RA := (allocBlocks vars fn [] [0, 1, 2, 3] (fnStart [1] false st0)).getD ([], st0)
def mainRes : List (Nat × List Ph2Ir) × RA := (allocBlocks vars mainFn [] [10, 11] (fnStart [] false mst0)).getD ([], st0)
def gRes : RA := (allocGlobals vars (fun _ => .word) ds).getD st0

theorem fAlloc : allocBlocks vars fn [] [0, 1, 2, 3] (fnStart [1] false st0) = some (fRes.1, fRes.2) := rfl
theorem mainAlloc : allocBlocks vars mainFn [] [10, 11] (fnStart [] false mst0) = some (mainRes.1, mainRes.2) := rfl
theorem gAlloc : allocGlobals vars (fun _ => .word) ds = some gRes := rfl

/-- `f` keeps `n` at offset 4 of a frame of 12 bytes. -/
theorem fFrame : fRes.2.stack = 12 ∧ fRes.2.offset 1 = 4 := by decide +kernel
theorem mainFrame : mainRes.2.stack = 4 := by decide +kernel
theorem gFrame : gRes.stack = 8 ∧ gRes.offset 0 = 4 := by decide +kernel

def srcF : SrcFn :=
  { F := fn
    vars := vars
    params := [1]
    entry := 0
    rest := [1, 2, 3]
    void := false
    size := 12
    ofs := fRes.2.offset }

def srcMain : SrcFn :=
  { F := mainFn
    vars := vars
    params := []
    entry := 10
    rest := [11]
    void := false
    size := 4
    ofs := mainRes.2.offset }

def sp0 : Word := 0x100000#32

/-- The program. -/
def src (da : Word) (bv : BitVec 8 → Word) (os : Os) : SrcProg :=
  { fn := fun g => if g = "f" then some srcF else if g = "main" then some srcMain else none
    isGlobal := vars.isGlobal
    gaddr := fun _ => 0xffffc#32
    dataAddr := da
    byteVal := bv
    os := os
    lo := 0x1000 }

def blocks (l : List (Nat × List Ph2Ir)) : List Shecc.Block := l.map fun p => ⟨p.1, p.2⟩

/-- What code generation is given. -/
def prog : Prog :=
  { globalBB := 20
    globalInsns := gRes.out
    globalStack := num gRes.stack
    syscallBB := 21
    fns := [{ stackSize := num fRes.2.stack
              entry := (blocks (withReturns fn false [1, 2] fRes.1)).headD ⟨0, []⟩
              rest := (blocks (withReturns fn false [1, 2] fRes.1)).tail },
            { stackSize := num mainRes.2.stack
              entry := (blocks (withReturns mainFn false [10] mainRes.1)).headD ⟨0, []⟩
              rest := (blocks (withReturns mainFn false [10] mainRes.1)).tail }]
    mainBB := 10
    funcBB := fun g => if g = "f" then some 0 else if g = "main" then some 10 else if g = "__syscall" then some 21 else none }

theorem global_is {v : Nat} (h : vars.isGlobal v = true) : v = 0 := by simpa [vars] using h

theorem fnOk : FnOk vars fn [1] [1, 2] 0 [1, 2, 3] use live where
  nodup := by decide
  numbered := by
    intro k b h
    rcases k with _ | _ | _ | _ | k <;> simp at h <;> subst h <;> rfl
  entryExit := by decide
  exit := ⟨rfl, rfl⟩
  prev := by
    intro b
    by_cases h4 : b = 3
    · subst h4; simp [succs, fn]
    · rcases b with _ | _ | _ | b
      · decide
      · decide
      · decide
      · have e : fn.block (b + 1 + 1 + 1) = b3 := rfl
        have h4' : b + 1 + 1 + 1 ≠ fn.fnExit := h4
        rw [succs, if_neg h4', e]
        simp [b3, fn]
  closed := by decide
  reached := by
    intro n hn _
    simp only [List.mem_cons, List.not_mem_nil, or_false] at hn
    rcases hn with rfl | rfl | rfl
    · exact ⟨0, by decide, [], _, rfl, by simp⟩
    · exact ⟨0, by decide, [], _, rfl, by simp⟩
    · exact ⟨1, by decide, [0], _, rfl, by simp⟩
  block := by
    intro pre b post h hb
    rcases pre with _ | ⟨p0, _ | ⟨p1, _ | ⟨p2, _ | ⟨p3, pre⟩⟩⟩⟩
    · simp only [List.nil_append, List.cons.injEq] at h
      obtain ⟨rfl, rfl⟩ := h
      refine ⟨[], [], [{ op := .branch, rs1 := some 1 }], rfl, .branch rfl rfl rfl ?_, .nil, trivial, trivial, trivial, ?_⟩
      · exact ⟨Or.inl (Or.inr (by simp [live])), by simp, Or.inl (by decide)⟩
      · rintro v ⟨_, n, hn, _, hv⟩
        have h : v ∈ [1] := by
          simp [succs, fn, b0] at hn
          rcases hn with rfl | rfl
          · exact hv
          · simp [live] at hv
        exact ⟨h, Or.inl (Or.inl h)⟩
    · simp only [List.cons_append, List.nil_append, List.cons.injEq] at h
      obtain ⟨rfl, rfl, rfl⟩ := h
      refine ⟨[{ op := .load_constant, rd := some 2 }, { op := .alu .sub, rd := some 3, rs1 := some 1, rs2 := some 2 },
        { op := .push, rs1 := some 3, sz := 1 }, { op := .call, str := "f" }, { op := .func_ret, rd := some 4 },
        { op := .alu .add, rd := some 5, rs1 := some 1, rs2 := some 4 }], [], [{ op := .ret, rs1 := some 5 }], rfl,
        .ret rfl rfl rfl ?_, .one rfl (.one rfl (.callRet (ps := [{ op := .push, rs1 := some 3, sz := 1 }]) ⟨?_, ?_, by decide, rfl, ⟨1, rfl, by simp⟩, rfl, by simp⟩ rfl (.one rfl .nil))),
        ?_, ?_, trivial, ?_⟩
      · exact ⟨Or.inr ⟨_, List.mem_cons_of_mem _ (List.mem_cons_of_mem _ (List.mem_cons_of_mem _ (List.mem_cons_of_mem _ (List.mem_cons_of_mem _ (List.mem_cons_self ..))))), rfl⟩, by simp, Or.inr (by decide)⟩
      · simp
      · intro k hk
        have : k = 0 := by simpa using hk
        subst this; rfl
      · refine ⟨⟨?_, ?_, ?_, ?_, ?_, ?_⟩, ⟨?_, ?_, ?_, ?_, ?_, ?_⟩, ⟨?_, ?_, ?_, ?_, ?_, ?_⟩, ⟨?_, ?_, ?_, ?_, ?_, ?_⟩,
          ⟨?_, ?_, ?_, ?_, ?_, ?_⟩, ⟨?_, ?_, ?_, ?_, ?_, ?_⟩, trivial⟩
        all_goals intros
        all_goals simp_all [fn, b1, result, live]
        all_goals first
          | (subst_vars; simp_all [use, vars]; done)
          | (rename_i h; rcases h with rfl | rfl <;> simp [use, vars])
      · refine ⟨⟨⟨[], by decide, ?_⟩, ?_, ?_, ?_, ?_, ?_⟩, ⟨⟨[2], by decide, ?_⟩, ?_, ?_, ?_, ?_, ?_⟩,
          ⟨⟨[1, 2, 3], by decide, ?_⟩, ?_, ?_, ?_, ?_, ?_⟩, ⟨⟨[1, 2, 3], by decide, ?_⟩, ?_, ?_, ?_, ?_, ?_⟩,
          ⟨⟨[1, 2, 3], by decide, ?_⟩, ?_, ?_, ?_, ?_, ?_⟩, ⟨⟨[1, 2, 3, 4], by decide, ?_⟩, ?_, ?_, ?_, ?_, ?_⟩, trivial⟩
        all_goals intros
        all_goals simp_all [mentions, fn, b1]
        all_goals first
          | omega
          | (intro v h hne
             rcases h with rfl | rfl | rfl | rfl
             · decide
             · exact absurd rfl hne
             · decide
             · decide)
      · rintro v ⟨_, n, hn, hne, _⟩
        simp [succs, fn, b1] at hn
        exact absurd hn hne
    · simp only [List.cons_append, List.nil_append, List.cons.injEq] at h
      obtain ⟨rfl, rfl, rfl, rfl⟩ := h
      refine ⟨[{ op := .load_constant, rd := some 6 }], [], [{ op := .ret, rs1 := some 6 }], rfl,
        .ret rfl rfl rfl ?_, .one rfl .nil, ?_, ?_, trivial, ?_⟩
      · exact ⟨Or.inr ⟨_, List.mem_cons_self .., rfl⟩, by simp, Or.inr (by decide)⟩
      · refine ⟨⟨?_, ?_, ?_, ?_, ?_, ?_⟩, trivial⟩
        all_goals intros
        all_goals simp_all [fn, b2, result, live]
        all_goals (subst_vars; simp_all [use, vars]; done)
      · refine ⟨⟨⟨[], by decide, ?_⟩, ?_, ?_, ?_, ?_, ?_⟩, trivial⟩
        all_goals intros
        all_goals simp_all
      · rintro v ⟨_, n, hn, hne, _⟩
        simp [succs, fn, b2] at hn
        exact absurd hn hne
    · simp only [List.cons_append, List.nil_append, List.cons.injEq] at h
      obtain ⟨rfl, rfl, rfl, rfl, rfl⟩ := h
      exact absurd rfl hb
    · simp only [List.cons_append, List.nil_append, List.cons.injEq] at h
      obtain ⟨rfl, rfl, rfl, rfl, h⟩ := h
      simp at h
  param := by
    refine ⟨by decide, by decide, ?_⟩
    intro p hp
    obtain rfl := List.mem_singleton.1 hp
    exact ⟨rfl, by decide⟩
  start := by intro v; exact Iff.rfl

theorem mainOk : FnOk vars mainFn [] [10] 10 [11] mainUse (fun _ _ => False) where
  nodup := by decide
  numbered := by
    intro k b h
    rcases k with _ | _ | k <;> simp at h <;> subst h <;> rfl
  entryExit := by decide
  exit := ⟨rfl, rfl⟩
  prev := by
    intro b
    by_cases h10 : b = 10
    · subst h10; decide
    · simp only [List.mem_singleton, h10, false_iff]
      by_cases h11 : b = 11
      · subst h11; decide
      · simp [succs, mainFn, h10, h11]
  closed := by decide
  reached := by
    intro n hn hne
    simp only [List.mem_cons, List.not_mem_nil, or_false] at hn
    exact absurd hn hne
  block := by
    intro pre b post h hb
    rcases pre with _ | ⟨p0, _ | ⟨p1, pre⟩⟩
    · simp only [List.nil_append, List.cons.injEq] at h
      obtain ⟨rfl, rfl⟩ := h
      refine ⟨[{ op := .push, rs1 := some 0, sz := 1 }, { op := .call, str := "f" }, { op := .func_ret, rd := some 7 }], [],
        [{ op := .ret, rs1 := some 7 }], rfl, .ret rfl rfl rfl ?_,
        .callRet (ps := [{ op := .push, rs1 := some 0, sz := 1 }]) ⟨?_, ?_, by decide, rfl, ⟨1, rfl, by simp⟩, rfl, by simp⟩ rfl .nil,
        ?_, ?_, trivial, ?_⟩
      · exact ⟨Or.inr ⟨_, List.mem_cons_of_mem _ (List.mem_cons_of_mem _ (List.mem_cons_self ..)), rfl⟩, by simp, Or.inr (by decide)⟩
      · simp
      · intro k hk
        have : k = 0 := by simpa using hk
        subst this; rfl
      · refine ⟨⟨?_, ?_, ?_, ?_, ?_, ?_⟩, ⟨?_, ?_, ?_, ?_, ?_, ?_⟩, ⟨?_, ?_, ?_, ?_, ?_, ?_⟩, trivial⟩
        all_goals intros
        all_goals simp_all [mainFn, b10, result]
        all_goals (subst_vars; simp_all [mainUse, vars]; done)
      · refine ⟨⟨⟨[], by decide, ?_⟩, ?_, ?_, ?_, ?_, ?_⟩, ⟨⟨[0], by decide, ?_⟩, ?_, ?_, ?_, ?_, ?_⟩,
          ⟨⟨[0], by decide, ?_⟩, ?_, ?_, ?_, ?_, ?_⟩, trivial⟩
        all_goals intros
        all_goals simp_all [mentions, mainFn, b10]
      · rintro v ⟨_, n, hn, hne, _⟩
        simp [succs, mainFn, b10] at hn
        exact absurd hn hne
    · simp only [List.cons_append, List.nil_append, List.cons.injEq] at h
      obtain ⟨rfl, rfl, rfl⟩ := h
      exact absurd rfl hb
    · simp only [List.cons_append, List.nil_append, List.cons.injEq] at h
      obtain ⟨rfl, rfl, h⟩ := h
      simp at h
  param := ⟨by decide, by decide, by simp⟩
  start := by intro v; simp

theorem ofs0 {v : Nat} (h : vars.isGlobal v = false) : (if v = 0 then 4 else 0 : Nat) = 0 := by
  have : v ≠ 0 := fun e => by subst e; cases h
  simp [this]

set_option maxRecDepth 4000 in
theorem fAllocated : Allocated gRes.offset srcF [1, 2] use live st0 fRes.2 fRes.1 where
  ok := fnOk
  stack4 := rfl
  consumed := rfl
  locals v hv := ofs0 hv
  globals v hv := by rw [global_is hv, gFrame.2]; decide
  alloc := fAlloc
  size := fFrame.1
  ofs := rfl

theorem mainAllocated : Allocated gRes.offset srcMain [10] mainUse (fun _ _ => False) mst0 mainRes.2 mainRes.1 where
  ok := mainOk
  stack4 := rfl
  consumed := rfl
  locals v hv := ofs0 hv
  globals v hv := by rw [global_is hv, gFrame.2]; decide
  alloc := mainAlloc
  size := mainFrame
  ofs := rfl

/-- The number of arguments of each function. -/
def nargs (g : String) : Nat :=
  if g = "__syscall" then 7 else (if g = "f" then some srcF else if g = "main" then some srcMain else none).elim 0 (·.params.length)

theorem arity_src (da : Word) (bv : BitVec 8 → Word) (os : Os) : arity (src da bv os) = nargs := rfl

theorem peepOk : ∀ c ∈ prog.fns, ∀ b ∈ c.blocks, PeepOk nargs b.insns := by decide +kernel

theorem whole (da : Word) (bv : BitVec 8 → Word) (os : Os) : Whole prog vars (fun _ => .word) ds gRes sp0 (src da bv os) where
  proper := by
    refine ⟨by decide, by decide, ?_, ?_, by decide⟩
    · intro d hd t ht
      obtain rfl := List.mem_singleton.1 hd
      cases ht; rfl
    · intro d hd n h; cases h
  alloc := gAlloc
  code := rfl
  size := rfl
  main := rfl
  room := by rw [gFrame.1]; decide
  aligned := by decide
  globals v hv := ⟨_, List.mem_singleton.2 rfl, (global_is hv).symm⟩
  gaddr v hv := by rw [global_is hv, gFrame.1, gFrame.2]; rfl
  built :=
    { sys := rfl
      fn := by
        intro g f hf _
        simp only [src] at hf
        split at hf
        · rename_i h
          cases hf; subst h
          exact ⟨rfl, rfl, [1, 2], use, live, st0, fRes.2, fRes.1, fAllocated, _, List.mem_cons_self .., by rw [show num srcF.size = num fRes.2.stack by rw [fFrame.1]; rfl], rfl⟩
        · split at hf
          · rename_i h
            cases hf; subst h
            exact ⟨rfl, rfl, [10], mainUse, _, mst0, mainRes.2, mainRes.1, mainAllocated, _,
              List.mem_cons_of_mem _ (List.mem_cons_self ..), by rw [show num srcMain.size = num mainRes.2.stack by rw [mainFrame]; rfl], rfl⟩
          · cases hf
      peep := by rw [arity_src]; exact peepOk }

/-- The sum `n + (n - 1) + … + 1`. -/
def total : Nat → Word
  | 0 => 0
  | n + 1 => BitVec.ofNat 32 (n + 1) + total n

/-- `f` computes it, if the stack is deep enough. -/
theorem callF (da : Word) (bv : BitVec 8 → Word) (os : Os) : ∀ (n : Nat) (hid : Word → Prop) (sp : Word) (m : Mem),
    n < 2 ^ 32 → 0x1000 + 24 + 16 * n ≤ sp.toNat → Call (src da bv os) (n + 1) hid sp "f" [BitVec.ofNat 32 n] m m (some (total n)) := by
  intro n
  induction n with
  | zero =>
    intro hid sp m _ hr
    refine ⟨fun _ _ => rfl, ?_⟩
    rw [if_neg (by decide)]
    refine ⟨srcF, rfl, rfl, by show 0x1000 + 12 + 12 ≤ _; omega, fun μ hμ => ⟨{ mem := μ, val := fun _ => 0 }, μ, rfl, rfl, rfl, ?_, hμ⟩⟩
    refine .branch (b := 0) (is := []) (br := { op := .branch, rs1 := some 1 }) rfl rfl rfl (.nil _) rfl (by simp [rd, ctx, src, vars, srcF, fn, b0]) ?_
    rw [if_neg (by simp [rd, ctx, src, vars])]
    exact .ret (b := 2) (is := [{ op := .load_constant, rd := some 6 }]) (re := { op := .ret, rs1 := some 6 }) rfl rfl rfl
      (.cons (.const rfl rfl) (.nil _))
  | succ n ih =>
    intro hid sp m hn hr
    refine ⟨fun _ _ => rfl, ?_⟩
    rw [if_neg (by decide)]
    refine ⟨srcF, rfl, rfl, by show 0x1000 + 12 + 12 ≤ _; omega,
      fun μ hμ => ⟨{ mem := μ, val := fun _ => BitVec.ofNat 32 (n + 1) }, μ, rfl, rfl, rfl, ?_, hμ⟩⟩
    have hz : BitVec.ofNat 32 (n + 1) ≠ 0#32 := by
      intro e
      have := congrArg BitVec.toNat e
      simp only [BitVec.toNat_ofNat, Nat.mod_eq_of_lt hn] at this
      omega
    have hsub : BitVec.ofNat 32 (n + 1) - 1#32 = BitVec.ofNat 32 n := by
      apply BitVec.eq_of_toNat_eq
      simp only [BitVec.toNat_sub, BitVec.toNat_ofNat]
      omega
    have hsp : (inside srcF sp).toNat = sp.toNat - 16 := by
      show (sp - 16#32).toNat = _
      rw [BitVec.toNat_sub]
      simp only [BitVec.toNat_ofNat]
      have := sp.isLt
      omega
    refine .branch (b := 0) (is := []) (br := { op := .branch, rs1 := some 1 }) rfl rfl rfl (.nil _) rfl ?_ ?_
    · split <;> decide
    · rw [if_pos (by exact hz)]
      have := ih (hiddenIn srcF (inside srcF sp) hid) (inside srcF sp) μ (by omega) (by rw [hsp]; omega)
      rw [← hsub] at this
      exact .ret (b := 1) (is := [{ op := .load_constant, rd := some 2 }, { op := .alu .sub, rd := some 3, rs1 := some 1, rs2 := some 2 },
        { op := .push, rs1 := some 3, sz := 1 }, { op := .call, str := "f" }, { op := .func_ret, rd := some 4 },
        { op := .alu .add, rd := some 5, rs1 := some 1, rs2 := some 4 }]) (re := { op := .ret, rs1 := some 5 }) rfl rfl rfl
        (.cons (.const rfl rfl) (.cons (.bin (op := .sub) rfl rfl rfl rfl rfl rfl) (.cons (.push rfl rfl) (.cons (.call rfl this)
          (.cons (.funcRet rfl rfl rfl) (.cons (.bin (op := .add) rfl rfl rfl rfl rfl rfl) (.nil _)))))))

set_option maxRecDepth 4000 in
/-- The program exits with 5050, whatever memory it is started in. -/
theorem exits (da : Word) (bv : BitVec 8 → Word) (os : Os) (m : Mem) :
    ∃ m', Exits vars (fun _ => .word) ds gRes sp0 (src da bv os) m m' (some 5050#32) := by
  have hg : sp0 - num gRes.stack + num (gRes.offset 0) = 0xffffc#32 := by rw [gFrame.1, gFrame.2]; rfl
  have hl : load32 (store32 m 0xffffc#32 100#32) 0xffffc#32 = 100#32 := load32_same _ _ _
  refine ⟨store32 m 0xffffc#32 100#32, store32 m 0xffffc#32 100#32, 102, srcMain, ⟨?_, ?_⟩, rfl, fun _ _ => rfl, ?_⟩
  · intro d hd x hx
    obtain rfl := List.mem_singleton.1 hd
    cases hx
    rw [hg]
    exact hl
  · intro b hb
    have := hb _ (List.mem_singleton.2 rfl) (by simp [initial])
    rw [hg] at this
    exact store32_ne _ _ (fun k hk => this k hk)
  · rw [if_neg (by decide)]
    refine ⟨srcMain, rfl, rfl, by rw [gFrame.1]; show 0x1000 + 4 + 12 ≤ (sp0 - 8#32).toNat; decide, fun μ hμ => ⟨{ mem := μ, val := fun _ => 0 }, μ, rfl, rfl, rfl, ?_, hμ⟩⟩
    have hv : rd (ctx (src da bv os) srcMain (inside srcMain (sp0 - num gRes.stack)) (hiddenIn srcMain (inside srcMain (sp0 - num gRes.stack)) (stackBelow (src da bv os) (sp0 - num gRes.stack)))
       (Call (src da bv os) 101 (hiddenIn srcMain (inside srcMain (sp0 - num gRes.stack)) (stackBelow (src da bv os) (sp0 - num gRes.stack))) (inside srcMain (sp0 - num gRes.stack))))
       { mem := μ, val := fun _ => 0 } 0 = BitVec.ofNat 32 100 := by
      show load32 μ 0xffffc#32 = _
      rw [← hl]
      apply load32_congr
      intro k hk
      refine hμ _ ?_
      intro h
      have h := h.2
      have e : (sp0 - num gRes.stack).toNat = 0xffff8 := by rw [gFrame.1]; rfl
      rw [e] at h
      rcases (by omega : k = 0 ∨ k = 1 ∨ k = 2 ∨ k = 3) with rfl | rfl | rfl | rfl <;> revert h <;> decide
    refine .ret (b := 10) (is := [{ op := .push, rs1 := some 0, sz := 1 }, { op := .call, str := "f" }, { op := .func_ret, rd := some 7 }])
      (re := { op := .ret, rs1 := some 7 }) rfl rfl rfl
        (.cons (.push rfl rfl) (.cons (.call rfl ?_)
          (.cons (.funcRet rfl rfl rfl) (.nil _))))
    rw [hv]
    exact callF da bv os 100 _ _ μ (by decide) (by decide)

/-- The peephole pass removes the moves of a result to the register it is in. -/
example : (prog.fns.flatMap (·.blocks)).map (·.insns.length) ≠ ((Peep.prog prog).fns.flatMap (·.blocks)).map (·.insns.length) := by
  decide +kernel

theorem distinct : prog.DistinctBlocks := by unfold Prog.DistinctBlocks; decide +kernel

/-- The hypotheses of `C85_rv_partial` hold: the compiled program exits with 5050. -/
example : ∃ F img, compile Riscv.target false (Peep.prog prog) = some (F, img) ∧ ∀ (c : RV32.Code), RV32.CodeAt c codeBase img →
    ∀ (os : Os) (t : RV32.State), t.pc = codeBase → t.get 2#5 = sp0 →
    ∃ u, RV32.SysReaches c os t u ∧ RV32.step c u = .ecall u ∧ u.get 17#5 = 93#32 ∧ u.get 10#5 = 5050#32 := by
  have hc : (compile Riscv.target false (Peep.prog prog)).isSome = true := by decide +kernel
  obtain ⟨⟨F, img⟩, hc⟩ := Option.isSome_iff_exists.1 hc
  refine ⟨F, img, hc, fun c hci os t hpc hsp => ?_⟩
  obtain ⟨m', hx⟩ := exits (codeBase + BitVec.ofNat 32 (4 * img.length)) (fun b => b.signExtend 32) os t.mem
  rw [← hsp] at hx
  have W := whole (codeBase + BitVec.ofNat 32 (4 * img.length)) (fun b => b.signExtend 32) os
  rw [← hsp] at W
  obtain ⟨u, h1, h2, h3, h4, _⟩ := C85_rv_partial false prog F img hc distinct c hci t hpc _ _ _ _ _ W rfl rfl m' _ hx
  exact ⟨u, h1, h2, h3, h4 _ rfl⟩

def armInsns (next : Option Nat) : List Ph2Ir → Bool
  | [] => true
  | ir :: rest => (ir.op ≠ .assign || ir.dest ≠ ir.src0) && (ir.op ≠ .branch || (rest.isEmpty && ir.is_branch_detached = false &&
      (next = some ir.else_bb || next = some ir.then_bb))) && armInsns next rest

theorem armInsns_ok {next : Option Nat} : ∀ {l : List Ph2Ir}, armInsns next l = true → ∀ xs ir zs, l = xs ++ ir :: zs →
    (ir.op = .assign → ir.dest ≠ ir.src0) ∧
    (ir.op = .branch → zs = [] ∧ ir.is_branch_detached = false ∧ (next = some ir.else_bb ∨ next = some ir.then_bb)) := by
  intro l
  induction l with
  | nil => intro _ xs ir zs e; simp at e
  | cons a l ih =>
    intro h xs ir zs e
    simp only [armInsns, Bool.and_eq_true, Bool.or_eq_true, decide_eq_true_eq] at h
    obtain ⟨⟨h1, h2⟩, h3⟩ := h
    cases xs with
    | nil =>
      simp only [List.nil_append, List.cons.injEq] at e
      obtain ⟨rfl, rfl⟩ := e
      refine ⟨fun he => h1.resolve_left (fun hn => hn he), fun he => ?_⟩
      obtain ⟨⟨g1, g2⟩, g3⟩ := h2.resolve_left (fun hn => hn he)
      exact ⟨List.isEmpty_iff.1 g1, g2, g3⟩
    | cons x xs =>
      simp only [List.cons_append, List.cons.injEq] at e
      exact ih h3 xs ir zs e.2

def armBlocks : List Shecc.Block → Bool
  | [] => true
  | b :: rest => armInsns (rest.head?.map (·.id)) b.insns && armBlocks rest

theorem armBlocks_ok : ∀ {l : List Shecc.Block}, armBlocks l = true → ∀ pre b post, l = pre ++ b :: post →
    b.ArmOk (post.head?.map (·.id)) := by
  intro l
  induction l with
  | nil => intro _ pre b post e; simp at e
  | cons a l ih =>
    intro h pre b post e
    simp only [armBlocks, Bool.and_eq_true] at h
    cases pre with
    | nil =>
      simp only [List.nil_append, List.cons.injEq] at e
      obtain ⟨rfl, rfl⟩ := e
      exact armInsns_ok h.1
    | cons x xs =>
      simp only [List.cons_append, List.cons.injEq] at e
      exact ih h.2 xs b post e.2

theorem armOk : (Peep.prog prog).ArmOk := by
  refine ⟨by decide +kernel, ?_⟩
  have : ∀ f ∈ (Peep.prog prog).fns, armBlocks f.blocks = true := by decide +kernel
  intro f hf
  exact armBlocks_ok (this f hf)

/-- The hypotheses of `C85_arm_partial` hold: the compiled program exits with 5050. -/
example : ∃ F img, compile Arm.target false (Peep.prog prog) = some (F, img) ∧ ∀ (c : ARM.Code), ARM.CodeAt c codeBase img →
    ∀ (os : Os) (t : ARM.State), t.pc = codeBase → t.get 13#4 = sp0 →
    ∃ u, ARM.SysReaches c os t u ∧ ARM.step c u = .svc u ∧ u.get 7#4 = 1#32 ∧ u.get 0#4 = 5050#32 := by
  have hc : (compile Arm.target false (Peep.prog prog)).isSome = true := by decide +kernel
  obtain ⟨⟨F, img⟩, hc⟩ := Option.isSome_iff_exists.1 hc
  refine ⟨F, img, hc, fun c hci os t hpc hsp => ?_⟩
  obtain ⟨m', hx⟩ := exits (codeBase + BitVec.ofNat 32 (4 * img.length)) (fun b => b.setWidth 32) os t.mem
  rw [← hsp] at hx
  have W := whole (codeBase + BitVec.ofNat 32 (4 * img.length)) (fun b => b.setWidth 32) os
  rw [← hsp] at W
  obtain ⟨u, h1, h2, h3, h4, _⟩ := C85_arm_partial false prog F img hc distinct armOk c hci t hpc _ _ _ _ _ W rfl rfl m' _ hx
  exact ⟨u, h1, h2, h3, h4 _ rfl⟩

end Shecc.Props.SsaImageExample
