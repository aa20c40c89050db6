import Verif.Spec.SsaSem
import Verif.Spec.SsaReach

/-!
# Specification: functions in which repeated reads may be replaced

`p[i]`, for characters, is an addition and a read from the sum.  Common subexpression elimination replaces a further `p[i]` by the value that
the first one read.  That is right if nothing was stored in between.
-/

namespace CCse
open Shecc Shecc.Ssa SrcBlock RaFn

/-- In block `b`, behind the instructions `pre`, the sum of `base` and `idx` is computed, and the next instruction is a read. -/
structure SumRead (F : RegAlloc.Fn) (b : Nat) (pre : List Insn) (i n : Insn) (base idx : Nat) : Prop where
  code : ∃ post, F.insns b = pre ++ i :: n :: post
  add : i.op = .alu .add
  base : i.rs1 = some base
  idx : i.rs2 = some idx
  read : n.op = .read

/-- `At C F entry s₀ b xs s`: an execution of the function from block `entry` in state `s₀` gets to state `s` in block `b`, of which it has
executed the instructions `xs`. -/
inductive At (C : Ctx) (F : RegAlloc.Fn) (entry : Nat) (s₀ : St) : Nat → List Insn → St → Prop
  | start : At C F entry s₀ entry [] s₀
  | step {b xs i ys s s'} (h : At C F entry s₀ b xs s) (hi : F.insns b = xs ++ i :: ys) (hs : Step C i s s') : At C F entry s₀ b (xs ++ [i]) s'
  | next {b n s} (h : At C F entry s₀ b (F.insns b) s) (hn : (F.block b).next = some n) (hne : n ≠ F.fnExit) : At C F entry s₀ n [] s
  | branch {b is br a s} (h : At C F entry s₀ b is s) (hi : F.insns b = is ++ [br]) (ho : br.op = .branch) (ha : br.rs1 = some a)
      (hn : (F.block b).next = none) (hne : (if rd C s a ≠ 0#32 then (F.block b).then_ else (F.block b).else_) ≠ F.fnExit) :
      At C F entry s₀ (if rd C s a ≠ 0#32 then (F.block b).then_ else (F.block b).else_) [] s

/-- The second place comes after the first one on every path to it: later in the same block, or in another block that the first one's block
dominates. -/
def After (F : RegAlloc.Fn) (entry b : Nat) (pre : List Insn) (c : Nat) (pre' : List Insn) : Prop :=
  (c = b ∧ pre.length < pre'.length) ∨ (c ≠ b ∧ CGraph.Dom (succs F) entry b c)

/-- `i`, `n` compute `base + idx` and read from that address into `d`; all three are local variables. -/
structure First (F : RegAlloc.Fn) (isGlobal : Nat → Bool) (b : Nat) (pre : List Insn) (i n : Insn) (base idx d : Nat) : Prop where
  here : SumRead F b pre i n base idx
  from_ : n.rs1 = i.rd
  into : n.rd = some d
  lbase : isGlobal base = false
  lidx : isGlobal idx = false

/-- A repeated read reads from the sum just computed, which is not used otherwise, as many bytes as the first one. -/
structure Same (F : RegAlloc.Fn) (isGlobal : Nat → Bool) (n : Insn) (d : Nat) (c : Nat) (pre' : List Insn) (i' n' : Insn) (t r : Nat) : Prop where
  sum : i'.rd = some t
  from_ : n'.rs1 = some t
  into : n'.rd = some r
  size : n'.sz = n.sz
  lsum : isGlobal t = false
  ld : isGlobal d = false
  once : ∀ b xs j ys, F.insns b = xs ++ j :: ys → SsaSem.Operand j t → b = c ∧ xs = pre' ++ [i']

/-- Repeated reads of `p[i]` in the function, executed from state `s₀`, give the value that was read first. -/
structure Unchanged (C : Ctx) (F : RegAlloc.Fn) (entry : Nat) (s₀ : St) : Prop where
  same : ∀ b pre i n base idx d, First F C.isGlobal b pre i n base idx d → ∀ c pre' i' n', SumRead F c pre' i' n' base idx →
    (c, pre'.length) ≠ (b, pre.length) → ∃ t r, Same F C.isGlobal n d c pre' i' n' t r
  value : ∀ b pre i n base idx d, First F C.isGlobal b pre i n base idx d → ∀ c pre' i' n', SumRead F c pre' i' n' base idx →
    After F entry b pre c pre' → ∀ s s1 s2 r, At C F entry s₀ c pre' s → Step C i' s s1 → Step C n' s1 s2 → n'.rd = some r →
      s2 = wr C s1 r (s.val d)

/-- The instruction stores nothing in memory and assigns to none of the variables `vs`. -/
def Harmless (isGlobal : Nat → Bool) (vs : List Nat) (w : Insn) : Prop :=
  w.op ≠ .write ∧ w.op ≠ .call ∧ ∀ v, w.rd = some v → isGlobal v = false ∧ v ∉ vs

/-- Nothing is stored between a first read of `p[i]` and a repeated one: along every path from the entry to the repeated read, the first one was
executed, and since then neither memory nor the variables involved changed. -/
def NoStore (F : RegAlloc.Fn) (isGlobal : Nat → Bool) (entry : Nat) : Prop :=
  ∀ b pre i n base idx d, First F isGlobal b pre i n base idx d → ∀ c pre' i' n', SumRead F c pre' i' n' base idx →
    After F entry b pre c pre' → ∀ l, CGraph.Path (succs F) entry (l ++ [c]) c →
      ∃ us ws, SsaSem.traceF F.insns l ++ pre' = us ++ i :: n :: ws ∧ Harmless isGlobal [base, idx] i ∧ d ≠ base ∧ d ≠ idx ∧
        ∀ w ∈ ws, Harmless isGlobal [base, idx, d] w

end CCse
