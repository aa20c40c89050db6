import Verif.Spec.SsaSem
import Verif.Spec.SsaReach
import Verif.Model.ConstFold

/-!
# Specification: functions that constant folding is given, and what it leaves
-/

namespace CFold
open Shecc Shecc.Ssa Shecc.ConstFold RaFn SsaSem

/-- A function in SSA form, with blocks `order`: the entry is one, successors are, and on every path from the entry a variable that
the function assigns is assigned before it is used. -/
structure Input (F : RegAlloc.Fn) (isGlobal : Nat → Bool) (entry : Nat) (order : List Nat) : Prop where
  start : entry ∈ order
  nodup : order.Nodup
  closed : ∀ b ∈ order, ∀ c ∈ succs F b, c ∈ order
  ssa : IsSsa isGlobal (order.flatMap F.insns)
  branch : ∀ i ∈ order.flatMap F.insns, i.op = .branch → i.rd = none
  strict : ∀ l b, CGraph.Path (succs F) entry (l ++ [b]) b → DefinedBeforeUse isGlobal (order.flatMap F.insns) (traceF F.insns (l ++ [b]))

/-- `F'` is `F` with the instructions `blocks'` in its blocks. -/
structure Output (F F' : RegAlloc.Fn) (order : List Nat) (blocks' : List (List Insn)) : Prop where
  insns : order.map F'.insns = blocks'
  block : F'.block = F.block
  exit : F'.fnExit = F.fnExit

end CFold
