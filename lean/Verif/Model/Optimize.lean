import Verif.Model.Cse
import Verif.Model.ConstFold

/-!
# Model of the instruction-level loop of `optimize` (src/ssa.c:1536-1552)
-/

namespace Shecc.Optimize
open Shecc.Ssa Shecc.Cse Shecc.ConstFold

/-- The loop over the instructions of block `b` (src/ssa.c:1541-1550): for each instruction common subexpression elimination, and, if
that did not apply (`cse` returned false), constant folding. `done`: the instructions before the current one; `todo`: the current one and those
after it; `n` bounds their number. `insn->prev` is the last of `done`. Recording `last_assign` is in `Dce.lastAssignOf`. -/
def optBlock (isGlobal : Nat → Bool) (idom : Nat → Nat) (fuel b : Nat) :
    Nat → (Nat → List Insn) → List Insn → List Insn → CF → Res ((Nat → List Insn) × CF)
  | 0, blocks, _, _, st => .ok (blocks, st)
  | _, blocks, _, [], st => .ok (blocks, st)
  | n + 1, blocks, done, i :: is, st =>
    match done.getLast?.bind fun prev => (target isGlobal prev i).map fun t => (prev, t) with
    | some (prev, base, idx, d) =>
      match cse isGlobal idom fuel blocks b done.dropLast prev i is with
      | none => .crash
      | some blocks' =>
        optBlock isGlobal idom fuel b n blocks' (rewrite base idx d done.dropLast ++ [prev, i]) (rewrite base idx d is) st
    | none =>
      match const_folding isGlobal done.getLast? i st with
      | .crash => .crash
      | .ok (i', st') =>
        optBlock isGlobal idom fuel b n (fun c => if c = b then done ++ i' :: is else blocks c) (done ++ [i']) is st'

/-- The loop over the blocks in reverse post-order (src/ssa.c:1539-1551). -/
def optFn (isGlobal : Nat → Bool) (idom : Nat → Nat) (fuel : Nat) : List Nat → (Nat → List Insn) → CF → Res ((Nat → List Insn) × CF)
  | [], blocks, st => .ok (blocks, st)
  | b :: bs, blocks, st =>
    match optBlock isGlobal idom fuel b (blocks b).length blocks [] (blocks b) st with
    | .crash => .crash
    | .ok (blocks', st') => optFn isGlobal idom fuel bs blocks' st'

end Shecc.Optimize
