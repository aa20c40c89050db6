import Verif.Model.Ssa

/-!
# Model of common subexpression elimination (`cse`, src/ssa.c:1222-1296)

The use chain of `base` is walked to find the additions `base + idx`; since an addition is never created after the chain is
built and a removed one no longer precedes a read, this is modelled by scanning the instruction lists. `C106_instructions_partial` proves that the walk over the linked lists
(`Model/UseChain`) does the same.
-/

namespace Shecc.Cse
open Shecc.Ssa

/-- An instruction kept, or an addition and the read after it, which become one assignment. -/
inductive Item
  | keep (i : Insn)
  | pair (i n : Insn)
  deriving DecidableEq

/-- The tests of src/ssa.c:1258-1264 (besides `i == prev`). The read is not required to use the address just computed. -/
def hit (base idx : Nat) (i n : Insn) : Bool :=
  decide (i.op = .alu .add) && decide (n.op = .read) && decide (i.rs1 = some base) && decide (i.rs2 = some idx)

/-- Which instructions of a list are replaced. -/
def items (base idx : Nat) : List Insn → List Item
  | i :: n :: rest => if hit base idx i n then .pair i n :: items base idx rest else .keep i :: items base idx (n :: rest)
  | [i] => [.keep i]
  | [] => []

def Item.before : Item → List Insn
  | .keep i => [i]
  | .pair i n => [i, n]

/-- The replacement (src/ssa.c:1278-1289): the addition is unlinked, the read becomes an assignment from `def`. -/
def Item.after (d : Nat) : Item → List Insn
  | .keep i => [i]
  | .pair _ n => [{ n with op := .assign, rs1 := some d }]

def rewrite (base idx d : Nat) (l : List Insn) : List Insn := (items base idx l).flatMap (Item.after d)

/-- The walk up the dominator tree (src/ssa.c:1267-1276); `n` bounds the steps. -/
def domCheck (idom : Nat → Nat) (b : Nat) : Nat → Nat → Bool
  | 0, _ => false
  | n + 1, x => if x = b then true else if x = idom x then false else domCheck idom b n (idom x)

/-- The tests on the instruction itself (src/ssa.c:1224-1238): base, index and result. -/
def target (isGlobal : Nat → Bool) (prev insn : Insn) : Option (Nat × Nat × Nat) :=
  if insn.op = .read ∧ prev.op = .alu .add ∧ prev.rd = insn.rs1 then
    match prev.rs1, prev.rs2, insn.rd with
    | some base, some idx, some d => if isGlobal base || isGlobal idx then none else some (base, idx, d)
    | _, _, _ => none
  else none

/-- `cse(insn, bb)` where block `b` is `pre ++ prev :: insn :: post`; `fuel` bounds the depth of the dominator tree. The
result is the new blocks, `none` when nothing applies. -/
def cse (isGlobal : Nat → Bool) (idom : Nat → Nat) (fuel : Nat) (blocks : Nat → List Insn) (b : Nat) (pre : List Insn)
    (prev insn : Insn) (post : List Insn) : Option (Nat → List Insn) :=
  match target isGlobal prev insn with
  | none => none
  | some (base, idx, d) =>
    some fun c =>
      if c = b then rewrite base idx d pre ++ prev :: insn :: rewrite base idx d post
      else if domCheck idom b fuel c then rewrite base idx d (blocks c) else blocks c

end Shecc.Cse
