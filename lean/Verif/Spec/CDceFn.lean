import Verif.Spec.CDce
import Verif.Spec.RaSource
import Verif.Model.DceFn

/-!
# Specification: what dead code elimination is given
-/

namespace CDce
open Shecc Shecc.Ssa Shecc.Dce RaFn

/-- Successors in the order in which `build_r_idom` and `bb_build_rdf` look at them. -/
def backSuccs (g : Cfg.Graph) (b : Nat) : List Nat := (g.block b).next.toList ++ (g.block b).else_.toList ++ (g.block b).then_.toList

/-- The control-flow analyses that `optimize` starts with ran on the function: block order, immediate post-dominators and reverse
dominance frontiers. `univ`: the blocks. -/
structure Prepared (F : RegAlloc.Fn) (entry : Nat) (prev : Nat → List Nat) (univ : List Nat) (f : Dce.Fn) (rIdom : Nat → Option Nat)
    (order : List Nat) : Prop where
  exit : F.fnExit ∈ univ
  closed : ∀ x ∈ univ, ∀ y ∈ prev x, y ∈ univ
  edges : ∀ a b, b ∈ succs F a ↔ a ∈ prev b
  layout : ∃ n rpo, Cfg.buildRpo (RaSource.cfgOf F entry prev).succs entry n = some (rpo, order)
  post : ∃ rpo ord df, Cfg.buildRpo (RaSource.cfgOf F entry prev).preds F.fnExit univ.length = some (rpo, F.fnExit :: ord) ∧
    Cfg.buildIdom rpo (backSuccs (RaSource.cfgOf F entry prev)) F.fnExit ord (2 * univ.length + 1) (univ.length + 2) = some rIdom ∧
    Cfg.buildDf rIdom (backSuccs (RaSource.cfgOf F entry prev)) (univ.length + 1) (F.fnExit :: ord).reverse = some df ∧
    ∀ b c, c ∈ f.rdf b ↔ (b, c) ∈ df

/-- A function in SSA form on which dead code elimination is claimed to be correct. -/
structure Input (F : RegAlloc.Fn) (isGlobal : Nat → Bool) (entry : Nat) (f : Dce.Fn) (order : List Nat) : Prop where
  entryExit : entry ≠ F.fnExit
  insns : ∀ b, F.insns b = (f.blocks b).map f.insn
  own : ∀ b, ∀ i ∈ f.blocks b, f.blk i = b
  fetch : ∀ i, (f.insn i).op = .func_ret → (f.insn i).rs1 = none ∧ (f.insn i).rs2 = none
  last : f.lastAssign = lastAssignOf f.insn (order.flatMap f.blocks)
  global_ : f.isGlobal = isGlobal
  /-- a variable that is not global and not the target of copies is assigned once -/
  single : ∀ i ∈ order.flatMap f.blocks, ∀ j ∈ order.flatMap f.blocks, ∀ v, (f.insn i).rd = some v → (f.insn j).rd = some v →
    f.isGlobal v = false → (f.insn i).op ≠ .unwound_phi → i = j
  /-- arguments are pushed just before a call, results fetched just after it -/
  parts : ∀ b ∈ order, ∀ i ∈ f.blocks b, (f.insn i).op = .push ∨ (f.insn i).op = .func_ret → CallPart f b i
  /-- a block with two successors ends with a branch -/
  branches : ∀ b ∈ order, b ≠ F.fnExit → (F.block b).next = none → ∃ t, (f.blocks b).getLast? = some t ∧ (f.insn t).op = .branch
  /-- the exit can be reached, and wherever it can be reached from, control cannot get to where it cannot be -/
  reaches : CGraph.Reach (succs F) entry F.fnExit ∧
    ∀ b, CGraph.Reach (succs F) b F.fnExit → ∀ q ∈ succs F b, CGraph.Reach (succs F) q F.fnExit

/-- Wherever a branch is removed, a block before the exit is useful on the chain of immediate post-dominators. Without one, the
block has no way on (`Props.C55_removed_branch_can_loop_forever`). -/
def Joined (F : RegAlloc.Fn) (f : Dce.Fn) (st : Dce.St) (rIdom : Nat → Nat) (n : Nat) (order : List Nat) : Prop :=
  ∀ b ∈ order, branchRemoved f st b = true → ∃ j, redirect rIdom st.bbUseful F.fnExit n (rIdom b) = some j

/-- Marking started without any flag. -/
structure Unmarked (st : Dce.St) : Prop where
  useful : ∀ i, st.useful i = false
  bb : ∀ b, st.bbUseful b = false
  wl : st.wl = []

end CDce
