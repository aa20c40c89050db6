import Verif.Model.Dce
import Verif.Spec.SsaSem

/-!
# Specification: what dead code elimination must keep
-/

namespace CDce
open Shecc.Ssa Shecc.Dce

/-- Instructions with an effect of their own: stores, calls, returns, taking an address, allocation, copies for phis, and
assignments to globals. -/
def HasEffect (f : Fn) (i : Nat) : Prop :=
  (f.insn i).op = .write ∨ (f.insn i).op = .call ∨ (f.insn i).op = .indirect ∨ (f.insn i).op = .ret ∨
  (f.insn i).op = .address_of ∨ (f.insn i).op = .allocat ∨ (f.insn i).op = .unwound_phi ∨
  ∃ v, (f.insn i).rd = some v ∧ f.isGlobal v = true

/-- `k` is the instruction recorded as the definition of an operand of `i`. -/
def DataDep (f : Fn) (i k : Nat) : Prop := ∃ v, SsaSem.Operand (f.insn i) v ∧ f.lastAssign v = some k

/-- `k` is the branch at the end of a block on which the block of `i` is control dependent. -/
def ControlDep (f : Fn) (i k : Nat) : Prop :=
  ∃ r ∈ f.rdf (f.blk i), (f.blocks r).getLast? = some k ∧ (f.insn k).op = .branch

/-- Part of the calling sequence of a call in block `b`: one of the pushes just before it, or the fetch of its result. -/
def CallPart (f : Fn) (b i : Nat) : Prop :=
  (∃ xs c ys, f.blocks b = xs ++ c :: i :: ys ∧ ((f.insn c).op = .call ∨ (f.insn c).op = .indirect) ∧
    (f.insn i).op = .func_ret) ∨
  (∃ xs ps c ys, f.blocks b = xs ++ i :: (ps ++ c :: ys) ∧ ((f.insn c).op = .call ∨ (f.insn c).op = .indirect) ∧
    ∀ p ∈ i :: ps, (f.insn p).op = .push)

/-- The least set of instructions that must stay. -/
inductive Needed (f : Fn) (order : List Nat) : Nat → Prop
  | effect {b i} (hb : b ∈ order) (hi : i ∈ f.blocks b) (h : HasEffect f i) : Needed f order i
  | part {b i} (hb : b ∈ order) (h : CallPart f b i) : Needed f order i
  | data {i k} (h : Needed f order i) (d : DataDep f i k) : Needed f order k
  | control {i k} (h : Needed f order i) (d : ControlDep f i k) : Needed f order k

end CDce
