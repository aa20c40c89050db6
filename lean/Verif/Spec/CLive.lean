import Verif.Model.Live
import Verif.Spec.CGraph

/-!
# Specification: live variables

`OP_unwound_phi` is a copy placed at the end of a predecessor; the analysis does not count it as a definition.
-/

namespace CLive
open Shecc.Live (Insn Fn)

def Uses (i : Insn) (v : Nat) : Prop := i.rs1 = some v ∨ i.rs2 = some v
def Defines (i : Insn) (v : Nat) : Prop := i.rd = some v ∧ i.phi = false

/-- Block `b` assigns `v` (the entry assigns the parameters). -/
def BlockDefines (f : Fn) (b v : Nat) : Prop :=
  (∃ i ∈ f.insns b, Defines i v) ∨ (b = f.g.entry ∧ v ∈ f.params)

/-- Block `b` reads the value `v` has at its start: an instruction uses `v` and nothing before it assigns `v`. -/
def BlockReads (f : Fn) (b v : Nat) : Prop :=
  (∃ xs i ys, f.insns b = xs ++ i :: ys ∧ Uses i v ∧ ∀ x ∈ xs, ¬ Defines x v) ∧ ¬ (b = f.g.entry ∧ v ∈ f.params)

/-- `v` is live at the end of `b`: along some path from a successor, `v` is read in a block before any block on the way
assigns it. -/
def LiveAtEnd (f : Fn) (b v : Nat) : Prop :=
  ∃ c ∈ f.g.succs b, ∃ l d, CGraph.Path f.g.succs c (l ++ [d]) d ∧ BlockReads f d v ∧ ∀ x ∈ l, ¬ BlockDefines f x v

end CLive
