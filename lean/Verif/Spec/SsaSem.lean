import Verif.Model.Ssa
import Verif.Spec.IrMachine

/-!
# Specification: meaning of first-phase instructions

A state is a world (memory, input and output, pending call arguments, ...) and the values of the variables that live in
registers.  Variables for which `mem` holds live in the world.  What the instructions that are not arithmetic do to the
world is arbitrary (`ext`), so a theorem about this machine holds for every such behaviour.
-/

namespace SsaSem
open Shecc Shecc.Ssa CArith

structure Mach where
  World : Type
  /-- variables that live in memory: globals and variables whose address is taken -/
  mem : Nat → Bool
  get : World → Nat → Word
  set : World → Nat → Word → World
  /-- value of a memory read of the given size; `none` = the behaviour is undefined -/
  load : Nat → World → Word → Option Word
  /-- address of a variable, or of constant data -/
  addrOf : Nat → Word
  dataAddr : Word
  /-- writes, calls, pushes, returns, branches, allocations: effect on the world and the resulting value; `none` = the
  behaviour is undefined -/
  ext : Insn → Option Word → Option Word → World → Option (World × Word)

variable (M : Mach)

abbrev State := M.World × (Nat → Word)

def rdVar (s : State M) (v : Nat) : Word := if M.mem v then M.get s.1 v else s.2 v

def wrVar (s : State M) (v : Nat) (x : Word) : State M :=
  if M.mem v then (M.set s.1 v x, s.2) else (s.1, fun u => if u = v then x else s.2 u)

def wrOpt (s : State M) (v : Option Nat) (x : Word) : State M :=
  match v with
  | none => s
  | some v => wrVar M s v x

/-- One instruction; `cv` gives the constant attached to each variable (`init_val`), which `load_constant` loads. -/
def step (cv : Nat → Word) (i : Insn) (s : State M) : Option (State M) :=
  match i.op, i.rd, i.rs1, i.rs2 with
  | .load_constant, some d, _, _ => some (wrVar M s d (cv d))
  | .load_data_address, some d, _, _ => some (wrVar M s d (M.dataAddr + cv d))
  | .assign, some d, some a, _ => some (wrVar M s d (rdVar M s a))
  | .unwound_phi, some d, some a, _ => some (wrVar M s d (rdVar M s a))
  | .address_of, some d, some a, _ => some (wrVar M s d (M.addrOf a))
  | .read, some d, some a, _ => (M.load i.sz s.1 (rdVar M s a)).map (wrVar M s d)
  | .alu op, some d, some a, b =>
    match IrM.binOf op, IrM.unOf op, b with
    | some o, _, some b => (bin o (rdVar M s a) (rdVar M s b)).map (wrVar M s d)
    | none, some o, _ => some (wrVar M s d (un o (rdVar M s a)))
    | _, _, _ => none
  | .alu _, _, _, _ | .load_constant, _, _, _ | .load_data_address, _, _, _ | .assign, _, _, _ | .unwound_phi, _, _, _
  | .address_of, _, _, _ | .read, _, _, _ => none
  | _, _, _, _ =>
    (M.ext i (i.rs1.map (rdVar M s)) (i.rs2.map (rdVar M s)) s.1).map fun r => wrOpt M (r.1, s.2) i.rd r.2

/-- A sequence of instructions. -/
def run (cv : Nat → Word) : List Insn → State M → Option (State M)
  | [], s => some s
  | i :: is, s => (step M cv i s).bind (run cv is)

/-- The instructions executed along a path of blocks. -/
def trace (blocks : List (List Insn)) (path : List Nat) : List Insn := path.flatMap fun k => blocks.getD k []

/-- Static single assignment as `solve_phi_params` establishes it: a variable that is neither global nor the target of a phi
has one definition; results of constant loads and arithmetic go to temporaries, not directly to globals. -/
def IsSsa (isGlobal : Nat → Bool) (prog : List Insn) : Prop :=
  (∀ xs i ys v, prog = xs ++ i :: ys → i.rd = some v → isGlobal v = false → i.op ≠ .unwound_phi →
    ∀ j ∈ xs ++ ys, j.rd ≠ some v) ∧
  ∀ i ∈ prog, ∀ v, i.rd = some v → i.op = .load_constant ∨ (∃ o, i.op = .alu o) → isGlobal v = false

def Operand (i : Insn) (v : Nat) : Prop := i.rs1 = some v ∨ i.rs2 = some v

/-- Along an execution, a variable that the program assigns is assigned before it is used. -/
def DefinedBeforeUse (isGlobal : Nat → Bool) (prog T : List Insn) : Prop :=
  ∀ xs i ys v, T = xs ++ i :: ys → Operand i v → isGlobal v = false → (∃ j ∈ prog, j.rd = some v) → ∃ j ∈ xs, j.rd = some v

/-- The instructions executed along a path, for blocks given by number. -/
def traceF (blocks : Nat → List Insn) (path : List Nat) : List Insn := path.flatMap blocks

/-- The instruction leaves memory alone: it only computes a value for a register variable. -/
def Pure (mem : Nat → Bool) (i : Insn) : Prop :=
  (i.op = .load_constant ∨ i.op = .load_data_address ∨ i.op = .assign ∨ i.op = .unwound_phi ∨ i.op = .address_of ∨
    i.op = .read ∨ ∃ o, i.op = .alu o) ∧ ∃ d, i.rd = some d ∧ mem d = false

/-- After the instructions `xs` the value read by `prev; insn` (`insn` reads the word at `base + idx`, computed by `prev`, into
`d`) is still available in `d`: they were executed, and since then neither memory nor `base`, `idx`, `d` changed. -/
def Available (mem : Nat → Bool) (prev insn : Insn) (base idx d : Nat) (xs : List Insn) : Prop :=
  ∃ us ws, xs = us ++ prev :: insn :: ws ∧
    ∀ w ∈ ws, Pure mem w ∧ w.rd ≠ some base ∧ w.rd ≠ some idx ∧ w.rd ≠ some d

end SsaSem
