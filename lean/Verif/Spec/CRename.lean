import Verif.Model.Ssa
import Verif.Model.Cfg
import Verif.Spec.CGraph
import Verif.Spec.IrMachine

/-!
# Specification: executions of a function before and after renaming

Instructions are generic in what names a variable.  A state is a world (memory, globals, input and output, pending arguments,
the record of branch conditions, ...) and the values of the variables kept outside memory.  What an instruction computes from its
operand values, and what it does to the world, is arbitrary.
-/

namespace CRename
open Shecc.Ssa (Op1)

abbrev Word := BitVec 32

/-- An instruction over variables `X`. -/
structure Ins (X : Type) where
  op : Op1
  rd : Option X := none
  rs1 : Option X := none
  rs2 : Option X := none
  sz : Nat := 0
  str : String := ""
  deriving DecidableEq, Repr

/-- The part of an instruction other than its variables. -/
structure Tag where
  op : Op1
  sz : Nat
  str : String

def Ins.tag {X : Type} (i : Ins X) : Tag := ⟨i.op, i.sz, i.str⟩

/-- `World`: everything outside the variables; `get`, `set`: the memory cell at an address; `act`: the result and effect of an
instruction for given operand values (`none`: undefined behaviour). -/
structure Mach where
  World : Type
  get : World → Word → Word
  set : World → Word → Word → World
  act : Tag → Option Word → Option Word → World → Option (World × Word)

/-- Where a variable lives: in memory at an address, or outside. -/
structure Home (X : Type) where
  mem : X → Bool
  addr : X → Word

variable (M : Mach) {X : Type} [DecidableEq X] (H : Home X)

abbrev State (M : Mach) (X : Type) := M.World × (X → Word)

def rd (s : State M X) (x : X) : Word := if H.mem x then M.get s.1 (H.addr x) else s.2 x

def wr (s : State M X) (x : X) (w : Word) : State M X :=
  if H.mem x then (M.set s.1 (H.addr x) w, s.2) else (s.1, fun y => if y = x then w else s.2 y)

/-- The first operand: `address_of` takes its address, a copy its value. -/
def arg1 (i : Ins X) (s : State M X) : Option Word :=
  i.rs1.map fun x => if i.op = .address_of then H.addr x else rd M H s x

/-- One instruction. Copies (`unwound_phi`) only move a value; declaring (`allocat`) a variable that lives in memory does not
change its cell, while one outside memory gets some value. -/
def step (i : Ins X) (s : State M X) : Option (State M X) :=
  match i.op, i.rd, i.rs1 with
  | .unwound_phi, some d, some a => some (wr M H s d (rd M H s a))
  | _, _, _ =>
    (M.act i.tag (arg1 M H i s) (i.rs2.map (rd M H s)) s.1).map fun r =>
      match i.rd with
      | none => (r.1, s.2)
      | some d => if i.op = .allocat ∧ H.mem d = true then (r.1, s.2) else wr M H (r.1, s.2) d r.2

def run : List (Ins X) → State M X → Option (State M X)
  | [], s => some s
  | i :: is, s => (step M H i s).bind (run is)

/-- The instructions executed along a path of blocks. -/
def trace (code : Nat → List (Ins X)) (path : List Nat) : List (Ins X) := path.flatMap code

/-! ### Liveness in the source -/

/-- The instruction reads the variable. -/
def Uses (i : Ins X) (v : X) : Prop := i.rs1 = some v ∨ i.rs2 = some v

/-- The code reads the value the variable has at its start. -/
def ReadsFirst (v : X) (l : List (Ins X)) : Prop :=
  ∃ xs i ys, l = xs ++ i :: ys ∧ Uses i v ∧ ∀ x ∈ xs, x.rd ≠ some v

def Assigns (v : X) (l : List (Ins X)) : Prop := ∃ i ∈ l, i.rd = some v

/-- The value of the variable at the start of the block may be read later. -/
inductive LiveIn (succ : Nat → List Nat) (code : Nat → List (Ins X)) (v : X) : Nat → Prop
  | here {b : Nat} (h : ReadsFirst v (code b)) : LiveIn succ code v b
  | later {b c : Nat} (hs : c ∈ succ b) (hd : ¬ Assigns v (code b)) (h : LiveIn succ code v c) : LiveIn succ code v b

end CRename
