import Verif.Model.Cfg

/-!
# Model of the liveness analysis of src/ssa.c

Variables (`var_t *`) are numbers.  The fixed-size arrays of a block (`live_gen`, ...) are lists: the code does not check
their bounds.
-/

namespace Shecc.Live
open Shecc.Cfg (Graph)

/-- An instruction (`insn_t`), as far as the analysis reads it; `phi` is `opcode == OP_unwound_phi`. -/
structure Insn where
  rd : Option Nat := none
  rs1 : Option Nat := none
  rs2 : Option Nat := none
  phi : Bool := false

/-- `add_live_gen` (src/ssa.c:1622-1632). -/
def addGen (isGlobal : Nat → Bool) (gen : List Nat) (v : Nat) : List Nat :=
  if isGlobal v then gen else if v ∈ gen then gen else gen ++ [v]

/-- `bb_add_killed_var` (src/ssa.c:461-474). -/
def addKill (kill : List Nat) (v : Nat) : List Nat := if v ∈ kill then kill else kill ++ [v]

/-- One operand in `bb_solve_locals` (src/ssa.c:1648-1657); `var_check_killed` (src/ssa.c:452-459) is membership. -/
def useOp (isGlobal : Nat → Bool) (kill gen : List Nat) : Option Nat → List Nat
  | none => gen
  | some v => if v ∈ kill then gen else addGen isGlobal gen v

/-- The destination in `bb_solve_locals` (src/ssa.c:1658-1659). -/
def defKill (kill : List Nat) (i : Insn) : List Nat :=
  match i.rd with
  | none => kill
  | some v => if i.phi then kill else addKill kill v

/-- `bb_solve_locals` (src/ssa.c:1640-1662): the generated and killed variables. -/
def solveLocals (isGlobal : Nat → Bool) : List Insn → List Nat × List Nat → List Nat × List Nat
  | [], r => r
  | i :: is, (gen, kill) =>
    let gen := useOp isGlobal kill gen i.rs1
    let gen := useOp isGlobal kill gen i.rs2
    solveLocals isGlobal is (gen, defKill kill i)

/-- What the analysis reads of a function. `params` are the first subscripts of the parameters. -/
structure Fn where
  g : Graph
  insns : Nat → List Insn
  params : List Nat
  isGlobal : Nat → Bool

/-- `live_gen` and `live_kill` after the first loop of `liveness_analysis` (src/ssa.c:1746-1760), for the blocks the forward
traversal visits. -/
def genKill (f : Fn) (b : Nat) : List Nat × List Nat :=
  let kill := if b = f.g.entry then f.params.foldl addKill [] else []
  solveLocals f.isGlobal (f.insns b) ([], kill)

/-- `add_live_in` (src/ssa.c:1664-1671). -/
def addLiveIn (l : List Nat) (v : Nat) : List Nat := if v ∈ l then l else l ++ [v]

/-- `compute_live_in` (src/ssa.c:1673-1684). -/
def computeLiveIn (gk : List Nat × List Nat) (out : List Nat) : List Nat :=
  gk.1.foldl addLiveIn ((out.filter (fun v => decide (v ∉ gk.2))).foldl addLiveIn [])

/-- `merge_live_in` (src/ssa.c:1686-1700) is the same insertion, into the list of the predecessor. -/
def mergeLiveIn (out liveIn : List Nat) : List Nat := liveIn.foldl addLiveIn out

/-- The first part of `recompute_live_out` (src/ssa.c:1704-1718): `next`, `then_`, `else_` in this order. -/
def newOut (f : Fn) (L : Nat → List Nat) (b : Nat) : List Nat :=
  (f.g.succs b).foldl (fun out c => mergeLiveIn out (computeLiveIn (genKill f c) (L c))) []

/-- `recompute_live_out` (src/ssa.c:1702-1741): new values of `live_out` and the result. -/
def recompute (f : Fn) (L : Nat → List Nat) (b : Nat) : (Nat → List Nat) × Bool :=
  let out := newOut f L b
  if (L b).length ≠ out.length then (fun x => if x = b then out else L x, true)
  else if out.any (fun v => decide (v ∉ L b)) then (fun x => if x = b then out else L x, true)
  else (L, false)

/-- One round of the loop (src/ssa.c:1767-1769). -/
def livePass (f : Fn) : List Nat → (Nat → List Nat) → (Nat → List Nat) × Bool
  | [], L => (L, false)
  | b :: bs, L => ((livePass f bs (recompute f L b).1).1, (recompute f L b).2 || (livePass f bs (recompute f L b).1).2)

/-- The `do … while (changed)` loop (src/ssa.c:1766-1770); `n` bounds the rounds, `order` is the `rpo_r_next` list from the
exit. -/
def liveLoop (f : Fn) (order : List Nat) : Nat → (Nat → List Nat) → Option (Nat → List Nat)
  | 0, _ => none
  | n + 1, L => if (livePass f order L).2 then liveLoop f order n (livePass f order L).1 else some (livePass f order L).1

/-- `liveness_analysis` (src/ssa.c:1743-1772) for one function: `live_out` of every block. -/
def liveness (f : Fn) (order : List Nat) (n : Nat) : Option (Nat → List Nat) := liveLoop f order n (fun _ => [])

/-- `update_consumed` (src/ssa.c:1634-1638) for one operand of the instruction with index `idx`. -/
def updateConsumed (idx : Int) (con : Nat → Int) : Option Nat → Nat → Int
  | none => con
  | some v => fun x => if x = v then (if idx > con v then idx else con v) else con x

/-- The numbering of the instructions and the uses recorded by `bb_solve_locals` (src/ssa.c:1640-1662). -/
def solveUses : Nat → List Insn → (Nat → Int) → Nat → Int
  | _, [], con => con
  | idx, i :: is, con => solveUses (idx + 1) is (updateConsumed idx (updateConsumed idx con i.rs1) i.rs2)

/-- `consumed` after the first loop of `liveness_analysis` (src/ssa.c:1746-1760) for one function; `order` are the blocks the
forward traversal visits. -/
def consumed (f : Fn) (order : List Nat) (con : Nat → Int) : Nat → Int :=
  order.foldl (fun con b => solveUses 0 (f.insns b) con) con

end Shecc.Live
