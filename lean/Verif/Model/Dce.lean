import Verif.Model.Ssa

/-!
# Model of dead code elimination (src/ssa.c:1380-1522)

Instructions are numbers; `insn` gives their contents, `blocks` the instruction lists, `blk` is `belong_to`, `rdf` the reverse
dominance frontier of a block, `lastAssign` the `last_assign` field of a variable.
-/

namespace Shecc.Dce
open Shecc.Ssa

structure Fn where
  insn : Nat → Insn
  blocks : Nat → List Nat
  blk : Nat → Nat
  rdf : Nat → List Nat
  lastAssign : Nat → Option Nat
  isGlobal : Nat → Bool

/-- `last_assign` as `optimize` leaves it (src/ssa.c:1543-1544): the last instruction, in the order of the block list, whose
destination is the variable. -/
def lastAssignOf (insn : Nat → Insn) : List Nat → Nat → Option Nat
  | [], _ => none
  | i :: is, v =>
    match lastAssignOf insn is v with
    | some k => some k
    | none => if (insn i).rd = some v then some i else none

/-- The `useful` flags of instructions and blocks, and the work list (last element first). -/
structure St where
  useful : Nat → Bool
  bbUseful : Nat → Bool
  wl : List Nat

def St.mark (st : St) (i : Nat) : St := { st with useful := fun j => if j = i then true else st.useful j }
def St.markBb (st : St) (b : Nat) : St := { st with bbUseful := fun c => if c = b then true else st.bbUseful c }
def St.push (st : St) (i : Nat) : St := { st with wl := i :: st.wl }

/-- The loop over the preceding pushes (src/ssa.c:1409-1415); `before` lists the preceding instructions, nearest first. -/
def markPushes (f : Fn) : List Nat → St → St
  | [], st => st
  | p :: ps, st => if (f.insn p).op = .push then markPushes f ps ((st.mark p).push p) else st

/-- The fetch of the result after a call (src/ssa.c:1404-1408): the call itself is pushed again, as in the code. -/
def markFuncRet (f : Fn) (i : Nat) (next : Option Nat) (st : St) : St :=
  match next with
  | none => st
  | some n => if (f.insn n).op = .func_ret then (st.mark n).push i else st

/-- The `default` case (src/ssa.c:1418-1427): the instruction assigns a global. -/
def markGlobal (f : Fn) (i : Nat) (st : St) : St :=
  match (f.insn i).rd with
  | none => st
  | some v => if f.isGlobal v && !st.useful i then ((st.mark i).markBb (f.blk i)).push i else st

/-- `dce_init_mark` (src/ssa.c:1380-1430). -/
def initMark (f : Fn) (before : List Nat) (i : Nat) (next : Option Nat) (st : St) : St :=
  match (f.insn i).op with
  | .ret | .write | .address_of | .unwound_phi | .allocat => ((st.mark i).markBb (f.blk i)).push i
  | .indirect | .call =>
    markPushes f before (markFuncRet f i next (((st.mark i).markBb (f.blk i)).push i))
  | _ => markGlobal f i st

/-- The first loop of `dce_insn` (src/ssa.c:1439-1446); `none`: more than 2047 entries (`abort`). -/
def initLoop (f : Fn) (cap : Nat) : List Nat → List Nat → St → Option St
  | _, [], st => some st
  | before, i :: is, st =>
    let st := initMark f before i is.head? st
    if st.wl.length > cap - 1 then none else initLoop f cap (i :: before) is st

/-- Marking one instruction that the popped one depends on (src/ssa.c:1453-1460). -/
def touch (f : Fn) (k : Nat) (st : St) : St :=
  if st.useful k then st else ((st.mark k).markBb (f.blk k)).push k

/-- `curr->rs1 && curr->rs1->last_assign` (src/ssa.c:1453, 1461). -/
def touchOperand (f : Fn) (o : Option Nat) (st : St) : St :=
  match o with
  | none => st
  | some v =>
    match f.lastAssign v with
    | none => st
    | some k => touch f k st

/-- The loop over the reverse dominance frontier (src/ssa.c:1470-1481); `none`: the block is empty (null dereference). The
branch lies in the frontier block, which is the block marked. -/
def touchRdf (f : Fn) : List Nat → St → Option St
  | [], st => some st
  | r :: rs, st =>
    match (f.blocks r).getLast? with
    | none => none
    | some t =>
      touchRdf f rs
        (if (f.insn t).op = .branch then if st.useful t then st else ((st.mark t).markBb r).push t else st)

/-- The work-list loop (src/ssa.c:1448-1482); `n` bounds the iterations. That the array of 2048 entries can overflow here is
not modelled. -/
def drain (f : Fn) : Nat → St → Option St
  | 0, _ => none
  | n + 1, st =>
    match st.wl with
    | [] => some st
    | i :: rest =>
      let st := { st with wl := rest }
      let st := touchOperand f (f.insn i).rs1 st
      let st := touchOperand f (f.insn i).rs2 st
      match touchRdf f (f.rdf (f.blk i)) st with
      | none => none
      | some st => drain f n st

/-- `dce_insn` (src/ssa.c:1433-1483). -/
def dceInsn (f : Fn) (cap n : Nat) (b : Nat) (st : St) : Option St :=
  match initLoop f cap [] (f.blocks b) { st with wl := [] } with
  | none => none
  | some st => drain f n st

/-- The loop over the blocks (src/ssa.c:1554-1558). -/
def dceMark (f : Fn) (cap n : Nat) : List Nat → St → Option St
  | [], st => some st
  | b :: bs, st =>
    match dceInsn f cap n b st with
    | none => none
    | some st => dceMark f cap n bs st

/-- What `dce_sweep` (src/ssa.c:1485-1522) leaves of a block. -/
def sweep (f : Fn) (st : St) (b : Nat) : List Nat := (f.blocks b).filter st.useful

/-- The search for the new successor of a block whose branch is removed (src/ssa.c:1502-1509): `none` when the exit is
reached, in which case the block is left without a successor; `n` bounds the steps. -/
def redirect (rIdom : Nat → Nat) (bbUseful : Nat → Bool) (exit : Nat) : Nat → Nat → Option Nat
  | 0, _ => none
  | n + 1, j => if j = exit then none else if bbUseful j then some j else redirect rIdom bbUseful exit n (rIdom j)

/-- The successors of a block after `dce_sweep` (src/ssa.c:1499-1510): the two edges of a removed branch are replaced by the
edge to the block found by `redirect`, if any. -/
def sweptSucc (f : Fn) (st : St) (succ : Nat → List Nat) (rIdom : Nat → Nat) (exit n b : Nat) : List Nat :=
  match (f.blocks b).getLast? with
  | none => succ b
  | some t =>
    if (f.insn t).op = .branch && !st.useful t then (redirect rIdom st.bbUseful exit n (rIdom b)).toList else succ b

end Shecc.Dce
