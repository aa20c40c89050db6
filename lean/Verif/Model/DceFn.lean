import Verif.Model.Dce
import Verif.Model.RegAlloc

/-!
# Model of `dce_sweep` on the function that register allocation receives (src/ssa.c:1485-1522)
-/

namespace Shecc.Dce
open Shecc.Ssa

/-- The branch at the end of the block is removed (src/ssa.c:1499). -/
def branchRemoved (f : Fn) (st : St) (b : Nat) : Bool :=
  match (f.blocks b).getLast? with
  | none => false
  | some t => decide ((f.insn t).op = .branch) && !st.useful t

/-- The function after `dce_sweep` (src/ssa.c:1485-1522): instructions without the `useful` flag are unlinked; a block whose branch is
removed goes on to the block found by `redirect`. `bb_disconnect` (src/globals.c:756-778) takes its two edges away; they are left in
the fields `then_` and `else_` here, which are not used when there is a `next`. A block for which `redirect` finds nothing is left
without any edge; this case is not represented (the theorems exclude it). -/
def sweepFn (f : Fn) (st : St) (rIdom : Nat → Nat) (n : Nat) (F : RegAlloc.Fn) : RegAlloc.Fn :=
  { F with
    insns := fun b => (sweep f st b).map f.insn
    block := fun b =>
      if branchRemoved f st b then { F.block b with next := redirect rIdom st.bbUseful F.fnExit n (rIdom b) } else F.block b }

end Shecc.Dce
