import Verif.Spec.SsaProgram
import Verif.Spec.CGlobals
import Verif.Model.Layout

/-!
# Specification: the compiled form of a program in SSA form
-/

namespace SsaProg
open Shecc Shecc.Ssa Shecc.RegAlloc Shecc.GlobalInit IrM SrcBlock RaFn CGlobals

/-- `Q`, the program handed to the peephole pass, is the program `Pr` after register allocation: every function satisfies the
conditions under which register allocation is claimed to be correct, and its blocks have the code the allocator produced. Where
the peephole pass merges instructions, it may. -/
structure Built (gofs : Nat → Nat) (Q : Prog) (Pr : SrcProg) : Prop where
  sys : Q.funcBB "__syscall" = some Q.syscallBB
  fn : ∀ g f, Pr.fn g = some f → g ≠ "__syscall" → f.vars.isGlobal = Pr.isGlobal ∧ Q.funcBB g = some f.entry ∧
    ∃ exitPrev use live st0 fin codes, Allocated gofs f exitPrev use live st0 fin codes ∧
      ∃ c ∈ Q.fns, c.stackSize = num f.size ∧ c.blocks.map (fun b => (b.id, b.insns)) = withReturns f.F f.void exitPrev codes
  peep : ∀ c ∈ Q.fns, ∀ b ∈ c.blocks, PeepOk (arity Pr) b.insns

/-- The global variables are in the global frame at `gp`, `gofs` says where; they do not overlap. -/
structure GlobalsAt (gp : Word) (gofs : Nat → Nat) (Pr : SrcProg) : Prop where
  gaddr : ∀ v, Pr.isGlobal v = true → gofs v ≠ 0 ∧ Pr.gaddr v = gp + BitVec.ofNat 32 (gofs v)
  gdiff : ∀ u v, u ≠ v → Pr.isGlobal u = true → Pr.isGlobal v = true → ∀ k l, k < 4 → l < 4 →
    Pr.gaddr u + BitVec.ofNat 32 k ≠ Pr.gaddr v + BitVec.ofNat 32 l

/-- `Q` is a whole program: its global block is what was made of the declarations `ds`, and its functions are those of `Pr`. The
loader starts it with stack pointer `sp0`; the global frame is below that. -/
structure Whole (Q : Prog) (V : Vars) (K : Nat → Kind) (ds : List Decl) (fin : RA) (sp0 : Word) (Pr : SrcProg) : Prop where
  proper : Proper V K ds
  alloc : allocGlobals V K ds = some fin
  code : Q.globalInsns = fin.out
  size : Q.globalStack = num fin.stack
  main : Q.funcBB "main" = some Q.mainBB
  room : fin.stack ≤ sp0.toNat
  aligned : sp0.toNat % 4 = 0
  globals : ∀ v, Pr.isGlobal v = true → ∃ d ∈ ds, d.var = v
  gaddr : ∀ v, Pr.isGlobal v = true → Pr.gaddr v = sp0 - num fin.stack + num (fin.offset v)
  built : Built fin.offset Q Pr

/-- The part of the stack the program will use. -/
def stackBelow (Pr : SrcProg) (sp a : Word) : Prop := Pr.lo ≤ a.toNat ∧ a.toNat < sp.toNat

/-- The arguments of `main`, which has `k` parameters: what the loader left at `sp0`. -/
def mainArgs (m : Mem) (sp0 : Word) (k : Nat) : List Word := [load32 m sp0, sp0 + 4].take k

/-- Started in memory `m`, the program initialises its global variables and runs `main`, which returns `r` and leaves memory `m'`. -/
def Exits (V : Vars) (K : Nat → Kind) (ds : List Decl) (fin : RA) (sp0 : Word) (Pr : SrcProg) (m m' : Mem) (r : Option Word) : Prop :=
  ∃ m1 n f, Initialised V K ds fin.offset (sp0 - num fin.stack) m m1 ∧ Pr.fn "main" = some f ∧
    Call Pr n (stackBelow Pr (sp0 - num fin.stack)) (sp0 - num fin.stack) "main" (mainArgs m1 sp0 f.params.length) m1 m' r

end SsaProg
