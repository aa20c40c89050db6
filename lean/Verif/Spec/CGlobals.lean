import Verif.Model.GlobalInit
import Verif.Spec.RaFn

/-!
# Specification: global variables
-/

namespace CGlobals
open Shecc Shecc.RegAlloc Shecc.GlobalInit IrM

/-- A whole number of words, at least one. -/
def words (n : Nat) : Nat := if n ≤ 4 then 4 else (n + 3) / 4 * 4

/-- Bytes of the storage of a global variable; an array variable is a pointer followed by the elements. -/
def room : Kind → Nat
  | .word => 4
  | .struct n => words n
  | .array n => 4 + words n

/-- Bytes of all of them. -/
def total (K : Nat → Kind) : List Decl → Nat
  | [] => 0
  | d :: ds => room (K d.var) + total K ds

/-- The declarations the parser accepts: variables and temporaries are all different, the declared ones are global and the
temporaries are not, arrays have no initialiser; and the frame is smaller than half the address space. -/
structure Proper (V : Vars) (K : Nat → Kind) (ds : List Decl) : Prop where
  distinct : (ds.map (·.var)).Nodup
  global : ∀ d ∈ ds, V.isGlobal d.var = true
  temp : ∀ d ∈ ds, ∀ t, d.tmp = some t → V.isGlobal t = false
  noArray : ∀ d ∈ ds, ∀ n, K d.var = .array n → d.tmp = none
  size : total K ds + 4 < 2 ^ 31

/-- The word stored for a declaration whose storage is at `a`, if any. -/
def initial (V : Vars) (K : Nat → Kind) (a : Word) (d : Decl) : Option Word :=
  match K d.var, d.tmp with
  | .array _, _ => some (a + 4)
  | _, some t => some (V.initVal t)
  | _, none => none

/-- Every variable has its own part of the frame. -/
structure Apart (K : Nat → Kind) (ds : List Decl) (ofs : Nat → Nat) (size : Nat) : Prop where
  inside : ∀ d ∈ ds, 4 ≤ ofs d.var ∧ ofs d.var % 4 = 0 ∧ ofs d.var + room (K d.var) ≤ size
  disjoint : ∀ d ∈ ds, ∀ e ∈ ds, d.var ≠ e.var →
    ofs d.var + room (K d.var) ≤ ofs e.var ∨ ofs e.var + room (K e.var) ≤ ofs d.var
  size : size % 4 = 0 ∧ size < 2 ^ 31

/-- `m'` is `m` with the variables initialised, the frame being at `gp`. -/
structure Initialised (V : Vars) (K : Nat → Kind) (ds : List Decl) (ofs : Nat → Nat) (gp : Word) (m m' : Mem) : Prop where
  init : ∀ d ∈ ds, ∀ x, initial V K (gp + num (ofs d.var)) d = some x → load32 m' (gp + num (ofs d.var)) = x
  rest : ∀ b, (∀ d ∈ ds, initial V K (gp + num (ofs d.var)) d ≠ none → ∀ k, k < 4 → b ≠ gp + num (ofs d.var) + BitVec.ofNat 32 k) →
    m' b = m b

end CGlobals
