import Verif.Spec.CBodyProg
import Verif.Spec.CUnit

/-!
# Specification: execution of a whole program
-/

namespace CUnit
open CTypes CBody IrM SsaProg

/-- The global variables `vs` at the addresses `addr` are initialised; memory was `m` and is `m1` afterwards.  An array variable is a pointer to its
elements, which follow it. -/
structure Started (E : Env) (vs : List (Named × Option CArith.Word)) (addr : Nat → Word) (m m1 : Mem) : Prop where
  init : ∀ (i : Nat) e w, vs[i]? = some (e, some w) → load32 m1 (addr i) = w
  array : ∀ (i : Nat) e v n t, vs[i]? = some (e, v) → e.2.type E = some (.arr n t) → load32 m1 (addr i) = addr i + 4
  rest : ∀ b, (∀ (i : Nat) e v, vs[i]? = some (e, v) → (v ≠ none ∨ ∃ n t, e.2.type E = some (.arr n t)) → ∀ k, k < 4 → b ≠ addr i + BitVec.ofNat 32 k) →
    m1 b = m b

/-- The functions of a program, by name: `addr` gives the addresses of global variables, `alloc` those of local arrays and structures. -/
def source (l : List Top) (addr : Nat → Word) (alloc : String → Word → Nat → Word) (keep : String → Word → Prop) (g : String) : Option BFn :=
  ((fns l).find? fun f => String.ofList f.name = g).map fun f => ⟨f.unit, f.body, decide (f.result = .void), addr, alloc g, keep g⟩

/-- Started in memory `m` with the stack pointer at `sp0` and the global variables above `gp`, the program initialises its variables and runs `main`,
which returns `r` and leaves memory `m'`. -/
def Exits (E : Env) (l : List Top) (addr : Nat → Word) (src : String → Option BFn) (gp sp0 : Word) (Pr : SrcProg) (m m' : Mem) (r : Option Word) : Prop :=
  ∃ m1 n bf, Started E (vars l) addr m m1 ∧ src "main" = some bf ∧
    CBody.Call Pr src n (stackBelow Pr gp) gp "main" (mainArgs m1 sp0 bf.params.length) m1 m' r

end CUnit
