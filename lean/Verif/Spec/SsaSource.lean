import Verif.Model.SsaBuild

/-!
# Specification: what the construction of SSA form asks of a function
-/

namespace Shecc.SsaBuild
open CGraph CRename

/-- What the source must satisfy: instructions are not copies, branches assign nothing, functions are not assigned. -/
structure Fn.Plain (f : Fn) : Prop where
  noCopy : ∀ b, ∀ i ∈ f.code b, i.op ≠ .unwound_phi
  branch : ∀ b, ∀ i ∈ f.code b, i.op = .branch → i.rd = none
  func : ∀ b, ∀ i ∈ f.code b, ∀ v, i.rd = some v → f.isFunc v = false

/-- Where the renamed variables live, for `H` the homes in the source: renaming moves no variable between memory and registers;
variables that are not renamed keep their address, and so does one name of each of the others, given by `nm`. -/
structure Fn.Homes (f : Fn) (nm : Nat → Nat) (H : Home Nat) (H' : Home Name) : Prop where
  mem : ∀ v o, H'.mem (v, o) = H.mem v
  addr : ∀ v, H'.addr (v, none) = H.addr v
  addr0 : ∀ v, f.isGlobal v = false → H.mem v = true → H'.addr (v, some (nm v)) = H.addr v
  /-- the address of a variable outside memory is never asked for -/
  taken : ∀ b, ∀ i ∈ f.code b, i.op = .address_of → ∀ v, i.rs1 = some v → H.mem v = true
  globals : ∀ v, f.isGlobal v = true → H.mem v = true

/-- The control-flow graph is well formed: both directions agree, the entry has no predecessor, and blocks that can be reached
have no predecessor that cannot (src/ssa.c:238-242 would follow a null pointer). -/
structure Fn.Linked (f : Fn) : Prop where
  edges : ∀ a b, b ∈ f.g.succs a ↔ a ∈ f.g.preds b
  entry : f.g.preds f.g.entry = []
  preds : ∀ b, Reach f.g.succs f.g.entry b → ∀ q ∈ f.g.preds b, Reach f.g.succs f.g.entry q

/-- `b` is where the paths through `q` meet others: a member of its dominance frontier. -/
def Fn.Meets (f : Fn) (q b : Nat) : Prop :=
  Reach f.g.succs f.g.entry q ∧ Reach f.g.succs f.g.entry b ∧ InDF f.g.succs f.g.entry q b

/-- Scoping: a local variable live where paths meet is in scope there, not declared there, and the block is not the exit; the
result of `?:`, `&&`, `||` is not needed beyond the block where its two values meet. -/
structure Fn.Scoped (f : Fn) : Prop where
  live : ∀ v q b, f.isGlobal v = false → f.Meets q b → LiveIn f.g.succs f.code v b →
    f.inScope v b = true ∧ f.isDecl v b = false ∧ b ≠ f.g.exit
  join : ∀ v q c b, f.isJoin v = true → Assigns v (f.code q) → f.Meets q c → f.Meets c b → ¬ LiveIn f.g.succs f.code v b

/-- A variable is initialised once, under the name with subscript `k`: either it is a parameter that is never assigned, or all
its assignments stand in one block, before any use, and only the last of them is not a declaration. -/
def Fn.InitOnce (f : Fn) (v k : Nat) : Prop :=
  (f.params.count v = 1 ∧ (∀ b, Reach f.g.succs f.g.entry b → ¬ Assigns v (f.code b)) ∧ k = 0) ∨
  (v ∉ f.params ∧ ∃ a xs i ys, f.code a = xs ++ i :: ys ∧ i.rd = some v ∧ ¬ Uses i v ∧
    (∀ x ∈ xs, ¬ Uses x v ∧ (x.rd = some v → x.op = .allocat)) ∧ (∀ y ∈ ys, y.rd ≠ some v) ∧
    (∀ b, Reach f.g.succs f.g.entry b → b ≠ a → ¬ Assigns v (f.code b)) ∧ k = (xs.filterMap (·.rd)).count v)

/-- Local variables in memory are initialised once, and are out of scope where the paths through that block meet others. -/
structure Fn.Tame (f : Fn) (nm : Nat → Nat) (H : Home Nat) : Prop where
  once : ∀ v, f.isGlobal v = false → H.mem v = true → f.InitOnce v (nm v)
  scope : ∀ v q b, f.isGlobal v = false → H.mem v = true → Assigns v (f.code q) → f.Meets q b →
    f.inScope v b = false ∨ f.isDecl v b = true ∨ b = f.g.exit

/-- A phi is wanted for the variable at the block: paths meet there of which one assigns it, in the source or by a phi, and the
variable is a local one in scope there that is not declared there. -/
inductive Fn.Wanted (f : Fn) (v : Nat) : Nat → Prop
  | assigned {q b : Nat} (hq : Assigns v (f.code q)) (hm : f.Meets q b) (hs : f.inScope v b = true) (hd : f.isDecl v b = false)
      (he : b ≠ f.g.exit) : Wanted f v b
  | phi {q b : Nat} (hq : Wanted f v q) (hm : f.Meets q b) (hs : f.inScope v b = true) (hd : f.isDecl v b = false)
      (he : b ≠ f.g.exit) : Wanted f v b

/-- Variables are declared before they are used: a local variable that an instruction reads is a parameter or is assigned (an
`allocat` assigns) earlier in the block or in a block that dominates it; and where a phi is wanted for a variable that some block
reads before assigning it, it is assigned on the way to each predecessor. -/
structure Fn.Declared (f : Fn) : Prop where
  use : ∀ b v xs i ys, Reach f.g.succs f.g.entry b → f.isGlobal v = false → f.code b = xs ++ i :: ys →
    (i.rs1 = some v ∨ i.rs2 = some v ∧ f.isFunc v = false) →
    v ∈ f.params ∨ Assigns v xs ∨ ∃ a, SDom f.g.succs f.g.entry a b ∧ Assigns v (f.code a)
  phi : ∀ b v q, Reach f.g.succs f.g.entry q → b ∈ f.g.succs q → f.isGlobal v = false → f.Wanted v b →
    (∃ c, Reach f.g.succs f.g.entry c ∧ ReadsFirst v (f.code c)) → v ∈ f.params ∨ ∃ a, Dom f.g.succs f.g.entry a q ∧ Assigns v (f.code a)

/-- The names a block assigns, after renaming: the targets of its phis, then those of its instructions. -/
def assigned (S : St) (b : Nat) : List Name := (S.phi b).map (fun p => (p.var, p.sub)) ++ (S.code b).filterMap (·.rd)

end Shecc.SsaBuild
