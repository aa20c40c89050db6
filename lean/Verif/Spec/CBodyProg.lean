import Verif.Spec.CBody

/-!
# Specification: execution of a program of several functions given as they are written

As `Spec/CProgram`, with the statements and expressions of `Spec/CBody` and `Spec/CEval` instead of the trees of `Spec/CStmt`: memory is made
of bytes, and the answers to the calls made are given beforehand (`CProg.World.script`).
-/

namespace CBody
open IrM SrcBlock CProg

/-- Reading four bytes, or one, at a visible address. -/
noncomputable def loadAt (C : Ctx) (k : Nat) (w : World) (x : Word) : Option Word :=
  open Classical in
  if k = 4 ∧ Vis C x 4 then some (load32 w.mem x)
  else if k = 1 ∧ Vis C x 1 then some (C.byteVal (w.mem x)) else none

/-- Writing four bytes, or one.  The variables whose addresses `keep` holds do not change. -/
noncomputable def storeAt (C : Ctx) (keep : Word → Prop) (k : Nat) (w : World) (x y : Word) : Option World :=
  open Classical in
  if k = 4 ∧ Vis C x 4 ∧ (∀ g, keep g → load32 (store32 w.mem x y) g = load32 w.mem g) then some { w with mem := store32 w.mem x y }
  else if k = 1 ∧ Vis C x 1 ∧ (∀ g, keep g → load32 (store8 w.mem x (y.setWidth 8)) g = load32 w.mem g) then
    some { w with mem := store8 w.mem x (y.setWidth 8) }
  else none

/-- The next answer of the script, if it is one that the function can give. -/
noncomputable def callAt (C : Ctx) (f : List Char) (vs : List Word) (w : World) : Option (World × Option Word) :=
  open Classical in
  match w.script with
  | [] => none
  | (m, r) :: rest =>
    if w.args = [] ∧ C.call (String.ofList f) vs w.mem m r then some ({ w with mem := m, ret := r, script := rest }, r) else none

/-- The machine of `Spec/CProgram`. -/
noncomputable def bmach (C : Ctx) (alloc : Nat → Word) (keep : Word → Prop) : CRename.Mach := mach C (fun x _ => alloc x) keep

/-- Calls, stores, `return` and declarations.  A call whose value is used has a value.  There are no calls through pointers. -/
noncomputable def lang (C : Ctx) (alloc : Nat → Word) (keep : Word → Prop) (H : CRename.Home Nat) :
    Lang (machOf (bmach C alloc keep) H C.dataAddr (loadAt C)) where
  call := fun f vs (w : World) => (callAt C f vs w).bind fun q => q.2.map fun r => (q.1, r)
  icall := fun _ _ _ => none
  store := fun k (w : World) x y => storeAt C keep k w x y
  scall := fun f vs (w : World) => (callAt C f vs w).map (·.1)
  ret := fun v (w : World) => { w with result := some v }
  alloc := alloc

/-- A function: what its names mean, its body, whether it returns no value, the addresses of the global variables and, given the frame's
address, of the arrays declared in it. -/
structure BFn where
  unit : Unit
  body : Stmts
  void : Bool
  gaddr : Nat → Word
  alloc : Word → Nat → Word
  keep : Word → Prop

def BFn.params (bf : BFn) : List Nat := bf.unit.params.map (·.2)

def BFn.isGlobal (bf : BFn) (x : Nat) : Bool := bf.unit.globals.any fun e => e.2 == x

/-- Global variables live in memory. -/
def BFn.home (bf : BFn) : CRename.Home Nat := ⟨bf.isGlobal, bf.gaddr⟩

open SsaProg in
/-- As `CProg.Call`, for functions as they are written. -/
def Call (Pr : SrcProg) (src : String → Option BFn) : Nat → (Word → Prop) → Word → String → List Word → Mem → Mem → Option Word → Prop
  | 0, _, _, _, _, _, _, _ => False
  | n + 1, hid, sp, g, args, m, m', r =>
    (∀ a, hid a → m' a = m a) ∧
    if g = "__syscall" then SysCall Pr hid args m m' r
    else ∃ f bf, Pr.fn g = some f ∧ src g = some bf ∧ args.length = bf.params.length ∧
      Pr.lo + f.size + 12 ≤ sp.toNat ∧
      ∀ μ, Agree hid m μ → ∃ (e : Nat → Word) (script : List (Mem × Option Word)) (o : CStmt.Out) (w : World) (e' : Nat → Word),
        bf.params.map e = args ∧
        ExecAll (lang (ctx Pr f (inside f sp) (hiddenIn f (inside f sp) hid)
            (Call Pr src n (hiddenIn f (inside f sp) hid) (inside f sp))) (bf.alloc (inside f sp)) bf.keep bf.home)
          bf.unit.E bf.unit.decl bf.body ((⟨μ, [], none, none, script⟩ : World), e) o (w, e') ∧
        Ended bf.void w r ∧ Agree hid m' w.mem

open SsaProg Shecc.GlobalInit CGlobals Shecc.RegAlloc in
/-- Started in memory `m`, the program initialises its global variables and runs `main`, which returns `r` and leaves memory `m'`. -/
def Exits (V : Vars) (K : Nat → Kind) (ds : List Decl) (fin : RA) (sp0 : Word) (Pr : SrcProg) (src : String → Option BFn) (m m' : Mem)
    (r : Option Word) : Prop :=
  ∃ m1 n bf, Initialised V K ds fin.offset (sp0 - num fin.stack) m m1 ∧ src "main" = some bf ∧
    Call Pr src n (stackBelow Pr (sp0 - num fin.stack)) (sp0 - num fin.stack) "main" (mainArgs m1 sp0 bf.params.length) m1 m' r

end CBody
