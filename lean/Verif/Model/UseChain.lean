import Verif.Model.Cse

/-!
# Model of the use chains (`use_chain_t`) and of the walk of `cse` over them

`use_chain_add_tail`, `use_chain_delete`, `use_chain_build` (src/ssa.c:404-450) and the loop of `cse` (src/ssa.c:1239-1294)
at the level of pointers.  `Model/Cse` says what `cse` does to the instructions; here is what it does to the doubly linked
lists it walks while it releases elements of them.

Addresses of list elements, instructions and variables are natural numbers; the null pointer is `none`.  An access through
the null pointer or to a released element makes the result `none`, as does a loop that exceeds its fuel.
-/

namespace Shecc.UseChain

/-- An element of a doubly linked list: `use_chain_t` (src/defs.h:179-183; `insn` is an address) and what of `insn_t`
(src/defs.h:324-342) does not change places (there `insn` stands for the other fields). -/
structure Node (α : Type) where
  insn : α
  next : Option Nat
  prev : Option Nat

/-- The elements that are alive, and `users_head` and `users_tail` of every variable (src/defs.h:202-203). -/
structure Chains where
  node : Nat → Option (Node Nat)
  head : Nat → Option Nat
  tail : Nat → Option Nat

/-- assignment to one place (`a->f = x`, used for all updates of src/ssa.c:404-436) -/
def upd {α : Type} (f : Nat → α) (p : Nat) (x : α) : Nat → α := fun q => if q = p then x else f q

/-- an access to the element at `p`, which must be alive -/
def modify (p : Nat) (f : Node Nat → Node Nat) (s : Chains) : Option Chains :=
  match s.node p with
  | none => none
  | some n => some { s with node := upd s.node p (some (f n)) }

/-- `use_chain_add_tail(i, var)` (src/ssa.c:404-419); `u` is the address `calloc` returns, which succeeds. -/
def addTail (u i var : Nat) (s : Chains) : Option Chains :=
  let s := { s with node := upd s.node u (some ⟨i, none, none⟩) }
  let s? := match s.head var with
    | none => some { s with head := upd s.head var (some u) }
    | some _ => match s.tail var with
      | none => none
      | some t => modify t (fun n => { n with next := some u }) s
  match s? with
  | none => none
  | some s => match modify u (fun n => { n with prev := s.tail var }) s with
    | none => none
    | some s => some { s with tail := upd s.tail var (some u) }

/-- the first half of `use_chain_delete` (src/ssa.c:423-428); `n` is what `*u` holds -/
def unlinkPrev (n : Node Nat) (var : Nat) (s : Chains) : Option Chains :=
  match n.prev with
  | some p => modify p (fun m => { m with next := n.next }) s
  | none =>
    let s := { s with head := upd s.head var n.next }
    match n.next with
    | none => none
    | some x => modify x (fun m => { m with prev := none }) s

/-- the second half (src/ssa.c:429-434) -/
def unlinkNext (n : Node Nat) (var : Nat) (s : Chains) : Option Chains :=
  match n.next with
  | some x => modify x (fun m => { m with prev := n.prev }) s
  | none =>
    let s := { s with tail := upd s.tail var n.prev }
    match n.prev with
    | none => none
    | some p => modify p (fun m => { m with next := none }) s

/-- `use_chain_delete(u, var)` (src/ssa.c:421-436) -/
def delete (u var : Nat) (s : Chains) : Option Chains :=
  match s.node u with
  | none => none
  | some n => match unlinkPrev n var s with
    | none => none
    | some s => match s.node u with
      | none => none
      | some n => match unlinkNext n var s with
        | none => none
        | some s => match s.node u with
          | none => none
          | some _ => some { s with node := upd s.node u none }

/-- The operands `rs1` and `rs2` of the instructions (src/defs.h:205-228). -/
structure Operands where
  rs1 : Nat → Option Nat
  rs2 : Nat → Option Nat

/-- The calls of `use_chain_add_tail` that `use_chain_build` makes for one instruction (src/ssa.c:443-446): instruction and
variable. -/
def usesOf (o : Operands) (i : Nat) : List (Nat × Nat) :=
  (match o.rs1 i with | some v => [(i, v)] | none => []) ++ (match o.rs2 i with | some v => [(i, v)] | none => [])

/-- `use_chain_build` (src/ssa.c:438-450), over the instructions of all functions in the order of the loops; `addrs` are the
addresses that `calloc` returns. -/
def addAll : List (Nat × Nat) → List Nat → Chains → Option Chains
  | [], _, s => some s
  | _ :: _, [], _ => none
  | (i, v) :: us, u :: addrs, s => match addTail u i v s with
    | none => none
    | some s => addAll us addrs s

def build (o : Operands) (insns : List Nat) (addrs : List Nat) (s : Chains) : Option Chains :=
  addAll (insns.flatMap (usesOf o)) addrs s

/-- The search for the element of the other chain (src/ssa.c:1290-1293). -/
def search (j : Nat) (s : Chains) : Nat → Option Nat → Option Nat
  | 0, _ => none
  | _ + 1, none => none
  | n + 1, some w => match s.node w with
    | none => none
    | some nd => if nd.insn = j then some w else search j s n nd.next

/-- `if (d) use_chain_delete(d, d->insn->rs)` (src/ssa.c:1245-1252) -/
def deleteIf (rs : Nat → Option Nat) (d : Option Nat) (s : Chains) : Option Chains :=
  match d with
  | none => some s
  | some d => match s.node d with
    | none => none
    | some nd => match rs nd.insn with
      | none => none
      | some v => delete d v s

/-- The loop of `cse` (src/ssa.c:1241-1294) after the tests on the instruction itself.  `test` stands for the tests on the
instruction found (src/ssa.c:1256-1279), `act` for what is done to it (src/ssa.c:1281-1292), both on a state `m` of the
instructions; see `testInsn` and `replaceInsn` below.  `d1`, `d2` are `rs1_delete_user` and `rs2_delete_user`, `out` the
instructions replaced so far.  The operands of additions, which decide from which list an element is released, do not
change. -/
def walk {σ : Type} (o : Operands) (test : σ → Nat → Option Bool) (act : σ → Nat → Option σ) (prev idx : Nat) :
    Nat → Option Nat → Option Nat → Option Nat → List Nat → σ → Chains → Option (List Nat × σ × Chains)
  | 0, _, _, _, _, _, _ => none
  | _ + 1, none, _, _, out, m, s => some (out, m, s)
  | n + 1, some w, d1, d2, out, m, s => match s.node w with
    | none => none
    | some nd => match deleteIf o.rs1 d1 s with
      | none => none
      | some s => match deleteIf o.rs2 d2 s with
        | none => none
        | some s => match (if nd.insn = prev then some false else test m nd.insn) with
          | none => none
          | some false => match s.node w with
            | none => none
            | some nd => walk o test act prev idx n nd.next none none out m s
          | some true => match act m nd.insn with
            | none => none
            | some m => match search nd.insn s n (s.head idx) with
              | none => none
              | some d => match s.node w with
                | none => none
                | some nd => walk o test act prev idx n nd.next (some w) (some d) (out ++ [nd.insn]) m s

/-- One call of `cse` that gets to the loop (src/ssa.c:1236-1294): the addition before the read, and the outcome of the tests
for every instruction. -/
structure Call where
  prev : Nat
  ok : Nat → Bool

/-- `cse` with the tests that read other fields than the operands answered by `ok` (src/ssa.c:1222-1296); `base` and `idx` are
the operands of `prev` (src/ssa.c:1235); the result is what was replaced, and the chains. -/
def cse (o : Operands) (fuel : Nat) (c : Call) (s : Chains) : Option (List Nat × Chains) :=
  match o.rs1 c.prev, o.rs2 c.prev with
  | some base, some idx =>
    match walk o (fun (_ : Unit) i => some (c.ok i && decide (o.rs1 i = some base) && decide (o.rs2 i = some idx)))
        (fun _ _ => some ()) c.prev idx fuel (s.head base) none none [] () s with
    | none => none
    | some (out, _, s) => some (out, s)
  | _, _ => none

/-- The calls that `optimize` makes, one after the other (src/ssa.c:1537-1551), and all that they replace. -/
def calls (o : Operands) (fuel : Nat) : List Call → List Nat → Chains → Option (List Nat × Chains)
  | [], out, s => some (out, s)
  | c :: cs, out, s => match cse o fuel c s with
    | none => none
    | some (l, s) => calls o fuel cs (out ++ l) s

/-- The instructions, and `insn_list.head` of every block (src/defs.h:324-342, 344-372). -/
structure Mem where
  ins : Nat → Option (Node Ssa.Insn)
  head : Nat → Option Nat

/-- an access to the instruction at `p` -/
def modifyInsn (p : Nat) (f : Node Ssa.Insn → Node Ssa.Insn) (m : Mem) : Option Mem :=
  match m.ins p with
  | none => none
  | some c => some { m with ins := upd m.ins p (some (f c)) }

/-- The tests on the instruction found (src/ssa.c:1256-1279, without `i == prev`); `belong` is `belong_to`, which does not
change; the walk up the dominator tree is that of `Model/Cse`. -/
def testInsn (belong idom : Nat → Nat) (fuel b base idx : Nat) (m : Mem) (i : Nat) : Option Bool :=
  match m.ins i with
  | none => none
  | some c =>
    if c.insn.op ≠ .alu .add then some false
    else match c.next with
      | none => some false
      | some n => match m.ins n with
        | none => none
        | some cn =>
          if cn.insn.op ≠ .read then some false
          else if c.insn.rs1 ≠ some base ∨ c.insn.rs2 ≠ some idx then some false
          else some (Cse.domCheck idom b fuel (belong i))

/-- The replacement (src/ssa.c:1281-1292): the read behind the addition becomes an assignment from `d`, the addition is taken
out of its list. -/
def replaceInsn (belong : Nat → Nat) (d : Nat) (m : Mem) (i : Nat) : Option Mem :=
  match m.ins i with
  | none => none
  | some c => match c.next with
    | none => none
    | some n => match modifyInsn n (fun cn => { cn with insn := { cn.insn with op := .assign, rs1 := some d } }) m with
      | none => none
      | some m =>
        match (match c.prev with
          | some p => modifyInsn p (fun cp => { cp with next := some n }) m
          | none => some { m with head := upd m.head (belong i) (some n) }) with
        | none => none
        | some m => modifyInsn n (fun cn => { cn with prev := c.prev }) m

/-- `cse(insn, bb)` (src/ssa.c:1222-1296) at the level of pointers, for the instruction at `a` of block `b`. The result is
`none` for undefined behaviour, otherwise whether it applies, the instructions and the chains. -/
def cseInsn (o : Operands) (isGlobal : Nat → Bool) (belong idom : Nat → Nat) (fuel b a : Nat) (m : Mem) (s : Chains) :
    Option (Bool × Mem × Chains) :=
  match m.ins a with
  | none => none
  | some c =>
    if c.insn.op ≠ .read then some (false, m, s)
    else match c.prev with
      | none => some (false, m, s)
      | some p => match m.ins p with
        | none => none
        | some cp =>
          if cp.insn.op ≠ .alu .add then some (false, m, s)
          else if cp.insn.rd ≠ c.insn.rs1 then some (false, m, s)
          else match cp.insn.rs1, cp.insn.rs2, c.insn.rd with
            | some base, some idx, some d =>
              if isGlobal base || isGlobal idx then some (false, m, s)
              else match walk o (testInsn belong idom fuel b base idx) (replaceInsn belong d) p idx fuel (s.head base)
                  none none [] m s with
                | none => none
                | some (_, m, s) => some (true, m, s)
            | _, _, _ => none

end Shecc.UseChain
