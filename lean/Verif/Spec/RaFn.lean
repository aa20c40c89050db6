import Verif.Spec.RaBlock
import Verif.Spec.CGraph
import Verif.Spec.System
import Verif.Spec.Segment
import Verif.Model.Peephole

/-!
# Specification: execution of a function in SSA form, placement of its code, and the functions for which register allocation is
claimed to be correct
-/

namespace RaFn
open Shecc Shecc.Ssa Shecc.RegAlloc IrM SrcBlock RaLink

/-- Successors of a block. -/
def succs (F : RegAlloc.Fn) (b : Nat) : List Nat :=
  if b = F.fnExit then []
  else match (F.block b).next with
    | some n => [n]
    | none => [(F.block b).then_, (F.block b).else_]

/-- `Exec C F void b s r m`: from block `b` in state `s` the function returns `r` (`none`: no value) and leaves memory `m`. A
function that does not return a value may reach its end; another one has no execution in that case. -/
inductive Exec (C : Ctx) (F : RegAlloc.Fn) (void : Bool) : Nat → St → Option Word → Mem → Prop
  | next {b n s s' r m} (hr : SrcBlock.Run C (F.insns b) s s') (hn : (F.block b).next = some n) (hne : n ≠ F.fnExit)
      (hx : Exec C F void n s' r m) : Exec C F void b s r m
  | branch {b is br a s s' r m} (hi : F.insns b = is ++ [br]) (ho : br.op = .branch) (ha : br.rs1 = some a)
      (hr : SrcBlock.Run C is s s') (hn : (F.block b).next = none)
      (hne : (if rd C s' a ≠ 0#32 then (F.block b).then_ else (F.block b).else_) ≠ F.fnExit)
      (hx : Exec C F void (if rd C s' a ≠ 0#32 then (F.block b).then_ else (F.block b).else_) s' r m) : Exec C F void b s r m
  | ret {b is re a s s'} (hi : F.insns b = is ++ [re]) (ho : re.op = .ret) (ha : re.rs1 = some a)
      (hr : SrcBlock.Run C is s s') : Exec C F void b s (some (rd C s' a)) s'.mem
  | retVoid {b is re s s'} (hi : F.insns b = is ++ [re]) (ho : re.op = .ret) (ha : re.rs1 = none)
      (hr : SrcBlock.Run C is s s') : Exec C F void b s none s'.mem
  | fall {b s s'} (hr : SrcBlock.Run C (F.insns b) s s') (hn : (F.block b).next = some F.fnExit) (hv : void = true) :
      Exec C F void b s none s'.mem

/-- `ir'` is `ir` as it is when code is generated: a return has been told the frame size, and a branch may have been marked. -/
def Final (stack : Word) (ir ir' : Ph2Ir) : Prop :=
  ∃ d, ir' = { (if ir.op = .ret then { ir with src1 := stack } else ir) with is_branch_detached := d }

/-- The instructions are in the program, one after the other, from `a` to `e`. -/
inductive At (P : Program) (stack : Word) : Word → List Ph2Ir → Word → Prop
  | nil (a) : At P stack a [] a
  | cons {a ir ir' nxt irs e} (hf : Final stack ir ir') (h : P a ir' nxt) (hs : At P stack nxt irs e) : At P stack a (ir :: irs) e

/-- The blocks of a function are in the program, one after the other, from `a`; every block but the first is at its address. -/
inductive Laid (A : Abi) (P : Program) (stack : Word) : Word → List (Nat × List Ph2Ir) → Prop
  | nil (a) : Laid A P stack a []
  | cons {a b code e rest} (h : At P stack a code e) (hn : ∀ c ∈ rest.head?, A.blockAddr c.1 = e) (hr : Laid A P stack e rest) :
      Laid A P stack a ((b, code) :: rest)

/-- The same registers, stack and memory. -/
structure Same (t u : State) : Prop where
  reg : u.reg = t.reg
  sp : u.sp = t.sp
  gp : u.gp = t.gp
  mem : u.mem = t.mem

/-- The machine in front of a call with arguments `args` in source memory `m`. -/
structure CallPre (C : Ctx) (sp gp : Word) (args : List Word) (m : Mem) (t : State) : Prop where
  sp : t.sp = sp
  gp : t.gp = gp
  mem : ∀ a, ¬ C.hidden a → t.mem a = m a
  len : args.length ≤ 8
  reg : ∀ k, k < args.length → t.reg (r3 k) = args.getD k 0

/-- The machine after a call, made in state `t`, that returned `r` and left source memory `m'`: registers other than that of the
result may have changed, the frame's words have not. -/
structure CallPost (C : Ctx) (V : Vars) (sp gp : Word) (fofs : Nat → Nat) (m' : Mem) (r : Option Word) (t t' : State) : Prop where
  sp : t'.sp = sp
  gp : t'.gp = gp
  result : ∀ x, r = some x → t'.reg 0 = x
  mem : ∀ a, ¬ C.hidden a → t'.mem a = m' a
  slot : ∀ v, V.isGlobal v = false → fofs v ≠ 0 → slot t' (fofs v) = slot t (fofs v)

/-- A call instruction of the program does what the source's call does. -/
def CallsDo (A : Abi) (P : Program) (os : Os) (sys : Word) (C : Ctx) (V : Vars) (sp gp : Word) (fofs : Nat → Nat) : Prop :=
  ∀ ir nxt (t : State) args m m' r, P t.pc ir nxt → ir.op = .call → CallPre C sp gp args m t → C.call ir.func_name args m m' r →
    ∃ u, XRun A P os sys t u ∧ u.pc = nxt ∧ CallPost C V sp gp fofs m' r t u

/-- Register `r` is not used before it is overwritten; `nargs f`: the number of argument registers of `f`. After the end of a
block, and after a call, no register but that of the result is used. -/
def NotUsed (nargs : String → Nat) (r : BitVec 3) : List Ph2Ir → Prop
  | [] => True
  | ir :: rest =>
    if ir.op = .call then nargs ir.func_name ≤ r.toNat
    else if straight ir.op then ¬ Reads ir r ∧ (Writes ir r ∨ NotUsed nargs r rest)
    else ir.op = .jump ∨ ¬ isReg ir.src0 r

/-- Where the peephole pass merges two instructions, it may: the register between them is not used afterwards, and the second
instruction does not use it twice. -/
def PeepOk (nargs : String → Nat) : List Ph2Ir → Prop
  | a :: b :: rest =>
    ((Peep.fuse a b).isSome → (a.op = .load_constant → b.src0 ≠ b.src1) ∧
      (a.dest ≠ b.dest → ∀ r : BitVec 3, isReg a.dest r → NotUsed nargs r rest)) ∧ PeepOk nargs (b :: rest)
  | _ => True

/-- The blocks as they are, or after the peephole pass. -/
def Tidied (nargs : String → Nat) (l l' : List (Nat × List Ph2Ir)) : Prop :=
  l' = l ∨ ((∀ p ∈ l, PeepOk nargs p.2) ∧ l' = l.map fun p => (p.1, Peep.block p.2))

/-- Last uses after the instructions of a block. -/
def bumps (B : RegAlloc.Block) : Nat → List Insn → (Nat → Int) → Nat → Int
  | _, [], con => con
  | idx, i :: is, con => bumps B (idx + 1) is (bump B idx i con)

/-- Last uses after the blocks `pre`. -/
def conAt (F : RegAlloc.Fn) (con : Nat → Int) (pre : List Nat) : Nat → Int :=
  pre.foldl (fun con b => bumps (F.block b) 0 (F.insns b) con) con

/-- Globals, parameters and the variables named in the blocks `pre`. -/
def Named (V : Vars) (F : RegAlloc.Fn) (params pre : List Nat) (v : Nat) : Prop :=
  V.isGlobal v = true ∨ v ∈ params ∨ ∃ b ∈ pre, ∃ i ∈ F.insns b, mentions i v

/-- How a block ends. -/
inductive Ends (V : Vars) (F : RegAlloc.Fn) (use : Nat → Int) (live : Nat → Prop) (b : Nat) (body phis : List Insn) : List Insn → Prop
  | next {n} (hn : (F.block b).next = some n) : Ends V F use live b body phis []
  | branch {br a} (hn : (F.block b).next = none) (ho : br.op = .branch) (ha : br.rs1 = some a)
      (hl : LastOk V (F.block b) use live body phis a) : Ends V F use live b body phis [br]
  | ret {re a} (hn : (F.block b).next = some F.fnExit) (ho : re.op = .ret) (ha : re.rs1 = some a)
      (hl : LastOk V (F.block b) use live body phis a) : Ends V F use live b body phis [re]
  | retVoid {re} (hn : (F.block b).next = some F.fnExit) (ho : re.op = .ret) (ha : re.rs1 = none) : Ends V F use live b body phis [re]

/-- The conditions on block `b`, allocated after the blocks `pre`. `use`: last uses as computed by the analyses; `live`: the
variables with a value at the start of the block; `out`: the local variables with a value at the start of a block that follows. -/
structure BlockFine (V : Vars) (F : RegAlloc.Fn) (params pre : List Nat) (use : Nat → Int) (live out : Nat → Prop) (b : Nat)
    (body phis last : List Insn) : Prop where
  insns : F.insns b = body ++ phis ++ last
  ends : Ends V F use live b body phis last
  grouped : Grouped V body
  uses : Uses V (F.block b) use (fun v => V.isGlobal v = true ∨ live v) 0 body
  modest : AllModest V (F.block b) (Named V F params pre) (fun v => pre = [] ∧ v ∈ params) (conAt F use pre) 0 body
  phi : Phis V (F.block b) use (fun v => (V.isGlobal v = true ∨ live v) ∨ ∃ i ∈ body, result V i = some v) (fun _ => False)
    body.length phis
  valued : ∀ v, out v → v ∈ (F.block b).liveOut ∧ Valued V live body phis v

/-- The local variables with a value at the start of a block that follows `b`. -/
def liveNext (V : Vars) (F : RegAlloc.Fn) (live : Nat → Nat → Prop) (b v : Nat) : Prop :=
  V.isGlobal v = false ∧ ∃ n ∈ succs F b, n ≠ F.fnExit ∧ live n v

/-- The conditions on a function. `order`: its blocks as they are laid out, the entry first; `live b`: the local variables with a
value at the start of `b`. -/
structure FnOk (V : Vars) (F : RegAlloc.Fn) (params : List Nat) (exitPrev : List Nat) (entry : Nat) (rest : List Nat)
    (use : Nat → Int) (live : Nat → Nat → Prop) : Prop where
  nodup : (entry :: rest).Nodup
  numbered : ∀ k b, (entry :: rest)[k]? = some b → F.rpo b = F.rpo entry + k
  entryExit : entry ≠ F.fnExit
  exit : F.insns F.fnExit = [] ∧ (F.block F.fnExit).next = none
  prev : ∀ b, b ∈ exitPrev ↔ F.fnExit ∈ succs F b
  closed : ∀ b ∈ entry :: rest, ∀ n ∈ succs F b, n ∈ rest
  /-- every block but the first follows one that is earlier in the layout -/
  reached : ∀ n ∈ rest, n ≠ F.fnExit → ∃ b, n ∈ succs F b ∧ CGraph.Before (entry :: rest) b n
  block : ∀ pre b post, entry :: rest = pre ++ b :: post → b ≠ F.fnExit →
    ∃ body phis last, BlockFine V F params pre use (live b) (liveNext V F live b) b body phis last
  param : params.length ≤ 8 ∧ params.Nodup ∧ ∀ p ∈ params, V.isGlobal p = false ∧ p ∈ (F.block entry).killed
  start : ∀ v, live entry v ↔ v ∈ params

/-- The machine on entry to a function whose parameters are `params` (after its frame has been allocated). -/
structure Enters (C : Ctx) (sp gp : Word) (params : List Nat) (s : St) (t : State) : Prop where
  sp : t.sp = sp
  gp : t.gp = gp
  mem : ∀ a, ¬ C.hidden a → t.mem a = s.mem a
  args : s.args = []
  param : ∀ k p, params[k]? = some p → t.reg (r3 k) = s.val p

/-- The machine is about to return `r`, with visible memory `m` and the frame in place. -/
structure Returns (C : Ctx) (P : Program) (sp gp stack : Word) (r : Option Word) (m : Mem) (t : State) : Prop where
  sp : t.sp = sp
  gp : t.gp = gp
  mem : ∀ a, ¬ C.hidden a → t.mem a = m a
  ret : ∃ ir nxt, P t.pc ir nxt ∧ ir.op = .ret ∧ ir.src1 = stack ∧
    match r with
    | none => ir.src0 = -1#32
    | some x => ∃ k : BitVec 3, isReg ir.src0 k ∧ t.reg k = x

end RaFn
