import Verif.Spec.RaLink

/-!
# Specification: the blocks for which register allocation is claimed to be correct

`Uses` is about the source alone: operands have values and the analyses that run before allocation are right about them.
`Grouped` says how calls are laid out by the parser.  `NoClash` is about the allocator's choices: it excludes the situations in
which the code is known to be wrong (see the counterexamples beside the theorems).
-/

namespace RaLink
open Shecc Shecc.Ssa Shecc.RegAlloc IrM SrcBlock

/-- The variable an instruction gives a value (declaring an `int` does not). -/
def result (V : Vars) (i : Insn) : Option Nat :=
  match i.op, i.rd with
  | .allocat, some d => if V.basic d then none else some d
  | _, r => r

/-- One instruction, at index `idx` of its block. `D`: the variables that have a value. `use`: index of the last use. -/
structure UseOk (V : Vars) (B : Block) (use : Nat → Int) (D : Nat → Prop) (idx : Nat) (i : Insn) : Prop where
  operand : ∀ v, i.rs1 = some v ∨ i.rs2 = some v → D v ∧ (v ∈ B.liveOut ∨ (idx : Int) ≤ use v)
  killed : ∀ d, i.rd = some d → d ∈ B.killed
  local_ : ∀ d, i.rd = some d → V.isGlobal d = true → i.op = .load_constant ∨ i.op = .load_data_address ∨ i.op = .assign
  unused : ∀ d, i.rd = some d → use d < 0 → V.isGlobal d = false ∧ d ∉ B.liveOut
  noResult : i.op = .write → i.rd = none
  fresh : ∀ d, i.op = .allocat → i.rd = some d → V.basic d = false → ¬ D d

def Uses (V : Vars) (B : Block) (use : Nat → Int) : (Nat → Prop) → Nat → List Insn → Prop
  | _, _, [] => True
  | D, idx, i :: is => UseOk V B use D idx i ∧ Uses V B use (fun v => D v ∨ result V i = some v) (idx + 1) is

/-- Instructions that are neither calls nor part of the end of a block. -/
def simple : Op1 → Bool
  | .allocat | .load_constant | .load_data_address | .address_of | .assign | .read | .write | .alu _ => true
  | _ => false

/-- The instructions of a call: pushes numbered down, then the call. A call without arguments is of a function without
parameters. -/
structure CallSeq (V : Vars) (ps : List Insn) (c : Insn) : Prop where
  push : ∀ p ∈ ps, p.op = .push
  size : ∀ k, (h : k < ps.length) → ps[k].sz = ps.length - k
  max : ps.length ≤ 8
  call : c.op = .call
  params : ∃ n, V.numParams c.str = some n ∧ (ps = [] → n = 0)
  noDest : c.rd = none ∧ ∀ p ∈ ps, p.rd = none

/-- Simple instructions and calls; the result of a call is fetched at once. -/
inductive Grouped (V : Vars) : List Insn → Prop
  | nil : Grouped V []
  | one {i is} (h : simple i.op = true) (hs : Grouped V is) : Grouped V (i :: is)
  | call {ps c is} (h : CallSeq V ps c) (hs : Grouped V is) : Grouped V (ps ++ c :: is)
  | callRet {ps c f is} (h : CallSeq V ps c) (hf : f.op = .func_ret) (hs : Grouped V is) : Grouped V (ps ++ c :: f :: is)

/-- The register chosen for the second of two operands is not the one chosen for the first. -/
def OperandsApart (V : Vars) (B : Block) (a b : Nat) (st : RA) : Prop :=
  a ≠ b → (prepareOperand V B a none st).2 ≠
    (prepareOperand V B b (some (prepareOperand V B a none st).2) (prepareOperand V B a none st).1).2

/-- The allocator's choices for an instruction, in the state after `refresh`. -/
structure InsnFine (V : Vars) (B : Block) (idx : Nat) (i : Insn) (st : RA) : Prop where
  bin : ∀ o a b, i.op = .alu o → isBinOp o = true → i.rs1 = some a → i.rs2 = some b →
    OperandsApart V B a b st ∧ (o = .div ∨ o = .mod → a ≠ b)
  write : ∀ a b, i.op = .write → i.rs1 = some a → i.rs2 = some b →
    V.isFunc b = false ∧ OperandsApart V B a b (spillAlive V B idx st)
  assign : ∀ d a, i.op = .assign → i.rd = some d → i.rs1 = some a → st.consumed d ≠ -1 → findReg st a = none →
    (prepareOperand V B a none st).2 ≠
      (prepareDest V B d (some (prepareOperand V B a none st).2) none (prepareOperand V B a none st).1).2
  declare : ∀ d, i.op = .allocat → i.rd = some d → V.basic d = false → st.offset d = 0
  push : ∀ a, i.op = .push → i.rs1 = some a → st.pushing = false →
    ∀ j, j < 8 → (spillAlive V B idx (extendLiveness B idx a i.sz st)).var j = none

def NoClash (V : Vars) (B : Block) : Nat → List Insn → RA → Prop
  | _, [], _ => True
  | idx, i :: is, st =>
    InsnFine V B idx i (refresh B idx st) ∧ ∀ st', allocInsn V B idx i st = some st' → NoClash V B (idx + 1) is st'

/-- The copies for the phi instructions of the next blocks, from index `idx` on: each copies a variable that has a value and is
not among the targets `T` so far to a local variable that this block does not define. -/
def Phis (V : Vars) (B : Block) (use : Nat → Int) (D : Nat → Prop) : (Nat → Prop) → Nat → List Insn → Prop
  | _, _, [] => True
  | T, idx, i :: is =>
    (∃ d a, i.op = .unwound_phi ∧ i.rd = some d ∧ i.rs1 = some a ∧ D a ∧ ¬ T a ∧ (a ∈ B.liveOut ∨ (idx : Int) ≤ use a) ∧
      V.isGlobal d = false ∧ d ∉ B.killed) ∧
    Phis V B use D (fun v => T v ∨ i.rd = some v) (idx + 1) is

/-- What the last instruction of a block needs of its operand. -/
structure LastOk (V : Vars) (B : Block) (use : Nat → Int) (live : Nat → Prop) (body phis : List Insn) (a : Nat) : Prop where
  val : (V.isGlobal a = true ∨ live a) ∨ ∃ i ∈ body, result V i = some a
  noPhi : ∀ i ∈ phis, i.rd ≠ some a
  use_ : a ∈ B.liveOut ∨ ((body.length + phis.length : Nat) : Int) ≤ use a

/-- On entry to a block: the frame is in place, visible memory is the source's, and each local of `live` is either in a
register (with its slot out of date) or in its frame word and in no register. -/
structure Entry (C : Ctx) (V : Vars) (sp gp : Word) (fofs : Nat → Nat) (live : Nat → Prop) (st : RA) (s : St) (t : State) : Prop where
  sp : t.sp = sp
  gp : t.gp = gp
  mem : ∀ a, ¬ C.hidden a → t.mem a = s.mem a
  gofs : ∀ v, V.isGlobal v = true → st.offset v = fofs v
  stack : st.stack ≠ 0
  args : s.args = []
  regs : ∀ i, i < 8 → ∀ v, st.var i = some v → V.isGlobal v = false ∧ live v ∧ t.reg (r3 i) = s.val v ∧ st.pol i = true
  once : ∀ i j v, i < 8 → j < 8 → st.var i = some v → st.var j = some v → i = j
  slots : ∀ v, live v → V.isGlobal v = false → (∀ i, i < 8 → st.var i ≠ some v) → st.offset v ≠ 0 ∧ slot t (fofs v) = s.val v

/-- The variable has a value at the end of the block. -/
def Valued (V : Vars) (live : Nat → Prop) (body phis : List Insn) (v : Nat) : Prop :=
  (live v ∨ ∃ i ∈ body, result V i = some v) ∨ ∃ i ∈ phis, i.rd = some v

/-- On leaving a block for another one: `Between` holds for the variables `out`, no arguments are pending, and each of
those variables has been given a frame word by then. -/
structure Exit (C : Ctx) (V : Vars) (sp gp : Word) (fofs : Nat → Nat) (out : Nat → Prop) (st : RA) (s : St) (t : State) : Prop where
  between : Between C V sp gp fofs out s t
  args : s.args = []
  slots : ∀ v, out v → V.isGlobal v = false → st.offset v ≠ 0
  gofs : ∀ v, V.isGlobal v = true → st.offset v = fofs v
  stack : st.stack ≠ 0

/-- The variables an instruction names. -/
def mentions (i : Insn) (v : Nat) : Prop := i.rd = some v ∨ i.rs1 = some v ∨ i.rs2 = some v

/-- Last use of each variable as the allocator records it: passing a variable to a call extends it to the call. -/
def bump (B : Block) (idx : Nat) (i : Insn) (con : Nat → Int) : Nat → Int :=
  match i.op, i.rs1 with
  | .push, some a => if a ∈ B.liveOut then con else fun v => if v = a then max (con a) ((idx : Int) + i.sz) else con v
  | _, _ => con

/-- Conditions on one instruction, at index `idx`, about the source only. `M`: the variables named before it in the block, or in
registers at the beginning; `O`: the variables that had a frame word at the beginning; `con`: last uses. -/
structure Modest (V : Vars) (B : Block) (O M : Nat → Prop) (con : Nat → Int) (idx : Nat) (i : Insn) : Prop where
  /-- at most six variables are live-out or have a use at or after this instruction -/
  six : ∃ P : List Nat, P.length ≤ 6 ∧ ∀ v, M v → v ∈ B.liveOut ∨ (idx : Int) ≤ con v → v ∈ P
  div : i.op = .alu .div ∨ i.op = .alu .mod → i.rs1 ≠ i.rs2
  write : i.op = .write → ∀ b, i.rs2 = some b → V.isFunc b = false
  assign : i.op = .assign → i.rd ≠ i.rs1
  declare : i.op = .allocat → ∀ d, i.rd = some d → V.basic d = false → ¬ O d ∧ ¬ M d
  /-- an argument is the only variable last used where it is pushed -/
  push : i.op = .push → 0 < i.sz ∧ ∀ v, M v → v ∉ B.liveOut → i.rs1 ≠ some v → con v ≠ (idx : Int)

def AllModest (V : Vars) (B : Block) (O : Nat → Prop) : (Nat → Prop) → (Nat → Int) → Nat → List Insn → Prop
  | _, _, _, [] => True
  | M, con, idx, i :: is =>
    Modest V B O M con idx i ∧ AllModest V B O (fun v => M v ∨ mentions i v) (bump B idx i con) (idx + 1) is

end RaLink
