import Verif.Spec.SsaExec
import Verif.Spec.CFlow
import Verif.Spec.SsaImage
import Verif.Spec.CFoldFn
import Verif.Spec.CDceFn
import Verif.Spec.CCse
import Verif.Model.Optimize
import Verif.Model.Cfg

/-!
# Specification: execution of a program of several functions given as statements

The instructions into which expressions are broken up have the meaning of `Spec/SrcBlock`: memory is made of bytes, and calls are
answered by a relation.  As the statements of `Spec/CStmt` are executed by a function, the answers to the calls made are given to it
beforehand (`script`), and it checks that each is a possible answer.
-/

namespace CProg
open Shecc Shecc.Ssa IrM SrcBlock
open CRename (Tag Mach Home Ins)

structure World where
  mem : Mem
  /-- arguments pushed so far -/
  args : List Word
  /-- result of the last call -/
  ret : Option Word
  /-- what the function returned, if it has (`some none`: no value) -/
  result : Option (Option Word)
  /-- answers to the calls to come: memory and result -/
  script : List (Mem × Option Word)

open Classical in
/-- What an instruction does, given the values of its operands. `alloc`: addresses of the arrays and structures declared (other
declarations give 0); `keep`: the global variables that writes take their address or value from: a write does not change these. -/
noncomputable def act (C : Ctx) (alloc : Nat → String → Word) (keep : Word → Prop) (t : Tag) (a b : Option Word) (w : World) :
    Option (World × Word) :=
  match t.op with
  | .load_constant => some (w, BitVec.ofNat 32 t.sz)
  | .load_data_address => some (w, C.dataAddr + BitVec.ofNat 32 t.sz)
  | .assign => a.map fun x => (w, x)
  | .address_of => a.map fun x => (w, x)
  | .alu o =>
    match binOf o, unOf o with
    | some op, _ => a.bind fun x => b.bind fun y => (CArith.bin op x y).map fun v => (w, v)
    | none, some op => a.map fun x => (w, CArith.un op x)
    | none, none => none
  | .read =>
    a.bind fun x =>
      if t.sz = 4 ∧ Vis C x 4 then some (w, load32 w.mem x)
      else if t.sz = 1 ∧ Vis C x 1 then some (w, C.byteVal (w.mem x)) else none
  | .write =>
    a.bind fun x => b.bind fun y =>
      if t.sz = 4 ∧ Vis C x 4 ∧ (∀ g, keep g → load32 (store32 w.mem x y) g = load32 w.mem g) then
        some ({ w with mem := store32 w.mem x y }, 0#32)
      else if t.sz = 1 ∧ Vis C x 1 ∧ (∀ g, keep g → load32 (store8 w.mem x (y.setWidth 8)) g = load32 w.mem g) then
        some ({ w with mem := store8 w.mem x (y.setWidth 8) }, 0#32)
      else none
  | .allocat => some (w, alloc t.sz t.str)
  | .push => a.map fun x => ({ w with args := w.args ++ [x] }, 0#32)
  | .call =>
    match w.script with
    | [] => none
    | (m, r) :: rest =>
      if C.call t.str w.args w.mem m r then some ({ w with mem := m, args := [], ret := r, script := rest }, 0#32) else none
  | .func_ret => w.ret.map fun x => (w, x)
  | .ret => some ({ w with result := some a }, 0#32)
  | .unwound_phi | .branch | .indirect => none

noncomputable def mach (C : Ctx) (alloc : Nat → String → Word) (keep : Word → Prop) : Mach where
  World := World
  get := fun w a => load32 w.mem a
  set := fun w a x => { w with mem := store32 w.mem a x }
  act := act C alloc keep

/-- A function as the parser sees it. Variables are numbered within the function. -/
structure SFn where
  body : CStmt.Stmts
  params : List Nat
  void : Bool
  isGlobal : Nat → Bool
  gaddr : Nat → Word
  /-- addresses of the arrays and structures declared, given the frame's -/
  alloc : Word → Nat → String → Word
  keep : Word → Prop

/-- Global variables live in memory. -/
def SFn.home (sf : SFn) : Home Nat := ⟨sf.isGlobal, sf.gaddr⟩

/-- How the function ended: with a `return`, or, if it returns no value, at the end of its body. -/
def Ended (void : Bool) (w : World) (r : Option Word) : Prop :=
  w.result = some r ∨ (w.result = none ∧ r = none ∧ void = true)

open SsaProg in
/-- As `SsaProg.Call`, for functions given as statements: a call of `g` with the stack pointer at `sp` takes memory `m` to `m'` and
returns `r`, calling to a depth of at most `n`. `Pr` gives the sizes of the frames, the addresses of globals, and the operating system. -/
def Call (Pr : SrcProg) (src : String → Option SFn) : Nat → (Word → Prop) → Word → String → List Word → Mem → Mem → Option Word → Prop
  | 0, _, _, _, _, _, _, _ => False
  | n + 1, hid, sp, g, args, m, m', r =>
    (∀ a, hid a → m' a = m a) ∧
    if g = "__syscall" then SysCall Pr hid args m m' r
    else ∃ f sf, Pr.fn g = some f ∧ src g = some sf ∧ args.length = sf.params.length ∧
      Pr.lo + f.size + 12 ≤ sp.toNat ∧
      ∀ μ, Agree hid m μ → ∃ (e : Nat → Word) (script : List (Mem × Option Word)) (k : Nat) (o : CStmt.Out) (w : World) (e' : Nat → Word),
        sf.params.map e = args ∧
        CStmt.execs (mach (ctx Pr f (inside f sp) (hiddenIn f (inside f sp) hid)
            (Call Pr src n (hiddenIn f (inside f sp) hid) (inside f sp))) (sf.alloc (inside f sp)) sf.keep)
          sf.home k sf.body (⟨μ, [], none, none, script⟩, e) = .ok o (w, e') ∧
        Ended sf.void w r ∧ Agree hid m' w.mem

open SsaProg GlobalInit CGlobals RegAlloc in
/-- Started in memory `m`, the program initialises its global variables and runs `main`, which returns `r` and leaves memory `m'`. -/
def Exits (V : Vars) (K : Nat → Kind) (ds : List Decl) (fin : RA) (sp0 : Word) (Pr : SrcProg) (src : String → Option SFn) (m m' : Mem)
    (r : Option Word) : Prop :=
  ∃ m1 n sf, Initialised V K ds fin.offset (sp0 - num fin.stack) m m1 ∧ src "main" = some sf ∧
    Call Pr src n (stackBelow Pr (sp0 - num fin.stack)) (sp0 - num fin.stack) "main" (mainArgs m1 sp0 sf.params.length) m1 m' r

/-! ### From names to numbers -/

/-- The instruction with its variables numbered. -/
def encode (enc : SsaBuild.Name → Nat) (i : Ins SsaBuild.Name) : Insn :=
  { op := i.op, rd := i.rd.map enc, rs1 := i.rs1.map enc, rs2 := i.rs2.map enc, sz := i.sz, str := i.str }

/-- The name occurs in the code. -/
def Occurs (out : Nat → List (Ins SsaBuild.Name)) (x : SsaBuild.Name) : Prop :=
  ∃ b, ∃ i ∈ out b, i.rd = some x ∨ i.rs1 = some x ∨ i.rs2 = some x

/-- `F` is the function `out` in SSA form, in the blocks `order`, with variables numbered by `enc`. -/
structure Numbered (order : List Nat) (g : Cfg.Graph) (out : Nat → List (Ins SsaBuild.Name)) (enc : SsaBuild.Name → Nat) (F : RegAlloc.Fn) : Prop where
  inj : ∀ x y, enc x = enc y → x = y
  insns : ∀ b ∈ order, F.insns b = (out b).map (encode enc)
  next : ∀ b ∈ order, (F.block b).next = (g.block b).next
  then_ : ∀ b ∈ order, ∀ c, (g.block b).then_ = some c → (F.block b).then_ = c
  else_ : ∀ b ∈ order, ∀ c, (g.block b).else_ = some c → (F.block b).else_ = c
  exit : F.fnExit = g.exit

/-- The data attached to the variables of a function in SSA form: their constants, which of them are global and where these are. -/
structure Attached (out : Nat → List (Ins SsaBuild.Name)) (enc : SsaBuild.Name → Nat) (isGlobal : Nat → Bool) (initVal gaddr : Nat → Word)
    (sf : SFn) : Prop where
  /-- constants are attached to the variables they are loaded into -/
  const : ∀ b, ∀ i ∈ out b, i.op = .load_constant ∨ i.op = .load_data_address → ∀ d, i.rd = some d → initVal (enc d) = BitVec.ofNat 32 i.sz
  /-- global variables, in the program and in the function -/
  global_ : ∀ x, Occurs out x → isGlobal (enc x) = sf.isGlobal x.1 ∧ (sf.isGlobal x.1 = true → gaddr (enc x) = sf.gaddr x.1)

/-- Declarations of scalars are answered with 0, those of arrays and structures with their address. -/
def Allocs (out : Nat → List (Ins SsaBuild.Name)) (enc : SsaBuild.Name → Nat) (basic : Nat → Bool) (objAddr : Nat → Word)
    (alloc : Nat → String → Word) : Prop :=
  ∀ b, ∀ i ∈ out b, i.op = .allocat → ∀ d, i.rd = some d →
    (basic (enc d) = true → alloc i.sz i.str = 0) ∧ (basic (enc d) = false → alloc i.sz i.str = objAddr (enc d))

/-- What the compiler makes of a function, one pass after the other: the graph of blocks, SSA form, numbered variables, after constant
folding, after dead code elimination; and the results of the analyses. -/
structure Stages where
  P : Stmt.PS
  fn : SsaBuild.Fn
  steps : Nat
  S : SsaBuild.St
  out : Nat → List (Ins SsaBuild.Name)
  enc : SsaBuild.Name → Nat
  F0 : RegAlloc.Fn
  cf : ConstFold.CF
  idom : Nat → Nat
  depth : Nat
  order : List Nat
  code1 : Nat → List Insn
  F1 : RegAlloc.Fn
  cf' : ConstFold.CF
  prev : Nat → List Nat
  univ : List Nat
  d : Dce.Fn
  rIdom : Nat → Option Nat
  cap : Nat
  rounds : Nat
  st0 : Dce.St
  st : Dce.St
  far : Nat
  /-- the number of a block in the program -/
  place : Nat → Nat

/-- The same code in the same graph, with blocks numbered differently. -/
structure SameCode (place : Nat → Nat) (F F' : RegAlloc.Fn) : Prop where
  inj : ∀ b c, place b = place c → b = c
  insns : ∀ b, F'.insns (place b) = F.insns b
  next : ∀ b, (F'.block (place b)).next = (F.block b).next.map place
  branch : ∀ b, ∀ i ∈ F.insns b, i.op = .branch →
    (F'.block (place b)).then_ = place (F.block b).then_ ∧ (F'.block (place b)).else_ = place (F.block b).else_
  exit : F'.fnExit = place F.fnExit

/-- What calls look like, for the instruction `i` between `xs` and `ys`: the result is fetched just after the call, and an argument is
pushed just before it or before another one. -/
def Part {α : Type} (op : α → Op1) (xs : List α) (i : α) (ys : List α) : Prop :=
  (op i = .func_ret ∧ ∃ xs' c, xs = xs' ++ [c] ∧ (op c = .call ∨ op c = .indirect)) ∨
  (op i = .push ∧ ∃ ps c ys', ys = ps ++ c :: ys' ∧ (op c = .call ∨ op c = .indirect) ∧ ∀ p ∈ ps, op p = .push)

/-- The instructions of the function, numbered, as dead code elimination refers to them. -/
structure Listed (F : RegAlloc.Fn) (isGlobal : Nat → Bool) (d : Dce.Fn) (order : List Nat) : Prop where
  insns : ∀ b, F.insns b = (d.blocks b).map d.insn
  own : ∀ b, ∀ i ∈ d.blocks b, d.blk i = b
  nodup : ∀ b ∈ order, (d.blocks b).Nodup
  /-- the other numbers stand for nothing -/
  rest : ∀ i, (∀ b ∈ order, i ∉ d.blocks b) → (d.insn i).op ≠ .func_ret
  last : d.lastAssign = Dce.lastAssignOf d.insn (order.flatMap d.blocks)
  global_ : d.isGlobal = isGlobal

/-- `f`, the function that register allocation is given, was made from `sf` by the passes before: the parser's translation of
statements to blocks, SSA construction, constant folding and dead code elimination. -/
structure Compiled (Pr : SsaProg.SrcProg) (sf : SFn) (f : SsaProg.SrcFn) (s : Stages) : Prop where
  body : sf.body.Ok sf.home
  lowered : Stmt.lowerFn sf.body = some s.P
  holds : s.fn.Holds s.P
  params : s.fn.params = sf.params ∧ sf.params.Nodup ∧ ∀ p ∈ sf.params, sf.isGlobal p = false
  isGlobal : s.fn.isGlobal = sf.isGlobal
  flows : sf.body.Flows
  funcs : ∀ b, ∀ i ∈ s.fn.code b, ∀ v, i.rd = some v → s.fn.isFunc v = false
  scopes : s.fn.Scoped
  taken : ∀ b, ∀ i ∈ s.fn.code b, i.op = .address_of → ∀ v, i.rs1 = some v → sf.isGlobal v = true
  /-- declared variables are local -/
  locals : ∀ b, ∀ i ∈ s.fn.code b, i.op = .allocat → ∀ v, i.rd = some v → sf.isGlobal v = false
  /-- the global variables used by writes -/
  keeps : ∀ b, ∀ i ∈ s.fn.code b, i.op = .write → ∀ v, i.rs1 = some v ∨ i.rs2 = some v → sf.isGlobal v = true → sf.keep (sf.gaddr v)
  /-- calling sequences -/
  calls : ∀ b xs i ys, s.fn.code b = xs ++ i :: ys → i.op = .push ∨ i.op = .func_ret → Part (·.op) xs i ys
  fetches : ∀ b, ∀ i ∈ s.fn.code b, i.op = .func_ret → i.rs1 = none ∧ i.rs2 = none
  steps : 8 * s.P.n + 4 ≤ s.steps
  ssa : SsaBuild.ssaBuild s.fn s.steps = some (s.S, s.out)
  numbered : Numbered s.order s.fn.g s.out s.enc s.F0
  attached : Attached s.out s.enc Pr.isGlobal s.cf.initVal Pr.gaddr sf
  allocs : ∀ sp, Allocs s.out s.enc f.vars.basic (fun v => sp + BitVec.ofNat 32 (f.ofs v + 4)) (sf.alloc sp)
  /-- results of constant loads and arithmetic go to temporaries, which are local -/
  temps : ∀ b, ∀ i ∈ s.fn.code b, i.op = .load_constant ∨ (∃ o, i.op = .alu o) → ∀ v, i.rd = some v → sf.isGlobal v = false
  /-- the dominator tree, from `build_idom` -/
  dominators : ∃ rpo ord di, Cfg.buildRpo (RaFn.succs s.F0) 0 s.order.length = some (rpo, 0 :: ord) ∧
    Cfg.buildIdom rpo s.prev 0 ord (2 * s.order.length + 1) (s.order.length + 2) = some di ∧ ∀ b ∈ s.order, di b = some (s.idom b)
  /-- a repeated `p[i]` would read what the first one read -/
  repeats : ∀ (C : Ctx) (s₀ : SrcBlock.St), C.isGlobal = Pr.isGlobal → CCse.Unchanged C s.F0 0 s₀
  fresh : ∀ v, s.cf.isConst v = false
  optimized : Optimize.optFn Pr.isGlobal s.idom s.depth s.order s.F0.insns s.cf = .ok (s.code1, s.cf')
  graph : (∀ b ∈ s.order, s.F1.insns b = s.code1 b) ∧ s.F1.block = s.F0.block ∧ s.F1.fnExit = s.F0.fnExit
  prepared : CDce.Prepared s.F1 0 s.prev s.univ s.d s.rIdom s.order
  listed : Listed s.F1 Pr.isGlobal s.d s.order
  /-- the predecessors kept with the blocks are those of the parser's graph -/
  preds : ∀ b ∈ s.order, ∀ a ∈ s.prev b, a ∈ s.fn.g.preds b
  unmarked : CDce.Unmarked s.st0
  marked : Dce.dceMark s.d s.cap s.rounds s.order s.st0 = some s.st
  joined : CDce.Joined s.F1 s.d s.st (fun b => (s.rIdom b).getD 0) s.far s.order
  swept : SameCode s.place (Dce.sweepFn s.d s.st (fun b => (s.rIdom b).getD 0) s.far s.F1) f.F
  consts : f.vars.initVal = s.cf'.initVal
  entry : f.entry = s.place 0
  numbers : f.params = sf.params.map fun p => s.enc (p, some 0)
  void : f.void = sf.void

end CProg
