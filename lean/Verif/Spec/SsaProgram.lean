import Verif.Spec.RaFn

/-!
# Specification: execution of a program of several functions in SSA form

Functions call each other to any depth.  A function's frame lies below the stack pointer of its caller; the arrays and
structures it declares are in the frame and can be read and written, by the function and by those it passes their address to;
the rest of the stack is hidden from the program.  The initial contents of the stack are arbitrary, so a call has a result
only if it has that result whatever they are.
-/

namespace SsaProg
open Shecc Shecc.Ssa Shecc.RegAlloc IrM SrcBlock RaFn

/-- A function in SSA form, with the frame it was given: its size (the return address not counted) and the place of each local
variable. -/
structure SrcFn where
  F : RegAlloc.Fn
  vars : Vars
  params : List Nat
  /-- first block -/
  entry : Nat
  /-- the other blocks -/
  rest : List Nat
  void : Bool
  size : Nat
  ofs : Nat → Nat

structure SrcProg where
  fn : String → Option SrcFn
  isGlobal : Nat → Bool
  gaddr : Nat → Word
  dataAddr : Word
  byteVal : BitVec 8 → Word
  os : Os
  /-- lowest address of the stack -/
  lo : Nat

/-- The function declares `v` as an array or structure. -/
def Declares (f : SrcFn) (v : Nat) : Prop :=
  f.vars.basic v = false ∧ ∃ b ∈ f.entry :: f.rest, ∃ i ∈ f.F.insns b, i.op = .allocat ∧ i.rd = some v

/-- Byte `a` belongs to an array or structure of a frame of `f` at `sp`. -/
def Object (f : SrcFn) (sp a : Word) : Prop :=
  ∃ v k, Declares f v ∧ f.vars.isGlobal v = false ∧ k < (alignSize (num (f.vars.objSize v))).toNat ∧
    a = sp + BitVec.ofNat 32 (f.ofs v + 4 + k)

/-- What is hidden while a function with frame at `sp` runs. -/
def hiddenIn (f : SrcFn) (sp : Word) (hid : Word → Prop) (a : Word) : Prop := hid a ∧ ¬ Object f sp a

/-- The surroundings of the instructions of `f`, with its frame at `sp`. -/
def ctx (Pr : SrcProg) (f : SrcFn) (sp : Word) (hid : Word → Prop) (call : String → List Word → Mem → Mem → Option Word → Prop) : Ctx where
  isGlobal := Pr.isGlobal
  initVal := f.vars.initVal
  gaddr := Pr.gaddr
  basic := f.vars.basic
  objAddr v := sp + BitVec.ofNat 32 (f.ofs v + 4)
  dataAddr := Pr.dataAddr
  byteVal := Pr.byteVal
  hidden := hid
  call := call

/-- The memories agree on what is not hidden. -/
def Agree (hid : Word → Prop) (m m' : Mem) : Prop := ∀ a, ¬ hid a → m' a = m a

/-- The stack pointer inside a function. -/
def inside (f : SrcFn) (sp : Word) : Word := sp - (num f.size + 4)

/-- A system call: the operating system answers `r` whatever is hidden and whatever the arguments are that are not passed. -/
def SysCall (Pr : SrcProg) (hid : Word → Prop) (args : List Word) (m m' : Mem) (r : Option Word) : Prop :=
  ∃ n rest, args = n :: rest ∧ rest.length ≤ 6 ∧ ∀ (μ : Mem) (pad : Fin 6 → Word), Agree hid m μ →
    (∀ i : Fin 6, i.val < rest.length → pad i = rest.getD i.val 0) →
    ∃ x μ', Pr.os n pad μ x μ' ∧ r = some x ∧ Agree hid m' μ' ∧ ∀ a, hid a → μ' a = μ a

/-- A call of `g` with the stack pointer at `sp` takes memory `m` to `m'` and returns `r` (`none`: no value), calling to a depth of
at most `n`. -/
def Call (Pr : SrcProg) : Nat → (Word → Prop) → Word → String → List Word → Mem → Mem → Option Word → Prop
  | 0, _, _, _, _, _, _, _ => False
  | n + 1, hid, sp, g, args, m, m', r =>
    (∀ a, hid a → m' a = m a) ∧
    if g = "__syscall" then SysCall Pr hid args m m' r
    else ∃ f, Pr.fn g = some f ∧ args.length = f.params.length ∧
      -- the stack has room for the frame and for the two words a division may need below it
      Pr.lo + f.size + 12 ≤ sp.toNat ∧
      ∀ μ, Agree hid m μ → ∃ s μ', s.mem = μ ∧ s.args = [] ∧ f.params.map s.val = args ∧
        Exec (ctx Pr f (inside f sp) (hiddenIn f (inside f sp) hid) (Call Pr n (hiddenIn f (inside f sp) hid) (inside f sp)))
          f.F f.void f.entry s r μ' ∧ Agree hid m' μ'

/-- The number of registers a call of `g` may take its arguments from. -/
def arity (Pr : SrcProg) (g : String) : Nat := if g = "__syscall" then 7 else (Pr.fn g).elim 0 (·.params.length)

/-- What is assumed of a target: where the return address is, and what division needs and disturbs. -/
structure AbiOk (A : Abi) : Prop where
  divLocal : A.DivLocal
  raSlot : (∀ x, A.raSlot x = 0) ∨ ∀ x, A.raSlot x = x
  divOk : ∀ o t k l, t.sp.toNat % 4 = 0 → k ≠ l → A.divOk o t k l
  divMem : ∀ t k l a, 8 ≤ t.sp.toNat → A.divMem t k l a ≠ t.mem a → t.sp.toNat - 8 ≤ a.toNat ∧ a.toNat < t.sp.toNat

/-- The function satisfies the conditions under which register allocation is claimed to be correct, and the allocator produced
`codes` for it. `gofs`: where the global variables are. -/
structure Allocated (gofs : Nat → Nat) (f : SrcFn) (exitPrev : List Nat) (use : Nat → Int)
    (live : Nat → Nat → Prop) (st0 fin : RA) (codes : List (Nat × List Ph2Ir)) : Prop where
  ok : FnOk f.vars f.F f.params exitPrev f.entry f.rest use live
  stack4 : st0.stack = 4
  consumed : st0.consumed = use
  locals : ∀ v, f.vars.isGlobal v = false → st0.offset v = 0
  globals : ∀ v, f.vars.isGlobal v = true → st0.offset v = gofs v ∧ gofs v ≠ 0
  alloc : allocBlocks f.vars f.F [] (f.entry :: f.rest) (fnStart f.params false st0) = some (codes, fin)
  size : fin.stack = f.size
  ofs : fin.offset = f.ofs

/-- The whole program is in place. -/
structure Linked (A : Abi) (P : Program) (sys gp : Word) (gofs : Nat → Nat) (Pr : SrcProg) : Prop where
  abi : AbiOk A
  byteVal : A.byteVal = Pr.byteVal
  dataAddr : A.dataAddr = Pr.dataAddr
  /-- instructions are word aligned -/
  aligned : ∀ a ir nxt, P a ir nxt → nxt.toNat % 4 = 0
  sys : A.funcAddr "__syscall" = some sys
  fn : ∀ g f, Pr.fn g = some f → g ≠ "__syscall" → f.vars.isGlobal = Pr.isGlobal ∧
    ∃ exitPrev use live st0 fin codes codes' a start, Allocated gofs f exitPrev use live st0 fin codes ∧
      Tidied (arity Pr) (withReturns f.F f.void exitPrev codes) codes' ∧ A.funcAddr g = some a ∧
      P a { op := .define, src0 := num f.size } start ∧ Laid A P (num f.size) start codes'
  gaddr : ∀ v, Pr.isGlobal v = true → gofs v ≠ 0 ∧ Pr.gaddr v = gp + BitVec.ofNat 32 (gofs v)
  gdiff : ∀ u v, u ≠ v → Pr.isGlobal u = true → Pr.isGlobal v = true → ∀ k l, k < 4 → l < 4 →
    Pr.gaddr u + BitVec.ofNat 32 k ≠ Pr.gaddr v + BitVec.ofNat 32 l

/-- `hid` contains the stack below `sp`, and no global variable. -/
structure StackAt (Pr : SrcProg) (hid : Word → Prop) (sp : Word) : Prop where
  below : ∀ a : Word, Pr.lo ≤ a.toNat → a.toNat < sp.toNat → hid a
  aligned : sp.toNat % 4 = 0
  globals : ∀ v, Pr.isGlobal v = true → ∀ k, k < 4 → ¬ hid (Pr.gaddr v + BitVec.ofNat 32 k)

/-- The machine is at the first instruction of a function, called with `args`. -/
structure Called (Pr : SrcProg) (hid : Word → Prop) (sp gp a ra : Word) (args : List Word) (m : Mem) (t : State) : Prop where
  pc : t.pc = a
  ra : t.ra = ra
  sp : t.sp = sp
  gp : t.gp = gp
  args : ∀ k, k < args.length → t.reg (RaLink.r3 k) = args.getD k 0
  mem : Agree hid m t.mem

/-- The machine is back after the call that took it from `t`: the result is in register 0, memory is as the source says, and
what is hidden has not changed, the stack below the stack pointer excepted. -/
structure Back (Pr : SrcProg) (hid : Word → Prop) (sp gp ra : Word) (m' : Mem) (r : Option Word) (t u : State) : Prop where
  hidden : ∀ a, hid a → ¬ (Pr.lo ≤ a.toNat ∧ a.toNat < sp.toNat) → u.mem a = t.mem a
  pc : u.pc = ra
  sp : u.sp = sp
  gp : u.gp = gp
  result : ∀ x, r = some x → u.reg 0 = x
  mem : Agree hid m' u.mem

end SsaProg
