import Verif.Spec.RaFn
import Verif.Spec.CLive

/-!
# Specification: functions in SSA form and the analyses that run before register allocation
-/

namespace RaSource
open Shecc Shecc.Ssa Shecc.RegAlloc SrcBlock RaLink RaFn

/-- The block assigns `v` (declaring an `int` does not). -/
def Gives (V : Vars) (F : RegAlloc.Fn) (b v : Nat) : Prop := ∃ i ∈ F.insns b, result V i = some v

/-- `v` is a parameter, or every path from the entry to `b` passes, before it gets to `b`, a block that assigns `v`. -/
def Assigned (V : Vars) (F : RegAlloc.Fn) (params : List Nat) (entry b v : Nat) : Prop :=
  v ∈ params ∨ ∀ l, CGraph.Path (succs F) entry (l ++ [b]) b → ∃ x ∈ l, Gives V F x v

/-- The local `v` may be read in block `b` after the instructions `xs`: one of them assigned it, or it has been assigned before
the block and none of them declares or assigns it. Copies for phis do not count. -/
def Readable (V : Vars) (F : RegAlloc.Fn) (params : List Nat) (entry b : Nat) (xs : List Insn) (v : Nat) : Prop :=
  (∃ x ∈ xs, x.op ≠ .unwound_phi ∧ result V x = some v) ∨
    (Assigned V F params entry b v ∧ ∀ x ∈ xs, x.rd = some v → x.op = .unwound_phi)

/-- How a block ends. -/
inductive Last (F : RegAlloc.Fn) (b : Nat) (phis : List Insn) : List Insn → Prop
  | next {n} (hn : (F.block b).next = some n) : Last F b phis []
  | branch {br a} (hn : (F.block b).next = none) (ho : br.op = .branch) (hr : br.rd = none) (ha : br.rs1 = some a)
      (hp : ∀ i ∈ phis, i.rd ≠ some a) : Last F b phis [br]
  | ret {re a} (hn : (F.block b).next = some F.fnExit) (ho : re.op = .ret) (hr : re.rd = none) (ha : re.rs1 = some a)
      (hp : ∀ i ∈ phis, i.rd ≠ some a) : Last F b phis [re]
  | retVoid {re} (hn : (F.block b).next = some F.fnExit) (ho : re.op = .ret) (hr : re.rd = none) (ha : re.rs1 = none) :
      Last F b phis [re]

/-- A block of a function in SSA form: instructions, copies for the phis of the next blocks, and an end. -/
structure SsaBlock (V : Vars) (F : RegAlloc.Fn) (params : List Nat) (entry : Nat) (use : Nat → Int) (b : Nat)
    (body phis last : List Insn) : Prop where
  insns : F.insns b = body ++ phis ++ last
  last_ : Last F b phis last
  grouped : Grouped V body
  /-- only variables with a value are read -/
  strict : ∀ xs i ys, F.insns b = xs ++ i :: ys → ∀ v, i.rs1 = some v ∨ i.rs2 = some v → V.isGlobal v = false →
    Readable V F params entry b xs v
  /-- a global that is assigned is also read, somewhere -/
  global_ : ∀ i ∈ body, ∀ d, i.rd = some d → V.isGlobal d = true →
    (i.op = .load_constant ∨ i.op = .load_data_address ∨ i.op = .assign) ∧ 0 ≤ use d
  noResult : ∀ i ∈ body, i.op = .write → i.rd = none
  /-- the target of a copy is a local that nothing but copies assigns, and no later copy reads it -/
  phi : ∀ xs i ys, phis = xs ++ i :: ys → ∃ d a, i.op = .unwound_phi ∧ i.rd = some d ∧ i.rs1 = some a ∧ V.isGlobal d = false ∧
    (∀ x ∈ xs, x.rd ≠ some a) ∧ (∀ x ∈ body, x.rd ≠ some d) ∧ d ∉ params

/-- A function in SSA form. -/
structure SsaFn (V : Vars) (F : RegAlloc.Fn) (params exitPrev : List Nat) (entry : Nat) (rest : List Nat) (use : Nat → Int) : Prop where
  entryExit : entry ≠ F.fnExit
  exit : F.insns F.fnExit = [] ∧ (F.block F.fnExit).next = none
  prev : ∀ b, b ∈ exitPrev ↔ F.fnExit ∈ succs F b
  noEntry : ∀ b ∈ entry :: rest, entry ∉ succs F b
  toExit : ∀ b, CGraph.Reach (succs F) entry b → CGraph.Reach (succs F) b F.fnExit
  param : params.length ≤ 8 ∧ params.Nodup ∧ ∀ p ∈ params, V.isGlobal p = false
  /-- a declared `int` is not otherwise assigned: assignments are to other names -/
  single : ∀ b, ∀ i ∈ F.insns b, ∀ d, i.op = .allocat → i.rd = some d → V.basic d = true → d ∉ params ∧ ∀ x, ¬ Gives V F x d
  block : ∀ b ∈ entry :: rest, b ≠ F.fnExit → ∃ body phis last, SsaBlock V F params entry use b body phis last

/-- The instructions of a block before its copies for phis, its branch or return. -/
def bodyOf (F : RegAlloc.Fn) (b : Nat) : List Insn :=
  (F.insns b).takeWhile fun i => i.op != .unwound_phi && i.op != .branch && i.op != .ret

/-- At most six variables are pending anywhere, and the other conditions of C57 on single instructions. -/
def Moderate (V : Vars) (F : RegAlloc.Fn) (params : List Nat) (entry : Nat) (rest : List Nat) (use : Nat → Int) : Prop :=
  ∀ pre b post, entry :: rest = pre ++ b :: post →
    AllModest V (F.block b) (Named V F params pre) (fun v => pre = [] ∧ v ∈ params) (conAt F use pre) 0 (bodyOf F b)

/-- What the analyses read of an instruction. -/
def insnOf (i : Insn) : Live.Insn :=
  { rd := i.rd
    rs1 := i.rs1
    rs2 := i.rs2
    phi := i.op == .unwound_phi }

/-- The control-flow graph of a function; `prev`: predecessors. -/
def cfgOf (F : RegAlloc.Fn) (entry : Nat) (prev : Nat → List Nat) : Cfg.Graph :=
  { block := fun b =>
      if b = F.fnExit then { prev := prev b }
      else match (F.block b).next with
        | some n => { next := some n, prev := prev b }
        | none => { then_ := some (F.block b).then_, else_ := some (F.block b).else_, prev := prev b }
    entry := entry
    exit := F.fnExit }

/-- The function as the liveness analysis sees it. -/
def liveFn (V : Vars) (F : RegAlloc.Fn) (params : List Nat) (entry : Nat) (prev : Nat → List Nat) : Live.Fn :=
  { g := cfgOf F entry prev
    insns := fun b => (F.insns b).map insnOf
    params := params
    isGlobal := V.isGlobal }

/-- The results of the analyses are in the function: block order and numbers, live and assigned variables, last uses. `con`: last
uses recorded for earlier functions; uses of globals may have been extended since. -/
structure Analysed (V : Vars) (F : RegAlloc.Fn) (params : List Nat) (entry : Nat) (rest : List Nat) (use : Nat → Int) : Prop where
  layout : ∃ n, Cfg.buildRpo (cfgOf F entry fun _ => []).succs entry n = some (F.rpo, entry :: rest)
  live : ∃ prev rpo order n k L, (∀ a, ∀ b ∈ entry :: rest, (b ∈ prev a ↔ a ∈ succs F b)) ∧
    Cfg.buildRpo (cfgOf F entry prev).preds F.fnExit n = some (rpo, order) ∧
    Live.liveness (liveFn V F params entry prev) order k = some L ∧ ∀ b, (F.block b).liveOut = L b
  killed : ∀ b ∈ entry :: rest, (F.block b).killed = (Live.genKill (liveFn V F params entry fun _ => []) b).2
  use_ : ∃ con, (∀ v, V.isGlobal v = false → con v = -1) ∧
    ∀ v, Live.consumed (liveFn V F params entry fun _ => []) (entry :: rest) con v ≤ use v ∧
      (V.isGlobal v = false → use v = Live.consumed (liveFn V F params entry fun _ => []) (entry :: rest) con v)

end RaSource
