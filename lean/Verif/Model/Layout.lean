import Verif.Model.Ph2

/-!
# Model of `cfg_flatten` and `code_generate`

The two back ends (src/riscv-codegen.c, src/arm-codegen.c) have textually the same `cfg_flatten` and the same overall
`code_generate`; they differ in the size and emission of one instruction, in the start-up code, and in that ARM marks
branches as detached.  Those differences are the fields of `Target`.
-/

namespace Shecc

/-- A basic block: identity and second-phase IR (`bb->ph2_ir_list`). -/
structure Block where
  id : Nat
  insns : List Ph2Ir
  deriving Repr

/-- A function of `FUNC_LIST`: `fn->bbs` and the blocks after it along `rpo_next`. -/
structure Fn where
  stackSize : CInt
  entry : Block
  rest : List Block
  deriving Repr

def Fn.blocks (f : Fn) : List Block := f.entry :: f.rest

/-- What both passes read.  `funcBB` is `find_func(name)->fn->bbs` (`none`: NULL on the way). -/
structure Prog where
  globalBB : Nat
  globalInsns : List Ph2Ir
  globalStack : CInt
  syscallBB : Nat
  fns : List Fn
  mainBB : Nat
  funcBB : String → Option Nat

structure Target where
  /-- `update_elf_offset`: bytes reserved; `none` = abort -/
  sizeOf : Bool → Ph2Ir → Option Nat
  /-- `emit_ph2_ir` at a given `elf_code_idx`; `none` = abort/error -/
  emit : EmitEnv → CInt → Ph2Ir → Option (List CInt)
  /-- constants assigned at the top of `cfg_flatten` -/
  syscallOfs : Nat
  globalOfs : Nat
  /-- whether `cfg_flatten` computes `is_branch_detached` (ARM) -/
  detaches : Bool
  /-- start, exit and syscall stubs, given `GLOBAL_FUNC.stack_size` and the offset of the global block -/
  stubs : CInt → CInt → Option (List CInt)
  /-- code after the global initialisers, given stack size, offset of main, and `elf_code_idx` at its start -/
  toMain : CInt → CInt → CInt → Option (List CInt)

/-- The in-place updates of an instruction in `cfg_flatten`, src/riscv-codegen.c:130-138, src/arm-codegen.c:158-170:
`OP_return` gets the stack size, and (ARM) `OP_branch` whose else block is not the next block becomes detached. -/
def prepInsn (T : Target) (stack : CInt) (rpoNext : Option Nat) (ir : Ph2Ir) : Ph2Ir :=
  let ir := if ir.op = .ret then { ir with src1 := stack } else ir
  if T.detaches ∧ ir.op = .branch ∧ some ir.else_bb ≠ rpoNext then { ir with is_branch_detached := true } else ir

/-- Walk a list of instructions adding their sizes to `elf_offset`; result: instructions with their offsets and the
final `elf_offset`. -/
def layInsns (T : Target) (hard : Bool) : Nat → List Ph2Ir → Option (List (Nat × Ph2Ir) × Nat)
  | ofs, [] => some ([], ofs)
  | ofs, ir :: rest =>
    match T.sizeOf hard ir with
    | none => none
    | some n =>
      match layInsns T hard (ofs + n) rest with
      | none => none
      | some (l, o) => some ((ofs, ir) :: l, o)

/-- What flattening produces: `bb->elf_offset` assignments, located instructions, final `elf_offset`. -/
structure Layout where
  bbs : List (Nat × Nat)
  insns : List (Nat × Ph2Ir)
  stop : Nat

/-- Blocks after the first of a function, src/riscv-codegen.c:121-140, src/arm-codegen.c:149-174. -/
def layBlocks (T : Target) (hard : Bool) (stack : CInt) : Nat → List Block → Option Layout
  | ofs, [] => some ⟨[], [], ofs⟩
  | ofs, b :: rest =>
    match layInsns T hard ofs (b.insns.map (prepInsn T stack (rest.head?.map (·.id)))) with
    | none => none
    | some (l, o) =>
      match layBlocks T hard stack o rest with
      | none => none
      | some r => some ⟨(b.id, ofs) :: r.bbs, l ++ r.insns, r.stop⟩

/-- One function, src/riscv-codegen.c:116-141, src/arm-codegen.c:141-175: `OP_define` (16 bytes, reserved after the
first block's `elf_offset` is set), then the blocks. -/
def layFn (T : Target) (hard : Bool) (ofs : Nat) (f : Fn) : Option Layout :=
  match layInsns T hard (ofs + 16) (f.entry.insns.map (prepInsn T f.stackSize (f.rest.head?.map (·.id)))) with
  | none => none
  | some (l, o) =>
    match layBlocks T hard f.stackSize o f.rest with
    | none => none
    | some r =>
      some ⟨(f.entry.id, ofs) :: r.bbs, (ofs, { op := .define, src0 := f.stackSize }) :: (l ++ r.insns), r.stop⟩

def layFns (T : Target) (hard : Bool) : Nat → List Fn → Option Layout
  | ofs, [] => some ⟨[], [], ofs⟩
  | ofs, f :: rest =>
    match layFn T hard ofs f with
    | none => none
    | some a =>
      match layFns T hard a.stop rest with
      | none => none
      | some b => some ⟨a.bbs ++ b.bbs, a.insns ++ b.insns, b.stop⟩

/-- `cfg_flatten`, src/riscv-codegen.c:100-142, src/arm-codegen.c:126-176.  The global initialisers are laid out at
`globalOfs`; 24 bytes are reserved for the jump to main.  `elf_offset` is a `Nat`: no wrap-around (the code buffer
is 256 KiB, see `codeGenerate`). -/
structure Flat where
  globals : List (Nat × Ph2Ir)
  mainJump : Nat
  fns : Layout

def cfgFlatten (T : Target) (hard : Bool) (P : Prog) : Option Flat :=
  match layInsns T hard T.globalOfs P.globalInsns with
  | none => none
  | some (g, o) =>
    match layFns T hard (o + 24) P.fns with
    | none => none
    | some l => some ⟨g, o, l⟩

/-- All `elf_offset` assignments, in program order. -/
def Flat.bbs (T : Target) (P : Prog) (F : Flat) : List (Nat × Nat) :=
  (P.syscallBB, T.syscallOfs) :: (P.globalBB, T.globalOfs) :: F.fns.bbs

/-- `bb->elf_offset` after flattening: the last assignment made to that block (0 if none, as allocated). -/
def ofsOf (l : List (Nat × Nat)) (b : Nat) : Nat :=
  match l with
  | [] => 0
  | (k, o) :: rest => if rest.any (·.1 == b) then ofsOf rest b else if k = b then o else 0

/-- Global state read during emission. `elf_code_start = ELF_START + 0x54` (src/globals.c:900, src/defs.h:48);
`elf_data_start = elf_code_start + elf_offset` (src/riscv-codegen.c:405, src/arm-codegen.c:430). -/
def emitEnv (T : Target) (hard : Bool) (P : Prog) (F : Flat) : EmitEnv where
  bbOfs b := BitVec.ofNat 32 (ofsOf (F.bbs T P) b)
  funcOfs n := (P.funcBB n).map fun b => BitVec.ofNat 32 (ofsOf (F.bbs T P) b)
  codeStart := 0x10054
  dataStart := 0x10054 + BitVec.ofNat 32 F.fns.stop
  hardMulDiv := hard

/-- Emit instructions one after the other; `n` = words already in the code section (`elf_code_idx = 4 n`). -/
def emitAll (T : Target) (env : EmitEnv) : Nat → List Ph2Ir → Option (List CInt)
  | _, [] => some []
  | n, ir :: rest =>
    match T.emit env (BitVec.ofNat 32 (4 * n)) ir with
    | none => none
    | some ws =>
      match emitAll T env (n + ws.length) rest with
      | none => none
      | some r => some (ws ++ r)

/-- `MAX_CODE`, src/defs.h:31. -/
def maxCode : Nat := 262144

/-- `code_generate`, src/riscv-codegen.c:403-451, src/arm-codegen.c:428-478: the words of the code section.
Writing past the 256 KiB buffer is undefined in the code; here it is `none`. -/
def codeGenerate (T : Target) (hard : Bool) (P : Prog) (F : Flat) : Option (List CInt) :=
  let env := emitEnv T hard P F
  match T.stubs P.globalStack (env.bbOfs P.globalBB) with
  | none => none
  | some a =>
    match emitAll T env a.length (F.globals.map (·.2)) with
    | none => none
    | some b =>
      match T.toMain P.globalStack (env.bbOfs P.mainBB) (BitVec.ofNat 32 (4 * (a.length + b.length))) with
      | none => none
      | some c =>
        match emitAll T env (a.length + b.length + c.length) (F.fns.insns.map (·.2)) with
        | none => none
        | some d =>
          let ws := a ++ b ++ c ++ d
          if 4 * ws.length ≤ maxCode then some ws else none

/-- Both passes. -/
def compile (T : Target) (hard : Bool) (P : Prog) : Option (Flat × List CInt) :=
  match cfgFlatten T hard P with
  | none => none
  | some F => (codeGenerate T hard P F).map fun ws => (F, ws)

end Shecc
