import Verif.Model.RegAlloc

/-!
# Model of the allocation of global variables (src/reg-alloc.c:238-300)
-/

namespace Shecc.GlobalInit
open Shecc.Ssa Shecc.RegAlloc

/-- What the allocator looks at in a global variable (src/reg-alloc.c:248, 252-258, 267-277): an array of so many bytes
(`array_size` times 4 or the element size), something of one word (a pointer, `int`, `char`, `_Bool`), or a structure of so many
bytes. -/
inductive Kind | array (bytes : Nat) | word | struct (bytes : Nat)
  deriving DecidableEq

/-- A global declaration as the parser handles it (src/parser.c:3164-3213): the variable and, with an initialiser, the temporary made
for its value (src/parser.c:2203-2206). The value itself is `init_val` of the temporary. -/
structure Decl where
  var : Nat
  tmp : Option Nat := none

/-- Instructions added to the global block for a declaration (src/parser.c:3195-3196, 2207-2216, 2233-2242, 2310-2319, 2336-2345). -/
def declInsns (d : Decl) : List Insn :=
  { op := .allocat, rd := some d.var } ::
    match d.tmp with
    | none => []
    | some t => [{ op := .load_constant, rd := some t }, { op := .assign, rd := some d.var, rs1 := some t }]

/-- `OP_allocat` of a global (src/reg-alloc.c:247-279). The block is the global one: nothing is live out of it. -/
def gAllocat (V : Vars) (K : Nat → Kind) (d : Nat) (st : RA) : RA :=
  match K d with
  | .array n =>
    let obj := st.stack + 4
    let r := prepareDest V {} d none none
      { st with offset := upd st.offset d st.stack, stack := obj + (alignSize (num n)).toNat }
    spillVar V d r.2 (r.1.emit { op := .global_address_of, src0 := num obj, dest := num r.2 })
  | .word => { st with offset := upd st.offset d st.stack, stack := st.stack + 4 }
  | .struct n => { st with offset := upd st.offset d st.stack, stack := st.stack + (alignSize (num n)).toNat }

/-- `OP_load_constant` of a global initialiser (src/reg-alloc.c:280-285). -/
def gConst (V : Vars) (d : Nat) (st : RA) : RA :=
  let r := prepareDest V {} d none none st
  r.1.emit { op := .load_constant, src0 := V.initVal d, dest := num r.2 }

/-- `OP_assign` of a global initialiser (src/reg-alloc.c:286-296). -/
def gAssign (V : Vars) (d a : Nat) (st : RA) : RA :=
  let p := prepareOperand V {} a none st
  let r := prepareDest V {} d (some p.2) none p.1
  (spillVar V d r.2 (r.1.emit { op := .assign, src0 := num p.2, dest := num r.2 })).setReg p.2 none false

/-- One instruction of the global block; `none`: "Unsupported global operation" (src/reg-alloc.c:246-301). -/
def gInsn (V : Vars) (K : Nat → Kind) (i : Insn) (st : RA) : Option RA :=
  match i.op, i.rd, i.rs1 with
  | .allocat, some d, _ => some (gAllocat V K d st)
  | .load_constant, some d, _ => some (gConst V d st)
  | .assign, some d, some a => some (gAssign V d a st)
  | _, _, _ => none

/-- The loop over the global block (src/reg-alloc.c:241-303). -/
def gInsns (V : Vars) (K : Nat → Kind) : List Insn → RA → Option RA
  | [], st => some st
  | i :: is, st =>
    match gInsn V K i st with
    | none => none
    | some st => gInsns V K is st

/-- The global block of a program with these declarations, allocated. The frame starts with four bytes not used
(src/parser.c:3375); registers are empty, as `REGS` is static. -/
def allocGlobals (V : Vars) (K : Nat → Kind) (ds : List Decl) : Option RA :=
  gInsns V K (ds.flatMap declInsns) { stack := 4 }

end Shecc.GlobalInit
