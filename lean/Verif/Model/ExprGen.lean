import Verif.Model.Parser
import Verif.Model.Ssa
import Verif.Model.Types

/-!
# Model of the translation of expressions and assignments (src/parser.c:606-1556, 1863-2077)

The functions read tokens and emit first-phase instructions.  Variables are numbers: declared variables and, from `next` on, the
temporaries that `require_var` and `gen_name` make.  Pointers that the C code dereferences without a test are options; `none` stands for
`error`, a crash, or a construct that is not modelled: logical operators and `?:` inside brackets, arguments and assignments, `++` and
`--` inside expressions, macro calls, and function names used as values.  `expr` stops before a logical operator: the operands of these
operators are read one by one by `Model/Body`.  The limits of the arrays (`operand_stack`, `oper_stack`, `params`) are not modelled.
`n` bounds the depth of recursion.
-/

namespace Shecc.ExprGen
open Shecc.Ssa Shecc.Parser
open Shecc.Lex (Tok)

/-- What the parser looks up: `TYPES`, `find_constant`, `find_var`, `find_func`. -/
structure Names where
  types : Types.Table
  const : List Char → Option (BitVec 32)
  var : List Char → Option (Nat × Types.Var)
  fn : List Char → Bool

/-- The state: instructions emitted so far, `init_val` of temporaries, the number of the next temporary, `operand_stack` (top first),
`elf_data`. -/
structure G where
  code : List Insn := []
  consts : List (Nat × BitVec 32) := []
  next : Nat
  stack : List Nat := []
  data : List Char := []

/-- A new temporary with `init_val`, pushed, and an instruction that loads it (src/parser.c:611-621, 670-678, 684-693). -/
def G.load (op : Op1) (v : BitVec 32) (g : G) : G where
  code := g.code ++ [{ op := op, rd := some g.next }]
  consts := (g.next, v) :: g.consts
  next := g.next + 1
  stack := g.next :: g.stack
  data := g.data

def G.const (v : BitVec 32) (g : G) : G := g.load .load_constant v

/-- Pop one operand, push the result (e.g. src/parser.c:784-792). -/
def G.un (op : Op1) (sz : Nat) (g : G) : Option G :=
  match g.stack with
  | a :: st =>
    some { g with
      code := g.code ++ [{ op := op, rd := some g.next, rs1 := some a, sz := sz }]
      next := g.next + 1
      stack := g.next :: st }
  | _ => none

/-- Pop two operands, push the result (e.g. src/parser.c:1075-1083). -/
def G.bin (op : Op2) (g : G) : Option G :=
  match g.stack with
  | b :: a :: st =>
    some { g with
      code := g.code ++ [{ op := .alu op, rd := some g.next, rs1 := some a, rs2 := some b }]
      next := g.next + 1
      stack := g.next :: st }
  | _ => none

/-- The opcode of an operator; logical operators are not put on the stack of operators. -/
def opcode : POp → Option Op2
  | .add => some .add
  | .sub => some .sub
  | .mul => some .mul
  | .div => some .div
  | .mod => some .mod
  | .lshift => some .lshift
  | .rshift => some .rshift
  | .log_and | .log_or => none
  | .eq => some .eq
  | .neq => some .neq
  | .lt => some .lt
  | .leq => some .leq
  | .gt => some .gt
  | .geq => some .geq
  | .bit_and => some .bit_and
  | .bit_or => some .bit_or
  | .bit_xor => some .bit_xor

def G.apply (o : POp) (g : G) : Option G := (opcode o).bind g.bin

/-- The inner loop of `read_expr` (src/parser.c:1068-1090). -/
def popOps (p : Nat) : List POp → G → Option (List POp × G)
  | [], g => some ([], g)
  | o :: os, g => if prio o ≥ p then (g.apply o).bind (popOps p os) else some (o :: os, g)

/-- The last loop of `read_expr` (src/parser.c:1208-1218). -/
def flush : List POp → G → Option G
  | [], g => some g
  | o :: os, g => (g.apply o).bind (flush os)

/-- `lvalue_t` (src/defs.h) and the local variables of `read_lvalue`. -/
structure LvSt where
  ty : Option Nat
  size : Nat
  isPtr : Nat
  isFunc : Bool
  isRef : Bool
  var : Types.Var
  got : Bool := false
  member : Bool := false

/-- `lvalue->type->size`. -/
def tySize (T : Types.Table) (ty : Option Nat) : Option Nat := ty.bind fun i => T[i]?.map (·.size)

/-- `get_size` (src/parser.c:62-67). -/
def getSize (T : Types.Table) (v : Types.Var) (ty : Option Nat) : Option Nat :=
  if v.isPtr > 0 ∨ v.isFunc then some 4 else tySize T ty

def isAccess : List T → Bool
  | (.open_square, _) :: _ | (.arrow, _) :: _ | (.dot, _) :: _ => true
  | _ => false

/-- The beginning of `read_lvalue` (src/parser.c:1245-1260), after the identifier. -/
def lvStart (T : Types.Table) (x : Nat) (v : Types.Var) (ts : List Parser.T) (g : G) : Option (LvSt × G) :=
  let ty := Types.findType T v.typeName .all
  (getSize T v ty).map fun size =>
    ({ ty := ty, size := size, isPtr := v.isPtr, isFunc := v.isFunc, isRef := isAccess ts, var := v }, { g with stack := x :: g.stack })

/-- Before the index is read (src/parser.c:1266-1290). -/
def idxStart (T : Types.Table) (st : LvSt) (g : G) : Option (LvSt × G) :=
  (if st.isRef ∧ st.isPtr > 0 ∧ st.member then g.un .read 4 else some g).bind fun g =>
    if st.var.isPtr = 0 ∧ st.var.arraySize = 0 then none
    else
      (if st.var.isPtr ≤ 1 ∧ st.var.arraySize = 0 then tySize T st.ty else some st.size).map fun size => ({ st with size := size }, g)

/-- Multiplication by the size of an element, if it is not 1 (src/parser.c:1294-1312) or more than 1 (src/parser.c:1423-1441), and
addition. -/
def scaleAdd (mul : Bool) (size : Nat) (g : G) : Option G :=
  (if mul then (g.const (BitVec.ofNat 32 size)).bin .mul else some g).bind (·.bin .add)

/-- `->` and `.` up to the name of the member (src/parser.c:1331-1362). -/
def memStart (arrow : Bool) (st : LvSt) (g : G) : Option G :=
  if arrow then if st.member then g.un .read 4 else some g
  else if st.got then some g else g.un .address_of 0

/-- The rest of the access to a member (src/parser.c:1366-1401). -/
def member (T : Types.Table) (f : List Char) (st : LvSt) (g : G) : Option (LvSt × G) :=
  (st.ty.bind (Types.findMember T (String.ofList f))).bind fun v =>
    let ty := Types.findType T v.typeName .all
    (getSize T v ty).bind fun size =>
      ((g.const (BitVec.ofNat 32 v.offset)).bin .add).map fun g =>
        ({ ty := ty
           size := size
           isPtr := v.isPtr
           isFunc := v.isFunc
           isRef := if v.arraySize > 0 then false else st.isRef
           var := v
           got := true
           member := true }, g)

/-- `lex_accept(T_struct)`, the name, the asterisks and the closing parenthesis (src/parser.c:857-873): the value. -/
def sizeofToks (T : Types.Table) : List Parser.T → Option (Nat × List Parser.T)
  | ts =>
    let tag := match ts with
      | (.struct, _) :: _ => true
      | _ => false
    match if tag then ts.tail else ts with
    | (.identifier, s) :: ts =>
      let stars := ts.takeWhile fun t => t.1 = .asterisk
      match ts.drop stars.length with
      | (.close_bracket, _) :: ts =>
        (Types.sizeofType T (if tag then .tag (String.ofList s) else .name (String.ofList s)) stars.length).map fun k => (k, ts)
      | _ => none
    | _ => none

/-- The `push` instructions for the arguments, the first argument first (src/parser.c:714-722); `xs` are the operands. -/
def pushes : List Nat → List Insn
  | [] => []
  | x :: xs => { op := .push, rs1 := some x, sz := xs.length + 1 } :: pushes xs

def G.emit (is : List Insn) (g : G) : G := { g with code := g.code ++ is }

/-- A new temporary for the value of a call (src/parser.c:965-972, 980-987). -/
def G.funcRet (g : G) : G where
  code := g.code ++ [{ op := .func_ret, rd := some g.next }]
  consts := g.consts
  next := g.next + 1
  stack := g.next :: g.stack
  data := g.data

/-- Pop `k` operands, the last one on top (src/parser.c:711). -/
def G.popN (k : Nat) (g : G) : Option (List Nat × G) :=
  if g.stack.length < k then none else some ((g.stack.take k).reverse, { g with stack := g.stack.drop k })

variable (N : Names)

/-- After the operand of `*` (src/parser.c:834-846). -/
def derefEnd (st : LvSt) (g : G) (ts : List T) : Option (G × List T) :=
  (if st.isPtr > 1 then some 4 else tySize N.types st.ty).bind fun k => (g.un .read k).map fun g => (g, ts)

mutual
/-- `read_expr_operand` (src/parser.c:756-1017): `-` and what follows it. -/
def operand : Nat → List T → G → Option (G × List T)
  | 0, _, _ => none
  | n + 1, (.minus, _) :: ts, g =>
    match ts with
    | (.numeric, _) :: _ | (.identifier, _) :: _ | (.open_bracket, _) :: _ => operandBody n true ts g
    | _ => none
  | n + 1, ts, g => operandBody n false ts g

/-- The rest of `read_expr_operand` (src/parser.c:771-1016). -/
def operandBody : Nat → Bool → List T → G → Option (G × List T)
  | 0, _, _, _ => none
  | n + 1, neg, ts, g =>
    match ts with
    | (.string, s) :: ts =>
      let s := s.takeWhile (· ≠ '\x00')
      let g' := g.load .load_data_address (BitVec.ofNat 32 g.data.length)
      some ({ g' with data := g.data ++ s ++ ['\x00'] }, ts)
    | (.char, s) :: ts => some (g.const (BitVec.ofNat 32 (s.headD '\x00').toNat), ts)
    | (.numeric, s) :: ts => (readNumericParam s neg).map fun v => (g.const v, ts)
    | (.log_not, _) :: ts => (operand n ts g).bind fun r => (r.1.un (.alu .log_not) 0).map fun g => (g, r.2)
    | (.bit_not, _) :: ts => (operand n ts g).bind fun r => (r.1.un (.alu .bit_not) 0).map fun g => (g, r.2)
    | (.ampersand, _) :: (.identifier, s) :: ts =>
      (N.var s).bind fun x => (lvalue n false x.1 x.2 ts g).bind fun r =>
        if r.1.isRef then some r.2 else (r.2.1.un .address_of 0).map fun g => (g, r.2.2)
    | (.asterisk, _) :: (.identifier, s) :: ts =>
      (N.var s).bind fun x => (lvalue n true x.1 x.2 ts g).bind fun r => derefEnd N r.1 r.2.1 r.2.2
    | (.asterisk, _) :: (.open_bracket, _) :: (.identifier, s) :: ts =>
      (N.var s).bind fun x => (lvalue n true x.1 x.2 ts g).bind fun r =>
        match r.2.2 with
        | (.close_bracket, _) :: ts => derefEnd N r.1 r.2.1 ts
        | _ => none
    | (.open_bracket, _) :: ts =>
      (expr n ts g).bind fun r =>
        match r.2 with
        | (.close_bracket, _) :: ts => some (r.1, ts)
        | _ => none
    | (.sizeof, _) :: (.open_bracket, _) :: ts => (sizeofToks N.types ts).map fun r => (g.const (BitVec.ofNat 32 r.1), r.2)
    | (.identifier, s) :: ts =>
      (named n s ts g).bind fun r => if neg then (r.1.un (.alu .negate) 0).map fun g => (g, r.2) else some r
    | _ => none

/-- A constant, a variable or a call (src/parser.c:942-996). -/
def named : Nat → List Char → List T → G → Option (G × List T)
  | 0, _, _, _ => none
  | n + 1, s, ts, g =>
    match N.const s with
    | some v => some (g.const v, ts)
    | none =>
      match N.var s with
      | some x =>
        (lvalue n true x.1 x.2 ts g).bind fun r =>
          match r.2.2 with
          | (.open_bracket, _) :: ts =>
            (args n ts r.2.1 0).bind fun q => (q.1.popN q.2.1).bind fun a =>
              match a.2.stack with
              | f :: st =>
                some ((({ a.2 with stack := st } : G).emit (pushes a.1 ++ [{ op := .indirect, rs1 := some f }])).funcRet, q.2.2)
              | _ => none
          | ts => some (r.2.1, ts)
      | none =>
        if N.fn s then
          match ts with
          | (.open_bracket, _) :: ts =>
            (args n ts g 0).bind fun q => (q.1.popN q.2.1).map fun a =>
              ((a.2.emit (pushes a.1 ++ [{ op := .call, str := String.ofList s }])).funcRet, q.2.2)
          | _ => none
        else none

/-- The loop of `read_func_parameters` (src/parser.c:706-713): `k` counts the arguments, which stay on the stack. -/
def args : Nat → List T → G → Nat → Option (G × Nat × List T)
  | 0, _, _, _ => none
  | n + 1, ts, g, k =>
    match ts with
    | (.close_bracket, _) :: ts => some (g, k, ts)
    | ts =>
      (expr n ts g).bind fun r =>
        match r.2 with
        | (.comma, _) :: ts => args n ts r.1 (k + 1)
        | ts => args n ts r.1 (k + 1)

/-- `read_expr` (src/parser.c:1029-1230), up to the end of the expression or its first logical operator. -/
def expr : Nat → List T → G → Option (G × List T)
  | 0, _, _ => none
  | n + 1, ts, g => (operand n ts g).bind fun r => exprLoop n false [] r.2 r.1

/-- Operators and operands after the first operand, or after the first operand behind a logical operator (src/parser.c:1053-1218).
`lg`: a logical operator came before in the same expression.  Before a logical operator the operators on the stack are applied
(src/parser.c:1072-1091); not modelled are operators that stay on the stack there (shifts, whose priority is 0), and operators of a
priority lower than that of a logical operator before them (src/parser.c:1169-1196; again shifts). -/
def exprLoop : Nat → Bool → List POp → List T → G → Option (G × List T)
  | 0, _, _, _, _ => none
  | n + 1, lg, os, ts, g =>
    match getOperator ts with
    | (none, ts) => (flush os g).map fun g => (g, ts)
    | (some op, ts') =>
      (popOps (prio op) os g).bind fun q =>
        if op = .log_and ∨ op = .log_or then if q.1 = [] then some (q.2, ts) else none
        else if lg = true ∧ prio op < prio .log_or then none
        else (operand n ts' q.2).bind fun r => exprLoop n lg (op :: q.1) r.2 r.1

/-- `read_lvalue` (src/parser.c:1238-1556) for the variable `x`, after its name; without `prefix_op`. -/
def lvalue : Nat → Bool → Nat → Types.Var → List T → G → Option (LvSt × G × List T)
  | 0, _, _, _, _, _ => none
  | n + 1, eval, x, v, ts, g =>
    (lvStart N.types x v ts g).bind fun q => (access n q.1 q.2 ts).bind fun r =>
      if eval then lvEnd n r.1 r.2.1 r.2.2 else some r

/-- The loop over accessors (src/parser.c:1262-1402). -/
def access : Nat → LvSt → G → List T → Option (LvSt × G × List T)
  | 0, _, _, _ => none
  | n + 1, st, g, ts =>
    match ts with
    | (.open_square, _) :: ts =>
      (idxStart N.types st g).bind fun q => (expr n ts q.2).bind fun r =>
        (scaleAdd (q.1.size ≠ 1) q.1.size r.1).bind fun g =>
          match r.2 with
          | (.close_square, _) :: ts => access n { q.1 with got := true, member := true, isRef := true } g ts
          | _ => none
    | (.arrow, _) :: (.identifier, f) :: ts =>
      (memStart true st g).bind fun g => (member N.types f st g).bind fun q => access n q.1 q.2 ts
    | (.dot, _) :: (.identifier, f) :: ts =>
      (memStart false st g).bind fun g => (member N.types f st g).bind fun q => access n q.1 q.2 ts
    | (.arrow, _) :: _ | (.dot, _) :: _ => none
    | ts => some (st, g, ts)

/-- The value of an lvalue (src/parser.c:1404-1555): additions, or a read. -/
def lvEnd : Nat → LvSt → G → List T → Option (LvSt × G × List T)
  | 0, _, _, _ => none
  | n + 1, st, g, ts =>
    match ts with
    | (.plus, _) :: _ =>
      if st.var.isPtr > 0 ∨ st.var.arraySize > 0 then sums n st g ts
      else (if st.isRef then g.un .read st.size else some g).map fun g => (st, g, ts)
    | (.increment, _) :: _ | (.decrement, _) :: _ => none
    | ts => (if st.isRef then g.un .read st.size else some g).map fun g => (st, g, ts)

/-- The loop over additions (src/parser.c:1405-1452). -/
def sums : Nat → LvSt → G → List T → Option (LvSt × G × List T)
  | 0, _, _, _ => none
  | n + 1, st, g, ts =>
    match ts with
    | (.plus, _) :: ts =>
      (if st.isRef then g.un .read st.size else some g).bind fun g => (operand n ts g).bind fun r =>
        (tySize N.types st.ty).bind fun size => (scaleAdd (size > 1) size r.1).bind fun g => sums n { st with size := size } g r.2
    | ts => some (st, g, ts)
end

/-! ### Assignments -/

/-- The tokens of `read_body_assignment` that mean an operation (src/parser.c:1880-1904): the operator, and whether it is `++` or
`--`. -/
def assignOp : Tok → Option (Op2 × Bool)
  | .increment => some (.add, true)
  | .decrement => some (.sub, true)
  | .pluseq => some (.add, false)
  | .minuseq => some (.sub, false)
  | .asteriskeq => some (.mul, false)
  | .divideeq => some (.div, false)
  | .modeq => some (.mod, false)
  | .lshifteq => some (.lshift, false)
  | .rshifteq => some (.rshift, false)
  | .xoreq => some (.bit_xor, false)
  | .oreq => some (.bit_or, false)
  | .andeq => some (.bit_and, false)
  | _ => none

/-- `write` or `assign` of the value on top of the stack to what is below it; both are popped (src/parser.c:2051-2071). -/
def G.store (ref : Bool) (sz : Nat) (g : G) : Option G :=
  match g.stack with
  | v :: a :: st =>
    some { g with
      code := g.code ++ [if ref then { op := .write, rs1 := some a, rs2 := some v, sz := sz } else { op := .assign, rd := some a, rs1 := some v }]
      stack := st }
  | _ => none

/-- `read_body_assignment` (src/parser.c:1863-2077), after the name of the variable; without calls through pointers and without
`prefix_op`.  In the C code the address or variable is popped before the value is computed; here it stays below it on the stack. -/
def assignment (n : Nat) (s : List Char) (ts : List T) (g : G) : Option (G × List T) :=
  (N.var s).bind fun x => (lvalue N n false x.1 x.2 ts g).bind fun r =>
    let st := r.1
    let g := r.2.1
    match r.2.2 with
    | (.assign, _) :: ts =>
      (expr N n ts g).bind fun q => (q.1.store (st.isFunc || st.isRef) (if st.isFunc then 4 else st.size)).map fun g => (g, q.2)
    | (t, _) :: ts =>
      (assignOp t).bind fun o =>
        (if st.isPtr > 0 then tySize N.types st.ty else some 1).bind fun inc =>
          match g.stack with
          | a :: _ =>
            -- the old value
            (if st.isRef then ({ g with stack := a :: g.stack } : G).un .read st.size else some { g with stack := a :: g.stack }).bind fun g =>
              if o.2 then ((g.const (BitVec.ofNat 32 inc)).bin o.1).bind fun g => (g.store st.isRef st.size).map fun g => (g, ts)
              else (expr N n ts g).bind fun q => ((q.1.const (BitVec.ofNat 32 inc)).bin .mul).bind fun g => (g.bin o.1).bind fun g =>
                (g.store st.isRef st.size).map fun g => (g, q.2)
          | _ => none
    | _ => none

/-- `read_body_assignment` (src/parser.c:1863-2077) with `prefix_op` (src/parser.c:1924-1985), after the name of the variable.  If an
assignment operator follows, the prefix is ignored. -/
def prefixed (o : Op2) (n : Nat) (s : List Char) (ts : List T) (g : G) : Option (G × List T) :=
  (N.var s).bind fun x => (lvalue N n false x.1 x.2 ts g).bind fun r =>
    let st := r.1
    let g1 := r.2.1
    match r.2.2 with
    | [] => none
    | (t, _) :: _ =>
      if t = .open_bracket then none
      else if (assignOp t).isSome then assignment N n s ts g
      else (if st.isPtr > 0 then tySize N.types st.ty else some 1).bind fun inc =>
        match g1.stack with
        | a :: _ =>
          (if st.isRef then ({ g1 with stack := a :: g1.stack } : G).un .read st.size else some { g1 with stack := a :: g1.stack }).bind fun g =>
            ((g.const (BitVec.ofNat 32 inc)).bin o).bind fun g => (g.store st.isRef st.size).map fun g => (g, r.2.2)
        | _ => none

end Shecc.ExprGen
