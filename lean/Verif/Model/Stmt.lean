import Verif.Spec.CStmt

/-!
# Model of the translation of statements into a control-flow graph (src/parser.c)

The functions work on the trees of `Spec/CStmt` instead of the token stream; the order in which they create and connect blocks
and emit instructions is that of the code.  Operands without `&&`, `||`, `?:` are given by their instructions, and the variables the
parser generates are part of the tree.  The value of a constant, `init_val` of its variable, is in the field `sz` of the
instruction.  Not modelled: the first phase's own list of instructions (`ph1_ir`), labels, scopes, the limit of 10 pending side
effects and of `MAX_BB_PRED` predecessors.  `read_expr` makes two blocks for logical operators at each call; here only an
expression with such operators (or explicitly `logic`) does, unused blocks being without effect.  Declarations with initialisers
are expression statements.  `none` stands for a crash or an error message.
-/

namespace Shecc.Stmt
open Shecc.Cfg
open CRename (Ins)
open CStmt (Expr Exprs Ors Ands Tmp Stmt Stmts Cases Label constIns moveIns retIns)

/-- The state of the parser: number of blocks made, the blocks and their code, `break_bb` and `continue_bb` (innermost first),
`side_effect`, and the exit block of the function. -/
structure PS where
  n : Nat
  block : Nat → Block
  code : Nat → List (Ins Nat)
  brk : List Nat
  cont : List Nat
  se : List (Ins Nat)
  exit : Nat

def upd {α : Type} (f : Nat → α) (k : Nat) (x : α) : Nat → α := fun j => if j = k then x else f j

/-- `bb_create` (src/globals.c:696-717): the new block is number `s.n`. -/
def PS.create (s : PS) : PS := { s with n := s.n + 1 }

inductive Kind
  | next | then_ | else_

def setPtr (k : Kind) (b : Block) (q : Nat) : Block :=
  match k with
  | .next => { b with next := some q }
  | .then_ => { b with then_ := some q }
  | .else_ => { b with else_ := some q }

/-- `bb_connect` (src/globals.c:719-753) of an existing block. -/
def PS.link (s : PS) (p q : Nat) (k : Kind) : PS :=
  let b1 := upd s.block q { s.block q with prev := (s.block q).prev ++ [p] }
  { s with block := upd b1 p (setPtr k (b1 p) q) }

/-- `bb_connect` aborts if the predecessor is null (src/globals.c:723-724). -/
def PS.connect (s : PS) (p : Option Nat) (q : Nat) (k : Kind) : Option PS := p.map fun p => s.link p q k

/-- `add_insn` (src/globals.c:805-837), for several instructions; nothing happens if there is no block. -/
def PS.emit (s : PS) (p : Option Nat) (is : List (Ins Nat)) : PS :=
  match p with
  | none => s
  | some b => { s with code := upd s.code b (s.code b ++ is) }

/-- `perform_side_effect` (src/parser.c:2359-2368). -/
def PS.flush (s : PS) (p : Option Nat) : PS := { s.emit p s.se with se := [] }

def branchIns (v : Nat) : Ins Nat := { op := .branch, rs1 := some v }

inductive LogOp
  | and | or
  deriving DecidableEq

/-- The local variables of `read_expr` for logical operators (src/parser.c:1044-1051): the shared blocks, `prev_log_op` (`none`
when `has_prev_log_op` is false) and `pprev_log_op`; and the number of operations finalised so far. -/
structure Log where
  and : Nat
  or : Nat
  prev : Option LogOp := none
  pprev : Option LogOp := none
  i : Nat := 0

/-- Connect to the shared block (src/parser.c:1059-1060, 1094-1097, 1117, 1162) and `read_logical` (src/parser.c:1558-1599): `v` is the
operand before the operator. -/
def readLogical (op : LogOp) (shared : Nat) (v : Nat) (s : PS) (bb : Option Nat) : Option (PS × Option Nat) :=
  (s.connect bb shared (match op with | .and => .else_ | .or => .then_)).bind fun s =>
    let s := s.emit bb [branchIns v]
    let nb := s.n
    (s.create.connect bb nb (match op with | .and => .then_ | .or => .else_)).map fun s => (s, some nb)

/-- `finalize_logical` (src/parser.c:1601-1778): `v` is the last operand. -/
def finalize (op : LogOp) (shared : Nat) (t : Tmp) (v : Nat) (s : PS) (bb : Option Nat) : Option (PS × Option Nat) :=
  bb.map fun b =>
    let e := s.n
    let x := s.n + 1
    let s := s.create.create
    match op with
    | .and =>
      let s := ((s.link b x .then_).link b shared .else_).link x e .next
      let s := s.link shared e .next
      let s := s.emit bb [branchIns v]
      let s := s.emit (some x) [constIns t.one 1, moveIns t.res t.one]
      (s.emit (some shared) [constIns t.zero 0, moveIns t.res t.zero], some e)
    | .or =>
      let s := ((s.link b shared .then_).link b x .else_).link shared e .next
      let s := s.link x e .next
      let s := s.emit bb [branchIns v]
      let s := s.emit (some x) [constIns t.zero 0, moveIns t.res t.zero]
      (s.emit (some shared) [constIns t.one 1, moveIns t.res t.one], some e)

def Log.shared (L : Log) : LogOp → Nat
  | .and => L.and
  | .or => L.or

/-- A logical operator after the operand `v` (src/parser.c:1058-1066, 1092-1166). -/
def applyOp (op : LogOp) (tmp : Nat → Tmp) (v : Nat) (L : Log) (s : PS) (bb : Option Nat) : Option (PS × Option Nat × Log) :=
  if L.prev = none ∨ L.prev = some op then
    (readLogical op (L.shared op) v s bb).map fun r => (r.1, r.2, { L with prev := some op })
  else if L.prev = some .and then
    (finalize .and L.and (tmp L.i) v s bb).bind fun r =>
      let L := { L with and := r.1.n, i := L.i + 1 }
      (readLogical op L.or (tmp (L.i - 1)).res r.1.create r.2).map fun q => (q.1, q.2, { L with prev := some op, pprev := none })
  else
    (readLogical op L.and v s bb).map fun r => (r.1, r.2, { L with pprev := L.prev, prev := some op })

/-- The last loop of `read_expr` (src/parser.c:1214-1224), which runs at most twice; the result is in the last component. -/
def finish : Nat → (Nat → Tmp) → Nat → Log → PS → Option Nat → Option (PS × Option Nat × Nat)
  | 0, _, v, _, s, bb => some (s, bb, v)
  | n + 1, tmp, v, L, s, bb =>
    match L.prev with
    | none => some (s, bb, v)
    | some op =>
      (finalize op (L.shared op) (tmp L.i) v s bb).bind fun r =>
        finish n tmp (tmp L.i).res { L with prev := L.pprev, pprev := none, i := L.i + 1 } r.1 r.2

mutual
/-- `read_expr_operand` (src/parser.c:759-1015), `read_expr` (src/parser.c:1029-1225), `read_ternary_operation`
(src/parser.c:1780-1861): the state, the current block and the variable on top of the operand stack. -/
def lowerE : Expr → PS → Option Nat → Option (PS × Option Nat × Nat)
  | .comp args code v se, s, bb =>
    (lowerArgs args s bb).map fun r => ({ r.1.emit r.2 code with se := r.1.se ++ se }, r.2, v)
  | .logic g tmp, s, bb => lowerOrs g tmp { and := s.n, or := s.n + 1 } s.create.create bb
  | .tern c a b t, s, bb =>
    (lowerE c s bb).bind fun r =>
      let bb := r.2.1
      let s := r.1.emit bb [branchIns r.2.2]
      let x := s.n
      let y := s.n + 1
      let e := s.n + 2
      let s := ((s.create.create.create).link x e .next).link y e .next
      (lowerE a s (some x)).bind fun ra =>
      (ra.1.connect bb (ra.2.1.getD x) .then_).bind fun s =>
      let s := s.emit ra.2.1 [moveIns t ra.2.2]
      (lowerE b s (some y)).bind fun rb =>
      (rb.1.connect bb (rb.2.1.getD y) .else_).map fun s =>
      (s.emit rb.2.1 [moveIns t rb.2.2], some e, t)
def lowerArgs : Exprs → PS → Option Nat → Option (PS × Option Nat)
  | .nil, s, bb => some (s, bb)
  | .cons e es, s, bb => (lowerE e s bb).bind fun r => lowerArgs es r.1 r.2.1
/-- `read_expr` from the operand after `||` (or the first one) on. -/
def lowerOrs : Ors → (Nat → Tmp) → Log → PS → Option Nat → Option (PS × Option Nat × Nat)
  | .one a, tmp, L, s, bb => (lowerAnds a tmp L s bb).bind fun r => finish 2 tmp r.2.2.2 r.2.2.1 r.1 r.2.1
  | .more a r, tmp, L, s, bb =>
    (lowerAnds a tmp L s bb).bind fun q =>
      (applyOp .or tmp q.2.2.2 q.2.2.1 q.1 q.2.1).bind fun x => lowerOrs r tmp x.2.2 x.1 x.2.1
/-- `read_expr` over operands joined by `&&`, up to the last of them. -/
def lowerAnds : Ands → (Nat → Tmp) → Log → PS → Option Nat → Option (PS × Option Nat × Log × Nat)
  | .one e, _, L, s, bb => (lowerE e s bb).map fun r => (r.1, r.2.1, L, r.2.2)
  | .more e r, tmp, L, s, bb =>
    (lowerE e s bb).bind fun q =>
      (applyOp .and tmp q.2.2 L q.1 q.2.1).bind fun x => lowerAnds r tmp x.2.2 x.1 x.2.1
end

/-! ### Statements -/

def isTern : Expr → Bool
  | .tern _ _ _ _ => true
  | _ => false

/-- The condition of `if`, `while`, `do`, `for` and the operand of `switch` are read by `read_expr` only: a `?` there is an error
(src/parser.c:2433, 2544, 2603, 2847, 2979). -/
def lowerC (e : Expr) (s : PS) (bb : Option Nat) : Option (PS × Option Nat × Nat) := if isTern e then none else lowerE e s bb

def lowerOpt (e : Option Expr) (s : PS) (bb : Option Nat) : Option (PS × Option Nat) :=
  match e with
  | none => some (s, bb)
  | some e => (lowerE e s bb).map fun r => (r.1, r.2.1)

/-- The condition of `for`; an absent one is the constant 1 (src/parser.c:2846-2859). -/
def lowerForC (c : Option Expr) (one : Nat) (s : PS) (bb : Option Nat) : Option (PS × Option Nat × Nat) :=
  match c with
  | none => some (s.emit bb [constIns one 1], bb, one)
  | some c => lowerC c s bb

/-- Comparison with a case label (src/parser.c:2633-2662): `v` is the operand of `switch`. -/
def lowerLabel (l : Label) (v : Nat) (s : PS) (bb : Nat) : PS := s.emit (some bb) (l.code v ++ [branchIns l.t])

mutual
/-- `read_body_statement` (src/parser.c:2375-3120); declarations and macro calls are not modelled. -/
def lowerS : Stmt → PS → Option Nat → Option (PS × Option Nat)
  -- src/parser.c:3101-3116
  | .expr e, s, bb => (lowerE e s bb).map fun r => (r.1.flush r.2.1, r.2.1)
  -- src/parser.c:3013-3015
  | .empty, s, bb => some (s, bb)
  -- src/parser.c:2393-2394, 3122-3142
  | .block ss, s, bb => bb.bind fun b => lowerSs ss s (some b)
  -- src/parser.c:2396-2403
  | .ret none, s, bb => ((s.emit bb [retIns none]).connect bb s.exit .next).map fun s => (s, none)
  -- src/parser.c:2405-2418
  | .ret (some e), s, bb =>
    (lowerE e s bb).bind fun r =>
      let s := (r.1.flush r.2.1).emit r.2.1 [retIns (some r.2.2)]
      (s.connect r.2.1 s.exit .next).map fun s => (s, none)
  -- src/parser.c:2421-2462, 2502-2514
  | .ite c t, s, bb =>
    let n := s.n
    (s.create.connect bb n .next).bind fun s =>
    (lowerC c s (some n)).bind fun r =>
    let s := r.1.emit r.2.1 [branchIns r.2.2]
    let x := s.n
    let y := s.n + 1
    (s.create.create.connect r.2.1 x .then_).bind fun s =>
    (s.connect r.2.1 y .else_).bind fun s =>
    (lowerS t s (some x)).map fun q =>
    match q.2 with
    | none => (q.1, some y)
    | some tb =>
      let z := q.1.n
      (((q.1.create).link tb z .next).link y z .next, some z)
  -- src/parser.c:2421-2501
  | .iteElse c t e, s, bb =>
    let n := s.n
    (s.create.connect bb n .next).bind fun s =>
    (lowerC c s (some n)).bind fun r =>
    let s := r.1.emit r.2.1 [branchIns r.2.2]
    let x := s.n
    let y := s.n + 1
    (s.create.create.connect r.2.1 x .then_).bind fun s =>
    (s.connect r.2.1 y .else_).bind fun s =>
    (lowerS t s (some x)).bind fun q =>
    let tn := q.2.map fun _ => q.1.n
    let s := match q.2 with
      | none => q.1
      | some tb => q.1.create.link tb q.1.n .next
    (lowerS e s (some y)).map fun q =>
    let en := q.2.map fun _ => q.1.n
    let s := match q.2 with
      | none => q.1
      | some eb => q.1.create.link eb q.1.n .next
    match tn, en with
    | some a, some b => ((s.create.link a s.n .next).link b s.n .next, some s.n)
    | some a, none => (s, some a)
    | none, en => (s, en)
  -- src/parser.c:2517-2590
  | .while_ c b, s, bb =>
    let n := s.n
    (s.create.connect bb n .next).bind fun s =>
    (lowerC c { s.create with cont := n :: s.cont } (some n)).bind fun r =>
    let s := r.1.emit r.2.1 [branchIns r.2.2]
    let x := s.n
    let y := s.n + 1
    (s.create.create.connect r.2.1 x .then_).bind fun s =>
    (s.connect r.2.1 y .else_).bind fun s =>
    (lowerS b { s with brk := y :: s.brk } (some x)).map fun q =>
    let s := match q.2 with
      | none => q.1
      | some z => q.1.link z n .next
    ({ s with brk := s.brk.tail, cont := s.cont.tail }, some y)
  -- src/parser.c:2940-3011
  | .doWhile b c, s, bb =>
    let n := s.n
    (s.create.connect bb n .next).bind fun s =>
    let x := s.n
    let y := s.n + 1
    let s := s.create.create
    (lowerS b { s with brk := y :: s.brk, cont := x :: s.cont } (some n)).bind fun q =>
    let s := match q.2 with
      | none => q.1
      | some z => q.1.link z x .next
    (lowerC c s (some x)).map fun r =>
    let s := r.1.emit r.2.1 [branchIns r.2.2]
    let s := match r.2.1 with
      | none => s
      | some z => if (s.block z).prev = [] then s else (s.link z n .then_).link z y .else_
    ({ s with brk := s.brk.tail, cont := s.cont.tail }, some y)
  -- src/parser.c:2767-2938
  | .for_ init c one inc b, s, bb =>
    let u := s.n
    (s.create.connect bb u .next).bind fun s =>
    (lowerOpt init s (some u)).bind fun ri =>
    let x := ri.1.n
    let y := ri.1.n + 1
    (ri.1.create.create.connect ri.2 x .next).bind fun s =>
    (lowerForC c one s (some x)).bind fun r =>
    (r.1.connect r.2.1 y .else_).bind fun s =>
    let s := s.emit r.2.1 [branchIns r.2.2]
    let z := s.n
    (lowerOpt inc { s.create with brk := y :: s.brk, cont := z :: s.cont } (some z)).bind fun rz =>
    let w := rz.1.n
    (rz.1.create.connect r.2.1 w .then_).bind fun s =>
    (lowerS b s (some w)).bind fun q =>
    (match q.2 with
    | some v => ((q.1.link v (rz.2.getD z) .next).connect rz.2 x .next)
    | none => if (q.1.code (rz.2.getD z)) = [] then some q.1 else q.1.connect rz.2 x .next).map fun (s : PS) =>
    ({ s with brk := s.brk.tail, cont := s.cont.tail }, some y)
  -- src/parser.c:2592-2749
  | .switch_ e cs, s, bb =>
    let n := s.n
    (s.create.connect bb n .next).bind fun s =>
    (lowerC e s (some n)).bind fun r =>
    let y := r.1.n
    let x := r.1.n + 1
    let s := r.1.create.create
    r.2.1.bind fun b =>
    (lowerCases cs r.2.2 y { s with brk := y :: s.brk } b (some x)).map fun q =>
    let s := match q.2 with
      | none => q.1
      | some z => q.1.link z y .next
    ({ s with brk := s.brk.tail }, if (s.block y).prev = [] then none else some y)
  -- src/parser.c:2751-2757
  | .brk, s, bb => s.brk.head?.bind fun y => (s.connect bb y .next).map fun s => (s, none)
  -- src/parser.c:2759-2765
  | .cont, s, bb => s.cont.head?.bind fun y => (s.connect bb y .next).map fun s => (s, none)
/-- The loop of `read_code_block` (src/parser.c:3133-3138). -/
def lowerSs : Stmts → PS → Option Nat → Option (PS × Option Nat)
  | .nil, s, bb => some (s, bb)
  | .cons st ss, s, bb => (lowerS st s bb).bind fun r => lowerSs ss (r.1.flush r.2) r.2
/-- The statements of a case (src/parser.c:2685-2689). -/
def lowerBody : Stmts → PS → Option Nat → Option (PS × Option Nat)
  | .nil, s, bb => some (s, bb)
  | .cons st ss, s, bb => (lowerS st s bb).bind fun r => lowerBody ss r.1 r.2
/-- The loop over the labels of `switch` (src/parser.c:2614-2727): `v` the operand, `y` the block after the statement, `b` the
block for the comparison, `tb` the block for the statements (`true_body_`). -/
def lowerCases : Cases → Nat → Nat → PS → Nat → Option Nat → Option (PS × Option Nat)
  | .nil, _, _, s, _, tb => some (s, tb)
  | .cons l body r, v, y, s, b, tb =>
    tb.bind fun t =>
    let s := match l with
      | some l => (lowerLabel l v s b).link b t .then_
      | none => s.link b t .next
    (lowerBody body s (some t)).bind fun q =>
    let isNil := match body with
      | .nil => true
      | _ => false
    -- src/parser.c:2691-2699
    let p := match isNil, q.2 with
      | false, some z => ((q.1.create.link z q.1.n .next), some q.1.n)
      | _, tb => (q.1, tb)
    match r with
    | .nil => some (match l with
      | some _ => (p.1.link b y .else_, p.2)
      | none => (p.1, p.2))
    | r =>
      match l with
      | none => none
      | some _ =>
        let nb := p.1.n
        let s := p.1.create.link b nb .else_
        let p := match p.2 with
          | none => (s.create, some s.n)
          | tb => (s, tb)
        lowerCases r v y p.1 nb p.2
end

/-- `read_func_body` (src/parser.c:3146-3161): block 0 is the entry, block 1 the exit. -/
def lowerFn (body : Stmts) : Option PS :=
  let s : PS := { n := 2, block := fun _ => {}, code := fun _ => [], brk := [], cont := [], se := [], exit := 1 }
  (lowerSs body s (some 0)).map fun r =>
    match r.2 with
    | none => r.1
    | some z => r.1.link z 1 .next

/-- The graph as `Spec/CStmt` executes it. -/
def PS.prog (s : PS) : CStmt.Prog where
  next := fun b => (s.block b).next
  then_ := fun b => (s.block b).then_
  else_ := fun b => (s.block b).else_
  code := s.code

end Shecc.Stmt
