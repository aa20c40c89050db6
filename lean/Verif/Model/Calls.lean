import Verif.Model.Top

/-!
# The parser, one call at a time

The functions of `Model/ExprGen`, `Model/Body` and `Model/Top` with the calls they make as a parameter: `S` answers the recursive calls.  `runs k S`
is the parser whose calls at depth `k` are answered by `S`.  The text of the definitions is that of the models with the bound on the depth
removed; `Props/Ends` proves that the models are `runs` with calls at the bound answered by failure.
-/

namespace Shecc.Calls
open Shecc.Parser (T POp getOperator readNumericConstant infixExpr evalImm readNumericParam prio)
open Shecc.ExprGen Shecc.Body Shecc.Top
open CTypes (TSpec Form Declr Decl)
open CStmt

/-- An answer to every call of a recursive function of the parser. -/
structure Calls where
  operand : Names → List T → ExprGen.G → Option (ExprGen.G × List T)
  operandBody : Names → Bool → List T → ExprGen.G → Option (ExprGen.G × List T)
  xnamed : Names → List Char → List T → ExprGen.G → Option (ExprGen.G × List T)
  args : Names → List T → ExprGen.G → Nat → Option (ExprGen.G × Nat × List T)
  expr : Names → List T → ExprGen.G → Option (ExprGen.G × List T)
  exprLoop : Names → Bool → List POp → List T → ExprGen.G → Option (ExprGen.G × List T)
  lvalue : Names → Bool → Nat → Types.Var → List T → ExprGen.G → Option (LvSt × ExprGen.G × List T)
  access : Names → LvSt → ExprGen.G → List T → Option (LvSt × ExprGen.G × List T)
  lvEnd : Names → LvSt → ExprGen.G → List T → Option (LvSt × ExprGen.G × List T)
  sums : Names → LvSt → ExprGen.G → List T → Option (LvSt × ExprGen.G × List T)
  ands : Glob → Bool → List T → Body.St → Option (Ands × Body.St × List T)
  ors : Glob → Bool → List T → Body.St → Option (Ors × Body.St × List T)
  decls : Glob → Bool → List Char → List T → Body.St → Option (Exprs × Body.St × List T)
  stmt : Glob → List T → Body.St → Option (Stmt × Body.St × List T)
  items : Glob → List T → Body.St → Option (CStmt.Stmts × Body.St × List T)
  cases : Glob → List T → Body.St → Option (Cases × Body.St × List T)
  group : Glob → List T → Body.St → Option (CStmt.Stmts × Body.St × List T)
  inner : Bool → TSpec → List T → Option (Named × List T)
  params : Bool → List T → Option (List Named × List T)
  members : List T → Option (List Declr × List T)
  enumItems : List T → Option (List (String × Option Int) × List T)
  primary : List T → Option (BitVec 32 × List T)
  operands : List T → Option (List (POp × BitVec 32) × List T)
  initializer : List T → Option (BitVec 32 × List T)
  loop : Nat → List T → Tab → Option Tab

/-- `read_expr_operand` (src/parser.c:756-1017): `-` and what follows it. -/
def operandF (N : Names) (S : Calls) : List T → G → Option (G × List T) :=
  fun ts g =>
  match ts with
  | (.minus, _) :: ts =>
    match ts with
    | (.numeric, _) :: _ | (.identifier, _) :: _ | (.open_bracket, _) :: _ => S.operandBody N true ts g
    | _ => none
  | ts => S.operandBody N false ts g

/-- The rest of `read_expr_operand` (src/parser.c:771-1016). -/
def operandBodyF (N : Names) (S : Calls) : Bool → List T → G → Option (G × List T) :=
  fun neg ts g =>
    match ts with
    | (.string, s) :: ts =>
      let s := s.takeWhile (· ≠ '\x00')
      let g' := g.load .load_data_address (BitVec.ofNat 32 g.data.length)
      some ({ g' with data := g.data ++ s ++ ['\x00'] }, ts)
    | (.char, s) :: ts => some (g.const (BitVec.ofNat 32 (s.headD '\x00').toNat), ts)
    | (.numeric, s) :: ts => (readNumericParam s neg).map fun v => (g.const v, ts)
    | (.log_not, _) :: ts => (S.operand N ts g).bind fun r => (r.1.un (.alu .log_not) 0).map fun g => (g, r.2)
    | (.bit_not, _) :: ts => (S.operand N ts g).bind fun r => (r.1.un (.alu .bit_not) 0).map fun g => (g, r.2)
    | (.ampersand, _) :: (.identifier, s) :: ts =>
      (N.var s).bind fun x => (S.lvalue N false x.1 x.2 ts g).bind fun r =>
        if r.1.isRef then some r.2 else (r.2.1.un .address_of 0).map fun g => (g, r.2.2)
    | (.asterisk, _) :: (.identifier, s) :: ts =>
      (N.var s).bind fun x => (S.lvalue N true x.1 x.2 ts g).bind fun r => derefEnd N r.1 r.2.1 r.2.2
    | (.asterisk, _) :: (.open_bracket, _) :: (.identifier, s) :: ts =>
      (N.var s).bind fun x => (S.lvalue N true x.1 x.2 ts g).bind fun r =>
        match r.2.2 with
        | (.close_bracket, _) :: ts => derefEnd N r.1 r.2.1 ts
        | _ => none
    | (.open_bracket, _) :: ts =>
      (S.expr N ts g).bind fun r =>
        match r.2 with
        | (.close_bracket, _) :: ts => some (r.1, ts)
        | _ => none
    | (.sizeof, _) :: (.open_bracket, _) :: ts => (sizeofToks N.types ts).map fun r => (g.const (BitVec.ofNat 32 r.1), r.2)
    | (.identifier, s) :: ts =>
      (S.xnamed N s ts g).bind fun r => if neg then (r.1.un (.alu .negate) 0).map fun g => (g, r.2) else some r
    | _ => none

/-- A constant, a variable or a call (src/parser.c:942-996). -/
def xnamedF (N : Names) (S : Calls) : List Char → List T → G → Option (G × List T) :=
  fun s ts g =>
    match N.const s with
    | some v => some (g.const v, ts)
    | none =>
      match N.var s with
      | some x =>
        (S.lvalue N true x.1 x.2 ts g).bind fun r =>
          match r.2.2 with
          | (.open_bracket, _) :: ts =>
            (S.args N ts r.2.1 0).bind fun q => (q.1.popN q.2.1).bind fun a =>
              match a.2.stack with
              | f :: st =>
                some ((({ a.2 with stack := st } : G).emit (pushes a.1 ++ [{ op := .indirect, rs1 := some f }])).funcRet, q.2.2)
              | _ => none
          | ts => some (r.2.1, ts)
      | none =>
        if N.fn s then
          match ts with
          | (.open_bracket, _) :: ts =>
            (S.args N ts g 0).bind fun q => (q.1.popN q.2.1).map fun a =>
              ((a.2.emit (pushes a.1 ++ [{ op := .call, str := String.ofList s }])).funcRet, q.2.2)
          | _ => none
        else none

/-- The loop of `read_func_parameters` (src/parser.c:706-713): `k` counts the arguments, which stay on the stack. -/
def argsF (N : Names) (S : Calls) : List T → G → Nat → Option (G × Nat × List T) :=
  fun ts g k =>
    match ts with
    | (.close_bracket, _) :: ts => some (g, k, ts)
    | ts =>
      (S.expr N ts g).bind fun r =>
        match r.2 with
        | (.comma, _) :: ts => S.args N ts r.1 (k + 1)
        | ts => S.args N ts r.1 (k + 1)

/-- `read_expr` (src/parser.c:1029-1230), up to the end of the expression or its first logical operator. -/
def exprF (N : Names) (S : Calls) : List T → G → Option (G × List T) :=
  fun ts g => (S.operand N ts g).bind fun r => S.exprLoop N false [] r.2 r.1

/-- Operators and operands after the first operand, or after the first operand behind a logical operator (src/parser.c:1053-1218).
`lg`: a logical operator came before in the same expression.  Before a logical operator the operators on the stack are applied
(src/parser.c:1072-1091); not modelled are operators that stay on the stack there (shifts, whose priority is 0), and operators of a
priority lower than that of a logical operator before them (src/parser.c:1169-1196; again shifts). -/
def exprLoopF (N : Names) (S : Calls) : Bool → List POp → List T → G → Option (G × List T) :=
  fun lg os ts g =>
    match getOperator ts with
    | (none, ts) => (flush os g).map fun g => (g, ts)
    | (some op, ts') =>
      (popOps (prio op) os g).bind fun q =>
        if op = .log_and ∨ op = .log_or then if q.1 = [] then some (q.2, ts) else none
        else if lg = true ∧ prio op < prio .log_or then none
        else (S.operand N ts' q.2).bind fun r => S.exprLoop N lg (op :: q.1) r.2 r.1

/-- `read_lvalue` (src/parser.c:1238-1556) for the variable `x`, after its name; without `prefix_op`. -/
def lvalueF (N : Names) (S : Calls) : Bool → Nat → Types.Var → List T → G → Option (LvSt × G × List T) :=
  fun eval x v ts g =>
    (lvStart N.types x v ts g).bind fun q => (S.access N q.1 q.2 ts).bind fun r =>
      if eval then S.lvEnd N r.1 r.2.1 r.2.2 else some r

/-- The loop over accessors (src/parser.c:1262-1402). -/
def accessF (N : Names) (S : Calls) : LvSt → G → List T → Option (LvSt × G × List T) :=
  fun st g ts =>
    match ts with
    | (.open_square, _) :: ts =>
      (idxStart N.types st g).bind fun q => (S.expr N ts q.2).bind fun r =>
        (scaleAdd (q.1.size ≠ 1) q.1.size r.1).bind fun g =>
          match r.2 with
          | (.close_square, _) :: ts => S.access N { q.1 with got := true, member := true, isRef := true } g ts
          | _ => none
    | (.arrow, _) :: (.identifier, f) :: ts =>
      (memStart true st g).bind fun g => (member N.types f st g).bind fun q => S.access N q.1 q.2 ts
    | (.dot, _) :: (.identifier, f) :: ts =>
      (memStart false st g).bind fun g => (member N.types f st g).bind fun q => S.access N q.1 q.2 ts
    | (.arrow, _) :: _ | (.dot, _) :: _ => none
    | ts => some (st, g, ts)

/-- The value of an lvalue (src/parser.c:1404-1555): additions, or a read. -/
def lvEndF (N : Names) (S : Calls) : LvSt → G → List T → Option (LvSt × G × List T) :=
  fun st g ts =>
    match ts with
    | (.plus, _) :: _ =>
      if st.var.isPtr > 0 ∨ st.var.arraySize > 0 then S.sums N st g ts
      else (if st.isRef then g.un .read st.size else some g).map fun g => (st, g, ts)
    | (.increment, _) :: _ | (.decrement, _) :: _ => none
    | ts => (if st.isRef then g.un .read st.size else some g).map fun g => (st, g, ts)

/-- The loop over additions (src/parser.c:1405-1452). -/
def sumsF (N : Names) (S : Calls) : LvSt → G → List T → Option (LvSt × G × List T) :=
  fun st g ts =>
    match ts with
    | (.plus, _) :: ts =>
      (if st.isRef then g.un .read st.size else some g).bind fun g => (S.operand N ts g).bind fun r =>
        (tySize N.types st.ty).bind fun size => (scaleAdd (size > 1) size r.1).bind fun g => S.sums N { st with size := size } g r.2
    | ts => some (st, g, ts)

/-- `read_body_assignment` (src/parser.c:1863-2077), after the name of the variable; without calls through pointers and without
`prefix_op`.  In the C code the address or variable is popped before the value is computed; here it stays below it on the stack. -/
def assignmentF (N : Names) (S : Calls) (s : List Char) (ts : List T) (g : G) : Option (G × List T) :=
  (N.var s).bind fun x => (S.lvalue N false x.1 x.2 ts g).bind fun r =>
    let st := r.1
    let g := r.2.1
    match r.2.2 with
    | (.assign, _) :: ts =>
      (S.expr N ts g).bind fun q => (q.1.store (st.isFunc || st.isRef) (if st.isFunc then 4 else st.size)).map fun g => (g, q.2)
    | (t, _) :: ts =>
      (assignOp t).bind fun o =>
        (if st.isPtr > 0 then tySize N.types st.ty else some 1).bind fun inc =>
          match g.stack with
          | a :: _ =>
            -- the old value
            (if st.isRef then ({ g with stack := a :: g.stack } : G).un .read st.size else some { g with stack := a :: g.stack }).bind fun g =>
              if o.2 then ((g.const (BitVec.ofNat 32 inc)).bin o.1).bind fun g => (g.store st.isRef st.size).map fun g => (g, ts)
              else (S.expr N ts g).bind fun q => ((q.1.const (BitVec.ofNat 32 inc)).bin .mul).bind fun g => (g.bin o.1).bind fun g =>
                (g.store st.isRef st.size).map fun g => (g, q.2)
          | _ => none
    | _ => none

/-- `read_body_assignment` (src/parser.c:1863-2077) with `prefix_op` (src/parser.c:1924-1985), after the name of the variable.  If an
assignment operator follows, the prefix is ignored. -/
def prefixedF (N : Names) (S : Calls) (o : Op2) (s : List Char) (ts : List T) (g : G) : Option (G × List T) :=
  (N.var s).bind fun x => (S.lvalue N false x.1 x.2 ts g).bind fun r =>
    let st := r.1
    let g1 := r.2.1
    match r.2.2 with
    | [] => none
    | (t, _) :: _ =>
      if t = .open_bracket then none
      else if (assignOp t).isSome then assignmentF N S s ts g
      else (if st.isPtr > 0 then tySize N.types st.ty else some 1).bind fun inc =>
        match g1.stack with
        | a :: _ =>
          (if st.isRef then ({ g1 with stack := a :: g1.stack } : G).un .read st.size else some { g1 with stack := a :: g1.stack }).bind fun g =>
            ((g.const (BitVec.ofNat 32 inc)).bin o).bind fun g => (g.store st.isRef st.size).map fun g => (g, r.2.2)
        | _ => none

/-- The operands and operators up to a logical operator or the end of the expression (src/parser.c:1053-1091, 1197-1213): they leave one operand. -/
def segmentF (G : Glob) (S : Calls) (lg : Bool) (ts : List T) (st : St) : Option (Expr × St × List T) :=
  (S.operand (names G st) ts (start st)).bind fun r => (S.exprLoop (names G st) lg [] r.2 r.1).bind fun q =>
    match q.1.stack with
    | [v] => some (.comp .nil (q.1.code.map (toIns q.1.consts)) v [], after st q.1, q.2)
    | _ => none

/-- Operands joined by `&&` (src/parser.c:1058-1066, 1092-1166, 1214-1224). -/
def andsF (G : Glob) (S : Calls) : Bool → List T → St → Option (Ands × St × List T) :=
  fun lg ts st =>
    (segmentF G S lg ts st).bind fun r =>
      match getOperator r.2.2 with
      | (some .log_and, ts) => (S.ands G true ts r.2.1).map fun q => (.more r.1 q.1, q.2)
      | _ => some (.one r.1, r.2)

/-- Groups joined by `||` (src/parser.c:1058-1066, 1092-1166, 1214-1224). -/
def orsF (G : Glob) (S : Calls) : Bool → List T → St → Option (Ors × St × List T) :=
  fun lg ts st =>
    (S.ands G lg ts st).bind fun r =>
      match getOperator r.2.2 with
      | (some .log_or, ts) => (S.ors G true ts r.2.1).map fun q => (.more r.1 q.1, q.2)
      | _ => some (.one r.1, r.2)

/-- `read_expr` (src/parser.c:1029-1225) of a full expression. -/
def rexprF (G : Glob) (S : Calls) (ts : List T) (st : St) : Option (Expr × St × List T) :=
  (S.ors G false ts st).map fun r => (wrap r.1 (tmps r.2.1.next), { r.2.1 with next := r.2.1.next + 3 * (r.1.multis + 1) }, r.2.2)

/-- `read_expr` and `read_ternary_operation` (src/parser.c:1780-1861). -/
def valueF (G : Glob) (S : Calls) (ts : List T) (st : St) : Option (Expr × St × List T) :=
  (rexprF G S ts st).bind fun c =>
    match c.2.2 with
    | (.question, _) :: ts =>
      (rexprF G S ts c.2.1).bind fun a => expect .colon a.2.2 fun ts =>
        (rexprF G S ts { a.2.1 with next := a.2.1.next + 1 }).map fun b => (.tern c.1 a.1 b.1 a.2.1.next, b.2.1, b.2.2)
    | ts => some (c.1, c.2.1, ts)

/-- A declarator with its initial value (src/parser.c:3030-3043, 3051-3063): the number of the variable and the value.  The variable is in
scope in its initial value.  `read_ternary_operation` is called only for the first declarator of a declaration. -/
def initDeclF (G : Glob) (S : Calls) (first : Bool) (ty : List Char) (ts : List T) (st : St) : Option (Nat × Option Expr × St × List T) :=
  (declarator ty ts).bind fun d =>
    let st1 : St := { st with frames := addVar (d.1, st.nv, Types.readVar d.2.1) st.frames, nv := st.nv + 1 }
    match d.2.2 with
    | (.assign, _) :: ts => (if first then valueF G S ts st1 else rexprF G S ts st1).map fun r => (st.nv, some r.1, r.2.1, r.2.2)
    | ts => some (st.nv, none, st1, ts)

/-- The declarators behind a type name (src/parser.c:3029-3067, 2790-2827). -/
def declsF (G : Glob) (S : Calls) : Bool → List Char → List T → St → Option (Exprs × St × List T) :=
  fun first ty ts st =>
    (initDeclF G S first ty ts st).bind fun r =>
      match r.2.2.2 with
      | (.comma, _) :: ts => (S.decls G false ty ts r.2.2.1).map fun q => (declCode r.1 r.2.1 q.1, q.2)
      | ts => some (declCode r.1 r.2.1 .nil, r.2.2.1, ts)

/-- `read_body_assignment` (src/parser.c:1863-2077); `pre`: the operator of a prefix `++` or `--`. -/
def assignF (G : Glob) (S : Calls) (pre : Option Op2) (s : List Char) (ts : List T) (st : St) : Option (Expr × St × List T) :=
  match pre with
  | some o => (prefixedF (names G st) S o s ts (start st)).bind (finish st)
  | none =>
    ((names G st).var s).bind fun x => (S.lvalue (names G st) false x.1 x.2 ts (start st)).bind fun r =>
      match r.2.2 with
      | (.assign, _) :: ts =>
        match r.2.1.stack with
        | [a] =>
          (valueF G S ts (after st r.2.1)).map fun q =>
            (.comp (.cons (.comp .nil (r.2.1.code.map (toIns r.2.1.consts)) a []) (.cons q.1 .nil))
              [storeIns (r.1.isFunc || r.1.isRef) (if r.1.isFunc then 4 else r.1.size) a q.1.res] 0 [], q.2)
        | _ => none
      | _ => (assignmentF (names G st) S s ts (start st)).bind (finish st)

/-- `read_func_call` (src/parser.c:725-735): the value is not fetched. -/
def callStmtF (G : Glob) (S : Calls) (s : List Char) (ts : List T) (st : St) : Option (Expr × St × List T) :=
  match ts with
  | (.open_bracket, _) :: ts =>
    (S.args (names G st) ts (start st) 0).bind fun q => (q.1.popN q.2.1).bind fun a =>
      match a.2.stack with
      | [] =>
        some (.comp .nil (((a.2.emit (ExprGen.pushes a.1 ++ [{ op := .call, str := String.ofList s }])).code).map (toIns a.2.consts)) 0 [],
          after st a.2, q.2.2)
      | _ => none
  | _ => none

/-- The beginning of a `for` (src/parser.c:2786-2833), behind `(`: an empty statement, declarations or an assignment, to the semicolon. -/
def forInitF (G : Glob) (S : Calls) (ts : List T) (st : St) : Option (Option Expr × St × List T) :=
  match ts with
  | (.semicolon, _) :: ts => some (none, st, ts)
  | (.identifier, s) :: ts =>
    (if (Types.findType G.types (String.ofList s) .names).isSome then (S.decls G true s ts st).map fun r => (declExpr r.1, r.2) else assignF G S none s ts st).bind
      fun r => expect .semicolon r.2.2 fun ts => some (some r.1, r.2.1, ts)
  | _ => none

/-- The condition of a `for` (src/parser.c:2846-2859), to the semicolon: without one, a variable holds 1. -/
def forCondF (G : Glob) (S : Calls) (ts : List T) (st : St) : Option (Option Expr × Nat × St × List T) :=
  match ts with
  | (.semicolon, _) :: ts => some (none, st.next, { st with next := st.next + 1 }, ts)
  | ts => (rexprF G S ts st).bind fun r => expect .semicolon r.2.2 fun ts => some (some r.1, st.next, r.2.1, ts)

/-- The increment of a `for` (src/parser.c:2888-2896), to the closing parenthesis. -/
def forIncF (G : Glob) (S : Calls) (ts : List T) (st : St) : Option (Option Expr × St × List T) :=
  match ts with
  | (.close_bracket, _) :: ts => some (none, st, ts)
  | (.identifier, s) :: ts => (assignF G S none s ts st).bind fun r => expect .close_bracket r.2.2 fun ts => some (some r.1, r.2.1, ts)
  | (.increment, _) :: (.identifier, s) :: ts =>
    (assignF G S (some .add) s ts st).bind fun r => expect .close_bracket r.2.2 fun ts => some (some r.1, r.2.1, ts)
  | (.decrement, _) :: (.identifier, s) :: ts =>
    (assignF G S (some .sub) s ts st).bind fun r => expect .close_bracket r.2.2 fun ts => some (some r.1, r.2.1, ts)
  | _ => none

/-- A condition in parentheses. -/
def condF (G : Glob) (S : Calls) (ts : List T) (st : St) : Option (Expr × St × List T) :=
  expect .open_bracket ts fun ts => (rexprF G S ts st).bind fun r => expect .close_bracket r.2.2 fun ts => some (r.1, r.2.1, ts)

/-- A statement that begins with a name (src/parser.c:3016-3116), or with a prefix and a name: a declaration, a call or an assignment. -/
def bnamedF (G : Glob) (S : Calls) (pre : Option Op2) (s : List Char) (ts : List T) (st : St) : Option (Stmt × St × List T) :=
  (if (Types.findType G.types (String.ofList s) .names).isSome then (S.decls G true s ts st).map fun r => (declExpr r.1, r.2)
   else if G.macro_ s then none
   else if G.fn s then callStmtF G S s ts st
   else assignF G S pre s ts st).bind fun r => expect .semicolon r.2.2 fun ts => some (.expr r.1, r.2.1, ts)

/-- `read_body_statement` (src/parser.c:2375-3120). -/
def stmtF (G : Glob) (S : Calls) : List T → St → Option (Stmt × St × List T) :=
  fun ts st =>
    match ts with
    | (.open_curly, _) :: ts => (S.items G ts (enter st)).map fun r => (.block r.1, leave st r.2.1, r.2.2)
    | (.return_, _) :: (.semicolon, _) :: ts => some (.ret none, st, ts)
    | (.return_, _) :: ts => (valueF G S ts st).bind fun r => expect .semicolon r.2.2 fun ts => some (.ret (some r.1), r.2.1, ts)
    | (.if_, _) :: ts =>
      (condF G S ts st).bind fun c => (S.stmt G c.2.2 c.2.1).bind fun t =>
        match t.2.2 with
        | (.else_, _) :: ts => (S.stmt G ts t.2.1).map fun e => (.iteElse c.1 t.1 e.1, e.2)
        | ts => some (.ite c.1 t.1, t.2.1, ts)
    | (.while_, _) :: ts => (condF G S ts st).bind fun c => (S.stmt G c.2.2 c.2.1).map fun b => (.while_ c.1 b.1, b.2)
    | (.switch, _) :: ts =>
      (condF G S ts st).bind fun c => expect .open_curly c.2.2 fun ts => (S.cases G ts c.2.1).map fun r => (.switch_ c.1 r.1, r.2)
    | (.break_, _) :: ts => expect .semicolon ts fun ts => some (.brk, st, ts)
    | (.continue_, _) :: ts => expect .semicolon ts fun ts => some (.cont, st, ts)
    | (.for_, _) :: ts =>
      expect .open_bracket ts fun ts => (forInitF G S ts (enter st)).bind fun i => (forCondF G S i.2.2 i.2.1).bind fun c =>
        (forIncF G S c.2.2.2 c.2.2.1).bind fun j => (S.stmt G j.2.2 j.2.1).map fun b =>
          (.for_ i.1 c.1 c.2.1 j.1 b.1, leave st b.2.1, b.2.2)
    | (.do_, _) :: ts =>
      (S.stmt G ts st).bind fun b => expect .while_ b.2.2 fun ts => (condF G S ts b.2.1).bind fun c =>
        expect .semicolon c.2.2 fun ts => some (.doWhile b.1 c.1, c.2.1, ts)
    | (.semicolon, _) :: ts => some (.empty, st, ts)
    | (.identifier, s) :: ts => bnamedF G S none s ts st
    | (.increment, _) :: (.identifier, s) :: ts => bnamedF G S (some .add) s ts st
    | (.decrement, _) :: (.identifier, s) :: ts => bnamedF G S (some .sub) s ts st
    | _ => none

/-- `read_code_block` (src/parser.c:3122-3142), behind the opening brace, to the closing brace. -/
def itemsF (G : Glob) (S : Calls) : List T → St → Option (Stmts × St × List T) :=
  fun ts st =>
    match ts with
    | (.close_curly, _) :: ts => some (.nil, st, ts)
    | ts => (S.stmt G ts st).bind fun r => (S.items G r.2.2 r.2.1).map fun q => (.cons r.1 q.1, q.2)

/-- The labels of a `switch` and their statements (src/parser.c:2614-2731), to the closing brace. -/
def casesF (G : Glob) (S : Calls) : List T → St → Option (Cases × St × List T) :=
  fun ts st =>
    match ts with
    | (.close_curly, _) :: ts => some (.nil, st, ts)
    | (.default, _) :: ts =>
      expect .colon ts fun ts => (S.group G ts st).bind fun r => expect .close_curly r.2.2 fun ts => some (.cons none r.1 .nil, r.2.1, ts)
    | (.case_, _) :: t :: ts =>
      (caseVal G t).bind fun v => expect .colon ts fun ts => (S.group G ts { st with next := st.next + 2 }).bind fun r =>
        (S.cases G r.2.2 r.2.1).map fun q => (.cons (some ⟨v.toNat, st.next, st.next + 1⟩) r.1 q.1, q.2)
    | _ => none

/-- The statements behind a label (src/parser.c:2685-2689). -/
def groupF (G : Glob) (S : Calls) : List T → St → Option (Stmts × St × List T) :=
  fun ts st =>
    match ts with
    | (.case_, _) :: _ | (.default, _) :: _ | (.close_curly, _) :: _ => some (.nil, st, ts)
    | ts => (S.stmt G ts st).bind fun r => (S.group G r.2.2 r.2.1).map fun q => (.cons r.1 q.1, q.2)

/-- `read_func_body` (src/parser.c:3146-3161): the body of a function, from its opening brace on.  Temporaries are numbered from `base` on,
local variables from `nv` on; `d` is `elf_data`. -/
def funcBodyF (G : Glob) (S : Calls) (base nv : Nat) (d : List Char) (ts : List T) : Option (Stmts × St × List T) :=
  expect .open_curly ts fun ts => S.items G ts { next := base, data := d, frames := [[]], nv := nv }

/-- `read_inner_var_decl` (src/parser.c:522-572), behind the type; an anonymous parameter has no name (`anon`). -/
def innerF (S : Calls) : Bool → TSpec → List T → Option (Named × List T) :=
  fun anon sp ts =>
    let k := (ts.takeWhile fun t => t.1 = .asterisk).length
    match ts.drop k with
    | (.open_bracket, _) :: (.asterisk, _) :: (.identifier, s) :: (.close_bracket, _) :: (.open_bracket, _) :: ts =>
      (S.params true ts).map fun r => ((s, { spec := sp, ptrs := k, form := .func, name := String.ofList s }), r.2)
    | (.open_bracket, _) :: _ => none
    | (.identifier, s) :: ts =>
      if anon then none
      else (suffix ts).map fun r => ((s, { spec := sp, ptrs := k, form := r.1, name := String.ofList s }), r.2)
    | ts => if anon then (suffix ts).map fun r => (([], { spec := sp, ptrs := k, form := r.1, name := "" }), r.2) else none

/-- `read_parameter_list_decl` (src/parser.c:589-604), behind the opening parenthesis; commas are optional there. -/
def paramsF (S : Calls) : Bool → List T → Option (List Named × List T) :=
  fun anon ts =>
    match ts with
    | (.identifier, ty) :: ts =>
      (S.inner anon (.name (String.ofList ty)) ts).bind fun r =>
        (S.params anon (match r.2 with
          | (.comma, _) :: ts => ts
          | ts => ts)).map fun q => (r.1 :: q.1, q.2)
    | (.elipsis, _) :: (.close_bracket, _) :: ts => some ([], ts)
    | (.close_bracket, _) :: ts => some ([], ts)
    | _ => none

/-- `read_full_var_decl` (src/parser.c:574-580) of a member. -/
def fullDeclF (S : Calls) : List T → Option (Named × List T)
  | (.struct, _) :: (.identifier, s) :: ts => S.inner false (.tag (String.ofList s)) ts
  | (.identifier, s) :: ts => S.inner false (.name (String.ofList s)) ts
  | _ => none

/-- The members of a structure (src/parser.c:3234-3240, 3287-3293), to the closing brace. -/
def membersF (S : Calls) : List T → Option (List Declr × List T) :=
  fun ts =>
    (fullDeclF S ts).bind fun r => expect .semicolon r.2 fun ts =>
      match ts with
      | (.close_curly, _) :: ts => some ([r.1.2], ts)
      | ts => (S.members ts).map fun q => (r.1.2 :: q.1, q.2)

/-- The constants of an enumeration (src/parser.c:3253-3261), to the closing brace. -/
def enumItemsF (S : Calls) : List T → Option (List (String × Option Int) × List T) :=
  fun ts =>
    let next := fun (c : String × Option Int) (ts : List T) =>
      match ts with
      | (.comma, _) :: ts => (S.enumItems ts).map fun q => (c :: q.1, q.2)
      | (.close_curly, _) :: ts => some ([c], ts)
      | _ => none
    match ts with
    | (.identifier, s) :: (.assign, _) :: (.numeric, k) :: ts => next (String.ofList s, some (readNumericConstant k).toInt) ts
    | (.identifier, _) :: (.assign, _) :: _ => none
    | (.identifier, s) :: ts => next (String.ofList s, none) ts
    | _ => none

/-- The type declarations of `read_global_statement` (src/parser.c:3222-3328). -/
def typeDeclF (S : Calls) : List T → Option (Decl × List T)
  | (.struct, _) :: (.identifier, s) :: (.open_curly, _) :: ts =>
    (S.members ts).bind fun r => expect .semicolon r.2 fun ts => some (.struct (String.ofList s) r.1, ts)
  | (.typedef, _) :: (.enum, _) :: (.open_curly, _) :: ts =>
    (S.enumItems ts).bind fun r => typedefEnd r.2 fun x => .typedefEnum r.1 x
  | (.typedef, _) :: (.struct, _) :: (.identifier, s) :: (.open_curly, _) :: ts =>
    (S.members ts).bind fun r => typedefEnd r.2 fun x => .typedefStruct (some (String.ofList s)) (some r.1) x
  | (.typedef, _) :: (.struct, _) :: (.identifier, s) :: ts => typedefEnd ts fun x => .typedefStruct (some (String.ofList s)) none x
  | (.typedef, _) :: (.struct, _) :: (.open_curly, _) :: ts =>
    (S.members ts).bind fun r => typedefEnd r.2 fun x => .typedefStruct none (some r.1) x
  | (.typedef, _) :: (.identifier, b) :: ts => typedefEnd ts fun x => .typedefName (String.ofList b) x
  | _ => none

/-- `read_primary_constant` (src/parser.c:2079-2100); the buffer has 10 characters. -/
def primaryF (S : Calls) : List T → Option (BitVec 32 × List T) :=
  fun ts =>
    let unsigned := fun (ts : List T) =>
      match ts with
      | (.open_bracket, _) :: ts => (S.primary ts).bind fun r => expect .close_bracket r.2 fun ts => some (r.1, ts)
      | (.numeric, s) :: ts => if s.length < 10 then some (readNumericConstant s, ts) else none
      | (.char, s) :: ts => some (BitVec.ofNat 32 (s.headD '\x00').toNat, ts)
      | _ => none
    match ts with
    | (.minus, _) :: ts => (unsigned ts).map fun r => (-1 * r.1, r.2)
    | ts => unsigned ts

/-- The operators and operands behind the first operand, as far as they go (src/parser.c:2197-2198, 2222-2223, 2287-2291). -/
def operandsF (S : Calls) : List T → Option (List (POp × BitVec 32) × List T) :=
  fun ts =>
    match getOperator ts with
    | (some op, ts) => (S.primary ts).bind fun r => (S.operands r.2).map fun q => ((op, r.1) :: q.1, q.2)
    | (none, ts) => some ([], ts)

/-- `read_global_assignment` (src/parser.c:2184-2349) with `eval_ternary_imm` (src/parser.c:2167-2182): the value.  An expression with the
two-stack algorithm (`Model/Parser`); before `?` it is a condition: if it is zero, tokens are skipped up to the next colon, else
tokens are skipped from the colon up to the next semicolon. -/
def initializerF (S : Calls) : List T → Option (BitVec 32 × List T) :=
  fun ts =>
    (S.primary ts).bind fun a => (S.operands a.2).bind fun r => (infixExpr evalImm a.1 r.1).bind fun v =>
      match r.2 with
      | (.question, _) :: ts =>
        if v = 0 then
          match ts.dropWhile fun t => t.1 ≠ .colon with
          | _ :: ts => S.initializer ts
          | [] => none
        else (S.initializer ts).bind fun q => expect .colon q.2 fun ts => some (q.1, ts.dropWhile fun t => t.1 ≠ .semicolon)
      | ts => some (v, ts)

/-- `read_global_decl` (src/parser.c:3164-3214).  The declaration of a pointer to a function takes an operand from the empty operand stack. -/
def globalDeclF (base : Nat) (S : Calls) (ty : List Char) (ts : List T) (t : Tab) : Option (Tab × List T) :=
  (S.inner false (.name (String.ofList ty)) ts).bind fun d =>
    match d.2 with
    | (.open_bracket, _) :: ts =>
      (S.params false ts).bind fun ps =>
        let t1 := t.addFunc d.1.1
        match ps.2 with
        | (.semicolon, _) :: ts => some (t1, ts)
        | ts =>
          let nv := t.globals.length + ps.1.length
          (funcBodyF (t1.glob ps.1) S base nv t.data ts).map fun r =>
            ({ t1 with data := r.2.1.data, defs := t.defs ++ [⟨d.1.1, ps.1, nv, r.1⟩] }, r.2.2)
    | (.assign, _) :: ts =>
      let v := Types.readVar d.1.2
      if v.isPtr = 0 ∧ v.arraySize = 0 ∧ v.isFunc = false then
        (S.initializer ts).bind fun r => expect .semicolon r.2 fun ts => some (t.addVar d.1 (some r.1), ts)
      else none
    | (.semicolon, _) :: ts => if (Types.readVar d.1.2).isFunc then none else some (t.addVar d.1 none, ts)
    | _ => none

/-- `read_global_statement` (src/parser.c:3216-3333). -/
def global_F (base : Nat) (S : Calls) (ts : List T) (t : Tab) : Option (Tab × List T) :=
  match ts with
  | (.identifier, ty) :: ts => globalDeclF base S ty ts t
  | ts => (typeDeclF S ts).bind fun r => (t.addType r.1).map fun t => (t, r.2)

/-- The loop of `parse_internal` (src/parser.c:3383-3387). -/
def loopF (base : Nat) (S : Calls) : List T → Tab → Option Tab :=
  fun ts t =>
    (global_F base S ts t).bind fun r =>
      match r.2 with
      | (.eof, _) :: _ => some r.1
      | ts => S.loop base ts r.1

/-- The parser whose calls are answered by `S`. -/
def step (S : Calls) : Calls where
  operand := fun N => operandF N S
  operandBody := fun N => operandBodyF N S
  xnamed := fun N => xnamedF N S
  args := fun N => argsF N S
  expr := fun N => exprF N S
  exprLoop := fun N => exprLoopF N S
  lvalue := fun N => lvalueF N S
  access := fun N => accessF N S
  lvEnd := fun N => lvEndF N S
  sums := fun N => sumsF N S
  ands := fun G => andsF G S
  ors := fun G => orsF G S
  decls := fun G => declsF G S
  stmt := fun G => stmtF G S
  items := fun G => itemsF G S
  cases := fun G => casesF G S
  group := fun G => groupF G S
  inner := innerF S
  params := paramsF S
  members := membersF S
  enumItems := enumItemsF S
  primary := primaryF S
  operands := operandsF S
  initializer := initializerF S
  loop := fun base => loopF base S

/-- The parser whose calls at depth `k` are answered by `S`. -/
def runs : Nat → Calls → Calls
  | 0, S => S
  | k + 1, S => step (runs k S)

end Shecc.Calls
