import Verif.Model.ExprGen
import Verif.Spec.CStmt

/-!
# Model of the parser of function bodies (src/parser.c:522-587, 1029-1225, 2375-3161, src/globals.c:631-668)

`read_body_statement` reads tokens, and in the same pass it emits instructions and makes basic blocks.  Here the two are separate: the
functions below read the tokens, with declarations and scopes, and yield a tree of statements whose leaves are the instructions emitted for
expressions (`Model/ExprGen`); `Model/Stmt` makes the basic blocks from the tree.  The C code decides nothing about the blocks from the
tokens that is not in the tree.  Declared variables are numbers, in order of declaration from `nv` on; temporaries are numbers from `next`
on.  `none` stands for `error`, a crash, or a construct that is not modelled: what `Model/ExprGen` leaves out, `?:` in arguments,
declarations of pointers to functions, macro calls, preprocessor directives.  Not modelled: the limits of the arrays (`MAX_LOCALS`, nesting
of loops).  `n` bounds the depth of recursion.
-/

namespace Shecc.Body
open Shecc.Ssa (Insn)
open Shecc.Parser (T getOperator readNumericConstant)
open Shecc.ExprGen (G Names)
open CRename (Ins)
open CStmt

/-- A variable: its name, its number, and what its declaration says (`var_t`, src/defs.h:185-209). -/
abbrev Entry := List Char × Nat × Types.Var

/-- What does not change while a function body is read: `TYPES`, `find_constant`, `find_func`, `find_macro`, the parameters of the
function, the variables of the global block. -/
structure Glob where
  types : Types.Table
  const : List Char → Option (BitVec 32)
  fn : List Char → Bool
  macro_ : List Char → Bool
  params : List Entry
  globals : List Entry

/-- The state: the numbers of the next temporary and the next declared variable, `elf_data`, and the variables of the enclosing blocks, of
the innermost block first (`block_t`, src/defs.h:237-247). -/
structure St where
  next : Nat
  data : List Char
  frames : List (List Entry)
  nv : Nat

/-- The first variable with this name. -/
def findIn (s : List Char) (l : List Entry) : Option (Nat × Types.Var) := (l.find? fun e => e.1 = s).map (·.2)

/-- `find_local_var` (src/globals.c:631-650). -/
def findLocal (G : Glob) (s : List Char) : List (List Entry) → Option (Nat × Types.Var)
  | [] => findIn s G.params
  | f :: fs =>
    match findIn s f with
    | some v => some v
    | none => findLocal G s fs

/-- `find_var` (src/globals.c:652-668). -/
def findVar (G : Glob) (fs : List (List Entry)) (s : List Char) : Option (Nat × Types.Var) :=
  match findLocal G s fs with
  | some v => some v
  | none => findIn s G.globals

/-- What the names mean at this point. -/
def names (G : Glob) (st : St) : Names where
  types := G.types
  const := G.const
  var := findVar G st.frames
  fn := G.fn

/-- The constant attached to a variable (`init_val`). -/
def constOf (cs : List (Nat × BitVec 32)) (x : Nat) : BitVec 32 := (cs.lookup x).getD 0

/-- An instruction with the constant it loads, if it loads one, instead of the variable that has the constant attached
(`init_val`, src/parser.c:611-621). -/
def toIns (cs : List (Nat × BitVec 32)) (i : Insn) : Ins Nat :=
  { op := i.op, rd := i.rd, rs1 := i.rs1, rs2 := i.rs2, str := i.str
    sz := if i.op = .load_constant ∨ i.op = .load_data_address then (constOf cs (i.rd.getD 0)).toNat else i.sz }

/-- The state of expression translation at the beginning of an expression: the stack of operands is empty there. -/
def start (st : St) : G := { next := st.next, data := st.data }

/-- The state after an expression. -/
def after (st : St) (g : G) : St := { st with next := g.next, data := g.data }

variable (G : Glob)

/-- The operands and operators up to a logical operator or the end of the expression (src/parser.c:1053-1091, 1197-1213): they leave one operand. -/
def segment (n : Nat) (lg : Bool) (ts : List T) (st : St) : Option (Expr × St × List T) :=
  (ExprGen.operand (names G st) n ts (start st)).bind fun r => (ExprGen.exprLoop (names G st) n lg [] r.2 r.1).bind fun q =>
    match q.1.stack with
    | [v] => some (.comp .nil (q.1.code.map (toIns q.1.consts)) v [], after st q.1, q.2)
    | _ => none

/-- Operands joined by `&&` (src/parser.c:1058-1066, 1092-1166, 1214-1224). -/
def ands : Nat → Bool → List T → St → Option (Ands × St × List T)
  | 0, _, _, _ => none
  | n + 1, lg, ts, st =>
    (segment G n lg ts st).bind fun r =>
      match getOperator r.2.2 with
      | (some .log_and, ts) => (ands n true ts r.2.1).map fun q => (.more r.1 q.1, q.2)
      | _ => some (.one r.1, r.2)

/-- Groups joined by `||` (src/parser.c:1058-1066, 1092-1166, 1214-1224). -/
def ors : Nat → Bool → List T → St → Option (Ors × St × List T)
  | 0, _, _, _ => none
  | n + 1, lg, ts, st =>
    (ands G n lg ts st).bind fun r =>
      match getOperator r.2.2 with
      | (some .log_or, ts) => (ors n true ts r.2.1).map fun q => (.more r.1 q.1, q.2)
      | _ => some (.one r.1, r.2)

/-- The variables for the results of logical operators (src/parser.c:1558-1740), numbered from `b` on. -/
def tmps (b : Nat) (i : Nat) : Tmp := ⟨b + 3 * i, b + 3 * i + 1, b + 3 * i + 2⟩

/-- An expression with logical operators, or a single operand.  The two blocks that `read_expr` makes for the operators
(src/parser.c:1046-1047) stay unused if there are none; then there is no `logic` in the tree. -/
def wrap : Ors → (Nat → Tmp) → Expr
  | .one (.one e), _ => e
  | o, tmp => .logic o tmp

/-- `read_expr` (src/parser.c:1029-1225) of a full expression. -/
def rexpr (n : Nat) (ts : List T) (st : St) : Option (Expr × St × List T) :=
  (ors G n false ts st).map fun r => (wrap r.1 (tmps r.2.1.next), { r.2.1 with next := r.2.1.next + 3 * (r.1.multis + 1) }, r.2.2)

/-- `lex_expect(t)`. -/
def expect {α : Type} (t : Lex.Tok) (ts : List T) (k : List T → Option α) : Option α :=
  match ts with
  | [] => none
  | x :: ts => if x.1 = t then k ts else none

/-- `read_expr` and `read_ternary_operation` (src/parser.c:1780-1861). -/
def value (n : Nat) (ts : List T) (st : St) : Option (Expr × St × List T) :=
  (rexpr G n ts st).bind fun c =>
    match c.2.2 with
    | (.question, _) :: ts =>
      (rexpr G n ts c.2.1).bind fun a => expect .colon a.2.2 fun ts =>
        (rexpr G n ts { a.2.1 with next := a.2.1.next + 1 }).map fun b => (.tern c.1 a.1 b.1 a.2.1.next, b.2.1, b.2.2)
    | ts => some (c.1, c.2.1, ts)

/-! ### Declarations -/

/-- The size of an array; `array_size` is an `int`. -/
def arraySize (s : List Char) : Option Nat :=
  let k := readNumericConstant s
  if k.toNat < 2 ^ 31 then some k.toNat else none

/-- `read_inner_var_decl` (src/parser.c:522-572), without pointers to functions: the type of the variable is named `ty`. -/
def declarator (ty : List Char) (ts : List T) : Option (List Char × CTypes.Declr × List T) :=
  let stars := ts.takeWhile fun t => t.1 = .asterisk
  let d := fun (s : List Char) (f : CTypes.Form) => ({ spec := .name (String.ofList ty), ptrs := stars.length, form := f, name := String.ofList s } : CTypes.Declr)
  match ts.drop stars.length with
  | (.identifier, s) :: (.open_square, _) :: (.numeric, k) :: (.close_square, _) :: ts => (arraySize k).map fun k => (s, d s (.array k), ts)
  | (.identifier, s) :: (.open_square, _) :: (.close_square, _) :: ts => some (s, d s .unsized, ts)
  | (.identifier, _) :: (.open_square, _) :: _ => none
  | (.identifier, s) :: ts => some (s, d s .plain, ts)
  | _ => none

/-- `require_var` in the innermost block (src/parser.c:28-37). -/
def addVar (e : Entry) : List (List Entry) → List (List Entry)
  | [] => [[e]]
  | f :: fs => (f ++ [e]) :: fs

/-- A declaration reserves the variable (`allocat`) and assigns the initial value, if any (src/parser.c:3032-3043). The tag of `allocat` is
the number of the variable. -/
def declCode (x : Nat) (init : Option Expr) (rest : Exprs) : Exprs :=
  .cons (.comp .nil [{ op := .allocat, rd := some x, sz := x }] x [])
    (match init with
     | none => rest
     | some e => .cons (.comp (.cons e .nil) [moveIns x e.res] x []) rest)

/-- A declarator with its initial value (src/parser.c:3030-3043, 3051-3063): the number of the variable and the value.  The variable is in
scope in its initial value.  `read_ternary_operation` is called only for the first declarator of a declaration. -/
def initDecl (n : Nat) (first : Bool) (ty : List Char) (ts : List T) (st : St) : Option (Nat × Option Expr × St × List T) :=
  (declarator ty ts).bind fun d =>
    let st1 : St := { st with frames := addVar (d.1, st.nv, Types.readVar d.2.1) st.frames, nv := st.nv + 1 }
    match d.2.2 with
    | (.assign, _) :: ts => (if first then value G n ts st1 else rexpr G n ts st1).map fun r => (st.nv, some r.1, r.2.1, r.2.2)
    | ts => some (st.nv, none, st1, ts)

/-- The declarators behind a type name (src/parser.c:3029-3067, 2790-2827). -/
def decls : Nat → Bool → List Char → List T → St → Option (Exprs × St × List T)
  | 0, _, _, _, _ => none
  | n + 1, first, ty, ts, st =>
    (initDecl G n first ty ts st).bind fun r =>
      match r.2.2.2 with
      | (.comma, _) :: ts => (decls n false ty ts r.2.2.1).map fun q => (declCode r.1 r.2.1 q.1, q.2)
      | ts => some (declCode r.1 r.2.1 .nil, r.2.2.1, ts)

/-- The declaration is an expression without operation of its own: its parts are evaluated in order. -/
def declExpr (es : Exprs) : Expr := .comp es [] 0 []

/-! ### Assignments and calls -/

/-- The instructions of an assignment without control flow: afterwards the stack of operands is empty. -/
def finish (st : St) (r : ExprGen.G × List T) : Option (Expr × St × List T) :=
  match r.1.stack with
  | [] => some (.comp .nil (r.1.code.map (toIns r.1.consts)) 0 [], after st r.1, r.2)
  | _ => none

/-- The last instruction of an assignment with `=` (src/parser.c:2053-2072). -/
def storeIns (ref : Bool) (sz a v : Nat) : Ins Nat :=
  if ref then { op := .write, rs1 := some a, rs2 := some v, sz := sz } else { op := .assign, rd := some a, rs1 := some v }

/-- `read_body_assignment` (src/parser.c:1863-2077); `pre`: the operator of a prefix `++` or `--`. -/
def assign (n : Nat) (pre : Option Op2) (s : List Char) (ts : List T) (st : St) : Option (Expr × St × List T) :=
  match pre with
  | some o => (ExprGen.prefixed (names G st) o n s ts (start st)).bind (finish st)
  | none =>
    ((names G st).var s).bind fun x => (ExprGen.lvalue (names G st) n false x.1 x.2 ts (start st)).bind fun r =>
      match r.2.2 with
      | (.assign, _) :: ts =>
        match r.2.1.stack with
        | [a] =>
          (value G n ts (after st r.2.1)).map fun q =>
            (.comp (.cons (.comp .nil (r.2.1.code.map (toIns r.2.1.consts)) a []) (.cons q.1 .nil))
              [storeIns (r.1.isFunc || r.1.isRef) (if r.1.isFunc then 4 else r.1.size) a q.1.res] 0 [], q.2)
        | _ => none
      | _ => (ExprGen.assignment (names G st) n s ts (start st)).bind (finish st)

/-- `read_func_call` (src/parser.c:725-735): the value is not fetched. -/
def callStmt (n : Nat) (s : List Char) (ts : List T) (st : St) : Option (Expr × St × List T) :=
  match ts with
  | (.open_bracket, _) :: ts =>
    (ExprGen.args (names G st) n ts (start st) 0).bind fun q => (q.1.popN q.2.1).bind fun a =>
      match a.2.stack with
      | [] =>
        some (.comp .nil (((a.2.emit (ExprGen.pushes a.1 ++ [{ op := .call, str := String.ofList s }])).code).map (toIns a.2.consts)) 0 [],
          after st a.2, q.2.2)
      | _ => none
  | _ => none

/-! ### Statements -/

/-- The value of a `case` label (src/parser.c:2618-2631). -/
def caseVal : T → Option (BitVec 32)
  | (.numeric, s) => some (readNumericConstant s)
  | (.char, s) => some (BitVec.ofNat 32 (s.headD '\x00').toNat)
  | (.identifier, s) => G.const s
  | _ => none

/-- The beginning of a `for` (src/parser.c:2786-2833), behind `(`: an empty statement, declarations or an assignment, to the semicolon. -/
def forInit (n : Nat) (ts : List T) (st : St) : Option (Option Expr × St × List T) :=
  match ts with
  | (.semicolon, _) :: ts => some (none, st, ts)
  | (.identifier, s) :: ts =>
    (if (Types.findType G.types (String.ofList s) .names).isSome then (decls G n true s ts st).map fun r => (declExpr r.1, r.2) else assign G n none s ts st).bind
      fun r => expect .semicolon r.2.2 fun ts => some (some r.1, r.2.1, ts)
  | _ => none

/-- The condition of a `for` (src/parser.c:2846-2859), to the semicolon: without one, a variable holds 1. -/
def forCond (n : Nat) (ts : List T) (st : St) : Option (Option Expr × Nat × St × List T) :=
  match ts with
  | (.semicolon, _) :: ts => some (none, st.next, { st with next := st.next + 1 }, ts)
  | ts => (rexpr G n ts st).bind fun r => expect .semicolon r.2.2 fun ts => some (some r.1, st.next, r.2.1, ts)

/-- The increment of a `for` (src/parser.c:2888-2896), to the closing parenthesis. -/
def forInc (n : Nat) (ts : List T) (st : St) : Option (Option Expr × St × List T) :=
  match ts with
  | (.close_bracket, _) :: ts => some (none, st, ts)
  | (.identifier, s) :: ts => (assign G n none s ts st).bind fun r => expect .close_bracket r.2.2 fun ts => some (some r.1, r.2.1, ts)
  | (.increment, _) :: (.identifier, s) :: ts =>
    (assign G n (some .add) s ts st).bind fun r => expect .close_bracket r.2.2 fun ts => some (some r.1, r.2.1, ts)
  | (.decrement, _) :: (.identifier, s) :: ts =>
    (assign G n (some .sub) s ts st).bind fun r => expect .close_bracket r.2.2 fun ts => some (some r.1, r.2.1, ts)
  | _ => none

/-- A condition in parentheses. -/
def cond (n : Nat) (ts : List T) (st : St) : Option (Expr × St × List T) :=
  expect .open_bracket ts fun ts => (rexpr G n ts st).bind fun r => expect .close_bracket r.2.2 fun ts => some (r.1, r.2.1, ts)

/-- A new block (`add_block`). -/
def enter (st : St) : St := { st with frames := [] :: st.frames }

/-- The end of a block. -/
def leave (old : St) (st : St) : St := { st with frames := old.frames }

/-- A statement that begins with a name (src/parser.c:3016-3116), or with a prefix and a name: a declaration, a call or an assignment. -/
def named (n : Nat) (pre : Option Op2) (s : List Char) (ts : List T) (st : St) : Option (Stmt × St × List T) :=
  (if (Types.findType G.types (String.ofList s) .names).isSome then (decls G n true s ts st).map fun r => (declExpr r.1, r.2)
   else if G.macro_ s then none
   else if G.fn s then callStmt G n s ts st
   else assign G n pre s ts st).bind fun r => expect .semicolon r.2.2 fun ts => some (.expr r.1, r.2.1, ts)

mutual
/-- `read_body_statement` (src/parser.c:2375-3120). -/
def stmt : Nat → List T → St → Option (Stmt × St × List T)
  | 0, _, _ => none
  | n + 1, ts, st =>
    match ts with
    | (.open_curly, _) :: ts => (items n ts (enter st)).map fun r => (.block r.1, leave st r.2.1, r.2.2)
    | (.return_, _) :: (.semicolon, _) :: ts => some (.ret none, st, ts)
    | (.return_, _) :: ts => (value G n ts st).bind fun r => expect .semicolon r.2.2 fun ts => some (.ret (some r.1), r.2.1, ts)
    | (.if_, _) :: ts =>
      (cond G n ts st).bind fun c => (stmt n c.2.2 c.2.1).bind fun t =>
        match t.2.2 with
        | (.else_, _) :: ts => (stmt n ts t.2.1).map fun e => (.iteElse c.1 t.1 e.1, e.2)
        | ts => some (.ite c.1 t.1, t.2.1, ts)
    | (.while_, _) :: ts => (cond G n ts st).bind fun c => (stmt n c.2.2 c.2.1).map fun b => (.while_ c.1 b.1, b.2)
    | (.switch, _) :: ts =>
      (cond G n ts st).bind fun c => expect .open_curly c.2.2 fun ts => (cases n ts c.2.1).map fun r => (.switch_ c.1 r.1, r.2)
    | (.break_, _) :: ts => expect .semicolon ts fun ts => some (.brk, st, ts)
    | (.continue_, _) :: ts => expect .semicolon ts fun ts => some (.cont, st, ts)
    | (.for_, _) :: ts =>
      expect .open_bracket ts fun ts => (forInit G n ts (enter st)).bind fun i => (forCond G n i.2.2 i.2.1).bind fun c =>
        (forInc G n c.2.2.2 c.2.2.1).bind fun j => (stmt n j.2.2 j.2.1).map fun b =>
          (.for_ i.1 c.1 c.2.1 j.1 b.1, leave st b.2.1, b.2.2)
    | (.do_, _) :: ts =>
      (stmt n ts st).bind fun b => expect .while_ b.2.2 fun ts => (cond G n ts b.2.1).bind fun c =>
        expect .semicolon c.2.2 fun ts => some (.doWhile b.1 c.1, c.2.1, ts)
    | (.semicolon, _) :: ts => some (.empty, st, ts)
    | (.identifier, s) :: ts => named G n none s ts st
    | (.increment, _) :: (.identifier, s) :: ts => named G n (some .add) s ts st
    | (.decrement, _) :: (.identifier, s) :: ts => named G n (some .sub) s ts st
    | _ => none

/-- `read_code_block` (src/parser.c:3122-3142), behind the opening brace, to the closing brace. -/
def items : Nat → List T → St → Option (Stmts × St × List T)
  | 0, _, _ => none
  | n + 1, ts, st =>
    match ts with
    | (.close_curly, _) :: ts => some (.nil, st, ts)
    | ts => (stmt n ts st).bind fun r => (items n r.2.2 r.2.1).map fun q => (.cons r.1 q.1, q.2)

/-- The labels of a `switch` and their statements (src/parser.c:2614-2731), to the closing brace. -/
def cases : Nat → List T → St → Option (Cases × St × List T)
  | 0, _, _ => none
  | n + 1, ts, st =>
    match ts with
    | (.close_curly, _) :: ts => some (.nil, st, ts)
    | (.default, _) :: ts =>
      expect .colon ts fun ts => (group n ts st).bind fun r => expect .close_curly r.2.2 fun ts => some (.cons none r.1 .nil, r.2.1, ts)
    | (.case_, _) :: t :: ts =>
      (caseVal G t).bind fun v => expect .colon ts fun ts => (group n ts { st with next := st.next + 2 }).bind fun r =>
        (cases n r.2.2 r.2.1).map fun q => (.cons (some ⟨v.toNat, st.next, st.next + 1⟩) r.1 q.1, q.2)
    | _ => none

/-- The statements behind a label (src/parser.c:2685-2689). -/
def group : Nat → List T → St → Option (Stmts × St × List T)
  | 0, _, _ => none
  | n + 1, ts, st =>
    match ts with
    | (.case_, _) :: _ | (.default, _) :: _ | (.close_curly, _) :: _ => some (.nil, st, ts)
    | ts => (stmt n ts st).bind fun r => (group n r.2.2 r.2.1).map fun q => (.cons r.1 q.1, q.2)
end

/-- `read_func_body` (src/parser.c:3146-3161): the body of a function, from its opening brace on.  Temporaries are numbered from `base` on,
local variables from `nv` on; `d` is `elf_data`. -/
def funcBody (n base nv : Nat) (d : List Char) (ts : List T) : Option (Stmts × St × List T) :=
  expect .open_curly ts fun ts => items G n ts { next := base, data := d, frames := [[]], nv := nv }

end Shecc.Body
