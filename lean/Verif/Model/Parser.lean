import Verif.Model.Lexer

/-!
# Model of the expression and constant parts of src/parser.c

The compiler's own `int` arithmetic is on 32-bit words; where the C standard leaves it undefined and the usual build traps
or depends on the host (division by zero, `INT_MIN / -1`, shift counts outside 0..31) the model says `none`.
-/

namespace Shecc.Parser
open Shecc.Lex (Tok isDigit isHex)

abbrev Int32 := BitVec 32

/-! ### Numeric literals -/

/-- The hexadecimal loop of `read_numeric_constant` (src/parser.c:170-179). -/
def hexLoop (v : Int32) : List Char → Int32
  | [] => v
  | c :: r =>
    let v := v <<< 4
    let v := if isDigit c then v + BitVec.ofNat 32 (c.toNat - 48) else v
    let l := c.toNat ||| 32
    let v := if 97 ≤ l ∧ l ≤ 102 then v + BitVec.ofNat 32 (l - 97 + 10) else v
    hexLoop v r

/-- The outer loop of `read_numeric_constant` (src/parser.c:166-186); `i` is the index, `oct` is `buffer[0] == '0'`. -/
def numLoop (oct : Bool) (i : Nat) (v : Int32) : List Char → Int32
  | [] => v
  | c :: r =>
    if i = 1 ∧ c = 'x' then hexLoop 0 r
    else if oct then numLoop oct (i + 1) (v * 8 + BitVec.ofNat 32 c.toNat - 48) r
    else numLoop oct (i + 1) (v * 10 + BitVec.ofNat 32 c.toNat - 48) r

/-- `read_numeric_constant` (src/parser.c:162-187). -/
def readNumericConstant (b : List Char) : Int32 := numLoop (b.head? = some '0') 0 0 b

/-- The three `do … while` loops of `read_numeric_param` (src/parser.c:637-668), from the character read next. `none`:
`error`.  The C loops test the following character; at the end of the token that is 0, which ends all three. -/
def paramHex (v : Int32) : List Char → Option Int32
  | [] => none
  | c :: r =>
    let d := if isDigit c then some (c.toNat - 48)
      else
        let l := c.toNat ||| 32
        if 97 ≤ l ∧ l ≤ 102 then some (l - 97 + 10) else none
    match d with
    | none => none
    | some d =>
      let v := v * 16 + BitVec.ofNat 32 d
      match r with
      | [] => some v
      | c' :: _ => if isHex c' then paramHex v r else some v

def paramOct (v : Int32) : List Char → Option Int32
  | [] => none
  | c :: r =>
    if c.toNat > 55 then none
    else
      let v := v * 8 + BitVec.ofInt 32 (c.toNat - 48)
      match r with
      | [] => some v
      | c' :: _ => if isDigit c' then paramOct v r else some v

def paramDec (v : Int32) : List Char → Option Int32
  | [] => none
  | c :: r =>
    let v := v * 10 + BitVec.ofInt 32 (c.toNat - 48)
    match r with
    | [] => some v
    | c' :: _ => if isDigit c' then paramDec v r else some v

/-- The value `read_numeric_param` loads (src/parser.c:623-679).  A token never starts with `-` (the lexer makes a separate
token of it), so lines 632-635 are not modelled. -/
def readNumericParam (b : List Char) (neg : Bool) : Option Int32 :=
  let v := match b with
    | '0' :: 'x' :: r => paramHex 0 r
    | '0' :: _ => paramOct 0 b
    | _ => paramDec 0 b
  v.map fun v => if neg then -v else v

/-! ### Operators -/

/-- The binary opcodes `get_operator` yields. -/
inductive POp
  | add | sub | mul | div | mod | lshift | rshift | log_and | log_or | eq | neq | lt | leq | gt | geq
  | bit_and | bit_or | bit_xor
  deriving DecidableEq, Repr

/-- `get_operator_prio` (src/parser.c:69-103). -/
def prio : POp → Nat
  | .log_or => 4
  | .log_and => 5
  | .bit_or => 6
  | .bit_xor => 7
  | .bit_and => 8
  | .eq | .neq => 9
  | .lt | .leq | .gt | .geq => 10
  | .add | .sub => 12
  | .mul | .div | .mod => 13
  | .lshift | .rshift => 0

/-- `get_operator` (src/parser.c:118-160): the operator of a token, `none` for `OP_generic` and the ternary. -/
def operator : Tok → Option POp
  | .plus => some .add
  | .minus => some .sub
  | .asterisk => some .mul
  | .divide => some .div
  | .mod => some .mod
  | .lshift => some .lshift
  | .rshift => some .rshift
  | .log_and => some .log_and
  | .log_or => some .log_or
  | .eq => some .eq
  | .noteq => some .neq
  | .lt => some .lt
  | .le => some .leq
  | .gt => some .gt
  | .ge => some .geq
  | .ampersand => some .bit_and
  | .bit_or => some .bit_or
  | .bit_xor => some .bit_xor
  | _ => none

/-! ### The two-stack algorithm

`read_expr` (src/parser.c:1029-1230) without logical operators and `read_global_assignment` (src/parser.c:2224-2312) use the
same algorithm, on emitted variables and on constants; `mk` is what they do to apply an operator.  Stacks are lists, top
first (the arrays have 10 entries: see `C48_stack_bound`). -/

/-- Pop and apply while the operator on top has priority at least `p` (src/parser.c:1070-1090, 2264-2285). -/
def popWhile {α : Type} (mk : POp → α → α → Option α) (p : Nat) : List POp → List α → Option (List POp × List α)
  | [], vs => some ([], vs)
  | o :: os, vs =>
    if prio o ≥ p then
      match vs with
      | b :: a :: vs => (mk o a b).bind fun r => popWhile mk p os (r :: vs)
      | _ => none
    else some (o :: os, vs)

/-- The final loop (src/parser.c:1208-1218, 2293-2301). -/
def unwind {α : Type} (mk : POp → α → α → Option α) : List POp → List α → Option α
  | [], [v] => some v
  | [], _ => none
  | o :: os, b :: a :: vs => (mk o a b).bind fun r => unwind mk os (r :: vs)
  | _ :: _, _ => none

/-- The main loop (src/parser.c:1067-1206, 2261-2291): the remaining operators and operands, then the final loop. -/
def infixLoop {α : Type} (mk : POp → α → α → Option α) (os : List POp) (vs : List α) : List (POp × α) → Option α
  | [] => unwind mk os vs
  | (op, v) :: rest =>
    (popWhile mk (prio op) os vs).bind fun (os, vs) => infixLoop mk (op :: os) (v :: vs) rest

/-- The whole expression: first operand, then operators and operands (src/parser.c:1051-1065: the first operator is pushed
without a comparison). -/
def infixExpr {α : Type} (mk : POp → α → α → Option α) (a : α) : List (POp × α) → Option α
  | [] => some a
  | (op, b) :: rest => infixLoop mk [op] [b, a] rest

/-- `eval_expression_imm` (src/parser.c:2102-2164). -/
def evalImm (op : POp) (a b : Int32) : Option Int32 :=
  let bool := fun (p : Bool) => some (if p then 1#32 else 0#32)
  match op with
  | .add => some (a + b)
  | .sub => some (a - b)
  | .mul => some (a * b)
  | .div => if b = 0#32 ∨ (a = BitVec.intMin 32 ∧ b = -1#32) then none else some (a.sdiv b)
  | .mod =>
    let tmp := b &&& (b - 1#32)
    if b ≠ 0#32 ∧ tmp = 0#32 then some (a &&& (b - 1#32))
    else if b = 0#32 ∨ (a = BitVec.intMin 32 ∧ b = -1#32) then none else some (a.srem b)
  | .lshift => if b.toNat < 32 then some (a <<< b.toNat) else none
  | .rshift => if b.toNat < 32 then some (a.sshiftRight b.toNat) else none
  | .log_and => bool (a ≠ 0#32 ∧ b ≠ 0#32)
  | .log_or => bool (a ≠ 0#32 ∨ b ≠ 0#32)
  | .eq => bool (a = b)
  | .neq => bool (a ≠ b)
  | .lt => bool (a.slt b)
  | .gt => bool (b.slt a)
  | .leq => bool (a.sle b)
  | .geq => bool (b.sle a)
  | .bit_and | .bit_or | .bit_xor => none

/-! ### Preprocessor conditions -/

/-- A token with its text. -/
abbrev T := Tok × List Char

/-- `get_operator` (src/parser.c:118-160) on a token stream: the operator is consumed. -/
def getOperator : List T → Option POp × List T
  | [] => (none, [])
  | (t, s) :: r =>
    match operator t with
    | some op => (some op, r)
    | none => (none, (t, s) :: r)

/-- `read_constant_expr_operand` (src/parser.c:189-218); `alias` is `find_alias`, `n` bounds the nesting of parentheses. -/
def constOperand (alias : List Char → Bool) : Nat → List T → Option (Int32 × List T)
  | 0, _ => none
  | _ + 1, (.numeric, s) :: r => some (readNumericConstant s, r)
  | n + 1, (.open_bracket, _) :: r =>
    match constOperand alias n r with
    | some (v, (.close_bracket, _) :: r) => some (v, r)
    | _ => none
  | _ + 1, (.identifier, s) :: r =>
    if s = "defined".toList then
      match r with
      | (.open_bracket, _) :: (.identifier, w) :: (.close_bracket, _) :: r => some (if alias w then 1 else 0, r)
      | _ => none
    else none
  | _ + 1, _ => none

/-- The `switch` of `read_constant_infix_expr` (src/parser.c:259-311). -/
def constApply (op : POp) (a b : Int32) : Option Int32 :=
  let bool := fun (p : Bool) => some (if p then 1#32 else 0#32)
  match op with
  | .add => some (a + b)
  | .sub => some (a - b)
  | .mul => some (a * b)
  | .div => if b = 0#32 ∨ (a = BitVec.intMin 32 ∧ b = -1#32) then none else some (a.sdiv b)
  | .bit_and => some (a &&& b)
  | .bit_or => some (a ||| b)
  | .bit_xor => some (a ^^^ b)
  | .lshift => if b.toNat < 32 then some (a <<< b.toNat) else none
  | .rshift => if b.toNat < 32 then some (a.sshiftRight b.toNat) else none
  | .gt => bool (b.slt a)
  | .geq => bool (b.sle a)
  | .lt => bool (a.slt b)
  | .leq => bool (a.sle b)
  | .eq => bool (a = b)
  | .neq => bool (a ≠ b)
  | .log_and => bool (a ≠ 0#32 ∧ b ≠ 0#32)
  | .log_or => bool (a ≠ 0#32 ∨ b ≠ 0#32)
  | .mod => none

mutual
/-- `read_constant_infix_expr` (src/parser.c:220-319).  `get_operator` never yields `OP_bit_not` or `OP_log_not`, so the
only unary operators are `+` and `-`, whose priority is 14 (src/parser.c:105-116).  A binary operator found where an
operand should start is consumed. `n` bounds the recursion. -/
def constInfix (alias : List Char → Bool) : Nat → Nat → List T → Option (Int32 × List T)
  | 0, _, _ => none
  | n + 1, prec, ts =>
    let (op, ts) := getOperator ts
    let first :=
      match op with
      | some .add => if 14 ≥ prec then constInfix alias n 14 ts else constOperand alias n ts
      | some .sub =>
        if 14 ≥ prec then (constInfix alias n 14 ts).map fun (v, ts) => (-v, ts) else constOperand alias n ts
      | _ => constOperand alias n ts
    match first with
    | none => none
    | some (lhs, ts) => constLoop alias n prec lhs ts

/-- The `while (true)` loop (src/parser.c:248-316): note the second `get_operator` at its end. -/
def constLoop (alias : List Char → Bool) : Nat → Nat → Int32 → List T → Option (Int32 × List T)
  | 0, _, _, _ => none
  | n + 1, prec, lhs, ts =>
    match getOperator ts with
    | (none, ts) => some (lhs, ts)
    | (some op, ts) =>
      if prio op = 0 ∨ prio op ≤ prec then some (lhs, ts)
      else
        match constInfix alias n (prio op) ts with
        | none => none
        | some (rhs, ts) =>
          match constApply op lhs rhs with
          | none => none
          | some v => constLoop alias n prec v (getOperator ts).2
end

/-- `read_constant_expr` (src/parser.c:321-324). -/
def constExpr (alias : List Char → Bool) (n : Nat) (ts : List T) : Option (Int32 × List T) := constInfix alias n 0 ts

end Shecc.Parser
