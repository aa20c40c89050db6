/-!
# Specification: C arithmetic on 32-bit `int`

The value of each C operator on two's complement 32-bit integers, as an option: `none` where the C standard leaves
the result undefined and the property makes no claim (division by zero, shift amounts outside 0..31).  Signed
overflow wraps (the compiler's documented dialect), which for division only concerns `INT_MIN / -1`.
-/

namespace CArith

abbrev Word := BitVec 32

inductive BinOp
  | add | sub | mul | div | mod | shl | shr | eq | ne | lt | le | gt | ge | or | and | xor
  deriving DecidableEq, Repr

def ofBool (b : Bool) : Word := if b then 1 else 0

def bin (op : BinOp) (a b : Word) : Option Word :=
  match op with
  | .add => some (a + b)
  | .sub => some (a - b)
  | .mul => some (a * b)
  | .div => if b = 0#32 then none else some (BitVec.ofInt 32 (a.toInt.tdiv b.toInt))
  | .mod => if b = 0#32 then none else some (BitVec.ofInt 32 (a.toInt.tmod b.toInt))
  | .shl => if b.toNat < 32 then some (BitVec.ofInt 32 (a.toInt * 2 ^ b.toNat)) else none
  | .shr => if b.toNat < 32 then some (BitVec.ofInt 32 (a.toInt / 2 ^ b.toNat)) else none
  | .eq => some (ofBool (decide (a.toInt = b.toInt)))
  | .ne => some (ofBool (decide (a.toInt ≠ b.toInt)))
  | .lt => some (ofBool (decide (a.toInt < b.toInt)))
  | .le => some (ofBool (decide (a.toInt ≤ b.toInt)))
  | .gt => some (ofBool (decide (b.toInt < a.toInt)))
  | .ge => some (ofBool (decide (b.toInt ≤ a.toInt)))
  | .or => some (a ||| b)
  | .and => some (a &&& b)
  | .xor => some (a ^^^ b)

inductive UnOp | neg | bnot | lnot
  deriving DecidableEq, Repr

def un (op : UnOp) (a : Word) : Word :=
  match op with
  | .neg => -a
  | .bnot => ~~~a
  | .lnot => ofBool (decide (a.toInt = 0))

end CArith
