import Verif.Model.Parser
import Verif.Spec.CArith

/-!
# Specification: C numeric literals and the grouping of C expressions

Only the operator names are shared with the model.
-/

namespace CExpr
open Shecc.Parser (POp)

/-! ### Numeric literals -/

inductive Literal
  | dec (ds : List Char)
  | oct (ds : List Char)
  | hex (ds : List Char)

def Literal.spelling : Literal → List Char
  | .dec ds => ds
  | .oct ds => '0' :: ds
  | .hex ds => '0' :: 'x' :: ds

def Literal.Valid : Literal → Prop
  | .dec ds => ds ≠ [] ∧ ds.head? ≠ some '0' ∧ ∀ c ∈ ds, c ∈ "0123456789".toList
  | .oct ds => ∀ c ∈ ds, c ∈ "01234567".toList
  | .hex ds => ds ≠ [] ∧ ∀ c ∈ ds, c ∈ "0123456789abcdefABCDEF".toList

def digitVal (c : Char) : Nat :=
  if c ∈ "ABCDEF".toList then 10 + "ABCDEF".toList.idxOf c else "0123456789abcdef".toList.idxOf c

def digitsVal (base : Nat) (ds : List Char) : Nat := ds.foldl (fun v c => v * base + digitVal c) 0

/-- The mathematical value. -/
def Literal.val : Literal → Nat
  | .dec ds => digitsVal 10 ds
  | .oct ds => digitsVal 8 ds
  | .hex ds => digitsVal 16 ds

/-! ### Grouping -/

/-- C's precedence of the binary operators, larger binds tighter. -/
def prec : POp → Nat
  | .mul | .div | .mod => 13
  | .add | .sub => 12
  | .lshift | .rshift => 11
  | .lt | .leq | .gt | .geq => 10
  | .eq | .neq => 9
  | .bit_and => 8
  | .bit_xor => 7
  | .bit_or => 6
  | .log_and => 5
  | .log_or => 4

inductive Tree (α : Type)
  | leaf (a : α)
  | node (op : POp) (l r : Tree α)
  deriving DecidableEq, Repr

variable {α : Type}

def Tree.root? : Tree α → Option POp
  | .leaf _ => none
  | .node op _ _ => some op

/-- The expression a tree stands for, read left to right: first operand, then operators with operands. -/
def Tree.first : Tree α → α
  | .leaf a => a
  | .node _ l _ => l.first

def Tree.rest : Tree α → List (POp × α)
  | .leaf _ => []
  | .node op l r => l.rest ++ (op, r.first) :: r.rest

/-- The tree is grouped as precedence and left associativity prescribe: under an operator there is nothing looser, and
nothing equally loose on its right. -/
def Tree.Grouped (p : POp → Nat) : Tree α → Prop
  | .leaf _ => True
  | .node op l r => l.Grouped p ∧ r.Grouped p ∧ (∀ o, l.root? = some o → p op ≤ p o) ∧ (∀ o, r.root? = some o → p op < p o)

/-- The tree is how C reads `a` followed by `rest`. -/
def Parses (t : Tree α) (a : α) (rest : List (POp × α)) : Prop := t.first = a ∧ t.rest = rest ∧ t.Grouped prec

/-! ### Values -/

def binOp : POp → Option CArith.BinOp
  | .add => some .add
  | .sub => some .sub
  | .mul => some .mul
  | .div => some .div
  | .mod => some .mod
  | .lshift => some .shl
  | .rshift => some .shr
  | .eq => some .eq
  | .neq => some .ne
  | .lt => some .lt
  | .leq => some .le
  | .gt => some .gt
  | .geq => some .ge
  | .bit_and => some .and
  | .bit_or => some .or
  | .bit_xor => some .xor
  | .log_and | .log_or => none

/-- The value of an expression whose operands are 32-bit `int`s; `&&` and `||` evaluate their right operand only if needed. -/
def Tree.eval : Tree (BitVec 32) → Option (BitVec 32)
  | .leaf v => some v
  | .node .log_and l r => l.eval.bind fun a =>
      if a = 0#32 then some 0#32 else r.eval.bind fun b => some (CArith.ofBool (decide (b ≠ 0#32)))
  | .node .log_or l r => l.eval.bind fun a =>
      if a ≠ 0#32 then some 1#32 else r.eval.bind fun b => some (CArith.ofBool (decide (b ≠ 0#32)))
  | .node op l r => l.eval.bind fun a => r.eval.bind fun b => (binOp op).bind fun o => CArith.bin o a b

end CExpr
