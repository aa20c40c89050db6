import Verif.Spec.CText

/-!
# Specification of the subset of `printf` that shecc's C library offers
-/

namespace Shecc.Text

/-- One piece of a format string.  `w` is the width (0: none). -/
inductive Piece where
  | lit (c : Byte)
  | percent
  | str
  | chr
  | dec (zero : Bool) (w : Nat)
  | oct (alt zero : Bool) (w : Nat)
  | hex (alt zero : Bool) (w : Nat)

def Piece.wf : Piece → Prop
  | .lit c => c ≠ 0 ∧ c ≠ ascii '%'
  | .dec _ w | .oct _ _ w | .hex _ _ w => w < 2 ^ 31
  | _ => True

def flag (b : Bool) (c : Char) : List Byte := if b then [ascii c] else []
def widthText (w : Nat) : List Byte := if w = 0 then [] else digits 10 w

/-- how it is written in the format string -/
def Piece.source : Piece → List Byte
  | .lit c => [c]
  | .percent => [ascii '%', ascii '%']
  | .str => [ascii '%', ascii 's']
  | .chr => [ascii '%', ascii 'c']
  | .dec z w => ascii '%' :: (flag z '0' ++ widthText w ++ [ascii 'd'])
  | .oct a z w => ascii '%' :: (flag a '#' ++ flag z '0' ++ widthText w ++ [ascii 'o'])
  | .hex a z w => ascii '%' :: (flag a '#' ++ flag z '0' ++ widthText w ++ [ascii 'x'])

/-- does it consume an argument? -/
def Piece.arity : Piece → Nat
  | .lit _ | .percent => 0
  | _ => 1

/-- is it an integer conversion? -/
def Piece.isInt : Piece → Bool
  | .dec .. | .oct .. | .hex .. => true
  | _ => false

/-- The text it stands for.  `v`: its argument; `s`: the string the argument points to. -/
def Piece.text (v : BitVec 32) (s : List Byte) : Piece → List Byte
  | .lit c => [c]
  | .percent => [ascii '%']
  | .str => s
  | .chr => [v.setWidth 8]
  | .dec z w => field w z (if v.toInt < 0 then [ascii '-'] else []) (digits 10 v.toInt.natAbs)
  | .oct a z w => field w z (if a = true ∧ v ≠ 0 then [ascii '0'] else []) (digits 8 v.toNat)
  | .hex a z w => field w z (if a = true ∧ v ≠ 0 then [ascii '0', ascii 'x'] else []) (digits 16 v.toNat)

def sourceOf (ps : List Piece) : List Byte := (ps.map Piece.source).flatten

/-- The text of a format with arguments `args pi, args (pi+1), ...`; `strs` gives the string behind a pointer. -/
def textOf (args : Nat → BitVec 32) (strs : BitVec 32 → List Byte) : Nat → List Piece → List Byte
  | _, [] => []
  | pi, p :: ps => p.text (args pi) (strs (args pi)) ++ textOf args strs (pi + p.arity) ps

/-- every `%s` argument points to the string that `strs` says -/
def ArgsOk (m : Nat → Byte) (args : Nat → BitVec 32) (strs : BitVec 32 → List Byte) : Nat → List Piece → Prop
  | _, [] => True
  | pi, p :: ps => (p = .str → CStrAt m (args pi).toNat (strs (args pi))) ∧ ArgsOk m args strs (pi + p.arity) ps

end Shecc.Text
