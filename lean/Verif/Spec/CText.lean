/-!
# Specification of C strings and of the text of numbers (independent of the code)
-/

namespace Shecc.Text

abbrev Byte := BitVec 8

/-- The NUL-terminated string at address `p` of memory `m` has characters `s`. -/
def CStrAt (m : Nat → Byte) (p : Nat) (s : List Byte) : Prop :=
  (∀ c ∈ s, c ≠ 0) ∧ (∀ i (h : i < s.length), m (p + i) = s[i]) ∧ m (p + s.length) = 0

/-- `s` comes before `t`: at the first position where they differ the character of `s` is smaller (a string that has
ended has character NUL there).  `val` is the integer value of a character. -/
def StrLess (val : Byte → Int) (s t : List Byte) : Prop :=
  ∃ i, (∀ j, j < i → s.getD j 0 = t.getD j 0) ∧ val (s.getD i 0) < val (t.getD i 0)

/-- value of an unsigned / signed `char` -/
def uval (b : Byte) : Int := b.toNat
def sval (b : Byte) : Int := b.toInt

/-- ASCII code -/
def ascii (c : Char) : Byte := BitVec.ofNat 8 c.toNat

/-- The usual positional notation of `n` in base `b`, lower case: `Nat.toDigits` of the Lean library. -/
def digits (b n : Nat) : List Byte := (Nat.toDigits b n).map ascii

/-- Text of an integer in base 10. -/
def decimal (z : Int) : List Byte := if z < 0 then ascii '-' :: digits 10 z.natAbs else digits 10 z.natAbs

/-- `sign` (or base prefix) and `body` in a field of at least `w` characters: padding goes before the text, unless it is
zero padding, which goes between sign and body. -/
def field (w : Nat) (zero : Bool) (sign body : List Byte) : List Byte :=
  let pad := w - (sign.length + body.length)
  if zero then sign ++ List.replicate pad (ascii '0') ++ body
  else List.replicate pad (ascii ' ') ++ sign ++ body

end Shecc.Text
