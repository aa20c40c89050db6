import Verif.Model.Ph2

/-!
# Model of `lib/c.c`: strings, memory copies, number formatting, formatted output, `fgets`

Memory is a function from addresses to bytes.  Addresses are natural numbers: objects do not wrap around the address
space.  `sx` is the conversion of `char` to `int` (unsigned on ARM: `ldrb`; signed on RISC-V: `lb`).
Loops that end only when a NUL is found take fuel; `none` = fuel exhausted.
-/

namespace Shecc.Libc

abbrev Mem := Nat → BitVec 8
abbrev Byte := BitVec 8

def upd (m : Mem) (a : Nat) (v : Byte) : Mem := fun b => if b = a then v else m b

/-- `strlen`, lib/c.c:50-56. -/
def strlenLoop (m : Mem) (str : Nat) : Nat → Nat → Option Nat
  | 0, _ => none
  | fuel + 1, i => if m (str + i) ≠ 0 then strlenLoop m str fuel (i + 1) else some i

def strlen (fuel : Nat) (m : Mem) (str : Nat) : Option Nat := strlenLoop m str fuel 0

/-- `strcmp`, lib/c.c:58-69. -/
def strcmpLoop (sx : Byte → CInt) (m : Mem) (s1 s2 : Nat) : Nat → Nat → Option CInt
  | 0, _ => none
  | fuel + 1, i =>
    if m (s1 + i) ≠ 0 ∧ m (s2 + i) ≠ 0 then
      if (sx (m (s1 + i))).slt (sx (m (s2 + i))) then some (-1)
      else if (sx (m (s2 + i))).slt (sx (m (s1 + i))) then some 1
      else strcmpLoop sx m s1 s2 fuel (i + 1)
    else some (sx (m (s1 + i)) - sx (m (s2 + i)))

def strcmp (sx : Byte → CInt) (fuel : Nat) (m : Mem) (s1 s2 : Nat) : Option CInt := strcmpLoop sx m s1 s2 fuel 0

/-- `strncmp`, lib/c.c:71-84; first argument: iterations left, `len - i` (0 if `len` is negative). -/
def strncmpLoop (sx : Byte → CInt) (m : Mem) (s1 s2 : Nat) : Nat → Nat → CInt
  | 0, _ => 0
  | k + 1, i =>
    if (sx (m (s1 + i))).slt (sx (m (s2 + i))) then -1
    else if (sx (m (s2 + i))).slt (sx (m (s1 + i))) then 1
    else if m (s1 + i) = 0 then 0
    else strncmpLoop sx m s1 s2 k (i + 1)

def strncmp (sx : Byte → CInt) (m : Mem) (s1 s2 : Nat) (len : Int) : CInt := strncmpLoop sx m s1 s2 len.toNat 0

/-- `strcpy`, lib/c.c:86-95. -/
def strcpyLoop (dest src : Nat) : Nat → Mem → Nat → Option Mem
  | 0, _, _ => none
  | fuel + 1, m, i =>
    if m (src + i) ≠ 0 then strcpyLoop dest src fuel (upd m (dest + i) (m (src + i))) (i + 1)
    else some (upd m (dest + i) 0)

def strcpy (fuel : Nat) (m : Mem) (dest src : Nat) : Option Mem := strcpyLoop dest src fuel m 0

/-- `strncpy`, lib/c.c:97-112; first argument: `len - i`. -/
def strncpyLoop (dest src : Nat) : Nat → Mem → Nat → Bool → Mem
  | 0, m, _, _ => m
  | k + 1, m, i, beyond =>
    if beyond = false then
      let m' := upd m (dest + i) (m (src + i))
      strncpyLoop dest src k m' (i + 1) (m' (src + i) = 0)
    else strncpyLoop dest src k (upd m (dest + i) 0) (i + 1) true

def strncpy (m : Mem) (dest src : Nat) (len : Int) : Mem := strncpyLoop dest src len.toNat m 0 false

/-- `memcpy`, lib/c.c:114-121: from the last byte down. -/
def memcpyLoop (dest src : Nat) : Nat → Mem → Mem
  | 0, m => m
  | k + 1, m => memcpyLoop dest src k (upd m (dest + k) (m (src + k)))

def memcpy (m : Mem) (dest src : Nat) (count : Int) : Mem := memcpyLoop dest src count.toNat m

/-! ## Number formatting -/

/-- character constants -/
def c0 : Byte := 48#8
def cMinus : Byte := 45#8
def cSpace : Byte := 32#8
def cx : Byte := 120#8
def ca : Byte := 97#8

/-- `char pb[INT_BUF_LEN]` as a function of the index. -/
abbrev Pb := Nat → Byte

def updPb (pb : Pb) (i : Nat) (v : Byte) : Pb := fun j => if j = i then v else pb j

/-- one iteration of the division by 10, lib/c.c:153-161: (quotient, remainder) -/
def divTen (val : CInt) : CInt × CInt :=
  let q := val.sshiftRight 1 + val.sshiftRight 2
  let q := q + q.sshiftRight 4
  let q := q + q.sshiftRight 8
  let q := q + q.sshiftRight 16
  let q := q.sshiftRight 3
  let r := val - (((q <<< 2) + q) <<< 1)
  let t := (r + 6).sshiftRight 4
  (q + t, r - (((t <<< 2) + t) <<< 1))

/-- `while (val)` of `__str_base10`, lib/c.c:152-166; result: `pb` and `i`.  `pb[i] += r` is a byte addition. -/
def base10Loop : Nat → Pb → CInt → Nat → Option (Pb × Nat)
  | 0, _, _, _ => none
  | fuel + 1, pb, val, i =>
    if val ≠ 0 then
      base10Loop fuel (updPb pb i (pb i + (divTen val).2.setWidth 8)) (divTen val).1 (i - 1)
    else some (pb, i)

/-- the 11 characters of "-2147483648" -/
def intMinText : List Byte := [45#8, 50#8, 49#8, 52#8, 55#8, 52#8, 56#8, 51#8, 54#8, 52#8, 56#8]

/-- `__str_base10`, lib/c.c:137-170. -/
def str_base10 (fuel : Nat) (pb : Pb) (val : CInt) : Option Pb :=
  if val = 0x80000000#32 then
    some fun j => if 5 ≤ j ∧ j < 16 then intMinText.getD (j - 5) 0 else pb j
  else
    let neg := val.slt 0
    let val := if neg then -val else val
    match base10Loop fuel pb val 15 with
    | none => none
    | some (pb, i) => some (if neg then updPb pb i cMinus else pb)

/-- the `for` loop of `__str_base8`, lib/c.c:184-189: (pb, val, c) after `times` iterations -/
def base8Loop : Nat → Pb → CInt → Nat → Pb × CInt × Nat
  | 0, pb, val, c => (pb, val, c)
  | k + 1, pb, val, c => base8Loop k (updPb pb c (c0 + (val &&& 7).setWidth 8)) (val.sshiftRight 3) (c - 1)

/-- `__str_base8`, lib/c.c:172-192; `times = (sizeof(int) << 3) / 3 = 10`. -/
def str_base8 (pb : Pb) (val : CInt) : Pb :=
  let (pb, val, c) := base8Loop 10 pb val 15
  updPb pb c (c0 + (val &&& 3).setWidth 8)

/-- `__str_base16`, lib/c.c:194-211; `times = 8` (the `abort` branch is dead: `v < 16`). -/
def base16Loop : Nat → Pb → CInt → Nat → Pb
  | 0, pb, _, _ => pb
  | k + 1, pb, val, c =>
    let v := val &&& 0xf
    base16Loop k (updPb pb c (if v.slt 10 then c0 + v.setWidth 8 else ca + v.setWidth 8 - 10)) (val.sshiftRight 4) (c - 1)

def str_base16 (pb : Pb) (val : CInt) : Pb := base16Loop 8 pb val 15

/-- `while (pb[pbi] == '0' && pbi < INT_BUF_LEN - 1) pbi++`, lib/c.c:245-246; fuel 16 is enough for any start. -/
def skipZeros (pb : Pb) : Nat → Nat → Nat
  | 0, pbi => pbi
  | k + 1, pbi => if pb pbi = c0 ∧ pbi < 15 then skipZeros pb k (pbi + 1) else pbi

/-- The second `switch (base)` of `__format`, lib/c.c:248-277: sign and base prefix.  Result: what has been written to
`buffer`, then `pb`, `pbi`, `width`. -/
def formatPrefix (base : Nat) (alternate_form zeropad : Bool) (pb : Pb) (pbi : Nat) (width : CInt) :
    List Byte × Pb × Nat × CInt :=
  if base = 8 then
    if alternate_form = true then
      if width ≠ 0 ∧ zeropad = true ∧ pb pbi ≠ c0 then ([c0], pb, pbi, width - 1#32)
      else if pb pbi ≠ c0 then ([], updPb pb (pbi - 1) c0, pbi - 1, width)
      else ([], pb, pbi, width)
    else ([], pb, pbi, width)
  else if base = 10 then
    if width ≠ 0 ∧ zeropad = true ∧ pb pbi = cMinus then ([cMinus], pb, pbi + 1, width - 1#32) else ([], pb, pbi, width)
  else
    if alternate_form = true then
      if width ≠ 0 ∧ zeropad = true ∧ pb pbi ≠ c0 then ([c0, cx], pb, pbi, width - 2#32)
      else if pb pbi ≠ c0 then ([], updPb (updPb pb (pbi - 1) cx) (pbi - 2) c0, pbi - 2, width)
      else ([], pb, pbi, width)
    else ([], pb, pbi, width)

/-- The end of `__format`, lib/c.c:279-289: padding and digits. -/
def formatTail (zeropad : Bool) (r : List Byte × Pb × Nat × CInt) : List Byte :=
  let pb := r.2.1
  let pbi := r.2.2.1
  let width := r.2.2.2 - BitVec.ofNat 32 (16 - pbi)
  let width := if width.slt 0 then 0 else width
  r.1 ++ List.replicate width.toNat (if zeropad then c0 else cSpace) ++ (List.range (16 - pbi)).map fun k => pb (pbi + k)

/-- What `__format`, lib/c.c:213-292, writes from `buffer[0]` on; the result `bi` is its length.
`none`: fuel exhausted or `abort` (unsupported base). -/
def format (fuel : Nat) (val width : CInt) (zeropad : Bool) (base : Nat) (alternate_form : Bool) : Option (List Byte) :=
  let pb0 : Pb := fun _ => c0
  let pb? := if base = 8 then some (str_base8 pb0 val) else if base = 10 then str_base10 fuel pb0 val
    else if base = 16 then some (str_base16 pb0 val) else none
  match pb? with
  | none => none
  | some pb => some (formatTail zeropad (formatPrefix base alternate_form zeropad pb (skipZeros pb 16 0) width))

/-! ## Formatted output

The buffer is assumed not to overlap the format string, the argument area and the string arguments, so these are read
from a fixed memory `m`.  All bytes go to `buffer[0]`, `buffer[1]`, ... in order; the list of bytes written so far stands for
them and its length is `bi`.  `bi` and `size` are not wrapped to 32 bits. -/

def isDig (lo : Nat) (c : Byte) : Prop := lo ≤ c.toNat ∧ c.toNat ≤ 57
instance (lo : Nat) (c : Byte) : Decidable (isDig lo c) := inferInstanceAs (Decidable (_ ∧ _))

/-- the inner `while` over the digits of the width, lib/c.c:321-325 -/
def widthLoop (m : Mem) : Nat → Nat → CInt → Option (Nat × CInt)
  | 0, _, _ => none
  | fuel + 1, si, w =>
    if isDig 48 (m si) then widthLoop m fuel (si + 1) (w * 10 + ((m si).setWidth 32 - 48)) else some (si, w)

/-- flags and width, lib/c.c:308-326: (si, w, zp, pp) -/
def parseSpec (fuel : Nat) (m : Mem) (si : Nat) : Option (Nat × CInt × Bool × Bool) :=
  let pp : Bool := m si = 35#8
  let si := if pp then si + 1 else si
  let zp : Bool := m si = 48#8
  let si := if zp then si + 1 else si
  if isDig 49 (m si) then (widthLoop m fuel (si + 1) ((m si).setWidth 32 - 48)).map fun r => (r.1, r.2, zp, pp)
  else some (si, 0, zp, pp)

/-- the `switch` of `__format_to_buf`, lib/c.c:327-357, except the case `'%'`: the bytes written -/
def conv (fuel : Nat) (m : Mem) (c : Byte) (v w : CInt) (zp pp : Bool) (room : Int) : Option (List Byte) :=
  if c = 115#8 then
    (strlen fuel m v.toNat).map fun l =>
      (List.range (if Int.ofNat l < room then l else room.toNat)).map fun i => m (v.toNat + i)
  else if c = 99#8 then some [v.setWidth 8]
  else if c = 111#8 then format fuel v w zp 8 pp
  else if c = 100#8 then format fuel v w zp 10 false
  else if c = 120#8 then format fuel v w zp 16 pp
  else some []

/-- the main loop of `__format_to_buf`, lib/c.c:301-362 -/
def fmtLoop (m : Mem) (args : Nat → CInt) (size : Int) : Nat → Nat → List Byte → Nat → Option (List Byte)
  | 0, _, _, _ => none
  | fuel + 1, si, out, pi =>
    if m si ≠ 0 ∧ (out.length : Int) < size - 1 then
      if m si ≠ 37#8 then fmtLoop m args size fuel (si + 1) (out ++ [m si]) pi
      else
        match parseSpec fuel m (si + 1) with
        | none => none
        | some (si, w, zp, pp) =>
          if m si = 37#8 then fmtLoop m args size fuel (si + 1) (out ++ [37#8]) pi
          else
            match conv fuel m (m si) (args pi) w zp pp (size - out.length) with
            | none => none
            | some t => fmtLoop m args size fuel (si + 1) (out ++ t) (pi + 1)
    else some out

/-- `__format_to_buf`, lib/c.c:294-367: the bytes written in sequence from `buffer[0]` on, and `len`, the index of the
final NUL and result (`none` inside: `size == 0`, nothing is written). -/
def format_to_buf (fuel : Nat) (m : Mem) (fmt : Nat) (args : Nat → CInt) (size : Int) : Option (Option (List Byte × Int)) :=
  if size = 0 then some none
  else (fmtLoop m args size fuel fmt [] 0).map fun out =>
    some (out, if size - 1 > (out.length : Int) then (out.length : Int) else size - 1)

/-- the memory after `__format_to_buf` -/
def bufferAfter (m : Mem) (buffer : Nat) (r : List Byte × Int) : Mem := fun a =>
  if (a : Int) = buffer + r.2 then 0
  else if buffer ≤ a ∧ a < buffer + r.1.length then r.1.getD (a - buffer) 0 else m a

end Shecc.Libc
