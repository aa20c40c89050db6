import Verif.Model.LibcStr
import Verif.Model.LibcHeap
import Verif.Spec.CFiles

/-!
# Model of `lib/c.c`: `printf`, `sprintf`, `snprintf`, `exit`, `abort`, `fopen`, `fclose`, `fputc`, `fgetc` on open files

The system calls are those of `Spec/CFiles`.  A `FILE *` is the file descriptor.  File names and modes are given as the strings
they point to (`strcmp` on them is C33).
-/

namespace Shecc.Libc
open Shecc.Files

/-- `fopen`, lib/c.c:400-418; on ARM `open` with the same flags. -/
def fopen (k : Kernel) (filename mode : List Byte) : Kernel × CInt :=
  if mode = [119#8, 98#8] then openFile k filename 65
  else if mode = [114#8, 98#8] then openFile k filename 0
  else (k, 0)

/-- `fclose`, lib/c.c:420-424. -/
def fclose (k : Kernel) (stream : CInt) : Kernel × CInt := (close k stream.toNat, 0)

/-- `fputc`, lib/c.c:461-466: the first byte of the parameter `c` in memory is its low byte. -/
def fputc (k : Kernel) (c : CInt) (stream : CInt) : Kernel × CInt :=
  let r := write k stream.toNat [c.setWidth 8]
  if r.2.slt 0 then (r.1, -1) else (r.1, c)

/-- `fgetc`, lib/c.c:428-434: `buf` is zero before the byte is read into it. -/
def fgetcFile (k : Kernel) (stream : CInt) : Kernel × CInt :=
  let r := read k stream.toNat 1
  if r.2.2.slt 1 then (r.1, -1) else (r.1, (r.2.1.headD 0).setWidth 32)

/-- A loop of `fputc` as in `elf_generate`, src/elf.c:257-266: the elements are `char`, sign- or zero-extended by `sx`. -/
def fputAll (sx : Byte → CInt) (k : Kernel) (stream : CInt) : List Byte → Kernel
  | [] => k
  | b :: l => fputAll sx (fputc k (sx b) stream).1 stream l

/-- `fgetc` until it returns -1. -/
def fgetAll (k : Kernel) (stream : CInt) : Nat → Option (List CInt × Kernel)
  | 0 => none
  | n + 1 =>
    let r := fgetcFile k stream
    if r.2 = -1 then some ([], r.1) else (fgetAll r.1 stream n).map fun x => (r.2 :: x.1, x.2)

/-- `INT_MAX`, lib/c.c:16. -/
def INT_MAX : Int := 2147483647

/-- `snprintf` and, with `INT_MAX`, `sprintf`, lib/c.c:376-384. -/
def snprintf (fuel : Nat) (m : Mem) (buffer : Nat) (n : Int) (fmt : Nat) (args : Nat → CInt) : Option (Mem × CInt) :=
  (format_to_buf fuel m fmt args n).map fun r =>
    match r with
    | none => (m, 0)
    | some x => (bufferAfter m buffer x, BitVec.ofInt 32 x.2)

def sprintf (fuel : Nat) (m : Mem) (buffer fmt : Nat) (args : Nat → CInt) : Option (Mem × CInt) := snprintf fuel m buffer INT_MAX fmt args

/-- `printf`, lib/c.c:369-374; `buffer`: where its array of 200 bytes lies on the stack. -/
def printf (fuel : Nat) (k : Kernel) (m : Mem) (buffer fmt : Nat) (args : Nat → CInt) : Option (Kernel × Mem × CInt) :=
  (sprintf fuel m buffer fmt args).map fun x =>
    let r := write k 1 ((List.range x.2.toNat).map fun i => x.1 (buffer + i))
    (r.1, x.1, r.2)

/-- `exit`, lib/c.c:388-392: the regions unmapped, and the process ends. -/
def exitC (fuel : Nat) (k : Kernel) (h : Heap) (code : CInt) : Option (List (Nat × Nat) × Kernel) :=
  (free_all fuel h).map fun l => (l, Files.exit k code)

/-- `abort`, lib/c.c:394-398; `msg`: the address of its string literal. -/
def abortC (fuel : Nat) (k : Kernel) (h : Heap) (m : Mem) (buffer msg : Nat) : Option (List (Nat × Nat) × Kernel) :=
  (printf fuel k m buffer msg fun _ => 0).bind fun x => exitC fuel x.1 h (-1)

end Shecc.Libc
