import Verif.Model.LibcHeap

/-!
# Model of `load_source_file` (src/parser.c:3391-3423)

Files are read with `fgets` (C42) into a buffer of `MAX_LINE_LEN` = 256 bytes (src/defs.h:16).  `fs` says what files contain; a file that is
missing makes `fopen` return `NULL` (as the host's C library does; shecc's own does not, see C90).  Strings are the bytes before their NUL.
A write outside `path` or `SOURCE` is undefined: the result is `none`.
-/

namespace Shecc.Source
open Shecc.Libc (Byte)

inductive Load
  | text (l : List Byte)
  | aborted
  deriving DecidableEq

/-- What `fgets` delivers and leaves: see `Shecc.Props.Source.nextChunk_line`. -/
def nextChunk : Nat → List Byte → List Byte × List Byte
  | 0, s => ([], s)
  | _ + 1, [] => ([], [])
  | k + 1, c :: s => if c = 10 then ([10], s) else (c :: (nextChunk k s).1, (nextChunk k s).2)

def cstr (l : List Byte) : List Byte := l.takeWhile (· ≠ 0)

/-- `"#include "` -/
def includeText : List Byte := [35, 105, 110, 99, 108, 117, 100, 101, 32]

/-- `while (c > 0 && file[c] != '/') c--;` (src/parser.c:3408-3409) -/
def slash (file : List Byte) : Nat → Nat
  | 0 => 0
  | c + 1 => if file.getD (c + 1) 0 = 47 then c + 1 else slash file c

/-- The path built from `file` and the line `buffer` (src/parser.c:3406-3416). `g`: what happens to be in `path[0]` before. Lines of less
than 12 characters are not modelled. -/
def pathOf (g : Byte) (file buffer : List Byte) : Option (List Byte) :=
  let c := slash file (file.length - 1)
  let name := (buffer.drop 10).take (buffer.length - 12)
  if buffer.length < 12 then none
  else if c + 1 + name.length < 256 then
    if c ≠ 0 then some (file.take (c + 1) ++ name)
    else if g = 0 then some [] else some (g :: name)
  else none

variable (fs : List Byte → Option (List Byte)) (g : Byte)

mutual
/-- `load_source_file`: `acc` is `SOURCE`. -/
def loadFile : Nat → List Byte → List Byte → Option Load
  | 0, _, _ => none
  | n + 1, file, acc =>
    match fs file with
    | none => some .aborted
    | some c => loadLines n file c acc

/-- The loop (src/parser.c:3400-3421); the second argument is what is left of the file. `MAX_SOURCE`: src/defs.h:30. -/
def loadLines : Nat → List Byte → List Byte → List Byte → Option Load
  | 0, _, _, _ => none
  | n + 1, file, content, acc =>
    if content = [] then some (.text acc)
    else
      let buffer := cstr (nextChunk 255 content).1
      if buffer.take 9 = includeText ∧ buffer.getD 9 0 = 34 then
        match pathOf g file buffer with
        | none => none
        | some p =>
          match loadFile n p acc with
          | some (.text acc') => loadLines n file (nextChunk 255 content).2 acc'
          | r => r
      else if acc.length + buffer.length < 524288 then loadLines n file (nextChunk 255 content).2 (acc ++ buffer)
      else none
end

end Shecc.Source
