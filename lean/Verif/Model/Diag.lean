/-!
# Model of `error` (src/globals.c:957-990) and of `#error` (src/parser.c:432-443)

`el` is the contents of `SOURCE->elements`, `size` is `SOURCE->size`, the position of the lexer (during parsing the field has this meaning).
`none` stands for a write beyond the end of a buffer on the stack.  `abort`, which ends the program, is not modelled.
-/

namespace Shecc.Diag

/-- `MAX_SOURCE` (src/defs.h:30). -/
def maxSource : Nat := 524288

/-- The first loop and `start_idx` (src/globals.c:965-969): the position after the last newline at or before `k`. -/
def lineStart (el : Nat → Char) : Nat → Nat
  | 0 => if el 0 = '\n' then 1 else 0
  | k + 1 => if el (k + 1) = '\n' then k + 2 else lineStart el k

/-- The second loop (src/globals.c:971-975): at most `n` characters from `k` on, to the next newline. -/
def copyLine (el : Nat → Char) : Nat → Nat → List Char
  | 0, _ => []
  | n + 1, k => if el k = '\n' then [] else el k :: copyLine el n (k + 1)

/-- The contents of `diagnostic` (src/globals.c:963, 971-982), which has 512 elements, without the zero at the end. -/
def diagnostic (el : Nat → Char) (size : Nat) : Option (List Char) :=
  let start := lineStart el size
  let d := copyLine el maxSource start ++ ['\n'] ++ List.replicate (size - start) ' ' ++ "^ Error occurs here".toList
  if d.length + 1 ≤ 512 then some d else none

/-- What `%s` prints. -/
def cstr (l : List Char) : List Char := l.takeWhile (· ≠ '\x00')

/-- `error` (src/globals.c:957-990): what is printed. -/
def error (el : Nat → Char) (size : Nat) (msg : List Char) : Option (List Char) :=
  (diagnostic el size).map fun d =>
    "Error ".toList ++ cstr msg ++ " at source location ".toList ++ (toString size).toList ++ ['\n'] ++ cstr d ++ ['\n']

/-- `#error` (src/parser.c:432-443), when the lexer is at position `k` behind the word: what is printed.  `error_diagnostic` has
`MAX_LINE_LEN` = 256 elements. -/
def errorDirective (el : Nat → Char) (k : Nat) : Option (List Char) :=
  let m := el k :: copyLine el maxSource (k + 1)
  if m.length + 1 ≤ 256 then error el (k + m.length) m else none

end Shecc.Diag
