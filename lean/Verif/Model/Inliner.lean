import Verif.Model.Driver

/-!
# Model of tools/inliner.c: the buffer, the files and `main`

`SOURCE` has `MAX_SIZE` bytes (tools/inliner.c:19); a write behind its end is `none` (undefined behaviour), as is reading
from an input file that cannot be opened (`fgets` of a null pointer).  Output files can be opened and written; `malloc`
succeeds.  Strings and files contain no NUL character.
-/

namespace Shecc.Driver

/-- `MAX_SIZE`, tools/inliner.c:19. -/
def inlinerCap : Nat := 65536

/-- `write_char`, tools/inliner.c:24-27; the state is what has been written, `source_idx` its length. -/
def writeChar (c : Char) (s : List Char) : Option (List Char) := if s.length < inlinerCap then some (s ++ [c]) else none

/-- `write_str`, tools/inliner.c:29-33. -/
def writeStr : List Char → List Char → Option (List Char)
  | [], s => some s
  | c :: str, s => (writeChar c s).bind fun s => writeStr str s

/-- The loop of `write_line`, tools/inliner.c:38-45. -/
def writeEscaped : List Char → List Char → Option (List Char)
  | [], s => some s
  | c :: src, s =>
    if c = '"' then (writeChar '\\' s).bind fun s => (writeChar '"' s).bind fun s => writeEscaped src s
    else if c ≠ '\n' then (writeChar c s).bind fun s => writeEscaped src s
    else writeEscaped src s

/-- `write_line`, tools/inliner.c:35-50. -/
def writeLineTo (src : List Char) (s : List Char) : Option (List Char) :=
  (writeStr "  __c(\"".toList s).bind fun s => (writeEscaped src s).bind fun s => (writeChar '\\' s).bind fun s =>
    (writeChar 'n' s).bind fun s => writeStr "\");\n".toList s

/-- The loop of `load_from`, tools/inliner.c:56-62, over what is left of the file. -/
def loadFromTo : List Char → List Char → Option (List Char)
  | [], s => some s
  | c :: f, s => (writeLineTo (fgets 199 (c :: f)).1 s).bind fun s => loadFromTo (fgets 199 (c :: f)).2 s
termination_by f => f.length
decreasing_by exact (fgets_length 199 (c :: f)).2 (by decide) (by simp)

/-- The files by name. -/
abbrev Files := String → Option (List Char)

/-- `load_from`, tools/inliner.c:52-64. -/
def loadFile (fs : Files) (file : String) (s : List Char) : Option (List Char) :=
  match fs file with
  | none => none
  | some f => loadFromTo f s

/-- `save_to`, tools/inliner.c:66-72. -/
def saveTo (file : String) (s : List Char) (fs : Files) : Files := fun n => if n = file then some s else fs n

/-- The texts that `main` writes before the lines, tools/inliner.c:84,97-102. -/
def prologue : List (List Char) :=
  ["/* Created by tools/inliner - DO NOT EDIT. */\n".toList,
   "void __c(char *src) {\n".toList,
   "    for (int i = 0; src[i]; i++)\n".toList,
   "        source_push(SOURCE, src[i]);\n".toList,
   "}\n".toList,
   "void libc_generate() {\n".toList]

/-- The calls of `write_str` one after the other. -/
def writeStrs : List (List Char) → List Char → Option (List Char)
  | [], s => some s
  | t :: ts, s => (writeStr t s).bind fun s => writeStrs ts s

/-- `main`, tools/inliner.c:74-107, on `argv[1] ...`: the exit status and the files afterwards. -/
def inliner (args : List String) (fs : Files) : Option (Int × Files) :=
  match args with
  | inp :: out :: _ =>
    (writeStrs prologue []).bind fun s => (loadFile fs inp s).bind fun s => (writeStr "}\n".toList s).map fun s =>
      (0, saveTo out s fs)
  | _ => some (-1, fs)

end Shecc.Driver
