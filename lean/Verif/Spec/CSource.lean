import Verif.Spec.CText

/-!
# Specification: `#include "..."`

The text of a file is its contents with every line `#include "name"` replaced by the text of the file `name` in the same directory.
-/

namespace CSource
open Shecc.Text (Byte ascii)

def bytes (s : String) : List Byte := s.toList.map ascii

def newline : Byte := ascii '\n'

/-- The directory of a path, with its final slash. -/
def dir (path : List Byte) : List Byte := (path.reverse.dropWhile (· ≠ ascii '/')).reverse

def includeLine (name : List Byte) : List Byte := bytes "#include \"" ++ name ++ [ascii '"', newline]

/-- `Included fs path content text`: a file at `path` with `content` stands for `text`.  Conditions: `path` has a directory part (other than
the root), paths have less than 256 characters and lines with `#include` at most 255, no NULs, and `#include "` occurs only at the start of
such lines. -/
inductive Included (fs : List Byte → Option (List Byte)) : List Byte → List Byte → List Byte → Prop
  | done {path} : Included fs path [] []
  | incl {path name content text rest text'} : 2 ≤ (dir path).length → (∀ b ∈ name, b ≠ newline ∧ b ≠ 0) → name.length ≤ 243 →
      (dir path ++ name).length < 256 → fs (dir path ++ name) = some content → Included fs (dir path ++ name) content text →
      Included fs path rest text' → Included fs path (includeLine name ++ rest) (text ++ text')
  | line {path l rest text'} : (∀ b ∈ l, b ≠ newline ∧ b ≠ 0) → ¬ bytes "#include \"" <:+: l → Included fs path rest text' →
      Included fs path (l ++ newline :: rest) (l ++ newline :: text')
  | last {path l} : l ≠ [] → (∀ b ∈ l, b ≠ newline ∧ b ≠ 0) → ¬ bytes "#include \"" <:+: l → Included fs path l l

end CSource
