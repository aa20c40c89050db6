/-!
# Specification: where an error is reported

The position of an error is shown by the line that contains it and a mark under its column.
-/

namespace CDiag

/-- Position `p` of the text is column `col` of `line`; `before` are the lines before it, `after` what follows it. -/
structure At (text before line after : List Char) (p col : Nat) : Prop where
  split : text = before ++ line ++ '\n' :: after
  start : before = [] ∨ ∃ b, before = b ++ ['\n']
  one : '\n' ∉ line
  pos : p = before.length + col
  col : col < line.length

/-- What the user reads. -/
def shown (msg line : List Char) (p col : Nat) : List Char :=
  "Error ".toList ++ msg ++ " at source location ".toList ++ (toString p).toList ++ ['\n'] ++
    line ++ ['\n'] ++ List.replicate col ' ' ++ "^ Error occurs here".toList ++ ['\n']

/-- There are no zero characters. -/
def Text (l : List Char) : Prop := '\x00' ∉ l

end CDiag
