/-!
# Specification: command lines and inlined C text
-/

namespace CDriver

/-- A documented command-line item: `Usage: shecc [-o output] [+m] [--dump-ir] [--no-libc] <input.c>`. -/
inductive Item
  | dumpIr | hardMul | noLibc
  | output (f : String)
  | input (f : String)
  deriving DecidableEq

/-- How an item is written. -/
def Item.words : Item → List String
  | .dumpIr => ["--dump-ir"]
  | .hardMul => ["+m"]
  | .noLibc => ["--no-libc"]
  | .output f => ["-o", f]
  | .input f => [f]

/-- An input file is not named like an option. -/
def Item.Ok : Item → Prop
  | .input f => f ∉ ["--dump-ir", "+m", "--no-libc", "-o"]
  | _ => True

def outputs (items : List Item) : List String := items.filterMap fun | .output f => some f | _ => none
def inputs (items : List Item) : List String := items.filterMap fun | .input f => some f | _ => none

/-- The characters a C string literal denotes, after its opening quote, with the text after its closing quote.  Only the
escapes that occur in inlined text are given a meaning. -/
def literal : List Char → Option (List Char × List Char)
  | [] => none
  | '"' :: r => some ([], r)
  | '\\' :: '"' :: r => (literal r).map fun p => ('"' :: p.1, p.2)
  | '\\' :: 'n' :: r => (literal r).map fun p => ('\n' :: p.1, p.2)
  | '\\' :: _ => none
  | '\n' :: _ => none
  | c :: r => (literal r).map fun p => (c :: p.1, p.2)

/-- What is left of a text after a prefix. -/
def after (p : List Char) (t : List Char) : Option (List Char) := if p.isPrefixOf t then some (t.drop p.length) else none

/-- The characters that a sequence of `n` statements `__c("...");`, one per line, passes to the compiler. -/
def fed : Nat → List Char → Option (List Char)
  | 0, t => if t = [] then some [] else none
  | n + 1, t =>
    (after "  __c(\"".toList t).bind fun t => (literal t).bind fun p => (after ");\n".toList p.2).bind fun t =>
      (fed n t).map (p.1 ++ ·)

/-- The lines of a text, without their newlines; a missing final newline is supplied. -/
def lines : List Char → List (List Char)
  | [] => []
  | c :: s =>
    if c = '\n' then [] :: lines s
    else
      match lines s with
      | [] => [[c]]
      | l :: ls => (c :: l) :: ls

/-- A text with all its lines terminated. -/
def terminated (s : List Char) : List Char := (lines s).flatMap (· ++ ['\n'])

/-- A line of C source with its `\\n` escapes replaced by the newlines they denote; `none` if it contains another escape. -/
def escapes : List Char → Option (List Char)
  | [] => some []
  | '\\' :: 'n' :: r => (escapes r).map ('\n' :: ·)
  | '\\' :: _ => none
  | c :: r => (escapes r).map (c :: ·)

end CDriver
