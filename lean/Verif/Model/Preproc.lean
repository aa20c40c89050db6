import Verif.Model.Lexer

/-!
# Model of the preprocessor directives (src/parser.c:325-518)

The parser calls `read_preproc_directive` before each global or body statement.  `Item` is what it meets there: a statement, which
is parsed and compiled, or a directive.  The characters of skipped lines are assumed to lex without an error.  `D` is the state of
the definitions (aliases and function-like macros).
-/

namespace Shecc.Preproc
open Shecc.Lex

inductive Item (D α : Type)
  | text (a : α)
  /-- `#define`, `#undef` (src/parser.c:383-429) -/
  | change (f : D → D)
  /-- `#if`, `#ifdef`, `#ifndef` with the value of the condition -/
  | iff (c : D → Bool)
  | elif (c : D → Bool)
  | els
  | endif

/-- The state: `defs` the definitions, `hit` is `preproc_match`, `out` the statements compiled. -/
structure St (D α : Type) where
  defs : D
  hit : Bool
  out : List α

/-- Reading statements; `cppd_control_flow_skip_lines` (src/parser.c:328-335); the loop of `#elif` after a match
(src/parser.c:456-458). -/
inductive Mode
  | run | skip | skipEnd
  deriving DecidableEq

/-- Where skipping stops (src/parser.c:330-331, 456). -/
def stops {D α : Type} : Mode → Item D α → Bool
  | .run, _ => true
  | .skip, .elif _ | .skip, .els | .skip, .endif => true
  | .skipEnd, .endif => true
  | _, _ => false

/-- One directive or statement (src/parser.c:443-515); a statement is compiled. -/
def step {D α : Type} (st : St D α) : Item D α → Mode × St D α
  | .text a => (.run, { st with out := st.out ++ [a] })
  | .change f => (.run, { st with defs := f st.defs })
  | .iff c => (if c st.defs then .run else .skip, { st with hit := c st.defs })
  | .elif c =>
    if st.hit then (.skipEnd, st) else (if c st.defs then .run else .skip, { st with hit := c st.defs })
  | .els => (if st.hit then .skip else .run, st)
  | .endif => (.run, { st with hit := false })

/-- The calls of `read_preproc_directive` up to the end of the file; `none` if the compiler does not get there: at the end of the
file `lex_token` returns `T_eof` again and again (src/lexer.c:613-614), so a skipping loop does not end. -/
def go {D α : Type} : Mode → St D α → List (Item D α) → Option (St D α)
  | .run, st, [] => some st
  | _, _, [] => none
  | m, st, i :: r => if stops m i then go (step st i).1 (step st i).2 r else go m st r

/-- The value `#define` gives to a name, by the token after the name (src/parser.c:389-418): `none` for a function-like macro. -/
def defineValue : Tok → List Char → Option (List Char)
  | .numeric, s | .string, s | .identifier, s => some s
  | .open_bracket, _ => none
  | _, _ => some []

end Shecc.Preproc
