import Verif.Model.Parser

/-!
# Model of function-like macros (src/parser.c:398-412, 890-952; src/lexer.c:598-638; src/globals.c:517-560)

The source is a list of tokens in which line ends are kept; positions are indices into it (in the code: into the characters).  The
lexer state is the token read ahead, the position after it, and where to go at the end of the line in which a macro is defined.
Only operands that are numbers, identifiers, parenthesised expressions and unary operators are modelled, besides macro calls and
parameters; macros as statements (src/parser.c:3069-3097) are called by the same code and differ in what is read then.  Variadic
macros are not modelled.
-/

namespace Shecc.Macro
open Shecc.Parser (POp infixExpr)

inductive UOp
  | neg | lnot | bnot
  deriving DecidableEq, Repr

/-- Tokens. `op .sub` is `-`, as operator and as sign. -/
inductive MT
  | num (v : Nat)
  | id (s : String)
  | op (o : POp)
  | lnot | bnot | lpar | rpar | comma | eol
  /-- any other token; the end of the file -/
  | other (k : Nat)
  | eof
  deriving DecidableEq, Repr

/-- Expressions as they are compiled. -/
inductive Ex
  | num (v : Nat)
  | id (s : String)
  | un (u : UOp) (e : Ex)
  | bin (o : POp) (l r : Ex)
  deriving DecidableEq, Repr

/-- `macro_t` (src/defs.h:213-222): name, `param_defs`, `start_source_idx`. -/
structure Def where
  name : String
  params : List String
  start : Nat
  deriving DecidableEq

/-- `SOURCE->size`, `next_token`, `macro_return_idx` (`none`: 0), and `parent->macro` with its `params`. -/
structure S where
  pos : Nat
  next : MT
  ret : Option Nat := none
  cur : Option (Def × List Nat) := none
  deriving DecidableEq

/-- `find_macro` (src/globals.c:525-532): the first with that name. -/
def findMacro (defs : List Def) (s : String) : Option Def := defs.find? (fun d => d.name == s)

/-- `find_macro_param_src_idx` (src/globals.c:546-560): the position of the argument for parameter `s`, `none` for 0. Positions
that were not recorded are those of an earlier call or 0; the model says 0. -/
def paramIdx (s : String) : Option (Def × List Nat) → Option Nat
  | none => none
  | some (d, ps) => if s ∈ d.params ∧ ps.getD (d.params.idxOf s) 0 ≠ 0 then some (ps.getD (d.params.idxOf s) 0) else none

variable (src : List MT)

/-- `skip_whitespace` when `skip_newline` is set (src/lexer.c:149-167). -/
def skipEols (p : Nat) : Nat := p + ((src.drop p).takeWhile (· = .eol)).length

/-- The token at `q` becomes the token read ahead. `skip_newline` is cleared while `macro_return_idx` is set. -/
def tokenAt (q : Nat) (s : S) : S :=
  { s with next := src.getD q .eof
           pos := if s.ret.isSome then q + 1 else skipEols src (q + 1) }

/-- `lex_token` (src/lexer.c:598-611, 627-630): at the end of a line of a macro body reading goes on after the call. `none`: it
goes on for ever. -/
def lex (s : S) : Option S :=
  if src.getD s.pos .eof = .eol then
    match s.ret with
    | some r => if src.getD r .eof = .eol then none else some (tokenAt src r s)
    | none => some (tokenAt src (skipEols src s.pos) s)
  else some (tokenAt src s.pos s)

mutual
/-- The loop over the arguments (src/parser.c:921-927): the position after `(` and after each `,`; brackets are not counted. -/
def scan : Nat → S → List Nat → Option (S × List Nat)
  | 0, _, _ => none
  | n + 1, s, acc => if s.next = .rpar then some (s, acc) else scanTok n s (acc ++ [s.pos])

def scanTok : Nat → S → List Nat → Option (S × List Nat)
  | 0, _, _ => none
  | n + 1, s, acc =>
    match lex src s with
    | none => none
    | some s => if s.next = .comma ∨ s.next = .rpar then scan n s acc else scanTok n s acc
end

def mk (o : POp) (a b : Ex) : Option Ex := some (.bin o a b)

/-- What may follow a sign (src/parser.c:764-771). -/
def signed : MT → Bool
  | .num _ | .id _ | .lpar => true
  | _ => false

variable (defs : List Def)

mutual
/-- `read_expr_operand` (src/parser.c:758-1027). -/
def readOperand : Nat → S → Option (Ex × S)
  | 0, _ => none
  | n + 1, s =>
    match s.next with
    | .op .sub => (lex src s).bind fun s => if signed s.next then (readOperand n s).map fun x => (.un .neg x.1, x.2) else none
    | .lnot => (lex src s).bind fun s => (readOperand n s).map fun x => (.un .lnot x.1, x.2)
    | .bnot => (lex src s).bind fun s => (readOperand n s).map fun x => (.un .bnot x.1, x.2)
    | .num v => (lex src s).map fun s => (.num v, s)
    | .lpar => (lex src s).bind fun s => (readExpr n s).bind fun x =>
        if x.2.next = .rpar then (lex src x.2).map fun s => (x.1, s) else none
    | .id v =>
      match findMacro defs v with
      -- src/parser.c:912-941
      | some d =>
        if s.cur.isSome then none
        else (lex src s).bind fun s => (scan src n s []).bind fun a =>
          (lex src { a.1 with pos := d.start, ret := some a.1.pos, cur := some (d, a.2) }).bind fun s =>
            (readExpr n s).map fun x => (x.1, { x.2 with ret := none, cur := none })
      | none =>
        match paramIdx v s.cur with
        -- src/parser.c:942-952
        | some q => (lex src { s with pos := q }).bind fun s' => (readExpr n s').bind fun x => (lex src s).map fun s => (x.1, s)
        | none => (lex src s).map fun s => (.id v, s)
    | _ => none

/-- The operators and operands after the first (src/parser.c:1051-1206). -/
def readRest : Nat → S → Option (List (POp × Ex) × S)
  | 0, _ => none
  | n + 1, s =>
    match s.next with
    | .op o => (lex src s).bind fun s => (readOperand n s).bind fun x => (readRest n x.2).map fun y => ((o, x.1) :: y.1, y.2)
    | _ => some ([], s)

/-- `read_expr` (src/parser.c:1029-1230); `infixExpr` is what it makes of operators and operands. -/
def readExpr : Nat → S → Option (Ex × S)
  | 0, _ => none
  | n + 1, s => (readOperand n s).bind fun x => (readRest n x.2).bind fun y => (infixExpr mk x.1 y.1).map fun e => (e, y.2)
end

/-- The parameters after `(` (src/parser.c:402-407), with the number of tokens they take. -/
def readParams : List MT → List String × Nat
  | .id v :: .comma :: r => (v :: (readParams r).1, (readParams r).2 + 2)
  | .id v :: r => (v :: (readParams r).1, (readParams r).2 + 1)
  | _ => ([], 0)

/-- `#define` of a function-like macro whose name is at position `i` (src/parser.c:386, 398-412): the body starts after the token
that follows the parameters. -/
def define (i : Nat) : Option Def :=
  match src.getD i .eof, src.getD (i + 1) .eof with
  | .id v, .lpar => some ⟨v, (readParams (src.drop (i + 2))).1, i + 2 + (readParams (src.drop (i + 2))).2 + 1⟩
  | _, _ => none

end Shecc.Macro
