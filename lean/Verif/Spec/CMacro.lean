import Verif.Model.Macro

/-!
# Specification: expressions with macro calls, and macro expansion as text

An expression is a sequence of operands and binary operators.  `expand` is what C's preprocessor makes of it: the call is replaced
by the tokens of the body, in which each parameter is replaced by the tokens of the argument.
-/

namespace CMacro
open Shecc.Parser (POp)
open Shecc.Macro (MT UOp Def findMacro)

/-- Operands without brackets. -/
inductive Simple
  | num (v : Nat)
  | id (s : String)
  | un (u : UOp) (o : Simple)

/-- Arguments: expressions without brackets. -/
structure Arg where
  first : Simple
  rest : List (POp × Simple)

mutual
inductive Opd
  | num (v : Nat)
  | id (s : String)
  | un (u : UOp) (o : Opd)
  | par (p : Phr)
  | call (m : String) (args : List Arg)

inductive Phr
  | one (o : Opd)
  | more (o : Opd) (op : POp) (p : Phr)
end

/-! ### Spelling -/

def unTok : UOp → MT
  | .neg => .op .sub
  | .lnot => .lnot
  | .bnot => .bnot

def Simple.toks : Simple → List MT
  | .num v => [.num v]
  | .id s => [.id s]
  | .un u o => unTok u :: o.toks

def Arg.toks (a : Arg) : List MT := a.first.toks ++ a.rest.flatMap fun x => .op x.1 :: x.2.toks

/-- Arguments separated by commas. -/
def commas : List (List MT) → List MT
  | [] => []
  | [a] => a
  | a :: b :: r => a ++ .comma :: commas (b :: r)

mutual
def Opd.toks : Opd → List MT
  | .num v => [.num v]
  | .id s => [.id s]
  | .un u o => unTok u :: o.toks
  | .par p => .lpar :: (p.toks ++ [.rpar])
  | .call m args => .id m :: .lpar :: (commas (args.map Arg.toks) ++ [.rpar])

def Phr.toks : Phr → List MT
  | .one o => o.toks
  | .more o op p => o.toks ++ .op op :: p.toks
end

/-! ### Expansion -/

/-- The body: the rest of the line of the definition. -/
def bodyToks (src : List MT) (d : Def) : List MT := (src.drop d.start).takeWhile (· ≠ .eol)

/-- A token of the body, with the arguments in place. -/
def place (params : List String) (args : List (List MT)) : MT → List MT
  | .id s => if s ∈ params then args.getD (params.idxOf s) [] else [.id s]
  | t => [t]

mutual
def Opd.expand (src : List MT) (defs : List Def) : Opd → List MT
  | .num v => [.num v]
  | .id s => [.id s]
  | .un u o => unTok u :: o.expand src defs
  | .par p => .lpar :: (p.expand src defs ++ [.rpar])
  | .call m args => (findMacro defs m).elim [] fun d => (bodyToks src d).flatMap (place d.params (args.map Arg.toks))

def Phr.expand (src : List MT) (defs : List Def) : Phr → List MT
  | .one o => o.expand src defs
  | .more o op p => o.expand src defs ++ .op op :: p.expand src defs
end

/-! ### Conditions -/

def Simple.ids : Simple → List String
  | .num _ => []
  | .id s => [s]
  | .un _ o => o.ids

def Arg.ids (a : Arg) : List String := a.first.ids ++ a.rest.flatMap fun x => x.2.ids

/-- After a minus sign comes no other sign. -/
def Simple.Signed : Simple → Prop
  | .un .neg (.un _ _) => False
  | .un _ o => o.Signed
  | _ => True

def Arg.Signed (a : Arg) : Prop := a.first.Signed ∧ ∀ x ∈ a.rest, x.2.Signed

mutual
def Opd.Signed : Opd → Prop
  | .un .neg (.un _ _) => False
  | .un _ o => o.Signed
  | .par p => p.Signed
  | .call _ args => ∀ a ∈ args, a.Signed
  | _ => True

def Phr.Signed : Phr → Prop
  | .one o => o.Signed
  | .more o _ p => o.Signed ∧ p.Signed
end

mutual
/-- A macro body, or part of it, in which parameters occur only as `(p)` and identifiers are not names of macros. -/
def Opd.Wrapped (defs : List Def) (params : List String) : Opd → Prop
  | .num _ => True
  | .id s => s ∉ params ∧ findMacro defs s = none
  | .un _ o => o.Wrapped defs params
  | .par (.one (.id s)) => findMacro defs s = none
  | .par p => p.Wrapped defs params
  | .call _ _ => False

def Phr.Wrapped (defs : List Def) (params : List String) : Phr → Prop
  | .one o => o.Wrapped defs params
  | .more o _ p => o.Wrapped defs params ∧ p.Wrapped defs params
end

/-- The macro is called as intended: it is defined, on one line; its body is a bracket in which parameters are in brackets too; it gets
as many arguments as it has parameters, and no identifier in an argument is the name of a parameter of it or of a macro. -/
structure CallOk (src : List MT) (defs : List Def) (m : String) (args : List Arg) : Prop where
  def_ : ∃ d b, findMacro defs m = some d ∧ d.params.Nodup ∧ (∃ post, src.drop d.start = Opd.toks (.par b) ++ .eol :: post) ∧
    Opd.Wrapped defs d.params (.par b) ∧ Phr.Signed b ∧ args.length = d.params.length ∧ ∀ a ∈ args, ∀ v ∈ a.ids, v ∉ d.params
  ids : ∀ a ∈ args, ∀ v ∈ a.ids, findMacro defs v = none
  signed : ∀ a ∈ args, a.Signed

/-- The last operand of an expression; a call may be under unary operators. -/
def Opd.endsInCall : Opd → Bool
  | .call _ _ => true
  | .un _ o => o.endsInCall
  | _ => false

mutual
/-- Every macro is called as intended, at the end of the expression it occurs in (a bracket ends at `)`). -/
def Opd.Ok (src : List MT) (defs : List Def) : Opd → Prop
  | .num _ => True
  | .id s => findMacro defs s = none
  | .un _ o => o.Ok src defs
  | .par p => p.Ok src defs
  | .call m args => CallOk src defs m args

def Phr.Ok (src : List MT) (defs : List Def) : Phr → Prop
  | .one o => o.Ok src defs
  | .more o _ p => o.endsInCall = false ∧ o.Ok src defs ∧ p.Ok src defs
end

/-! ### What the compiler makes of a call that is not the last operand -/

/-- A token, with the arguments in place as bracketed expressions. -/
def placeP (params : List String) (args : List (List MT)) : MT → List MT
  | .id s => if s ∈ params then .lpar :: (args.getD (params.idxOf s) [] ++ [.rpar]) else [.id s]
  | t => [t]

/-- Operands, each followed by an operator. -/
def preToks (P : List (Opd × POp)) : List MT := P.flatMap fun x => x.1.toks ++ [.op x.2]

/-- No macro call in it. -/
def Phr.NoMacro (defs : List Def) (p : Phr) : Prop := ∀ s, MT.id s ∈ p.toks → findMacro defs s = none

end CMacro
