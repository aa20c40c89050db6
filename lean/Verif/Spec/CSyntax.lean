import Verif.Spec.CEval
import Verif.Spec.CExpr

/-!
# Specification: how expressions of the supported subset are written

Which token sequences write which expression, with C's precedences and types.  The restrictions that go beyond C are marked `R`:
they exclude expressions that the compiler is known to translate wrongly.
-/

namespace CSyntax
open CTypes CEval CArith
open Shecc.Parser (POp)
open Shecc.Lex (Tok)

/-- A token with its text. -/
abbrev Tk := Tok × List Char

/-- A punctuation token: the lexer gives it no text. -/
def p (t : Tok) : Tk := (t, [])

/-- What names mean: enumeration constants, variables with their declarators, functions with the types of their results. -/
structure Scope where
  E : Env
  const : List Char → Option Word
  var : List Char → Option Nat
  decl : Nat → Declr
  fn : List Char → Option T

/-- The token of a binary operator, and its precedence. -/
def opTok : BinOp → Tok
  | .add => .plus
  | .sub => .minus
  | .mul => .asterisk
  | .div => .divide
  | .mod => .mod
  | .shl => .lshift
  | .shr => .rshift
  | .eq => .eq
  | .ne => .noteq
  | .lt => .lt
  | .le => .le
  | .gt => .gt
  | .ge => .ge
  | .and => .ampersand
  | .or => .bit_or
  | .xor => .bit_xor

def prec : BinOp → Nat
  | .mul | .div | .mod => 13
  | .add | .sub => 12
  | .shl | .shr => 11
  | .lt | .le | .gt | .ge => 10
  | .eq | .ne => 9
  | .and => 8
  | .xor => 7
  | .or => 6

def isShift : BinOp → Bool
  | .shl | .shr => true
  | _ => false

/-- `==` and `!=` take two numbers or two pointers, the other operators two numbers.  R: the order of pointers is left out. -/
def operands : BinOp → T → T → Prop
  | .eq, a, b | .ne, a, b => (a = .int ∧ b = .int) ∨ ∃ u, a = .ptr u ∧ b = .ptr u
  | _, a, b => a = .int ∧ b = .int

/-- The type of the value of an object. -/
inductive ValueType : T → T → Prop
  | char : ValueType .char .int
  | bool : ValueType .bool .int
  | int : ValueType .int .int
  | ptr (u : T) : ValueType (.ptr u) (.ptr u)
  | arr (n : Nat) (u : T) : ValueType (.arr n u) (.ptr u)

/-- What an object of type `t` points to. -/
inductive PointsTo : T → T → Prop
  | ptr (u : T) : PointsTo (.ptr u) u
  | arr (n : Nat) (u : T) : PointsTo (.arr n u) u

def isIndex : Lv → Bool
  | .index _ _ => true
  | _ => false

def isPtr : T → Bool
  | .ptr _ => true
  | _ => false

def isArr : T → Bool
  | .arr _ _ => true
  | _ => false

/-- The lvalue ends in an index or designates a pointer or an array.  Then a `+` that follows it is taken for the addition of an
index to it. -/
def catches (l : Lv) (t : T) : Bool := isIndex l || isPtr t || isArr t

def isNil : Exs → Bool
  | .nil => true
  | _ => false

/-- Zero or one expression. -/
def short : Exs → Bool
  | .nil | .cons _ .nil => true
  | _ => false

/-- The type is written `struct s` or `s`. -/
def specToks : TSpec → List Tk
  | .tag s => [(.struct, "struct".toList), (.identifier, s.toList)]
  | .name s => [(.identifier, s.toList)]

variable (S : Scope)

mutual
/-- `WLv l t ts d d'`: `ts` writes the lvalue `l` of type `t`; `d` is the constant data before, `d'` after the string literals in it. -/
inductive WLv : Lv → T → List Tk → List Char → List Char → Prop
  | var {s : List Char} {x : Nat} {t : T} {k : Nat} {d : List Char} (hc : S.const s = none) (hv : S.var s = some x)
      (ht : (S.decl x).type S.E = some t) (hk : HasSize S.E t k) : WLv (.var x) t [(.identifier, s)] d d
  /-- R: an element of an element must have the size of a pointer. -/
  | index {l : Lv} {t u : T} {tl te : List Tk} {e : Ex} {fl : Bool} {k : Nat} {d d1 d2 : List Char} (hl : WLv l t tl d d1)
      (hu : PointsTo t u) (he : WEx 0 e .int te fl d1 d2) (hk : HasSize S.E u k) (h4 : isIndex l = true → k = 4) :
      WLv (.index l e) u (tl ++ p .open_square :: te ++ [p .close_square]) d d2
  | dot {l : Lv} {s : Sid} {tl : List Tk} {f : String} {o : Nat} {t : T} {fs : List (String × T)} {d d1 : List Char}
      (hl : WLv l (.struct s) tl d d1) (hf : S.E.fields s = some fs) (hm : MemberAt S.E 0 fs f o t) :
      WLv (.dot l f) t (tl ++ [p .dot, (.identifier, f.toList)]) d d1
  /-- R: an array before `->` must be a variable. -/
  | arrow {l : Lv} {t' : T} {s : Sid} {tl : List Tk} {f : String} {o : Nat} {t : T} {fs : List (String × T)} {d d1 : List Char}
      (hl : WLv l t' tl d d1) (hp : PointsTo t' (.struct s)) (hf : S.E.fields s = some fs) (hm : MemberAt S.E 0 fs f o t)
      (ha : isArr t' = true → ∃ x, l = .var x) : WLv (.arrow l f) t (tl ++ [p .arrow, (.identifier, f.toList)]) d d1
/-- `WOp e t ts fl d d'`: `ts` writes `e`, of type `t`, as an operand; if `fl`, a `+` must not follow it. -/
inductive WOp : Ex → T → List Tk → Bool → List Char → List Char → Prop
  | num {l : CExpr.Literal} {d : List Char} (hl : l.Valid) : WOp (.num (BitVec.ofNat 32 l.val)) .int [(.numeric, l.spelling)] false d d
  | negNum {l : CExpr.Literal} {d : List Char} (hl : l.Valid) :
      WOp (.num (-BitVec.ofNat 32 l.val)) .int [p .minus, (.numeric, l.spelling)] false d d
  | chr {c : Char} {d : List Char} (hc : c.toNat < 128) : WOp (.num (BitVec.ofNat 32 c.toNat)) .int [(.char, [c])] false d d
  | str {s d : List Char} (hs : '\x00' ∉ s) : WOp (.str (BitVec.ofNat 32 d.length)) (.ptr .char) [(.string, s)] false d (d ++ s ++ ['\x00'])
  | const {s : List Char} {v : Word} {d : List Char} (hc : S.const s = some v) : WOp (.num v) .int [(.identifier, s)] false d d
  | sizeof {sp : TSpec} {t : T} {n k : Nat} {d : List Char} (hr : resolve S.E sp = some t) (hd : ∀ s, sp = .tag s → S.E.tags s = true)
      (hk : HasSize S.E (pointers n t) k) :
      WOp (.num (BitVec.ofNat 32 k)) .int ((.sizeof, "sizeof".toList) :: p .open_bracket :: specToks sp ++ List.replicate n (p .asterisk) ++ [p .close_bracket]) false d d
  | lnot {e : Ex} {t : T} {ts : List Tk} {fl : Bool} {d d1 : List Char} (he : WOp e t ts fl d d1) (ht : Scalar t) :
      WOp (.un .lnot e) .int (p .log_not :: ts) fl d d1
  | bnot {e : Ex} {ts : List Tk} {fl : Bool} {d d1 : List Char} (he : WOp e .int ts fl d d1) : WOp (.un .bnot e) .int (p .bit_not :: ts) fl d d1
  /-- R: the operand of a minus sign must be a number or begin with a name. -/
  | neg {e : Ex} {s : List Char} {ts : List Tk} {fl : Bool} {d d1 : List Char} (he : WOp e .int ((.identifier, s) :: ts) fl d d1) :
      WOp (.un .neg e) .int (p .minus :: (.identifier, s) :: ts) fl d d1
  | lval {l : Lv} {t t' : T} {ts : List Tk} {d d1 : List Char} (hl : WLv l t ts d d1) (ht : ValueType t t') :
      WOp (.lval l) t' ts (catches l t) d d1
  /-- R: not the address of an array. -/
  | addr {l : Lv} {t : T} {ts : List Tk} {d d1 : List Char} (hl : WLv l t ts d d1) (ha : isArr t = false) :
      WOp (.addr l) (.ptr t) (p .ampersand :: ts) false d d1
  /-- R: not for elements, nor for arrays of pointers. -/
  | deref {l : Lv} {t u t' : T} {ts : List Tk} {d d1 : List Char} {k : Nat} (hl : WLv l t ts d d1) (hp : PointsTo t u) (hu : Scalar u)
      (ht : ValueType u t') (hk : HasSize S.E u k) (hi : isIndex l = false) (ha : isArr t = true → isPtr u = false) :
      WOp (.deref l .nil) t' (p .asterisk :: ts) true d d1
  /-- R: as for `deref` and `padd`. -/
  | derefSum {l : Lv} {t u t' : T} {ts tss : List Tk} {es : Exs} {d d1 d2 : List Char} {k : Nat} (hl : WLv l t ts d d1) (hp : PointsTo t u)
      (hu : Scalar u) (ht : ValueType u t') (hk : HasSize S.E u k) (hi : isIndex l = false) (ha : isArr t = true → isPtr u = false)
      (hs : WSum es tss d1 d2) (hn : isNil es = true ∨ isPtr u = false) (hm : (∃ x, l = .var x) ∨ isArr t = true ∨ short es = true) :
      WOp (.deref l es) t' (p .asterisk :: p .open_bracket :: ts ++ tss ++ [p .close_bracket]) false d d2
  /-- R: not for pointers to pointers; to a pointer in memory only one index is added. -/
  | padd {l : Lv} {t u : T} {ts tss : List Tk} {es : Exs} {d d1 d2 : List Char} {k : Nat} (hl : WLv l t ts d d1) (hp : PointsTo t u)
      (hk : HasSize S.E u k) (hu : isPtr u = false) (hs : WSum es tss d1 d2) (hn : isNil es = false)
      (hm : (∃ x, l = .var x) ∨ isArr t = true ∨ short es = true) : WOp (.padd l es) (.ptr u) (ts ++ tss) true d d2
  | paren {e : Ex} {t : T} {ts : List Tk} {fl : Bool} {d d1 : List Char} (he : WEx 0 e t ts fl d d1) :
      WOp e t (p .open_bracket :: ts ++ [p .close_bracket]) false d d1
  | call {f : List Char} {t : T} {es : Exs} {ts : List Tk} {d d1 : List Char} (hc : S.const f = none) (hv : S.var f = none)
      (hf : S.fn f = some t) (hs : WArgs es ts d d1) : WOp (.call f es) t ((.identifier, f) :: p .open_bracket :: ts) false d d1
  | icall {l : Lv} {es : Exs} {ts tss : List Tk} {d d1 d2 : List Char} (hl : WLv l (.ptr .fn) ts d d1) (hs : WArgs es tss d1 d2) :
      WOp (.icall l es) .int (ts ++ p .open_bracket :: tss) false d d2
/-- `WEx n e t ts fl d d'`: `ts` writes `e` so that the operators outside parentheses have precedence `n` or more. -/
inductive WEx : Nat → Ex → T → List Tk → Bool → List Char → List Char → Prop
  | op {n : Nat} {e : Ex} {t : T} {ts : List Tk} {fl : Bool} {d d1 : List Char} (he : WOp e t ts fl d d1) : WEx n e t ts fl d d1
  /-- R: a `+` does not follow an operand that would catch it. -/
  | bin {n : Nat} {o : BinOp} {a b : Ex} {t u : T} {ta tb : List Tk} {fa fb : Bool} {d d1 d2 : List Char} (ho : n ≤ prec o) (hs : isShift o = false)
      (ha : WEx (prec o) a t ta fa d d1) (hb : WEx (prec o + 1) b u tb fb d1 d2) (ht : operands o t u) (hp : o = .add → fa = false) :
      WEx n (.bin o a b) .int (ta ++ p (opTok o) :: tb) fb d d2
  /-- R: a shift is the only operator outside parentheses. -/
  | shift {o : BinOp} {a b : Ex} {ta tb : List Tk} {fa fb : Bool} {d d1 d2 : List Char} (hs : isShift o = true)
      (ha : WOp a .int ta fa d d1) (hb : WOp b .int tb fb d1 d2) : WEx 0 (.bin o a b) .int (ta ++ p (opTok o) :: tb) fb d d2
/-- Indices that are added: `+ e1 + ... + en`. -/
inductive WSum : Exs → List Tk → List Char → List Char → Prop
  | nil {d : List Char} : WSum .nil [] d d
  | cons {e : Ex} {es : Exs} {ts tss : List Tk} {fl : Bool} {d d1 d2 : List Char} (he : WOp e .int ts fl d d1) (hs : WSum es tss d1 d2)
      (hp : isNil es = false → fl = false) : WSum (.cons e es) (p .plus :: ts ++ tss) d d2
/-- Arguments, to the closing parenthesis. -/
inductive WArgs : Exs → List Tk → List Char → List Char → Prop
  | nil {d : List Char} : WArgs .nil [p .close_bracket] d d
  | last {e : Ex} {t : T} {ts : List Tk} {fl : Bool} {d d1 : List Char} (he : WEx 0 e t ts fl d d1) :
      WArgs (.cons e .nil) (ts ++ [p .close_bracket]) d d1
  | cons {e : Ex} {es : Exs} {t : T} {ts tss : List Tk} {fl : Bool} {d d1 d2 : List Char} (he : WEx 0 e t ts fl d d1) (hs : WArgs es tss d1 d2)
      (hn : isNil es = false) : WArgs (.cons e es) (ts ++ p .comma :: tss) d d2
end

/-- The type of an lvalue, in as far as it does not depend on its indices. -/
inductive TypeOf : Lv → T → Prop
  | var {x : Nat} {t : T} (ht : (S.decl x).type S.E = some t) : TypeOf (.var x) t
  | index {l : Lv} {e : Ex} {t u : T} (hl : TypeOf l t) (hu : PointsTo t u) : TypeOf (.index l e) u
  | dot {l : Lv} {s : Sid} {fs : List (String × T)} {f : String} {o : Nat} {t : T} (hl : TypeOf l (.struct s)) (hf : S.E.fields s = some fs)
      (hm : MemberAt S.E 0 fs f o t) : TypeOf (.dot l f) t
  | arrow {l : Lv} {t' : T} {s : Sid} {fs : List (String × T)} {f : String} {o : Nat} {t : T} (hl : TypeOf l t') (hp : PointsTo t' (.struct s))
      (hf : S.E.fields s = some fs) (hm : MemberAt S.E 0 fs f o t) : TypeOf (.arrow l f) t

/-- The tokens of the assignment operators. -/
def asgTok : BinOp → Option Tok
  | .add => some .pluseq
  | .sub => some .minuseq
  | .mul => some .asteriskeq
  | .div => some .divideeq
  | .mod => some .modeq
  | .shl => some .lshifteq
  | .shr => some .rshifteq
  | .xor => some .xoreq
  | .or => some .oreq
  | .and => some .andeq
  | _ => none

/-- R: objects that are assigned to: numbers and pointers, but no pointers to functions, no truth values, and characters only in memory. -/
def Assignable (l : Lv) : T → Prop
  | .int => True
  | .char => ∀ x, l ≠ .var x
  | .ptr u => u ≠ .fn
  | _ => False

/-- R: objects that are changed by an amount: not pointers to pointers; elements only of arrays, not of what a pointer points to. -/
def Changeable (l : Lv) (t : T) : Prop :=
  (∀ u, t = .ptr u → isPtr u = false) ∧ ∀ l' e, l = .index l' e → ∃ n, TypeOf S l' (.arr n t)

/-- `WAsg a ts fl d d'`: `ts` writes the assignment. -/
inductive WAsg : Asg → List Tk → Bool → List Char → List Char → Prop
  | set {l : Lv} {e : Ex} {t t' : T} {tl te : List Tk} {fl : Bool} {d d1 d2 : List Char} (hl : WLv S l t tl d d1) (he : WEx S 0 e t' te fl d1 d2)
      (ha : Assignable l t) : WAsg (.set l e) (tl ++ p .assign :: te) fl d d2
  | op {o : BinOp} {k : Tok} {l : Lv} {e : Ex} {t : T} {tl te : List Tk} {fl : Bool} {d d1 d2 : List Char} {i : Nat} (hk : asgTok o = some k)
      (hl : WLv S l t tl d d1) (he : WEx S 0 e .int te fl d1 d2) (ha : Assignable l t) (hc : Changeable S l t)
      (hi : Unit1 S.E t i) (ho : isPtr t = true → o = .add ∨ o = .sub) : WAsg (.op o l e) (tl ++ p k :: te) fl d d2
  | incr {l : Lv} {t : T} {tl : List Tk} {d d1 : List Char} {i : Nat} (hl : WLv S l t tl d d1) (ha : Assignable l t) (hc : Changeable S l t)
      (hi : Unit1 S.E t i) :
      WAsg (.incr l) (tl ++ [p .increment]) false d d1
  | decr {l : Lv} {t : T} {tl : List Tk} {d d1 : List Char} {i : Nat} (hl : WLv S l t tl d d1) (ha : Assignable l t) (hc : Changeable S l t)
      (hi : Unit1 S.E t i) :
      WAsg (.decr l) (tl ++ [p .decrement]) false d d1

/-! ### String literals -/

/-- The constant data of the string literals among the tokens. -/
def literalData : List Tk → List Char
  | [] => []
  | (.string, s) :: ts => s ++ '\x00' :: literalData ts
  | _ :: ts => literalData ts

/-- The offsets of the string literals, when `n` bytes are before them. -/
def literalOffsets : Nat → List Tk → List Word
  | _, [] => []
  | n, (.string, s) :: ts => BitVec.ofNat 32 n :: literalOffsets (n + s.length + 1) ts
  | n, _ :: ts => literalOffsets n ts

mutual
/-- The string literals in an expression, from left to right. -/
def strings : Ex → List Word
  | .num _ => []
  | .str k => [k]
  | .un _ e => strings e
  | .bin _ a b => strings a ++ strings b
  | .lval l => stringsL l
  | .addr l => stringsL l
  | .deref l es => stringsL l ++ stringsS es
  | .padd l es => stringsL l ++ stringsS es
  | .call _ es => stringsS es
  | .icall l es => stringsL l ++ stringsS es
def stringsL : Lv → List Word
  | .var _ => []
  | .index l e => stringsL l ++ strings e
  | .dot l _ => stringsL l
  | .arrow l _ => stringsL l
def stringsS : Exs → List Word
  | .nil => []
  | .cons e es => strings e ++ stringsS es
end

/-- What ends an expression: one of these tokens. -/
def Ends (ts : List Tk) : Prop :=
  ∃ k s r, ts = (k, s) :: r ∧ k ∈ [Tok.semicolon, .comma, .close_bracket, .close_square, .close_curly, .colon, .question]

end CSyntax
