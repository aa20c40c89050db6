import Verif.Spec.CSyntax
import Verif.Spec.CProgram

/-!
# Specification: function bodies, as they are written and what they mean

Statements over the expressions and assignments of `Spec/CEval`; the token sequences that write them, with C's scopes; their execution.
Restrictions of the grammar that go beyond C are marked `R`.
-/

namespace CBody
open CTypes CEval CSyntax CArith
open CStmt (Out)
open SsaSem (Mach State wrVar)
open Shecc.Lex (Tok)

/-- `&&` of one or more operands. -/
inductive Ands
  | one (e : Ex)
  | more (e : Ex) (r : Ands)

/-- `||` of one or more groups: an expression whose logical operators are not in parentheses. -/
inductive Ors
  | one (a : Ands)
  | more (a : Ands) (r : Ors)

/-- A full expression: without or with `?:`. -/
inductive Value
  | cond (c : Ors)
  | tern (c : Ors) (a b : Ex)

/-- The declaration of the variable `x`, with an initial value. -/
structure Dec where
  x : Nat
  init : Option Value

/-- The beginning of a `for`. -/
inductive Init
  | none
  | asg (a : Asg)
  | decl (ds : List Dec)

mutual
inductive Stmt
  | asg (a : Asg)
  /-- `l = v` with a full expression -/
  | set (l : Lv) (v : Value)
  | call (f : List Char) (es : Exs)
  | decl (ds : List Dec)
  | empty
  | block (ss : Stmts)
  | ret (e : Option Value)
  | ite (c : Ors) (t : Stmt)
  | iteElse (c : Ors) (t e : Stmt)
  | while_ (c : Ors) (b : Stmt)
  | doWhile (b : Stmt) (c : Ors)
  | for_ (i : Init) (c : Option Ors) (inc : Option Asg) (b : Stmt)
  | switch_ (e : Ors) (cs : Cases)
  | brk
  | cont
inductive Stmts
  | nil
  | cons (s : Stmt) (ss : Stmts)
/-- A label (`none`: `default`) and the statements up to the next one. -/
inductive Cases
  | nil
  | cons (l : Option Word) (b : Stmts) (r : Cases)
end

/-! ### Execution -/

/-- What the machine does for calls, stores and `return`, and the value a variable has when it is declared: the address of an array or a
structure. -/
structure Lang (M : Mach) extends CEval.Lang M where
  /-- a call as a statement: the value, if any, is not used -/
  scall : List Char → List Word → M.World → Option M.World
  ret : Option Word → M.World → M.World
  alloc : Nat → Word

section
variable {M : Mach} (C : Lang M) (E : Env) (decl : Nat → Declr)

/-- Operands are evaluated from left to right until one is zero. -/
def EvAnds (ρ : Nat → Word) : Ands → M.World → M.World → Bool → Prop
  | .one e, w, w', b => ∃ r, EvEx C.toLang E decl ρ w e w' r ∧ b = decide (r.use ρ w' ≠ 0)
  | .more e a, w, w', b =>
    ∃ w1 r, EvEx C.toLang E decl ρ w e w1 r ∧ ((r.use ρ w1 = 0 ∧ w' = w1 ∧ b = false) ∨ (r.use ρ w1 ≠ 0 ∧ EvAnds ρ a w1 w' b))

/-- Groups are evaluated from left to right until one is not zero. -/
def EvOrs (ρ : Nat → Word) : Ors → M.World → M.World → Bool → Prop
  | .one a, w, w', b => EvAnds C E decl ρ a w w' b
  | .more a o, w, w', b =>
    ∃ w1 b1, EvAnds C E decl ρ a w w1 b1 ∧ ((b1 = true ∧ w' = w1 ∧ b = true) ∨ (b1 = false ∧ EvOrs ρ o w1 w' b))

/-- The value of an expression; with logical operators it is 0 or 1. -/
inductive EvCond (ρ : Nat → Word) : Ors → M.World → M.World → Word → Prop
  | one {e : Ex} {w w' : M.World} {r : Res} (h : EvEx C.toLang E decl ρ w e w' r) : EvCond ρ (.one (.one e)) w w' (r.use ρ w')
  | more {e : Ex} {a : Ands} {w w' : M.World} {b : Bool} (h : EvAnds C E decl ρ (.more e a) w w' b) :
      EvCond ρ (.one (.more e a)) w w' (if b then 1 else 0)
  | ors {a : Ands} {o : Ors} {w w' : M.World} {b : Bool} (h : EvOrs C E decl ρ (.more a o) w w' b) :
      EvCond ρ (.more a o) w w' (if b then 1 else 0)

/-- The value of a full expression: of the last two operands of `?:` only the selected one is evaluated. -/
inductive EvVal (ρ : Nat → Word) : Value → M.World → M.World → Word → Prop
  | cond {c : Ors} {w w' : M.World} {v : Word} (h : EvCond C E decl ρ c w w' v) : EvVal ρ (.cond c) w w' v
  | yes {c : Ors} {a b : Ex} {w w1 w' : M.World} {v : Word} {r : Res} (hc : EvCond C E decl ρ c w w1 v) (hv : v ≠ 0)
      (ha : EvEx C.toLang E decl ρ w1 a w' r) : EvVal ρ (.tern c a b) w w' (r.use ρ w')
  | no {c : Ors} {a b : Ex} {w w1 w' : M.World} {v : Word} {r : Res} (hc : EvCond C E decl ρ c w w1 v) (hv : v = 0)
      (hb : EvEx C.toLang E decl ρ w1 b w' r) : EvVal ρ (.tern c a b) w w' (r.use ρ w')

/-- The condition has this truth value. -/
def Test (c : Ors) (s s' : State M) (b : Bool) : Prop :=
  ∃ w v, EvCond C E decl s.2 c s.1 w v ∧ s' = (w, s.2) ∧ b = decide (v ≠ 0)

/-- Declarations, one after the other. -/
def ExecDecs : List Dec → State M → State M → Prop
  | [], s, s' => s' = s
  | d :: ds, s, s' =>
    ∃ s1 s2, s1 = wrVar M s d.x (C.alloc d.x) ∧
      (match d.init with
       | none => s2 = s1
       | some c => ∃ w v, EvVal C E decl s1.2 c s1.1 w v ∧ s2 = wrVar M (w, s1.2) d.x v) ∧ ExecDecs ds s2 s'

def ExecInit : Init → State M → State M → Prop
  | .none, s, s' => s' = s
  | .asg a, s, s' => EvAsg C.toLang E decl s.2 s.1 a s'
  | .decl ds, s, s' => ExecDecs C E decl ds s s'

/-- A loop with the condition before the body; `step` is performed after the body. -/
inductive Loop (test : State M → State M → Bool → Prop) (body : State M → Out → State M → Prop) (step : State M → State M → Prop) :
    State M → Out → State M → Prop
  | stop {s s' : State M} (ht : test s s' false) : Loop test body step s .normal s'
  | again {s s1 s2 s3 s' : State M} {o o' : Out} (ht : test s s1 true) (hb : body s1 o s2) (ho : o = .normal ∨ o = .cont) (hs : step s2 s3)
      (hl : Loop test body step s3 o' s') : Loop test body step s o' s'
  | brk {s s1 s' : State M} (ht : test s s1 true) (hb : body s1 .brk s') : Loop test body step s .normal s'
  | ret {s s1 s' : State M} (ht : test s s1 true) (hb : body s1 .ret s') : Loop test body step s .ret s'

/-- A loop with the condition after the body. -/
inductive DoLoop (body : State M → Out → State M → Prop) (test : State M → State M → Bool → Prop) : State M → Out → State M → Prop
  | stop {s s1 s' : State M} {o : Out} (hb : body s o s1) (ho : o = .normal ∨ o = .cont) (ht : test s1 s' false) : DoLoop body test s .normal s'
  | again {s s1 s2 s' : State M} {o o' : Out} (hb : body s o s1) (ho : o = .normal ∨ o = .cont) (ht : test s1 s2 true)
      (hl : DoLoop body test s2 o' s') : DoLoop body test s o' s'
  | brk {s s' : State M} (hb : body s .brk s') : DoLoop body test s .normal s'
  | ret {s s' : State M} (hb : body s .ret s') : DoLoop body test s .ret s'

/-- The group a value selects: the one with its label, else `default`. -/
def pick (x : Word) : Cases → Option Nat
  | .nil => none
  | .cons none _ r =>
    match pick x r with
    | some j => some (j + 1)
    | none => some 0
  | .cons (some l) _ r => if l = x then some 0 else (pick x r).map (· + 1)

mutual
/-- `Exec st s o s'`: the statement takes the state from `s` to `s'` and ends as `o` says. -/
def Exec : Stmt → State M → Out → State M → Prop
  | .asg a, s, o, s' => o = .normal ∧ EvAsg C.toLang E decl s.2 s.1 a s'
  | .set l v, s, o, s' =>
    o = .normal ∧ ∃ w1 t pl k w2 x, EvLv C.toLang E decl s.2 s.1 l w1 t pl ∧ EvVal C E decl s.2 v w1 w2 x ∧ HasSize E t k ∧
      pl.write C.toLang t k (w2, s.2) x = some s'
  | .call f es, s, o, s' =>
    o = .normal ∧ ∃ w1 rs w2, EvArgs C.toLang E decl s.2 s.1 es w1 rs ∧ C.scall f (rs.map (·.use s.2 w1)) w1 = some w2 ∧ s' = (w2, s.2)
  | .decl ds, s, o, s' => o = .normal ∧ ExecDecs C E decl ds s s'
  | .empty, s, o, s' => o = .normal ∧ s' = s
  | .block ss, s, o, s' => ExecAll ss s o s'
  | .ret none, s, o, s' => o = .ret ∧ s' = (C.ret none s.1, s.2)
  | .ret (some e), s, o, s' => o = .ret ∧ ∃ w v, EvVal C E decl s.2 e s.1 w v ∧ s' = (C.ret (some v) w, s.2)
  | .ite c t, s, o, s' =>
    ∃ s1 b, Test C E decl c s s1 b ∧ ((b = true ∧ Exec t s1 o s') ∨ (b = false ∧ o = .normal ∧ s' = s1))
  | .iteElse c t e, s, o, s' =>
    ∃ s1 b, Test C E decl c s s1 b ∧ ((b = true ∧ Exec t s1 o s') ∨ (b = false ∧ Exec e s1 o s'))
  | .while_ c b, s, o, s' => Loop (Test C E decl c) (Exec b) (fun x y => y = x) s o s'
  | .doWhile b c, s, o, s' => DoLoop (Exec b) (Test C E decl c) s o s'
  | .for_ i c inc b, s, o, s' =>
    ∃ s1, ExecInit C E decl i s s1 ∧
      Loop (match c with
        | some c => Test C E decl c
        | none => fun x y t => y = x ∧ t = true) (Exec b)
        (match inc with
        | some a => fun x y => EvAsg C.toLang E decl x.2 x.1 a y
        | none => fun x y => y = x) s1 o s'
  | .switch_ e cs, s, o, s' =>
    ∃ w v, EvCond C E decl s.2 e s.1 w v ∧
      (match pick v cs with
       | none => o = .normal ∧ s' = (w, s.2)
       | some i => ∃ o1, ExecFrom cs i (w, s.2) o1 s' ∧ o = if o1 = .brk then .normal else o1)
  | .brk, s, o, s' => o = .brk ∧ s' = s
  | .cont, s, o, s' => o = .cont ∧ s' = s
/-- One statement after the other, until one does not end normally. -/
def ExecAll : Stmts → State M → Out → State M → Prop
  | .nil, s, o, s' => o = .normal ∧ s' = s
  | .cons st ss, s, o, s' => ∃ s1 o1, Exec st s o1 s1 ∧ ((o1 = .normal ∧ ExecAll ss s1 o s') ∨ (o1 ≠ .normal ∧ o = o1 ∧ s' = s1))
/-- The statements of a `switch` from the `i`-th group on. -/
def ExecFrom : Cases → Nat → State M → Out → State M → Prop
  | .nil, _, s, o, s' => o = .normal ∧ s' = s
  | .cons _ _ r, i + 1, s, o, s' => ExecFrom r i s o s'
  | .cons _ b r, 0, s, o, s' => ∃ s1 o1, ExecAll b s o1 s1 ∧ ((o1 = .normal ∧ ExecFrom r 0 s1 o s') ∨ (o1 ≠ .normal ∧ o = o1 ∧ s' = s1))
end
end

/-! ### How statements are written -/

/-- The variables of a block, with their numbers. -/
abbrev Frame := List (List Char × Nat)

/-- What is known about the names outside a function body: types, constants, functions with the types of their results, macros, parameters,
global variables; the declarators of all variables; the number of variables is less than `base`. -/
structure Unit where
  E : Env
  const : List Char → Option Word
  fn : List Char → Option T
  macro_ : List Char → Bool
  params : Frame
  globals : Frame
  decl : Nat → Declr
  base : Nat

def inFrame (s : List Char) (f : Frame) : Option Nat := (f.find? fun e => e.1 = s).map (·.2)

/-- The innermost declaration of a name; `fs` are the enclosing blocks, the innermost first. -/
def lookup (s : List Char) : List Frame → Option Nat
  | [] => none
  | f :: fs =>
    match inFrame s f with
    | some x => some x
    | none => lookup s fs

variable (U : Unit)

/-- What names mean in the blocks `fs`. -/
def Unit.scope (fs : List Frame) : Scope where
  E := U.E
  const := U.const
  var := fun s => lookup s (fs ++ [U.params, U.globals])
  decl := U.decl
  fn := U.fn

/-- Operands of `&&`. -/
inductive WAnds (S : Scope) : Ands → List Tk → List Char → List Char → Prop
  | one {e : Ex} {t : T} {ts : List Tk} {fl : Bool} {d d1 : List Char} (he : WEx S 6 e t ts fl d d1) (ht : Scalar t) : WAnds S (.one e) ts d d1
  | more {e : Ex} {r : Ands} {t : T} {ts tr : List Tk} {fl : Bool} {d d1 d2 : List Char} (he : WEx S 6 e t ts fl d d1) (ht : Scalar t)
      (hr : WAnds S r tr d1 d2) : WAnds S (.more e r) (ts ++ p .log_and :: tr) d d2

/-- Groups joined by `||`. -/
inductive WOrs (S : Scope) : Ors → List Tk → List Char → List Char → Prop
  | one {a : Ands} {ts : List Tk} {d d1 : List Char} (ha : WAnds S a ts d d1) : WOrs S (.one a) ts d d1
  | more {a : Ands} {r : Ors} {ts tr : List Tk} {d d1 d2 : List Char} (ha : WAnds S a ts d d1) (hr : WOrs S r tr d1 d2) :
      WOrs S (.more a r) (ts ++ p .log_or :: tr) d d2

/-- Expressions.  R: a shift that is an operand of `&&` or `||` is in parentheses. -/
inductive WCond (S : Scope) : Ors → List Tk → List Char → List Char → Prop
  | one {e : Ex} {t : T} {ts : List Tk} {fl : Bool} {d d1 : List Char} (he : WEx S 0 e t ts fl d d1) (ht : Scalar t) :
      WCond S (.one (.one e)) ts d d1
  | ors {o : Ors} {ts : List Tk} {d d1 : List Char} (ho : WOrs S o ts d d1) : WCond S o ts d d1

/-- Full expressions.  R: in the last two operands of `?:`, logical operators and `?:` are not allowed, not even in parentheses. -/
inductive WValue (S : Scope) : Value → List Tk → List Char → List Char → Prop
  | cond {c : Ors} {ts : List Tk} {d d1 : List Char} (hc : WCond S c ts d d1) : WValue S (.cond c) ts d d1
  | tern {c : Ors} {a b : Ex} {ta tb : T} {tc t1 t2 : List Tk} {fa fb : Bool} {d d1 d2 d3 : List Char} (hc : WCond S c tc d d1)
      (ha : WEx S 0 a ta t1 fa d1 d2) (hsa : Scalar ta) (hb : WEx S 0 b tb t2 fb d2 d3) (hsb : Scalar tb) :
      WValue S (.tern c a b) (tc ++ p .question :: t1 ++ p .colon :: t2) d d3

def Value.isTern : Value → Bool
  | .cond _ => false
  | .tern _ _ _ => true

/-- What stands behind the name in a declarator. -/
inductive WForm : Form → List Tk → Prop
  | plain : WForm .plain []
  | unsized : WForm .unsized [p .open_square, p .close_square]
  | array {l : CExpr.Literal} (hl : l.Valid) (hn : l.val < 2 ^ 31) : WForm (.array l.val) [p .open_square, (.numeric, l.spelling), p .close_square]

/-- Add a variable to the innermost block. -/
def addVar (e : List Char × Nat) : List Frame → List Frame
  | [] => [[e]]
  | f :: fs => (f ++ [e]) :: fs

/-- A name that can be declared in the innermost block. -/
def Fresh (s : List Char) : List Frame → Prop
  | [] => True
  | f :: _ => ∀ e ∈ f, e.1 ≠ s

/-- The initial value of a variable; `first`: of the first declarator of a declaration.  R: only numbers of type `int` and pointers, not
pointers to functions, can be initialised, and only the first one with `?:`. -/
inductive WInit (S : Scope) (x : Nat) (first : Bool) : Option Value → List Tk → List Char → List Char → Prop
  | none {d : List Char} : WInit S x first none [] d d
  | some {c : Value} {t : T} {ts : List Tk} {d d1 : List Char} (hc : WValue S c ts d d1) (hf : c.isTern = true → first = true) (ht : (S.decl x).type S.E = some t)
      (ha : t = .int ∨ ∃ u, t = .ptr u ∧ u ≠ .fn) : WInit S x first (some c) (p .assign :: ts) d d1

/-- `WDecs ty first fs nv ds ts fs' nv' d d'`: `ts` declares the variables `ds`, numbered from `nv` on, of the type named `ty`. -/
inductive WDecs (ty : List Char) : Bool → List Frame → Nat → List Dec → List Tk → List Frame → Nat → List Char → List Char → Prop
  | last {first : Bool} {fs : List Frame} {nv n : Nat} {s : List Char} {f : Form} {tf ti : List Tk} {i : Option Value} {t : T} {k : Nat} {d d1 : List Char}
      (hd : U.decl nv = { spec := .name (String.ofList ty), ptrs := n, form := f, name := String.ofList s }) (hf : WForm f tf)
      (ht : (U.decl nv).type U.E = some t) (hk : HasSize U.E t k) (hs : Fresh s fs) (hb : nv < U.base)
      (hi : WInit (U.scope (addVar (s, nv) fs)) nv first i ti d d1) :
      WDecs ty first fs nv [⟨nv, i⟩] (List.replicate n (p .asterisk) ++ (.identifier, s) :: (tf ++ ti)) (addVar (s, nv) fs) (nv + 1) d d1
  | cons {first : Bool} {fs fs' : List Frame} {nv nv' n : Nat} {s : List Char} {f : Form} {tf ti ts : List Tk} {i : Option Value} {t : T} {k : Nat} {ds : List Dec}
      {d d1 d2 : List Char} (hd : U.decl nv = { spec := .name (String.ofList ty), ptrs := n, form := f, name := String.ofList s }) (hf : WForm f tf)
      (ht : (U.decl nv).type U.E = some t) (hk : HasSize U.E t k) (hs : Fresh s fs) (hb : nv < U.base)
      (hi : WInit (U.scope (addVar (s, nv) fs)) nv first i ti d d1) (hr : WDecs ty false (addVar (s, nv) fs) (nv + 1) ds ts fs' nv' d1 d2) :
      WDecs ty first fs nv (⟨nv, i⟩ :: ds) (List.replicate n (p .asterisk) ++ (.identifier, s) :: (tf ++ ti ++ p .comma :: ts)) fs' nv' d d2

/-- The name is neither a type nor a macro. -/
def Unit.Plain (s : List Char) : Prop := s ≠ [] ∧ U.E.tydef (String.ofList s) = none ∧ U.macro_ s = false

/-- The value of a `case` label: a literal, a character, an enumeration constant.  R: no other constant expressions. -/
inductive CaseVal : Tk → Word → Prop
  | num {l : CExpr.Literal} (hl : l.Valid) : CaseVal (.numeric, l.spelling) (BitVec.ofNat 32 l.val)
  | chr {c : Char} (hc : c.toNat < 128) : CaseVal (.char, [c]) (BitVec.ofNat 32 c.toNat)
  | const {s : List Char} {v : Word} (hc : U.const s = some v) : CaseVal (.identifier, s) v

/-- The beginning of a `for`, to the semicolon. -/
inductive WFor : List Frame → Nat → Init → List Tk → List Frame → Nat → List Char → List Char → Prop
  | none {fs : List Frame} {nv : Nat} {d : List Char} : WFor fs nv .none [p .semicolon] fs nv d d
  | asg {fs : List Frame} {nv : Nat} {a : Asg} {s : List Char} {ts : List Tk} {fl : Bool} {d d1 : List Char} (hs : U.Plain s)
      (ha : WAsg (U.scope fs) a ((.identifier, s) :: ts) fl d d1) :
      WFor fs nv (.asg a) ((.identifier, s) :: ts ++ [p .semicolon]) fs nv d d1
  | decl {fs fs' : List Frame} {nv nv' : Nat} {ds : List Dec} {ty : List Char} {ts : List Tk} {d d1 : List Char} {t : T}
      (ht : U.E.tydef (String.ofList ty) = some t) (hd : WDecs U ty true fs nv ds ts fs' nv' d d1) :
      WFor fs nv (.decl ds) ((.identifier, ty) :: ts ++ [p .semicolon]) fs' nv' d d1

/-- The condition of a `for`, to the semicolon. -/
inductive WForCond (S : Scope) : Option Ors → List Tk → List Char → List Char → Prop
  | none {d : List Char} : WForCond S none [p .semicolon] d d
  | some {c : Ors} {ts : List Tk} {d d1 : List Char} (hc : WCond S c ts d d1) : WForCond S (some c) (ts ++ [p .semicolon]) d d1

/-- `++` or `--`. -/
def stepTok (up : Bool) : Tok := if up then .increment else .decrement

/-- The assignment that `++` or `--` means. -/
def stepAsg (up : Bool) (l : Lv) : Asg := if up then .incr l else .decr l

/-- The increment of a `for`, to the closing parenthesis. -/
inductive WForInc (S : Scope) : Option Asg → List Tk → List Char → List Char → Prop
  | none {d : List Char} : WForInc S none [p .close_bracket] d d
  | some {a : Asg} {s : List Char} {ts : List Tk} {fl : Bool} {d d1 : List Char} (ha : WAsg S a ((.identifier, s) :: ts) fl d d1) :
      WForInc S (some a) ((.identifier, s) :: ts ++ [p .close_bracket]) d d1
  | pre {up : Bool} {l : Lv} {t : T} {s : List Char} {ts : List Tk} {i : Nat} {d d1 : List Char} (hl : WLv S l t ((.identifier, s) :: ts) d d1)
      (ha : Assignable l t) (hc : Changeable S l t) (hi : Unit1 S.E t i) :
      WForInc S (some (stepAsg up l)) (p (stepTok up) :: (.identifier, s) :: ts ++ [p .close_bracket]) d d1

/-- An `else` behind the statement would belong to an `if` at its end. -/
def Stmt.open_ : Stmt → Bool
  | .ite _ _ => true
  | .iteElse _ _ e => e.open_
  | .while_ _ b => b.open_
  | .for_ _ _ _ b => b.open_
  | _ => false

mutual
/-- A `continue` of the enclosing loop occurs. -/
def Stmt.conts : Stmt → Bool
  | .cont => true
  | .block ss => ss.conts
  | .ite _ t => t.conts
  | .iteElse _ t e => t.conts || e.conts
  | .switch_ _ cs => cs.conts
  | _ => false
def Stmts.conts : Stmts → Bool
  | .nil => false
  | .cons s ss => s.conts || ss.conts
def Cases.conts : Cases → Bool
  | .nil => false
  | .cons _ b r => b.conts || r.conts
end

def kw (t : Tok) (s : String) : Tk := (t, s.toList)

mutual
/-- `WStmt fs nv st ts nv' d d'`: `ts` writes the statement; `nv` and `nv'` are the numbers of the next declared variable before and after,
`d` and `d'` the constant data. -/
inductive WStmt : List Frame → Nat → Stmt → List Tk → Nat → List Char → List Char → Prop
  | asg {fs : List Frame} {nv : Nat} {a : Asg} {s : List Char} {ts : List Tk} {fl : Bool} {d d1 : List Char} (hs : U.Plain s) (hf : U.fn s = none)
      (ha : WAsg (U.scope fs) a ((.identifier, s) :: ts) fl d d1) : WStmt fs nv (.asg a) ((.identifier, s) :: ts ++ [p .semicolon]) nv d d1
  | set {fs : List Frame} {nv : Nat} {l : Lv} {v : Value} {t : T} {s : List Char} {tl tv : List Tk} {d d1 d2 : List Char} (hs : U.Plain s)
      (hf : U.fn s = none) (hl : WLv (U.scope fs) l t ((.identifier, s) :: tl) d d1) (hv : WValue (U.scope fs) v tv d1 d2) (ha : Assignable l t) :
      WStmt fs nv (.set l v) ((.identifier, s) :: tl ++ p .assign :: tv ++ [p .semicolon]) nv d d2
  | pre {fs : List Frame} {nv : Nat} {up : Bool} {l : Lv} {t : T} {s : List Char} {ts : List Tk} {i : Nat} {d d1 : List Char} (hs : U.Plain s)
      (hf : U.fn s = none) (hl : WLv (U.scope fs) l t ((.identifier, s) :: ts) d d1) (ha : Assignable l t) (hc : Changeable (U.scope fs) l t)
      (hi : Unit1 U.E t i) : WStmt fs nv (.asg (stepAsg up l)) (p (stepTok up) :: (.identifier, s) :: ts ++ [p .semicolon]) nv d d1
  | call {fs : List Frame} {nv : Nat} {f : List Char} {es : Exs} {t : T} {ts : List Tk} {d d1 : List Char} (hs : U.Plain f) (hf : U.fn f = some t)
      (hv : (U.scope fs).var f = none) (ha : WArgs (U.scope fs) es ts d d1) :
      WStmt fs nv (.call f es) ((.identifier, f) :: p .open_bracket :: ts ++ [p .semicolon]) nv d d1
  | empty {fs : List Frame} {nv : Nat} {d : List Char} : WStmt fs nv .empty [p .semicolon] nv d d
  | block {fs : List Frame} {nv nv' : Nat} {ss : Stmts} {ts : List Tk} {d d1 : List Char} (hs : WItems ([] :: fs) nv ss ts nv' d d1) :
      WStmt fs nv (.block ss) (p .open_curly :: ts) nv' d d1
  | ret0 {fs : List Frame} {nv : Nat} {d : List Char} : WStmt fs nv (.ret none) [kw .return_ "return", p .semicolon] nv d d
  | ret {fs : List Frame} {nv : Nat} {e : Value} {ts : List Tk} {d d1 : List Char} (he : WValue (U.scope fs) e ts d d1) :
      WStmt fs nv (.ret (some e)) (kw .return_ "return" :: ts ++ [p .semicolon]) nv d d1
  | ite {fs : List Frame} {nv nv' : Nat} {c : Ors} {t : Stmt} {tc tt : List Tk} {d d1 d2 : List Char} (hc : WCond (U.scope fs) c tc d d1)
      (ht : WStmt fs nv t tt nv' d1 d2) : WStmt fs nv (.ite c t) (kw .if_ "if" :: p .open_bracket :: tc ++ p .close_bracket :: tt) nv' d d2
  | iteElse {fs : List Frame} {nv nv1 nv2 : Nat} {c : Ors} {t e : Stmt} {tc tt te : List Tk} {d d1 d2 d3 : List Char}
      (hc : WCond (U.scope fs) c tc d d1) (ht : WStmt fs nv t tt nv1 d1 d2) (ho : t.open_ = false) (he : WStmt fs nv1 e te nv2 d2 d3) :
      WStmt fs nv (.iteElse c t e) (kw .if_ "if" :: p .open_bracket :: tc ++ p .close_bracket :: tt ++ kw .else_ "else" :: te) nv2 d d3
  | while_ {fs : List Frame} {nv nv' : Nat} {c : Ors} {b : Stmt} {tc tb : List Tk} {d d1 d2 : List Char} (hc : WCond (U.scope fs) c tc d d1)
      (hb : WStmt fs nv b tb nv' d1 d2) : WStmt fs nv (.while_ c b) (kw .while_ "while" :: p .open_bracket :: tc ++ p .close_bracket :: tb) nv' d d2
  | doWhile {fs : List Frame} {nv nv' : Nat} {c : Ors} {b : Stmt} {tc tb : List Tk} {d d1 d2 : List Char} (hb : WStmt fs nv b tb nv' d d1)
      (hc : WCond (U.scope fs) c tc d1 d2) :
      WStmt fs nv (.doWhile b c) (kw .do_ "do" :: tb ++ kw .while_ "while" :: p .open_bracket :: tc ++ [p .close_bracket, p .semicolon]) nv' d d2
  /-- R: without an increment, the body has no `continue`. -/
  | for_ {fs fs' : List Frame} {nv nv1 nv2 : Nat} {i : Init} {c : Option Ors} {inc : Option Asg} {b : Stmt} {ti tc tj tb : List Tk}
      {d d1 d2 d3 d4 : List Char} (hi : WFor U ([] :: fs) nv i ti fs' nv1 d d1) (hc : WForCond (U.scope fs') c tc d1 d2)
      (hj : WForInc (U.scope fs') inc tj d2 d3) (hb : WStmt fs' nv1 b tb nv2 d3 d4) (hr : inc = none → b.conts = false) :
      WStmt fs nv (.for_ i c inc b) (kw .for_ "for" :: p .open_bracket :: ti ++ tc ++ tj ++ tb) nv2 d d4
  /-- R: there is a label. -/
  | switch_ {fs : List Frame} {nv nv' : Nat} {e : Ors} {cs : Cases} {te tc : List Tk} {d d1 d2 : List Char} (he : WCond (U.scope fs) e te d d1)
      (hc : WCases fs nv cs tc nv' d1 d2) (hn : cs ≠ .nil) :
      WStmt fs nv (.switch_ e cs) (kw .switch "switch" :: p .open_bracket :: te ++ p .close_bracket :: p .open_curly :: tc) nv' d d2
  | brk {fs : List Frame} {nv : Nat} {d : List Char} : WStmt fs nv .brk [kw .break_ "break", p .semicolon] nv d d
  | cont {fs : List Frame} {nv : Nat} {d : List Char} : WStmt fs nv .cont [kw .continue_ "continue", p .semicolon] nv d d
/-- The statements and declarations of a block, to the closing brace. -/
inductive WItems : List Frame → Nat → Stmts → List Tk → Nat → List Char → List Char → Prop
  | nil {fs : List Frame} {nv : Nat} {d : List Char} : WItems fs nv .nil [p .close_curly] nv d d
  | decl {fs fs' : List Frame} {nv nv1 nv2 : Nat} {ds : List Dec} {ss : Stmts} {ty : List Char} {td ts : List Tk} {t : T} {d d1 d2 : List Char}
      (ht : U.E.tydef (String.ofList ty) = some t) (hd : WDecs U ty true fs nv ds td fs' nv1 d d1) (hs : WItems fs' nv1 ss ts nv2 d1 d2) :
      WItems fs nv (.cons (.decl ds) ss) ((.identifier, ty) :: td ++ p .semicolon :: ts) nv2 d d2
  | stmt {fs : List Frame} {nv nv1 nv2 : Nat} {st : Stmt} {ss : Stmts} {t1 ts : List Tk} {d d1 d2 : List Char} (h : WStmt fs nv st t1 nv1 d d1)
      (hs : WItems fs nv1 ss ts nv2 d1 d2) : WItems fs nv (.cons st ss) (t1 ++ ts) nv2 d d2
/-- The labels of a `switch`, to the closing brace.  R: `default` is the last one, and behind a label there are no declarations. -/
inductive WCases : List Frame → Nat → Cases → List Tk → Nat → List Char → List Char → Prop
  | nil {fs : List Frame} {nv : Nat} {d : List Char} : WCases fs nv .nil [p .close_curly] nv d d
  | default {fs : List Frame} {nv nv' : Nat} {b : Stmts} {ts : List Tk} {d d1 : List Char} (hb : WGroup fs nv b ts nv' d d1) :
      WCases fs nv (.cons none b .nil) (kw .default "default" :: p .colon :: ts ++ [p .close_curly]) nv' d d1
  | case_ {fs : List Frame} {nv nv1 nv2 : Nat} {t : Tk} {v : Word} {b : Stmts} {r : Cases} {tb tr : List Tk} {d d1 d2 : List Char}
      (hv : CaseVal U t v) (hb : WGroup fs nv b tb nv1 d d1) (hr : WCases fs nv1 r tr nv2 d1 d2) :
      WCases fs nv (.cons (some v) b r) (kw .case_ "case" :: t :: p .colon :: tb ++ tr) nv2 d d2
inductive WGroup : List Frame → Nat → Stmts → List Tk → Nat → List Char → List Char → Prop
  | nil {fs : List Frame} {nv : Nat} {d : List Char} : WGroup fs nv .nil [] nv d d
  | cons {fs : List Frame} {nv nv1 nv2 : Nat} {st : Stmt} {ss : Stmts} {t1 ts : List Tk} {d d1 d2 : List Char} (h : WStmt fs nv st t1 nv1 d d1)
      (hs : WGroup fs nv1 ss ts nv2 d1 d2) : WGroup fs nv (.cons st ss) (t1 ++ ts) nv2 d d2
end

/-! ### The machine

Executions of the statement trees of `Spec/CStmt` are those of a machine that has an action for each instruction.  The expressions of
`Spec/CEval` are evaluated on the same states. -/

section
variable (M : CRename.Mach) (H : CRename.Home Nat) (da : Word) (load : Nat → M.World → Word → Option Word)

/-- The same states and instructions, for expressions. -/
def machOf : Mach where
  World := M.World
  mem := H.mem
  get := fun w x => M.get w (H.addr x)
  set := fun w x v => M.set w (H.addr x) v
  load := load
  addrOf := H.addr
  dataAddr := da
  ext := fun i a b w => if i.op = .allocat then none else M.act ⟨i.op, i.sz, i.str⟩ a b w

/-- Constants, copies, addresses, reads and arithmetic do what they should. -/
structure Std : Prop where
  const : ∀ k st a b w, M.act ⟨.load_constant, k, st⟩ a b w = some (w, BitVec.ofNat 32 k)
  data : ∀ k st a b w, M.act ⟨.load_data_address, k, st⟩ a b w = some (w, da + BitVec.ofNat 32 k)
  move : ∀ k st x b w, M.act ⟨.assign, k, st⟩ (some x) b w = some (w, x)
  addr : ∀ k st x b w, M.act ⟨.address_of, k, st⟩ (some x) b w = some (w, x)
  read : ∀ k st x b w, M.act ⟨.read, k, st⟩ (some x) b w = (load k w x).map fun v => (w, v)
  bin : ∀ op o k st x y w, IrM.binOf op = some o → M.act ⟨.alu op, k, st⟩ (some x) (some y) w = (CArith.bin o x y).map fun v => (w, v)
  un : ∀ op o k st x b w, IrM.binOf op = none → IrM.unOf op = some o → M.act ⟨.alu op, k, st⟩ (some x) b w = some (w, CArith.un o x)

/-- The machine does what the language says; variables from `nv` on are not in memory. -/
structure Linked (C : Lang (machOf M H da load)) (nv : Nat) where
  std : Std M da load
  expr : CEval.Linked (machOf M H da load) C.toLang
  scall : ∀ f vs w w2, C.scall f vs w = some w2 →
    ∃ u, M.act ⟨.call, 0, String.ofList f⟩ none none (vs.foldl expr.push w) = some (w2, u)
  ret : ∀ v w, ∃ u, M.act ⟨.ret, 0, ""⟩ v none w = some (C.ret v w, u)
  alloc : ∀ x w, M.act ⟨.allocat, x, ""⟩ none none w = some (w, C.alloc x)
  outside : ∀ x, nv ≤ x → H.mem x = false
end

end CBody
