import Verif.Spec.CBody

/-!
# Specification: whole programs, as they are written

A program is a sequence of declarations: of types, global variables, and functions with or without a body.  What is declared is in scope for
what follows.  Restrictions that go beyond C are marked `R`.
-/

namespace CUnit
open CTypes CEval CSyntax CArith CBody
open Shecc.Parser (POp)
open Shecc.Lex (Tok)
open CExpr (Tree Parses binOp)

/-- A declared name with its declarator. -/
abbrev Named := List Char × Declr

/-! ### Declarators -/

/-- The types of unnamed parameters: a type name, asterisks, perhaps brackets. -/
inductive WTypes : List Tk → Prop
  | one {ty : List Char} {n : Nat} {f : Form} {tf : List Tk} (hf : WForm f tf) :
      WTypes ((.identifier, ty) :: (List.replicate n (p .asterisk) ++ tf))
  | more {ty : List Char} {n : Nat} {f : Form} {tf ts : List Tk} (hf : WForm f tf) (h : WTypes ts) :
      WTypes ((.identifier, ty) :: (List.replicate n (p .asterisk) ++ (tf ++ p .comma :: ts)))

/-- The parameters of a pointer to a function, to the closing parenthesis. -/
inductive WAnon : List Tk → Prop
  | none : WAnon [p .close_bracket]
  | some {ts : List Tk} (h : WTypes ts) : WAnon (ts ++ [p .close_bracket])
  | va {ts : List Tk} (h : WTypes ts) : WAnon (ts ++ [p .comma, p .elipsis, p .close_bracket])

/-- A declarator behind the type specifier `sp`. -/
inductive WDeclr (sp : TSpec) : Named → List Tk → Prop
  | var {s : List Char} {n : Nat} {f : Form} {tf : List Tk} (hf : WForm f tf) :
      WDeclr sp (s, { spec := sp, ptrs := n, form := f, name := String.ofList s }) (List.replicate n (p .asterisk) ++ (.identifier, s) :: tf)
  | func {s : List Char} {n : Nat} {ta : List Tk} (ha : WAnon ta) :
      WDeclr sp (s, { spec := sp, ptrs := n, form := .func, name := String.ofList s })
        (List.replicate n (p .asterisk) ++ p .open_bracket :: p .asterisk :: (.identifier, s) :: p .close_bracket :: p .open_bracket :: ta)

/-! ### Types -/

inductive WSpec : TSpec → List Tk → Prop
  | tag {s : List Char} : WSpec (.tag (String.ofList s)) [kw .struct "struct", (.identifier, s)]
  | name {s : List Char} : WSpec (.name (String.ofList s)) [(.identifier, s)]

/-- The members of a structure, to the closing brace.  R: one declarator in each declaration. -/
inductive WMembers : List Declr → List Tk → Prop
  | last {sp : TSpec} {e : Named} {ts td : List Tk} (hs : WSpec sp ts) (hd : WDeclr sp e td) :
      WMembers [e.2] (ts ++ td ++ [p .semicolon, p .close_curly])
  | more {sp : TSpec} {e : Named} {ds : List Declr} {ts td tm : List Tk} (hs : WSpec sp ts) (hd : WDeclr sp e td) (hm : WMembers ds tm) :
      WMembers (e.2 :: ds) (ts ++ td ++ p .semicolon :: tm)

/-- An enumeration constant.  R: its value is a literal. -/
inductive WItem : String × Option Int → List Tk → Prop
  | next {s : List Char} : WItem (String.ofList s, none) [(.identifier, s)]
  | val {s : List Char} {l : CExpr.Literal} (hl : l.Valid) (hr : l.val < 2 ^ 31) :
      WItem (String.ofList s, some (l.val : Int)) [(.identifier, s), p .assign, (.numeric, l.spelling)]

/-- The constants of an enumeration, to the closing brace. -/
inductive WEnum : List (String × Option Int) → List Tk → Prop
  | last {c : String × Option Int} {ts : List Tk} (h : WItem c ts) : WEnum [c] (ts ++ [p .close_curly])
  | more {c : String × Option Int} {cs : List (String × Option Int)} {ts tr : List Tk} (h : WItem c ts) (hr : WEnum cs tr) :
      WEnum (c :: cs) (ts ++ p .comma :: tr)

/-- Declarations of types. -/
inductive WDecl : Decl → List Tk → Prop
  | struct {s : List Char} {ds : List Declr} {tm : List Tk} (hm : WMembers ds tm) :
      WDecl (.struct (String.ofList s) ds) (kw .struct "struct" :: (.identifier, s) :: p .open_curly :: tm ++ [p .semicolon])
  | tagged {s x : List Char} {ds : List Declr} {tm : List Tk} (hm : WMembers ds tm) :
      WDecl (.typedefStruct (some (String.ofList s)) (some ds) (String.ofList x))
        (kw .typedef "typedef" :: kw .struct "struct" :: (.identifier, s) :: p .open_curly :: tm ++ [(.identifier, x), p .semicolon])
  | untagged {x : List Char} {ds : List Declr} {tm : List Tk} (hm : WMembers ds tm) :
      WDecl (.typedefStruct none (some ds) (String.ofList x))
        (kw .typedef "typedef" :: kw .struct "struct" :: p .open_curly :: tm ++ [(.identifier, x), p .semicolon])
  | forward {s x : List Char} :
      WDecl (.typedefStruct (some (String.ofList s)) none (String.ofList x))
        [kw .typedef "typedef", kw .struct "struct", (.identifier, s), (.identifier, x), p .semicolon]
  | enum {cs : List (String × Option Int)} {x : List Char} {te : List Tk} (he : WEnum cs te) :
      WDecl (.typedefEnum cs (String.ofList x))
        (kw .typedef "typedef" :: kw .enum "enum" :: p .open_curly :: te ++ [(.identifier, x), p .semicolon])
  | alias {b x : List Char} :
      WDecl (.typedefName (String.ofList b) (String.ofList x)) [kw .typedef "typedef", (.identifier, b), (.identifier, x), p .semicolon]

/-! ### Constant expressions -/

mutual
/-- Operands without a sign.  R: at most nine characters. -/
inductive WUnsigned : Word → List Tk → Prop
  | num {l : CExpr.Literal} (hl : l.Valid) (hn : l.spelling.length < 10) : WUnsigned (BitVec.ofNat 32 l.val) [(.numeric, l.spelling)]
  | chr {c : Char} (hc : c.toNat < 128) : WUnsigned (BitVec.ofNat 32 c.toNat) [(.char, [c])]
  | paren {v : Word} {ts : List Tk} (h : WSigned v ts) : WUnsigned v (p .open_bracket :: ts ++ [p .close_bracket])
/-- Operands.  R: no expressions in parentheses. -/
inductive WSigned : Word → List Tk → Prop
  | pos {v : Word} {ts : List Tk} (h : WUnsigned v ts) : WSigned v ts
  | neg {v : Word} {ts : List Tk} (h : WUnsigned v ts) : WSigned (-v) (p .minus :: ts)
end

def popTok : POp → Tok
  | .add => .plus
  | .sub => .minus
  | .mul => .asterisk
  | .div => .divide
  | .mod => .mod
  | .lshift => .lshift
  | .rshift => .rshift
  | .log_and => .log_and
  | .log_or => .log_or
  | .eq => .eq
  | .neq => .noteq
  | .lt => .lt
  | .leq => .le
  | .gt => .gt
  | .geq => .ge
  | .bit_and => .ampersand
  | .bit_or => .bit_or
  | .bit_xor => .bit_xor

/-- Operands and binary operators. -/
inductive WChain : Word → List (POp × Word) → List Tk → Prop
  | one {v : Word} {ts : List Tk} (h : WSigned v ts) : WChain v [] ts
  | more {v w : Word} {op : POp} {l : List (POp × Word)} {ts tr : List Tk} (h : WSigned v ts) (hr : WChain w l tr) :
      WChain v ((op, w) :: l) (ts ++ p (popTok op) :: tr)

/-- The value of a constant expression.  R: the right operand of `&&` and `||` has a value even if it is not needed; the left operand of `%`
is not negative; the largest negative number is not divided by -1; there are no `&`, `|`, `^`. -/
inductive Value : Tree Word → Word → Prop
  | leaf (v : Word) : Value (.leaf v) v
  | node {op : POp} {o : BinOp} {l r : Tree Word} {a b v : Word} (ho : binOp op = some o) (hb : op ≠ .bit_and ∧ op ≠ .bit_or ∧ op ≠ .bit_xor)
      (hm : op = .mod → 0 ≤ a.toInt) (hd : op = .div → ¬ (a = BitVec.intMin 32 ∧ b = -1#32)) (hl : Value l a) (hr : Value r b)
      (hv : CArith.bin o a b = some v) : Value (.node op l r) v
  | and {l r : Tree Word} {a b : Word} (hl : Value l a) (hr : Value r b) :
      Value (.node .log_and l r) (if a ≠ 0 ∧ b ≠ 0 then 1 else 0)
  | or {l r : Tree Word} {a b : Word} (hl : Value l a) (hr : Value r b) :
      Value (.node .log_or l r) (if a ≠ 0 ∨ b ≠ 0 then 1 else 0)

/-- There are no shifts, or only shifts and arithmetic. -/
def ShiftsApart (ops : List POp) : Prop :=
  (∀ o ∈ ops, o ≠ .lshift ∧ o ≠ .rshift) ∨ (∀ o ∈ ops, o ∈ [POp.lshift, .rshift, .add, .sub, .mul, .div, .mod])

/-- Constant expressions without `?:`.  R: shifts are not mixed with comparisons and logical operators. -/
inductive WConst : Word → List Tk → Prop
  | expr {a v : Word} {l : List (POp × Word)} {t : Tree Word} {ts : List Tk} (h : WChain a l ts) (hs : ShiftsApart (l.map (·.1)))
      (ht : Parses t a l) (hv : Value t v) : WConst v ts

/-- Constant expressions.  R: `?:` only on the right of `:`. -/
inductive WValue : Word → List Tk → Prop
  | expr {v : Word} {ts : List Tk} (h : WConst v ts) : WValue v ts
  | then_ {c v u : Word} {tc tv tu : List Tk} (hc : WConst c tc) (hn : c ≠ 0) (hv : WConst v tv) (hu : WValue u tu) :
      WValue v (tc ++ p .question :: (tv ++ p .colon :: tu))
  | else_ {c v u : Word} {tc tv tu : List Tk} (hc : WConst c tc) (hn : c = 0) (hv : WConst v tv) (hu : WValue u tu) :
      WValue u (tc ++ p .question :: (tv ++ p .colon :: tu))

/-! ### What is in scope -/

/-- What has been declared: types, enumeration constants, functions with the types of their results, functions with a body, global
variables; and the string literals so far. -/
structure Decls where
  types : List Decl
  E : Env
  consts : List (String × Word)
  fns : List (List Char × T)
  bodies : List (List Char)
  globals : List Named
  data : List Char

/-- At the beginning: one built-in function. -/
def Decls.init : Decls where
  types := []
  E := .init
  consts := []
  fns := [("__syscall".toList, .int)]
  bodies := []
  globals := []
  data := []

def Decls.const (D : Decls) (s : List Char) : Option Word := (D.consts.find? fun c => c.1 = String.ofList s).map (·.2)
def Decls.fn (D : Decls) (s : List Char) : Option T := (D.fns.find? fun f => f.1 = s).map (·.2)

/-- The name can be declared. -/
structure Decls.Free (D : Decls) (s : List Char) : Prop where
  type : D.E.tydef (String.ofList s) = none
  const : D.const s = none
  fn : D.fn s = none
  var : s ∉ D.globals.map (·.1)

/-- The name and the result of a function are declared. -/
def Decls.declare (D : Decls) (s : List Char) (t : T) : Decls :=
  match D.fn s with
  | some _ => D
  | none => { D with fns := D.fns ++ [(s, t)] }

/-- Variables numbered from `k` on. -/
def frame (k : Nat) : List Named → Frame
  | [] => []
  | e :: l => (e.1, k) :: frame (k + 1) l

/-- `U` is what the names mean in a function with the parameters `ps`: global variables are numbered first, then parameters, then local
variables; there are no macros. -/
structure Inside (base : Nat) (D : Decls) (ps : List Named) (U : CBody.Unit) : Prop where
  E : U.E = D.E
  const : U.const = D.const
  fn : U.fn = D.fn
  macro_ : U.macro_ = fun _ => false
  globals : U.globals = frame 0 D.globals
  params : U.params = frame D.globals.length ps
  decl : ∀ i e, (D.globals ++ ps)[i]? = some e → U.decl i = e.2
  room : D.globals.length + ps.length ≤ base
  below : U.base = base

/-! ### Programs -/

/-- A parameter.  R: its type is `int` or a pointer. -/
inductive WParam (E : Env) : Named → List Tk → Prop
  | mk {ty : List Char} {e : Named} {td : List Tk} {t : T} (hd : WDeclr (.name (String.ofList ty)) e td) (ht : e.2.type E = some t)
      (hs : t = .int ∨ ∃ u, t = .ptr u) : WParam E e ((.identifier, ty) :: td)

/-- One or more parameters. -/
inductive WParams1 (E : Env) : List Named → List Tk → Prop
  | one {e : Named} {te : List Tk} (h : WParam E e te) : WParams1 E [e] te
  | more {e : Named} {ps : List Named} {te ts : List Tk} (h : WParam E e te) (hr : WParams1 E ps ts) :
      WParams1 E (e :: ps) (te ++ p .comma :: ts)

/-- The parameters of a function, to the closing parenthesis.  R: an empty list is not written `void`; a parameter of a declaration has a name. -/
inductive WParams (E : Env) : List Named → List Tk → Prop
  | none : WParams E [] [p .close_bracket]
  | some {ps : List Named} {ts : List Tk} (h : WParams1 E ps ts) : WParams E ps (ts ++ [p .close_bracket])
  | va {ps : List Named} {ts : List Tk} (h : WParams1 E ps ts) : WParams E ps (ts ++ [p .comma, p .elipsis, p .close_bracket])

/-- Name, result and parameters of a function.  R: the result is `void`, `int` or a pointer. -/
inductive WHead (D : Decls) : List Char → T → List Named → List Tk → Prop
  | mk {ty s : List Char} {n : Nat} {t u : T} {ps : List Named} {tp : List Tk} (hu : D.E.tydef (String.ofList ty) = some u) (ht : t = pointers n u)
      (hr : t = .void ∨ t = .int ∨ ∃ v, t = .ptr v) (hp : WParams D.E ps tp) (hd : (ps.map (·.1)).Nodup)
      (hf : D.Free s ∨ D.fn s = some t) :
      WHead D s t ps ((.identifier, ty) :: (List.replicate n (p .asterisk) ++ (.identifier, s) :: p .open_bracket :: tp))

/-- A function with a body: `nv` is the number of the first local variable. -/
structure FnDef where
  name : List Char
  params : List Named
  unit : CBody.Unit
  nv : Nat
  body : Stmts
  result : T

inductive Top
  | type (d : Decl)
  | var (e : Named) (v : Option Word)
  | proto (s : List Char)
  | fn (f : FnDef)

/-- The constants a declaration declares. -/
def constants : Decl → List (String × Word)
  | .typedefEnum items _ => (enumValues 0 items).map fun c => (c.1, BitVec.ofInt 32 c.2)
  | _ => []

/-- The initial value.  R: only variables of type `int` have one. -/
inductive WInitial (t : T) : Option Word → List Tk → Prop
  | none : WInitial t none []
  | some {v : Word} {ts : List Tk} (ht : t = .int) (hv : WValue v ts) : WInitial t (some v) (p .assign :: ts)

/-- One declaration of a program. -/
inductive WTop (base : Nat) : Decls → Top → List Tk → Decls → Prop
  | type {D : Decls} {d : Decl} {td : List Tk} {E' : Env} (hw : WDecl d td) (hn : d.Named) (hd : Declares D.E d E')
      (hc : ((constants d).map (·.1)).Nodup) (hf : ∀ s, String.ofList s ∈ (constants d).map (·.1) → D.Free s) :
      WTop base D (.type d) td { D with types := D.types ++ [d], E := E', consts := D.consts ++ constants d }
  | var {D : Decls} {ty : List Char} {e : Named} {td ti : List Tk} {t : T} {k : Nat} {v : Option Word}
      (hd : WDeclr (.name (String.ofList ty)) e td) (hp : e.2.form ≠ .func) (ht : e.2.type D.E = some t) (hk : HasSize D.E t k)
      (hf : D.Free e.1) (hi : WInitial t v ti) :
      WTop base D (.var e v) ((.identifier, ty) :: (td ++ (ti ++ [p .semicolon]))) { D with globals := D.globals ++ [e] }
  | proto {D : Decls} {s : List Char} {t : T} {ps : List Named} {th : List Tk} (hh : WHead D s t ps th) :
      WTop base D (.proto s) (th ++ [p .semicolon]) (D.declare s t)
  | fn {D : Decls} {s : List Char} {t : T} {ps : List Named} {th tb : List Tk} {U : CBody.Unit} {ss : Stmts} {nv' : Nat} {d' : List Char}
      (hh : WHead D s t ps th) (hn : s ∉ D.bodies) (hU : Inside base (D.declare s t) ps U)
      (hb : WItems U [[]] (D.globals.length + ps.length) ss tb nv' D.data d') :
      WTop base D (.fn ⟨s, ps, U, D.globals.length + ps.length, ss, t⟩) (th ++ p .open_curly :: tb)
        { D.declare s t with data := d', bodies := D.bodies ++ [s] }

/-- A sequence of declarations. -/
inductive WTops (base : Nat) : Decls → List Top → List Tk → Decls → Prop
  | nil {D : Decls} : WTops base D [] [] D
  | cons {D D1 D2 : Decls} {x : Top} {l : List Top} {tx tl : List Tk} (h : WTop base D x tx D1) (hr : WTops base D1 l tl D2) :
      WTops base D (x :: l) (tx ++ tl) D2

/-- The global variables with their initial values. -/
def vars (l : List Top) : List (Named × Option Word) :=
  l.filterMap fun
    | .var e v => some (e, v)
    | _ => none

/-- The functions with bodies. -/
def fns (l : List Top) : List FnDef :=
  l.filterMap fun
    | .fn f => some f
    | _ => none

/-- A program: at least one declaration. -/
structure WProgram (base : Nat) (l : List Top) (ts : List Tk) (D : Decls) : Prop where
  tops : WTops base .init l ts D
  some : l ≠ []

end CUnit
