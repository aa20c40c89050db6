import Verif.Spec.CTypes
import Verif.Spec.SsaSem

/-!
# Specification: values of expressions, objects designated by lvalues, assignments

Variables are numbers and keep the declarator they were declared with.  A variable of array type holds the address of its first
element; a variable of structure type is an object at its address; other variables hold their value.  Objects in memory are read
and written by the operations of the machine.  Where C leaves the order of evaluation open, operands are evaluated from left to
right, except that a variable that is itself an operand is read when the operation is performed.
-/

namespace CEval
open CTypes CArith
open SsaSem (Mach rdVar wrVar)

mutual
/-- Expressions.  `padd l es` is `l + e1 + ... + en` for a pointer or array `l`, `deref l es` is `*(l + e1 + ... + en)`; `str k`
is the string literal at offset `k` of the constant data; `icall` calls through a function pointer. -/
inductive Ex
  | num (w : Word)
  | str (k : Word)
  | un (op : UnOp) (e : Ex)
  | bin (op : BinOp) (a b : Ex)
  | lval (l : Lv)
  | addr (l : Lv)
  | deref (l : Lv) (es : Exs)
  | padd (l : Lv) (es : Exs)
  | call (f : List Char) (es : Exs)
  | icall (l : Lv) (es : Exs)
/-- Lvalues. -/
inductive Lv
  | var (x : Nat)
  | index (l : Lv) (e : Ex)
  | dot (l : Lv) (f : String)
  | arrow (l : Lv) (f : String)
inductive Exs
  | nil
  | cons (e : Ex) (es : Exs)
end

/-- Where an object is: in a variable or in memory. -/
inductive Place
  | var (x : Nat)
  | mem (a : Word)

/-- An operand: a value, or a variable that is yet to be read. -/
inductive Res
  | val (w : Word)
  | var (x : Nat)

/-- What the machine does for calls and stores. -/
structure Lang (M : Mach) where
  call : List Char → List Word → M.World → Option (M.World × Word)
  icall : Word → List Word → M.World → Option (M.World × Word)
  store : Nat → M.World → Word → Word → Option M.World

variable {M : Mach} (C : Lang M) (E : Env) (decl : Nat → Declr) (ρ : Nat → Word)

/-- The value of an operand; `ρ` holds the variables that live in registers. -/
def Res.use (w : M.World) : Res → Word
  | .val v => v
  | .var x => rdVar M (w, ρ) x

/-- A type with values that fit a variable. -/
def Scalar : T → Prop
  | .char | .bool | .int | .ptr _ => True
  | _ => False

/-- The pointer that an object of pointer or array type yields, and what it points to. -/
inductive Decay (w : M.World) : T → Place → T → Res → Prop
  | var {u : T} {x : Nat} : Decay w (.ptr u) (.var x) u (.var x)
  | mem {u : T} {a v : Word} (hv : M.load 4 w a = some v) : Decay w (.ptr u) (.mem a) u (.val v)
  | arrVar {n : Nat} {u : T} {x : Nat} : Decay w (.arr n u) (.var x) u (.var x)
  | arrMem {n : Nat} {u : T} {a : Word} : Decay w (.arr n u) (.mem a) u (.val a)

/-- The address of an object. -/
def Place.addr : Place → Word
  | .var x => M.addrOf x
  | .mem a => a

mutual
/-- `EvLv w l w' t p`: evaluating `l` changes the world from `w` to `w'`; it designates an object of type `t` at `p`. -/
inductive EvLv : M.World → Lv → M.World → T → Place → Prop
  | var {w : M.World} {x : Nat} {t : T} (ht : (decl x).type E = some t) : EvLv w (.var x) w t (.var x)
  | index {w w1 w2 : M.World} {l : Lv} {e : Ex} {t u : T} {p : Place} {b i : Res} {k : Nat} (hl : EvLv w l w1 t p)
      (hb : Decay w1 t p u b) (he : EvEx w1 e w2 i) (hk : HasSize E u k) :
      EvLv w (.index l e) w2 u (.mem (b.use ρ w2 + i.use ρ w2 * BitVec.ofNat 32 k))
  | dot {w w1 : M.World} {l : Lv} {s : Sid} {p : Place} {fs : List (String × T)} {f : String} {o : Nat} {t : T}
      (hl : EvLv w l w1 (.struct s) p) (hf : E.fields s = some fs) (hm : MemberAt E 0 fs f o t) :
      EvLv w (.dot l f) w1 t (.mem (p.addr (M := M) + BitVec.ofNat 32 o))
  | arrow {w w1 : M.World} {l : Lv} {t' : T} {s : Sid} {p : Place} {b : Res} {fs : List (String × T)} {f : String} {o : Nat} {t : T}
      (hl : EvLv w l w1 t' p) (hb : Decay w1 t' p (.struct s) b) (hf : E.fields s = some fs) (hm : MemberAt E 0 fs f o t) :
      EvLv w (.arrow l f) w1 t (.mem (b.use ρ w1 + BitVec.ofNat 32 o))
/-- `EvEx w e w' r`: the value of `e` is that of the operand `r` in the world `w'`. -/
inductive EvEx : M.World → Ex → M.World → Res → Prop
  | num {w : M.World} {v : Word} : EvEx w (.num v) w (.val v)
  | str {w : M.World} {k : Word} : EvEx w (.str k) w (.val (M.dataAddr + k))
  | un {w w1 : M.World} {o : UnOp} {e : Ex} {r : Res} (he : EvEx w e w1 r) : EvEx w (.un o e) w1 (.val (un o (r.use ρ w1)))
  | bin {w w1 w2 : M.World} {o : BinOp} {a b : Ex} {ra rb : Res} {v : Word} (ha : EvEx w a w1 ra) (hb : EvEx w1 b w2 rb)
      (hv : bin o (ra.use ρ w2) (rb.use ρ w2) = some v) : EvEx w (.bin o a b) w2 (.val v)
  | lvar {w w1 : M.World} {l : Lv} {t : T} {x : Nat} (hl : EvLv w l w1 t (.var x)) (ht : Scalar t) : EvEx w (.lval l) w1 (.var x)
  | lmem {w w1 : M.World} {l : Lv} {t : T} {a v : Word} {k : Nat} (hl : EvLv w l w1 t (.mem a)) (ht : Scalar t) (hk : HasSize E t k)
      (hv : M.load k w1 a = some v) : EvEx w (.lval l) w1 (.val v)
  | larr {w w1 : M.World} {l : Lv} {n : Nat} {u : T} {p : Place} {r : Res} (hl : EvLv w l w1 (.arr n u) p)
      (hr : Decay w1 (.arr n u) p u r) : EvEx w (.lval l) w1 r
  | addr {w w1 : M.World} {l : Lv} {t : T} {p : Place} (hl : EvLv w l w1 t p) (ht : ∀ n u x, t = .arr n u → p ≠ .var x) :
      EvEx w (.addr l) w1 (.val (p.addr (M := M)))
  | addrArr {w w1 : M.World} {l : Lv} {n : Nat} {u : T} {x : Nat} (hl : EvLv w l w1 (.arr n u) (.var x)) : EvEx w (.addr l) w1 (.var x)
  | deref {w w1 w2 : M.World} {l : Lv} {t u : T} {p : Place} {r r' : Res} {k : Nat} {es : Exs} {v : Word} (hl : EvLv w l w1 t p)
      (hr : Decay w1 t p u r) (hu : Scalar u) (hk : HasSize E u k) (hs : EvSum (BitVec.ofNat 32 k) w1 r es w2 r')
      (hv : M.load k w2 (r'.use ρ w2) = some v) : EvEx w (.deref l es) w2 (.val v)
  | padd {w w1 w2 : M.World} {l : Lv} {t u : T} {p : Place} {r r' : Res} {k : Nat} {es : Exs} (hl : EvLv w l w1 t p)
      (hr : Decay w1 t p u r) (hk : HasSize E u k) (hs : EvSum (BitVec.ofNat 32 k) w1 r es w2 r') : EvEx w (.padd l es) w2 r'
  | call {w w1 w2 : M.World} {f : List Char} {es : Exs} {rs : List Res} {v : Word} (hs : EvArgs w es w1 rs)
      (hc : C.call f (rs.map (·.use ρ w1)) w1 = some (w2, v)) : EvEx w (.call f es) w2 (.val v)
  | icall {w w1 w2 w3 : M.World} {l : Lv} {r : Res} {es : Exs} {rs : List Res} {v : Word} (hf : EvEx w (.lval l) w1 r)
      (hs : EvArgs w1 es w2 rs) (hc : C.icall (r.use ρ w2) (rs.map (·.use ρ w2)) w2 = some (w3, v)) : EvEx w (.icall l es) w3 (.val v)
/-- Addition of indices, in units of `k` bytes, to an address. -/
inductive EvSum : Word → M.World → Res → Exs → M.World → Res → Prop
  | nil {k : Word} {w : M.World} {r : Res} : EvSum k w r .nil w r
  | cons {k : Word} {w w1 w2 : M.World} {r i r' : Res} {e : Ex} {es : Exs} (he : EvEx w e w1 i)
      (hs : EvSum k w1 (.val (r.use ρ w1 + i.use ρ w1 * k)) es w2 r') : EvSum k w r (.cons e es) w2 r'
inductive EvArgs : M.World → Exs → M.World → List Res → Prop
  | nil {w : M.World} : EvArgs w .nil w []
  | cons {w w1 w2 : M.World} {e : Ex} {es : Exs} {r : Res} {rs : List Res} (he : EvEx w e w1 r) (hs : EvArgs w1 es w2 rs) :
      EvArgs w (.cons e es) w2 (r :: rs)
end

/-! ### Assignments -/

/-- `l = e`, `l op= e`, `l++` and `l--` as statements. -/
inductive Asg
  | set (l : Lv) (e : Ex)
  | op (o : BinOp) (l : Lv) (e : Ex)
  | incr (l : Lv)
  | decr (l : Lv)

/-- Conversion to the type of a variable. -/
def convert : T → Word → Word
  | .char, v => (v.setWidth 8).signExtend 32
  | .bool, v => if v = 0 then 0 else 1
  | _, v => v

/-- The value of the object. -/
inductive Place.Read (k : Nat) (w : M.World) : Place → Res → Prop
  | var {x : Nat} : Place.Read k w (.var x) (.var x)
  | mem {a v : Word} (hv : M.load k w a = some v) : Place.Read k w (.mem a) (.val v)

/-- The state after the assignment of `v` to the object, of type `t` and size `k`. -/
def Place.write (t : T) (k : Nat) (s : SsaSem.State M) (v : Word) : Place → Option (SsaSem.State M)
  | .var x => some (wrVar M s x (convert t v))
  | .mem a => (C.store k s.1 a v).map fun w => (w, s.2)

/-- What one more means: the size of what is pointed to, for pointers. -/
inductive Unit1 : T → Nat → Prop
  | ptr {u : T} {k : Nat} (h : HasSize E u k) : Unit1 (.ptr u) k
  | other {t : T} (h : ∀ u, t ≠ .ptr u) : Unit1 t 1

/-- `EvAsg w a s'`: the assignment, in the world `w` with variables `ρ`, leads to the state `s'`. -/
inductive EvAsg : M.World → Asg → SsaSem.State M → Prop
  | set {w w1 w2 : M.World} {l : Lv} {e : Ex} {t : T} {pl : Place} {r : Res} {k : Nat} {s' : SsaSem.State M} (hl : EvLv C E decl ρ w l w1 t pl)
      (he : EvEx C E decl ρ w1 e w2 r) (hk : HasSize E t k) (hs : pl.write C t k (w2, ρ) (r.use ρ w2) = some s') : EvAsg w (.set l e) s'
  | op {w w1 w2 : M.World} {o : BinOp} {l : Lv} {e : Ex} {t : T} {pl : Place} {q r : Res} {k i : Nat} {v : Word} {s' : SsaSem.State M}
      (hl : EvLv C E decl ρ w l w1 t pl) (hq : pl.Read k w1 q) (he : EvEx C E decl ρ w1 e w2 r) (hk : HasSize E t k) (hi : Unit1 E t i)
      (hv : bin o (q.use ρ w2) (r.use ρ w2 * BitVec.ofNat 32 i) = some v) (hs : pl.write C t k (w2, ρ) v = some s') : EvAsg w (.op o l e) s'
  | incr {w w1 : M.World} {l : Lv} {t : T} {pl : Place} {q : Res} {k i : Nat} {s' : SsaSem.State M} (hl : EvLv C E decl ρ w l w1 t pl)
      (hq : pl.Read k w1 q) (hk : HasSize E t k) (hi : Unit1 E t i)
      (hs : pl.write C t k (w1, ρ) (q.use ρ w1 + BitVec.ofNat 32 i) = some s') : EvAsg w (.incr l) s'
  | decr {w w1 : M.World} {l : Lv} {t : T} {pl : Place} {q : Res} {k i : Nat} {s' : SsaSem.State M} (hl : EvLv C E decl ρ w l w1 t pl)
      (hq : pl.Read k w1 q) (hk : HasSize E t k) (hi : Unit1 E t i)
      (hs : pl.write C t k (w1, ρ) (q.use ρ w1 - BitVec.ofNat 32 i) = some s') : EvAsg w (.decr l) s'

/-- The machine's pushes, calls and writes do what the language says.  The value of a call is fetched by a separate instruction. -/
structure Linked (M : Mach) (C : Lang M) where
  push : M.World → Word → M.World
  push_get : ∀ w v x, M.get (push w v) x = M.get w x
  push_ok : ∀ x k v w, ∃ u, M.ext { op := .push, rs1 := some x, sz := k } (some v) none w = some (push w v, u)
  call_ok : ∀ f vs w w2 v, C.call f vs w = some (w2, v) → ∃ w1 u, M.ext { op := .call, str := String.ofList f } none none (vs.foldl push w) = some (w1, u) ∧
    ∀ d, M.ext { op := .func_ret, rd := some d } none none w1 = some (w2, v)
  icall_ok : ∀ a vs w w2 v, C.icall a vs w = some (w2, v) → ∃ w1 u, (∀ x, M.ext { op := .indirect, rs1 := some x } (some a) none (vs.foldl push w) = some (w1, u)) ∧
    ∀ d, M.ext { op := .func_ret, rd := some d } none none w1 = some (w2, v)
  write_ok : ∀ x y k a v w w', C.store k w a v = some w' →
    ∃ u, M.ext { op := .write, rs1 := some x, rs2 := some y, sz := k } (some a) (some v) w = some (w', u)

end CEval
