/-!
# Specification: type declarations

The declarations of the language's subset and the types they denote.  Structures are laid out without padding: each member follows
the one before it.
-/

namespace CTypes

/-- The type specifier of a declaration: `struct s` or a type name. -/
inductive TSpec
  | tag (s : String)
  | name (s : String)

/-- What stands around the name: nothing, `[n]`, `[]`, or `(*name)(...)`. -/
inductive Form
  | plain
  | array (n : Nat)
  | unsized
  | func

/-- A declarator: `spec * ... * name form`. -/
structure Declr where
  spec : TSpec
  ptrs : Nat := 0
  form : Form := .plain
  name : String

inductive Decl
  /-- `struct tag { ... };` -/
  | struct (tag : String) (ds : List Declr)
  /-- `typedef struct tag? { ... }? name;` -/
  | typedefStruct (tag : Option String) (body : Option (List Declr)) (name : String)
  /-- `typedef enum { a, b = n, ... } name;` -/
  | typedefEnum (items : List (String × Option Int)) (name : String)
  /-- `typedef base name;` -/
  | typedefName (base name : String)

/-! ### Types -/

/-- A structure type: the one with a tag, or the one declared without a tag in the `typedef` of a name. -/
inductive Sid
  | tag (s : String)
  | anon (s : String)
  deriving DecidableEq

inductive T
  | void | char | bool | int | fn
  | ptr (t : T)
  | arr (n : Nat) (t : T)
  | struct (s : Sid)
  deriving DecidableEq

/-- What has been declared: members of the complete structure types, type names, and tags. -/
structure Env where
  fields : Sid → Option (List (String × T))
  tydef : String → Option T
  tags : String → Bool

def Env.init : Env where
  fields := fun _ => none
  tydef := fun x =>
    if x = "void" then some .void else if x = "char" then some .char else if x = "int" then some .int
    else if x = "_Bool" then some .bool else none
  tags := fun _ => false

def Env.define (E : Env) (s : Sid) (fs : List (String × T)) : Env :=
  { E with fields := fun r => if r = s then some fs else E.fields r }
def Env.name (E : Env) (x : String) (t : T) : Env := { E with tydef := fun y => if y = x then some t else E.tydef y }
def Env.addTag (E : Env) (s : String) : Env := { E with tags := fun r => if r = s then true else E.tags r }

def pointers : Nat → T → T
  | 0, t => t
  | n + 1, t => .ptr (pointers n t)

def resolve (E : Env) : TSpec → Option T
  | .tag s => some (.struct (.tag s))
  | .name x => E.tydef x

/-- The type a declarator gives to its name. -/
def Declr.type (E : Env) (d : Declr) : Option T :=
  (resolve E d.spec).map fun t =>
    match d.form with
    | .plain => pointers d.ptrs t
    | .array n => .arr n (pointers d.ptrs t)
    | .unsized => .ptr (pointers d.ptrs t)
    | .func => .ptr .fn

mutual
/-- `sizeof`; incomplete types have none. -/
inductive HasSize (E : Env) : T → Nat → Prop
  | char : HasSize E .char 1
  | bool : HasSize E .bool 1
  | int : HasSize E .int 4
  | ptr (t : T) : HasSize E (.ptr t) 4
  | arr {t : T} {n k : Nat} (hn : 0 < n) (h : HasSize E t k) : HasSize E (.arr n t) (k * n)
  | struct {s : Sid} {fs : List (String × T)} {k : Nat} (hf : E.fields s = some fs) (h : Extent E fs k) : HasSize E (.struct s) k
/-- The sum of the sizes of members. -/
inductive Extent (E : Env) : List (String × T) → Nat → Prop
  | nil : Extent E [] 0
  | cons {f : String} {t : T} {fs : List (String × T)} {k m : Nat} (h : HasSize E t k) (r : Extent E fs m) :
      Extent E ((f, t) :: fs) (k + m)
end

/-- Member `g` of the list of members, of type `u`, is at offset `o`, when the first of them is at `a`. -/
inductive MemberAt (E : Env) : Nat → List (String × T) → String → Nat → T → Prop
  | here {a : Nat} {f : String} {t : T} {fs : List (String × T)} : MemberAt E a ((f, t) :: fs) f a t
  | there {a k o : Nat} {f g : String} {t u : T} {fs : List (String × T)} (hne : g ≠ f) (h : HasSize E t k)
      (r : MemberAt E (a + k) fs g o u) : MemberAt E a ((f, t) :: fs) g o u

/-! ### Declarations -/

/-- The members of a structure: at least one, with different names and complete types. -/
structure Members (E : Env) (ds : List Declr) (fs : List (String × T)) : Prop where
  types : ds.mapM (fun d => (d.type E).map fun t => (d.name, t)) = some fs
  some : fs ≠ []
  names : (fs.map (·.1)).Nodup
  complete : ∀ x ∈ fs, ∃ k, HasSize E x.2 k

/-- The declarations the language allows, and what they declare. -/
inductive Declares : Env → Decl → Env → Prop
  | struct {E : Env} {s : String} {ds : List Declr} {fs : List (String × T)} (hn : E.fields (.tag s) = none) (hm : Members E ds fs) :
      Declares E (.struct s ds) ((E.define (.tag s) fs).addTag s)
  | tagged {E : Env} {s x : String} {ds : List Declr} {fs : List (String × T)} (hn : E.fields (.tag s) = none) (hm : Members E ds fs)
      (hx : E.tydef x = none) : Declares E (.typedefStruct (some s) (some ds) x) (((E.define (.tag s) fs).addTag s).name x (.struct (.tag s)))
  | untagged {E : Env} {x : String} {ds : List Declr} {fs : List (String × T)} (hn : E.fields (.anon x) = none) (hm : Members E ds fs)
      (hx : E.tydef x = none) : Declares E (.typedefStruct none (some ds) x) ((E.define (.anon x) fs).name x (.struct (.anon x)))
  | forward {E : Env} {s x : String} (hx : E.tydef x = none) :
      Declares E (.typedefStruct (some s) none x) ((E.addTag s).name x (.struct (.tag s)))
  | enum {E : Env} {items : List (String × Option Int)} {x : String} (hx : E.tydef x = none) :
      Declares E (.typedefEnum items x) (E.name x .int)
  | alias {E : Env} {b x : String} {t : T} (hb : E.tydef b = some t) (hx : E.tydef x = none) :
      Declares E (.typedefName b x) (E.name x t)

/-- Names and tags are not empty. -/
def Decl.Named : Decl → Prop
  | .struct s _ => s ≠ ""
  | .typedefStruct s _ x => s ≠ some "" ∧ x ≠ ""
  | .typedefEnum _ x => x ≠ ""
  | .typedefName _ x => x ≠ ""

/-- A sequence of declarations. -/
inductive Program : List Decl → Env → Prop
  | nil : Program [] .init
  | snoc {ds : List Decl} {d : Decl} {E E' : Env} (h : Program ds E) (hn : d.Named) (hd : Declares E d E') : Program (ds ++ [d]) E'

/-- A name that is both a tag and a type name denotes that structure as a type name. -/
def Env.Apart (E : Env) : Prop := ∀ x t, E.tydef x = some t → E.tags x = true → t = .struct (.tag x)

/-- No type name is declared as another name of a type name for a structure. -/
def NoStructAlias (ds : List Decl) (E : Env) : Prop := ∀ b x, .typedefName b x ∈ ds → ∀ s, E.tydef x ≠ some (.struct s)

/-- The values of enumeration constants: one more than the one before, the first 0, unless given. -/
def enumValues : Int → List (String × Option Int) → List (String × Int)
  | _, [] => []
  | n, (x, v) :: r => (x, v.getD n) :: enumValues (v.getD n + 1) r

end CTypes
