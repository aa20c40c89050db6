import Verif.Spec.CTypes

/-!
# Model of type declarations (src/parser.c:520-604, 3217-3330, src/globals.c:385-420, 583-687)

The functions work on the declarations of `Spec/CTypes` instead of the token stream.  Memory from `malloc` that is read before it is
written (`TYPES`) is taken as zero.  Sizes are natural numbers: that they may exceed an `int` is not modelled, nor are the limits
`MAX_TYPES` and `MAX_FIELDS`, which the code does not check.
-/

namespace Shecc.Types
open CTypes (TSpec Form Declr Decl)

/-- `base_type_t` (src/defs.h:82-88). -/
inductive Base
  | void | int | char | struct | typedef
  deriving DecidableEq

/-- The fields of `var_t` that declarations set (src/defs.h:186-196). -/
structure Var where
  typeName : String
  name : String
  isPtr : Nat := 0
  isFunc : Bool := false
  arraySize : Nat := 0
  offset : Nat := 0
  deriving DecidableEq

/-- `type_t` (src/defs.h:301-308); `base_struct` is an index in the table. -/
structure Ty where
  name : String := ""
  base : Base := .void
  baseStruct : Option Nat := none
  size : Nat := 0
  fields : List Var := []
  deriving DecidableEq

/-- `TYPES` up to `types_idx`. -/
abbrev Table := List Ty

/-- The argument `flag` of `find_type`: 0, 1, 2. -/
inductive Flag
  | all | names | tags
  deriving DecidableEq

/-- The loop of `find_type` (src/globals.c:398-417) from index `i`. -/
def findFrom (x : String) (flag : Flag) : Nat → List Ty → Option Nat
  | _, [] => none
  | i, t :: ts =>
    if t.base = .struct then
      if flag = .names then findFrom x flag (i + 1) ts else if t.name = x then some i else findFrom x flag (i + 1) ts
    else
      if flag = .tags then findFrom x flag (i + 1) ts
      else if t.name = x then if t.base = .typedef ∧ t.size = 0 then t.baseStruct else some i
      else findFrom x flag (i + 1) ts

/-- `find_type` (src/globals.c:396-420); `none` is the null pointer. -/
def findType (T : Table) (x : String) (flag : Flag) : Option Nat := findFrom x flag 0 T

/-- `size_var` (src/globals.c:670-687); `none`: an error or a null pointer. -/
def sizeVar (T : Table) (v : Var) : Option Nat :=
  (if v.isPtr > 0 ∨ v.isFunc then some 4
   else
    (findType T v.typeName .all).bind fun i => T[i]?.bind fun t =>
      if t.size = 0 then t.baseStruct.bind fun j => T[j]?.map (·.size) else some t.size).map
    fun size => if v.arraySize > 0 then size * v.arraySize else size

def specName : TSpec → String
  | .tag s => s
  | .name s => s

/-- `read_full_var_decl` with `read_inner_var_decl` (src/parser.c:522-581): `struct` is skipped. -/
def readVar (d : Declr) : Var where
  typeName := specName d.spec
  name := d.name
  isPtr := match d.form with
    | .unsized => d.ptrs + 1
    | _ => d.ptrs
  isFunc := match d.form with
    | .func => true
    | _ => false
  arraySize := match d.form with
    | .array n => n
    | _ => 0

/-- The loop over the members (src/parser.c:3234-3240, 3287-3293): the members and the size. -/
def readFields (T : Table) : List Declr → Nat → Option (List Var × Nat)
  | [], size => some ([], size)
  | d :: ds, size =>
    (sizeVar T (readVar d)).bind fun k =>
      (readFields T ds (size + k)).map fun r => ({ readVar d with offset := size } :: r.1, r.2)

/-- `find_type(token, 2)`, or a new entry `e` (src/parser.c:3227-3232, 3275-3281): the table and the index. -/
def tagEntry (T : Table) (s : String) (e : Ty) : Table × Nat :=
  match findType T s .tags with
  | some i => (T, i)
  | none => (T ++ [e], T.length)

/-- `struct` (src/parser.c:3222-3245). -/
def declStruct (T : Table) (s : String) (ds : List Declr) : Option Table :=
  let r := tagEntry T s { name := s }
  (readFields r.1 ds 0).map fun q => r.1.modify r.2 fun e => { e with name := s, fields := q.1, size := q.2, base := .struct }

/-- `typedef struct` (src/parser.c:3265-3314). -/
def declTypedefStruct (T : Table) (tag : Option String) (body : Option (List Declr)) (x : String) : Option Table :=
  let i := T.length
  let T1 := T ++ [({} : Ty)]
  match tag, body with
  | none, none => none
  | none, some ds =>
    (readFields T1 ds 0).map fun q => T1.modify i fun _ => { name := x, base := .typedef, size := q.2, fields := q.1 }
  | some s, none =>
    let r := tagEntry T1 s { name := s, base := .struct }
    some (r.1.modify i fun _ => { name := x, base := .typedef, baseStruct := some r.2 })
  | some s, some ds =>
    let r := tagEntry T1 s { name := s, base := .struct }
    (readFields r.1 ds 0).map fun q =>
      (r.1.modify i fun _ => { name := x, base := .typedef, size := q.2, fields := q.1 }).modify r.2 fun _ =>
        { name := s, base := .struct, size := q.2, fields := q.1 }

/-- `typedef` of a name (src/parser.c:3316-3327). -/
def declTypedefName (T : Table) (b x : String) : Option Table :=
  (findType (T ++ [({} : Ty)]) b .names).bind fun j => T[j]?.map fun t => T ++ [{ name := x, base := t.base, size := t.size }]

/-- `read_global_statement` (src/parser.c:3217-3330) for declarations of types. -/
def declare (T : Table) : Decl → Option Table
  | .struct s ds => declStruct T s ds
  | .typedefStruct tag body x => declTypedefStruct T tag body x
  | .typedefEnum _ x => some (T ++ [{ name := x, base := .int, size := 4 }])
  | .typedefName b x => declTypedefName T b x

/-- The built-in types (src/parser.c:3337-3356). -/
def builtin : Table :=
  [{ name := "void" }, { name := "char", base := .char, size := 1 }, { name := "int", base := .int, size := 4 },
   { name := "_Bool", base := .char, size := 1 }]

def declares : Table → List Decl → Option Table
  | T, [] => some T
  | T, d :: ds => (declare T d).bind fun T' => declares T' ds

/-- `sizeof` (src/parser.c:848-875): the specifier and the number of asterisks. -/
def sizeofType (T : Table) (sp : TSpec) (p : Nat) : Option Nat :=
  (match sp with
   | .tag s => findType T s .tags
   | .name s => findType T s .names).bind fun (i : Nat) => T[i]?.map fun (t : Ty) => if p ≠ 0 then 4 else t.size

/-- `find_member` (src/globals.c:616-630): `i` is the type. -/
def findMember (T : Table) (f : String) (i : Nat) : Option Var :=
  T[i]?.bind fun t =>
    (if t.size = 0 then t.baseStruct.bind fun j => T[j]? else some t).bind fun t => t.fields.find? fun v => v.name = f

/-! ### Enumeration constants -/

/-- The loop over the constants (src/parser.c:3253-3260) with `add_constant` (src/globals.c:595-600): `val` is the next value;
values are given by `read_numeric_constant`, and wrap. -/
def readEnum : BitVec 32 → List (String × Option Int) → List (String × BitVec 32) → List (String × BitVec 32)
  | _, [], cs => cs
  | n, (x, v) :: r, cs =>
    let k := match v with
      | none => n
      | some v => BitVec.ofInt 32 v
    readEnum (k + 1) r (cs ++ [(x, k)])

/-- `find_constant` (src/globals.c:602-609). -/
def findConstant (cs : List (String × BitVec 32)) (x : String) : Option (BitVec 32) := (cs.find? fun c => c.1 = x).map (·.2)

end Shecc.Types
