import Verif.Model.Ph2

/-!
# Model of `src/globals.c`: containers and symbol tables

C strings are lists of nonzero bytes.  Heap objects are indices; `malloc`/`calloc` succeed (on failure the code exits
or returns NULL).  Fixed-size arrays (`ALIASES`, `MACROS`, ...) have no bounds check in the code; they are lists here.
-/

namespace Shecc.Globals

abbrev CStr := List (BitVec 8)

/-! ## Hash map -/

/-- `hashmap_hash_index`, src/globals.c:199-211.  `sx` is the conversion of `char` to `int` of the host (signed on
x86, unsigned on ARM). -/
def hashLoop (sx : BitVec 8 → CInt) : CInt → CStr → CInt
  | hash, [] => hash
  | hash, ch :: key => hashLoop sx ((hash ^^^ sx ch) * 0x01000193) key

def hashmap_hash_index (sx : BitVec 8 → CInt) (size : CInt) (key : CStr) : CInt :=
  let hash := hashLoop sx 0x811c9dc5 key
  let mask := hash.sshiftRight 31
  ((hash ^^^ mask) - mask) &&& (size - 1)

/-- `round_up_pow2`, src/globals.c:213-223. -/
def round_up_pow2 (v : CInt) : CInt :=
  let v := v - 1
  let v := v ||| v.sshiftRight 1
  let v := v ||| v.sshiftRight 2
  let v := v ||| v.sshiftRight 4
  let v := v ||| v.sshiftRight 8
  let v := v ||| v.sshiftRight 16
  v + 1

/-- `hashmap_t`: size and buckets; a bucket is the chain of its nodes (key, val).  Values are pointers, 0 = NULL.
Reading a bucket outside `[0, size)` would be out of bounds; buckets are a function of the index and C27 proves that
indices are in range. -/
structure HashMap where
  size : CInt
  buckets : CInt → List (CStr × Nat)

/-- `hashmap_create`, src/globals.c:233-257. -/
def hashmap_create (size : CInt) : HashMap := ⟨round_up_pow2 size, fun _ => []⟩

/-- `hashmap_put`, src/globals.c:305-321: the new node goes to the end of the chain (first `if`: empty chain). -/
def hashmap_put (sx : BitVec 8 → CInt) (m : HashMap) (key : CStr) (val : Nat) : HashMap :=
  let index := hashmap_hash_index sx m.size key
  { m with buckets := fun i => if i = index then m.buckets index ++ [(key, val)] else m.buckets i }

/-- The search loop of `hashmap_get`, src/globals.c:338-342. -/
def chainGet (key : CStr) : List (CStr × Nat) → Nat
  | [] => 0
  | (k, v) :: rest => if k = key then v else chainGet key rest

/-- `hashmap_get`, src/globals.c:331-343. -/
def hashmap_get (sx : BitVec 8 → CInt) (m : HashMap) (key : CStr) : Nat :=
  chainGet key (m.buckets (hashmap_hash_index sx m.size key))

/-- `hashmap_contains`, src/globals.c:354-357. -/
def hashmap_contains (sx : BitVec 8 → CInt) (m : HashMap) (key : CStr) : Bool := hashmap_get sx m key != 0

/-! ## Function table -/

/-- The fields of `func_t` touched by `add_func`. -/
structure Func where
  name : CStr
  stackSize : Nat
  deriving DecidableEq, Repr

/-- `FUNCS_MAP` and the `func_t` objects; the object with pointer `p` (≥ 1) is `heap[p - 1]`. -/
structure FuncTable where
  map : HashMap
  heap : List Func

/-- `add_func`, src/globals.c:562-581; result: table and pointer. -/
def add_func (sx : BitVec 8 → CInt) (t : FuncTable) (name : CStr) : FuncTable × Nat :=
  if hashmap_contains sx t.map name then
    let fn := hashmap_get sx t.map name
    ({ t with heap := t.heap.modify (fn - 1) fun f => { f with stackSize := 4 } }, fn)
  else
    let fn := t.heap.length + 1
    ({ map := hashmap_put sx t.map name fn, heap := t.heap ++ [⟨name, 4⟩] }, fn)

/-- `find_func`, src/globals.c:611-614. -/
def find_func (sx : BitVec 8 → CInt) (t : FuncTable) (name : CStr) : Nat := hashmap_get sx t.map name

/-! ## Arena -/

def DEFAULT_ARENA_SIZE : Nat := 262144                     -- src/defs.h:46

/-- `arena_block_t`, src/defs.h:70-75. -/
structure ABlock where
  mem : Nat → BitVec 8
  capacity : Nat
  offset : Nat

/-- `arena_t`: the chain of blocks from `head`. -/
abbrev Arena := List ABlock

/-- `arena_block_create`, src/globals.c:83-105 (zeroed by `calloc`). -/
def arena_block_create (capacity : Nat) : ABlock := ⟨fun _ => 0, capacity, 0⟩

/-- `arena_init`, src/globals.c:113-118. -/
def arena_init (capacity : Nat) : Arena := [arena_block_create capacity]

/-- The test `block->offset + size <= block->capacity` in `int` arithmetic, src/globals.c:135. -/
def fits (b : ABlock) (size : Nat) : Bool :=
  (BitVec.ofNat 32 b.offset + BitVec.ofNat 32 size : CInt).sle (BitVec.ofNat 32 b.capacity)

/-- `arena_alloc`, src/globals.c:129-158.  Result: arena, and the pointer as (block number, offset). -/
def arena_alloc : Arena → Nat → Arena × (Nat × Nat)
  | [], size =>
    let new_capacity := if size > DEFAULT_ARENA_SIZE then size else DEFAULT_ARENA_SIZE
    ([{ arena_block_create new_capacity with offset := size }], (0, 0))
  | b :: rest, size =>
    if fits b size then ({ b with offset := b.offset + size } :: rest, (0, b.offset))
    else
      let (rest', (k, o)) := arena_alloc rest size
      (b :: rest', (k + 1, o))

/-- `arena_reset`, src/globals.c:164-172. -/
def arena_reset (a : Arena) : Arena := a.map fun b => { b with offset := 0 }

/-! ## Source buffer -/

/-- `source_t`, src/defs.h.  `elements` has `capacity` cells; `malloc` leaves them unspecified (`junk`). -/
structure Source where
  size : Nat
  capacity : Nat
  elements : List (BitVec 8)

/-- `create_source`, src/globals.c:838-852. -/
def create_source (junk : Nat → BitVec 8) (capacity : Nat) : Source :=
  ⟨0, capacity, (List.range capacity).map junk⟩

/-- `source_expand`, src/globals.c:854-870.  `memcpy` copies the first `size` cells. -/
def source_expand (junk : Nat → BitVec 8) (s : Source) : Source :=
  if s.size < s.capacity then s
  else
    let capacity := s.capacity * 2
    { s with
      capacity := capacity
      elements := s.elements.take s.size ++ ((List.range capacity).map junk).drop s.size }

/-- `source_push`, src/globals.c:872-881. -/
def source_push (junk : Nat → BitVec 8) (s : Source) (value : BitVec 8) : Source :=
  let s := source_expand junk s
  { s with elements := s.elements.set s.size value, size := s.size + 1 }

/-! ## Aliases (object-like macros) and function-like macros -/

/-- `alias_t` / the relevant part of `macro_t`. -/
structure Alias where
  alias : CStr
  value : CStr
  disabled : Bool
  deriving DecidableEq, Repr

/-- `add_alias`, src/globals.c:489-495 (and `add_macro`, 517-523). -/
def add_alias (l : List Alias) (alias value : CStr) : List Alias := l ++ [⟨alias, value, false⟩]

/-- `find_alias`, src/globals.c:497-504 (and `find_macro`, 525-532). -/
def find_alias : List Alias → CStr → Option CStr
  | [], _ => none
  | a :: rest, alias => if !a.disabled && alias == a.alias then some a.value else find_alias rest alias

/-- `remove_alias`, src/globals.c:506-515 (and `remove_macro`, 534-543). -/
def remove_alias : List Alias → CStr → List Alias × Bool
  | [], _ => ([], false)
  | a :: rest, alias =>
    if !a.disabled && alias == a.alias then ({ a with disabled := true } :: rest, true)
    else
      let (r, b) := remove_alias rest alias
      (a :: r, b)

/-! ## Variables and scopes -/

/-- A declared variable: name and identity of the `var_t`. -/
structure Decl where
  name : CStr
  id : Nat
  deriving DecidableEq, Repr

/-- The loop over `block->locals[0 .. next_local)` (and over parameters / globals): first match. -/
def findIn : List Decl → CStr → Option Decl
  | [], _ => none
  | d :: rest, token => if d.name = token then some d else findIn rest token

/-- `find_local_var`, src/globals.c:631-649.  `scope` = the locals of the block and of its ancestors, innermost first;
`params` = parameters of the block's function (`[]` if it has none). -/
def find_local_var (token : CStr) : (scope : List (List Decl)) → (params : List Decl) → Option Decl
  | [], params => findIn params token
  | b :: rest, params =>
    match findIn b token with
    | some d => some d
    | none => find_local_var token rest params

/-- `find_global_var`, src/globals.c:651-660. -/
def find_global_var (token : CStr) (globals : List Decl) : Option Decl := findIn globals token

/-- `find_var`, src/globals.c:662-668. -/
def find_var (token : CStr) (scope : List (List Decl)) (params globals : List Decl) : Option Decl :=
  match find_local_var token scope params with
  | some d => some d
  | none => find_global_var token globals

end Shecc.Globals
