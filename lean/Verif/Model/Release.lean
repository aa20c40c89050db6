import Verif.Model.Globals

/-!
# Model of the memory that `src/globals.c` allocates and releases

`global_init` (src/globals.c:898-927), `global_release` (929-955) and what allocates between them, at the level of single
blocks of memory.  The heap maps an address to the object that lives there.  A read, a write or a `free` of an address at
which nothing lives makes the result `none` (undefined behaviour); so does a loop that exceeds its fuel.

Simplified: only the pointers (and what decides which pointers are followed) are kept of each object; sizes and offsets
are natural numbers; `malloc` and `calloc` succeed.  `malloc` leaves the memory unspecified: `junk` is what is found there.
The allocator chooses any free address; it may use an address again after it has been freed.
-/

namespace Shecc.Release
open Globals (CStr hashmap_hash_index round_up_pow2 DEFAULT_ARENA_SIZE)

/-- An object on the heap.  `raw` holds no pointer that is followed. -/
inductive Obj where
  | raw
  | block (next : Nat)                            -- block_t, src/defs.h:237-245
  | arena (head : Nat)                            -- arena_t
  | ablock (memory cap off next : Nat)            -- arena_block_t, src/defs.h:70-75
  | map (size : CInt) (buckets : Nat)             -- hashmap_t
  | buckets (cell : CInt → Nat)                   -- hashmap_node_t *[]
  | node (key val next : Nat)                     -- hashmap_node_t
  | str (s : CStr)                                -- char[]
  | source (size cap elements : Nat)              -- source_t

abbrev Heap := Nat → Option Obj

/-- write an object -/
def put (h : Heap) (p : Nat) (o : Obj) : Heap := fun q => if q = p then some o else h q

/-- `free`: of NULL nothing happens; of an address where nothing lives: undefined. -/
def free (p : Nat) (h : Heap) : Option Heap :=
  if p = 0 then some h else match h p with
    | none => none
    | some _ => some fun q => if q = p then none else h q

/-- `malloc`/`calloc`: the `time`-th request finds the address `alloc time h`; what is found there: `junk time`. -/
structure Env where
  alloc : Nat → Heap → Nat
  junk : Nat → Nat
  sx : BitVec 8 → CInt       -- conversion of `char` to `int`

/-- The global variables of src/globals.c:13-70 that point to the heap. -/
structure Ptrs where
  head : Nat := 0            -- BLOCKS.head
  tail : Nat := 0            -- BLOCKS.tail
  macros : Nat := 0
  funcs : Nat := 0
  types : Nat := 0
  gir : Nat := 0
  pir : Nat := 0
  insns : Nat := 0
  bbs : Nat := 0
  flat : Nat := 0
  lut : Nat := 0
  source : Nat := 0
  aliases : Nat := 0
  consts : Nat := 0
  code : Nat := 0
  data : Nat := 0
  header : Nat := 0
  symtab : Nat := 0
  strtab : Nat := 0
  sect : Nat := 0

/-- heap and number of requests so far -/
structure St where
  h : Heap
  time : Nat

/-- `malloc`: address and state -/
def malloc (E : Env) (o : Obj) (s : St) : Nat × St :=
  (E.alloc s.time s.h, ⟨put s.h (E.alloc s.time s.h) o, s.time + 1⟩)

/-! ## Scopes -/

/-- `add_block`, src/globals.c:470-488.  The field `next` of the new block is not set. -/
def addBlock (E : Env) (G : Ptrs) (s : St) : Option (Ptrs × St) :=
  let r := malloc E (.block (E.junk s.time)) s
  if G.head = 0 then some ({ G with head := r.1, tail := r.1 }, r.2)
  else match r.2.h G.tail with
    | some (.block _) => some ({ G with tail := r.1 }, { r.2 with h := put r.2.h G.tail (.block r.1) })
    | _ => none

/-! ## Arenas -/

/-- `arena_block_create`, src/globals.c:83-105. -/
def arenaBlockCreate (E : Env) (cap : Nat) (s : St) : Nat × St :=
  let b := malloc E (.ablock 0 0 0 0) s
  let m := malloc E .raw b.2
  (b.1, { m.2 with h := put m.2.h b.1 (.ablock m.1 cap 0 0) })

/-- `arena_init`, src/globals.c:113-118. -/
def arenaInit (E : Env) (cap : Nat) (s : St) : Nat × St :=
  let a := malloc E (.arena 0) s
  let b := arenaBlockCreate E cap a.2
  (a.1, { b.2 with h := put b.2.h a.1 (.arena b.1) })

/-- The loop of `arena_alloc` and what follows it, src/globals.c:132-157. -/
def arenaWalk (E : Env) (size : Nat) : Nat → Nat → St → Option St
  | 0, _, _ => none
  | n + 1, b, s =>
    match s.h b with
    | some (.ablock m cap off next) =>
      if off + size ≤ cap then some { s with h := put s.h b (.ablock m cap (off + size) next) }
      else if next = 0 then
        let cap' := if size > DEFAULT_ARENA_SIZE then size else DEFAULT_ARENA_SIZE
        let c := arenaBlockCreate E cap' s
        let h := put c.2.h b (.ablock m cap off c.1)
        match h c.1 with
        | some (.ablock m' cap' off' next') => some { c.2 with h := put h c.1 (.ablock m' cap' (off' + size) next') }
        | _ => none
      else arenaWalk E size n next s
    | _ => none

/-- `arena_alloc`, src/globals.c:129-158. -/
def arenaAlloc (E : Env) (fuel arena size : Nat) (s : St) : Option St :=
  match s.h arena with
  | some (.arena b) => arenaWalk E size fuel b s
  | _ => none

/-- The loop of `arena_free`, src/globals.c:181-186. -/
def freeABlocks : Nat → Nat → Heap → Option Heap
  | 0, _, _ => none
  | n + 1, b, h =>
    if b = 0 then some h
    else match h b with
      | some (.ablock m _ _ next) => (free m h).bind fun h => (free b h).bind fun h => freeABlocks n next h
      | _ => none

/-- `arena_free`, src/globals.c:177-189. -/
def arenaFree (fuel arena : Nat) (h : Heap) : Option Heap :=
  match h arena with
  | some (.arena b) => (freeABlocks fuel b h).bind fun h => free arena h
  | _ => none

/-! ## Hash map -/

/-- `hashmap_create`, src/globals.c:233-257. -/
def mapCreate (E : Env) (size : CInt) (s : St) : Nat × St :=
  let m := malloc E (.map 0 0) s
  let b := malloc E (.buckets fun _ => 0) m.2
  (m.1, { b.2 with h := put b.2.h m.1 (.map (round_up_pow2 size) b.1) })

/-- The loop of `hashmap_get`, src/globals.c:338-340. -/
def chainFind (key : CStr) : Nat → Nat → Heap → Option Nat
  | 0, _, _ => none
  | n + 1, p, h =>
    if p = 0 then some 0
    else match h p with
      | some (.node k v next) =>
        match h k with
        | some (.str t) => if t = key then some v else chainFind key n next h
        | _ => none
      | _ => none

/-- `hashmap_get`, src/globals.c:331-343. -/
def mapGet (E : Env) (fuel map : Nat) (key : CStr) (h : Heap) : Option Nat :=
  match h map with
  | some (.map size b) =>
    match h b with
    | some (.buckets c) => chainFind key fuel (c (hashmap_hash_index E.sx size key)) h
    | _ => none
  | _ => none

/-- `hashmap_node_new`, src/globals.c:265-291. -/
def nodeNew (E : Env) (key : CStr) (val : Nat) (s : St) : Nat × St :=
  let n := malloc E (.node 0 0 0) s
  let k := malloc E (.str key) n.2
  (n.1, { k.2 with h := put k.2.h n.1 (.node k.1 val 0) })

/-- The loop of `hashmap_put` and what follows it, src/globals.c:313-315. -/
def chainPut (E : Env) (key : CStr) (val : Nat) : Nat → Nat → St → Option St
  | 0, _, _ => none
  | n + 1, p, s =>
    match s.h p with
    | some (.node k v next) =>
      if next = 0 then
        let r := nodeNew E key val s
        some { r.2 with h := put r.2.h p (.node k v r.1) }
      else chainPut E key val n next s
    | _ => none

/-- `hashmap_put`, src/globals.c:305-321. -/
def mapPut (E : Env) (fuel map : Nat) (key : CStr) (val : Nat) (s : St) : Option St :=
  match s.h map with
  | some (.map size b) =>
    match s.h b with
    | some (.buckets c) =>
      let index := hashmap_hash_index E.sx size key
      if c index = 0 then
        let r := nodeNew E key val s
        some { r.2 with h := put r.2.h b (.buckets fun i => if i = index then r.1 else c i) }
      else chainPut E key val fuel (c index) s
    | _ => none
  | _ => none

/-- The inner loop of `hashmap_free`, src/globals.c:368-374: `next` is taken before the node is freed, both the body and
the head of the loop set `cur` to it. -/
def freeChain : Nat → Nat → Heap → Option Heap
  | 0, _, _ => none
  | n + 1, p, h =>
    if p = 0 then some h
    else match h p with
      | some (.node k v next) =>
        (free k h).bind fun h => (free v h).bind fun h => (free p h).bind fun h => freeChain n next h
      | _ => none

/-- The outer loop of `hashmap_free`, src/globals.c:367-375.  `left`: `map->size - i` as long as it is positive. -/
def freeBuckets (fuel map : Nat) : Nat → Nat → Heap → Option Heap
  | 0, _, h => some h
  | left + 1, i, h =>
    match h map with
    | some (.map _ b) =>
      match h b with
      | some (.buckets c) => (freeChain fuel (c (BitVec.ofNat 32 i)) h).bind fun h => freeBuckets fuel map left (i + 1) h
      | _ => none
    | _ => none

/-- `hashmap_free`, src/globals.c:362-379. -/
def mapFree (fuel map : Nat) (h : Heap) : Option Heap :=
  if map = 0 then some h
  else match h map with
    | some (.map size b) =>
      (freeBuckets fuel map size.toInt.toNat 0 h).bind fun h => (free b h).bind fun h => free map h
    | _ => none

/-- `add_func`, src/globals.c:562-581; `strcpy` to and the store into the object are writes at its address. -/
def addFunc (E : Env) (fuel : Nat) (G : Ptrs) (name : CStr) (s : St) : Option St :=
  (mapGet E fuel G.funcs name s.h).bind fun fn =>
    if fn ≠ 0 then
      match s.h fn with
      | some .raw => some { s with h := put s.h fn .raw }
      | _ => none
    else
      let r := malloc E .raw s
      (mapPut E fuel G.funcs name r.1 r.2).bind fun s =>
        match s.h r.1 with
        | some .raw => some { s with h := put s.h r.1 .raw }
        | _ => none

/-! ## Source buffer -/

/-- `create_source`, src/globals.c:838-852. -/
def sourceCreate (E : Env) (cap : Nat) (s : St) : Nat × St :=
  let a := malloc E (.source 0 cap 0) s
  let e := malloc E .raw a.2
  (a.1, { e.2 with h := put e.2.h a.1 (.source 0 cap e.1) })

/-- `source_push` with `source_expand`, src/globals.c:854-884. -/
def sourcePush (E : Env) (src : Nat) (s : St) : Option St :=
  match s.h src with
  | some (.source size cap e) =>
    if size < cap then
      match s.h e with
      | some .raw => some { s with h := put s.h src (.source (size + 1) cap e) }
      | _ => none
    else
      let n := malloc E .raw s
      match n.2.h e with
      | some .raw =>
        (free e n.2.h).map fun h => { n.2 with h := put h src (.source (size + 1) (2 * cap) n.1) }
      | _ => none
  | _ => none

/-- `source_release`, src/globals.c:886-893. -/
def sourceRelease (src : Nat) (h : Heap) : Option Heap :=
  if src = 0 then some h
  else match h src with
    | some (.source _ _ e) => (free e h).bind fun h => free src h
    | _ => none

/-! ## Start and end -/

/-- `global_init`, src/globals.c:898-927.  `MAX_FUNCS` = 512, `MAX_SOURCE` = 524288 (src/defs.h:22,30). -/
def init (E : Env) (fuel : Nat) : Option (Ptrs × St) :=
  let macros := malloc E .raw ⟨fun _ => none, 0⟩
  let funcs := mapCreate E 512 macros.2
  let types := malloc E .raw funcs.2
  let gir := malloc E .raw types.2
  let pir := malloc E .raw gir.2
  let insns := arenaInit E DEFAULT_ARENA_SIZE pir.2
  let bbs := arenaInit E DEFAULT_ARENA_SIZE insns.2
  let flat := malloc E .raw bbs.2
  let lut := malloc E .raw flat.2
  let source := sourceCreate E 524288 lut.2
  let aliases := malloc E .raw source.2
  let consts := malloc E .raw aliases.2
  let code := malloc E .raw consts.2
  let data := malloc E .raw code.2
  let header := malloc E .raw data.2
  let symtab := malloc E .raw header.2
  let strtab := malloc E .raw symtab.2
  let sect := malloc E .raw strtab.2
  let G : Ptrs :=
    { macros := macros.1, funcs := funcs.1, types := types.1, gir := gir.1, pir := pir.1, insns := insns.1
      bbs := bbs.1, flat := flat.1, lut := lut.1, source := source.1, aliases := aliases.1, consts := consts.1
      code := code.1, data := data.1, header := header.1, symtab := symtab.1, strtab := strtab.1, sect := sect.1 }
  (addFunc E fuel G [] sect.2).map fun s => (G, s)

/-- The first loop of `global_release`, src/globals.c:931-935. -/
def freeBlocks : Nat → Nat → Heap → Option Heap
  | 0, _, _ => none
  | n + 1, p, h =>
    if p = 0 then some h
    else match h p with
      | some (.block next) => (free p h).bind fun h => freeBlocks n next h
      | _ => none

/-- `free` of each address in turn -/
def frees : List Nat → Heap → Option Heap
  | [], h => some h
  | p :: l, h => (free p h).bind fun h => frees l h

/-- `global_release`, src/globals.c:929-955. -/
def release (fuel : Nat) (G : Ptrs) (h : Heap) : Option Heap :=
  (freeBlocks fuel G.head h).bind fun h => (frees [G.macros] h).bind fun h => (mapFree fuel G.funcs h).bind fun h =>
    (frees [G.types, G.gir, G.pir] h).bind fun h => (arenaFree fuel G.insns h).bind fun h =>
      (arenaFree fuel G.bbs h).bind fun h => (frees [G.flat, G.lut] h).bind fun h =>
        (sourceRelease G.source h).bind fun h =>
          frees [G.aliases, G.consts, G.code, G.data, G.header, G.symtab, G.strtab, G.sect] h

/-- What the compiler does between: scopes, functions, instructions, basic blocks, bytes of code; and the objects that
it allocates and never releases (`fn_t`, `symbol_t`, `use_chain_t`, `ref_block_t`, `phi_operand_t` and the first blocks:
src/globals.c:692,791, src/parser.c:3371-3377, src/ssa.c:406,489,512,725). -/
inductive Cmd where
  | block
  | func (name : CStr)
  | insn (size : Nat)
  | bb (size : Nat)
  | push
  | leak

/-- globals, state and the addresses of the objects that nothing releases -/
structure World where
  G : Ptrs
  s : St
  leaked : List Nat

def exec (E : Env) (fuel : Nat) (w : World) : Cmd → Option World
  | .block => (addBlock E w.G w.s).map fun r => { w with G := r.1, s := r.2 }
  | .func name => (addFunc E fuel w.G name w.s).map fun s => { w with s := s }
  | .insn size => (arenaAlloc E fuel w.G.insns size w.s).map fun s => { w with s := s }
  | .bb size => (arenaAlloc E fuel w.G.bbs size w.s).map fun s => { w with s := s }
  | .push => (sourcePush E w.G.source w.s).map fun s => { w with s := s }
  | .leak => let r := malloc E .raw w.s
             some { w with s := r.2, leaked := r.1 :: w.leaked }

def execs (E : Env) (fuel : Nat) : List Cmd → World → Option World
  | [], w => some w
  | c :: cs, w => (exec E fuel w c).bind fun w => execs E fuel cs w

/-- A run: `global_init`, the commands. -/
def run (E : Env) (fuel : Nat) (cs : List Cmd) : Option World :=
  (init E fuel).bind fun r => execs E fuel cs ⟨r.1, r.2, []⟩

end Shecc.Release
