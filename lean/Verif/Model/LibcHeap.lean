import Verif.Model.LibcStr

/-!
# Model of `lib/c.c`: `malloc`, `calloc`, `free`, `__free_all`, `fgets`

A chunk header (`next`, `prev`, `size`, 12 bytes at the start of a mapping) is a record looked up by the address of the
chunk; pointers are natural numbers, 0 = `NULL`.  The bytes after the header belong to the user and are not part of this
model (a program that writes only inside its blocks does not change headers as long as blocks and headers are disjoint,
which is what C39 is about).  `mmap` is an oracle: its answers are a parameter.
-/

namespace Shecc.Libc

structure Chunk where
  next : Nat := 0
  prev : Nat := 0
  size : CInt := 0

/-- `__alloc_head`, `__alloc_tail`, `__freelist_head` and the headers, lib/c.c:498-500. -/
structure Heap where
  ch : Nat → Chunk := fun _ => {}
  alloc_head : Nat := 0
  alloc_tail : Nat := 0
  freelist_head : Nat := 0

def Heap.setNext (h : Heap) (c v : Nat) : Heap := { h with ch := fun x => if x = c then { h.ch c with next := v } else h.ch x }
def Heap.setPrev (h : Heap) (c v : Nat) : Heap := { h with ch := fun x => if x = c then { h.ch c with prev := v } else h.ch x }
def Heap.setSize (h : Heap) (c : Nat) (v : CInt) : Heap :=
  { h with ch := fun x => if x = c then { h.ch c with size := v } else h.ch x }

/-- `__align_up`, lib/c.c:492-496. -/
def align_up (size : CInt) : CInt := ((size - 1) ||| 4095#32) + 1

/-- `CHUNK_GET_SIZE`, lib/c.c:473. -/
def getSize (s : CInt) : CInt := s &&& 0xFFFFFFFE#32

/-- `IS_CHUNK_GET_FREED`, lib/c.c:474. -/
def isFreed (s : CInt) : Bool := s &&& 1#32 ≠ 0

/-- `sizeof(chunk_t)` -/
def hdr : Nat := 12

/-- creation of the two dummy nodes, lib/c.c:510-530; result: heap and the `mmap` requests (address, length) made -/
def initLists (h : Heap) (a1 a2 : Nat) : Heap × List (Nat × Nat) :=
  let (h, r1) : Heap × List (Nat × Nat) :=
    if h.alloc_head = 0 then
      ((({ h with alloc_head := a1, alloc_tail := a1 }.setNext a1 0).setPrev a1 0).setSize a1 0, [(a1, (align_up 12).toNat)])
    else (h, [])
  if h.freelist_head = 0 then
    ((({ h with freelist_head := a2 }.setNext a2 0).setPrev a2 0).setSize a2 (-1), r1 ++ [(a2, (align_up 12).toNat)])
  else (h, r1)

/-- the search for the best chunk, lib/c.c:542-558; result: `best_fit_chunk` -/
def search (ch : Nat → Chunk) (size : CInt) : Nat → Nat → Nat → CInt → Option Nat
  | 0, _, _, _ => none
  | fuel + 1, fh, best, bsize =>
    if (ch fh).next = 0 then some best
    else
      let s := getSize (ch fh).size
      if size.sle s ∧ best = 0 then search ch size fuel (ch fh).next fh s
      else if size.sle s ∧ best ≠ 0 ∧ s.slt bsize then search ch size fuel (ch fh).next fh s
      else search ch size fuel (ch fh).next best bsize

/-- removal of the chunk from the free list, lib/c.c:561-572 -/
def unlinkFree (h : Heap) (c : Nat) : Heap :=
  let h := if (h.ch c).prev ≠ 0 then h.setNext (h.ch c).prev (h.ch c).next else { h with freelist_head := (h.ch c).next }
  if (h.ch c).next ≠ 0 then h.setPrev (h.ch c).next (h.ch c).prev else h

/-- the end of `malloc`, lib/c.c:582-590: append to the allocated list -/
def appendAlloc (h : Heap) (c : Nat) : Heap :=
  let h := h.setNext h.alloc_tail c
  let h := h.setPrev c h.alloc_tail
  let h := { h with alloc_tail := c }
  let h := h.setNext c 0
  let h := h.setSize c (h.ch c).size
  h.setSize c (getSize (h.ch c).size)

/-- `malloc`, lib/c.c:502-591.  `a1 a2 a3`: the answers of `mmap`.  Result: heap, pointer, `mmap` requests made. -/
def malloc (fuel : Nat) (h : Heap) (size : CInt) (a1 a2 a3 : Nat) : Option (Heap × Nat × List (Nat × Nat)) :=
  if size.sle 0 then some (h, 0, [])
  else
    let (h, reqs) := initLists h a1 a2
    let best := if (h.ch h.freelist_head).next = 0 then some 0 else search h.ch size fuel h.freelist_head 0 0
    match best with
    | none => none
    | some c =>
      if c ≠ 0 then some (appendAlloc (unlinkFree h c) c, c + hdr, reqs)
      else
        let len := align_up (12#32 + size)
        some (appendAlloc (h.setSize a3 len) a3, a3 + hdr, reqs ++ [(a3, len.toNat)])

/-- `free`, lib/c.c:660-696.  `none`: double free detected, the program aborts. -/
def free (h : Heap) (ptr : Nat) : Option Heap :=
  if ptr = 0 then some h
  else
    let cur := ptr - hdr
    if isFreed (h.ch cur).size then none
    else
      let prev := (h.ch cur).prev
      let h := if (h.ch cur).prev ≠ 0 then h.setNext prev (h.ch cur).next else { h with alloc_head := (h.ch cur).next }
      let h := if (h.ch cur).next ≠ 0 then h.setPrev (h.ch cur).next (h.ch cur).prev
        else { h.setNext prev 0 with alloc_tail := prev }
      let h := h.setNext cur h.freelist_head
      let h := h.setPrev cur 0
      let h := h.setSize cur ((h.ch cur).size ||| 1#32)
      let h := h.setPrev h.freelist_head cur
      some { h with freelist_head := cur }

/-- one of the two loops of `__free_all`, lib/c.c:636-643 (`stopAtLast = true`: `while (cur->next)`) and 648-655
(`while (cur)`): the `munmap` requests (address, length).  The loop clears `next` and `prev` of chunks it has passed; this
is not modelled, as they are not read again. -/
def releaseLoop (ch : Nat → Chunk) (stopAtLast : Bool) : Nat → Nat → Option (List (Nat × Nat))
  | 0, _ => none
  | fuel + 1, cur =>
    if (if stopAtLast then (ch cur).next = 0 else cur = 0) then some []
    else (releaseLoop ch stopAtLast fuel (ch cur).next).map fun l => (cur, (getSize (ch cur).size).toNat) :: l

/-- `__free_all`, lib/c.c:626-658: the `munmap` requests made. -/
def free_all (fuel : Nat) (h : Heap) : Option (List (Nat × Nat)) :=
  if h.freelist_head = 0 ∧ h.alloc_head = 0 then some []
  else
    match releaseLoop h.ch true fuel h.freelist_head with
    | none => none
    | some l1 =>
      if (h.ch h.alloc_head).next ≠ 0 then (releaseLoop h.ch false fuel (h.ch h.alloc_head).next).map fun l2 => l1 ++ l2
      else some l1

/-! ## `calloc` -/

/-- `pi[i] = 0` -/
def zeroWord (m : Mem) (a : Nat) : Mem := upd (upd (upd (upd m a 0) (a + 1) 0) (a + 2) 0) (a + 3) 0

/-- the word loop, lib/c.c:610-611; `k` iterations left -/
def zeroWords (p : Nat) : Nat → Nat → Mem → Mem
  | 0, _, m => m
  | k + 1, i, m => zeroWords p k (i + 1) (zeroWord m (p + 4 * i))

/-- the byte loop, lib/c.c:613-614; `k = total - offset` -/
def zeroBytes (p : Nat) : Nat → Nat → Mem → Mem
  | 0, _, m => m
  | k + 1, offset, m => zeroBytes p k (offset + 1) (upd m (p + offset) 0)

/-- the memory after `calloc` got `p` from `malloc`, lib/c.c:593-617; `total = n * size` in `int` arithmetic -/
def callocZero (m : Mem) (p : Nat) (n size : CInt) : Mem :=
  let total := n * size
  let num_words := total.sshiftRight 2
  let offset := num_words <<< 2
  let m := zeroWords p num_words.toInt.toNat 0 m
  zeroBytes p (total.toInt - offset.toInt).toNat offset.toInt.toNat m

/-! ## `fgets` -/

/-- `fgetc`, lib/c.c:428-434: the next byte of the stream as an `int` (`buf` is zeroed, so zero-extended), -1 at the end -/
def fgetc (stream : List Byte) : CInt × List Byte :=
  match stream with
  | [] => (-1, [])
  | c :: rest => (c.setWidth 32, rest)

/-- the loop of `fgets`, lib/c.c:439-456; first argument: iterations left.  Result: is the return value non-NULL,
memory, rest of the stream -/
def fgetsLoop (str : Nat) : Nat → Nat → Mem → List Byte → Bool × Mem × List Byte
  | 0, i, m, s => (true, upd m (str + i) 0, s)
  | k + 1, i, m, s =>
    let c := (fgetc s).1
    let s := (fgetc s).2
    if c = -1 then if i = 0 then (false, m, s) else (true, upd m (str + i) 0, s)
    else
      let m := upd m (str + i) (c.setWidth 8)
      if c = 10 then (true, upd m (str + i + 1) 0, s) else fgetsLoop str k (i + 1) m s

/-- `fgets`, lib/c.c:436-459 -/
def fgets (m : Mem) (str : Nat) (n : Int) (s : List Byte) : Bool × Mem × List Byte := fgetsLoop str (n - 1).toNat 0 m s

end Shecc.Libc
