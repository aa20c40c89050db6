/-!
# Model of the control-flow analyses of src/ssa.c

Basic blocks are numbers.  A control-flow graph gives, per block, its successors in the order in which the code follows them
(`next`, `then_`, `else_`) and its predecessors in the order of the `prev` array, with empty slots left out.
-/

namespace Shecc.Cfg

/-- `basic_block_t` (src/defs.h:408-454), the fields the analyses read. -/
structure Block where
  next : Option Nat := none
  then_ : Option Nat := none
  else_ : Option Nat := none
  /-- the non-null entries of `prev` -/
  prev : List Nat := []

structure Graph where
  block : Nat → Block
  entry : Nat
  exit : Nat

/-- Order in which `bb_forward_traversal` follows successors (src/ssa.c:21-38). -/
def Graph.succs (g : Graph) (b : Nat) : List Nat :=
  (g.block b).next.toList ++ (g.block b).then_.toList ++ (g.block b).else_.toList

/-- Order in which `bb_backward_traversal` follows predecessors (src/ssa.c:51-62). -/
def Graph.preds (g : Graph) (b : Nat) : List Nat := (g.block b).prev

/-- The loop over the children in both traversals; `f` is the recursive call. State: visited blocks; result: visited blocks
and the blocks for which the post-order callback ran, in order. -/
def dfsAll (f : Nat → List Nat → Option (List Nat × List Nat)) : List Nat → List Nat → Option (List Nat × List Nat)
  | [], vis => some (vis, [])
  | c :: cs, vis =>
    if c ∈ vis then dfsAll f cs vis
    else
      match f c vis with
      | none => none
      | some (vis1, post1) =>
        match dfsAll f cs vis1 with
        | none => none
        | some (vis2, post2) => some (vis2, post1 ++ post2)

/-- `bb_forward_traversal` and `bb_backward_traversal` (src/ssa.c:9-66) with a post-order callback. `children` is
`Graph.succs` or `Graph.preds`.  The code keeps a counter per block and compares it with the function's; when a traversal
starts, all counters of blocks it can reach are one below the function's (they are 0 before the first), so "counter below" is
"not visited yet".  The first argument bounds the recursion depth. -/
def dfs (children : Nat → List Nat) : Nat → Nat → List Nat → Option (List Nat × List Nat)
  | 0, _, _ => none
  | n + 1, b, vis =>
    match dfsAll (dfs children n) (children b) (b :: vis) with
    | none => none
    | some (vis', post) => some (vis', post ++ [b])

/-- `bb_index_rpo` then `bb_reverse_index` (src/ssa.c:68-76), run in the order `post`: the first pass numbers the blocks from
0, the second replaces each number `i` by `bb_cnt - i`. -/
def rpoNumber (post : List Nat) (b : Nat) : Nat := post.length - post.idxOf b

/-- `bb_build_rpo` (src/ssa.c:78-97): insertion into the list that hangs off the entry block. -/
def insertRpo (rpo : Nat → Nat) (b : Nat) : List Nat → List Nat
  | [] => [b]
  | c :: cs => if rpo c < rpo b then c :: insertRpo rpo b cs else b :: c :: cs

/-- The third traversal (src/ssa.c:112-115): the `rpo_next` list after the entry. -/
def buildRpoTail (rpo : Nat → Nat) (entry : Nat) : List Nat → List Nat → List Nat
  | [], l => l
  | b :: bs, l => buildRpoTail rpo entry bs (if b = entry then l else insertRpo rpo b l)

/-- `build_rpo` (src/ssa.c:99-119) and `build_reversed_rpo` (src/ssa.c:1593-1614), for one function: the numbering, and the
list of blocks starting at the entry (or exit).  `n` bounds the recursion depth of the traversals. -/
def buildRpo (children : Nat → List Nat) (entry : Nat) (n : Nat) : Option ((Nat → Nat) × List Nat) :=
  match dfs children n entry [] with
  | none => none
  | some (_, post) => some (rpoNumber post, entry :: buildRpoTail (rpoNumber post) entry post [])

/-! ### Immediate dominators -/

/-- `intersect` (src/ssa.c:121-130), `reverse_intersect` (src/ssa.c:264-273).  The two inner loops are one step each here:
the comparison that decides which of them runs is the same.  `none`: null pointer or no progress; `n` bounds the steps. -/
def intersect (rpo : Nat → Nat) (idom : Nat → Option Nat) : Nat → Nat → Nat → Option Nat
  | 0, _, _ => none
  | n + 1, i, j =>
    if i = j then some i
    else if rpo i > rpo j then
      match idom i with
      | none => none
      | some i' => intersect rpo idom n i' j
    else if rpo j > rpo i then
      match idom j with
      | none => none
      | some j' => intersect rpo idom n i j'
    else none

/-- The second loop over the predecessors (src/ssa.c:164-171). -/
def mergePreds (rpo : Nat → Nat) (idom : Nat → Option Nat) (n : Nat) : List Nat → Nat → Option Nat
  | [], pred => some pred
  | p :: ps, pred =>
    if p = pred then mergePreds rpo idom n ps pred
    else
      match idom p with
      | none => mergePreds rpo idom n ps pred
      | some _ =>
        match intersect rpo idom n p pred with
        | none => none
        | some pred => mergePreds rpo idom n ps pred

/-- The new immediate dominator of a block (src/ssa.c:152-171); `none` if no predecessor has one yet (`pred` is then
uninitialised in the code). -/
def newIdom (rpo : Nat → Nat) (idom : Nat → Option Nat) (n : Nat) (preds : List Nat) : Option Nat :=
  match preds.find? (fun p => (idom p).isSome) with
  | none => none
  | some pred => mergePreds rpo idom n preds pred

/-- One pass of the loop (src/ssa.c:151-176, 285-310) over the blocks after the entry: the new map and `changed`. -/
def idomPass (rpo : Nat → Nat) (preds : Nat → List Nat) (n : Nat) :
    List Nat → (Nat → Option Nat) → Option ((Nat → Option Nat) × Bool)
  | [], idom => some (idom, false)
  | b :: bs, idom =>
    match newIdom rpo idom n (preds b) with
    | none => none
    | some p =>
      if idom b = some p then idomPass rpo preds n bs idom
      else
        match idomPass rpo preds n bs (fun x => if x = b then some p else idom x) with
        | none => none
        | some (idom', _) => some (idom', true)

/-- The `do … while (changed)` loop (src/ssa.c:148-177, 281-311); the last argument bounds the passes. -/
def idomLoop (rpo : Nat → Nat) (preds : Nat → List Nat) (n : Nat) (order : List Nat) :
    Nat → (Nat → Option Nat) → Option (Nat → Option Nat)
  | 0, _ => none
  | k + 1, idom =>
    match idomPass rpo preds n order idom with
    | none => none
    | some (idom', true) => idomLoop rpo preds n order k idom'
    | some (idom', false) => some idom'

/-- `build_idom` (src/ssa.c:143-180) for one function, and `build_r_idom` (src/ssa.c:275-313) with the exit as `entry` and the
successors (`next`, `else_`, `then_`) as `preds`. `order` is the list after the entry. -/
def buildIdom (rpo : Nat → Nat) (preds : Nat → List Nat) (entry : Nat) (order : List Nat) (n k : Nat) :
    Option (Nat → Option Nat) :=
  idomLoop rpo preds n order k (fun b => if b = entry then some entry else none)

/-! ### Dominance frontiers -/

/-- The inner loop of `bb_build_df` (src/ssa.c:238-242): the blocks whose frontier gets `bb`.  `none`: the chain ends in a
null pointer; `n` bounds the steps. -/
def dfWalk (idom : Nat → Option Nat) (stop : Option Nat) : Nat → Nat → Option (List Nat)
  | 0, _ => none
  | n + 1, curr =>
    if some curr = stop then some []
    else
      match idom curr with
      | none => none
      | some c => (dfWalk idom stop n c).map (curr :: ·)

/-- `bb_build_df` (src/ssa.c:225-244): for one block, the blocks whose frontier it is added to. -/
def bbDf (idom : Nat → Option Nat) (n : Nat) (bb : Nat) : List Nat → Option (List Nat)
  | [] => some []
  | p :: ps =>
    match dfWalk idom (idom bb) n p with
    | none => none
    | some l => (bbDf idom n bb ps).map (l ++ ·)

/-- `build_df` (src/ssa.c:246-258) and `build_rdf` (src/ssa.c:391-403): pairs (block, member of its frontier), visiting the
blocks in the order of the post-order callback. -/
def buildDf (idom : Nat → Option Nat) (preds : Nat → List Nat) (n : Nat) : List Nat → Option (List (Nat × Nat))
  | [] => some []
  | b :: bs =>
    match bbDf idom n b (preds b) with
    | none => none
    | some l => (buildDf idom preds n bs).map (l.map (·, b) ++ ·)

end Shecc.Cfg
