import Verif.Model.Cfg
import Verif.Spec.CRename

/-!
# Model of the construction of SSA form (src/ssa.c:182-227, 452-875)

Variables are numbers; a renamed variable is a pair of the variable (`base`) and its subscript, or `none` for variables that are
not renamed.  The phi instructions of a block, which always stand at its head, are kept apart from its other instructions.  The
fixed-size arrays (`work_list`, `stack`, `subscripts`, `dom_next`) are unbounded here.  The type of instructions is the one of
`Spec/CRename`.
-/

namespace Shecc.SsaBuild
open Shecc.Cfg
open CRename (Ins)

abbrev Name := Nat × Option Nat

/-- What the passes read of a function: the control-flow graph, the code (`insn_list`), the parameters, and flags of the
variables: `is_global`, `is_func`, `is_ternary_ret || is_logical_ret`, `var_check_in_scope` and membership in a block's
`symbol_list`. -/
structure Fn where
  g : Graph
  code : Nat → List (Ins Nat)
  params : List Nat
  isGlobal : Nat → Bool
  isFunc : Nat → Bool
  isJoin : Nat → Bool
  inScope : Nat → Nat → Bool
  isDecl : Nat → Nat → Bool

def upd {α : Type} (f : Nat → α) (k : Nat) (x : α) : Nat → α := fun j => if j = k then x else f j

/-! ### `build_dom` -/

/-- State: `dom_next` and `dom_prev`. -/
structure Tree where
  next : Nat → List Nat
  prev : Nat → Option Nat

/-- `dom_connect` (src/ssa.c:182-203). -/
def domConnect (t : Tree) (pred succ : Nat) : Option Tree :=
  if (t.prev succ).isSome then none
  else if succ ∈ t.next pred then none
  else some ⟨upd t.next pred (t.next pred ++ [succ]), upd t.prev succ (some pred)⟩

/-- `bb_build_dom` (src/ssa.c:205-213); `none`: null pointer; the first argument bounds the steps. -/
def bbBuildDom (idom : Nat → Option Nat) (entry : Nat) : Nat → Nat → Tree → Option Tree
  | 0, _, _ => none
  | n + 1, curr, t =>
    if curr = entry then some t
    else
      match idom curr with
      | none => none
      | some d =>
        match domConnect t d curr with
        | none => some t
        | some t' => bbBuildDom idom entry n d t'

/-- `build_dom` (src/ssa.c:215-227) for one function, over the blocks in the order of the traversal. -/
def buildDom (idom : Nat → Option Nat) (entry : Nat) (n : Nat) : List Nat → Tree → Option Tree
  | [], t => some t
  | b :: bs, t =>
    match bbBuildDom idom entry n b t with
    | none => none
    | some t' => buildDom idom entry n bs t'

/-! ### `solve_globals` -/

/-- The loop of `bb_solve_globals` (src/ssa.c:525-541): `live_kill`, `global_sym_list`. -/
def scanBlock : List (Ins Nat) → List Nat → List Nat → List Nat
  | [], _, gl => gl
  | i :: is, kill, gl =>
    let add := fun (gl : List Nat) (x : Option Nat) =>
      match x with
      | none => gl
      | some v => if v ∈ kill then gl else if v ∈ gl then gl else gl ++ [v]
    let gl := add (add gl i.rs1) i.rs2
    scanBlock is (kill ++ i.rd.toList) gl

/-- `solve_globals` (src/ssa.c:543-555) for one function, over the blocks in the order of the callback: `global_sym_list`. -/
def solveGlobals (f : Fn) : List Nat → List Nat → List Nat
  | [], gl => gl
  | b :: bs, gl => solveGlobals f bs (scanBlock (f.code b) [] gl)

/-- `ref_block_list` of a variable (src/ssa.c:476-497, 538): the blocks that assign it, in the order of the callback. -/
def refBlocks (f : Fn) (order : List Nat) (v : Nat) : List Nat := order.filter fun b => (f.code b).any fun i => i.rd == some v

/-! ### `solve_phi_insertion` -/

/-- The conditions under which a phi is inserted (src/ssa.c:624-642). -/
def allowed (f : Fn) (v b : Nat) : Bool := f.inScope v b && !f.isDecl v b && !(b == f.g.exit) && !f.isGlobal v

/-- The loop over the frontier of one block (src/ssa.c:622-665) with `insert_phi_insn` (src/ssa.c:578-605): the phi variables of
the blocks, and the work list. -/
def frontierLoop (f : Fn) (v : Nat) : List Nat → (Nat → List Nat) → List Nat → (Nat → List Nat) × List Nat
  | [], phi, wl => (phi, wl)
  | b :: bs, phi, wl =>
    if allowed f v b then
      if v ∈ phi b then frontierLoop f v bs phi wl
      else
        let phi := upd phi b (v :: phi b)
        if f.isJoin v then frontierLoop f v bs phi wl
        else frontierLoop f v bs phi (if b ∈ wl then wl else wl ++ [b])
    else frontierLoop f v bs phi wl

/-- The loop over the work list (src/ssa.c:616-666), from index `i`; `none` if the bound on the steps is reached. -/
def workLoop (f : Fn) (df : Nat → List Nat) (v : Nat) : Nat → Nat → (Nat → List Nat) → List Nat → Option (Nat → List Nat)
  | 0, _, _, _ => none
  | n + 1, i, phi, wl =>
    match wl[i]? with
    | none => some phi
    | some b =>
      let r := frontierLoop f v (df b) phi wl
      workLoop f df v n (i + 1) r.1 r.2

/-- `solve_phi_insertion` (src/ssa.c:607-669) for one function. -/
def insertPhis (f : Fn) (df : Nat → List Nat) (order : List Nat) (n : Nat) : List Nat → (Nat → List Nat) → Option (Nat → List Nat)
  | [], phi => some phi
  | v :: vs, phi =>
    match workLoop f df v n 0 phi (refBlocks f order v) with
    | none => none
    | some phi' => insertPhis f df order n vs phi'

/-! ### `solve_phi_params` -/

/-- `rename.counter` and `rename.stack` of the variables, top of the stack first. -/
structure Ren where
  counter : Nat → Nat
  stack : Nat → List Nat

/-- A phi instruction: its variable, the subscript of `rd` once renamed, and the operands (block, subscript). -/
structure Phi where
  var : Nat
  sub : Option Nat := none
  ops : List (Nat × Nat) := []

structure St where
  ren : Ren
  phi : Nat → List Phi
  code : Nat → List (Ins Name)

/-- Push a fresh subscript. -/
def Ren.push (R : Ren) (v : Nat) : Ren := ⟨upd R.counter v (R.counter v + 1), upd R.stack v (R.counter v :: R.stack v)⟩

/-- `new_name` (src/ssa.c:673-690). -/
def newName (f : Fn) (v : Nat) (R : Ren) : Name × Ren :=
  if f.isGlobal v then ((v, none), R) else ((v, some (R.counter v)), R.push v)

/-- `rename_var` with `get_stack_top_subscript_var` (src/ssa.c:692-714); `none`: the error `Index is less than 1`. -/
def renameVar (f : Fn) (R : Ren) (v : Nat) : Option Name :=
  if f.isGlobal v then some (v, none)
  else
    match R.stack v with
    | [] => none
    | k :: _ => some (v, some k)

/-- `pop_name` (src/ssa.c:716-721). -/
def popName (f : Fn) (v : Nat) (R : Ren) : Ren := if f.isGlobal v then R else ⟨R.counter, upd R.stack v (R.stack v).tail⟩

def renOpt (f : Fn) (R : Ren) : Option Nat → Option (Option Name)
  | none => some none
  | some v => (renameVar f R v).map some

/-- The second operand is not renamed if it is a function (src/ssa.c:746-748). -/
def renOpt2 (f : Fn) (R : Ren) : Option Nat → Option (Option Name)
  | none => some none
  | some v => if f.isFunc v then some (some (v, none)) else (renameVar f R v).map some

def newOpt (f : Fn) (R : Ren) : Option Nat → Option Name × Ren
  | none => (none, R)
  | some v => (some (newName f v R).1, (newName f v R).2)

/-- One instruction that is not a phi (src/ssa.c:744-750). -/
def renIns (f : Fn) (i : Ins Nat) (R : Ren) : Option (Ins Name × Ren) :=
  match renOpt f R i.rs1, renOpt2 f R i.rs2 with
  | some a, some b =>
    some ({ op := i.op, rd := (newOpt f R i.rd).1, rs1 := a, rs2 := b, sz := i.sz, str := i.str }, (newOpt f R i.rd).2)
  | _, _ => none

def renBody (f : Fn) : List (Ins Nat) → Ren → Option (List (Ins Name) × Ren)
  | [], R => some ([], R)
  | i :: is, R =>
    match renIns f i R with
    | none => none
    | some (j, R1) =>
      match renBody f is R1 with
      | none => none
      | some (js, R2) => some (j :: js, R2)

/-- The phis of a block get new names (src/ssa.c:741-742). -/
def renPhis (f : Fn) : List Phi → Ren → List Phi × Ren
  | [], R => ([], R)
  | p :: ps, R =>
    let q := newName f p.var R
    ({ p with sub := q.1.2 } :: (renPhis f ps q.2).1, (renPhis f ps q.2).2)

/-- `append_phi_operand` (src/ssa.c:723-736) for the phis of one successor (src/ssa.c:754-775). -/
def addOps (b : Nat) (R : Ren) : List Phi → Option (List Phi)
  | [] => some []
  | p :: ps =>
    match R.stack p.var, addOps b R ps with
    | k :: _, some qs => some ({ p with ops := p.ops ++ [(b, k)] } :: qs)
    | _, _ => none

def addOpsAll (b : Nat) (R : Ren) : List Nat → (Nat → List Phi) → Option (Nat → List Phi)
  | [], phi => some phi
  | c :: cs, phi =>
    match addOps b R (phi c) with
    | none => none
    | some ps => addOpsAll b R cs (upd phi c ps)

/-- The last loop of `bb_solve_phi_params` (src/ssa.c:783-788). -/
def popAll (f : Fn) (vs : List Nat) (R : Ren) : Ren := vs.foldl (fun R v => popName f v R) R

/-- The variables a block pushes: phi targets and `rd`s, in order. -/
def pushed (f : Fn) (phis : List Phi) (b : Nat) : List Nat := phis.map (·.var) ++ (f.code b).filterMap (·.rd)

/-- The loop over `dom_next` (src/ssa.c:777-781). -/
def solveAll (g : Nat → St → Option St) : List Nat → St → Option St
  | [], S => some S
  | c :: cs, S =>
    match g c S with
    | none => none
    | some S' => solveAll g cs S'

/-- `bb_solve_phi_params` (src/ssa.c:738-789); `kids` is `dom_next`; the first argument bounds the recursion depth. -/
def solve (f : Fn) (kids : Nat → List Nat) : Nat → Nat → St → Option St
  | 0, _, _ => none
  | n + 1, b, S =>
    let p := renPhis f (S.phi b) S.ren
    match renBody f (f.code b) p.2 with
    | none => none
    | some (js, R) =>
      match addOpsAll b R (f.g.succs b) (upd S.phi b p.1) with
      | none => none
      | some phi =>
        match solveAll (solve f kids n) (kids b) ⟨R, phi, upd S.code b js⟩ with
        | none => none
        | some S' => some { S' with ren := popAll f (pushed f (S.phi b) b) S'.ren }

/-- `solve_phi_params` (src/ssa.c:791-809) for one function: the parameters get their first names, then the entry block is
processed. -/
def solveParams (f : Fn) (kids : Nat → List Nat) (n : Nat) (phis : Nat → List Nat) : Option St :=
  solve f kids n f.g.entry
    ⟨f.params.foldl Ren.push ⟨fun _ => 0, fun _ => []⟩, fun b => (phis b).map fun v => { var := v }, fun _ => []⟩

/-! ### `unwind_phi` -/

/-- `append_unwound_phi_insn` (src/ssa.c:811-839). -/
def insertCopy (l : List (Ins Name)) (c : Ins Name) : List (Ins Name) :=
  match l.getLast? with
  | some i => if i.op = .branch then l.dropLast ++ [c, i] else l ++ [c]
  | none => [c]

/-- The copies of one phi (src/ssa.c:850-852). -/
def unwindPhi (p : Phi) : List (Nat × Nat) → (Nat → List (Ins Name)) → Nat → List (Ins Name)
  | [], code => code
  | (b, k) :: ops, code =>
    unwindPhi p ops (upd code b (insertCopy (code b) { op := .unwound_phi, rd := some (p.var, p.sub), rs1 := some (p.var, some k) }))

def unwindPhis : List Phi → (Nat → List (Ins Name)) → Nat → List (Ins Name)
  | [], code => code
  | p :: ps, code => unwindPhis ps (unwindPhi p p.ops code)

/-- `unwind_phi` (src/ssa.c:841-875) for one function, over the blocks in the order of the traversal. -/
def unwind (phi : Nat → List Phi) : List Nat → (Nat → List (Ins Name)) → Nat → List (Ins Name)
  | [], code => code
  | b :: bs, code => unwind phi bs (unwindPhis (phi b) code)

/-! ### `ssa_build` -/

/-- The frontier of a block, in the order of the `DF` array. -/
def frontier (df : List (Nat × Nat)) (q : Nat) : List Nat := (df.filter fun x => x.1 == q).map (·.2)

/-- `ssa_build` (src/ssa.c:1198-1218) for one function: the state after renaming and the code after unwinding.  `n` bounds the
steps of every loop.  The blocks in the order of the preorder callback are the visited ones, oldest first. -/
def ssaBuild (f : Fn) (n : Nat) : Option (St × (Nat → List (Ins Name))) :=
  match dfs f.g.succs n f.g.entry [], buildRpo f.g.succs f.g.entry n with
  | some (vis, post), some (rpo, l) =>
    match buildIdom rpo f.g.preds f.g.entry l.tail n n with
    | none => none
    | some idom =>
      match buildDom idom f.g.entry n vis.reverse ⟨fun _ => [], fun _ => none⟩, buildDf idom f.g.preds n post with
      | some t, some df =>
        match insertPhis f (frontier df) post n (solveGlobals f post []) (fun _ => []) with
        | none => none
        | some phis =>
          match solveParams f t.next n phis with
          | none => none
          | some S => some (S, unwind S.phi vis.reverse S.code)
      | _, _ => none
  | _, _ => none

end Shecc.SsaBuild
