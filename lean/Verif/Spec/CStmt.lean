import Verif.Spec.CRename

/-!
# Specification: statements and their meaning

Statement and expression trees, as the grammar of C shapes them, and their execution.  Operands without control flow are given by
the instructions that compute them; `&&`, `||`, `?:` and the control statements have their meaning from the C standard.  The
variables that hold intermediate truth values are part of the tree.  The state and the instructions are those of `Spec/CRename`.
-/

namespace CStmt
open CRename
open Shecc.Ssa (Op1)

/-- Variables for the result of one `&&` or `||`: holding 1, holding 0, and the result. -/
structure Tmp where
  one : Nat
  zero : Nat
  res : Nat

mutual
/-- Expressions. `comp`: the operands are evaluated in order, then `code` computes the value into the variable `res`; `se` are the
side effects due at the next sequence point (postfix `++` and `--`).  `logic`: operands joined by `&&` and `||`. -/
inductive Expr
  | comp (args : Exprs) (code : List (Ins Nat)) (res : Nat) (se : List (Ins Nat))
  | logic (g : Ors) (tmp : Nat → Tmp)
  | tern (c a b : Expr) (t : Nat)
inductive Exprs
  | nil
  | cons (e : Expr) (es : Exprs)
/-- `||` of one or more groups. -/
inductive Ors
  | one (a : Ands)
  | more (a : Ands) (r : Ors)
/-- `&&` of one or more operands. -/
inductive Ands
  | one (e : Expr)
  | more (e : Expr) (r : Ands)
end

/-- Whether a group has an operator. -/
def Ands.multi : Ands → Bool
  | .one _ => false
  | .more _ _ => true

/-- The number of groups with an operator. -/
def Ors.multis : Ors → Nat
  | .one a => if a.multi then 1 else 0
  | .more a r => (if a.multi then 1 else 0) + r.multis

mutual
/-- The variable that holds the value of an expression. -/
def Expr.res : Expr → Nat
  | .comp _ _ v _ => v
  | .logic g tmp => g.res tmp
  | .tern _ _ _ t => t
def Ors.res : Ors → (Nat → Tmp) → Nat
  | .one a, tmp => a.res (tmp 0)
  | .more a r, tmp => (tmp ((Ors.more a r).multis)).res
def Ands.res : Ands → Tmp → Nat
  | .one e, _ => e.res
  | .more _ _, t => t.res
end

def constIns (d k : Nat) : Ins Nat := { op := .load_constant, rd := some d, sz := k }
def moveIns (d a : Nat) : Ins Nat := { op := .assign, rd := some d, rs1 := some a }

/-- Put a truth value into a variable. -/
def setBool (t : Tmp) (b : Bool) : List (Ins Nat) :=
  if b then [constIns t.one 1, moveIns t.res t.one] else [constIns t.zero 0, moveIns t.res t.zero]

variable (M : Mach) (H : Home Nat)

abbrev S := State M Nat

def truth (s : S M) (v : Nat) : Bool := decide (rd M H s v ≠ 0)

mutual
/-- Evaluate: the state afterwards and the side effects still due.  `none`: undefined behaviour. -/
def eval : Expr → S M → Option (S M × List (Ins Nat))
  | .comp args code _ se, s =>
    (evals args s).bind fun r => (run M H code r.1).map fun s' => (s', r.2 ++ se)
  | .logic g tmp, s =>
    match g with
    | .one (.one e) => eval e s
    | .one (.more e r) =>
      (evalAnds (.more e r) s).bind fun r => (run M H (setBool (tmp 0) r.2) r.1).map fun s' => (s', [])
    | .more a r =>
      (evalOrs (.more a r) tmp 0 s).bind fun x =>
        (run M H (setBool (tmp (Ors.more a r).multis) x.2) x.1).map fun s' => (s', [])
  | .tern c a b t, s =>
    (eval c s).bind fun r => (run M H r.2 r.1).bind fun s1 =>
      if truth M H r.1 c.res then
        (eval a s1).bind fun q => (run M H (moveIns t a.res :: q.2) q.1).map fun s' => (s', [])
      else (eval b s1).bind fun q => (run M H (moveIns t b.res :: q.2) q.1).map fun s' => (s', [])
def evals : Exprs → S M → Option (S M × List (Ins Nat))
  | .nil, s => some (s, [])
  | .cons e es, s => (eval e s).bind fun r => (evals es r.1).map fun q => (q.1, r.2 ++ q.2)
/-- Evaluate operands from left to right until one is zero: the truth value. -/
def evalAnds : Ands → S M → Option (S M × Bool)
  | .one e, s => (eval e s).bind fun r => (run M H r.2 r.1).map fun s' => (s', truth M H r.1 e.res)
  | .more e r, s =>
    (eval e s).bind fun q => (run M H q.2 q.1).bind fun s' => if truth M H q.1 e.res then evalAnds r s' else some (s', false)
/-- Evaluate groups from left to right until one is not zero: the truth value. The result of a group with operators is put into
its variable. -/
def evalOrs : Ors → (Nat → Tmp) → Nat → S M → Option (S M × Bool)
  | .one a, tmp, i, s =>
    (evalAnds a s).bind fun q => (if a.multi then run M H (setBool (tmp i) q.2) q.1 else some q.1).map fun s' => (s', q.2)
  | .more a r, tmp, i, s =>
    (evalAnds a s).bind fun q => (if a.multi then run M H (setBool (tmp i) q.2) q.1 else some q.1).bind fun s' =>
      if q.2 then some (s', true) else evalOrs r tmp (if a.multi then i + 1 else i) s'
end

/-- Evaluate a full expression: side effects are complete at its end. -/
def full (e : Expr) (s : S M) : Option (S M) := (eval M H e s).bind fun r => run M H r.2 r.1

/-- Evaluate a controlling expression: the state and its truth value. -/
def test (e : Expr) (s : S M) : Option (S M × Bool) :=
  (eval M H e s).bind fun r => (run M H r.2 r.1).map fun s' => (s', truth M H r.1 e.res)

/-! ### Statements -/

/-- A case label: its value, and the variables for the value and the result of the comparison. -/
structure Label where
  val : Nat
  k : Nat
  t : Nat

mutual
inductive Stmt
  | expr (e : Expr)
  | empty
  | block (ss : Stmts)
  | ret (e : Option Expr)
  | ite (c : Expr) (t : Stmt)
  | iteElse (c : Expr) (t e : Stmt)
  | while_ (c : Expr) (b : Stmt)
  | doWhile (b : Stmt) (c : Expr)
  /-- `one`: the variable for the value 1 of an absent condition -/
  | for_ (init c : Option Expr) (one : Nat) (inc : Option Expr) (b : Stmt)
  | switch_ (e : Expr) (cs : Cases)
  | brk
  | cont
inductive Stmts
  | nil
  | cons (s : Stmt) (ss : Stmts)
/-- The groups of a `switch`: a label (`none`: `default`) and the statements up to the next label. -/
inductive Cases
  | nil
  | cons (l : Option Label) (b : Stmts) (r : Cases)
end

inductive Out
  | normal | brk | cont | ret
  deriving DecidableEq

/-- `timeout`: the bound on the iterations of a loop was reached; `undef`: undefined behaviour. -/
inductive Res (α : Type)
  | timeout
  | undef
  | ok (o : Out) (s : α)

inductive Turn (α : Type)
  | again (s : α)
  | done (r : Res α)

/-- At most `n` turns of a loop. -/
def iter {α : Type} (f : α → Turn α) : Nat → α → Res α
  | 0, _ => .timeout
  | n + 1, s =>
    match f s with
    | .again s' => iter f n s'
    | .done r => r

/-- What an iteration's body means for the loop: `k` continues it. -/
def bodyTurn {α : Type} (k : α → Turn α) : Res α → Turn α
  | .timeout => .done .timeout
  | .undef => .done .undef
  | .ok .normal s | .ok .cont s => k s
  | .ok .brk s => .done (.ok .normal s)
  | .ok .ret s => .done (.ok .ret s)

/-- Sequencing. -/
def Res.andThen {α : Type} (r : Res α) (k : α → Res α) : Res α :=
  match r with
  | .ok .normal s => k s
  | r => r

def Res.ofOpt {α : Type} (o : Out) : Option α → Res α
  | none => .undef
  | some s => .ok o s

/-- The comparison of a case label with the value in `v`. -/
def Label.code (l : Label) (v : Nat) : List (Ins Nat) :=
  [constIns l.k l.val, { op := .alu .eq, rd := some l.t, rs1 := some l.k, rs2 := some v }]

/-- The group a value selects: the one with its label, else `default`. -/
def pick (x : Word) : Cases → Option Nat
  | .nil => none
  | .cons none _ r =>
    match pick x r with
    | some j => some (j + 1)
    | none => some 0
  | .cons (some l) _ r => if BitVec.ofNat 32 l.val = x then some 0 else (pick x r).map (· + 1)

/-- The state after the comparisons made on the way to the selected case. -/
def compares (v : Nat) (x : Word) : Cases → S M → Option (S M)
  | .nil, s => some s
  | .cons none _ r, s => compares v x r s
  | .cons (some l) _ r, s =>
    (run M H (l.code v) s).bind fun s' => if BitVec.ofNat 32 l.val = x then some s' else compares v x r s'

/-- The condition of a `for`; an absent one is true. -/
def forTest (c : Option Expr) (one : Nat) (s : S M) : Option (S M × Bool) :=
  match c with
  | some c => test M H c s
  | none => (run M H [constIns one 1] s).map fun s' => (s', true)

def fullOpt (e : Option Expr) (s : S M) : Option (S M) :=
  match e with
  | some e => full M H e s
  | none => some s

def retIns (v : Option Nat) : Ins Nat := { op := .ret, rs1 := v }

/-- One turn of `while`. -/
def whileTurn (c : Expr) (body : S M → Res (S M)) (s : S M) : Turn (S M) :=
  match test M H c s with
  | none => .done .undef
  | some (s', false) => .done (.ok .normal s')
  | some (s', true) => bodyTurn .again (body s')

/-- One turn of `do`. -/
def doTurn (body : S M → Res (S M)) (c : Expr) (s : S M) : Turn (S M) :=
  bodyTurn (fun s' =>
    match test M H c s' with
    | none => .done .undef
    | some (s'', true) => .again s''
    | some (s'', false) => .done (.ok .normal s'')) (body s)

/-- One turn of `for`. -/
def forTurn (c : Option Expr) (one : Nat) (inc : Option Expr) (body : S M → Res (S M)) (s : S M) : Turn (S M) :=
  match forTest M H c one s with
  | none => .done .undef
  | some (s', false) => .done (.ok .normal s')
  | some (s', true) =>
    bodyTurn (fun s'' =>
      match fullOpt M H inc s'' with
      | none => .done .undef
      | some s''' => .again s''') (body s')

mutual
/-- Execute a statement; every loop makes at most `n` turns. -/
def exec (n : Nat) : Stmt → S M → Res (S M)
  | .expr e, s => .ofOpt .normal (full M H e s)
  | .empty, s => .ok .normal s
  | .block ss, s => execs n ss s
  | .ret none, s => .ofOpt .ret (run M H [retIns none] s)
  | .ret (some e), s =>
    .ofOpt .ret ((eval M H e s).bind fun r => (run M H [retIns (some e.res)] r.1).bind fun s' => run M H r.2 s')
  | .ite c t, s =>
    match test M H c s with
    | none => .undef
    | some (s', b) => if b then exec n t s' else .ok .normal s'
  | .iteElse c t e, s =>
    match test M H c s with
    | none => .undef
    | some (s', b) => if b then exec n t s' else exec n e s'
  | .while_ c b, s => iter (whileTurn M H c (exec n b)) n s
  | .doWhile b c, s => iter (doTurn M H (exec n b) c) n s
  | .for_ init c one inc b, s =>
    match fullOpt M H init s with
    | none => .undef
    | some s' => iter (forTurn M H c one inc (exec n b)) n s'
  | .switch_ e cs, s =>
    match eval M H e s with
    | none => .undef
    | some (s1, p) =>
      match (run M H p s1).bind (compares M H e.res (rd M H s1 e.res) cs) with
      | none => .undef
      | some s2 =>
        match pick (rd M H s1 e.res) cs with
        | none => .ok .normal s2
        | some i =>
          match execFrom n cs i s2 with
          | .ok .brk s3 => .ok .normal s3
          | r => r
  | .brk, s => .ok .brk s
  | .cont, s => .ok .cont s
def execs (n : Nat) : Stmts → S M → Res (S M)
  | .nil, s => .ok .normal s
  | .cons st ss, s => (exec n st s).andThen (execs n ss)
/-- The statements of a `switch` from the `i`-th group on. -/
def execFrom (n : Nat) : Cases → Nat → S M → Res (S M)
  | .nil, _, s => .ok .normal s
  | .cons _ _ r, i + 1, s => execFrom n r i s
  | .cons _ b r, 0, s => (execs n b s).andThen (execFrom n r 0)
end

/-! ### Execution of a control-flow graph -/

/-- What executing a graph needs: the successors and the code of the blocks. -/
structure Prog where
  next : Nat → Option Nat
  then_ : Nat → Option Nat
  else_ : Nat → Option Nat
  code : Nat → List (Ins Nat)

/-- Block, position in it, state. -/
structure Conf where
  b : Nat
  i : Nat
  s : S M

/-- One step: an instruction, a branch on whether its operand is zero, or the way from the end of a block to the next one. -/
def Prog.step (F : Prog) (c : Conf M) : Option (Conf M) :=
  match (F.code c.b)[c.i]? with
  | none => (F.next c.b).map fun b => ⟨b, 0, c.s⟩
  | some i =>
    if i.op = .branch then
      match i.rs1 with
      | none => none
      | some v => (if truth M H c.s v then F.then_ c.b else F.else_ c.b).map fun b => ⟨b, 0, c.s⟩
    else (CRename.step M H i c.s).map fun s => ⟨c.b, c.i + 1, s⟩

/-- `n` steps. -/
inductive Prog.Steps (F : Prog) : Nat → Conf M → Conf M → Prop
  | refl (c : Conf M) : Prog.Steps F 0 c c
  | step {n : Nat} {c d e : Conf M} (h : F.step M H c = some d) (t : Prog.Steps F n d e) : Prog.Steps F (n + 1) c e

/-! ### The part of the language for which the translation is proved correct -/

mutual
/-- No `&&`, `||`, `?:`. -/
def Expr.straight : Expr → Bool
  | .comp args _ _ _ => args.straight
  | _ => false
def Exprs.straight : Exprs → Bool
  | .nil => true
  | .cons e es => e.straight && es.straight
end

mutual
/-- The instructions of an expression without control flow. -/
def Expr.code : Expr → List (Ins Nat)
  | .comp args code _ _ => args.code ++ code
  | _ => []
def Exprs.code : Exprs → List (Ins Nat)
  | .nil => []
  | .cons e es => e.code ++ es.code
end

mutual
/-- No `++` or `--` behind an operand. -/
def Expr.noSe : Expr → Bool
  | .comp args _ _ se => args.noSe && se.isEmpty
  | .logic g _ => g.noSe
  | .tern c a b _ => c.noSe && a.noSe && b.noSe
def Exprs.noSe : Exprs → Bool
  | .nil => true
  | .cons e es => e.noSe && es.noSe
def Ors.noSe : Ors → Bool
  | .one a => a.noSe
  | .more a r => a.noSe && r.noSe
def Ands.noSe : Ands → Bool
  | .one e => e.noSe
  | .more e r => e.noSe && r.noSe
end

/-- Instructions of expressions: no branches, no returns, no copies (which only the construction of SSA form makes), and a variable is
assigned if the instruction computes a value, and only then. -/
@[simp] def simple (op : Op1) (assigns : Bool) : Bool :=
  match op with
  | .branch | .ret | .unwound_phi => false
  | .write | .push | .call | .indirect => !assigns
  | _ => assigns

def Simple (i : Ins Nat) : Prop := simple i.op i.rd.isSome = true

/-- The variables for truth values are not in memory. -/
def Tmp.Ok (t : Tmp) : Prop := H.mem t.one = false ∧ H.mem t.zero = false ∧ H.mem t.res = false

mutual
/-- Branches and returns are only those of the control structures, variables for truth values are not in memory, and the last two operands of
`?:` are without control flow. -/
def Expr.Good : Expr → Prop
  | .comp args code _ se => args.Good ∧ (∀ i ∈ code, Simple i) ∧ ∀ i ∈ se, Simple i
  | .logic g tmp => g.Good ∧ ∀ i, (tmp i).Ok H
  | .tern c a b _ => c.Good ∧ a.Good ∧ b.Good ∧ a.straight = true ∧ b.straight = true
def Exprs.Good : Exprs → Prop
  | .nil => True
  | .cons e es => e.Good ∧ es.Good
def Ors.Good : Ors → Prop
  | .one a => a.Good
  | .more a r => a.Good ∧ r.Good
def Ands.Good : Ands → Prop
  | .one e => e.Good
  | .more e r => e.Good ∧ r.Good
end

mutual
/-- Whether a `continue` of the enclosing loop occurs. -/
def Stmt.conts : Stmt → Bool
  | .cont => true
  | .block ss => ss.conts
  | .ite _ t => t.conts
  | .iteElse _ t e => t.conts || e.conts
  | .switch_ _ cs => cs.conts
  | _ => false
def Stmts.conts : Stmts → Bool
  | .nil => false
  | .cons s ss => s.conts || ss.conts
def Cases.conts : Cases → Bool
  | .nil => false
  | .cons _ b r => b.conts || r.conts
end

mutual
/-- Statements that do not obviously end in a jump. -/
def Stmt.completes : Stmt → Bool
  | .brk => false
  | .cont => false
  | .ret _ => false
  | .block ss => ss.completes
  | .iteElse _ t e => t.completes || e.completes
  | .switch_ _ cs => cs.completes
  | _ => true
def Stmts.completes : Stmts → Bool
  | .nil => true
  | .cons s ss => s.completes && ss.completes
/-- No `default`, or the last group completes. -/
def Cases.completes : Cases → Bool
  | .nil => false
  | .cons none b .nil => b.completes
  | .cons (some _) _ .nil => true
  | .cons _ _ r => r.completes
end

def Expr.Plain (e : Expr) : Prop := e.Good H ∧ e.noSe = true

/-- The instructions of an optional expression. -/
def optCode : Option Expr → List (Ins Nat)
  | none => []
  | some e => e.code

/-- The variables for the comparison with a label: not in memory, and not `v`. -/
def Label.Ok (l : Label) (v : Nat) : Prop := H.mem l.k = false ∧ H.mem l.t = false ∧ l.k ≠ v ∧ l.t ≠ v

mutual
/-- Postfix `++` and `--` occur only in expression statements without control flow; the increment of a `for` is without control
flow, and is not empty if the body has a `continue` and does not complete; a `switch` has a label. -/
def Stmt.Ok : Stmt → Prop
  | .expr e => e.Good H ∧ (e.noSe = true ∨ e.straight = true)
  | .empty => True
  | .block ss => ss.Ok
  | .ret e => ∀ e', e = some e' → e'.Plain H
  | .ite c t => c.Plain H ∧ t.Ok
  | .iteElse c t e => c.Plain H ∧ t.Ok ∧ e.Ok
  | .while_ c b => c.Plain H ∧ b.Ok
  | .doWhile b c => c.Plain H ∧ b.Ok
  | .for_ init c one inc b =>
    (∀ e, init = some e → e.Plain H) ∧ (∀ e, c = some e → e.Plain H) ∧ H.mem one = false ∧
    (∀ e, inc = some e → e.Plain H ∧ e.straight = true) ∧ b.Ok ∧ (optCode inc ≠ [] ∨ b.conts = false ∨ b.completes = true)
  | .switch_ e cs => e.Plain H ∧ cs ≠ .nil ∧ cs.Ok e.res
  | .brk => True
  | .cont => True
def Stmts.Ok : Stmts → Prop
  | .nil => True
  | .cons s ss => s.Ok ∧ ss.Ok
def Cases.Ok : Cases → Nat → Prop
  | .nil, _ => True
  | .cons l b r, v => (∀ k, l = some k → k.Ok H v) ∧ b.Ok ∧ r.Ok v
end

/-! ### The instructions used for truth values -/

/-- Constants, copies and comparisons for equality do what they should. -/
structure Basic : Prop where
  const : ∀ k st a b w, M.act ⟨.load_constant, k, st⟩ a b w = some (w, BitVec.ofNat 32 k)
  move : ∀ k st x b w, M.act ⟨.assign, k, st⟩ (some x) b w = some (w, x)
  eq : ∀ k st x y w, M.act ⟨.alu .eq, k, st⟩ (some x) (some y) w = some (w, if x = y then 1 else 0)

end CStmt
