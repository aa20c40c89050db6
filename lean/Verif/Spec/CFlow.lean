import Verif.Spec.CStmt

/-!
# Specification: statements whose end can be reached

Conditions are taken to be able to go either way.
-/

namespace CStmt

mutual
/-- Whether a `break` of the enclosing loop or `switch` occurs. -/
def Stmt.brks : Stmt → Bool
  | .brk => true
  | .block ss => ss.brks
  | .ite _ t => t.brks
  | .iteElse _ t e => t.brks || e.brks
  | _ => false
def Stmts.brks : Stmts → Bool
  | .nil => false
  | .cons s ss => s.brks || ss.brks
end

/-- Whether a `break` of the `switch` occurs in a group. -/
def Cases.brks : Cases → Bool
  | .nil => false
  | .cons _ b r => b.brks || r.brks

mutual
/-- Whether the end of the statement can be reached. -/
def Stmt.falls : Stmt → Bool
  | .brk => false
  | .cont => false
  | .ret _ => false
  | .block ss => ss.falls
  | .iteElse _ t e => t.falls || e.falls
  | .switch_ _ cs => cs.falls || cs.brks
  | _ => true
def Stmts.falls : Stmts → Bool
  | .nil => true
  | .cons s ss => s.falls && ss.falls
/-- No `default`, or the end of the last group can be reached. -/
def Cases.falls : Cases → Bool
  | .nil => false
  | .cons none b .nil => b.falls
  | .cons (some _) _ .nil => true
  | .cons _ _ r => r.falls
end

mutual
/-- The condition of every `do` and the increment of every `for` can be reached, at the end of the body or by `continue`. -/
def Stmt.Flows : Stmt → Prop
  | .block ss => ss.Flows
  | .ite _ t => t.Flows
  | .iteElse _ t e => t.Flows ∧ e.Flows
  | .while_ _ b => b.Flows
  | .doWhile b _ => b.Flows ∧ (b.falls = true ∨ b.conts = true)
  | .for_ _ _ _ inc b => b.Flows ∧ (optCode inc = [] ∨ b.falls = true ∨ b.conts = true)
  | .switch_ _ cs => cs.Flows
  | _ => True
def Stmts.Flows : Stmts → Prop
  | .nil => True
  | .cons s ss => s.Flows ∧ ss.Flows
def Cases.Flows : Cases → Prop
  | .nil => True
  | .cons _ b r => b.Flows ∧ r.Flows
end

end CStmt
