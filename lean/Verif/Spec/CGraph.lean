/-!
# Specification: paths, reachability, dominance
-/

namespace CGraph

/-- `l` is a path from `a` to `b`: both ends included, each block a successor of the one before. -/
inductive Path (succ : Nat → List Nat) : Nat → List Nat → Nat → Prop
  | nil (a : Nat) : Path succ a [a] a
  | cons {a c b : Nat} {l : List Nat} (h : c ∈ succ a) (p : Path succ c l b) : Path succ a (a :: l) b

def Reach (succ : Nat → List Nat) (a b : Nat) : Prop := ∃ l, Path succ a l b

/-- `d` dominates `b`: it lies on every path from the entry to `b`. -/
def Dom (succ : Nat → List Nat) (entry d b : Nat) : Prop := ∀ l, Path succ entry l b → d ∈ l

def SDom (succ : Nat → List Nat) (entry d b : Nat) : Prop := Dom succ entry d b ∧ d ≠ b

/-- `d` is the closest strict dominator of `b`: every other strict dominator of `b` dominates it. -/
def IsIdom (succ : Nat → List Nat) (entry d b : Nat) : Prop :=
  SDom succ entry d b ∧ ∀ e, SDom succ entry e b → Dom succ entry e d

/-- `x` comes before `y` in the list. -/
def Before (l : List Nat) (x y : Nat) : Prop := ∃ a b, l = a ++ x :: b ∧ y ∈ b

/-- Depth-first search: `Dfs succ vis ws vis' post` explores the blocks `ws` one after the other, skipping visited ones;
`post` lists the blocks in the order in which their exploration ends. -/
inductive Dfs (succ : Nat → List Nat) : List Nat → List Nat → List Nat → List Nat → Prop
  | nil (vis : List Nat) : Dfs succ vis [] vis []
  | skip {vis vis' ws post : List Nat} {c : Nat} (h : c ∈ vis) (r : Dfs succ vis ws vis' post) :
      Dfs succ vis (c :: ws) vis' post
  | visit {vis vis1 vis2 ws post1 post2 : List Nat} {c : Nat} (h : c ∉ vis) (d : Dfs succ (c :: vis) (succ c) vis1 post1)
      (r : Dfs succ vis1 ws vis2 post2) : Dfs succ vis (c :: ws) vis2 (post1 ++ c :: post2)

/-- The dominance frontier of `x`: blocks `b` with a predecessor that `x` dominates, while `x` does not dominate `b`
strictly. -/
def InDF (succ : Nat → List Nat) (entry x b : Nat) : Prop :=
  (∃ q, b ∈ succ q ∧ Reach succ entry q ∧ Dom succ entry x q) ∧ ¬ SDom succ entry x b

end CGraph
