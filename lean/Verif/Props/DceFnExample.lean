import Verif.Props.DceFn

/-!
# C93: a function whose branch is removed, and one on which the pass goes astray
-/

namespace Shecc.Props
open Shecc Shecc.Ssa Shecc.Dce CDce RaFn CGraph

/-- `int f(int a) { if (a) { a + a; } return a; }`: the branch decides nothing. -/
def dceFnDemo : Dce.Fn where
  insn := fun i => match i with
    | 0 => { op := .branch, rs1 := some 1 }
    | 1 => { op := .alu .add, rd := some 2, rs1 := some 1, rs2 := some 1 }
    | _ => { op := .ret, rs1 := some 1 }
  blocks := fun b => match b with
    | 0 => [0]
    | 1 => [1]
    | 3 => [2]
    | _ => []
  blk := fun i => match i with
    | 0 => 0
    | 1 => 1
    | _ => 3
  rdf := fun b => match b with
    | 1 => [0]
    | 2 => [0]
    | _ => []
  lastAssign := lastAssignOf (fun i => match i with
    | 0 => { op := .branch, rs1 := some 1 }
    | 1 => { op := .alu .add, rd := some 2, rs1 := some 1, rs2 := some 1 }
    | _ => { op := .ret, rs1 := some 1 }) [0, 1, 2]
  isGlobal := fun _ => false

def dceFnDemoF : RegAlloc.Fn where
  block := fun b => match b with
    | 0 => { then_ := 1, else_ := 2 }
    | 1 => { next := some 3 }
    | 2 => { next := some 3 }
    | 3 => { next := some 4 }
    | b => { next := some (b + 1) }
  insns := fun b => (dceFnDemo.blocks b).map dceFnDemo.insn
  rpo := fun b => b
  fnExit := 4

def dceFnPrev : Nat → List Nat
  | 0 => []
  | 1 => [0]
  | 2 => [0]
  | 3 => [1, 2]
  | 4 => [3]
  | 5 => []
  | b + 6 => [b + 5]

def dceFnUniv : List Nat := [0, 1, 2, 3, 4]

def dceFnRpo : (Nat → Nat) × List Nat := ((Cfg.buildRpo (RaSource.cfgOf dceFnDemoF 0 dceFnPrev).preds 4 5).getD (fun _ => 0, []))

def dceFnRIdom : Nat → Option Nat :=
  (Cfg.buildIdom dceFnRpo.1 (backSuccs (RaSource.cfgOf dceFnDemoF 0 dceFnPrev)) 4 dceFnRpo.2.tail 11 7).getD fun _ => none

def dceFnOrder : List Nat := ((Cfg.buildRpo (RaSource.cfgOf dceFnDemoF 0 dceFnPrev).succs 0 5).getD (fun _ => 0, [])).2

def dceFnSt : Dce.St := (dceMark dceFnDemo 2048 100 dceFnOrder dceInit).getD dceInit

theorem some_getD {α : Type} {o : Option α} {d : α} (h : o.isSome = true) : o = some (o.getD d) := by
  cases o with
  | none => cases h
  | some x => rfl

theorem dceFn_prepared : Prepared dceFnDemoF 0 dceFnPrev dceFnUniv dceFnDemo dceFnRIdom dceFnOrder where
  exit := by decide
  closed := by decide
  edges := by
    intro a b
    match a with
    | 0 =>
      match b with
      | 0 | 1 | 2 | 3 | 4 | 5 => decide
      | b + 6 => simp [succs, dceFnDemoF, dceFnPrev]
    | 1 | 2 | 3 | 4 =>
      match b with
      | 0 | 1 | 2 | 3 | 4 | 5 => decide
      | b + 6 => simp [succs, dceFnDemoF, dceFnPrev]
    | a + 5 =>
      match b with
      | 0 | 1 | 2 | 3 | 4 | 5 => simp [succs, dceFnDemoF, dceFnPrev]
      | b + 6 =>
        simp only [succs, dceFnDemoF, dceFnPrev, List.mem_singleton]
        constructor
        · intro h; simp at h; omega
        · intro h; simp; omega
  layout := ⟨5, _, by
    have h := some_getD (d := (fun _ => 0, [])) (o := Cfg.buildRpo (RaSource.cfgOf dceFnDemoF 0 dceFnPrev).succs 0 5) (by decide)
    exact h⟩
  post := by
    have e1 := some_getD (d := (fun _ => 0, [])) (o := Cfg.buildRpo (RaSource.cfgOf dceFnDemoF 0 dceFnPrev).preds 4 5) (by decide)
    have e2 := some_getD (d := fun _ => none)
      (o := Cfg.buildIdom dceFnRpo.1 (backSuccs (RaSource.cfgOf dceFnDemoF 0 dceFnPrev)) 4 dceFnRpo.2.tail 11 7) (by decide)
    have ho : dceFnRpo.2 = [4, 3, 2, 1, 0] := by decide
    refine ⟨dceFnRpo.1, [3, 2, 1, 0], [(2, 0), (1, 0)], ?_, ?_, by decide, ?_⟩
    · have : dceFnRpo = (dceFnRpo.1, [4, 3, 2, 1, 0]) := by rw [← ho]
      show _ = some (dceFnRpo.1, [4, 3, 2, 1, 0])
      rw [← this]
      exact e1
    · rw [ho] at e2
      exact e2
    · intro b c
      match b with
      | 0 | 1 | 2 => simp [dceFnDemo]
      | b + 3 => simp [dceFnDemo]

theorem dceFn_reach {b : Nat} (h : b ≤ 4) : CGraph.Reach (succs dceFnDemoF) b 4 := by
  have h4 : CGraph.Reach (succs dceFnDemoF) 4 4 := Cfg.Reach.refl _
  have h3 : CGraph.Reach (succs dceFnDemoF) 3 4 := Cfg.Reach.one (by decide)
  match b, h with
  | 0, _ => exact Cfg.Reach.trans (Cfg.Reach.one (by decide : 1 ∈ succs dceFnDemoF 0)) (Cfg.Reach.trans (Cfg.Reach.one (by decide : 3 ∈ succs dceFnDemoF 1)) h3)
  | 1, _ => exact Cfg.Reach.trans (Cfg.Reach.one (by decide : 3 ∈ succs dceFnDemoF 1)) h3
  | 2, _ => exact Cfg.Reach.trans (Cfg.Reach.one (by decide : 3 ∈ succs dceFnDemoF 2)) h3
  | 3, _ => exact h3
  | 4, _ => exact h4

theorem dceFn_input : Input dceFnDemoF (fun _ => false) 0 dceFnDemo dceFnOrder where
  entryExit := by decide
  insns := fun _ => rfl
  own := by
    intro b i hi
    match b, hi with
    | 0, hi | 1, hi | 3, hi =>
      simp only [dceFnDemo, List.mem_cons, List.not_mem_nil, or_false] at hi
      subst hi
      rfl
    | 2, hi => exact absurd hi (by simp [dceFnDemo])
    | _ + 4, hi => exact absurd hi (by simp [dceFnDemo])
  fetch := by
    intro i hi
    match i, hi with
    | 0, hi | 1, hi => exact absurd hi (by decide)
    | _ + 2, hi => exact absurd hi (by simp [dceFnDemo])
  last := rfl
  global_ := rfl
  single := by
    have : dceFnOrder.flatMap dceFnDemo.blocks = [0, 1, 2] := by decide
    rw [this]
    intro i hi j hj v h1 h2 _ _
    simp only [List.mem_cons, List.not_mem_nil, or_false] at hi hj
    rcases hi with rfl | rfl | rfl <;> rcases hj with rfl | rfl | rfl <;> simp [dceFnDemo] at h1 h2 <;> rfl
  parts := by
    intro b hb i hi hp
    match i, hp with
    | 0, hp | 1, hp => exact absurd hp (by decide)
    | _ + 2, hp => exact absurd hp (by simp [dceFnDemo])
  branches := by
    intro b hb hbe hn
    match b, hn with
    | 0, _ => exact ⟨0, rfl, rfl⟩
    | 1, hn | 2, hn | 3, hn => simp [dceFnDemoF] at hn
    | _ + 4, hn => simp [dceFnDemoF] at hn
  reaches := by
    refine ⟨dceFn_reach (by decide), ?_⟩
    rintro b ⟨l, p⟩ q hq
    match b, p, hq with
    | 0, _, hq =>
      simp [succs, dceFnDemoF] at hq
      rcases hq with rfl | rfl <;> exact dceFn_reach (by decide)
    | 1, _, hq | 2, _, hq | 3, _, hq =>
      simp [succs, dceFnDemoF] at hq
      subst hq
      exact dceFn_reach (by decide)
    | 4, _, hq => simp [succs, dceFnDemoF] at hq
    | b + 5, p, hq =>
      simp [succs, dceFnDemoF] at hq
      subst hq
      generalize hE : dceFnDemoF.fnExit = e at p
      cases p with
      | nil => simp [dceFnDemoF] at hE
      | cons h p =>
        simp [succs, dceFnDemoF] at h
        subst h
        exact ⟨_, p⟩

/-- The example meets the hypotheses of `C93_dce_partial`; the branch and the addition go, and the first block continues with the
return. -/
theorem C93_example : Prepared dceFnDemoF 0 dceFnPrev dceFnUniv dceFnDemo dceFnRIdom dceFnOrder ∧
    Input dceFnDemoF (fun _ => false) 0 dceFnDemo dceFnOrder ∧ Unmarked dceInit ∧
    dceMark dceFnDemo 2048 100 dceFnOrder dceInit = some dceFnSt ∧
    Joined dceFnDemoF dceFnDemo dceFnSt (fun b => (dceFnRIdom b).getD 0) 6 dceFnOrder ∧
    branchRemoved dceFnDemo dceFnSt 0 = true ∧
    (sweepFn dceFnDemo dceFnSt (fun b => (dceFnRIdom b).getD 0) 6 dceFnDemoF).insns 0 = [] ∧
    ((sweepFn dceFnDemo dceFnSt (fun b => (dceFnRIdom b).getD 0) 6 dceFnDemoF).block 0).next = some 3 := by
  refine ⟨dceFn_prepared, dceFn_input, ⟨fun _ => rfl, fun _ => rfl, rfl⟩, some_getD (by decide), ?_, by decide, by decide, by decide⟩
  intro b hb hr
  have : ∀ b ∈ dceFnOrder, branchRemoved dceFnDemo dceFnSt b = true → b = 0 := by decide
  rw [this b hb hr]
  exact ⟨3, by decide⟩

/-- `void f(int a) { for (;;) if (a) g(); }`: the exit (block 3) cannot be reached. -/
def dceTrap : Dce.Fn where
  insn := fun i => match i with
    | 0 => { op := .branch, rs1 := some 1 }
    | _ => { op := .call, str := "g" }
  blocks := fun b => match b with
    | 0 => [0]
    | 1 => [1]
    | _ => []
  blk := fun i => i
  rdf := fun _ => []
  lastAssign := fun _ => none
  isGlobal := fun _ => false

def dceTrapF : RegAlloc.Fn where
  block := fun b => match b with
    | 0 => { then_ := 1, else_ := 2 }
    | 1 => { next := some 0 }
    | 2 => { next := some 0 }
    | b => { next := some (b + 1) }
  insns := fun b => (dceTrap.blocks b).map dceTrap.insn
  rpo := fun b => b
  fnExit := 3

def dceTrapPrev : Nat → List Nat
  | 0 => [1, 2]
  | 1 => [0]
  | 2 => [0]
  | 3 => []
  | 4 => []
  | b + 5 => [b + 4]

def dceTrapOrder : List Nat := ((Cfg.buildRpo (RaSource.cfgOf dceTrapF 0 dceTrapPrev).succs 0 5).getD (fun _ => 0, [])).2

def dceTrapSt : Dce.St := (dceMark dceTrap 2048 100 dceTrapOrder dceInit).getD dceInit

def dceTrapRpo : (Nat → Nat) × List Nat := ((Cfg.buildRpo (RaSource.cfgOf dceTrapF 0 dceTrapPrev).preds 3 4).getD (fun _ => 0, []))

def dceTrapRIdom : Nat → Option Nat :=
  (Cfg.buildIdom dceTrapRpo.1 (backSuccs (RaSource.cfgOf dceTrapF 0 dceTrapPrev)) 3 dceTrapRpo.2.tail 9 6).getD fun _ => none

/-- Why `Input.reaches` is needed: in a loop that cannot be left, the branch that decides whether `g` is called is removed, and the
search for the block to go to instead starts from a null pointer (the compiler crashes). -/
theorem C93_endless_wrong : Prepared dceTrapF 0 dceTrapPrev [0, 1, 2, 3] dceTrap dceTrapRIdom dceTrapOrder ∧
    dceMark dceTrap 2048 100 dceTrapOrder dceInit = some dceTrapSt ∧ dceTrapSt.useful 1 = true ∧
    branchRemoved dceTrap dceTrapSt 0 = true ∧ dceTrapRIdom 0 = none := by
  refine ⟨⟨by decide, by decide, ?_, ?_, ?_⟩, some_getD (by decide), by decide, by decide, by decide⟩
  · intro a b
    match a with
    | 0 | 1 | 2 | 3 =>
      match b with
      | 0 | 1 | 2 | 3 | 4 => decide
      | b + 5 => simp [succs, dceTrapF, dceTrapPrev]
    | a + 4 =>
      match b with
      | 0 | 1 | 2 | 3 | 4 => simp [succs, dceTrapF, dceTrapPrev]
      | b + 5 =>
        simp only [succs, dceTrapF, dceTrapPrev, List.mem_singleton]
        constructor
        · intro h; simp at h; omega
        · intro h; simp; omega
  · exact ⟨5, _, some_getD (d := (fun _ => 0, [])) (o := Cfg.buildRpo (RaSource.cfgOf dceTrapF 0 dceTrapPrev).succs 0 5) (by decide)⟩
  · have e1 := some_getD (d := (fun _ => 0, [])) (o := Cfg.buildRpo (RaSource.cfgOf dceTrapF 0 dceTrapPrev).preds 3 4) (by decide)
    have e2 := some_getD (d := fun _ => none)
      (o := Cfg.buildIdom dceTrapRpo.1 (backSuccs (RaSource.cfgOf dceTrapF 0 dceTrapPrev)) 3 dceTrapRpo.2.tail 9 6) (by decide)
    have ho : dceTrapRpo.2 = [3] := by decide
    refine ⟨dceTrapRpo.1, [], [], ?_, ?_, by decide, ?_⟩
    · have : dceTrapRpo = (dceTrapRpo.1, [3]) := by rw [← ho]
      show _ = some (dceTrapRpo.1, [3])
      rw [← this]
      exact e1
    · rw [ho] at e2
      exact e2
    · intro b c
      simp [dceTrap]

end Shecc.Props
