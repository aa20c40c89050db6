import Verif.Lemmas.RenameUnique
import Verif.Lemmas.RenameSome

/-!
# C71, C72: construction of SSA form
-/

namespace Shecc.Props
open Shecc.Cfg Shecc.SsaBuild CGraph
open CRename
open Shecc.Ssa (Op1)

/-- **C71** (partial: variables that live in memory must be initialised once, see `C71_reassigned_local_wrong`).  Along every path
through the control-flow graph, the renamed function does to memory, input and output exactly what the original does, and fails
exactly where it fails.  (The world may record branch conditions, so both take the same path.) -/
theorem C71_renaming_preserves_executions_partial (f : Fn) (n : Nat) (univ : List Nat) (M : Mach) (nm : Nat → Nat) (H : Home Nat)
    (H' : Home Name) (he : f.g.entry ∈ univ) (hc : ∀ x ∈ univ, ∀ y ∈ f.g.succs x, y ∈ univ) (hn : 2 * univ.length + 2 ≤ n)
    (hk : f.Linked) (hp : f.Plain) (hs : f.Scoped) (hH : f.Homes nm H H') (ht : f.Tame nm H) (hnd : f.params.Nodup)
    (hg : ∀ p ∈ f.params, f.isGlobal p = false) {S : St} {out : Nat → List (Ins Name)} (h : ssaBuild f n = some (S, out))
    {path : List Nat} {c : Nat} (hpath : Path f.g.succs f.g.entry path c) (w : M.World) (e : Nat → Word) (e' : Name → Word)
    (hfn : ∀ v, f.isFunc v = true → e' (v, none) = e v) (hpar : ∀ v ∈ f.params, e' (v, some 0) = e v) :
    (run M H (trace f.code path) (w, e)).map (·.1) = (run M H' (trace out path) (w, e')).map (·.1) :=
  ssaBuild_correct hk he hc hn hp hs hH ht hnd hg h hpath (w, e) (w, e') rfl hfn hpar

/-- **C72** (construction succeeds).  If variables are declared before they are used, no variable is without a current name
(`Index is less than 1`), and every loop of the analyses ends. -/
theorem C72_construction_succeeds (f : Fn) (n : Nat) (univ : List Nat) (he : f.g.entry ∈ univ)
    (hc : ∀ x ∈ univ, ∀ y ∈ f.g.succs x, y ∈ univ) (hn : 2 * univ.length + 2 ≤ n) (hk : f.Linked)
    (hg : ∀ p ∈ f.params, f.isGlobal p = false) (hd : f.Declared) : ∃ S out, ssaBuild f n = some (S, out) := by
  obtain ⟨⟨S, out⟩, h⟩ := ssaBuild_succeeds hk he hc hn hg hd
  exact ⟨S, out, h⟩

/-- **C72** (single assignment).  After renaming, a local name is assigned by at most one phi or instruction in the function, and
never by one if it is the name of a parameter's initial value. -/
theorem C72_single_assignment (f : Fn) (n : Nat) (univ : List Nat) (he : f.g.entry ∈ univ)
    (hc : ∀ x ∈ univ, ∀ y ∈ f.g.succs x, y ∈ univ) (hn : 2 * univ.length + 2 ≤ n) (hk : f.Linked)
    (hg : ∀ p ∈ f.params, f.isGlobal p = false) {S : St} {out : Nat → List (Ins Name)} (h : ssaBuild f n = some (S, out)) (v k : Nat)
    (hv : f.isGlobal v = false) :
    (∀ b, Reach f.g.succs f.g.entry b → (assigned S b).count (v, some k) ≤ 1) ∧
    (∀ b c, Reach f.g.succs f.g.entry b → Reach f.g.succs f.g.entry c → (v, some k) ∈ assigned S b → (v, some k) ∈ assigned S c →
      b = c) ∧
    (v ∈ f.params → ∀ b, Reach f.g.succs f.g.entry b → (v, some 0) ∉ assigned S b) := by
  obtain ⟨vis, post, rpo, l, idom, tr, df, h1, h2, h3, h4, h5, A⟩ := analysis_ok f.g univ n he hc hk.edges hk.entry hk.preds hn
  obtain ⟨phis, hphi, hS, hout⟩ := ssaBuild_some h h1 h2 h3 h4 h5
  have P := phiFacts hk A hphi
  obtain ⟨sub, E, Rin, Rphi, Rout, D⟩ := solve_ok n f.g.entry _ _ (pre_start P hg) hS (A.tree _)
  have U := unique_of_done A P D
  refine ⟨fun b hb => U.once b hb v k hv, fun b c hb hc => U.block b c hb hc v k hv, ?_⟩
  intro hp b hb hm
  have := U.param b hb v 0 hv hm
  have := List.count_pos_iff.2 hp
  omega

/-- **C72** (definitions dominate uses).  Every use of a local name, in an instruction or as the operand of a phi for a
predecessor, is of a parameter's initial value or of a name assigned earlier in the block or in a block that dominates it; a phi
has an operand for every predecessor, and for predecessors only. -/
theorem C72_definitions_dominate (f : Fn) (n : Nat) (univ : List Nat) (he : f.g.entry ∈ univ)
    (hc : ∀ x ∈ univ, ∀ y ∈ f.g.succs x, y ∈ univ) (hn : 2 * univ.length + 2 ≤ n) (hk : f.Linked) (hnd : f.params.Nodup)
    (hg : ∀ p ∈ f.params, f.isGlobal p = false) {S : St} {out : Nat → List (Ins Name)} (h : ssaBuild f n = some (S, out)) {b : Nat}
    (hb : Reach f.g.succs f.g.entry b) :
    (∀ v k xs j ys, S.code b = xs ++ j :: ys → Uses j (v, some k) →
      (v ∈ f.params ∧ k = 0) ∨ (∃ i ∈ xs, i.rd = some (v, some k)) ∨ (∃ p ∈ S.phi b, p.var = v ∧ p.sub = some k) ∨
      ∃ a, SDom f.g.succs f.g.entry a b ∧ (v, some k) ∈ assigned S a) ∧
    ∀ p ∈ S.phi b,
      (∀ q k, (q, k) ∈ p.ops → b ∈ f.g.succs q ∧
        ((p.var ∈ f.params ∧ k = 0) ∨ ∃ a, Dom f.g.succs f.g.entry a q ∧ (p.var, some k) ∈ assigned S a)) ∧
      ∀ q, Reach f.g.succs f.g.entry q → b ∈ f.g.succs q → ∃ k, (q, k) ∈ p.ops := by
  obtain ⟨vis, post, rpo, l, idom, tr, df, h1, h2, h3, h4, h5, A⟩ := analysis_ok f.g univ n he hc hk.edges hk.entry hk.preds hn
  obtain ⟨phis, hphi, hS, hout⟩ := ssaBuild_some h h1 h2 h3 h4 h5
  have P := phiFacts hk A hphi
  obtain ⟨sub, E, Rin, Rphi, Rout, D⟩ := solve_ok n f.g.entry _ _ (pre_start P hg) hS (A.tree _)
  have C := cert_of_done A D
  have par : ∀ v k, k + 1 = f.params.count v → v ∈ f.params ∧ k = 0 := by
    intro v k hk
    have hm : v ∈ f.params := List.count_pos_iff.1 (by omega)
    rw [hnd.count, if_pos hm] at hk
    exact ⟨hm, by omega⟩
  refine ⟨?_, ?_⟩
  · intro v k xs j ys hcode hu
    rcases uses_ok A P D C hb hcode hu with h | h | h | ⟨a, h1, _, h2⟩
    · exact Or.inl (par v k h)
    · exact Or.inr (Or.inl h)
    · exact Or.inr (Or.inr (Or.inl h))
    · exact Or.inr (Or.inr (Or.inr ⟨a, h1, h2⟩))
  · intro p hp
    obtain ⟨o1, o2⟩ := ops_ok A P D C hb hp
    refine ⟨?_, o2⟩
    intro q k ho
    obtain ⟨a1, _, a3⟩ := o1 (q, k) ho
    refine ⟨a1, ?_⟩
    rcases a3 with h | ⟨a, h1, _, h2⟩
    · exact Or.inl (par _ _ h)
    · exact Or.inr ⟨a, h1, h2⟩

/-! ### A function with a loop -/

/-- The targets of the edges from a block. -/
def outEdges (E : List (Nat × Nat)) (a : Nat) : List Nat := (E.filter fun e => e.1 == a).map (·.2)

/-- A graph with the given edges, at most two from each block. -/
def edgeGraph (E : List (Nat × Nat)) (exit : Nat) : Graph where
  entry := 0
  exit := exit
  block := fun a =>
    { next := match outEdges E a with
        | [x] => some x
        | _ => none
      then_ := match outEdges E a with
        | x :: _ :: _ => some x
        | _ => none
      else_ := match outEdges E a with
        | _ :: x :: _ => some x
        | _ => none
      prev := (E.filter fun e => e.2 == a).map (·.1) }

theorem edgeGraph_edges (E : List (Nat × Nat)) (exit : Nat) (h : ∀ e ∈ E, (outEdges E e.1).length ≤ 2) (a b : Nat) :
    b ∈ (edgeGraph E exit).succs a ↔ a ∈ (edgeGraph E exit).preds b := by
  have hlen : (outEdges E a).length ≤ 2 := by
    cases ho : outEdges E a with
    | nil => simp
    | cons x xs =>
      rw [← ho]
      have hm : x ∈ outEdges E a := by rw [ho]; exact List.mem_cons_self ..
      simp only [outEdges, List.mem_map, List.mem_filter, beq_iff_eq] at hm
      obtain ⟨e, ⟨he, rfl⟩, _⟩ := hm
      exact h e he
  have hs : (edgeGraph E exit).succs a = outEdges E a := by
    unfold Graph.succs edgeGraph
    cases ho : outEdges E a with
    | nil => simp [ho]
    | cons x xs =>
      cases xs with
      | nil => simp [ho]
      | cons y ys =>
        cases ys with
        | nil => simp [ho]
        | cons z zs => rw [ho] at hlen; simp at hlen
  rw [hs]
  simp only [edgeGraph, Graph.preds, outEdges, List.mem_map, List.mem_filter, beq_iff_eq]
  constructor
  · rintro ⟨⟨x, y⟩, ⟨h, rfl⟩, rfl⟩; exact ⟨(x, y), ⟨h, rfl⟩, rfl⟩
  · rintro ⟨⟨x, y⟩, ⟨h, rfl⟩, rfl⟩; exact ⟨(x, y), ⟨h, rfl⟩, rfl⟩

/-- The dominance frontiers as `ssaBuild` computes them. -/
def frontiers (g : Graph) (n : Nat) : Option (List (Nat × Nat)) :=
  match dfs g.succs n g.entry [], buildRpo g.succs g.entry n with
  | some (_, post), some (rpo, l) =>
    match buildIdom rpo g.preds g.entry l.tail n n with
    | none => none
    | some idom => buildDf idom g.preds n post
  | _, _ => none

theorem frontiers_meets {f : Fn} (hk : f.Linked) {univ : List Nat} {n : Nat} (he : f.g.entry ∈ univ)
    (hc : ∀ x ∈ univ, ∀ y ∈ f.g.succs x, y ∈ univ) (hn : 2 * univ.length + 2 ≤ n) {df : List (Nat × Nat)}
    (h : frontiers f.g n = some df) {q b : Nat} (hm : f.Meets q b) : (q, b) ∈ df := by
  obtain ⟨vis, post, rpo, l, idom, tr, df', h1, h2, h3, h4, h5, A⟩ := analysis_ok f.g univ n he hc hk.edges hk.entry hk.preds hn
  unfold frontiers at h
  rw [h1, h2] at h
  simp only at h
  rw [h3] at h
  simp only at h
  rw [h5] at h
  simp only [Option.some.injEq] at h
  subst h
  exact (A.dfMem q b).2 ⟨hm.2.1, hm.2.2⟩

/-- `int loop(int n) { int s = 0; int x = 7; int *p = &x; while (s < n) s = s + *p; return s; }`: variables 0 `n`, 1 `s`, 2 `x`,
3 `p`, the rest temporaries. -/
def loopFn : Fn where
  g := edgeGraph [(0, 1), (1, 2), (1, 3), (2, 1), (3, 4)] 4
  code := fun b =>
    match b with
    | 0 => [{ op := .allocat, rd := some 1 }, { op := .load_constant, rd := some 4 }, { op := .assign, rd := some 1, rs1 := some 4 },
        { op := .allocat, rd := some 2 }, { op := .load_constant, rd := some 5, sz := 7 }, { op := .assign, rd := some 2, rs1 := some 5 },
        { op := .allocat, rd := some 3 }, { op := .address_of, rd := some 6, rs1 := some 2 },
        { op := .assign, rd := some 3, rs1 := some 6 }]
    | 1 => [{ op := .alu .lt, rd := some 7, rs1 := some 1, rs2 := some 0 }, { op := .branch, rs1 := some 7 }]
    | 2 => [{ op := .read, rd := some 8, rs1 := some 3, sz := 4 }, { op := .alu .add, rd := some 9, rs1 := some 1, rs2 := some 8 },
        { op := .assign, rd := some 1, rs1 := some 9 }]
    | 3 => [{ op := .ret, rs1 := some 1 }]
    | _ => []
  params := [0]
  isGlobal := fun _ => false
  isFunc := fun _ => false
  isJoin := fun _ => false
  inScope := fun _ _ => true
  isDecl := fun v b => b == 0 && (v == 1 || v == 2 || v == 3)

def loopHome : Home Nat := ⟨fun v => v == 2, fun v => 100 + BitVec.ofNat 32 v⟩
def loopHome' : Home Name := ⟨fun x => x.1 == 2, fun x => 100 + BitVec.ofNat 32 x.1⟩

theorem loopFn_code {P : Nat → Ins Nat → Prop} (h : ∀ b < 4, ∀ i ∈ loopFn.code b, P b i) : ∀ b, ∀ i ∈ loopFn.code b, P b i := by
  intro b
  by_cases hb : b < 4
  · exact h b hb
  · obtain ⟨k, rfl⟩ : ∃ k, b = k + 4 := ⟨b - 4, by omega⟩
    intro i hi
    cases hi

theorem loopFn_linked : loopFn.Linked := by
  have h0 : Reach loopFn.g.succs 0 0 := Shecc.Cfg.Reach.refl _
  have h1 : Reach loopFn.g.succs 0 1 := Shecc.Cfg.Reach.one (by decide)
  have h2 : Reach loopFn.g.succs 0 2 := Shecc.Cfg.Reach.trans h1 (Shecc.Cfg.Reach.one (by decide))
  have h3 : Reach loopFn.g.succs 0 3 := Shecc.Cfg.Reach.trans h1 (Shecc.Cfg.Reach.one (by decide))
  refine ⟨edgeGraph_edges _ _ (by decide), rfl, ?_⟩
  intro b _ q hq
  have : q ∈ [0, 1, 2, 3] := by
    simp only [loopFn, edgeGraph, Graph.preds, List.mem_map, List.mem_filter] at hq
    obtain ⟨e, ⟨he, _⟩, rfl⟩ := hq
    have key : ∀ e ∈ [(0, 1), (1, 2), (1, 3), (2, 1), (3, 4)], e.1 ∈ [0, 1, 2, 3] := by decide
    exact key e he
  simp only [List.mem_cons, List.not_mem_nil, or_false] at this
  rcases this with rfl | rfl | rfl | rfl
  · exact h0
  · exact h1
  · exact h2
  · exact h3

theorem loopFn_meets {q b : Nat} (h : loopFn.Meets q b) : (q, b) ∈ [(2, 1), (1, 1)] := by
  refine frontiers_meets loopFn_linked (univ := List.range 5) (n := 12) (by decide) (by decide) (by decide) (df := [(2, 1), (1, 1)]) ?_ h
  decide +kernel

theorem loopFn_dom0 {b : Nat} (h : b ≠ 0) : SDom loopFn.g.succs 0 0 b :=
  ⟨fun _ p => Shecc.Cfg.Path.first p, fun e => h e.symm⟩

/-- The variables read in a block that are not assigned in it before. -/
def exposed : List (Ins Nat) → List Nat → List Nat
  | [], _ => []
  | i :: is, d => (i.rs1.toList ++ i.rs2.toList).filter (fun v => !d.contains v) ++ exposed is (d ++ i.rd.toList)

theorem exposed_ok {v : Nat} {i : Ins Nat} {ys : List (Ins Nat)} (hu : i.rs1 = some v ∨ i.rs2 = some v) : ∀ (xs : List (Ins Nat)) (d : List Nat),
    v ∈ exposed (xs ++ i :: ys) d ∨ v ∈ d ∨ Assigns v xs := by
  intro xs
  induction xs with
  | nil =>
    intro d
    by_cases hd : v ∈ d
    · exact Or.inr (Or.inl hd)
    · left
      simp only [List.nil_append, exposed, List.mem_append, List.mem_filter]
      left
      refine ⟨?_, by simpa using hd⟩
      rcases hu with h | h <;> simp [h]
  | cons x xs ih =>
    intro d
    rcases ih (d ++ x.rd.toList) with h | h | ⟨y, hy, h⟩
    · left; simp only [List.cons_append, exposed, List.mem_append]; exact Or.inr h
    · rcases List.mem_append.1 h with h | h
      · exact Or.inr (Or.inl h)
      · refine Or.inr (Or.inr ⟨x, List.mem_cons_self .., ?_⟩)
        cases hr : x.rd with
        | none => rw [hr] at h; cases h
        | some d => rw [hr] at h; simp only [Option.toList_some, List.mem_singleton] at h; rw [h]
    · exact Or.inr (Or.inr ⟨y, List.mem_cons_of_mem _ hy, h⟩)

theorem loopFn_exposed {v b : Nat} (h : v ∈ exposed (loopFn.code b) []) : v = 0 ∨ b ≠ 0 ∧ Assigns v (loopFn.code 0) ∧ (v = 1 ∨ v = 3) := by
  have key : ∀ b < 4, ∀ v ∈ exposed (loopFn.code b) [], v = 0 ∨ b ≠ 0 ∧ (v = 1 ∨ v = 3) := by decide
  by_cases hb : b < 4
  · rcases key b hb v h with h | ⟨h1, rfl | rfl⟩
    · exact Or.inl h
    · exact Or.inr ⟨h1, ⟨_, List.mem_cons_self .., rfl⟩, Or.inl rfl⟩
    · exact Or.inr ⟨h1, ⟨{ op := .allocat, rd := some 3 }, by decide, rfl⟩, Or.inr rfl⟩
  · obtain ⟨k, rfl⟩ : ∃ k, b = k + 4 := ⟨b - 4, by omega⟩
    cases h

theorem loopFn_declared : loopFn.Declared := by
  constructor
  · intro b v xs i ys _ _ hc hu
    have hu' : i.rs1 = some v ∨ i.rs2 = some v := hu.imp id And.left
    rcases exposed_ok (ys := ys) hu' xs [] with h | h | h
    · rw [← hc] at h
      rcases loopFn_exposed h with rfl | ⟨h1, h2, _⟩
      · exact Or.inl (List.mem_cons_self ..)
      · exact Or.inr (Or.inr ⟨0, loopFn_dom0 h1, h2⟩)
    · cases h
    · exact Or.inr (Or.inl h)
  · intro b v q hq hs _ _ ⟨c, _, xs, i, ys, hc, hu, hx⟩
    rcases exposed_ok (ys := ys) hu xs [] with h | h | ⟨x, hm, he⟩
    · rw [← hc] at h
      rcases loopFn_exposed h with rfl | ⟨_, h2, _⟩
      · exact Or.inl (List.mem_cons_self ..)
      · exact Or.inr ⟨0, fun _ p => Shecc.Cfg.Path.first p, h2⟩
    · cases h
    · exact absurd he (hx x hm)

/-- The hypotheses of C71 and C72 hold of this function, and the construction puts one phi, for `s`, at the head of the loop. -/
example : loopFn.Linked ∧ loopFn.Plain ∧ loopFn.Scoped ∧ loopFn.Homes (fun _ => 1) loopHome loopHome' ∧
    loopFn.Tame (fun _ => 1) loopHome ∧ loopFn.Declared ∧
    (ssaBuild loopFn 12).map (fun r => (List.range 5).map fun b => (r.1.phi b).map (·.var)) = some [[], [1], [], [], []] ∧
    (ssaBuild loopFn 12).map (fun r => (r.1.phi 1).map (·.sub)) = some [some 2] ∧
    (ssaBuild loopFn 12).map (fun r => (r.1.phi 1).map (·.ops)) = some [[(0, 1), (2, 3)]] ∧
    (ssaBuild loopFn 12).map (fun r => r.2 2) = some
        [{ op := .read, rd := some (8, some 0), rs1 := some (3, some 1), sz := 4 },
         { op := .alu .add, rd := some (9, some 0), rs1 := some (1, some 2), rs2 := some (8, some 0) },
         { op := .assign, rd := some (1, some 3), rs1 := some (9, some 0) },
         { op := .unwound_phi, rd := some (1, some 2), rs1 := some (1, some 3) }] := by
  refine ⟨loopFn_linked, ⟨loopFn_code (by decide), loopFn_code (by decide), loopFn_code (fun _ _ _ _ _ _ => rfl)⟩, ⟨?_, ?_⟩,
    ⟨fun _ _ => rfl, fun _ => rfl, fun _ _ _ => rfl, ?_, ?_⟩, ⟨?_, ?_⟩, loopFn_declared, ?_, ?_, ?_, ?_⟩
  · intro v q b _ hm _
    have := loopFn_meets hm
    simp only [List.mem_cons, List.not_mem_nil, or_false, Prod.mk.injEq] at this
    have hb : b = 1 := by omega
    subst hb
    exact ⟨rfl, rfl, by decide⟩
  · intro v _ _ _ h
    cases h
  · have key : ∀ b < 4, ∀ i ∈ loopFn.code b, i.op = .address_of → i.rs1 = some 2 := by decide
    have := loopFn_code key
    intro b i hi ho v hv
    rw [this b i hi ho] at hv
    cases hv
    rfl
  · intro v h; cases h
  · intro v _ hv
    have hv : v = 2 := by simpa [loopHome] using hv
    subst hv
    refine Or.inr ⟨by decide, 0, (loopFn.code 0).take 5, { op := .assign, rd := some 2, rs1 := some 5 }, (loopFn.code 0).drop 6, by rfl, rfl,
      ?_, ?_, ?_, ?_, by decide⟩
    · rintro (h | h) <;> cases h
    · intro x hx
      have : ∀ x ∈ (loopFn.code 0).take 5, x.rs1 ≠ some 2 ∧ x.rs2 ≠ some 2 ∧ (x.rd = some 2 → x.op = .allocat) := by decide
      obtain ⟨h1, h2, h3⟩ := this x hx
      exact ⟨fun h => h.elim h1 h2, h3⟩
    · decide
    · intro b _ hb ⟨i, hi, he⟩
      have : ∀ b < 4, ∀ i ∈ loopFn.code b, i.rd = some 2 → b = 0 := by decide
      exact hb (loopFn_code this b i hi he)
  · intro v q b _ hv hq hm
    have hv : v = 2 := by simpa [loopHome] using hv
    subst hv
    obtain ⟨i, hi, he⟩ := hq
    have : ∀ b < 4, ∀ i ∈ loopFn.code b, i.rd = some 2 → b = 0 := by decide
    have hq0 := loopFn_code this q i hi he
    have := loopFn_meets hm
    simp only [List.mem_cons, List.not_mem_nil, or_false, Prod.mk.injEq] at this
    omega
  · decide +kernel
  · decide +kernel
  · decide +kernel
  · decide +kernel

/-! ### A local variable reassigned after its address was taken -/

/-- `int main() { int x = 1; int *p = &x; x = 2; return *p; }`: variables 1 `x`, 2 `p`, the rest temporaries. -/
def reFn : Fn where
  g := edgeGraph [(0, 1)] 1
  code := fun b =>
    match b with
    | 0 => [{ op := .allocat, rd := some 1 }, { op := .load_constant, rd := some 3, sz := 1 }, { op := .assign, rd := some 1, rs1 := some 3 },
        { op := .allocat, rd := some 2 }, { op := .address_of, rd := some 4, rs1 := some 1 }, { op := .assign, rd := some 2, rs1 := some 4 },
        { op := .load_constant, rd := some 5, sz := 2 }, { op := .assign, rd := some 1, rs1 := some 5 },
        { op := .read, rd := some 6, rs1 := some 2, sz := 4 }, { op := .ret, rs1 := some 6 }]
    | _ => []
  params := []
  isGlobal := fun _ => false
  isFunc := fun _ => false
  isJoin := fun _ => false
  inScope := fun _ _ => true
  isDecl := fun v b => b == 0 && (v == 1 || v == 2)

/-- A machine with a memory and a returned value. -/
def retMach : Mach where
  World := (Word → Word) × Word
  get := fun w a => w.1 a
  set := fun w a x => (fun y => if y = a then x else w.1 y, w.2)
  act := fun t a _ w =>
    match t.op, a with
    | .load_constant, _ => some (w, BitVec.ofNat 32 t.sz)
    | .read, some p => some (w, w.1 p)
    | .ret, some x => some ((w.1, x), 0)
    | _, some x => some (w, x)
    | _, none => some (w, 0)

/-- **C71**, what is missing.  `*p` is 2 in the source, but the renamed function gives `x` a second name for its second value:
whatever the places of the two names, if they differ, the function returns 1. -/
theorem C71_reassigned_local_wrong (H' : Home Name) (hmem : ∀ v o, H'.mem (v, o) = (v == 1))
    (hne : H'.addr (1, some 1) ≠ H'.addr (1, some 2)) :
    ∃ S out, ssaBuild reFn 6 = some (S, out) ∧
      (run retMach ⟨fun v => v == 1, fun _ => 100⟩ (trace reFn.code [0, 1]) ((fun _ => 0, 0), fun _ => 0)).map (·.1.2) = some 2 ∧
      (run retMach H' (trace out [0, 1]) ((fun _ => 0, 0), fun _ => 0)).map (·.1.2) = some 1 := by
  have hb : (ssaBuild reFn 6).map (fun r => trace r.2 [0, 1]) = some
      [{ op := .allocat, rd := some (1, some 0) }, { op := .load_constant, rd := some (3, some 0), sz := 1 },
       { op := .assign, rd := some (1, some 1), rs1 := some (3, some 0) }, { op := .allocat, rd := some (2, some 0) },
       { op := .address_of, rd := some (4, some 0), rs1 := some (1, some 1) },
       { op := .assign, rd := some (2, some 1), rs1 := some (4, some 0) }, { op := .load_constant, rd := some (5, some 0), sz := 2 },
       { op := .assign, rd := some (1, some 2), rs1 := some (5, some 0) },
       { op := .read, rd := some (6, some 0), rs1 := some (2, some 1), sz := 4 }, { op := .ret, rs1 := some (6, some 0) }] := by
    decide +kernel
  cases hS : ssaBuild reFn 6 with
  | none => rw [hS] at hb; cases hb
  | some r =>
    obtain ⟨S, out⟩ := r
    rw [hS] at hb
    simp only [Option.map_some, Option.some.injEq] at hb
    refine ⟨S, out, rfl, ?_, ?_⟩
    · decide +kernel
    · rw [hb]
      simp [run, step, wr, rd, arg1, retMach, hmem, Ins.tag, hne]

end Shecc.Props
