import Verif.Lemmas.SsaExecMain
import Verif.Props.SsaBuild
import Verif.Props.StmtExample

/-!
# C87, C88: executions in SSA form, and from statements to SSA form
-/

namespace Shecc.Props
open Shecc.Cfg Shecc.SsaBuild CGraph
open CRename

section
variable {f : Fn} {n : Nat} {univ : List Nat} {M : Mach} {nm : Nat → Nat} {H : Home Nat} {H' : Home Name}

/-- **C87** (partial as C71: variables that live in memory must be initialised once).  The function in SSA form, executed from its
entry, gets to the start of a block with a given memory, input and output exactly if the original does: it takes the same
branches, since their conditions are the same. -/
theorem C87_ssa_executions_partial (he : f.g.entry ∈ univ) (hc : ∀ x ∈ univ, ∀ y ∈ f.g.succs x, y ∈ univ) (hn : 2 * univ.length + 2 ≤ n)
    (hk : f.Linked) (hp : f.Plain) (hb : f.BranchLast) (hs : f.Scoped) (hH : f.Homes nm H H') (ht : f.Tame nm H) (hnd : f.params.Nodup)
    (hg : ∀ p ∈ f.params, f.isGlobal p = false) {S : St} {out : Nat → List (Ins Name)} (h : ssaBuild f n = some (S, out))
    (w : M.World) (e : Nat → Word) (e' : Name → Word)
    (hfn : ∀ v, f.isFunc v = true → e' (v, none) = e v) (hpar : ∀ v ∈ f.params, e' (v, some 0) = e v) (d : Nat) (w' : M.World) :
    (∃ k e1, (f.prog f.code).Steps M H k ⟨f.g.entry, 0, (w, e)⟩ ⟨d, 0, (w', e1)⟩) ↔
      ∃ k e1, (f.prog out).Steps M H' k ⟨f.g.entry, 0, (w, e')⟩ ⟨d, 0, (w', e1)⟩ := by
  have J := joint_blks (M := M) hk he hc hn hp hb hs hH ht hnd hg h w e e' hfn hpar
  constructor
  · rintro ⟨k, e1, hst⟩
    obtain ⟨m, hm⟩ := CExec.blks_of_steps _ _ _ _ _ _ hst
    rcases J m with ⟨h1, _⟩ | ⟨⟨d1, w1, a1⟩, ⟨d2, w2, a2⟩, h1, h2, j1, j2, _⟩
    · rw [hm] at h1; cases h1
    · rw [hm] at h1
      simp only [Option.some.injEq, Prod.mk.injEq] at h1 j1 j2
      obtain ⟨rfl, rfl, rfl⟩ := h1
      subst j1 j2
      obtain ⟨k', _, h3⟩ := CExec.steps_of_blks _ _ _ _ _ _ h2
      exact ⟨k', a2, h3⟩
  · rintro ⟨k, e1, hst⟩
    obtain ⟨m, hm⟩ := CExec.blks_of_steps _ _ _ _ _ _ hst
    rcases J m with ⟨_, h2⟩ | ⟨⟨d1, w1, a1⟩, ⟨d2, w2, a2⟩, h1, h2, j1, j2, _⟩
    · rw [hm] at h2; cases h2
    · rw [hm] at h2
      simp only [Option.some.injEq, Prod.mk.injEq] at h2 j1 j2
      obtain ⟨rfl, rfl, rfl⟩ := h2
      subst j1 j2
      obtain ⟨k', _, h3⟩ := CExec.steps_of_blks _ _ _ _ _ _ h1
      exact ⟨k', a1, h3⟩

/-- **C87** (partial as above).  The function in SSA form runs on for ever exactly if the original does. -/
theorem C87_ssa_divergence_partial (he : f.g.entry ∈ univ) (hc : ∀ x ∈ univ, ∀ y ∈ f.g.succs x, y ∈ univ) (hn : 2 * univ.length + 2 ≤ n)
    (hk : f.Linked) (hp : f.Plain) (hb : f.BranchLast) (hs : f.Scoped) (hH : f.Homes nm H H') (ht : f.Tame nm H) (hnd : f.params.Nodup)
    (hg : ∀ p ∈ f.params, f.isGlobal p = false) {S : St} {out : Nat → List (Ins Name)} (h : ssaBuild f n = some (S, out))
    (w : M.World) (e : Nat → Word) (e' : Name → Word)
    (hfn : ∀ v, f.isFunc v = true → e' (v, none) = e v) (hpar : ∀ v ∈ f.params, e' (v, some 0) = e v) :
    (∀ k, ∃ d, (f.prog f.code).Steps M H k ⟨f.g.entry, 0, (w, e)⟩ d) ↔
      ∀ k, ∃ d, (f.prog out).Steps M H' k ⟨f.g.entry, 0, (w, e')⟩ d := by
  have J := joint_blks (M := M) hk he hc hn hp hb hs hH ht hnd hg h w e e' hfn hpar
  rw [CExec.forever_iff, CExec.forever_iff]
  constructor
  · intro h m
    rcases J m with ⟨h1, _⟩ | ⟨r, r', _, h2, _⟩
    · exact absurd h1 (h m)
    · rw [h2]; exact fun h => by cases h
  · intro h m
    rcases J m with ⟨_, h1⟩ | ⟨r, r', h2, _, _⟩
    · exact absurd h1 (h m)
    · rw [h2]; exact fun h => by cases h

end

/-! ### From statements to SSA form -/

section
open CStmt Shecc.Stmt
variable {M : Mach}

def conf (c : CStmt.Conf M) : CExec.Conf M Nat := ⟨c.b, c.i, c.s⟩

theorem step_same {f : Fn} {P : PS} (hf : f.Holds P) (H : Home Nat) (c : CStmt.Conf M) :
    (f.prog f.code).step M H (conf c) = (P.prog.step M H c).map conf := by
  have h1 : (f.prog f.code).next = P.prog.next := by
    funext b
    show (f.g.block b).next = (P.block b).next
    rw [hf.block]
  have h2 : (f.prog f.code).then_ = P.prog.then_ := by
    funext b
    show (f.g.block b).then_ = (P.block b).then_
    rw [hf.block]
  have h3 : (f.prog f.code).else_ = P.prog.else_ := by
    funext b
    show (f.g.block b).else_ = (P.block b).else_
    rw [hf.block]
  have h4 : (f.prog f.code).code = P.prog.code := hf.code
  obtain ⟨b, i, s⟩ := c
  have hz : ∀ v, rd M H s v ≠ 0 → truth M H s v = true := fun v h => decide_eq_true h
  have hz' : ∀ v, ¬ rd M H s v ≠ 0 → ¬ truth M H s v = true := fun v h => by rw [truth, decide_eq_true_eq]; exact h
  show CExec.Prog.step M H (f.prog f.code) ⟨b, i, s⟩ = _
  unfold CExec.Prog.step CStmt.Prog.step
  rw [h1, h2, h3, h4]
  cases (P.prog.code b)[i]? with
  | none => simp only; cases P.prog.next b <;> rfl
  | some j =>
    simp only
    split
    · cases j.rs1 with
      | none => rfl
      | some v =>
        simp only
        by_cases h : rd M H s v ≠ 0
        · rw [if_pos h, if_pos (hz v h)]
          cases P.prog.then_ b <;> rfl
        · rw [if_neg h, if_neg (hz' v h)]
          cases P.prog.else_ b <;> rfl
    · cases CRename.step M H j s <;> rfl

theorem steps_same {f : Fn} {P : PS} (hf : f.Holds P) (H : Home Nat) {k : Nat} {c d : CStmt.Conf M} :
    (f.prog f.code).Steps M H k (conf c) (conf d) ↔ P.prog.Steps M H k c d := by
  constructor
  · intro h
    have key : ∀ k (x y : CExec.Conf M Nat), (f.prog f.code).Steps M H k x y → ∀ c d, x = conf c → y = conf d → P.prog.Steps M H k c d := by
      intro k x y h
      induction h with
      | refl a =>
        intro c d h1 h2
        subst h1
        cases c; cases d
        cases h2
        exact .refl _
      | @step n a b e hs _ ih =>
        intro c d h1 h2
        subst h1
        rw [step_same hf, Option.map_eq_some_iff] at hs
        obtain ⟨b', h3, rfl⟩ := hs
        exact .step h3 (ih b' d rfl h2)
    exact key k _ _ h c d rfl rfl
  · intro h
    induction h with
    | refl c => exact .refl _
    | step hs _ ih => exact .step (by rw [step_same hf, hs]; rfl) ih

/-- The blocks of a function. -/
def blocksOf (P : PS) (f : Fn) : List Nat := 0 :: List.range P.n ++ (List.range P.n).flatMap f.g.succs

theorem blocksOf_ok {M : Mach} {H : Home Nat} (B : Basic M) {body : Stmts} (hb : body.Ok H) {P : PS} (hP : lowerFn body = some P) {f : Fn}
    (hf : f.Holds P) : f.g.entry ∈ blocksOf P f ∧ (∀ x ∈ blocksOf P f, ∀ y ∈ f.g.succs x, y ∈ blocksOf P f) ∧
      2 * (blocksOf P f).length + 2 ≤ 8 * P.n + 4 ∧ f.BranchLast := by
  obtain ⟨_, _, ⟨ht, hfr⟩, _⟩ := lowerFn_ok B hb hP
  have none_ : ∀ b, P.n ≤ b → f.g.succs b = [] := by
    intro b hb
    obtain ⟨_, ho⟩ := hfr b hb
    unfold Graph.succs
    rw [hf.block, ho.next, ho.then_, ho.else_]
    rfl
  have three : ∀ b, (f.g.succs b).length ≤ 3 := by
    intro b
    unfold Graph.succs
    cases (f.g.block b).next <;> cases (f.g.block b).then_ <;> cases (f.g.block b).else_ <;> simp
  refine ⟨?_, ?_, ?_, ?_⟩
  · rw [hf.entry]
    exact List.mem_cons_self ..
  · intro x _ y hy
    by_cases hx : x < P.n
    · exact List.mem_cons_of_mem _ (List.mem_append_right _ (List.mem_flatMap.2 ⟨x, List.mem_range.2 hx, hy⟩))
    · rw [none_ x (by omega)] at hy
      cases hy
  · have : ∀ (l : List Nat), (l.flatMap f.g.succs).length ≤ 3 * l.length := by
      intro l
      induction l with
      | nil => simp
      | cons x l ih =>
        rw [List.flatMap_cons, List.length_append, List.length_cons]
        have := three x
        omega
    have := this (List.range P.n)
    simp only [blocksOf, List.length_cons, List.length_append, List.length_range] at this ⊢
    omega
  · intro b xs i ys h hop
    rw [hf.code] at h
    rcases ht.1 b xs i ys h with k | ⟨k, _⟩
    · exact absurd hop (simple_nb k)
    · exact k

/-- **C88** (partial: bodies within `Stmts.Ok` as in C73, and a local whose address is taken initialised once as in C71).  Statements
compiled to SSA form.  If the body of a function, executed as C prescribes, ends, then the function in SSA form gets from its entry
to its exit with the same memory, input and output. -/
theorem C88_body_to_ssa_partial (B : Basic M) {H : Home Nat} {H' : Home Name} {nm : Nat → Nat} {body : Stmts} (hb : body.Ok H) {P : PS}
    (hP : lowerFn body = some P) {f : Fn} (hf : f.Holds P) {n : Nat} (hn : 8 * P.n + 4 ≤ n)
    (hk : f.Linked) (hp : f.Plain) (hs : f.Scoped) (hH : f.Homes nm H H') (ht : f.Tame nm H) (hnd : f.params.Nodup)
    (hg : ∀ p ∈ f.params, f.isGlobal p = false) {S : St} {out : Nat → List (Ins Name)} (h : ssaBuild f n = some (S, out))
    {w w' : M.World} {e e1 : Nat → Word} {e' : Name → Word}
    (hfn : ∀ v, f.isFunc v = true → e' (v, none) = e v) (hpar : ∀ v ∈ f.params, e' (v, some 0) = e v)
    {k : Nat} {o : Out} (hx : execs M H k body (w, e) = .ok o (w', e1)) :
    ∃ m e2, (f.prog out).Steps M H' m ⟨0, 0, (w, e')⟩ ⟨1, 0, (w', e2)⟩ := by
  obtain ⟨u1, u2, u3, u4⟩ := blocksOf_ok B hb hP hf
  obtain ⟨_, m, hst⟩ := C73_body_translated_partial B hb hP hx
  have := (C87_ssa_executions_partial (M := M) u1 u2 (Nat.le_trans u3 hn) hk hp u4 hs hH ht hnd hg h w e e' hfn hpar 1 w').1
  rw [hf.entry] at this
  exact this ⟨m, e1, (steps_same hf H).2 hst⟩

/-- **C88** (partial as above).  If the body runs on without an end, so does the function in SSA form. -/
theorem C88_divergence_to_ssa_partial (B : Basic M) {H : Home Nat} {H' : Home Name} {nm : Nat → Nat} {body : Stmts} (hb : body.Ok H)
    {P : PS} (hP : lowerFn body = some P) {f : Fn} (hf : f.Holds P) {n : Nat} (hn : 8 * P.n + 4 ≤ n)
    (hk : f.Linked) (hp : f.Plain) (hs : f.Scoped) (hH : f.Homes nm H H') (ht : f.Tame nm H) (hnd : f.params.Nodup)
    (hg : ∀ p ∈ f.params, f.isGlobal p = false) {S : St} {out : Nat → List (Ins Name)} (h : ssaBuild f n = some (S, out))
    {w : M.World} {e : Nat → Word} {e' : Name → Word}
    (hfn : ∀ v, f.isFunc v = true → e' (v, none) = e v) (hpar : ∀ v ∈ f.params, e' (v, some 0) = e v)
    (hx : ∀ k, execs M H k body (w, e) = .timeout) : ∀ k, ∃ d, (f.prog out).Steps M H' k ⟨0, 0, (w, e')⟩ d := by
  obtain ⟨u1, u2, u3, u4⟩ := blocksOf_ok B hb hP hf
  have hlong := (C73_divergence_translated_partial B hb hP hx).1
  have := (C87_ssa_divergence_partial (M := M) u1 u2 (Nat.le_trans u3 hn) hk hp u4 hs hH ht hnd hg h w e e' hfn hpar).1
  rw [hf.entry] at this
  refine this fun k => ?_
  obtain ⟨d, hd⟩ := hlong k
  exact ⟨conf d, (steps_same hf H).2 hd⟩

/-- **C88** (partial as above).  For a body without undefined behaviour, the function in SSA form reaches its exit with a given
memory, input and output exactly if the body ends with them. -/
theorem C88_exit_iff_partial (B : Basic M) {H : Home Nat} {H' : Home Name} {nm : Nat → Nat} {body : Stmts} (hb : body.Ok H) {P : PS}
    (hP : lowerFn body = some P) {f : Fn} (hf : f.Holds P) {n : Nat} (hn : 8 * P.n + 4 ≤ n)
    (hk : f.Linked) (hp : f.Plain) (hs : f.Scoped) (hH : f.Homes nm H H') (ht : f.Tame nm H) (hnd : f.params.Nodup)
    (hg : ∀ p ∈ f.params, f.isGlobal p = false) {S : St} {out : Nat → List (Ins Name)} (h : ssaBuild f n = some (S, out))
    {w : M.World} {e : Nat → Word} {e' : Name → Word}
    (hfn : ∀ v, f.isFunc v = true → e' (v, none) = e v) (hpar : ∀ v ∈ f.params, e' (v, some 0) = e v)
    (hu : ∀ k, execs M H k body (w, e) ≠ .undef) (w' : M.World) :
    (∃ m e2, (f.prog out).Steps M H' m ⟨0, 0, (w, e')⟩ ⟨1, 0, (w', e2)⟩) ↔ ∃ k o e1, execs M H k body (w, e) = .ok o (w', e1) := by
  obtain ⟨u1, u2, u3, u4⟩ := blocksOf_ok B hb hP hf
  have := C87_ssa_executions_partial (M := M) u1 u2 (Nat.le_trans u3 hn) hk hp u4 hs hH ht hnd hg h w e e' hfn hpar 1 w'
  rw [hf.entry] at this
  rw [← this]
  constructor
  · rintro ⟨m, e1, hst⟩
    obtain ⟨k, o, hx⟩ := (C73_exit_iff_partial B hb hP hu (w', e1)).1 ⟨m, (steps_same hf H).1 hst⟩
    exact ⟨k, o, e1, hx⟩
  · rintro ⟨k, o, e1, hx⟩
    obtain ⟨m, hst⟩ := (C73_exit_iff_partial B hb hP hu (w', e1)).2 ⟨k, o, hx⟩
    exact ⟨m, e1, (steps_same hf H).2 hst⟩

/-! ### An example -/

/-- `int sum(int n) { int s = 0, i = 0; while (i < n) { s = s + i; i = i + 1; } return s; }` with `n`, `s`, `i` the variables 0, 1, 2. -/
def sumBody : Stmts := seqS [
  .expr (setE 1 (kE 0 10)),
  .expr (setE 2 (kE 0 11)),
  .while_ (binE .lt (vE 2) (vE 0) 12) (.block (seqS [
    .expr (setE 1 (binE .add (vE 1) (vE 2) 13)),
    .expr (setE 2 (binE .add (vE 2) (kE 1 14) 15))])),
  .ret (some (vE 1))]

def sumPS : PS := (lowerFn sumBody).getD { n := 0, block := fun _ => {}, code := fun _ => [], brk := [], cont := [], se := [], exit := 0 }

def sumFn : Fn where
  g := ⟨sumPS.block, 0, 1⟩
  code := sumPS.code
  params := [0]
  isGlobal := fun _ => false
  isFunc := fun _ => false
  isJoin := fun _ => false
  inScope := fun _ _ => true
  isDecl := fun _ _ => false

def sumHome : Home Name := ⟨fun _ => false, fun _ => 0⟩

theorem sumBody_ok : sumBody.Ok calcHome := by
  simp [sumBody, seqS, Stmts.Ok, Stmt.Ok, Cases.Ok, Label.Ok, Expr.Plain, Expr.Good, CStmt.Simple, CStmt.simple, Exprs.Good, Ors.Good, Ands.Good, Expr.noSe,
    Exprs.noSe, Ors.noSe, Ands.noSe, setE, vE, kE, binE, constIns, moveIns, calcHome, Tmp.Ok, Expr.straight, Exprs.straight, optCode,
    Expr.code, Exprs.code, Expr.res]

theorem sumBody_lowered : lowerFn sumBody = some sumPS := by
  have h : (lowerFn sumBody).isSome = true := by decide +kernel
  unfold sumPS
  obtain ⟨P, hP⟩ := Option.isSome_iff_exists.1 h
  rw [hP]
  rfl

theorem sumFn_holds : sumFn.Holds sumPS := ⟨rfl, rfl, rfl, rfl⟩

theorem sumFn_code {Q : Nat → Ins Nat → Prop} (h : ∀ b < 6, ∀ i ∈ sumFn.code b, Q b i) : ∀ b, ∀ i ∈ sumFn.code b, Q b i := by
  intro b i hi
  by_cases hb : b < 6
  · exact h b hb i hi
  · obtain ⟨_, _, ⟨_, hf⟩, _⟩ := lowerFn_ok calc_basic sumBody_ok sumBody_lowered
    have hn : sumPS.n = 6 := by decide +kernel
    have : sumFn.code b = [] := (hf b (by omega)).1
    rw [this] at hi
    cases hi

theorem sumFn_linked : sumFn.Linked := by
  obtain ⟨_, hy, ⟨_, hf⟩, _⟩ := lowerFn_ok calc_basic sumBody_ok sumBody_lowered
  have hn : sumPS.n = 6 := by decide +kernel
  have he : ∀ a b, b ∈ sumFn.g.succs a ↔ a ∈ sumFn.g.preds b := by
    intro a b
    rw [show sumFn.g.preds b = (sumPS.block b).prev from rfl, ← hy a b]
    unfold Graph.succs
    show b ∈ (sumPS.block a).next.toList ++ (sumPS.block a).then_.toList ++ (sumPS.block a).else_.toList ↔ _
    constructor
    · intro h
      simp only [List.mem_append, Option.mem_toList] at h
      rcases h with (h | h) | h
      · exact ⟨.next, h⟩
      · exact ⟨.then_, h⟩
      · exact ⟨.else_, h⟩
    · rintro ⟨k, hk⟩
      simp only [List.mem_append, Option.mem_toList]
      cases k
      · exact .inl (.inl hk)
      · exact .inl (.inr hk)
      · exact .inr hk
  refine ⟨he, by decide +kernel, ?_⟩
  have h0 : Reach sumFn.g.succs 0 0 := Cfg.Reach.refl _
  have h2 : Reach sumFn.g.succs 0 2 := Cfg.Reach.one (by decide +kernel)
  have h4 : Reach sumFn.g.succs 0 4 := Cfg.Reach.trans h2 (Cfg.Reach.one (by decide +kernel))
  have h5 : Reach sumFn.g.succs 0 5 := Cfg.Reach.trans h2 (Cfg.Reach.one (by decide +kernel))
  intro b _ q hq
  rw [← he] at hq
  by_cases hq6 : q < 6
  · have key : ∀ q < 6, sumFn.g.succs q ≠ [] → q = 0 ∨ q = 2 ∨ q = 4 ∨ q = 5 := by decide +kernel
    rcases key q hq6 (fun h => by rw [h] at hq; cases hq) with rfl | rfl | rfl | rfl
    · exact h0
    · exact h2
    · exact h4
    · exact h5
  · obtain ⟨_, ho⟩ := hf q (by omega)
    have : sumFn.g.succs q = [] := by
      unfold Graph.succs
      show (sumPS.block q).next.toList ++ (sumPS.block q).then_.toList ++ (sumPS.block q).else_.toList = []
      rw [ho.next, ho.then_, ho.else_]
      rfl
    rw [this] at hq
    cases hq

theorem sumFn_meets {q b : Nat} (h : sumFn.Meets q b) : (q, b) ∈ [(4, 2), (2, 2)] := by
  refine frontiers_meets sumFn_linked (univ := List.range 6) (n := 52) (by decide +kernel) (by decide +kernel) (by decide +kernel)
    (df := [(4, 2), (2, 2)]) ?_ h
  decide +kernel

/-- The hypotheses of C87 and C88 hold of this function; the construction puts phis for `s` and `i` at the head of the loop. -/
theorem sumFn_ok : sumFn.Plain ∧ sumFn.Scoped ∧ sumFn.Homes (fun _ => 0) calcHome sumHome ∧ sumFn.Tame (fun _ => 0) calcHome ∧
    (ssaBuild sumFn 52).map (fun r => (r.1.phi 2).map (·.var)) = some [2, 1] := by
  refine ⟨⟨sumFn_code (by decide +kernel), sumFn_code (by decide +kernel), fun _ _ _ _ _ => rfl⟩, ⟨?_, ?_⟩,
    ⟨fun _ _ => rfl, fun _ => rfl, fun _ _ _ => rfl, ?_, fun v h => by cases h⟩, ⟨(fun v _ h => by cases h), (fun v q b _ h => by cases h)⟩, ?_⟩
  · intro v q b _ hm _
    have := sumFn_meets hm
    simp only [List.mem_cons, List.not_mem_nil, or_false, Prod.mk.injEq] at this
    have hb : b = 2 := by omega
    subst hb
    exact ⟨rfl, rfl, by decide⟩
  · intro v _ _ _ h
    cases h
  · have key : ∀ b < 6, ∀ i ∈ sumFn.code b, i.op ≠ .address_of := by decide +kernel
    intro b i hi ho
    exact absurd ho (sumFn_code key b i hi)
  · decide +kernel

/-- `sum(5)` returns 10 in SSA form, by C88. -/
example : ∃ S out, ssaBuild sumFn 52 = some (S, out) ∧ ∀ e' : Name → Word, e' (0, some 0) = 5 →
    ∃ m e2, (sumFn.prog out).Steps calcMach sumHome m ⟨0, 0, (none, e')⟩ ⟨1, 0, (some 10, e2)⟩ := by
  obtain ⟨h1, h2, h3, h4, h5⟩ := sumFn_ok
  cases hS : ssaBuild sumFn 52 with
  | none => rw [hS] at h5; cases h5
  | some r =>
    obtain ⟨S, out⟩ := r
    refine ⟨S, out, rfl, fun e' he => ?_⟩
    have hx : returned 20 sumBody (none, fun v => if v = 0 then 5 else 0) = some 10 := by decide +kernel
    unfold returned at hx
    cases hr : execs calcMach calcHome 20 sumBody (none, fun v => if v = 0 then 5 else 0) with
    | timeout => rw [hr] at hx; cases hx
    | undef => rw [hr] at hx; cases hx
    | ok o σ' =>
      rw [hr] at hx
      obtain ⟨w', e1⟩ := σ'
      simp only at hx
      subst hx
      refine C88_body_to_ssa_partial calc_basic sumBody_ok sumBody_lowered sumFn_holds (by decide +kernel) sumFn_linked h1 h2 h3 h4
        (by decide) (fun _ _ => rfl) hS (fun v h => by cases h) ?_ hr
      intro v hv
      have : v = 0 := by simpa [sumFn] using hv
      subst this
      simpa using he

end

end Shecc.Props
