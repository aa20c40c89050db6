import Verif.Lemmas.ExecBlocks

/-!
# Executions of a function and of its SSA form
-/

namespace Shecc.SsaBuild
open Shecc.Cfg CGraph
open CRename CExec

/-! ### Branches after renaming -/

theorem renBody_branches {f : Fn} : ∀ (is : List (Ins Nat)) {R R2 : Ren} {l : List (Ins Name)}, renBody f is R = some (l, R2) →
    OneBranch is → OneBranch l := by
  intro is R R2 l h hb
  have clean : ∀ (is : List (Ins Nat)) {R R2 : Ren} {l : List (Ins Name)}, renBody f is R = some (l, R2) →
      (∀ i ∈ is, i.op ≠ .branch) → ∀ j ∈ l, j.op ≠ .branch := by
    intro is
    induction is with
    | nil =>
      intro R R2 l h _ j hj
      simp only [renBody, Option.some.injEq, Prod.mk.injEq] at h
      rw [← h.1] at hj
      cases hj
    | cons i is ih =>
      intro R R2 l h hn j hj
      obtain ⟨j0, R1, js, h1, h2, rfl⟩ := renBody_cons h
      obtain ⟨_, _, _, _, e5, _⟩ := renIns_some h1
      rcases List.mem_cons.1 hj with rfl | hj
      · rw [e5]; exact hn i (by simp)
      · exact ih h2 (fun x hx => hn x (by simp [hx])) j hj
  rcases hb with hb | ⟨xs, i, rfl, hi, hr, hx⟩
  · exact .inl (clean is h hb)
  · obtain ⟨l1, R1, l', h1, h2, rfl⟩ := renBody_append xs [i] h
    obtain ⟨j, R3, js, h3, h4, rfl⟩ := renBody_cons h2
    simp only [renBody, Option.some.injEq, Prod.mk.injEq] at h4
    obtain ⟨_, _, e3, _, e5, _⟩ := renIns_some h3
    right
    refine ⟨l1, j, by rw [← h4.1], e5.trans hi, ?_, clean xs h1 hx⟩
    rw [e3, hr]
    rfl

theorem weave_branches {l cs : List (Ins Name)} (hl : OneBranch l) (hc : ∀ c ∈ cs, c.op ≠ .branch) : OneBranch (weave l cs) := by
  unfold weave
  rcases hl with hl | ⟨xs, i, rfl, hi, hr, hx⟩
  · left
    intro j hj
    have hm : j ∈ l ++ cs → j.op ≠ .branch := fun h => (List.mem_append.1 h).elim (hl j) (hc j)
    cases hg : l.getLast? with
    | none => rw [hg] at hj; exact hc j hj
    | some i =>
      rw [hg] at hj
      simp only at hj
      rw [if_neg (hl i (List.mem_of_getLast? hg))] at hj
      exact hm hj
  · right
    rw [List.getLast?_concat]
    simp only
    rw [if_pos hi, List.dropLast_concat]
    exact ⟨xs ++ cs, i, rfl, hi, hr, fun x h => (List.mem_append.1 h).elim (hx x) (hc x)⟩

theorem oneBranch_of_last {l : List (Ins Nat)} (h : ∀ xs i ys, l = xs ++ i :: ys → i.op = .branch → ys = [])
    (hr : ∀ i ∈ l, i.op = .branch → i.rd = none) : OneBranch l := by
  by_cases hb : ∀ i ∈ l, i.op ≠ .branch
  · exact .inl hb
  · right
    have : ∃ i ∈ l, i.op = .branch := by
      apply Classical.byContradiction
      intro hn
      exact hb (fun i hi hc => hn ⟨i, hi, hc⟩)
    obtain ⟨i, hi, hop⟩ := this
    obtain ⟨xs, ys, rfl⟩ := List.append_of_mem hi
    have := h xs i ys rfl hop
    subst this
    refine ⟨xs, i, rfl, hop, hr i (by simp) hop, ?_⟩
    intro x hx hxo
    obtain ⟨a, b, rfl⟩ := List.append_of_mem hx
    have := h a x (b ++ [i]) (by simp) hxo
    simp at this

theorem run_app {M : Mach} {X : Type} [DecidableEq X] {H : Home X} : ∀ (a b : List (Ins X)) (t : State M X),
    run M H (a ++ b) t = (run M H a t).bind (run M H b) := by
  intro a b
  induction a with
  | nil => intro t; rfl
  | cons x a ih =>
    intro t
    simp only [List.cons_append, run]
    cases step M H x t with
    | none => rfl
    | some t' => exact ih t'

/-! ### Block by block -/

/-- Both executions have completed the same blocks, with the same effects. -/
def Joint (f : Fn) (M : Mach) (H : Home Nat) (H' : Home Name) (out : Nat → List (Ins Name)) (w : M.World) (e : Nat → Word)
    (e' : Name → Word) (r : Nat × State M Nat) (r' : Nat × State M Name) : Prop :=
  r.1 = r'.1 ∧ r.2.1 = r'.2.1 ∧ ∃ l lg, Path f.g.succs f.g.entry (l ++ [r.1]) r.1 ∧
    run (logged M) H (trace f.code l) (addLog [] (w, e)) = some (addLog lg r.2) ∧
    run (logged M) H' (trace out l) (addLog [] (w, e')) = some (addLog lg r'.2)

theorem joint_blks {f : Fn} {n : Nat} {univ : List Nat} {M : Mach} {nm : Nat → Nat} {H : Home Nat} {H' : Home Name}
    (hk : f.Linked) (he : f.g.entry ∈ univ) (hc : ∀ x ∈ univ, ∀ y ∈ f.g.succs x, y ∈ univ) (hn : 2 * univ.length + 2 ≤ n)
    (hp : f.Plain) (hbr : f.BranchLast) (hs : f.Scoped) (hH : f.Homes nm H H') (ht : f.Tame nm H) (hnd : f.params.Nodup)
    (hg : ∀ p ∈ f.params, f.isGlobal p = false) {S : St} {out : Nat → List (Ins Name)} (h : ssaBuild f n = some (S, out))
    (w : M.World) (e : Nat → Word) (e' : Name → Word)
    (hfn : ∀ v, f.isFunc v = true → e' (v, none) = e v) (hpar : ∀ v ∈ f.params, e' (v, some 0) = e v) (m : Nat) :
    (blks M H (f.prog f.code) m f.g.entry (w, e) = none ∧ blks M H' (f.prog out) m f.g.entry (w, e') = none) ∨
    ∃ r r', blks M H (f.prog f.code) m f.g.entry (w, e) = some r ∧ blks M H' (f.prog out) m f.g.entry (w, e') = some r' ∧
      Joint f M H H' out w e e' r r' := by
  have ob : ∀ b, OneBranch (f.code b) := fun b => oneBranch_of_last (hbr b) (hp.branch b)
  have ob' : ∀ b, Reach f.g.succs f.g.entry b → OneBranch (out b) := by
    obtain ⟨vis, post, rpo, l, idom, tr, df, h1, h2, h3, h4, h5, A⟩ := analysis_ok f.g univ n he hc hk.edges hk.entry hk.preds hn
    obtain ⟨phis, hphi, hS, hout⟩ := ssaBuild_some h h1 h2 h3 h4 h5
    simp only at hS hout
    subst hout
    have P := phiFacts hk A hphi
    obtain ⟨sub, E, Rin, Rphi, Rout, D⟩ := solve_ok n f.g.entry _ _ (pre_start P hg) hS (A.tree _)
    have C := cert_of_done A D
    intro b hb
    obtain ⟨cs, hcs, hcp, _⟩ := C.weave b hb
    rw [hcs]
    refine weave_branches (renBody_branches _ (C.body b hb) (ob b)) ?_
    intro c hc'
    obtain ⟨⟨v, a, k, hc'', _⟩, _⟩ := hcp c hc'
    rw [hc'']
    exact fun h => by cases h
  induction m with
  | zero =>
    right
    exact ⟨_, _, rfl, rfl, rfl, rfl, [], [], .nil _, rfl, rfl⟩
  | succ m ih =>
    rcases ih with ⟨i1, i2⟩ | ⟨⟨c, s⟩, ⟨c', s'⟩, i1, i2, j1, j2, l, lg, j3, j4, j5⟩
    · left
      simp only [blks, i1, i2, Option.bind_none, and_self]
    · simp only at j1 j2 j3 j4 j5
      subst j1
      simp only [blks, i1, i2, Option.bind_some]
      have key := ssaBuild_correct (M := logged M) hk he hc hn hp hs hH ht hnd hg h j3 (addLog [] (w, e)) (addLog [] (w, e')) rfl hfn hpar
      have tr : ∀ {X : Type} (code : Nat → List (Ins X)), trace code (l ++ [c]) = trace code l ++ code c := by
        intro X code
        simp [trace]
      rw [tr, tr, run_app, run_app, j4, j5, Option.bind_some, Option.bind_some, logged_block (ob c),
        logged_block (ob' c ⟨_, j3⟩)] at key
      show (blk M H (f.prog f.code) c (f.code c) s = none ∧ blk M H' (f.prog out) c (out c) s' = none) ∨ _
      cases hr : run M H (body (f.code c)) s with
      | none =>
        cases hr' : run M H' (body (out c)) s' with
        | none => left; unfold blk; rw [hr, hr']; exact ⟨rfl, rfl⟩
        | some t' => rw [hr, hr'] at key; cases key
      | some t =>
        cases hr' : run M H' (body (out c)) s' with
        | none => rw [hr, hr'] at key; cases key
        | some t' =>
          rw [hr, hr'] at key
          have key2 : (t.1, lg ++ ((branch? (f.code c)).map fun i => i.rs1.map (rd M H t)).toList) =
              (t'.1, lg ++ ((branch? (out c)).map fun i => i.rs1.map (rd M H' t')).toList) := Option.some.inj key
          simp only [Prod.mk.injEq, List.append_cancel_left_eq] at key2
          obtain ⟨k1, k2⟩ := key2
          have k3 : ((branch? (f.code c)).map fun i => i.rs1.map (rd M H t)) = ((branch? (out c)).map fun i => i.rs1.map (rd M H' t')) := by
            revert k2
            generalize ((branch? (f.code c)).map fun i => i.rs1.map (rd M H t)) = a
            generalize ((branch? (out c)).map fun i => i.rs1.map (rd M H' t')) = b
            intro k2
            cases a <;> cases b <;> simp_all
          have l1 : blk M H (f.prog f.code) c (f.code c) s =
              (leaveLog (f.prog f.code) c ((branch? (f.code c)).map fun i => i.rs1.map (rd M H t))).map fun d => (d, t) := by
            unfold blk
            rw [hr, Option.bind_some, leave_log]
          have l2 : blk M H' (f.prog out) c (out c) s' =
              (leaveLog (f.prog f.code) c ((branch? (f.code c)).map fun i => i.rs1.map (rd M H t))).map fun d => (d, t') := by
            unfold blk
            rw [hr', Option.bind_some, leave_log, ← k3]
            congr 1
          have l2' : blk M H' (f.prog out) c ((f.prog out).code c) s' = _ := l2
          have l1' : blk M H (f.prog f.code) c ((f.prog f.code).code c) s = _ := l1
          rw [l1, l2, l1', l2']
          cases hd : leaveLog (f.prog f.code) c ((branch? (f.code c)).map fun i => i.rs1.map (rd M H t)) with
          | none => left; exact ⟨rfl, rfl⟩
          | some d =>
            right
            refine ⟨(d, t), (d, t'), rfl, rfl, rfl, k1, l ++ [c], lg ++ ((branch? (f.code c)).map fun i => i.rs1.map (rd M H t)).toList, ?_, ?_, ?_⟩
            · refine Path.snoc j3 ?_
              show d ∈ f.g.succs c
              unfold Graph.succs
              unfold leaveLog at hd
              split at hd
              · have : (f.g.block c).next = some d := hd
                simp [this]
              · cases hd
              · split at hd
                · have : (f.g.block c).then_ = some d := hd
                  simp [this]
                · have : (f.g.block c).else_ = some d := hd
                  simp [this]
            · rw [tr, run_app, j4, Option.bind_some, logged_block (ob c), hr]
              rfl
            · rw [tr, run_app, j5, Option.bind_some, logged_block (ob' c ⟨_, j3⟩), hr', k3]
              rfl

end Shecc.SsaBuild
