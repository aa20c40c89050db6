import Verif.Lemmas.RenameSim

/-!
# What the renaming recursion computes
-/

namespace Shecc.SsaBuild
open Shecc.Cfg CRename CGraph

/-- How often a block pushes a variable. -/
def npush (f : Fn) (phis : Nat → List Nat) (x v : Nat) : Nat := (phis x ++ (f.code x).filterMap (·.rd)).count v

theorem renPhis_ok {f : Fn} : ∀ (ps : List Phi) (R : Ren), (ps.map (·.var)).Nodup → (∀ p ∈ ps, f.isGlobal p.var = false) →
    (renPhis f ps R).1 = ps.map (fun p => { p with sub := some (R.counter p.var) }) ∧
    (∀ v, (renPhis f ps R).2.counter v = R.counter v + (ps.map (·.var)).count v) ∧
    (∀ v, (renPhis f ps R).2.stack v = if v ∈ ps.map (·.var) then R.counter v :: R.stack v else R.stack v) := by
  intro ps
  induction ps with
  | nil => intro R _ _; simp [renPhis]
  | cons p ps ih =>
    intro R hn hg
    simp only [List.map_cons, List.nodup_cons] at hn
    have hgp := hg p (List.mem_cons_self ..)
    have hnew : newName f p.var R = ((p.var, some (R.counter p.var)), R.push p.var) := by
      unfold newName; rw [if_neg (by rw [hgp]; simp)]
    obtain ⟨h1, h2, h3⟩ := ih (R.push p.var) hn.2 (fun q hq => hg q (List.mem_cons_of_mem _ hq))
    have hcnt : ∀ q ∈ ps, (R.push p.var).counter q.var = R.counter q.var := by
      intro q hq
      have : q.var ≠ p.var := fun e => hn.1 (by rw [← e]; exact List.mem_map_of_mem hq)
      simp [Ren.push, upd, this]
    unfold renPhis
    rw [hnew]
    simp only
    rw [h1]
    refine ⟨?_, ?_, ?_⟩
    · rw [List.map_cons]
      congr 1
      apply List.map_congr_left
      intro q hq
      rw [hcnt q hq]
    · intro v
      rw [h2 v, List.map_cons, List.count_cons]
      unfold Ren.push upd
      by_cases hv : v = p.var
      · subst hv; simp; omega
      · have : ¬ p.var = v := fun e => hv e.symm
        simp [hv, this]
    · intro v
      rw [h3 v, List.map_cons]
      by_cases hv : v = p.var
      · subst hv
        rw [if_neg hn.1, if_pos (List.mem_cons_self ..)]
        simp [Ren.push, upd]
      · simp only [List.mem_cons, hv, false_or]
        simp [Ren.push, upd, hv]

theorem renPhis_Ok {f : Fn} : ∀ (ps : List Phi) {R : Ren}, R.Ok → (renPhis f ps R).2.Ok := by
  intro ps
  induction ps with
  | nil => intro R h; exact h
  | cons p ps ih =>
    intro R h
    exact ih (by simpa [newOpt] using h.newOpt (f := f) (some p.var))

theorem renBody_stack {f : Fn} : ∀ (is : List (Ins Nat)) {R R2 : Ren} {l : List (Ins Name)}, renBody f is R = some (l, R2) →
    ∀ v, (f.isGlobal v = false → R2.counter v = R.counter v + (is.filterMap (·.rd)).count v ∧
      ∃ xs, R2.stack v = xs ++ R.stack v ∧ xs.length = (is.filterMap (·.rd)).count v) ∧
      (f.isGlobal v = true → R2.counter v = R.counter v ∧ R2.stack v = R.stack v) := by
  intro is
  induction is with
  | nil =>
    intro R R2 l h v
    simp only [renBody, Option.some.injEq, Prod.mk.injEq] at h
    obtain ⟨_, rfl⟩ := h
    exact ⟨fun _ => ⟨by simp, [], rfl, by simp⟩, fun _ => ⟨rfl, rfl⟩⟩
  | cons i is ih =>
    intro R R2 l h v
    obtain ⟨j, R1, js, h1, h2, rfl⟩ := renBody_cons h
    obtain ⟨_, _, _, e, _⟩ := renIns_some h1
    obtain ⟨g1, g2⟩ := ih h2 v
    cases hrd : i.rd with
    | none =>
      rw [hrd] at e
      have e : R1 = R := e
      subst e
      simp only [List.filterMap_cons, hrd]
      exact ⟨g1, g2⟩
    | some d =>
      rw [hrd] at e
      have e : R1 = (newName f d R).2 := e
      simp only [List.filterMap_cons, hrd, List.count_cons]
      unfold newName at e
      by_cases hd : f.isGlobal d = true
      · rw [if_pos hd] at e
        have e : R1 = R := e
        subst e
        refine ⟨fun hv => ?_, g2⟩
        have : ¬ d = v := fun e => by rw [e, hv] at hd; cases hd
        simpa [this] using g1 hv
      · rw [if_neg hd] at e
        have e : R1 = R.push d := e
        subst e
        constructor
        · intro hv
          obtain ⟨g3, xs, g4, g5⟩ := g1 hv
          by_cases hdv : d = v
          · subst hdv
            refine ⟨?_, xs ++ [R.counter d], ?_, ?_⟩
            · rw [g3]; simp [Ren.push, upd]; omega
            · rw [g4]; simp [Ren.push, upd]
            · simp [g5]
          · have : ¬ v = d := fun e => hdv e.symm
            refine ⟨?_, xs, ?_, ?_⟩
            · rw [g3]; simp [Ren.push, upd, this, hdv]
            · rw [g4]; simp [Ren.push, upd, this]
            · simp [g5, hdv]
        · intro hv
          have : ¬ v = d := fun e => hd (by rw [← e]; exact hv)
          obtain ⟨g3, g4⟩ := g2 hv
          refine ⟨?_, ?_⟩
          · rw [g3]; simp [Ren.push, upd, this]
          · rw [g4]; simp [Ren.push, upd, this]

theorem popAll_ok {f : Fn} : ∀ (vs : List Nat) (R : Ren) (v : Nat), (popAll f vs R).counter = R.counter ∧
    (popAll f vs R).stack v = if f.isGlobal v then R.stack v else (R.stack v).drop (vs.count v) := by
  intro vs
  induction vs with
  | nil => intro R v; simp [popAll]
  | cons u vs ih =>
    intro R v
    obtain ⟨h1, h2⟩ := ih (popName f u R) v
    have e : popAll f (u :: vs) R = popAll f vs (popName f u R) := rfl
    rw [e, h1, h2]
    unfold popName
    by_cases hu : f.isGlobal u = true
    · rw [if_pos hu]
      refine ⟨rfl, ?_⟩
      by_cases hv : f.isGlobal v = true
      · simp [hv]
      · have : ¬ u = v := fun e => hv (by rw [← e]; exact hu)
        simp [hv, List.count_cons, this]
    · rw [if_neg hu]
      refine ⟨rfl, ?_⟩
      by_cases hv : f.isGlobal v = true
      · have : ¬ v = u := fun e => hu (by rw [← e]; exact hv)
        simp [hv, upd, this]
      · by_cases huv : v = u
        · subst huv
          simp [hv, upd, List.count_cons, List.drop_tail]
        · have : ¬ u = v := fun e => huv e.symm
          simp [hv, upd, huv, List.count_cons, this]

/-- The operands that a block adds to the phis for `v` of block `x`, for the successors `cs`. -/
def contrib (b : Nat) (R : Ren) (cs : List Nat) (x v : Nat) : List (Nat × Nat) :=
  (cs.filter (· == x)).flatMap fun _ => (top R v).toList.map fun k => (b, k)

theorem addOps_ok {b : Nat} {R : Ren} : ∀ (ps : List Phi) {qs : List Phi}, addOps b R ps = some qs →
    qs = ps.map (fun p => { p with ops := p.ops ++ (top R p.var).toList.map fun k => (b, k) }) ∧
    ∀ p ∈ ps, (top R p.var).isSome := by
  intro ps
  induction ps with
  | nil => intro qs h; simp only [addOps, Option.some.injEq] at h; subst h; simp
  | cons p ps ih =>
    intro qs h
    unfold addOps at h
    split at h
    · rename_i k r qs' hs hq
      simp only [Option.some.injEq] at h
      subst h
      obtain ⟨h1, h2⟩ := ih hq
      have ht : top R p.var = some k := by simp [top, hs]
      refine ⟨?_, ?_⟩
      · rw [h1, List.map_cons, ht]; rfl
      · intro q hq
        simp only [List.mem_cons] at hq
        rcases hq with rfl | hq
        · simp [ht]
        · exact h2 q hq
    · cases h

theorem addOpsAll_ok {b : Nat} {R : Ren} : ∀ (cs : List Nat) {phi phi' : Nat → List Phi}, addOpsAll b R cs phi = some phi' →
    (∀ x, phi' x = (phi x).map (fun p => { p with ops := p.ops ++ contrib b R cs x p.var })) ∧
    ∀ x ∈ cs, ∀ p ∈ phi x, (top R p.var).isSome := by
  intro cs
  induction cs with
  | nil =>
    intro phi phi' h
    simp only [addOpsAll, Option.some.injEq] at h
    subst h
    refine ⟨fun x => ?_, fun x hx => by cases hx⟩
    simp [contrib]
  | cons c cs ih =>
    intro phi phi' h
    unfold addOpsAll at h
    split at h
    · cases h
    · rename_i ps hps
      obtain ⟨h1, h2⟩ := ih h
      obtain ⟨h3, h4⟩ := addOps_ok _ hps
      refine ⟨fun x => ?_, fun x hx p hp => ?_⟩
      · rw [h1 x]
        by_cases hx : x = c
        · subst hx
          simp only [upd, if_true]
          rw [h3, List.map_map]
          apply List.map_congr_left
          intro p _
          simp [contrib]
        · have : ¬ c = x := fun e => hx e.symm
          simp only [upd, if_neg hx]
          apply List.map_congr_left
          intro p _
          simp [contrib, this]
      · simp only [List.mem_cons] at hx
        by_cases hxc : x = c
        · subst hxc
          exact h4 p hp
        · rcases hx with hx | hx
          · exact absurd hx hxc
          · exact h2 x hx p (by simpa [upd, hxc] using hp)

/-- The subscripts given to `v` by a stretch of renamed code. -/
def defsOf (v : Nat) (l : List (Ins Name)) : List Nat :=
  l.filterMap fun j => match j.rd with
    | some (u, some k) => if u = v then some k else none
    | _ => none

/-- The subscripts given to `v` in a block with phis `ps`, whose subscripts are `sub`, and code `l`. -/
def defsAt (ps : List Nat) (sub : Nat → Nat) (l : List (Ins Name)) (v : Nat) : List Nat :=
  (if v ∈ ps then [sub v] else []) ++ defsOf v l

theorem flatMap_congr' {L : List Nat} {g h : Nat → List Nat} (e : ∀ x ∈ L, g x = h x) : L.flatMap g = L.flatMap h := by
  induction L with
  | nil => rfl
  | cons x L ih =>
    rw [List.flatMap_cons, List.flatMap_cons, e x (List.mem_cons_self ..), ih (fun y hy => e y (List.mem_cons_of_mem _ hy))]

theorem renBody_defs {f : Fn} {v : Nat} (hv : f.isGlobal v = false) : ∀ (is : List (Ins Nat)) {R R2 : Ren} {l : List (Ins Name)},
    renBody f is R = some (l, R2) → defsOf v l = List.range' (R.counter v) ((is.filterMap (·.rd)).count v) := by
  intro is
  induction is with
  | nil =>
    intro R R2 l h
    simp only [renBody, Option.some.injEq, Prod.mk.injEq] at h
    rw [← h.1]
    rfl
  | cons i is ih =>
    intro R R2 l h
    obtain ⟨j, R1, js, h1, h2, rfl⟩ := renBody_cons h
    have h3 := ih h2
    obtain ⟨_, _, e3, e4, _⟩ := renIns_some h1
    unfold defsOf at h3 ⊢
    rw [List.filterMap_cons]
    cases hi : i.rd with
    | none =>
      rw [hi] at e3 e4
      simp only [newOpt] at e3 e4
      rw [e3]
      simp only
      rw [h3, e4, List.filterMap_cons, hi]
    | some d =>
      rw [hi] at e3 e4
      simp only [newOpt] at e3 e4
      unfold newName at e3 e4
      rw [List.filterMap_cons, hi]
      simp only
      by_cases hg : f.isGlobal d = true
      · rw [if_pos hg] at e3 e4
        have hne : d ≠ v := fun e => by rw [e, hv] at hg; cases hg
        rw [e3]
        simp only
        rw [h3, e4, List.count_cons]
        simp [hne]
      · rw [if_neg hg] at e3 e4
        rw [e3]
        simp only
        by_cases hd : d = v
        · subst hd
          simp only [if_true]
          rw [h3, e4, List.count_cons]
          simp only [beq_self_eq_true, if_true]
          rw [List.range'_succ]
          simp [Ren.push, upd]
        · rw [if_neg hd, h3, e4, List.count_cons]
          simp [Ren.push, upd, hd, Ne.symm hd]

/-- Preorder of the tree below a block. -/
def subtree (kids : Nat → List Nat) : Nat → Nat → List Nat
  | 0, _ => []
  | n + 1, b => b :: (kids b).flatMap (subtree kids n)

/-- What processing the blocks `L`, starting from the tree roots `roots`, has done. -/
structure Done (f : Fn) (kids phis : Nat → List Nat) (L roots : List Nat) (S S' : St) (sub : Nat → Nat → Nat)
    (E : Nat → Nat → List (Nat × Nat)) (Rin Rphi Rout : Nat → Ren) : Prop where
  roots : ∀ c ∈ roots, c ∈ L ∧ ∀ v, top (Rin c) v = top S.ren v
  stack : ∀ v, S'.ren.stack v = S.ren.stack v
  counter : ∀ v, f.isGlobal v = false → S'.ren.counter v = S.ren.counter v + (L.map (fun x => npush f phis x v)).sum
  codeOut : ∀ x, x ∉ L → S'.code x = S.code x
  phiEq : ∀ x, S'.phi x = (S.phi x).map fun p =>
    { var := p.var, sub := if x ∈ L then some (sub x p.var) else p.sub, ops := p.ops ++ E x p.var }
  closed : ∀ x ∈ L, ∀ y ∈ kids x, y ∈ L
  body : ∀ x ∈ L, renBody f (f.code x) (Rphi x) = some (S'.code x, Rout x)
  ok : ∀ x ∈ L, (Rphi x).Ok
  phi : ∀ x ∈ L, ∀ v, top (Rphi x) v = if v ∈ phis x then some (sub x v) else top (Rin x) v
  chain : ∀ x ∈ L, ∀ y ∈ kids x, ∀ v, top (Rin y) v = top (Rout x) v
  opsSound : ∀ x v, v ∈ phis x → ∀ o ∈ E x v, o.1 ∈ L ∧ x ∈ f.g.succs o.1 ∧ top (Rout o.1) v = some o.2
  opsComplete : ∀ y ∈ L, ∀ x ∈ f.g.succs y, ∀ v ∈ phis x, (top (Rout y) v).isSome ∧ ∃ k, (y, k) ∈ E x v
  bound : ∀ x ∈ L, ∀ v, f.isGlobal v = false → (Rout x).counter v ≤ S'.ren.counter v
  defs : ∀ v, f.isGlobal v = false → L.flatMap (fun x => defsAt (phis x) (sub x) (S'.code x) v) =
    List.range' (S.ren.counter v) (L.map (fun x => npush f phis x v)).sum

theorem Done.vars {f : Fn} {kids phis : Nat → List Nat} {L roots : List Nat} {S S' : St} {sub E Rin Rphi Rout}
    (D : Done f kids phis L roots S S' sub E Rin Rphi Rout) (h : ∀ x, (S.phi x).map (·.var) = phis x) :
    ∀ x, (S'.phi x).map (·.var) = phis x := by
  intro x
  rw [D.phiEq x, List.map_map, ← h x]
  rfl

theorem Done.Ok {f : Fn} {kids phis : Nat → List Nat} {L roots : List Nat} {S S' : St} {sub E Rin Rphi Rout}
    (D : Done f kids phis L roots S S' sub E Rin Rphi Rout) (hg : ∀ v, f.isGlobal v = true → S.ren.stack v = []) (h : S.ren.Ok) :
    S'.ren.Ok := by
  intro v k hk
  rw [D.stack v] at hk
  by_cases hv : f.isGlobal v = true
  · rw [hg v hv] at hk; cases hk
  · have := D.counter v (by simpa using hv)
    have := h v k hk
    omega

/-- One part after the other. -/
theorem Done.append {f : Fn} {kids phis : Nat → List Nat} {L1 L2 r1 r2 : List Nat} {S S1 S2 : St}
    {sub1 E1 Rin1 Rphi1 Rout1 sub2 E2 Rin2 Rphi2 Rout2}
    (D1 : Done f kids phis L1 r1 S S1 sub1 E1 Rin1 Rphi1 Rout1) (D2 : Done f kids phis L2 r2 S1 S2 sub2 E2 Rin2 Rphi2 Rout2)
    (hd : ∀ x ∈ L1, x ∉ L2) :
    Done f kids phis (L1 ++ L2) (r1 ++ r2) S S2 (fun x => if x ∈ L1 then sub1 x else sub2 x) (fun x v => E1 x v ++ E2 x v)
      (fun x => if x ∈ L1 then Rin1 x else Rin2 x) (fun x => if x ∈ L1 then Rphi1 x else Rphi2 x)
      (fun x => if x ∈ L1 then Rout1 x else Rout2 x) := by
  have hd' : ∀ x ∈ L2, x ∉ L1 := fun x h h' => hd x h' h
  refine ⟨?_, ?_, ?_, ?_, ?_, ?_, ?_, ?_, ?_, ?_, ?_, ?_, ?_, ?_⟩
  · intro c hc
    rcases List.mem_append.1 hc with hc | hc
    · obtain ⟨h1, h2⟩ := D1.roots c hc
      exact ⟨List.mem_append_left _ h1, fun v => by simp only [if_pos h1]; exact h2 v⟩
    · obtain ⟨h1, h2⟩ := D2.roots c hc
      refine ⟨List.mem_append_right _ h1, fun v => ?_⟩
      simp only [if_neg (hd' c h1)]
      rw [h2 v]
      unfold top
      rw [D1.stack v]
  · intro v; rw [D2.stack, D1.stack]
  · intro v hv; rw [D2.counter v hv, D1.counter v hv, List.map_append, List.sum_append, Nat.add_assoc]
  · intro x hx
    simp only [List.mem_append, not_or] at hx
    rw [D2.codeOut x hx.2, D1.codeOut x hx.1]
  · intro x
    rw [D2.phiEq x, D1.phiEq x, List.map_map]
    apply List.map_congr_left
    intro p _
    simp only [Function.comp, List.mem_append, List.append_assoc]
    congr 1
    by_cases h1 : x ∈ L1
    · simp [h1, hd x h1]
    · simp [h1]
  · intro x hx y hy
    rcases List.mem_append.1 hx with hx | hx
    · exact List.mem_append_left _ (D1.closed x hx y hy)
    · exact List.mem_append_right _ (D2.closed x hx y hy)
  · intro x hx
    rcases List.mem_append.1 hx with hx | hx
    · simp only [if_pos hx]
      rw [D2.codeOut x (hd x hx)]
      exact D1.body x hx
    · simp only [if_neg (hd' x hx)]
      exact D2.body x hx
  · intro x hx
    rcases List.mem_append.1 hx with hx | hx
    · simp only [if_pos hx]; exact D1.ok x hx
    · simp only [if_neg (hd' x hx)]; exact D2.ok x hx
  · intro x hx v
    rcases List.mem_append.1 hx with hx | hx
    · simp only [if_pos hx]; exact D1.phi x hx v
    · simp only [if_neg (hd' x hx)]; exact D2.phi x hx v
  · intro x hx y hy v
    rcases List.mem_append.1 hx with hx | hx
    · simp only [if_pos hx, if_pos (D1.closed x hx y hy)]; exact D1.chain x hx y hy v
    · simp only [if_neg (hd' x hx), if_neg (hd' y (D2.closed x hx y hy))]; exact D2.chain x hx y hy v
  · intro x v hv o ho
    rcases List.mem_append.1 ho with ho | ho
    · obtain ⟨h1, h2, h3⟩ := D1.opsSound x v hv o ho
      exact ⟨List.mem_append_left _ h1, h2, by simp only [if_pos h1]; exact h3⟩
    · obtain ⟨h1, h2, h3⟩ := D2.opsSound x v hv o ho
      exact ⟨List.mem_append_right _ h1, h2, by simp only [if_neg (hd' _ h1)]; exact h3⟩
  · intro y hy x hx v hv
    rcases List.mem_append.1 hy with hy | hy
    · obtain ⟨h1, k, h2⟩ := D1.opsComplete y hy x hx v hv
      exact ⟨by simp only [if_pos hy]; exact h1, k, List.mem_append_left _ h2⟩
    · obtain ⟨h1, k, h2⟩ := D2.opsComplete y hy x hx v hv
      exact ⟨by simp only [if_neg (hd' y hy)]; exact h1, k, List.mem_append_right _ h2⟩
  · intro x hx v hv
    rcases List.mem_append.1 hx with hx | hx
    · simp only [if_pos hx]
      have := D1.bound x hx v hv
      have := D2.counter v hv
      omega
    · simp only [if_neg (hd' x hx)]
      exact D2.bound x hx v hv
  · intro v hv
    rw [List.flatMap_append, List.map_append, List.sum_append]
    rw [flatMap_congr' (L := L1) (h := fun x => defsAt (phis x) (sub1 x) (S1.code x) v), D1.defs v hv,
      flatMap_congr' (L := L2) (h := fun x => defsAt (phis x) (sub2 x) (S2.code x) v), D2.defs v hv, D1.counter v hv]
    · exact List.range'_append_1 ..
    · intro x hx
      simp only [if_neg (hd' x hx)]
    · intro x hx
      simp only [if_pos hx]
      rw [D2.codeOut x (hd x hx)]

theorem Done.nil {f : Fn} {kids phis : Nat → List Nat} (S : St) :
    Done f kids phis [] [] S S (fun _ _ => 0) (fun _ _ => []) (fun _ => S.ren) (fun _ => S.ren) (fun _ => S.ren) := by
  refine ⟨fun c h => ?_, fun _ => rfl, fun _ _ => rfl, fun _ _ => rfl, fun x => ?_, fun x h => ?_, fun x h => ?_, fun x h => ?_,
    fun x h => ?_, fun x h => ?_, fun x v _ o h => ?_, fun x h => ?_, fun x h => ?_, fun _ _ => rfl⟩
  any_goals cases h
  simp

/-- The state in which a block's children are processed, and afterwards. -/
structure Pre (f : Fn) (phis : Nat → List Nat) (S : St) : Prop where
  vars : ∀ x, (S.phi x).map (·.var) = phis x
  nodup : ∀ x, (phis x).Nodup
  nonglobal : ∀ x, ∀ v ∈ phis x, f.isGlobal v = false
  ok : S.ren.Ok
  glob : ∀ v, f.isGlobal v = true → S.ren.stack v = []

theorem solve_ok {f : Fn} {kids phis : Nat → List Nat} : ∀ (n b : Nat) (S S' : St), Pre f phis S → solve f kids n b S = some S' →
    (subtree kids n b).Nodup → ∃ sub E Rin Rphi Rout, Done f kids phis (subtree kids n b) [b] S S' sub E Rin Rphi Rout := by
  intro n
  induction n with
  | zero => intro b S S' _ h; cases h
  | succ n ih =>
    have all : ∀ (cs : List Nat) (S S' : St), Pre f phis S → solveAll (solve f kids n) cs S = some S' →
        (cs.flatMap (subtree kids n)).Nodup →
        ∃ sub E Rin Rphi Rout, Done f kids phis (cs.flatMap (subtree kids n)) cs S S' sub E Rin Rphi Rout := by
      intro cs
      induction cs with
      | nil =>
        intro S S' _ h _
        simp only [solveAll, Option.some.injEq] at h
        subst h
        exact ⟨_, _, _, _, _, Done.nil S⟩
      | cons c cs ihc =>
        intro S S' P h hn
        unfold solveAll at h
        split at h
        · cases h
        · rename_i S1 h1
          rw [List.flatMap_cons] at hn ⊢
          obtain ⟨hn1, hn2, hn3⟩ := List.nodup_append.1 hn
          obtain ⟨sub1, E1, Rin1, Rphi1, Rout1, D1⟩ := ih c S S1 P h1 hn1
          have P1 : Pre f phis S1 := ⟨D1.vars P.vars, P.nodup, P.nonglobal, D1.Ok P.glob P.ok, fun v hv => by rw [D1.stack, P.glob v hv]⟩
          obtain ⟨sub2, E2, Rin2, Rphi2, Rout2, D2⟩ := ihc S1 S' P1 h hn2
          exact ⟨_, _, _, _, _, D1.append D2 (fun x hx hx' => hn3 x hx x hx' rfl)⟩
    intro b S S' P h hn
    unfold solve at h
    simp only at h
    split at h
    · cases h
    · rename_i js R hb
      split at h
      · cases h
      · rename_i phi1 ha
        split at h
        · cases h
        · rename_i S2 hs
          simp only [Option.some.injEq] at h
          rw [subtree] at hn ⊢
          rw [List.nodup_cons] at hn
          obtain ⟨hbL, hnL⟩ := hn
          obtain ⟨p1, p2, p3⟩ := renPhis_ok (S.phi b) S.ren (by rw [P.vars]; exact P.nodup b)
            (fun p hp => P.nonglobal b p.var (by rw [← P.vars b]; exact List.mem_map_of_mem hp))
          rw [P.vars b] at p2 p3
          generalize hR0 : (renPhis f (S.phi b) S.ren).2 = R0 at *
          have hR0ok : R0.Ok := by rw [← hR0]; exact renPhis_Ok _ P.ok
          obtain ⟨a1, a2⟩ := addOpsAll_ok _ ha
          have hst := renBody_stack _ hb
          obtain ⟨hRok, hRle⟩ := renBody_mono _ hb hR0ok
          have P1 : Pre f phis ⟨R, phi1, upd S.code b js⟩ := by
            refine ⟨fun x => ?_, P.nodup, P.nonglobal, hRok, fun v hv => ?_⟩
            · show (phi1 x).map _ = _
              rw [a1 x, List.map_map, ← P.vars x]
              unfold upd
              split
              · rename_i e; subst e; rw [p1, List.map_map]; rfl
              · rfl
            · show R.stack v = []
              rw [((hst v).2 hv).2, p3 v, if_neg (fun hm => by have := P.nonglobal b v hm; rw [hv] at this; cases this)]
              exact P.glob v hv
          obtain ⟨sub2, E2, Rin2, Rphi2, Rout2, D⟩ := all (kids b) _ S2 P1 hs hnL
          have hcount : ∀ v, f.isGlobal v = false → R.counter v = S.ren.counter v + npush f phis b v := by
            intro v hv
            rw [((hst v).1 hv).1, p2 v, npush, List.count_append]
            omega
          have Dst : ∀ v, S2.ren.stack v = R.stack v := D.stack
          have Dct : ∀ v, f.isGlobal v = false → S2.ren.counter v = R.counter v + _ := D.counter
          have hpop := popAll_ok (f := f) (pushed f (S.phi b) b) S2.ren
          have hpushed : pushed f (S.phi b) b = phis b ++ (f.code b).filterMap (·.rd) := by unfold pushed; rw [P.vars]
          have hct' : S'.ren.counter = S2.ren.counter := by rw [← h]; exact (hpop 0).1
          have hcode' : S'.code = S2.code := by rw [← h]
          have hphi' : S'.phi = S2.phi := by rw [← h]
          have top0 : ∀ v, top R0 v = if v ∈ phis b then some (S.ren.counter v) else top S.ren v := by
            intro v
            unfold top
            rw [p3 v]
            split <;> rfl
          refine ⟨fun x => if x = b then S.ren.counter else sub2 x, fun x v => contrib b R (f.g.succs b) x v ++ E2 x v,
            fun x => if x = b then S.ren else Rin2 x, fun x => if x = b then R0 else Rphi2 x, fun x => if x = b then R else Rout2 x, ?_⟩
          have neb : ∀ x ∈ (kids b).flatMap (subtree kids n), x ≠ b := fun x hx e => hbL (e ▸ hx)
          refine ⟨?_, ?_, ?_, ?_, ?_, ?_, ?_, ?_, ?_, ?_, ?_, ?_, ?_, ?_⟩
          · intro c hc
            simp only [List.mem_singleton] at hc
            subst hc
            exact ⟨List.mem_cons_self .., fun v => by simp⟩
          · intro v
            rw [← h]
            show (popAll f _ S2.ren).stack v = _
            rw [(hpop v).2, Dst v, hpushed]
            by_cases hv : f.isGlobal v = true
            · rw [if_pos hv, ((hst v).2 hv).2, p3 v, if_neg (fun hm => by have := P.nonglobal b v hm; rw [hv] at this; cases this)]
            · rw [if_neg hv]
              obtain ⟨_, xs, hx1, hx2⟩ := (hst v).1 (by simpa using hv)
              rw [hx1, List.count_append, p3 v]
              have hcn : (phis b).count v = if v ∈ phis b then 1 else 0 := by
                split
                · rename_i hm; rw [(P.nodup b).count, if_pos hm]
                · rename_i hm; exact List.count_eq_zero.2 hm
              rw [hcn]
              split
              · rw [show xs ++ S.ren.counter v :: S.ren.stack v = (xs ++ [S.ren.counter v]) ++ S.ren.stack v by simp]
                rw [show 1 + ((f.code b).filterMap (·.rd)).count v = (xs ++ [S.ren.counter v]).length by simp [hx2]; omega]
                exact List.drop_left
              · rw [Nat.zero_add, ← hx2]
                exact List.drop_left
          · intro v hv
            rw [hct', Dct v hv, hcount v hv, List.map_cons, List.sum_cons, Nat.add_assoc]
          · intro x hx
            simp only [List.mem_cons, not_or] at hx
            rw [hcode', D.codeOut x hx.2]
            simp [upd, hx.1]
          · intro x
            rw [hphi', D.phiEq x]
            show (phi1 x).map _ = _
            rw [a1 x, List.map_map]
            by_cases hx : x = b
            · subst hx
              simp only [upd, if_true]
              rw [p1, List.map_map]
              apply List.map_congr_left
              intro p _
              simp [Function.comp, hbL]
            · simp only [upd, if_neg hx]
              apply List.map_congr_left
              intro p _
              simp [Function.comp, hx]
          · intro x hx y hy
            simp only [List.mem_cons] at hx
            rcases hx with rfl | hx
            · exact List.mem_cons_of_mem _ (D.roots y hy).1
            · exact List.mem_cons_of_mem _ (D.closed x hx y hy)
          · intro x hx
            simp only [List.mem_cons] at hx
            rcases hx with rfl | hx
            · simp only [if_true]
              rw [hcode', D.codeOut x hbL]
              simp only [upd, if_true]
              exact hb
            · simp only [if_neg (neb x hx)]
              rw [hcode']
              exact D.body x hx
          · intro x hx
            simp only [List.mem_cons] at hx
            rcases hx with rfl | hx
            · simp only [if_true]; exact hR0ok
            · simp only [if_neg (neb x hx)]; exact D.ok x hx
          · intro x hx v
            simp only [List.mem_cons] at hx
            rcases hx with rfl | hx
            · simp only [if_true]; exact top0 v
            · simp only [if_neg (neb x hx)]; exact D.phi x hx v
          · intro x hx y hy v
            simp only [List.mem_cons] at hx
            rcases hx with rfl | hx
            · obtain ⟨hy1, hy2⟩ := D.roots y hy
              simp only [if_neg (neb y hy1), if_true]
              exact hy2 v
            · have hy1 := D.closed x hx y hy
              simp only [if_neg (neb y hy1), if_neg (neb x hx)]
              exact D.chain x hx y hy v
          · intro x v hv o ho
            rcases List.mem_append.1 ho with ho | ho
            · unfold contrib at ho
              simp only [List.mem_flatMap, List.mem_filter, beq_iff_eq, List.mem_map, Option.mem_toList] at ho
              obtain ⟨c, ⟨hc, rfl⟩, k, hk, rfl⟩ := ho
              exact ⟨List.mem_cons_self .., hc, by simp only [if_true]; exact hk⟩
            · obtain ⟨h1, h2, h3⟩ := D.opsSound x v hv o ho
              exact ⟨List.mem_cons_of_mem _ h1, h2, by simp only [if_neg (neb _ h1)]; exact h3⟩
          · intro y hy x hx v hv
            simp only [List.mem_cons] at hy
            rcases hy with rfl | hy
            · simp only [if_true]
              have hsome : (top R v).isSome := by
                have hv' : v ∈ (upd S.phi y (renPhis f (S.phi y) S.ren).1 x).map (·.var) := by
                  rw [← P.vars x] at hv
                  unfold upd
                  split
                  · rename_i e; subst e; rw [p1, List.map_map]; exact hv
                  · exact hv
                obtain ⟨p, hp, rfl⟩ := List.mem_map.1 hv'
                exact a2 x hx p hp
              refine ⟨hsome, ?_⟩
              obtain ⟨k, hk⟩ := Option.isSome_iff_exists.1 hsome
              refine ⟨k, List.mem_append_left _ ?_⟩
              unfold contrib
              simp only [List.mem_flatMap, List.mem_filter, beq_iff_eq, List.mem_map, Option.mem_toList]
              exact ⟨x, ⟨hx, rfl⟩, k, hk, rfl⟩
            · obtain ⟨h1, k, h2⟩ := D.opsComplete y hy x hx v hv
              exact ⟨by simp only [if_neg (neb y hy)]; exact h1, k, List.mem_append_right _ h2⟩
          · intro x hx v hv
            rw [hct']
            simp only [List.mem_cons] at hx
            rcases hx with rfl | hx
            · simp only [if_true]
              rw [Dct v hv]
              omega
            · simp only [if_neg (neb x hx)]
              exact D.bound x hx v hv
          · intro v hv
            rw [List.flatMap_cons, List.map_cons, List.sum_cons,
              flatMap_congr' (L := (kids b).flatMap (subtree kids n)) (h := fun x => defsAt (phis x) (sub2 x) (S2.code x) v)]
            · have e := D.defs v hv
              rw [show ({ ren := R, phi := phi1, code := upd S.code b js } : St).ren.counter v = R.counter v from rfl] at e
              rw [e]
              simp only [if_true]
              rw [hcode', D.codeOut b hbL]
              simp only [upd, if_true]
              unfold defsAt
              rw [renBody_defs hv _ hb, p2 v, hcount v hv]
              have hcn : (phis b).count v = if v ∈ phis b then 1 else 0 := (P.nodup b).count
              unfold npush
              rw [List.count_append, hcn]
              split
              · rw [List.append_assoc, ← Nat.add_assoc, List.range'_append_1,
                  show [S.ren.counter v] = List.range' (S.ren.counter v) 1 from rfl, List.range'_append_1, Nat.add_assoc]
              · rw [List.nil_append, Nat.zero_add, Nat.add_zero, List.range'_append_1]
            · intro x hx
              simp only [if_neg (neb x hx)]
              rw [hcode']

end Shecc.SsaBuild
