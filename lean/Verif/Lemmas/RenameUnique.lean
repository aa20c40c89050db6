import Verif.Lemmas.RenameMain

/-!
# Each name is assigned once, and before it is used
-/

namespace Shecc.SsaBuild
open Shecc.Cfg CGraph
open CRename

theorem count_defsOf (v k : Nat) (l : List (Ins Name)) : (l.filterMap (·.rd)).count (v, some k) = (defsOf v l).count k := by
  induction l with
  | nil => rfl
  | cons j l ih =>
    unfold defsOf at ih ⊢
    rw [List.filterMap_cons, List.filterMap_cons]
    rcases hj : j.rd with _ | ⟨u, _ | m⟩
    · simp only; exact ih
    · simp only
      rw [List.count_cons, ih]
      simp
    · simp only
      rw [List.count_cons, ih]
      by_cases hu : u = v
      · subst hu
        simp only [if_true]
        rw [List.count_cons]
        simp
      · simp only [if_neg hu]
        have : ((u, some m) == (v, some k)) = false := by simp [hu]
        simp [this]

theorem count_phis (v k : Nat) (sub : Nat → Nat) : ∀ (ps : List Nat), ps.Nodup →
    (ps.map fun u => ((u, some (sub u)) : Name)).count (v, some k) = (if v ∈ ps then [sub v] else []).count k := by
  intro ps
  induction ps with
  | nil => intro _; rfl
  | cons u ps ih =>
    intro hn
    rw [List.nodup_cons] at hn
    rw [List.map_cons, List.count_cons, ih hn.2]
    by_cases hu : u = v
    · subst hu
      rw [if_neg hn.1, if_pos (List.mem_cons_self ..)]
      simp [List.count_cons]
    · have : ((u, some (sub u)) == ((v, some k) : Name)) = false := by simp [hu]
      simp [this, Ne.symm hu]

structure Unique (f : Fn) (S : St) : Prop where
  once : ∀ b, Reach f.g.succs f.g.entry b → ∀ v k, f.isGlobal v = false → (assigned S b).count (v, some k) ≤ 1
  block : ∀ b c, Reach f.g.succs f.g.entry b → Reach f.g.succs f.g.entry c → ∀ v k, f.isGlobal v = false →
    (v, some k) ∈ assigned S b → (v, some k) ∈ assigned S c → b = c
  param : ∀ b, Reach f.g.succs f.g.entry b → ∀ v k, f.isGlobal v = false → (v, some k) ∈ assigned S b → f.params.count v ≤ k

theorem nodup_flatMap_block {L : List Nat} {g : Nat → List Nat} (h : (L.flatMap g).Nodup) : ∀ x ∈ L, (g x).Nodup := by
  induction L with
  | nil => intro x hx; cases hx
  | cons y L ih =>
    rw [List.flatMap_cons, List.nodup_append] at h
    intro x hx
    simp only [List.mem_cons] at hx
    rcases hx with rfl | hx
    · exact h.1
    · exact ih h.2.1 x hx

theorem nodup_flatMap_disjoint {L : List Nat} {g : Nat → List Nat} (h : (L.flatMap g).Nodup) : ∀ x ∈ L, ∀ y ∈ L, ∀ k ∈ g x, k ∈ g y →
    x = y := by
  induction L with
  | nil => intro x hx; cases hx
  | cons z L ih =>
    rw [List.flatMap_cons, List.nodup_append] at h
    intro x hx y hy k hkx hky
    simp only [List.mem_cons] at hx hy
    rcases hx with rfl | hx <;> rcases hy with rfl | hy
    · rfl
    · exact absurd rfl (h.2.2 k hkx k (List.mem_flatMap.2 ⟨y, hy, hky⟩))
    · exact absurd rfl (h.2.2 k hky k (List.mem_flatMap.2 ⟨x, hx, hkx⟩))
    · exact ih h.2.1 x hx y hy k hkx hky

section
variable {f : Fn} {n : Nat} {vis post : List Nat} {rpo : Nat → Nat} {l : List Nat} {idom : Nat → Option Nat} {t : Tree}
  {df : List (Nat × Nat)} (A : Analysis f.g n vis post rpo l idom t df) {phis : Nat → List Nat} (P : PhiFacts f phis)
  {S' : St} {sub : Nat → Nat → Nat} {E : Nat → Nat → List (Nat × Nat)} {Rin Rphi Rout : Nat → Ren}
  (D : Done f t.next phis (subtree t.next n f.g.entry) [f.g.entry]
      ⟨startRen f, fun b => (phis b).map fun v => { var := v }, fun _ => []⟩ S' sub E Rin Rphi Rout)

include A D in
theorem phi_eq {x : Nat} (hx : Reach f.g.succs f.g.entry x) :
    S'.phi x = (phis x).map fun v => { var := v, sub := some (sub x v), ops := E x v } := by
  rw [D.phiEq x, List.map_map]
  refine List.map_congr_left ?_
  intro v _
  simp [(subtree_reach A D x).2 hx]

include A P D in
theorem count_assigned {x : Nat} (hx : Reach f.g.succs f.g.entry x) (v k : Nat) :
    (assigned S' x).count (v, some k) = (defsAt (phis x) (sub x) (S'.code x) v).count k := by
  unfold assigned defsAt
  rw [List.count_append, List.count_append, count_defsOf, phi_eq A D hx, List.map_map]
  congr 1
  exact count_phis v k (sub x) (phis x) (P.nodup x)

include A P D in
theorem unique_of_done : Unique f S' := by
  have hnd : ∀ v, f.isGlobal v = false → ((subtree t.next n f.g.entry).flatMap (fun x => defsAt (phis x) (sub x) (S'.code x) v)).Nodup := by
    intro v hv
    rw [D.defs v hv]
    exact List.nodup_range'
  have hmem : ∀ b, Reach f.g.succs f.g.entry b → ∀ v k, (v, some k) ∈ assigned S' b → k ∈ defsAt (phis b) (sub b) (S'.code b) v := by
    intro b hb v k h
    rw [← List.count_pos_iff, ← count_assigned A P D hb v k, List.count_pos_iff]
    exact h
  refine ⟨?_, ?_, ?_⟩
  · intro b hb v k hv
    rw [count_assigned A P D hb v k, (nodup_flatMap_block (hnd v hv) b ((subtree_reach A D b).2 hb)).count]
    split <;> omega
  · intro b c hb hc v k hv h1 h2
    exact nodup_flatMap_disjoint (hnd v hv) b ((subtree_reach A D b).2 hb) c ((subtree_reach A D c).2 hc) k
      (hmem b hb v k h1) (hmem c hc v k h2)
  · intro b hb v k hv h
    have : k ∈ (subtree t.next n f.g.entry).flatMap (fun x => defsAt (phis x) (sub x) (S'.code x) v) :=
      List.mem_flatMap.2 ⟨b, (subtree_reach A D b).2 hb, hmem b hb v k h⟩
    rw [D.defs v hv, List.mem_range'] at this
    obtain ⟨i, _, hi⟩ := this
    have := startRen_counter f v
    simp only at hi
    omega

theorem renBody_source {f : Fn} {v k : Nat} : ∀ (is : List (Ins Nat)) {R R2 : Ren} {l : List (Ins Name)}, renBody f is R = some (l, R2) →
    top R2 v = some k → top R v = some k ∨ ∃ j ∈ l, j.rd = some (v, some k) := by
  intro is
  induction is with
  | nil =>
    intro R R2 l h ht
    simp only [renBody, Option.some.injEq, Prod.mk.injEq] at h
    rw [← h.2] at ht
    exact Or.inl ht
  | cons i is ih =>
    intro R R2 l h ht
    obtain ⟨j, R1, js, h1, h2, rfl⟩ := renBody_cons h
    rcases ih h2 ht with h | ⟨j', hj', e⟩
    · obtain ⟨_, _, e3, e4, _⟩ := renIns_some h1
      by_cases hi : i.rd = some v
      · rw [hi] at e3 e4
        simp only [newOpt] at e3 e4
        unfold newName at e3 e4
        split at e3
        · rename_i hg
          rw [if_pos hg] at e4
          rw [e4] at h
          exact Or.inl h
        · rename_i hg
          rw [if_neg hg] at e4
          rw [e4, top_push_self] at h
          simp only [Option.some.injEq] at h
          right
          exact ⟨j, List.mem_cons_self .., by rw [e3, ← h]⟩
      · rw [e4, top_newOpt_ne hi] at h
        exact Or.inl h
    · exact Or.inr ⟨j', List.mem_cons_of_mem _ hj', e⟩

include A P D in
/-- Where the name in force at the start of a block comes from. -/
theorem source_in (C : Cert f idom phis sub Rin Rphi Rout S'.code out) (v : Nat) :
    ∀ b, Reach f.g.succs f.g.entry b → ∀ k, top (Rin b) v = some k → (k + 1 = f.params.count v) ∨ ∃ a, SDom f.g.succs f.g.entry a b ∧ Reach f.g.succs f.g.entry a ∧ (v, some k) ∈ assigned S' a := by
  refine chain_ind A ?_ ?_
  · intro k h
    left
    rw [(D.roots _ (List.mem_singleton.2 rfl)).2 v] at h
    have : ∀ (ps : List Nat) (R : Ren), (∀ m, top R v = some m → m + 1 = R.counter v) → ∀ m, top (ps.foldl Ren.push R) v = some m →
        m + 1 = (ps.foldl Ren.push R).counter v := by
      intro ps
      induction ps with
      | nil => intro R h; exact h
      | cons p ps ih =>
        intro R h
        refine ih (R.push p) ?_
        intro m hm
        by_cases hp : v = p
        · subst hp
          rw [top_push_self] at hm
          simp only [Option.some.injEq] at hm
          subst hm
          simp [Ren.push, upd]
        · rw [top_push_ne R hp] at hm
          rw [h m hm]
          simp [Ren.push, upd, hp]
    rw [← startRen_counter f v]
    exact this f.params _ (fun m hm => by simp [top] at hm) k h
  · intro b d hb hd hne hi ih k h
    obtain ⟨d', hd', hid⟩ := A.isIdom b hb hne
    rw [hi] at hd'
    simp only [Option.some.injEq] at hd'
    subst hd'
    rw [C.chain b d hb hne hi v] at h
    rcases renBody_source _ (C.body d hd) h with h | ⟨j, hj, e⟩
    · rw [C.phi d hd v] at h
      split at h
      · rename_i hv
        simp only [Option.some.injEq] at h
        subst h
        refine Or.inr ⟨d, hid.1, hd, ?_⟩
        unfold assigned
        rw [phi_eq A D hd, List.map_map]
        exact List.mem_append_left _ (List.mem_map.2 ⟨v, hv, rfl⟩)
      · rcases ih k h with h | ⟨a, ha, har, hm⟩
        · exact Or.inl h
        · refine Or.inr ⟨a, ⟨dom_trans ha.1 hid.1.1, ?_⟩, har, hm⟩
          rintro rfl
          exact sdom_antisymm hid.1 ha.1 hb
    · refine Or.inr ⟨d, hid.1, hd, ?_⟩
      unfold assigned
      exact List.mem_append_right _ (List.mem_filterMap.2 ⟨j, hj, e⟩)

include A P D in
theorem source_phi (C : Cert f idom phis sub Rin Rphi Rout S'.code out) {b v k : Nat} (hb : Reach f.g.succs f.g.entry b)
    (h : top (Rphi b) v = some k) : (k + 1 = f.params.count v) ∨ (∃ p ∈ S'.phi b, p.var = v ∧ p.sub = some k) ∨
      ∃ a, SDom f.g.succs f.g.entry a b ∧ Reach f.g.succs f.g.entry a ∧ (v, some k) ∈ assigned S' a := by
  rw [C.phi b hb v] at h
  split at h
  · rename_i hv
    simp only [Option.some.injEq] at h
    subst h
    refine Or.inr (Or.inl ⟨{ var := v, sub := some (sub b v), ops := E b v }, ?_, rfl, rfl⟩)
    rw [phi_eq A D hb]
    exact List.mem_map.2 ⟨v, hv, rfl⟩
  · rcases source_in A P D C v b hb k h with h | h
    · exact Or.inl h
    · exact Or.inr (Or.inr h)

include A P D in
/-- Every use finds its name assigned before. -/
theorem uses_ok (C : Cert f idom phis sub Rin Rphi Rout S'.code out) {b v k : Nat} (hb : Reach f.g.succs f.g.entry b)
    {xs ys : List (Ins Name)} {j : Ins Name} (he : S'.code b = xs ++ j :: ys) (hu : Uses j (v, some k)) :
    (k + 1 = f.params.count v) ∨ (∃ i ∈ xs, i.rd = some (v, some k)) ∨ (∃ p ∈ S'.phi b, p.var = v ∧ p.sub = some k) ∨
      ∃ a, SDom f.g.succs f.g.entry a b ∧ Reach f.g.succs f.g.entry a ∧ (v, some k) ∈ assigned S' a := by
  have key : ∀ (is : List (Ins Nat)) (R R2 : Ren) (l xs ys : List (Ins Name)), renBody f is R = some (l, R2) → l = xs ++ j :: ys →
      (∃ i ∈ xs, i.rd = some (v, some k)) ∨ top R v = some k := by
    intro is
    induction is with
    | nil =>
      intro R R2 l xs ys h e
      simp only [renBody, Option.some.injEq, Prod.mk.injEq] at h
      rw [← h.1] at e
      simp at e
    | cons i is ih =>
      intro R R2 l xs ys h e
      obtain ⟨j0, R1, js, h1, h2, rfl⟩ := renBody_cons h
      cases xs with
      | nil =>
        simp only [List.nil_append, List.cons.injEq] at e
        obtain ⟨rfl, rfl⟩ := e
        exact Or.inr (renIns_use h1 hu).2
      | cons x xs =>
        simp only [List.cons_append, List.cons.injEq] at e
        obtain ⟨rfl, rfl⟩ := e
        rcases ih R1 R2 _ xs ys h2 rfl with ⟨i', hi', e'⟩ | ht
        · exact Or.inl ⟨i', List.mem_cons_of_mem _ hi', e'⟩
        · rcases renBody_source (f := f) [i] (R := R) (R2 := R1) (l := [j0]) (by simp [renBody, h1]) ht with h' | ⟨i', hi', e'⟩
          · exact Or.inr h'
          · simp only [List.mem_singleton] at hi'
            subst hi'
            exact Or.inl ⟨i', List.mem_cons_self .., e'⟩
  rcases key _ _ _ _ xs ys (C.body b hb) he with h | h
  · exact Or.inr (Or.inl h)
  · rcases source_phi A P D C hb h with h | h | h
    · exact Or.inl h
    · exact Or.inr (Or.inr (Or.inl h))
    · exact Or.inr (Or.inr (Or.inr h))

include A P D in
/-- The operands of phis. -/
theorem ops_ok (C : Cert f idom phis sub Rin Rphi Rout S'.code out) {b : Nat} (hb : Reach f.g.succs f.g.entry b)
    {p : Phi} (hp : p ∈ S'.phi b) : (∀ o ∈ p.ops, b ∈ f.g.succs o.1 ∧ Reach f.g.succs f.g.entry o.1 ∧
      ((o.2 + 1 = f.params.count p.var) ∨
        ∃ a, Dom f.g.succs f.g.entry a o.1 ∧ Reach f.g.succs f.g.entry a ∧ (p.var, some o.2) ∈ assigned S' a)) ∧
    ∀ q, Reach f.g.succs f.g.entry q → b ∈ f.g.succs q → ∃ k, (q, k) ∈ p.ops := by
  rw [phi_eq A D hb, List.mem_map] at hp
  obtain ⟨v, hv, rfl⟩ := hp
  constructor
  · intro o ho
    obtain ⟨h1, h2, h3⟩ := D.opsSound b v hv o ho
    have hq := (subtree_reach A D o.1).1 h1
    refine ⟨h2, hq, ?_⟩
    rcases renBody_source _ (C.body o.1 hq) h3 with h | ⟨j, hj, e⟩
    · rcases source_phi A P D C hq h with h | ⟨p, hp, e1, e2⟩ | ⟨a, ha, har, hm⟩
      · exact Or.inl h
      · refine Or.inr ⟨o.1, fun m hm => Path.last hm, hq, ?_⟩
        unfold assigned
        exact List.mem_append_left _ (List.mem_map.2 ⟨p, hp, by rw [e1, e2]⟩)
      · exact Or.inr ⟨a, ha.1, har, hm⟩
    · refine Or.inr ⟨o.1, fun m hm => Path.last hm, hq, ?_⟩
      unfold assigned
      exact List.mem_append_right _ (List.mem_filterMap.2 ⟨j, hj, e⟩)
  · intro q hq hb'
    obtain ⟨_, k, hk⟩ := D.opsComplete q ((subtree_reach A D q).2 hq) b hb' v hv
    exact ⟨k, hk⟩

end

end Shecc.SsaBuild
