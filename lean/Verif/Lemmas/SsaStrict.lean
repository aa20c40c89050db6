import Verif.Lemmas.SsaShape

/-!
# The code after SSA construction: names are assigned once, and before they are used on every path
-/

namespace Shecc.SsaBuild
open Shecc.Cfg CGraph
open CRename

theorem append_split {α : Type} : ∀ {l1 l2 as : List α} {i : α} {bs : List α}, l1 ++ l2 = as ++ i :: bs →
    (∃ bs', l1 = as ++ i :: bs' ∧ bs = bs' ++ l2) ∨ ∃ as', as = l1 ++ as' ∧ l2 = as' ++ i :: bs := by
  intro l1
  induction l1 with
  | nil => intro l2 as i bs h; exact .inr ⟨as, rfl, h⟩
  | cons x l1 ih =>
    intro l2 as i bs h
    cases as with
    | nil =>
      simp only [List.nil_append, List.cons_append, List.cons.injEq] at h
      exact .inl ⟨l1, by rw [h.1]; rfl, h.2.symm⟩
    | cons y as =>
      simp only [List.cons_append, List.cons.injEq] at h
      rcases ih h.2 with ⟨bs', h1, h2⟩ | ⟨as', h1, h2⟩
      · exact .inl ⟨bs', by rw [h.1, h1]; rfl, h2⟩
      · exact .inr ⟨as', by rw [h.1, h1]; rfl, h2⟩

theorem flatMap_split {α β : Type} {g : α → List β} : ∀ {l : List α} {xs : List β} {i : β} {ys : List β}, l.flatMap g = xs ++ i :: ys →
    ∃ p1 c p2 as bs, l = p1 ++ c :: p2 ∧ g c = as ++ i :: bs ∧ xs = p1.flatMap g ++ as ∧ ys = bs ++ p2.flatMap g := by
  intro l
  induction l with
  | nil => intro xs i ys h; simp at h
  | cons c l ih =>
    intro xs i ys h
    rw [List.flatMap_cons] at h
    rcases append_split h with ⟨bs', h1, h2⟩ | ⟨as', h1, h2⟩
    · exact ⟨[], c, l, xs, bs', rfl, h1, rfl, h2⟩
    · obtain ⟨p1, d, p2, as, bs, k1, k2, k3, k4⟩ := ih h2
      exact ⟨c :: p1, d, p2, as, bs, by rw [k1]; rfl, k2, by rw [h1, k3, List.flatMap_cons, List.append_assoc], k4⟩

theorem path_at {succ : Nat → List Nat} {a b : Nat} {l : List Nat} (p : Path succ a l b) : ∀ {p1 p2 : List Nat} {c : Nat}, l = p1 ++ c :: p2 →
    Path succ a (p1 ++ [c]) c := by
  induction p with
  | nil a =>
    intro p1 p2 c h
    cases p1 with
    | nil => simp only [List.nil_append, List.cons.injEq] at h; rw [h.1]; exact .nil c
    | cons x p1 => simp at h
  | @cons a d b l hd p ih =>
    intro p1 p2 c h
    cases p1 with
    | nil => simp only [List.nil_append, List.cons.injEq] at h; rw [h.1]; exact .nil c
    | cons x p1 =>
      simp only [List.cons_append, List.cons.injEq] at h
      rw [← h.1]
      exact .cons hd (ih h.2)

theorem path_pred {succ : Nat → List Nat} {a b : Nat} {l : List Nat} (p : Path succ a l b) : ∀ {p1 : List Nat}, l = p1 ++ [b] →
    (p1 = [] ∧ b = a) ∨ ∃ q0 q, p1 = q0 ++ [q] ∧ b ∈ succ q ∧ Path succ a (q0 ++ [q]) q := by
  induction p with
  | nil a =>
    intro p1 h
    left
    cases p1 with
    | nil => exact ⟨rfl, rfl⟩
    | cons x p1 => simp at h
  | @cons a d b l hd p ih =>
    intro p1 h
    cases p1 with
    | nil =>
      simp only [List.nil_append, List.cons.injEq] at h
      rw [h.2] at p
      cases p
    | cons x p1 =>
      simp only [List.cons_append, List.cons.injEq] at h
      right
      rcases ih h.2 with ⟨h1, h2⟩ | ⟨q0, q, h1, h2, h3⟩
      · exact ⟨[], a, by rw [h1, h.1]; rfl, by rw [h2]; exact hd, .nil a⟩
      · exact ⟨a :: q0, q, by rw [h1, h.1]; rfl, h2, .cons hd h3⟩

/-- The instructions before one in a block with copies. -/
theorem weave_split {l cs as bs : List (Ins Name)} {i : Ins Name} (h : weave l cs = as ++ i :: bs) :
    (∃ as' bs', l = as' ++ i :: bs' ∧ ∀ j ∈ as', j ∈ as) ∨ (i ∈ cs ∧ ∀ j ∈ l, j.op ≠ .branch → j ∈ as) := by
  rcases weave_cases l cs with ⟨a, k, h1, hk, h2⟩ | h2
  · rw [h2] at h
    rcases append_split h with ⟨bs', k1, _⟩ | ⟨as', k1, k2⟩
    · rcases append_split k1 with ⟨bs2, k3, _⟩ | ⟨as2, k3, k4⟩
      · left
        exact ⟨as, bs2 ++ [k], by rw [h1, k3]; simp, fun j hj => hj⟩
      · right
        refine ⟨by rw [k4]; simp, fun j hj hb => ?_⟩
        rw [h1] at hj
        rcases List.mem_append.1 hj with hj | hj
        · rw [k3]; exact List.mem_append_left _ hj
        · rw [List.mem_singleton.1 hj] at hb; exact absurd hk hb
    · left
      cases as' with
      | nil =>
        simp only [List.nil_append, List.cons.injEq] at k2
        refine ⟨a, [], by rw [h1, k2.1], fun j hj => ?_⟩
        rw [k1]
        simp [hj]
      | cons x as' => simp at k2
  · rw [h2] at h
    rcases append_split h with ⟨bs', k1, _⟩ | ⟨as', k1, k2⟩
    · exact .inl ⟨as, bs', k1, fun j hj => hj⟩
    · right
      refine ⟨by rw [k2]; simp, fun j hj _ => ?_⟩
      rw [k1]
      exact List.mem_append_left _ hj

/-- The code of a function in SSA form. -/
structure Strict (f : Fn) (out : Nat → List (Ins Name)) : Prop where
  /-- a local name is assigned once, or by copies only -/
  single : ∀ {order : List Nat}, order.Nodup → ∀ {xs : List (Ins Name)} {i : Ins Name} {ys : List (Ins Name)} {x : Name},
    order.flatMap out = xs ++ i :: ys → i.rd = some x → f.isGlobal x.1 = false → i.op ≠ .unwound_phi → ∀ j ∈ xs ++ ys, j.rd ≠ some x
  /-- on every path, a local name that is assigned somewhere is assigned before it is used -/
  defined : ∀ {l : List Nat} {b : Nat}, Path f.g.succs f.g.entry l b → ∀ {xs : List (Ins Name)} {i : Ins Name} {ys : List (Ins Name)} {x : Name},
    l.flatMap out = xs ++ i :: ys → (i.rs1 = some x ∨ i.rs2 = some x) → f.isGlobal x.1 = false → (∃ c, ∃ j ∈ out c, j.rd = some x) →
    ∃ j ∈ xs, j.rd = some x

theorem two_count {α β : Type} [BEq β] [LawfulBEq β] {g : α → Option β} {d : β} {l xs ys : List α} {i j : α} (h : l = xs ++ i :: ys) (hi : g i = some d)
    (hj : j ∈ xs ++ ys) (hd : g j = some d) : 2 ≤ (l.filterMap g).count d := by
  rw [h, List.filterMap_append, List.filterMap_cons, hi]
  simp only [List.count_append, List.count_cons_self]
  have : 1 ≤ ((xs ++ ys).filterMap g).count d := List.count_pos_iff.2 (List.mem_filterMap.2 ⟨j, hj, hd⟩)
  rw [List.filterMap_append, List.count_append] at this
  omega

theorem ssaBuild_strict {f : Fn} {n : Nat} {univ : List Nat} (hk : f.Linked) (hpl : f.Plain) (he : f.g.entry ∈ univ)
    (hc : ∀ x ∈ univ, ∀ y ∈ f.g.succs x, y ∈ univ) (hn : 2 * univ.length + 2 ≤ n) (hnd : f.params.Nodup)
    (hg : ∀ p ∈ f.params, f.isGlobal p = false) {S : St} {out : Nat → List (Ins Name)} (h : ssaBuild f n = some (S, out)) : Strict f out := by
  obtain ⟨vis, post, rpo, l0, idom, tr, df, h1, h2, h3, h4, h5, A⟩ := analysis_ok f.g univ n he hc hk.edges hk.entry hk.preds hn
  obtain ⟨phis, hphi, hS, hout⟩ := ssaBuild_some h h1 h2 h3 h4 h5
  simp only at hS hout
  subst hout
  have P := phiFacts hk A hphi
  obtain ⟨sub, E, Rin, Rphi, Rout, D⟩ := solve_ok n f.g.entry _ _ (pre_start P hg) hS (A.tree _)
  have C := cert_of_done A D
  have U := unique_of_done A P D
  have copies : ∀ b, ∀ c ∈ copiesTo b S.phi vis.reverse, c.op = .unwound_phi ∧
      ∃ x, Reach f.g.succs f.g.entry x ∧ ∃ p ∈ S.phi x, ∃ k, (b, k) ∈ p.ops ∧ c = copyOf p k ∧ ((p.var, p.sub) : Name) ∈ assigned S x ∧
        ∃ m, p.sub = some m := by
    intro b c hc
    rw [mem_copiesTo] at hc
    obtain ⟨x, hx, p, hp, k, ho, rfl⟩ := hc
    rw [List.mem_reverse, A.visMem] at hx
    refine ⟨rfl, x, hx, p, hp, k, ho, rfl, ?_, ?_⟩
    · unfold assigned
      exact List.mem_append_left _ (List.mem_map.2 ⟨p, hp, rfl⟩)
    · rw [phi_eq A D hx, List.mem_map] at hp
      obtain ⟨v, _, rfl⟩ := hp
      exact ⟨_, rfl⟩
  have none : ∀ b, ¬ Reach f.g.succs f.g.entry b → S.code b = [] := fun b hb =>
    D.codeOut b fun hL => hb ((subtree_reach A D b).1 hL)
  have reachOf : ∀ {b j}, j ∈ S.code b → Reach f.g.succs f.g.entry b := by
    intro b j hj
    apply Classical.byContradiction
    intro hb
    rw [none b hb] at hj
    cases hj
  -- what is assigned in the code after unwinding
  have asg : ∀ {b j v k}, j ∈ unwind S.phi vis.reverse S.code b → j.rd = some (v, k) → f.isGlobal v = false →
      ∃ m, k = some m ∧ ∃ x, Reach f.g.succs f.g.entry x ∧ ((v, k) : Name) ∈ assigned S x := by
    intro b j v k hj hd hv
    rw [unwind_ok] at hj
    rcases weave_mem.1 hj with hj | hj
    · have hb := reachOf hj
      obtain ⟨i, _, R, R1, hr⟩ := renBody_mem _ (D.body b ((subtree_reach A D b).2 hb)) j hj
      obtain ⟨m, hm⟩ := Option.ne_none_iff_exists'.1 (newOpt_local hr hd hv)
      exact ⟨m, hm, b, hb, by unfold assigned; exact List.mem_append_right _ (List.mem_filterMap.2 ⟨j, hj, hd⟩)⟩
    · obtain ⟨_, x, hx, p, hp, k', _, rfl, ha, m, hm⟩ := copies b j hj
      simp only [copyOf, Option.some.injEq, Prod.mk.injEq] at hd
      rw [hd.1, hd.2] at ha
      exact ⟨m, by rw [← hd.2, hm], x, hx, ha⟩
  refine ⟨?_, ?_⟩
  · intro order hno xs i ys x hl hd hv hop j hj hdj
    obtain ⟨v, k⟩ := x
    -- where `i` stands
    obtain ⟨p1, c, p2, as, bs, e1, e2, e3, e4⟩ := flatMap_split hl
    have hic : i ∈ unwind S.phi vis.reverse S.code c := by rw [e2]; simp
    obtain ⟨m, rfl, _⟩ := asg hic hd hv
    rw [unwind_ok] at hic e2
    have hi : i ∈ S.code c := by
      rcases weave_mem.1 hic with h | h
      · exact h
      · exact absurd (copies c i h).1 hop
    have hc := reachOf hi
    have hin : ((v, some m) : Name) ∈ assigned S c := by
      unfold assigned
      exact List.mem_append_right _ (List.mem_filterMap.2 ⟨i, hi, hd⟩)
    have honce := U.once c hc v m hv
    have hcount : 1 ≤ ((S.code c).filterMap (·.rd)).count (v, some m) := List.count_pos_iff.2 (List.mem_filterMap.2 ⟨i, hi, hd⟩)
    -- an assignment by a copy would be that of a phi of the same block
    have nocopy : ∀ b, ∀ j ∈ copiesTo b S.phi vis.reverse, j.rd ≠ some (v, some m) := by
      intro b j hj e
      obtain ⟨_, x, hx, p, hp, k', _, rfl, ha, _⟩ := copies b j hj
      simp only [copyOf, Option.some.injEq, Prod.mk.injEq] at e
      rw [e.1, e.2] at ha
      have hcx := U.block c x hc hx v m hv hin ha
      subst hcx
      have h2 : 0 < ((S.phi c).map (fun p => ((p.var, p.sub) : Name))).count (v, some m) :=
        List.count_pos_iff.2 (List.mem_map.2 ⟨p, hp, by rw [e.1, e.2]⟩)
      unfold assigned at honce
      rw [List.count_append] at honce
      omega
    -- so `j` is an instruction of the block, and there is only one
    have hother : ∀ q, q ≠ c → ∀ j ∈ unwind S.phi vis.reverse S.code q, j.rd ≠ some (v, some m) := by
      intro q hq j hj e
      rw [unwind_ok] at hj
      rcases weave_mem.1 hj with h | h
      · refine hq (U.block c q hc (reachOf h) v m hv hin ?_).symm
        unfold assigned
        exact List.mem_append_right _ (List.mem_filterMap.2 ⟨j, h, e⟩)
      · exact nocopy q j h e
    rw [e1, List.nodup_append, List.nodup_cons] at hno
    have hp1 : ∀ q ∈ p1, q ≠ c := fun q hq => hno.2.2 q hq c (List.mem_cons_self ..)
    have hp2 : ∀ q ∈ p2, q ≠ c := fun q hq e => hno.2.1.1 (e ▸ hq)
    have hjw : j ∈ as ++ bs := by
      rw [e3, e4] at hj
      simp only [List.mem_append] at hj ⊢
      rcases hj with (hj | hj) | (hj | hj)
      · obtain ⟨q, hq, hj⟩ := List.mem_flatMap.1 hj
        exact absurd hdj (hother q (hp1 q hq) j hj)
      · exact .inl hj
      · exact .inr hj
      · obtain ⟨q, hq, hj⟩ := List.mem_flatMap.1 hj
        exact absurd hdj (hother q (hp2 q hq) j hj)
    have h2 := two_count (g := fun x : Ins Name => x.rd) e2 hd hjw hdj
    have hcs : ((copiesTo c S.phi vis.reverse).filterMap (·.rd)).count (v, some m) = 0 := by
      refine List.count_eq_zero.2 fun hm => ?_
      obtain ⟨j, hj, e⟩ := List.mem_filterMap.1 hm
      exact nocopy c j hj e
    have hw : ((weave (S.code c) (copiesTo c S.phi vis.reverse)).filterMap (·.rd)).count (v, some m) =
        ((S.code c).filterMap (·.rd)).count (v, some m) := by
      rcases weave_cases (S.code c) (copiesTo c S.phi vis.reverse) with ⟨a, k, w1, _, w2⟩ | w
      · rw [w2, w1]
        simp only [List.filterMap_append, List.count_append]
        omega
      · rw [w]
        simp only [List.filterMap_append, List.count_append]
        omega
    unfold assigned at honce
    rw [List.count_append] at honce
    have h2' : 2 ≤ ((weave (S.code c) (copiesTo c S.phi vis.reverse)).filterMap (·.rd)).count (v, some m) := h2
    omega
  · intro l b hpath xs i ys x hl hu hv hdef
    obtain ⟨v, k⟩ := x
    obtain ⟨c0, j0, hj0, hd0⟩ := hdef
    obtain ⟨m, rfl, x0, hx0, ha0⟩ := asg hj0 hd0 hv
    -- it is not a parameter's first name
    have npar : ¬ m + 1 = f.params.count v := by
      intro e
      have := U.param x0 hx0 v m hv ha0
      omega
    obtain ⟨p1, c, p2, as, bs, e1, e2, e3, _⟩ := flatMap_split hl
    have hp := path_at hpath e1
    have hcr : Reach f.g.succs f.g.entry c := ⟨_, hp⟩
    -- phis are assigned by copies in the block before
    have byPhi : ∀ {q1 a}, Path f.g.succs f.g.entry (q1 ++ [a]) a → (∃ p ∈ S.phi a, p.var = v ∧ p.sub = some m) →
        ∃ j ∈ q1.flatMap (unwind S.phi vis.reverse S.code), j.rd = some (v, some m) := by
      intro q1 a hq ⟨p, hp, hpv, hps⟩
      have ha : Reach f.g.succs f.g.entry a := ⟨_, hq⟩
      rcases path_pred hq rfl with ⟨_, h2⟩ | ⟨q0, q, h1, h2, h3⟩
      · exfalso
        rw [h2, phi_eq A D (Reach.refl _), P.entry] at hp
        cases hp
      · obtain ⟨k, hk⟩ := (ops_ok A P D C ha hp).2 q ⟨_, h3⟩ h2
        refine ⟨copyOf p k, ?_, by rw [copyOf, hpv, hps]⟩
        rw [h1, List.flatMap_append]
        refine List.mem_append_right _ ?_
        rw [List.flatMap_cons, List.flatMap_nil, List.append_nil, unwind_ok]
        refine weave_mem.2 (.inr (mem_copiesTo.2 ⟨a, ?_, p, hp, k, hk, rfl⟩))
        rw [List.mem_reverse, A.visMem]
        exact ha
    -- an earlier block
    have byDom : ∀ {a}, SDom f.g.succs f.g.entry a c → ((v, some m) : Name) ∈ assigned S a →
        ∃ j ∈ p1.flatMap (unwind S.phi vis.reverse S.code), j.rd = some (v, some m) := by
      intro a hd ha
      have hm := hd.1 _ hp
      have hap : a ∈ p1 := by
        rcases List.mem_append.1 hm with h | h
        · exact h
        · exact absurd (List.mem_singleton.1 h) hd.2
      obtain ⟨q1, q2, rfl⟩ := List.append_of_mem hap
      rw [List.flatMap_append, List.flatMap_cons]
      unfold assigned at ha
      rcases List.mem_append.1 ha with ha | ha
      · obtain ⟨p, hpp, e⟩ := List.mem_map.1 ha
        simp only [Prod.mk.injEq] at e
        obtain ⟨j, hj, hjd⟩ := byPhi (path_at hp (p1 := q1) (c := a) (p2 := q2 ++ [c]) (by simp)) ⟨p, hpp, e.1, e.2⟩
        exact ⟨j, List.mem_append_left _ hj, hjd⟩
      · obtain ⟨j, hj, e⟩ := List.mem_filterMap.1 ha
        refine ⟨j, List.mem_append_right _ (List.mem_append_left _ ?_), e⟩
        rw [unwind_ok]
        exact weave_mem.2 (.inl hj)
    have fin1 : (∃ j ∈ p1.flatMap (unwind S.phi vis.reverse S.code), j.rd = some (v, some m)) → ∃ j ∈ xs, j.rd = some (v, some m) := by
      rintro ⟨j, hj, e⟩
      exact ⟨j, by rw [e3]; exact List.mem_append_left _ hj, e⟩
    rw [unwind_ok] at e2
    rcases weave_split e2 with ⟨as', bs', w1, w2⟩ | ⟨w1, w2⟩
    · rcases uses_ok A P D C hcr w1 (show CRename.Uses i (v, some m) from hu) with h | ⟨j, hj, e⟩ | h | ⟨a, ha, _, hm⟩
      · exact absurd h npar
      · exact ⟨j, by rw [e3]; exact List.mem_append_right _ (w2 j hj), e⟩
      · exact fin1 (byPhi hp h)
      · exact fin1 (byDom ha hm)
    · obtain ⟨_, x, hx, p, hpp, k', hk', rfl, _⟩ := copies c i w1
      have hu' : p.var = v ∧ k' = m := by
        rcases hu with hu | hu
        · simpa [copyOf] using hu
        · simp [copyOf] at hu
      obtain ⟨rfl, rfl⟩ := hu'
      rcases ((ops_ok A P D C hx hpp).1 (c, k') hk').2.2 with h | ⟨a, ha, _, hm⟩
      · exact absurd h npar
      · by_cases hac : a = c
        · subst hac
          unfold assigned at hm
          rcases List.mem_append.1 hm with hm | hm
          · obtain ⟨p', hp', e⟩ := List.mem_map.1 hm
            simp only [Prod.mk.injEq] at e
            exact fin1 (byPhi hp ⟨p', hp', e.1, e.2⟩)
          · obtain ⟨j, hj, e⟩ := List.mem_filterMap.1 hm
            refine ⟨j, ?_, e⟩
            rw [e3]
            refine List.mem_append_right _ (w2 j hj fun hb => ?_)
            -- branches assign nothing
            obtain ⟨i', hi', R, R1, hr⟩ := renBody_mem _ (D.body a ((subtree_reach A D a).2 hcr)) j hj
            obtain ⟨_, _, r3, _, r5, _⟩ := renIns_some hr
            have : i'.rd = Option.none := hpl.branch a i' hi' (by rw [← r5]; exact hb)
            rw [r3, this] at e
            cases e
        · exact fin1 (byDom ⟨ha, hac⟩ hm)

end Shecc.SsaBuild
