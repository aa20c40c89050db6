import Verif.Lemmas.RenameUnwind

/-!
# From `ssa_build` to the simulation
-/

namespace Shecc.SsaBuild
open Shecc.Cfg CGraph
open CRename

/-! ### The initial names -/

theorem pushAll_ok : ∀ (ps : List Nat) (R : Ren) (v : Nat),
    (ps.foldl Ren.push R).counter v = R.counter v + ps.count v ∧ ((ps.foldl Ren.push R).stack v).length = (R.stack v).length + ps.count v ∧
    (R.Ok → (ps.foldl Ren.push R).Ok) ∧ (v ∉ ps → (ps.foldl Ren.push R).stack v = R.stack v) := by
  intro ps
  induction ps with
  | nil => intro R v; exact ⟨by simp, by simp, fun h => h, fun _ => rfl⟩
  | cons p ps ih =>
    intro R v
    rw [List.foldl_cons]
    obtain ⟨h1, h2, h3, h4⟩ := ih (R.push p) v
    rw [h1, h2, List.count_cons]
    refine ⟨?_, ?_, fun h => h3 (h.push p), ?_⟩
    · by_cases e : v = p
      · subst e; simp [Ren.push, upd]; omega
      · have : (p == v) = false := by simpa using fun h => e h.symm
        simp [Ren.push, upd, e, this]
    · by_cases e : v = p
      · subst e; simp [Ren.push, upd]; omega
      · have : (p == v) = false := by simpa using fun h => e h.symm
        simp [Ren.push, upd, e, this]
    · intro hv
      simp only [List.mem_cons, not_or] at hv
      rw [h4 hv.2]
      simp [Ren.push, upd, hv.1]

/-- The names in force when the entry block is entered. -/
def startRen (f : Fn) : Ren := f.params.foldl Ren.push ⟨fun _ => 0, fun _ => []⟩

theorem startRen_ok (f : Fn) : (startRen f).Ok := (pushAll_ok f.params _ 0).2.2.1 (fun _ _ h => by cases h)

theorem startRen_counter (f : Fn) (v : Nat) : (startRen f).counter v = f.params.count v := by
  have := (pushAll_ok f.params ⟨fun _ => 0, fun _ => []⟩ v).1
  simpa [startRen] using this

theorem startRen_top (f : Fn) (v : Nat) (h : f.params.count v ≤ 1) : top (startRen f) v = if v ∈ f.params then some 0 else none := by
  obtain ⟨_, h2, h3, h4⟩ := pushAll_ok f.params ⟨fun _ => 0, fun _ => []⟩ v
  have hok := startRen_ok f
  have hc := startRen_counter f v
  split
  · rename_i hm
    have h1 : 0 < f.params.count v := List.count_pos_iff.2 hm
    have hl : ((startRen f).stack v).length = 1 := by
      show ((f.params.foldl Ren.push ⟨fun _ => 0, fun _ => []⟩).stack v).length = 1
      rw [h2]
      simp only [List.length_nil]
      omega
    obtain ⟨k, hk⟩ := List.length_eq_one_iff.1 hl
    have := hok v k (by rw [hk]; simp)
    unfold top
    rw [hk]
    have : k = 0 := by omega
    subst this
    rfl
  · rename_i hm
    unfold top startRen
    rw [h4 hm]
    rfl

/-! ### The certificate -/

/-- The blocks processed by `solve` from the entry are those that can be reached. -/
theorem subtree_reach {g : Graph} {n vis post rpo l idom t df} (A : Analysis g n vis post rpo l idom t df) {f : Fn} {phis S S' sub E Rin Rphi Rout}
    (D : Done f t.next phis (subtree t.next n g.entry) [g.entry] S S' sub E Rin Rphi Rout) (x : Nat) :
    x ∈ subtree t.next n g.entry ↔ Reach g.succs g.entry x := by
  constructor
  · intro h
    have hb := below_of_subtree n g.entry x h
    cases hb with
    | refl => exact Reach.refl _
    | step h _ => exact A.kidsReach _ _ h
  · rintro ⟨m, hm⟩
    have H : ∀ (k x : Nat) (m : List Nat), Path g.succs g.entry m x → m.length ≤ k → x ∈ subtree t.next n g.entry := by
      intro k
      induction k with
      | zero =>
        intro x m hm hk
        cases hm <;> simp at hk
      | succ k ih =>
        intro x m hm hk
        by_cases hx : x = g.entry
        · subst hx; exact (D.roots _ (List.mem_singleton.2 rfl)).1
        · obtain ⟨d, hd, hi⟩ := A.isIdom x ⟨m, hm⟩ hx
          obtain ⟨m', hm', _, hlt⟩ := path_prefix hm (hi.1.1 m hm)
          have := hlt hi.1.2
          exact D.closed d (ih d m' hm' (by omega)) x (A.kids x d ⟨m, hm⟩ hx hd)
    exact H _ x m hm (Nat.le_refl _)

theorem cert_of_done {f : Fn} {n vis post rpo l idom t df} (A : Analysis f.g n vis post rpo l idom t df) {phis : Nat → List Nat}
    {S' : St} {sub E Rin Rphi Rout}
    (D : Done f t.next phis (subtree t.next n f.g.entry) [f.g.entry]
      ⟨startRen f, fun b => (phis b).map fun v => { var := v }, fun _ => []⟩ S' sub E Rin Rphi Rout) :
    Cert f idom phis sub Rin Rphi Rout S'.code (unwind S'.phi vis.reverse S'.code) := by
  have hL := fun x => subtree_reach A D x
  have hphi : ∀ x, Reach f.g.succs f.g.entry x → S'.phi x = (phis x).map fun v => { var := v, sub := some (sub x v), ops := E x v } := by
    intro x hx
    rw [D.phiEq x, List.map_map]
    refine List.map_congr_left ?_
    intro v _
    simp [(hL x).2 hx]
  refine ⟨fun b hb => D.body b ((hL b).2 hb), fun b hb => D.ok b ((hL b).2 hb), fun b hb => D.phi b ((hL b).2 hb), ?_, ?_⟩
  · intro b d hb hne hd v
    obtain ⟨d', hd', hi⟩ := A.isIdom b hb hne
    rw [hd] at hd'
    simp only [Option.some.injEq] at hd'
    subst hd'
    have hdr : Reach f.g.succs f.g.entry d := by
      obtain ⟨m, hm⟩ := hb
      obtain ⟨m', hm', _⟩ := path_prefix hm (hi.1.1 m hm)
      exact ⟨m', hm'⟩
    exact D.chain d ((hL d).2 hdr) b (A.kids b d hb hne hd) v
  · intro b hb
    refine ⟨copiesTo b S'.phi vis.reverse, unwind_ok _ _ _ _, ?_, ?_⟩
    · intro c hc
      rw [mem_copiesTo] at hc
      obtain ⟨x, hx, p, hp, k, ho, rfl⟩ := hc
      rw [List.mem_reverse, A.visMem] at hx
      rw [hphi x hx, List.mem_map] at hp
      obtain ⟨v, hv, rfl⟩ := hp
      obtain ⟨_, h2, h3⟩ := D.opsSound x v hv (b, k) ho
      refine ⟨⟨v, sub x v, k, rfl, h3⟩, ?_⟩
      intro u m hu
      simp only [copyOf, Option.some.injEq, Prod.mk.injEq] at hu
      exact ⟨x, h2, hu.1 ▸ hv⟩
    · intro x hx v hv
      obtain ⟨h1, k, hk⟩ := D.opsComplete b ((hL b).2 hb) x hx v hv
      refine ⟨h1, ?_⟩
      have hxr : Reach f.g.succs f.g.entry x := Reach.trans hb (Reach.one hx)
      refine ⟨copyOf { var := v, sub := some (sub x v), ops := E x v } k, ?_, rfl⟩
      rw [mem_copiesTo]
      refine ⟨x, by rw [List.mem_reverse, A.visMem]; exact hxr, _, ?_, k, hk, rfl⟩
      rw [hphi x hxr]
      exact List.mem_map.2 ⟨v, hv, rfl⟩

/-! ### One name for variables in memory -/

theorem renOpt_some {f : Fn} {R : Ren} {x : Option Nat} {y : Option Name} (h : renOpt f R x = some y) {v k : Nat}
    (hy : y = some (v, some k)) : x = some v ∧ top R v = some k := by
  subst hy
  cases x with
  | none => simp [renOpt] at h
  | some u =>
    simp only [renOpt, Option.map_eq_some_iff] at h
    obtain ⟨z, hz, e⟩ := h
    simp only [Option.some.injEq] at e
    subst e
    rcases renameVar_name hz with ⟨_, e⟩ | ⟨_, k', hk', e⟩
    · simp at e
    · simp only [Prod.mk.injEq, Option.some.injEq] at e
      obtain ⟨rfl, rfl⟩ := e
      exact ⟨rfl, hk'⟩

theorem renOpt2_some {f : Fn} {R : Ren} {x : Option Nat} {y : Option Name} (h : renOpt2 f R x = some y) {v k : Nat}
    (hy : y = some (v, some k)) : x = some v ∧ top R v = some k := by
  subst hy
  cases x with
  | none => simp [renOpt2] at h
  | some u =>
    simp only [renOpt2] at h
    split at h
    · simp at h
    · exact renOpt_some (x := some u) h rfl

theorem renIns_use {f : Fn} {i : Ins Nat} {R R1 : Ren} {j : Ins Name} (h : renIns f i R = some (j, R1)) {v k : Nat}
    (hu : j.rs1 = some (v, some k) ∨ j.rs2 = some (v, some k)) : Uses i v ∧ top R v = some k := by
  obtain ⟨e1, e2, _⟩ := renIns_some h
  rcases hu with hu | hu
  · obtain ⟨h1, h2⟩ := renOpt_some e1 hu
    exact ⟨Or.inl h1, h2⟩
  · obtain ⟨h1, h2⟩ := renOpt2_some e2 hu
    exact ⟨Or.inr h1, h2⟩

theorem renIns_def {f : Fn} {i : Ins Nat} {R R1 : Ren} {j : Ins Name} (h : renIns f i R = some (j, R1)) {v k : Nat}
    (hd : j.rd = some (v, some k)) : i.rd = some v ∧ k = R.counter v ∧ j.op = i.op ∧ f.isGlobal v = false := by
  obtain ⟨_, _, e3, _, e5, _⟩ := renIns_some h
  rw [hd] at e3
  cases hi : i.rd with
  | none => rw [hi] at e3; simp [newOpt] at e3
  | some u =>
    rw [hi] at e3
    simp only [newOpt, Option.some.injEq] at e3
    unfold newName at e3
    split at e3
    · simp at e3
    · rename_i hg
      simp only [Prod.mk.injEq, Option.some.injEq] at e3
      obtain ⟨rfl, rfl⟩ := e3
      exact ⟨rfl, rfl, e5, by simpa using hg⟩

/-- Without assignments, all uses are under the current name. -/
theorem renBody_noassign {f : Fn} {v : Nat} : ∀ (is : List (Ins Nat)) {R R2 : Ren} {l : List (Ins Name)}, renBody f is R = some (l, R2) →
    (∀ i ∈ is, i.rd ≠ some v) → ∀ j ∈ l, (∀ k, j.rs1 = some (v, some k) ∨ j.rs2 = some (v, some k) → top R v = some k) ∧
      ∀ k, j.rd ≠ some (v, some k) := by
  intro is
  induction is with
  | nil =>
    intro R R2 l h _ j hj
    simp only [renBody, Option.some.injEq, Prod.mk.injEq] at h
    rw [← h.1] at hj
    cases hj
  | cons i is ih =>
    intro R R2 l h hn j hj
    obtain ⟨j0, R1, js, h1, h2, rfl⟩ := renBody_cons h
    have hi := hn i (List.mem_cons_self ..)
    simp only [List.mem_cons] at hj
    rcases hj with rfl | hj
    · exact ⟨fun k hk => (renIns_use h1 hk).2, fun k hk => hi (renIns_def h1 hk).1⟩
    · have := ih h2 (fun x hx => hn x (List.mem_cons_of_mem _ hx)) j hj
      obtain ⟨_, _, _, e, _⟩ := renIns_some h1
      rw [e, top_newOpt_ne hi] at this
      exact this

/-- Before the initialisation there are only declarations. -/
theorem renBody_decl {f : Fn} {v : Nat} : ∀ (is : List (Ins Nat)) {R R2 : Ren} {l : List (Ins Name)}, renBody f is R = some (l, R2) →
    (∀ i ∈ is, ¬ Uses i v ∧ (i.rd = some v → i.op = .allocat)) → ∀ j ∈ l,
      (∀ k, j.rs1 ≠ some (v, some k) ∧ j.rs2 ≠ some (v, some k)) ∧ ∀ k, j.rd = some (v, some k) → j.op = .allocat := by
  intro is
  induction is with
  | nil =>
    intro R R2 l h _ j hj
    simp only [renBody, Option.some.injEq, Prod.mk.injEq] at h
    rw [← h.1] at hj
    cases hj
  | cons i is ih =>
    intro R R2 l h hn j hj
    obtain ⟨j0, R1, js, h1, h2, rfl⟩ := renBody_cons h
    obtain ⟨hu, hd⟩ := hn i (List.mem_cons_self ..)
    simp only [List.mem_cons] at hj
    rcases hj with rfl | hj
    · refine ⟨fun k => ⟨fun hk => hu (renIns_use h1 (Or.inl hk)).1, fun hk => hu (renIns_use h1 (Or.inr hk)).1⟩, fun k hk => ?_⟩
      obtain ⟨a, _, b, _⟩ := renIns_def h1 hk
      rw [b]
      exact hd a
    · exact ih h2 (fun x hx => hn x (List.mem_cons_of_mem _ hx)) j hj

theorem count_zero_of_no_assign {v : Nat} {l : List (Ins Nat)} (h : ¬ Assigns v l) : (l.filterMap (·.rd)).count v = 0 := by
  rw [List.count_eq_zero]
  intro hm
  obtain ⟨i, hi, e⟩ := List.mem_filterMap.1 hm
  exact h ⟨i, hi, e⟩

theorem sum_one {L : List Nat} (hn : L.Nodup) (a : Nat) (h : Nat → Nat) (hz : ∀ x ∈ L, x ≠ a → h x = 0) : (L.map h).sum ≤ h a := by
  induction L with
  | nil => simp
  | cons x L ih =>
    rw [List.nodup_cons] at hn
    rw [List.map_cons, List.sum_cons]
    by_cases hx : x = a
    · subst hx
      have : (L.map h).sum = 0 := by
        rw [List.sum_eq_zero_iff_forall_eq_nat]
        intro y hy
        obtain ⟨z, hz', rfl⟩ := List.mem_map.1 hy
        exact hz z (List.mem_cons_of_mem _ hz') (fun e => hn.1 (e ▸ hz'))
      omega
    · have := hz x (List.mem_cons_self ..) hx
      have := ih hn.2 (fun y hy => hz y (List.mem_cons_of_mem _ hy))
      omega

/-- The name in force at the start of a block is the one at the root, or was given in a dominating block. -/
theorem chain_ind {f : Fn} {n vis post rpo l idom t df} (A : Analysis f.g n vis post rpo l idom t df) {P : Nat → Prop}
    (h0 : P f.g.entry) (hs : ∀ b d, Reach f.g.succs f.g.entry b → Reach f.g.succs f.g.entry d → b ≠ f.g.entry → idom b = some d →
      P d → P b) : ∀ b, Reach f.g.succs f.g.entry b → P b := by
  have H : ∀ (k x : Nat) (m : List Nat), Path f.g.succs f.g.entry m x → m.length ≤ k → P x := by
    intro k
    induction k with
    | zero => intro x m hm hk; cases hm <;> simp at hk
    | succ k ih =>
      intro x m hm hk
      by_cases hx : x = f.g.entry
      · subst hx; exact h0
      · obtain ⟨d, hd, hi⟩ := A.isIdom x ⟨m, hm⟩ hx
        obtain ⟨m', hm', _, hlt⟩ := path_prefix hm (hi.1.1 m hm)
        have := hlt hi.1.2
        exact hs x d ⟨m, hm⟩ ⟨m', hm'⟩ hx hd (ih d m' hm' (by omega))
  rintro b ⟨m, hm⟩
  exact H _ b m hm (Nat.le_refl _)

theorem single_of_tame {f : Fn} {n vis post rpo l idom t df} (A : Analysis f.g n vis post rpo l idom t df) {phis : Nat → List Nat}
    {S' : St} {sub E Rin Rphi Rout out}
    (D : Done f t.next phis (subtree t.next n f.g.entry) [f.g.entry]
      ⟨startRen f, fun b => (phis b).map fun v => { var := v }, fun _ => []⟩ S' sub E Rin Rphi Rout)
    (C : Cert f idom phis sub Rin Rphi Rout S'.code out) {v k : Nat} (hg : f.isGlobal v = false) (hno : ∀ b, v ∉ phis b)
    (h : f.InitOnce v k) {b : Nat} (hb : Reach f.g.succs f.g.entry b) {j : Ins Name} (hj : j ∈ S'.code b) {m : Nat}
    (hu : j.rs1 = some (v, some m) ∨ j.rs2 = some (v, some m) ∨ (j.rd = some (v, some m) ∧ j.op ≠ .allocat)) : m = k := by
  have hphi : ∀ b, Reach f.g.succs f.g.entry b → top (Rphi b) v = top (Rin b) v := by
    intro b hb
    rw [C.phi b hb v, if_neg (hno b)]
  have hroot : top (Rin f.g.entry) v = top (startRen f) v := (D.roots _ (List.mem_singleton.2 rfl)).2 v
  rcases h with ⟨hc, hna, rfl⟩ | ⟨hnp, a, xs, i, ys, hcode, hird, hiu, hxs, hys, hna, rfl⟩
  · -- a parameter
    have hm : v ∈ f.params := List.count_pos_iff.1 (by omega)
    have htop : ∀ b, Reach f.g.succs f.g.entry b → top (Rin b) v = some 0 := by
      refine chain_ind A ?_ ?_
      · rw [hroot, startRen_top f v (by omega), if_pos hm]
      · intro b d hb hd hne hi ih
        rw [C.chain b d hb hne hi v, renBody_top _ (C.body d hd) v (hna d hd), hphi d hd, ih]
    obtain ⟨h1, h2⟩ := renBody_noassign (v := v) (f.code b) (C.body b hb) (fun i hi e => hna b hb ⟨i, hi, e⟩) j hj
    rcases hu with hu | hu | hu
    · have := h1 m (Or.inl hu)
      rw [hphi b hb, htop b hb] at this
      simpa using this.symm
    · have := h1 m (Or.inr hu)
      rw [hphi b hb, htop b hb] at this
      simpa using this.symm
    · exact absurd hu.1 (h2 m)
  · -- a local variable
    have hstart : top (startRen f) v = none := by
      rw [startRen_top f v (by rw [List.count_eq_zero.2 hnp]; omega), if_neg hnp]
    -- the names given in block `a`
    have hA : Reach f.g.succs f.g.entry a → ∃ l1 R1 j0 R2 l2, renBody f xs (Rphi a) = some (l1, R1) ∧
        renIns f i R1 = some (j0, R2) ∧ renBody f ys R2 = some (l2, Rout a) ∧ S'.code a = l1 ++ j0 :: l2 ∧
        R1.counter v = (xs.filterMap (·.rd)).count v ∧ top R2 v = some ((xs.filterMap (·.rd)).count v) := by
      intro ha
      have hbody := C.body a ha
      rw [hcode] at hbody
      obtain ⟨l1, R1, l', h1, h2, h3⟩ := renBody_append xs (i :: ys) hbody
      obtain ⟨j0, R2, l2, h4, h5, h6⟩ := renBody_cons h2
      refine ⟨l1, R1, j0, R2, l2, h1, h4, h5, by rw [h3, h6], ?_⟩
      have hcnt : R1.counter v = (xs.filterMap (·.rd)).count v := by
        have c1 := ((renBody_stack _ h1 v).1 hg).1
        have c2 := ((renBody_stack _ (C.body a ha) v).1 hg).1
        have hLa := (subtree_reach A D a).2 ha
        have c3 := D.bound a hLa v hg
        have c4 := D.counter v hg
        have c5 : ((subtree t.next n f.g.entry).map (fun x => npush f phis x v)).sum ≤ npush f phis a v := by
          refine sum_one (A.tree f.g.entry) a (fun x => npush f phis x v) ?_
          intro x hx hxa
          have := hna x ((subtree_reach A D x).1 hx) hxa
          show npush f phis x v = 0
          unfold npush
          rw [List.count_append, count_zero_of_no_assign this, List.count_eq_zero.2 (hno x)]
        have c6 : npush f phis a v = ((f.code a).filterMap (·.rd)).count v := by
          unfold npush
          rw [List.count_append, List.count_eq_zero.2 (hno a), Nat.zero_add]
        have c7 := startRen_counter f v
        rw [List.count_eq_zero.2 hnp] at c7
        simp only at c4
        omega
      refine ⟨hcnt, ?_⟩
      obtain ⟨_, _, _, e4, _⟩ := renIns_some h4
      rw [e4, hird]
      simp only [newOpt]
      unfold newName
      rw [if_neg (by simp [hg])]
      rw [top_push_self, hcnt]
    have htop : ∀ b, Reach f.g.succs f.g.entry b → top (Rin b) v = none ∨ top (Rin b) v = some ((xs.filterMap (·.rd)).count v) := by
      refine chain_ind A ?_ ?_
      · left; rw [hroot, hstart]
      · intro b d hb hd hne hi ih
        rw [C.chain b d hb hne hi v]
        by_cases hda : d = a
        · subst hda
          obtain ⟨l1, R1, j0, R2, l2, _, _, h5, _, _, h7⟩ := hA hd
          right
          rw [renBody_top _ h5 v (fun ⟨y, hy, e⟩ => hys y hy e), h7]
        · rw [renBody_top _ (C.body d hd) v (hna d hd hda), hphi d hd]
          exact ih
    by_cases hba : b = a
    · subst hba
      obtain ⟨l1, R1, j0, R2, l2, h1, h2, h3, h4, h5, h6⟩ := hA hb
      rw [h4] at hj
      simp only [List.mem_append, List.mem_cons] at hj
      rcases hj with hj | rfl | hj
      · obtain ⟨g1, g2⟩ := renBody_decl xs h1 hxs j hj
        rcases hu with hu | hu | hu
        · exact absurd hu (g1 m).1
        · exact absurd hu (g1 m).2
        · exact absurd (g2 m hu.1) hu.2
      · rcases hu with hu | hu | hu
        · exact absurd (renIns_use h2 (Or.inl hu)).1 hiu
        · exact absurd (renIns_use h2 (Or.inr hu)).1 hiu
        · rw [(renIns_def h2 hu.1).2.1, h5]
      · obtain ⟨g1, g2⟩ := renBody_noassign ys h3 hys j hj
        rw [h6] at g1
        rcases hu with hu | hu | hu
        · simpa using (g1 m (Or.inl hu)).symm
        · simpa using (g1 m (Or.inr hu)).symm
        · exact absurd hu.1 (g2 m)
    · obtain ⟨g1, g2⟩ := renBody_noassign (v := v) (f.code b) (C.body b hb) (fun i hi e => hna b hb hba ⟨i, hi, e⟩) j hj
      rw [hphi b hb] at g1
      have key : ∀ m, top (Rin b) v = some m → m = (xs.filterMap (·.rd)).count v := by
        intro m hm
        rcases htop b hb with h | h
        · rw [h] at hm; cases hm
        · rw [h] at hm; simpa using hm.symm
      rcases hu with hu | hu | hu
      · exact key m (g1 m (Or.inl hu))
      · exact key m (g1 m (Or.inr hu))
      · exact absurd hu.1 (g2 m)

/-! ### Everything together -/

theorem mem_frontier {df : List (Nat × Nat)} {q b : Nat} : b ∈ frontier df q ↔ (q, b) ∈ df := by
  unfold frontier
  simp only [List.mem_map, List.mem_filter, beq_iff_eq]
  constructor
  · rintro ⟨⟨x, y⟩, ⟨h, rfl⟩, rfl⟩; exact h
  · intro h; exact ⟨(q, b), ⟨h, rfl⟩, rfl⟩

theorem ssaBuild_some {f : Fn} {n : Nat} {r : St × (Nat → List (Ins Name))} (h : ssaBuild f n = some r)
    {vis post rpo l idom t df} (h1 : dfs f.g.succs n f.g.entry [] = some (vis, post)) (h2 : buildRpo f.g.succs f.g.entry n = some (rpo, l))
    (h3 : buildIdom rpo f.g.preds f.g.entry l.tail n n = some idom)
    (h4 : buildDom idom f.g.entry n vis.reverse ⟨fun _ => [], fun _ => none⟩ = some t) (h5 : buildDf idom f.g.preds n post = some df) :
    ∃ phis, insertPhis f (frontier df) post n (solveGlobals f post []) (fun _ => []) = some phis ∧
      solveParams f t.next n phis = some r.1 ∧ r.2 = unwind r.1.phi vis.reverse r.1.code := by
  unfold ssaBuild at h
  rw [h1, h2] at h
  simp only at h
  rw [h3] at h
  simp only at h
  rw [h4, h5] at h
  simp only at h
  split at h
  · cases h
  · rename_i phis hp
    split at h
    · cases h
    · rename_i S hS
      simp only [Option.some.injEq] at h
      subst h
      exact ⟨phis, hp, hS, rfl⟩

/-- The facts about the placement of phis. -/
structure PhiFacts (f : Fn) (phis : Nat → List Nat) : Prop where
  nodup : ∀ b, (phis b).Nodup
  nonglobal : ∀ b, ∀ v ∈ phis b, f.isGlobal v = false
  entry : phis f.g.entry = []
  placed : f.Scoped → Placed f phis
  mem : ∀ nm H, f.Tame nm H → ∀ b, ∀ v ∈ phis b, H.mem v = false

theorem phiFacts {f : Fn} (hk : f.Linked) {n vis post rpo l idom t df} (A : Analysis f.g n vis post rpo l idom t df) {m : Nat} {phis : Nat → List Nat}
    (h : insertPhis f (frontier df) post m (solveGlobals f post []) (fun _ => []) = some phis) : PhiFacts f phis := by
  obtain ⟨g1, g2, g3⟩ := insertPhis_ok _ _ (solveGlobals_ok f post [] List.nodup_nil).1 (fun _ _ _ h => by cases h) h
  have hin : ∀ v b, v ∈ phis b → v ∈ solveGlobals f post [] := by
    intro v b hv
    apply Classical.byContradiction
    intro hn
    rw [g2 v b hn] at hv
    cases hv
  have hok := fun v b (hv : v ∈ phis b) => g1 v (hin v b hv)
  have hal : ∀ v b, v ∈ phis b → allowed f v b = true := fun v b hv =>
    (hok v b hv).sound (fun b => allowed f v b = true) (fun _ _ _ _ h => h) b hv
  have hdf : ∀ v b, v ∈ phis b → ∃ q, (q, b) ∈ df := fun v b hv =>
    (hok v b hv).sound (fun b => ∃ q, (q, b) ∈ df) (fun q b _ h _ => ⟨q, mem_frontier.1 h⟩) b hv
  have hng : ∀ b, ∀ v ∈ phis b, f.isGlobal v = false := by
    intro b v hv
    have := hal v b hv
    unfold allowed at this
    simp only [Bool.and_eq_true, Bool.not_eq_true'] at this
    exact this.2
  have domReach : ∀ x q, Reach f.g.succs f.g.entry q → Dom f.g.succs f.g.entry x q → Reach f.g.succs f.g.entry x := by
    rintro x q ⟨p, hp⟩ hd
    obtain ⟨p', hp', _⟩ := path_prefix hp (hd p hp)
    exact ⟨p', hp'⟩
  have meets : ∀ q b, (q, b) ∈ df → f.Meets q b := by
    intro q b h
    have h2 := (A.dfMem q b).1 h
    obtain ⟨p, _, hp, hd⟩ := h2.2.1
    exact ⟨domReach q p hp hd, h2.1, h2.2⟩
  refine ⟨g3 (fun _ => List.nodup_nil), hng, ?_, ?_, ?_⟩
  · rw [List.eq_nil_iff_forall_not_mem]
    intro v hv
    obtain ⟨q, hq⟩ := hdf v _ hv
    obtain ⟨_, ⟨p, hp, _⟩, _⟩ := (A.dfMem q _).1 hq
    rw [hk.edges, hk.entry] at hp
    cases hp
  · intro hs v q b hg hq ha hd hl
    obtain ⟨p, hpb, hpr, hpd⟩ := hd.1
    have hb : Reach f.g.succs f.g.entry b := Reach.trans hpr (Reach.one hpb)
    have hm : f.Meets q b := ⟨hq, hb, hd⟩
    have hbd : b ∈ frontier df q := mem_frontier.2 ((A.dfMem q b).2 ⟨hb, hd⟩)
    have hgl := liveIn_global f A.postMem hl hb
    obtain ⟨s1, s2, s3⟩ := hs.live v q b hg hm hl
    have hall : allowed f v b = true := by
      unfold allowed
      simp [s1, s2, s3, hg]
    rcases ha with ha | ha
    · exact (g1 v hgl).closed q b (Or.inl (mem_refBlocks.2 ⟨(A.postMem q).2 hq, ha⟩)) hbd hall
    · cases hj : f.isJoin v with
      | false => exact (g1 v hgl).closed q b (Or.inr ⟨hj, ha⟩) hbd hall
      | true =>
        exfalso
        obtain ⟨q0, h1, h2⟩ := (g1 v hgl).sound (fun x => ∃ q0, q0 ∈ refBlocks f post v ∧ (q0, x) ∈ df)
          (by
            intro q b hq hb _
            rcases hq with hq | hq
            · exact ⟨q, hq, mem_frontier.1 hb⟩
            · rw [hj] at hq; cases hq.1) q ha
        exact hs.join v q0 q b hj (mem_refBlocks.1 h1).2 (meets q0 q h2) hm hl
  · intro nm H ht b v hv
    cases hm : H.mem v with
    | false => rfl
    | true =>
      exfalso
      refine (hok v b hv).sound (fun _ => False) ?_ b hv
      intro q b' hq hb ha
      rcases hq with hq | ⟨_, hq⟩
      · rcases ht.scope v q b' (hng b v hv) hm (mem_refBlocks.1 hq).2 (meets q b' (mem_frontier.1 hb)) with h | h | h
        all_goals
          unfold allowed at ha
          simp [h] at ha
      · exact hq

theorem pre_start {f : Fn} {phis : Nat → List Nat} (P : PhiFacts f phis) (hg : ∀ p ∈ f.params, f.isGlobal p = false) :
    Pre f phis ⟨startRen f, fun b => (phis b).map fun v => { var := v }, fun _ => []⟩ := by
  refine ⟨fun x => ?_, P.nodup, P.nonglobal, startRen_ok f, fun v hv => ?_⟩
  · simp only [List.map_map]
    conv => rhs; rw [← List.map_id (phis x)]
    rfl
  · have hm : v ∉ f.params := fun h => by rw [hg v h] at hv; cases hv
    exact (pushAll_ok f.params ⟨fun _ => 0, fun _ => []⟩ v).2.2.2 hm

theorem ssaBuild_correct {f : Fn} {n : Nat} {univ : List Nat} {M : Mach} {nm : Nat → Nat} {H : Home Nat} {H' : Home Name}
    (hk : f.Linked) (he : f.g.entry ∈ univ) (hc : ∀ x ∈ univ, ∀ y ∈ f.g.succs x, y ∈ univ) (hn : 2 * univ.length + 2 ≤ n)
    (hp : f.Plain) (hs : f.Scoped) (hH : f.Homes nm H H') (ht : f.Tame nm H) (hnd : f.params.Nodup)
    (hg : ∀ p ∈ f.params, f.isGlobal p = false) {S : St} {out : Nat → List (Ins Name)} (h : ssaBuild f n = some (S, out))
    {path : List Nat} {c : Nat} (hpath : Path f.g.succs f.g.entry path c) (s : State M Nat) (t : State M Name) (hw : t.1 = s.1)
    (hfn : ∀ v, f.isFunc v = true → t.2 (v, none) = s.2 v) (hpar : ∀ v ∈ f.params, t.2 (v, some 0) = s.2 v) :
    (run M H (trace f.code path) s).map (·.1) = (run M H' (trace out path) t).map (·.1) := by
  obtain ⟨vis, post, rpo, l, idom, tr, df, h1, h2, h3, h4, h5, A⟩ := analysis_ok f.g univ n he hc hk.edges hk.entry hk.preds hn
  obtain ⟨phis, hphi, hS, hout⟩ := ssaBuild_some h h1 h2 h3 h4 h5
  simp only at hS hout
  subst hout
  have P := phiFacts hk A hphi
  obtain ⟨sub, E, Rin, Rphi, Rout, D⟩ := solve_ok n f.g.entry _ _ (pre_start P hg) hS (A.tree _)
  have C := cert_of_done A D
  refine path_sim hp hH C ?_ (P.mem nm H ht) A.isIdom (P.placed hs) (fun q hq => by rw [hk.edges, hk.entry] at hq; cases hq) hpath
    (Reach.refl _) s t ⟨hw, hfn, ?_⟩
  · intro b hb j hj v k hm hu
    by_cases hgv : f.isGlobal v = true
    · -- globals have no numbered names
      exfalso
      have : ∀ (is : List (Ins Nat)) (R R2 : Ren) (l : List (Ins Name)), renBody f is R = some (l, R2) →
          R.stack v = [] → ∀ j ∈ l, j.rs1 ≠ some (v, some k) ∧ j.rs2 ≠ some (v, some k) ∧ j.rd ≠ some (v, some k) := by
        intro is
        induction is with
        | nil =>
          intro R R2 l h _ j hj
          simp only [renBody, Option.some.injEq, Prod.mk.injEq] at h
          rw [← h.1] at hj
          cases hj
        | cons i is ih =>
          intro R R2 l h h0 j hj
          obtain ⟨j0, R1, js, q1, q2, rfl⟩ := renBody_cons h
          have htop : top R v = none := by unfold top; rw [h0]; rfl
          simp only [List.mem_cons] at hj
          rcases hj with rfl | hj
          · refine ⟨fun e => ?_, fun e => ?_, fun e => ?_⟩
            · have := (renIns_use q1 (Or.inl e)).2; rw [htop] at this; cases this
            · have := (renIns_use q1 (Or.inr e)).2; rw [htop] at this; cases this
            · have := (renIns_def q1 e).2.2.2; rw [hgv] at this; cases this
          · refine ih R1 R2 js q2 ?_ j hj
            have := ((renBody_stack [i] (R := R) (R2 := R1) (l := [j0]) (by simp [renBody, q1]) v).2 hgv).2
            rw [this, h0]
      have hst : ∀ b, Reach f.g.succs f.g.entry b → top (Rphi b) v = none := by
        intro b hb
        rw [C.phi b hb v, if_neg (fun hm => by have := P.nonglobal b v hm; rw [hgv] at this; cases this)]
        revert b
        refine chain_ind A ?_ ?_
        · rw [(D.roots _ (List.mem_singleton.2 rfl)).2 v]
          have hm : v ∉ f.params := fun h => by rw [hg v h] at hgv; cases hgv
          rw [show ({ ren := startRen f, phi := fun b => (phis b).map fun v => { var := v }, code := fun _ => [] } : St).ren = startRen f from rfl,
            startRen_top f v (by rw [List.count_eq_zero.2 hm]; omega), if_neg hm]
        · intro b d hb hd hne hi ih
          rw [C.chain b d hb hne hi v]
          have := ((renBody_stack _ (C.body d hd) v).2 hgv).2
          unfold top
          rw [this]
          have e := C.phi d hd v
          rw [if_neg (fun hm => by have := P.nonglobal d v hm; rw [hgv] at this; cases this), ih] at e
          exact e
      have h0 : (Rphi b).stack v = [] := by
        have := hst b hb
        unfold top at this
        simpa using this
      obtain ⟨a1, a2, a3⟩ := this _ _ _ _ (C.body b hb) h0 j hj
      rcases hu with hu | hu | hu
      · exact a1 hu
      · exact a2 hu
      · exact a3 hu.1
    · have hgv' : f.isGlobal v = false := by simpa using hgv
      refine single_of_tame A D C hgv' ?_ (ht.once v hgv' hm) hb hj hu
      intro b hv
      have := P.mem nm H ht b v hv
      rw [hm] at this
      cases this
  · intro v hgv hm hl k hk'
    rw [C.phi _ (Reach.refl _) v, P.entry, if_neg (by simp), (D.roots _ (List.mem_singleton.2 rfl)).2 v] at hk'
    have hcount : f.params.count v ≤ 1 := by rw [hnd.count]; split <;> omega
    rw [show ({ ren := startRen f, phi := fun b => (phis b).map fun v => { var := v }, code := fun _ => [] } : St).ren = startRen f from rfl,
      startRen_top f v hcount] at hk'
    split at hk'
    · rename_i hv
      simp only [Option.some.injEq] at hk'
      subst hk'
      exact hpar v hv
    · cases hk'

end Shecc.SsaBuild
