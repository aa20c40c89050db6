import Verif.Lemmas.DceFn

/-!
# C93: dead code elimination preserves what a function does
-/

namespace Shecc.Props
open Shecc Shecc.Ssa Shecc.Dce CDce RaFn SrcBlock CGraph

section
variable {F : RegAlloc.Fn} {isGlobal : Nat → Bool} {entry : Nat} {prev : Nat → List Nat} {univ : List Nat} {f : Dce.Fn}
  {rIdom : Nat → Option Nat} {order : List Nat} {cap k n : Nat} {st0 st : Dce.St}

theorem cfgOf_succs (F : RegAlloc.Fn) (entry : Nat) (prev : Nat → List Nat) (b : Nat) : (RaSource.cfgOf F entry prev).succs b = succs F b := by
  unfold Cfg.Graph.succs RaSource.cfgOf succs
  by_cases hb : b = F.fnExit
  · simp [hb]
  · simp only [hb, if_false]
    cases (F.block b).next <;> simp

theorem cfgOf_preds (F : RegAlloc.Fn) (entry : Nat) (prev : Nat → List Nat) (b : Nat) : (RaSource.cfgOf F entry prev).preds b = prev b := by
  unfold Cfg.Graph.preds RaSource.cfgOf
  by_cases hb : b = F.fnExit
  · simp [hb]
  · simp only [hb, if_false]
    cases (F.block b).next <;> simp

theorem mem_backSuccs (g : Cfg.Graph) (a b : Nat) : b ∈ backSuccs g a ↔ b ∈ g.succs a := by
  unfold backSuccs Cfg.Graph.succs
  simp only [List.mem_append]
  constructor
  · rintro ((h | h) | h)
    · exact Or.inl (Or.inl h)
    · exact Or.inr h
    · exact Or.inl (Or.inr h)
  · rintro ((h | h) | h)
    · exact Or.inl (Or.inl h)
    · exact Or.inr h
    · exact Or.inl (Or.inr h)

theorem Prepared.mem_order (P : Prepared F entry prev univ f rIdom order) (b : Nat) : b ∈ order ↔ Reach (succs F) entry b := by
  obtain ⟨n, rpo, h⟩ := P.layout
  have hs : (RaSource.cfgOf F entry prev).succs = succs F := funext (cfgOf_succs F entry prev)
  rw [hs] at h
  obtain ⟨O, _, _, _⟩ := Cfg.order_of_buildRpo P.edges h
  exact O.mem b

/-- The computed post-dominators and frontiers are right. -/
theorem Prepared.post_ok (P : Prepared F entry prev univ f rIdom order)
    (hr : ∀ b, Reach (succs F) b F.fnExit → ∀ q ∈ succs F b, Reach (succs F) q F.fnExit) :
    (∀ b, Reach (succs F) b F.fnExit → b ≠ F.fnExit → Cfg.IPD (succs F) F.fnExit (fun b => (rIdom b).getD 0) b) ∧
    ∀ x b q, Reach (succs F) b F.fnExit → q ∈ succs F b → Cfg.PD (succs F) F.fnExit x q → ¬ (Cfg.PD (succs F) F.fnExit x b ∧ x ≠ b) →
      b ∈ f.rdf x := by
  obtain ⟨rpo, ord, df, e1, e2, e3, e4⟩ := P.post
  have hs : ∀ b, (RaSource.cfgOf F entry prev).succs b = succs F b := cfgOf_succs F entry prev
  have hpr : (RaSource.cfgOf F entry prev).preds = prev := funext (cfgOf_preds F entry prev)
  have hp : ∀ a b, b ∈ succs F a ↔ a ∈ prev b := P.edges
  have hp' : ∀ a b, b ∈ prev a ↔ a ∈ backSuccs (RaSource.cfgOf F entry prev) b := by
    intro a b
    rw [mem_backSuccs, hs, hp]
  rw [hpr] at e1
  have hfl : ∀ {b}, Reach prev F.fnExit b → Reach (succs F) b F.fnExit := fun h => Cfg.Reach.flip (fun a b => (hp b a).symm) h
  obtain ⟨rpo', ord', id', df', d1, d2, d3, d4⟩ := C68_dominance_frontier_partial prev (backSuccs (RaSource.cfgOf F entry prev)) F.fnExit univ
    P.exit P.closed hp' (by
      apply List.eq_nil_iff_forall_not_mem.2
      intro a ha
      rw [mem_backSuccs, hs] at ha
      simp [succs] at ha) (by
      intro b hb q hq
      rw [mem_backSuccs, hs] at hq
      exact Cfg.Reach.flip hp (hr b (hfl hb) q hq))
  obtain ⟨rpo2, ord2, id2, c1, c2, c3, c4, c5⟩ := C52_idom prev (backSuccs (RaSource.cfgOf F entry prev)) F.fnExit univ P.exit P.closed hp'
  rw [e1] at d1 c1
  simp only [Option.some.injEq, Prod.mk.injEq, List.cons.injEq, true_and] at d1 c1
  obtain ⟨rfl, rfl⟩ := d1
  obtain ⟨rfl, rfl⟩ := c1
  rw [e2] at d2 c2
  injection d2 with d2
  injection c2 with c2
  subst d2
  subst c2
  rw [e3] at d3
  injection d3 with d3
  subst d3
  refine ⟨?_, ?_⟩
  · intro b hb hbe
    obtain ⟨d, hd, ⟨h1, h2⟩, h3⟩ := c4 b (Cfg.Reach.flip hp hb) hbe
    refine ⟨?_, ?_, ?_⟩
    · simp only [hd, Option.getD_some]; exact (Cfg.PD_iff hp).2 h1
    · simp only [hd, Option.getD_some]; exact h2
    · intro e he hne
      simp only [hd, Option.getD_some]
      exact (Cfg.PD_iff hp).2 (h3 e ⟨(Cfg.PD_iff hp).1 he, hne⟩)
  · intro x b q hb hq hx hn
    rw [e4, d4]
    refine ⟨Cfg.Reach.flip hp hb, ⟨q, (hp b q).1 hq, Cfg.Reach.flip hp (hr b hb q hq), (Cfg.PD_iff hp).1 hx⟩, ?_⟩
    rintro ⟨h1, h2⟩
    exact hn ⟨(Cfg.PD_iff hp).2 h1, h2⟩

theorem Input.dwf (I : Input F isGlobal entry f order) : DWf f := ⟨I.own, I.fetch⟩


/-- Where a branch is removed, control gets from both its successors to the new one without passing a useful block. -/
theorem removed_meets (P : Prepared F entry prev univ f rIdom order) (I : Input F isGlobal entry f order) (h0 : Unmarked st0)
    (hm : dceMark f cap k order st0 = some st) {b j : Nat} (hb : b ∈ order) (hbe : b ≠ F.fnExit) (hrm : branchRemoved f st b = true)
    (hj : redirect (fun b => (rIdom b).getD 0) st.bbUseful F.fnExit n ((rIdom b).getD 0) = some j) :
    st.bbUseful j = true ∧ j ≠ F.fnExit ∧ ∀ c ∈ succs F b, Cfg.Meets (succs F) F.fnExit st.bbUseful j c := by
  have hR : ∀ b, Reach (succs F) entry b → Reach (succs F) b F.fnExit := by
    rintro b ⟨l, p⟩
    have : ∀ {a b l}, Path (succs F) a l b → Reach (succs F) a F.fnExit → Reach (succs F) b F.fnExit := by
      intro a b l p
      induction p with
      | nil => exact fun h => h
      | cons h p ih => exact fun hx => ih (I.reaches.2 _ hx _ h)
    exact this p I.reaches.1
  obtain ⟨hipd, hdf⟩ := Prepared.post_ok P I.reaches.2
  have hneed := C55_kept_iff_needed f (Input.dwf I) order cap k st0 st h0.useful h0.wl hm
  have hl : ∀ v k, f.lastAssign v = some k → ∃ b, k ∈ f.blocks b := by
    intro v k hk
    rw [I.last] at hk
    obtain ⟨h, _⟩ := lastAssignOf_mem _ _ _ hk
    obtain ⟨b, _, hb⟩ := List.mem_flatMap.1 h
    exact ⟨b, hb⟩
  have hbb := dceMark_bb I.own hl order st0 st ⟨fun b hb => (by rw [h0.bb] at hb; cases hb), fun b i _ hi => (by rw [h0.useful] at hi; cases hi)⟩ hm
  obtain ⟨m, hj1, hj2, hj3, hj4⟩ := C55_redirect_nearest_useful (fun b => (rIdom b).getD 0) st.bbUseful F.fnExit n b j hj
  refine ⟨hj2, hj3, ?_⟩
  intro c hc
  -- blocks with a kept branch
  let kept : Nat → Bool := fun b => match (f.blocks b).getLast? with
    | none => false
    | some t => decide ((f.insn t).op = .branch) && st.useful t
  have hctl : Cfg.Controlled (succs F) F.fnExit (fun b => Reach (succs F) entry b) st.bbUseful kept := by
    intro x b q hb hx hq hpd hn h2
    have hin := hdf x b q (hR b hb) hq hpd hn
    obtain ⟨i, hi, hu⟩ := hbb.some_ x hx
    have hbx : b ≠ F.fnExit := by
      rintro rfl
      simp [succs] at hq
    have hnext : (F.block b).next = none := by
      cases hnx : (F.block b).next with
      | none => rfl
      | some y =>
        exfalso
        obtain ⟨q', hq', hne⟩ := h2
        simp only [succs, hbx, if_false, hnx, List.mem_singleton] at hq hq'
        exact hne (hq'.trans hq.symm)
    obtain ⟨t, ht, hop⟩ := I.branches b ((Prepared.mem_order P b).2 hb) hbx hnext
    have : Needed f order t := .control ((hneed i).1 hu) ⟨b, by rw [I.own x i hi]; exact hin, ht, hop⟩
    simp only [kept, ht, hop, (hneed t).2 this, decide_true, Bool.and_self]
  have hu : ∀ x, kept x = true → st.bbUseful x = true := by
    intro x hx
    simp only [kept] at hx
    split at hx
    · cases hx
    · rename_i t ht
      simp only [Bool.and_eq_true] at hx
      exact hbb.all_ x t (List.mem_of_getLast? ht) hx.2
  have hkb : kept b = false := by
    simp only [branchRemoved] at hrm
    simp only [kept]
    split
    · rfl
    · rename_i t ht
      rw [ht] at hrm
      simp only [Bool.and_eq_true, Bool.not_eq_true'] at hrm
      simp [hrm.2]
  exact Cfg.meets_of_removed hctl hu (fun a b ha hab => Cfg.Reach.trans ha (Cfg.Reach.one hab)) hR (by simp [succs])
    (fun b hb hbe => hipd b (hR b hb) hbe) (walk := fun m => walkBack (fun b => (rIdom b).getD 0) m b) (k := m) (fun _ => rfl) rfl
    ((Prepared.mem_order P b).1 hb) hbe hkb hj1 hj2 hj3 hj4 hc

/-- Variables assigned by a removed instruction. -/
def Lost (f : Dce.Fn) (st : Dce.St) (order : List Nat) (v : Nat) : Prop :=
  ∃ i ∈ order.flatMap f.blocks, st.useful i = false ∧ (f.insn i).rd = some v

theorem kept_reads (I : Input F isGlobal entry f order) (hneed : ∀ i, st.useful i = true ↔ Needed f order i) {i : Nat}
    (hi : st.useful i = true) (v : Nat) (hv : SsaSem.Operand (f.insn i) v) : ¬ Lost f st order v := by
  rintro ⟨j, hj, hkj, hr⟩
  have hnj : ¬ Needed f order j := by
    intro hn
    rw [(hneed j).2 hn] at hkj
    cases hkj
  apply hnj
  obtain ⟨b, hb, hjb⟩ := List.mem_flatMap.1 hj
  cases hg : f.isGlobal v with
  | true =>
    refine .effect hb hjb ?_
    unfold HasEffect
    exact Or.inr (Or.inr (Or.inr (Or.inr (Or.inr (Or.inr (Or.inr ⟨v, hr, hg⟩))))))
  | false =>
    by_cases hp : (f.insn j).op = .unwound_phi
    · refine .effect hb hjb ?_
      unfold HasEffect
      simp [hp]
    · obtain ⟨k, hk⟩ := lastAssignOf_some (order.flatMap f.blocks) v j hj hr
      obtain ⟨hkm, hkr⟩ := lastAssignOf_mem _ _ _ hk
      have := I.single j hj k hkm v hr hkr hg hp
      subst this
      exact .data ((hneed i).1 hi) ⟨v, hv, by rw [I.last]; exact hk⟩

theorem removed_harmless (I : Input F isGlobal entry f order) (hneed : ∀ i, st.useful i = true ↔ Needed f order i) {i : Nat}
    (hm : i ∈ order.flatMap f.blocks) (hi : st.useful i = false) :
    ((f.insn i).op ≠ .write ∧ (f.insn i).op ≠ .call ∧ (f.insn i).op ≠ .address_of ∧ (f.insn i).op ≠ .allocat ∧ (f.insn i).op ≠ .push ∧
      (f.insn i).op ≠ .func_ret) ∧ (f.insn i).op ≠ .ret ∧ ∀ d, (f.insn i).rd = some d → isGlobal d = false ∧ Lost f st order d := by
  have hni : ¬ Needed f order i := by
    intro hn
    rw [(hneed i).2 hn] at hi
    cases hi
  obtain ⟨b, hb, hib⟩ := List.mem_flatMap.1 hm
  have hne : ¬ HasEffect f i := fun he => hni (.effect hb hib he)
  have hpart : ¬ ((f.insn i).op = .push ∨ (f.insn i).op = .func_ret) := fun hp => hni (.part hb (I.parts b hb i hib hp))
  unfold HasEffect at hne
  refine ⟨⟨?_, ?_, ?_, ?_, ?_, ?_⟩, ?_, ?_⟩
  · exact fun h => hne (by simp [h])
  · exact fun h => hne (by simp [h])
  · exact fun h => hne (by simp [h])
  · exact fun h => hne (by simp [h])
  · exact fun h => hpart (Or.inl h)
  · exact fun h => hpart (Or.inr h)
  · exact fun h => hne (by simp [h])
  · intro d hd
    refine ⟨?_, i, hm, hi, hd⟩
    rw [← I.global_]
    cases hg : f.isGlobal d with
    | false => rfl
    | true => exact absurd (Or.inr (Or.inr (Or.inr (Or.inr (Or.inr (Or.inr (Or.inr ⟨d, hd, hg⟩))))))) hne

variable {C : Ctx}

theorem run_swept (I : Input F isGlobal entry f order) (hC : C.isGlobal = isGlobal) (hneed : ∀ i, st.useful i = true ↔ Needed f order i) :
    ∀ (l : List Nat) (s t s' : SrcBlock.St), (∀ i ∈ l, i ∈ order.flatMap f.blocks) → SRel (Lost f st order) s t →
      SrcBlock.Run C (l.map f.insn) s s' →
      ∃ t', SrcBlock.Run C ((l.filter st.useful).map f.insn) t t' ∧ SRel (Lost f st order) s' t' := by
  intro l
  induction l with
  | nil =>
    intro s t s' _ h hr
    cases hr
    exact ⟨t, .nil t, h⟩
  | cons i l ih =>
    intro s t s' hm h hr
    cases hr with
    | cons hs hr =>
      cases hu : st.useful i with
      | true =>
        obtain ⟨t1, g1, g2⟩ := step_kept h (fun v hv => kept_reads I hneed hu v hv) hs
        obtain ⟨t2, g3, g4⟩ := ih _ _ _ (fun j hj => hm j (by simp [hj])) g2 hr
        refine ⟨t2, ?_, g4⟩
        rw [List.filter_cons, if_pos hu]
        exact .cons g1 g3
      | false =>
        obtain ⟨q1, _, q3⟩ := removed_harmless I hneed (hm i (by simp)) hu
        have g2 := step_removed h q1 (fun d hd => by rw [hC]; exact q3 d hd) hs
        obtain ⟨t2, g3, g4⟩ := ih _ _ _ (fun j hj => hm j (by simp [hj])) g2 hr
        refine ⟨t2, ?_, g4⟩
        rw [List.filter_cons, if_neg (by rw [hu]; simp)]
        exact g3

/-- Straight-line execution never gets past a branch or a return. -/
theorem run_ops {l : List Insn} {s s' : SrcBlock.St} (h : SrcBlock.Run C l s s') : ∀ i ∈ l, i.op ≠ .branch ∧ i.op ≠ .ret := by
  induction h with
  | nil => intro i hi; cases hi
  | cons hs _ ih =>
    intro i hi
    rcases List.mem_cons.1 hi with rfl | hi
    · constructor <;> intro ho <;> cases hs <;> simp_all
    · exact ih i hi

theorem map_eq_snoc {α β : Type} {g : α → β} {l : List α} {ys : List β} {y : β} (h : l.map g = ys ++ [y]) :
    ∃ xs x, l = xs ++ [x] ∧ xs.map g = ys ∧ g x = y := by
  obtain ⟨xs, zs, rfl, h1, h2⟩ := List.map_eq_append_iff.1 h
  cases zs with
  | nil => simp at h2
  | cons z zs =>
    simp only [List.map_cons, List.cons.injEq, List.map_eq_nil_iff] at h2
    obtain ⟨h2, rfl⟩ := h2
    exact ⟨xs, z, rfl, h1, h2⟩

theorem meets_step {u : Nat → Bool} {succ : Nat → List Nat} {exit j b c : Nat} (h : Cfg.Meets succ exit u j b) (hbj : b ≠ j) (hc : c ∈ succ b) :
    Cfg.Meets succ exit u j c := by
  intro l p
  obtain ⟨xs, ys, he, hx⟩ := h _ (.cons hc p)
  cases xs with
  | nil =>
    simp only [List.nil_append, List.cons.injEq] at he
    exact absurd he.1 hbj
  | cons x xs =>
    simp only [List.cons_append, List.cons.injEq] at he
    exact ⟨xs, ys, he.2, fun y hy => hx y (by simp [hy])⟩

theorem meets_useless {u : Nat → Bool} {succ : Nat → List Nat} {exit j b : Nat} (h : Cfg.Meets succ exit u j b) (hbj : b ≠ j)
    (hr : Reach succ b exit) : u b = false := by
  obtain ⟨l, p⟩ := hr
  obtain ⟨xs, ys, he, hx⟩ := h _ p
  cases p with
  | nil =>
    cases xs with
    | nil =>
      simp only [List.nil_append, List.cons.injEq] at he
      exact absurd he.1 hbj
    | cons x xs => simp at he
  | cons _ _ =>
    cases xs with
    | nil =>
      simp only [List.nil_append, List.cons.injEq] at he
      exact absurd he.1 hbj
    | cons x xs =>
      simp only [List.cons_append, List.cons.injEq] at he
      rw [he.1]
      exact hx x (by simp)

/-- What the simulation needs to know. -/
structure Swept (F : RegAlloc.Fn) (isGlobal : Nat → Bool) (entry : Nat) (f : Dce.Fn) (order : List Nat) (st : Dce.St) (rI : Nat → Nat)
    (n : Nat) : Prop where
  input : Input F isGlobal entry f order
  need : ∀ i, st.useful i = true ↔ Needed f order i
  all_ : ∀ b, ∀ i ∈ f.blocks b, st.useful i = true → st.bbUseful b = true
  mem : ∀ b, b ∈ order ↔ Reach (succs F) entry b
  exit : ∀ b ∈ order, Reach (succs F) b F.fnExit
  meets : ∀ b ∈ order, b ≠ F.fnExit → branchRemoved f st b = true → ∃ j, redirect rI st.bbUseful F.fnExit n (rI b) = some j ∧
    j ≠ F.fnExit ∧ ∀ c ∈ succs F b, Cfg.Meets (succs F) F.fnExit st.bbUseful j c

theorem swept_of (P : Prepared F entry prev univ f rIdom order) (I : Input F isGlobal entry f order) (h0 : Unmarked st0)
    (hm : dceMark f cap k order st0 = some st) (hj : Joined F f st (fun b => (rIdom b).getD 0) n order) :
    Swept F isGlobal entry f order st (fun b => (rIdom b).getD 0) n := by
  have hl : ∀ v k, f.lastAssign v = some k → ∃ b, k ∈ f.blocks b := by
    intro v k hk
    rw [I.last] at hk
    obtain ⟨h, _⟩ := lastAssignOf_mem _ _ _ hk
    obtain ⟨b, _, hb⟩ := List.mem_flatMap.1 h
    exact ⟨b, hb⟩
  have hbb := dceMark_bb I.own hl order st0 st ⟨fun b hb => (by rw [h0.bb] at hb; cases hb), fun b i _ hi => (by rw [h0.useful] at hi; cases hi)⟩ hm
  refine ⟨I, C55_kept_iff_needed f (Input.dwf I) order cap k st0 st h0.useful h0.wl hm, hbb.all_, Prepared.mem_order P, ?_, ?_⟩
  · intro b hb
    obtain ⟨l, p⟩ := (Prepared.mem_order P b).1 hb
    have : ∀ {a b l}, Path (succs F) a l b → Reach (succs F) a F.fnExit → Reach (succs F) b F.fnExit := by
      intro a b l p
      induction p with
      | nil => exact fun h => h
      | cons h p ih => exact fun hx => ih (I.reaches.2 _ hx _ h)
    exact this p I.reaches.1
  · intro b hb hbe hrm
    obtain ⟨j, hjj⟩ := hj b hb hrm
    obtain ⟨_, h2, h3⟩ := removed_meets P I h0 hm hb hbe hrm hjj
    exact ⟨j, hjj, h2, h3⟩

section
variable {rI : Nat → Nat}

theorem Swept.step (S : Swept F isGlobal entry f order st rI n) {b c : Nat} (hb : b ∈ order) (hc : c ∈ succs F b) : c ∈ order := by
  rw [S.mem] at hb ⊢
  exact Cfg.Reach.trans hb (Cfg.Reach.one hc)

theorem Swept.inOrder (S : Swept F isGlobal entry f order st rI n) {b : Nat} (hb : b ∈ order) : ∀ i ∈ f.blocks b, i ∈ order.flatMap f.blocks :=
  fun _ hi => List.mem_flatMap.2 ⟨b, hb, hi⟩

/-- A block without useful instructions changes nothing that matters. -/
theorem Swept.skip (S : Swept F isGlobal entry f order st rI n) (hC : C.isGlobal = isGlobal) {b : Nat} (hb : b ∈ order)
    (hu : st.bbUseful b = false) {l : List Nat} (hl : ∀ i ∈ l, i ∈ f.blocks b) {s s' t : SrcBlock.St}
    (hr : SrcBlock.Run C (l.map f.insn) s s') (h : SRel (Lost f st order) s t) : SRel (Lost f st order) s' t := by
  obtain ⟨t', h1, h2⟩ := run_swept S.input hC S.need l s t s' (fun i hi => S.inOrder hb i (hl i hi)) h hr
  have : l.filter st.useful = [] := by
    apply List.filter_eq_nil_iff.2
    intro i hi hui
    have := S.all_ b i (hl i hi) hui
    rw [hu] at this
    cases this
  rw [this] at h1
  cases h1
  exact h2

theorem Swept.noBranch (S : Swept F isGlobal entry f order st rI n) {b : Nat} {s s' : SrcBlock.St} (hr : SrcBlock.Run C (F.insns b) s s') :
    branchRemoved f st b = false := by
  unfold branchRemoved
  split
  · rfl
  · rename_i t ht
    have : f.insn t ∈ F.insns b := by
      rw [S.input.insns]
      exact List.mem_map_of_mem (List.mem_of_getLast? ht)
    simp [(run_ops hr _ this).1]

/-- The code of a block after the sweep. -/
theorem sweepFn_insns (b : Nat) : (sweepFn f st rI n F).insns b = ((f.blocks b).filter st.useful).map f.insn := rfl

theorem sweepFn_same {b : Nat} (h : branchRemoved f st b = false) : (sweepFn f st rI n F).block b = F.block b := by
  simp [sweepFn, h]

theorem sweepFn_next {b j : Nat} (h : branchRemoved f st b = true) (hj : redirect rI st.bbUseful F.fnExit n (rI b) = some j) :
    ((sweepFn f st rI n F).block b).next = some j := by
  simp [sweepFn, h, hj]

theorem Swept.effect (S : Swept F isGlobal entry f order st rI n) {b i : Nat} (hb : b ∈ order) (hi : i ∈ f.blocks b) (he : HasEffect f i) :
    st.useful i = true ∧ st.bbUseful b = true :=
  have h := (S.need i).2 (.effect hb hi he)
  ⟨h, S.all_ b i hi h⟩

set_option maxHeartbeats 1000000 in
theorem exec_swept (S : Swept F isGlobal entry f order st rI n) (hC : C.isGlobal = isGlobal) {void : Bool} {b : Nat} {s : SrcBlock.St}
    {r : Option IrM.Word} {m : IrM.Mem} (hx : Exec C F void b s r m) : b ∈ order → b ≠ F.fnExit →
    (∀ t, SRel (Lost f st order) s t → Exec C (sweepFn f st rI n F) void b t r m) ∧
    ∀ j t, j ≠ F.fnExit → Cfg.Meets (succs F) F.fnExit st.bbUseful j b → SRel (Lost f st order) s t →
      Exec C (sweepFn f st rI n F) void j t r m := by
  -- the second part follows from the first when control is at `j` already
  have both : ∀ {b : Nat} {s : SrcBlock.St} {r : Option IrM.Word} {m : IrM.Mem}, (hb : b ∈ order) →
      (∀ t, SRel (Lost f st order) s t → Exec C (sweepFn f st rI n F) void b t r m) →
      (∀ j t, j ≠ F.fnExit → b ≠ j → st.bbUseful b = false → Cfg.Meets (succs F) F.fnExit st.bbUseful j b → SRel (Lost f st order) s t →
        Exec C (sweepFn f st rI n F) void j t r m) →
      (∀ t, SRel (Lost f st order) s t → Exec C (sweepFn f st rI n F) void b t r m) ∧
      ∀ j t, j ≠ F.fnExit → Cfg.Meets (succs F) F.fnExit st.bbUseful j b → SRel (Lost f st order) s t →
        Exec C (sweepFn f st rI n F) void j t r m := by
    intro b s r m hb h1 h2
    refine ⟨h1, ?_⟩
    intro j t hj hm hrel
    by_cases hbj : b = j
    · subst hbj; exact h1 t hrel
    · exact h2 j t hj hbj (meets_useless hm hbj (S.exit b hb)) hm hrel
  have hmem : ∀ {b c}, b ≠ F.fnExit → (F.block b).next = some c → c ∈ succs F b := by
    intro b c hb hn
    simp [succs, hb, hn]
  have hmem2 : ∀ {b} {p : Prop} [Decidable p], b ≠ F.fnExit → (F.block b).next = none →
      (if p then (F.block b).then_ else (F.block b).else_) ∈ succs F b := by
    intro b p _ hb hn
    simp only [succs, hb, if_false, hn]
    split <;> simp
  induction hx with
  | @next b c s s' r m hr hn hne hx ih =>
    intro hb hbe
    have hc := hmem hbe hn
    obtain ⟨ih1, ih2⟩ := ih (S.step hb hc) hne
    have hnb := S.noBranch hr
    rw [S.input.insns] at hr
    refine both hb ?_ ?_
    · intro t hrel
      obtain ⟨t', g1, g2⟩ := run_swept S.input hC S.need _ _ _ _ (S.inOrder hb) hrel hr
      exact .next (by rw [sweepFn_insns]; exact g1) (by rw [sweepFn_same hnb]; exact hn) hne (ih1 t' g2)
    · intro j t hj hbj hu hm hrel
      exact ih2 j t hj (meets_step hm hbj hc) (S.skip hC hb hu (fun _ h => h) hr hrel)
  | @branch b is br a s s' r m hi ho ha hr hn hne hx ih =>
    intro hb hbe
    have hc := hmem2 (p := rd C s' a ≠ 0#32) hbe hn
    obtain ⟨ih1, ih2⟩ := ih (S.step hb hc) hne
    rw [S.input.insns] at hi
    obtain ⟨xs, x, he, hxs, hxx⟩ := map_eq_snoc hi
    subst hxs
    subst hxx
    have hxin : ∀ i ∈ xs, i ∈ f.blocks b := fun i h => by rw [he]; simp [h]
    have hlast : (f.blocks b).getLast? = some x := by rw [he]; simp
    refine both hb ?_ ?_
    · intro t hrel
      obtain ⟨t', g1, g2⟩ := run_swept S.input hC S.need _ _ _ _ (fun i h => S.inOrder hb i (hxin i h)) hrel hr
      cases hux : st.useful x with
      | true =>
        have hnr : branchRemoved f st b = false := by simp [branchRemoved, hlast, hux]
        have hrd : rd C t' a = rd C s' a := g2.rd (kept_reads S.input S.need hux a (Or.inl ha))
        have hB := sweepFn_same (F := F) (rI := rI) (n := n) hnr
        refine .branch (is := (xs.filter st.useful).map f.insn) (br := f.insn x) (a := a) (s' := t') ?_ ho ha g1 (by rw [hB]; exact hn) ?_ ?_
        · rw [sweepFn_insns, he, List.filter_append, List.map_append, List.filter_cons, if_pos hux]; rfl
        · rw [hB, hrd]; exact hne
        · rw [hB, hrd]; exact ih1 t' g2
      | false =>
        have hrm : branchRemoved f st b = true := by simp [branchRemoved, hlast, hux, ho]
        obtain ⟨j, hj1, hj2, hj3⟩ := S.meets b hb hbe hrm
        refine .next (s' := t') ?_ (sweepFn_next hrm hj1) hj2 (ih2 j t' hj2 (hj3 _ hc) g2)
        rw [sweepFn_insns, he, List.filter_append, List.filter_cons, if_neg (by rw [hux]; simp)]
        simpa using g1
    · intro j t hj hbj hu hm hrel
      exact ih2 j t hj (meets_step hm hbj hc) (S.skip hC hb hu hxin hr hrel)
  | @ret b is re a s s' hi ho ha hr =>
    intro hb hbe
    rw [S.input.insns] at hi
    obtain ⟨xs, x, he, hxs, hxx⟩ := map_eq_snoc hi
    subst hxs
    subst hxx
    have hxb : x ∈ f.blocks b := by rw [he]; simp
    obtain ⟨hux, hub⟩ := S.effect hb hxb (by unfold HasEffect; simp [ho])
    refine both hb ?_ ?_
    · intro t hrel
      obtain ⟨t', g1, g2⟩ := run_swept S.input hC S.need _ _ _ _ (fun i h => S.inOrder hb i (by rw [he]; simp [h])) hrel hr
      have hrd : rd C t' a = rd C s' a := g2.rd (kept_reads S.input S.need hux a (Or.inl ha))
      rw [← hrd, ← g2.mem]
      refine .ret (is := (xs.filter st.useful).map f.insn) (re := f.insn x) ?_ ho ha g1
      rw [sweepFn_insns, he, List.filter_append, List.map_append, List.filter_cons, if_pos hux]; rfl
    · intro j t hj hbj hu
      rw [hub] at hu
      cases hu
  | @retVoid b is re s s' hi ho ha hr =>
    intro hb hbe
    rw [S.input.insns] at hi
    obtain ⟨xs, x, he, hxs, hxx⟩ := map_eq_snoc hi
    subst hxs
    subst hxx
    have hxb : x ∈ f.blocks b := by rw [he]; simp
    obtain ⟨hux, hub⟩ := S.effect hb hxb (by unfold HasEffect; simp [ho])
    refine both hb ?_ ?_
    · intro t hrel
      obtain ⟨t', g1, g2⟩ := run_swept S.input hC S.need _ _ _ _ (fun i h => S.inOrder hb i (by rw [he]; simp [h])) hrel hr
      rw [← g2.mem]
      refine .retVoid (is := (xs.filter st.useful).map f.insn) (re := f.insn x) ?_ ho ha g1
      rw [sweepFn_insns, he, List.filter_append, List.map_append, List.filter_cons, if_pos hux]; rfl
    · intro j t hj hbj hu
      rw [hub] at hu
      cases hu
  | @fall b s s' hr hn hv =>
    intro hb hbe
    have hnb := S.noBranch hr
    have hc := hmem hbe hn
    rw [S.input.insns] at hr
    refine both hb ?_ ?_
    · intro t hrel
      obtain ⟨t', g1, g2⟩ := run_swept S.input hC S.need _ _ _ _ (S.inOrder hb) hrel hr
      rw [← g2.mem]
      exact .fall (by rw [sweepFn_insns]; exact g1) (by rw [sweepFn_same hnb]; exact hn) hv
    · intro j t hj hbj hu hm hrel
      exfalso
      have hmx := meets_step hm hbj hc
      obtain ⟨ys, zs, he, _⟩ := hmx _ (.nil _)
      cases ys with
      | nil =>
        simp only [List.nil_append, List.cons.injEq] at he
        exact hj he.1.symm
      | cons y ys => simp at he

set_option maxHeartbeats 1000000 in
theorem reach_swept (S : Swept F isGlobal entry f order st rI n) (hC : C.isGlobal = isGlobal)
    {T : String → List IrM.Word → IrM.Mem → Prop} {b : Nat} {s : SrcBlock.St} (hx : RaFn.Reach C F T b s) : b ∈ order → b ≠ F.fnExit →
    (∀ t, SRel (Lost f st order) s t → RaFn.Reach C (sweepFn f st rI n F) T b t) ∧
    ∀ j t, j ≠ F.fnExit → Cfg.Meets (succs F) F.fnExit st.bbUseful j b → SRel (Lost f st order) s t →
      RaFn.Reach C (sweepFn f st rI n F) T j t := by
  have both : ∀ {b : Nat} {s : SrcBlock.St}, (hb : b ∈ order) →
      (∀ t, SRel (Lost f st order) s t → RaFn.Reach C (sweepFn f st rI n F) T b t) →
      (∀ j t, j ≠ F.fnExit → b ≠ j → st.bbUseful b = false → Cfg.Meets (succs F) F.fnExit st.bbUseful j b → SRel (Lost f st order) s t →
        RaFn.Reach C (sweepFn f st rI n F) T j t) →
      (∀ t, SRel (Lost f st order) s t → RaFn.Reach C (sweepFn f st rI n F) T b t) ∧
      ∀ j t, j ≠ F.fnExit → Cfg.Meets (succs F) F.fnExit st.bbUseful j b → SRel (Lost f st order) s t →
        RaFn.Reach C (sweepFn f st rI n F) T j t := by
    intro b s hb h1 h2
    refine ⟨h1, ?_⟩
    intro j t hj hm hrel
    by_cases hbj : b = j
    · subst hbj; exact h1 t hrel
    · exact h2 j t hj hbj (meets_useless hm hbj (S.exit b hb)) hm hrel
  have hmem : ∀ {b c}, b ≠ F.fnExit → (F.block b).next = some c → c ∈ succs F b := by
    intro b c hb hn
    simp [succs, hb, hn]
  have hmem2 : ∀ {b} {p : Prop} [Decidable p], b ≠ F.fnExit → (F.block b).next = none →
      (if p then (F.block b).then_ else (F.block b).else_) ∈ succs F b := by
    intro b p _ hb hn
    simp only [succs, hb, if_false, hn]
    split <;> simp
  induction hx with
  | @next b c s s' hr hn hne hx ih =>
    intro hb hbe
    have hc := hmem hbe hn
    obtain ⟨ih1, ih2⟩ := ih (S.step hb hc) hne
    have hnb := S.noBranch hr
    rw [S.input.insns] at hr
    refine both hb ?_ ?_
    · intro t hrel
      obtain ⟨t', g1, g2⟩ := run_swept S.input hC S.need _ _ _ _ (S.inOrder hb) hrel hr
      exact .next (by rw [sweepFn_insns]; exact g1) (by rw [sweepFn_same hnb]; exact hn) hne (ih1 t' g2)
    · intro j t hj hbj hu hm hrel
      exact ih2 j t hj (meets_step hm hbj hc) (S.skip hC hb hu (fun _ h => h) hr hrel)
  | @branch b is br a s s' hi ho ha hr hn hne hx ih =>
    intro hb hbe
    have hc := hmem2 (p := rd C s' a ≠ 0#32) hbe hn
    obtain ⟨ih1, ih2⟩ := ih (S.step hb hc) hne
    rw [S.input.insns] at hi
    obtain ⟨xs, x, he, hxs, hxx⟩ := map_eq_snoc hi
    subst hxs
    subst hxx
    have hxin : ∀ i ∈ xs, i ∈ f.blocks b := fun i h => by rw [he]; simp [h]
    have hlast : (f.blocks b).getLast? = some x := by rw [he]; simp
    refine both hb ?_ ?_
    · intro t hrel
      obtain ⟨t', g1, g2⟩ := run_swept S.input hC S.need _ _ _ _ (fun i h => S.inOrder hb i (hxin i h)) hrel hr
      cases hux : st.useful x with
      | true =>
        have hnr : branchRemoved f st b = false := by simp [branchRemoved, hlast, hux]
        have hrd : rd C t' a = rd C s' a := g2.rd (kept_reads S.input S.need hux a (Or.inl ha))
        have hB := sweepFn_same (F := F) (rI := rI) (n := n) hnr
        refine .branch (is := (xs.filter st.useful).map f.insn) (br := f.insn x) (a := a) (s' := t') ?_ ho ha g1 (by rw [hB]; exact hn) ?_ ?_
        · rw [sweepFn_insns, he, List.filter_append, List.map_append, List.filter_cons, if_pos hux]; rfl
        · rw [hB, hrd]; exact hne
        · rw [hB, hrd]; exact ih1 t' g2
      | false =>
        have hrm : branchRemoved f st b = true := by simp [branchRemoved, hlast, hux, ho]
        obtain ⟨j, hj1, hj2, hj3⟩ := S.meets b hb hbe hrm
        refine .next (s' := t') ?_ (sweepFn_next hrm hj1) hj2 (ih2 j t' hj2 (hj3 _ hc) g2)
        rw [sweepFn_insns, he, List.filter_append, List.filter_cons, if_neg (by rw [hux]; simp)]
        simpa using g1
    · intro j t hj hbj hu hm hrel
      exact ih2 j t hj (meets_step hm hbj hc) (S.skip hC hb hu hxin hr hrel)
  | @call b xs c ys s s' hi ho hr ht =>
    intro hb hbe
    rw [S.input.insns] at hi
    obtain ⟨zs, ws, he, h1, h2⟩ := List.map_eq_append_iff.1 hi
    cases ws with
    | nil => simp at h2
    | cons w ws =>
      simp only [List.map_cons, List.cons.injEq] at h2
      obtain ⟨rfl, rfl⟩ := h2
      subst h1
      have hwb : w ∈ f.blocks b := by rw [he]; simp
      obtain ⟨huw, hub⟩ := S.effect hb hwb (by unfold HasEffect; simp [ho])
      refine both hb ?_ ?_
      · intro t hrel
        obtain ⟨t', g1, g2⟩ := run_swept S.input hC S.need _ _ _ _ (fun i h => S.inOrder hb i (by rw [he]; simp [h])) hrel hr
        refine .call (xs := (zs.filter st.useful).map f.insn) (c := f.insn w) (ys := (ws.filter st.useful).map f.insn) (s' := t') ?_ ho g1 ?_
        · rw [sweepFn_insns, he, List.filter_append, List.map_append, List.filter_cons, if_pos huw]; rfl
        · rw [g2.args, g2.mem]; exact ht
      · intro j t hj hbj hu
        rw [hub] at hu
        cases hu

end

/-- **C93**.  After dead code elimination (marking, removal of what is not marked, and redirection of removed branches) a function
returns the same value and leaves the same memory, and it makes every call it made before, in the same memory and with the same
arguments, whether or not it ends: for every meaning of calls, every initial state, every number of iterations of its loops.
(partial: `Joined`, without which the pass is wrong, and `Input.reaches`: blocks from which the exit cannot be reached lose what they
compute, `C93_endless_wrong`) -/
theorem C93_dce_partial (P : Prepared F entry prev univ f rIdom order) (I : Input F isGlobal entry f order) (h0 : Unmarked st0)
    (hm : dceMark f cap k order st0 = some st) (hj : Joined F f st (fun b => (rIdom b).getD 0) n order) (hC : C.isGlobal = isGlobal)
    (s : SrcBlock.St) :
    (∀ void r m, Exec C F void entry s r m → Exec C (sweepFn f st (fun b => (rIdom b).getD 0) n F) void entry s r m) ∧
    ∀ T, RaFn.Reach C F T entry s → RaFn.Reach C (sweepFn f st (fun b => (rIdom b).getD 0) n F) T entry s := by
  have S := swept_of (n := n) P I h0 hm hj
  have he : entry ∈ order := (S.mem entry).2 (Cfg.Reach.refl _)
  exact ⟨fun void r m hx => (exec_swept S hC hx he I.entryExit).1 s (SRel.refl s),
    fun T hx => (reach_swept S hC hx he I.entryExit).1 s (SRel.refl s)⟩

/-- **C55**.  Dead code elimination leaves no loop without a way out, if there was none and every removed branch has a useful block to go on to
(`Joined`): blocks that can be reached could be reached before, and from them the exit can be reached. -/
theorem C55_way_out_partial (P : Prepared F entry prev univ f rIdom order) (I : Input F isGlobal entry f order) (h0 : Unmarked st0)
    (hm : dceMark f cap k order st0 = some st) (hj : Joined F f st (fun b => (rIdom b).getD 0) n order) {b : Nat}
    (hb : Reach (succs (sweepFn f st (fun b => (rIdom b).getD 0) n F)) entry b) :
    Reach (succs F) entry b ∧ Reach (succs (sweepFn f st (fun b => (rIdom b).getD 0) n F)) b F.fnExit := by
  have S := swept_of (n := n) P I h0 hm hj
  obtain ⟨rI, hrI⟩ : ∃ rI : Nat → Nat, rI = fun b => (rIdom b).getD 0 := ⟨_, rfl⟩
  rw [← hrI] at hb S ⊢
  -- the edges afterwards
  have hedge : ∀ b ∈ order, b ≠ F.fnExit → (succs (sweepFn f st rI n F) b = succs F b) ∨
      ∃ j, succs (sweepFn f st rI n F) b = [j] ∧ j ≠ F.fnExit ∧ ∀ c ∈ succs F b, Cfg.Meets (succs F) F.fnExit st.bbUseful j c := by
    intro b hb hbe
    cases hr : branchRemoved f st b with
    | false =>
      left
      unfold succs
      rw [sweepFn_same hr]
      rfl
    | true =>
      obtain ⟨j, h1, h2, h3⟩ := S.meets b hb hbe hr
      refine .inr ⟨j, ?_, h2, h3⟩
      unfold succs
      rw [if_neg (show ¬ b = (sweepFn f st rI n F).fnExit from hbe), sweepFn_next hr h1]
  -- the new successor is on the way to the exit
  have hmid : ∀ {a l}, CGraph.Path (succs F) a l F.fnExit → ∀ {j}, j ∈ l → ∃ l', l'.length ≤ l.length ∧ CGraph.Path (succs F) j l' F.fnExit ∧ Reach (succs F) a j := by
    intro a l p
    obtain ⟨e, he⟩ : ∃ e, e = F.fnExit := ⟨_, rfl⟩
    rw [← he] at p ⊢
    clear he
    induction p with
    | nil a =>
      intro j hj
      obtain rfl := List.mem_singleton.1 hj
      exact ⟨_, Nat.le_refl _, .nil _, Cfg.Reach.refl _⟩
    | @cons a c e l h p ih =>
      intro j hj
      rcases List.mem_cons.1 hj with rfl | hj
      · exact ⟨_, Nat.le_refl _, .cons h p, Cfg.Reach.refl _⟩
      · obtain ⟨l', h1, h2, h3⟩ := ih hj
        exact ⟨l', Nat.le_succ_of_le h1, h2, Cfg.Reach.trans (Cfg.Reach.one h) h3⟩
  have hnext : ∀ b ∈ order, ∀ {l}, CGraph.Path (succs F) b l F.fnExit → b ≠ F.fnExit →
      ∀ j, succs (sweepFn f st rI n F) b = [j] → (∀ c ∈ succs F b, Cfg.Meets (succs F) F.fnExit st.bbUseful j c) →
      j ∈ order ∧ ∃ l', l'.length < l.length ∧ CGraph.Path (succs F) j l' F.fnExit := by
    intro b hb l p hbe j _ h3
    cases p with
    | nil => exact absurd rfl hbe
    | cons h p =>
      obtain ⟨xs, ys, e, _⟩ := h3 _ h _ p
      obtain ⟨l', h1, h2, h4⟩ := hmid p (j := j) (by rw [e]; simp)
      exact ⟨(S.mem j).2 (Cfg.Reach.trans (Cfg.Reach.trans ((S.mem b).1 hb) (Cfg.Reach.one h)) h4), l', Nat.lt_succ_of_le h1, h2⟩
  have hout : ∀ m b, b ∈ order → ∀ l, CGraph.Path (succs F) b l F.fnExit → l.length ≤ m → Reach (succs (sweepFn f st rI n F)) b F.fnExit := by
    intro m
    induction m with
    | zero =>
      intro b hb l p hl
      cases p <;> cases hl
    | succ m ih =>
      intro b hb l p hl
      by_cases hbe : b = F.fnExit
      · rw [hbe]; exact Cfg.Reach.refl _
      rcases hedge b hb hbe with h | ⟨j, h, _, h3⟩
      · cases p with
        | nil => exact Cfg.Reach.refl _
        | @cons _ c _ l h' p =>
          refine Cfg.Reach.trans (Cfg.Reach.one (by rw [h]; exact h')) (ih c (S.step hb h') l p (Nat.le_of_succ_le_succ hl))
      · obtain ⟨hjo, l', h1, h2⟩ := hnext b hb p hbe j h h3
        exact Cfg.Reach.trans (Cfg.Reach.one (by rw [h]; simp)) (ih j hjo l' h2 (by omega))
  have hin : ∀ {a l b}, CGraph.Path (succs (sweepFn f st rI n F)) a l b → a ∈ order → b ∈ order := by
    intro a l b p
    induction p with
    | nil => exact id
    | @cons a c b l h p ih =>
      intro ha
      refine ih ?_
      by_cases hae : a = F.fnExit
      · rw [hae] at h
        simp only [succs] at h
        rw [if_pos (show F.fnExit = (sweepFn f st rI n F).fnExit from rfl)] at h
        cases h
      rcases hedge a ha hae with e | ⟨j, e, _, h3⟩
      · rw [e] at h
        exact S.step ha h
      · rw [e] at h
        obtain rfl := List.mem_singleton.1 h
        obtain ⟨l', p'⟩ := S.exit a ha
        exact (hnext a ha p' hae _ e h3).1
  obtain ⟨l, p⟩ := hb
  have hb' := hin p ((S.mem entry).2 (Cfg.Reach.refl _))
  obtain ⟨l', p'⟩ := S.exit b hb'
  exact ⟨(S.mem b).1 hb', hout _ b hb' l' p' (Nat.le_refl _)⟩

end

end Shecc.Props
