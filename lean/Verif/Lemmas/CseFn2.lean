import Verif.Lemmas.CseFn1

/-!
# The invariant of the loop of `optimize` over the instructions of a function
-/

namespace Shecc.Optimize
open Shecc.Ssa Shecc.Cse Shecc.ConstFold Shecc.Props SsaSem CCse

section
variable (g : Nat → Bool) (idom : Nat → Nat) (fuel : Nat) (cv0 : Nat → CArith.Word) (F : RegAlloc.Fn) (order : List Nat)

/-- The pair `i`, `n` behind `pre` in block `c` repeats a read into `d`. -/
def Good (c : Nat) (pre' : List Insn) (i n : Insn) (d : Nat) : Prop :=
  ∃ b pre i0 n0 base idx, b ∈ order ∧ First F g b pre i0 n0 base idx d ∧ SumRead F c pre' i n base idx ∧
    ((c = b ∧ pre.length < pre'.length) ∨ (c ≠ b ∧ domCheck idom b fuel c = true))

structure AlOk (c : Nat) (cur : List Insn) (A : List Al) : Prop where
  before : bef A = F.insns c
  after : A.map Al.aft = cur
  ones : Ones A
  twos : ∀ X i n d Y, A = X ++ .two i n d :: Y → Good g idom fuel F order c (bef X) i n d

/-- Targets among the instructions dealt with are not repeated behind. -/
def Clean (done todo : List Insn) : Prop :=
  ∀ x i n y bs ix d, done = x ++ i :: n :: y → target g i n = some (bs, ix, d) → ¬ HasHit bs ix (y ++ todo)

/-- The shape of repeated reads. -/
def Shape : Prop :=
  ∀ b pre i n base idx d, First F g b pre i n base idx d → ∀ c pre' i' n', SumRead F c pre' i' n' base idx →
    (c, pre'.length) ≠ (b, pre.length) → ∃ t r, Same F g n d c pre' i' n' t r

variable {g idom fuel cv0 F order}

theorem Good.apart {c : Nat} {pre' : List Insn} {i n : Insn} {d : Nat} (h : Good g idom fuel F order c pre' i n d) (hs : Shape g F) :
    ∃ b pre i0 n0 base idx t r, b ∈ order ∧ First F g b pre i0 n0 base idx d ∧ SumRead F c pre' i n base idx ∧ Same F g n0 d c pre' i n t r ∧
      ((c = b ∧ pre.length < pre'.length) ∨ (c ≠ b ∧ domCheck idom b fuel c = true)) := by
  obtain ⟨b, pre, i0, n0, base, idx, hb, h1, h2, h3⟩ := h
  obtain ⟨t, r, h4⟩ := hs b pre i0 n0 base idx d h1 c pre' i n h2 (by
    rcases h3 with ⟨rfl, h3⟩ | ⟨h3, _⟩
    · intro h; have := congrArg Prod.snd h; simp only at this; omega
    · intro h; exact h3 (congrArg Prod.fst h))
  exact ⟨b, pre, i0, n0, base, idx, t, r, hb, h1, h2, h4, h3⟩

theorem target_some {prev insn : Insn} {base idx d : Nat} (h : target g prev insn = some (base, idx, d)) :
    prev.op = .alu .add ∧ insn.op = .read ∧ insn.rs1 = prev.rd ∧ prev.rs1 = some base ∧ prev.rs2 = some idx ∧ insn.rd = some d ∧
      g base = false ∧ g idx = false := by
  unfold target at h
  split at h
  · rename_i hc
    split at h
    · rename_i b' i' d' h1 h2 h3
      split at h
      · cases h
      · rename_i hg
        simp only [Bool.not_eq_true, Bool.or_eq_false_iff] at hg
        cases h
        exact ⟨hc.2.1, hc.1, hc.2.2.symm, h1, h2, h3, hg.1, hg.2⟩
    · cases h
  · cases h

theorem target_of {prev insn : Insn} {base idx t r : Nat} (h1 : hit base idx prev insn = true) (h2 : prev.rd = some t) (h3 : insn.rs1 = some t)
    (h4 : insn.rd = some r) (h5 : g base = false) (h6 : g idx = false) : target g prev insn = some (base, idx, r) := by
  simp only [hit, Bool.and_eq_true, decide_eq_true_eq] at h1
  unfold target
  rw [if_pos ⟨h1.1.1.2, h1.1.1.1, by rw [h2, h3]⟩, h1.1.2, h1.2, h4]
  simp [h5, h6]

theorem hit_of_target {prev insn : Insn} {base idx d : Nat} (h : target g prev insn = some (base, idx, d)) : hit base idx prev insn = true := by
  obtain ⟨h1, h2, _, h3, h4, _⟩ := target_some h
  simp [hit, h1, h2, h3, h4]

/-- An assignment that replaced a read stays. -/
theorem folding_asg {prev : Option Insn} {n : Insn} {d r : Nat} {st : CF} (hr : n.rd = some r) (hc : st.isConst d = false)
    (hp : prevLoads prev d = false) : const_folding g prev (asg n d) st = .ok (asg n d, st) := by
  have hm : mark_const g prev (asg n d) st = .ok (asg n d, st, false) := by
    unfold mark_const
    simp only [asg, hr, hc, hp]
    split <;> simp
  unfold const_folding
  rw [hm]
  show eval_const_arithmetic (asg n d) st = _
  unfold eval_const_arithmetic
  split
  · split
    · rfl
    · rfl
  · rfl

/-- A variable that a read assigns is not constant. -/
theorem not_const {PZ : List (Insn × Insn)} {st : CF} (H : FInv g cv0 PZ st) (hs : IsSsa g (order.flatMap F.insns))
    (hsrc : ∀ p ∈ PZ, p.1 ∈ order.flatMap F.insns) {i : Insn} (hi : i ∈ order.flatMap F.insns) {d : Nat} (ho : i.op = .read) (hd : i.rd = some d)
    (hg : g d = false) : st.isConst d = false := by
  cases hc : st.isConst d with
  | false => rfl
  | true =>
    obtain ⟨p, hp, hpr, hpf, _⟩ := H.isc d hc
    obtain ⟨xs, ys, he⟩ := List.append_of_mem hi
    have h1 := hs.1 xs i ys d he hd hg (by rw [ho]; simp)
    have h2 := hsrc p hp
    rw [he] at h2
    have hne : p.1 ∉ xs ++ ys := fun hm => h1 _ hm hpr
    have : p.1 = i := by
      simp only [List.mem_append, List.mem_cons] at h2 hne
      rcases h2 with h2 | h2 | h2
      · exact absurd (Or.inl h2) hne
      · exact h2
      · exact absurd (Or.inr h2) hne
    rw [this] at hpf
    rcases hpf with h | ⟨o, h⟩ | ⟨h, _⟩ <;> rw [ho] at h <;> cases h

theorem AlOk.rewritten {c b : Nat} {cur : List Insn} {A : List Al} (h : AlOk g idom fuel F order c cur A) {pre : List Insn} {i0 n0 : Insn} {base idx d : Nat}
    (hb : b ∈ order) (hF : First F g b pre i0 n0 base idx d) (hne : c ≠ b) (hdom : domCheck idom b fuel c = true) :
    ∃ A', AlOk g idom fuel F order c (rewrite base idx d cur) A' ∧ ∀ i i', Al.one i i' ∈ A' → Al.one i i' ∈ A := by
  obtain ⟨A', h1, h2, h3, h4⟩ := rewrite_al (base := base) (idx := idx) (d := d) cur A h.ones h.after
  refine ⟨A', ⟨h1.trans h.before, h2, fun i i' hm => h.ones i i' (h3 i i' hm), ?_⟩, h3⟩
  intro X i n e Y he
  rcases h4 X i n e Y he with ⟨X', Y', e1, e2⟩ | ⟨rfl, hh⟩
  · rw [← e2]; exact h.twos X' i n e Y' e1
  · simp only [hit, Bool.and_eq_true, decide_eq_true_eq] at hh
    refine ⟨b, pre, i0, n0, base, idx, hb, hF, ⟨⟨bef Y, ?_⟩, hh.1.1.1, hh.1.2, hh.2, hh.1.1.2⟩, Or.inr ⟨hne, hdom⟩⟩
    rw [← h.before, ← h1, he]
    simp [bef, Al.bef]

/-- The state of the loop: what became of the instructions of all blocks, and the instructions dealt with so far, each with what it was. -/
structure OInv (g : Nat → Bool) (idom : Nat → Nat) (fuel : Nat) (cv0 : Nat → CArith.Word) (F : RegAlloc.Fn) (order : List Nat)
    (cur : Nat → List Insn) (A : Nat → List Al) (PZ : List (Insn × Insn)) (st : CF) : Prop where
  al : ∀ c, AlOk g idom fuel F order c (cur c) (A c)
  fi : FInv g cv0 PZ st

theorem map_snoc {A : List Al} {l : List Insn} {x : Insn} (h : A.map Al.aft = l ++ [x]) : ∃ A0 a, A = A0 ++ [a] ∧ A0.map Al.aft = l ∧ a.aft = x := by
  obtain ⟨A0, A1, h1, h2, h3⟩ := List.map_eq_append_iff.1 h
  cases A1 with
  | nil => simp at h3
  | cons a A1 =>
    simp only [List.map_cons, List.cons.injEq] at h3
    obtain ⟨h3, h4⟩ := h3
    have : A1 = [] := by simpa using h4
    subst this
    exact ⟨A0, a, h1, h2, h3⟩

set_option maxHeartbeats 1000000 in
/-- One block. -/
theorem optBlock_inv (hssa : IsSsa g (order.flatMap F.insns)) (hshape : Shape g F) {b : Nat} {early late : List Nat}
    (hord : order = early ++ b :: late) (hnd : order.Nodup) : ∀ (n : Nat) (cur : Nat → List Insn) (done todo : List Insn) (st : CF) (A : Nat → List Al)
    (Ad At : List Al) (PZ : List (Insn × Insn)) (cur' : Nat → List Insn) (st' : CF), todo.length ≤ n → cur b = done ++ todo →
    A b = Ad ++ At → Ad.map Al.aft = done → At.map Al.aft = todo → OInv g idom fuel cv0 F order cur A PZ st → (∀ c ∈ early, Proc PZ (A c)) →
    Proc PZ Ad → Raw At → (∀ c ∈ late, Raw (A c)) → (PZ.map Prod.fst).Sublist (early.flatMap F.insns ++ bef Ad) →
    (∀ p, done.getLast? = some p → p.op = .load_constant → ∀ u, p.rd = some u → st.isConst u = true) → Clean g done todo →
    optBlock g idom fuel b n cur done todo st = .ok (cur', st') →
    ∃ A' PZ', OInv g idom fuel cv0 F order cur' A' PZ' st' ∧ (∀ c ∈ early, Proc PZ' (A' c)) ∧ Proc PZ' (A' b) ∧ (∀ c ∈ late, Raw (A' c)) ∧
      (PZ'.map Prod.fst).Sublist (early.flatMap F.insns ++ F.insns b) := by
  have hb : b ∈ order := by rw [hord]; simp
  intro n
  induction n with
  | zero =>
    intro cur done todo st A Ad At PZ cur' st' hn hcur hA hAd hAt H hE hP hR hL hsrc hlast hQ h
    have : todo = [] := List.length_eq_zero_iff.1 (by omega)
    subst this
    cases h
    have : At = [] := by simpa using hAt
    subst this
    refine ⟨A, PZ, H, hE, by rw [hA]; simpa using hP, hL, ?_⟩
    rw [← (H.al b).before, hA]
    simpa using hsrc
  | succ n ih =>
    intro cur done todo st A Ad At PZ cur' st' hn hcur hA hAd hAt H hE hP hR hL hsrc hlast hQ h
    cases todo with
    | nil =>
      cases h
      have : At = [] := by simpa using hAt
      subst this
      refine ⟨A, PZ, H, hE, by rw [hA]; simpa using hP, hL, ?_⟩
      rw [← (H.al b).before, hA]
      simpa using hsrc
    | cons i is =>
      simp only [List.length_cons] at hn
      match At, hAt with
      | a :: At, hAt =>
      simp only [List.map_cons, List.cons.injEq] at hAt
      obtain ⟨ha, hAt⟩ := hAt
      have hbef := (H.al b).before
      rw [hA] at hbef
      have hsrcO : ∀ p ∈ PZ, p.1 ∈ order.flatMap F.insns := by
        intro p hp
        rw [hord, List.flatMap_append, List.flatMap_cons, ← hbef]
        have := hsrc.subset (List.mem_map_of_mem hp)
        simp only [List.mem_append, bef, List.flatMap_append] at this ⊢
        rcases this with h | h
        · exact Or.inl h
        · exact Or.inr (Or.inl (Or.inl h))
      rw [optBlock] at h
      cases hm : (done.getLast?.bind fun prev => (target g prev i).map fun t => (prev, t)) with
      | some q =>
        obtain ⟨prev, base, idx, d⟩ := q
        rw [hm] at h
        simp only [Option.bind_eq_some_iff, Option.map_eq_some_iff, Prod.mk.injEq] at hm
        obtain ⟨prev', hl, t, ht, rfl, rfl⟩ := hm
        obtain ⟨dl, hdl⟩ := List.getLast?_eq_some_iff.1 hl
        subst hdl
        rw [List.dropLast_concat] at h
        simp only at h
        obtain ⟨o1, o2, o3, o4, o5, o6, o7, o8⟩ := target_some ht
        obtain ⟨A0, pa, rfl, hA0, hpa⟩ := map_snoc hAd
        have hOb : Ones (A b) := (H.al b).ones
        have epa := Al.of_aft hOb (a := pa) (by rw [hA]; simp) (by rw [hpa, o1]; simp) (by rw [hpa, o1]; simp)
        have eia := Al.of_aft hOb (a := a) (by rw [hA]; simp) (by rw [ha, o2]; simp) (by rw [ha, o2]; simp)
        rw [hpa] at epa
        rw [ha] at eia
        subst epa eia
        have hcode : F.insns b = bef A0 ++ prev' :: i :: bef At := by
          rw [← hbef]
          simp [bef, Al.bef]
        have hF : First F g b (bef A0) prev' i base idx d := ⟨⟨⟨_, hcode⟩, o1, o4, o5, o2⟩, o3, o6, o7, o8⟩
        -- nothing before is replaced
        have hpre : ¬ HasHit base idx dl := by
          rintro ⟨x, i1, n1, y, he, hh⟩
          rw [he] at hA0
          obtain ⟨X1, R1, e1, e2, e3⟩ := List.map_eq_append_iff.1 hA0
          match R1, e3 with
          | u :: v :: R1, e3 =>
          simp only [List.map_cons, List.cons.injEq] at e3
          obtain ⟨e3, e4, e5⟩ := e3
          obtain ⟨q1, q2⟩ := hit_ops hh
          have eu := Al.of_aft hOb (a := u) (by rw [hA, e1]; simp) (by rw [e3, q1]; simp) (by rw [e3, q1]; simp)
          have ev := Al.of_aft hOb (a := v) (by rw [hA, e1]; simp) (by rw [e4, q2]; simp) (by rw [e4, q2]; simp)
          rw [e3] at eu
          rw [e4] at ev
          subst eu ev
          have hh' := hh
          simp only [hit, Bool.and_eq_true, decide_eq_true_eq] at hh'
          have hS : SumRead F b (bef X1) i1 n1 base idx := by
            refine ⟨⟨bef R1 ++ prev' :: i :: bef At, ?_⟩, hh'.1.1.1, hh'.1.2, hh'.2, hh'.1.1.2⟩
            rw [hcode, e1]
            simp [bef, Al.bef]
          obtain ⟨t, r, hsm⟩ := hshape b _ prev' i base idx d hF b (bef X1) i1 n1 hS (by
            intro hq
            have := congrArg Prod.snd hq
            simp only [e1, bef, Al.bef, List.flatMap_append, List.flatMap_cons, List.length_append, List.length_cons, List.length_nil] at this
            omega)
          have ht1 := target_of hh hsm.sum hsm.from_ hsm.into o7 o8
          refine hQ x i1 n1 (y ++ [prev']) base idx r (by rw [he]; simp) ht1 ?_
          exact ⟨y, prev', i, is, by simp, hit_of_target ht⟩
        rw [rewrite_none hpre] at h
        -- what is replaced behind
        have hOt : Ones At := fun j j' hj => hOb j j' (by rw [hA]; simp [hj])
        obtain ⟨At', r1, r2, r3, r4⟩ := rewrite_al (base := base) (idx := idx) (d := d) is At hOt hAt
        have hcur' : ∃ (cur1 : Nat → List Insn) (A1 : Nat → List Al), cse g idom fuel cur b dl prev' i is = some cur1 ∧ cur1 b = dl ++ prev' :: i :: rewrite base idx d is ∧
            A1 b = A0 ++ .one prev' prev' :: .one i i :: At' ∧ (∀ c, AlOk g idom fuel F order c (cur1 c) (A1 c)) ∧
            ∀ c, c ≠ b → ∀ j j', Al.one j j' ∈ A1 c → Al.one j j' ∈ A c := by
          have hex : ∀ c, ∃ Ac, (c ≠ b → AlOk g idom fuel F order c (if domCheck idom b fuel c then rewrite base idx d (cur c) else cur c) Ac ∧
              ∀ j j', Al.one j j' ∈ Ac → Al.one j j' ∈ A c) := by
            intro c
            by_cases hc : domCheck idom b fuel c = true
            · by_cases hcb : c = b
              · exact ⟨[], fun h => absurd hcb h⟩
              · obtain ⟨Ac, h1, h2⟩ := (H.al c).rewritten hb hF hcb hc
                exact ⟨Ac, fun _ => ⟨by rw [if_pos hc]; exact h1, h2⟩⟩
            · exact ⟨A c, fun _ => ⟨by rw [if_neg hc]; exact H.al c, fun _ _ h => h⟩⟩
          refine ⟨fun c => if c = b then rewrite base idx d dl ++ prev' :: i :: rewrite base idx d is
              else if domCheck idom b fuel c then rewrite base idx d (cur c) else cur c,
            fun c => if c = b then A0 ++ .one prev' prev' :: .one i i :: At' else (hex c).choose, ?_, ?_, ?_, ?_, ?_⟩
          · unfold cse
            rw [ht]
          · simp [rewrite_none hpre]
          · simp
          · intro c
            by_cases hcb : c = b
            · subst hcb
              simp only [if_true, rewrite_none hpre]
              have hA0' : A0.map Al.aft = dl := hA0
              refine ⟨?_, ?_, ?_, ?_⟩
              · rw [hcode]
                simp only [bef] at r1
                simp [bef, Al.bef, r1]
              · simp [hA0', r2, Al.aft]
              · intro j j' hj
                simp only [List.mem_append, List.mem_cons, Al.one.injEq] at hj
                rcases hj with hj | hj | hj | hj
                · exact hOb j j' (by rw [hA]; simp [hj])
                · exact Or.inl (hj.2.trans hj.1.symm)
                · exact Or.inl (hj.2.trans hj.1.symm)
                · exact hOt j j' (r3 j j' hj)
              · intro X j k e Y he
                rcases List.append_eq_append_iff.1 he with ⟨Z, e1, e2⟩ | ⟨Z, e1, e2⟩
                · -- X is longer
                  match Z, e2 with
                  | _ :: _ :: Z, e2 =>
                    simp only [List.cons_append, List.nil_append, List.cons.injEq] at e2
                    obtain ⟨rfl, rfl, e2⟩ := e2
                    rcases r4 Z j k e Y e2 with ⟨X', Y', e3, e4⟩ | ⟨rfl, hh⟩
                    · have := (H.al c).twos (A0 ++ .one prev' prev' :: .one i i :: X') j k e Y' (by rw [hA, e3]; simp)
                      rw [e1]
                      simp only [bef] at e4
                      simp only [bef, List.flatMap_append, List.flatMap_cons, e4, List.flatMap_nil] at this ⊢
                      exact this
                    · simp only [hit, Bool.and_eq_true, decide_eq_true_eq] at hh
                      refine ⟨c, bef A0, prev', i, base, idx, hb, hF, ⟨⟨bef Y, ?_⟩, hh.1.1.1, hh.1.2, hh.2, hh.1.1.2⟩, Or.inl ⟨rfl, ?_⟩⟩
                      · rw [hcode, ← r1, e2, e1]
                        simp [bef, Al.bef]
                      · rw [e1]
                        simp [bef, Al.bef]
                        try omega
                  | [], e2 =>
                    simp at e2
                  | [_], e2 =>
                    simp at e2
                · cases Z with
                  | nil => simp at e2
                  | cons z Z =>
                    simp only [List.cons_append, List.cons.injEq] at e2
                    obtain ⟨rfl, e2⟩ := e2
                    exact (H.al c).twos X j k e (Z ++ .one prev' prev' :: .one i i :: At) (by rw [hA, e1]; simp)
            · simp only [if_neg hcb]
              exact ((hex c).choose_spec hcb).1
          · intro c hcb j j' hj
            simp only [if_neg hcb] at hj
            exact ((hex c).choose_spec hcb).2 j j' hj
        obtain ⟨cur1, A1, hcse, hc1, hA1, hal1, hones1⟩ := hcur'
        rw [hcse] at h
        have hbe : b ∉ early := by
          rw [hord] at hnd
          intro hb'
          exact (List.nodup_append.1 hnd).2.2 b hb' b (by simp) rfl
        have hbl : b ∉ late := by
          rw [hord] at hnd
          have := (List.nodup_append.1 hnd).2.1
          exact (List.nodup_cons.1 this).1
        refine ih cur1 (dl ++ [prev', i]) (rewrite base idx d is) st A1 (A0 ++ [.one prev' prev', .one i i]) At' (PZ ++ [(i, i)]) cur' st' ?_ ?_ ?_ ?_ ?_ ?_
          ?_ ?_ ?_ ?_ ?_ ?_ ?_ h
        · have := rewrite_length (base := base) (idx := idx) (d := d) is
          omega
        · rw [hc1]; simp
        · rw [hA1]; simp
        · simp [hA0, Al.aft]
        · exact r2
        · exact ⟨hal1, H.fi.snoc (fun v h => ⟨h, rfl⟩) (fun v h => Or.inl h) (fun v => Or.inl rfl) (.same fun _ _ h => absurd h (by rw [o2]; simp))⟩
        · intro c hc j j' hj
          have := hE c hc j j' (hones1 c (by rintro rfl; exact hbe hc) j j' hj)
          simp [this]
        · intro j j' hj
          simp only [List.mem_append, List.mem_cons, List.not_mem_nil, or_false, Al.one.injEq] at hj
          rcases hj with hj | hj | ⟨rfl, rfl⟩
          · have := hP j j' (by simp [hj]); simp [this]
          · have := hP j j' (by simp [hj]); simp [this]
          · simp
        · intro j j' hj
          exact hR j j' (by simp [r3 j j' hj])
        · intro c hc j j' hj
          exact hL c hc j j' (hones1 c (by rintro rfl; exact hbl hc) j j' hj)
        · have e : early.flatMap F.insns ++ bef (A0 ++ [.one prev' prev', .one i i]) = (early.flatMap F.insns ++ bef (A0 ++ [.one prev' prev'])) ++ [i] := by
            simp [bef, Al.bef]
          rw [e, List.map_append]
          exact hsrc.append (List.Sublist.refl _)
        · intro p hp ho
          rw [show dl ++ [prev', i] = (dl ++ [prev']) ++ [i] by simp, List.getLast?_concat] at hp
          cases hp
          rw [o2] at ho
          cases ho
        · intro x i1 n1 y bs ix e he ht1
          rw [show dl ++ [prev', i] = (dl ++ [prev']) ++ [i] by simp] at he
          rcases List.eq_nil_or_concat y with rfl | ⟨y0, z, rfl⟩
          · have : (dl ++ [prev']) ++ [i] = (x ++ [i1]) ++ [n1] := by simpa using he
            obtain ⟨e1, e2⟩ := List.append_inj' this rfl
            obtain ⟨_, e1⟩ := List.append_inj' e1 rfl
            cases e1
            cases e2
            rw [ht] at ht1
            cases ht1
            exact rewrite_clean is
          · rw [List.concat_eq_append] at *
            have : (dl ++ [prev']) ++ [i] = (x ++ i1 :: n1 :: y0) ++ [z] := by simpa using he
            obtain ⟨e1, e2⟩ := List.append_inj' this rfl
            cases e2
            intro hh
            have hh' := HasHit.unrewrite is (y0 ++ [i]) hh
            exact hQ x i1 n1 y0 bs ix e e1 ht1 (by simpa using hh')
      | none =>
        rw [hm] at h
        simp only at h
        -- what folding does here
        have hfold : ∃ i' st1 a' PZ1, const_folding g done.getLast? i st = .ok (i', st1) ∧ a'.aft = i' ∧ a'.bef = a.bef ∧ FInv g cv0 PZ1 st1 ∧
            (∀ p ∈ PZ, p ∈ PZ1) ∧ (PZ1.map Prod.fst).Sublist (PZ.map Prod.fst ++ a.bef) ∧ Proc PZ1 [a'] ∧ Ones [a'] ∧ Chg1 i i' ∧
            (i'.op = .load_constant → ∀ u, i'.rd = some u → st1.isConst u = true) ∧
            (∀ j k e, a' = .two j k e → a = .two j k e) := by
          cases a with
          | one i0 i0' =>
            have e0 := hR i0 i0' (by simp)
            subst e0
            obtain rfl : i0' = i := ha
            cases hf : const_folding g done.getLast? i0' st with
            | crash => rw [hf] at h; cases h
            | ok p =>
              obtain ⟨i', st1⟩ := p
              obtain ⟨K1, K2⟩ := const_folding_inv (r := (i', st1)) H.fi hlast (by
                intro v hv hfo p hp
                have he : order.flatMap F.insns = (early.flatMap F.insns ++ bef Ad) ++ i0' :: (bef At ++ late.flatMap F.insns) := by
                  rw [hord, List.flatMap_append, List.flatMap_cons, ← hbef]
                  simp [bef, Al.bef]
                refine (IsSsa.single hssa he hfo hv).2 p.1 ?_
                exact List.mem_append_left _ (hsrc.subset (List.mem_map_of_mem hp))) hf
              refine ⟨i', st1, .one i0' i', PZ ++ [(i0', i')], rfl, rfl, rfl, K1, fun p hp => by simp [hp], ?_, ?_, ?_, folding_chg hf, fun ho u hu => K2 u ho hu, ?_⟩
              · rw [List.map_append]
                exact List.Sublist.refl _
              · intro j j' hj
                simp only [List.mem_singleton, Al.one.injEq] at hj
                simp [hj]
              · intro j j' hj
                simp only [List.mem_singleton, Al.one.injEq] at hj
                obtain ⟨rfl, rfl⟩ := hj
                exact folding_chg hf
              · intro j k e he; cases he
          | two i0 n0 e =>
            obtain ⟨b0, pre0, i1, n1, base, idx, t, r, hb0, hF0, hS0, hsm, hpos⟩ := ((H.al b).twos Ad i0 n0 e At hA).apart hshape
            obtain ⟨post0, hpost0⟩ := hF0.here.code
            have hmem : n1 ∈ order.flatMap F.insns := List.mem_flatMap.2 ⟨b0, hb0, by rw [hpost0]; simp⟩
            have hnc := not_const H.fi hssa hsrcO hmem hF0.here.read hF0.into hsm.ld
            have hnp : prevLoads done.getLast? e = false := by
              unfold prevLoads
              split
              · rfl
              · rename_i p hp
                rw [Bool.eq_false_iff]
                intro hq
                simp only [Bool.and_eq_true, decide_eq_true_eq] at hq
                have := hlast p hp hq.1 e hq.2
                rw [hnc] at this
                cases this
            obtain rfl : asg n0 e = i := ha
            refine ⟨asg n0 e, st, .two i0 n0 e, PZ, folding_asg hsm.into hnc hnp, rfl, rfl, H.fi, fun _ h => h, List.sublist_append_left _ _, ?_, ?_, Or.inl rfl, ?_, fun _ _ _ h => h⟩
            · intro j j' hj; simp at hj
            · intro j j' hj; simp at hj
            · intro ho; cases ho
        obtain ⟨i', st1, a', PZ1, hf, ha', hab, hfi, hsub, hsup, hpr, hone, hchg, hl1, htwo⟩ := hfold
        rw [hf] at h
        simp only at h
        have hbe : b ∉ early := by
          rw [hord] at hnd
          intro hb'
          exact (List.nodup_append.1 hnd).2.2 b hb' b (by simp) rfl
        have hbl : b ∉ late := by
          rw [hord] at hnd
          have := (List.nodup_append.1 hnd).2.1
          exact (List.nodup_cons.1 this).1
        refine ih _ (done ++ [i']) is st1 (fun c => if c = b then Ad ++ a' :: At else A c) (Ad ++ [a']) At PZ1 cur' st' (by omega) (by simp) (by simp)
          (by simp [hAd, ha']) hAt ?_ ?_ ?_ ?_ ?_ ?_ ?_ ?_ h
        · refine ⟨?_, hfi⟩
          intro c
          by_cases hcb : c = b
          · subst hcb
            simp only [if_true]
            refine ⟨?_, by simp [hAd, ha', hAt], ?_, ?_⟩
            · rw [← hbef]
              simp [bef, hab]
            · intro j j' hj
              simp only [List.mem_append, List.mem_cons] at hj
              rcases hj with hj | hj | hj
              · exact (H.al c).ones j j' (by rw [hA]; simp [hj])
              · exact hone j j' (by simp [hj])
              · exact (H.al c).ones j j' (by rw [hA]; simp [hj])
            · intro X j k e Y he
              rcases List.append_eq_append_iff.1 he with ⟨Z, e1, e2⟩ | ⟨Z, e1, e2⟩
              · cases Z with
                | nil =>
                  simp only [List.nil_append, List.cons.injEq] at e2
                  obtain ⟨e2, rfl⟩ := e2
                  have := htwo j k e e2
                  subst this
                  rw [List.append_nil] at e1
                  subst e1
                  exact (H.al c).twos X j k e At hA
                | cons z Z =>
                  simp only [List.cons_append, List.cons.injEq] at e2
                  obtain ⟨rfl, e2⟩ := e2
                  have := (H.al c).twos (Ad ++ a :: Z) j k e Y (by rw [hA, e2]; simp)
                  rw [e1]
                  simp only [bef, List.flatMap_append, List.flatMap_cons, hab] at this ⊢
                  exact this
              · cases Z with
                | nil =>
                  simp only [List.nil_append, List.cons.injEq] at e2
                  obtain ⟨e2, rfl⟩ := e2
                  have := htwo j k e e2.symm
                  subst this
                  rw [List.append_nil] at e1
                  subst e1
                  exact (H.al c).twos _ j k e _ hA
                | cons z Z =>
                  simp only [List.cons_append, List.cons.injEq] at e2
                  obtain ⟨rfl, e2⟩ := e2
                  exact (H.al c).twos X j k e (Z ++ a :: At) (by rw [hA, e1]; simp)
          · simp only [if_neg hcb]
            exact H.al c
        · intro c hc j j' hj
          rw [if_neg (by rintro rfl; exact hbe hc)] at hj
          exact hsub _ (hE c hc j j' hj)
        · intro j j' hj
          rcases List.mem_append.1 hj with hj | hj
          · exact hsub _ (hP j j' hj)
          · exact hpr j j' hj
        · intro j j' hj
          exact hR j j' (by simp [hj])
        · intro c hc j j' hj
          rw [if_neg (by rintro rfl; exact hbl hc)] at hj
          exact hL c hc j j' hj
        · have e : early.flatMap F.insns ++ bef (Ad ++ [a']) = (early.flatMap F.insns ++ bef Ad) ++ a.bef := by
            simp [bef, hab]
          rw [e]
          exact hsup.trans (hsrc.append (List.Sublist.refl _))
        · intro p hp ho
          rw [List.getLast?_concat] at hp
          cases hp
          exact hl1 ho
        · intro x i1 n1 y bs ix e he ht1
          rcases List.eq_nil_or_concat y with rfl | ⟨y0, z, rfl⟩
          · have : done ++ [i'] = (x ++ [i1]) ++ [n1] := by simpa using he
            obtain ⟨e1, e2⟩ := List.append_inj' this rfl
            cases e2
            have ho := (target_some ht1).2.1
            rcases hchg with hi | hi
            · subst hi
              rw [e1, List.getLast?_concat] at hm
              simp [ht1] at hm
            · rw [ho] at hi; cases hi
          · rw [List.concat_eq_append] at *
            have : done ++ [i'] = (x ++ i1 :: n1 :: y0) ++ [z] := by simpa using he
            obtain ⟨e1, e2⟩ := List.append_inj' this rfl
            cases e2
            intro hh
            refine hQ x i1 n1 y0 bs ix e e1 ht1 ?_
            refine HasHit.back (l' := y0 ++ i' :: is) ((Chg.refl y0).append (.cons hchg (Chg.refl is))) ?_
            simpa using hh

/-- A function. -/
theorem optFn_inv (hssa : IsSsa g (order.flatMap F.insns)) (hshape : Shape g F) (hnd : order.Nodup) : ∀ (late early : List Nat)
    (cur : Nat → List Insn) (st : CF) (A : Nat → List Al) (PZ : List (Insn × Insn)) (cur' : Nat → List Insn) (st' : CF), order = early ++ late →
    OInv g idom fuel cv0 F order cur A PZ st → (∀ c ∈ early, Proc PZ (A c)) → (∀ c ∈ late, Raw (A c)) → (PZ.map Prod.fst).Sublist (early.flatMap F.insns) →
    optFn g idom fuel late cur st = .ok (cur', st') →
    ∃ A' PZ', OInv g idom fuel cv0 F order cur' A' PZ' st' ∧ (∀ c ∈ order, Proc PZ' (A' c)) ∧ (PZ'.map Prod.fst).Sublist (order.flatMap F.insns) := by
  intro late
  induction late with
  | nil =>
    intro early cur st A PZ cur' st' hord H hE hL hsrc h
    cases h
    rw [List.append_nil] at hord
    subst hord
    exact ⟨A, PZ, H, hE, hsrc⟩
  | cons b late ih =>
    intro early cur st A PZ cur' st' hord H hE hL hsrc h
    rw [optFn] at h
    cases hb : optBlock g idom fuel b (cur b).length cur [] (cur b) st with
    | crash => rw [hb] at h; cases h
    | ok p =>
      obtain ⟨cur1, st1⟩ := p
      rw [hb] at h
      simp only at h
      obtain ⟨A1, PZ1, H1, hE1, hb1, hL1, hs1⟩ := optBlock_inv (cv0 := cv0) hssa hshape hord hnd (cur b).length cur [] (cur b) st A [] (A b) PZ cur1 st1
        (Nat.le_refl _) rfl rfl rfl (H.al b).after H hE (by intro j j' hj; cases hj) (hL b (by simp)) (fun c hc => hL c (by simp [hc]))
        (by simpa [bef] using hsrc) (by intro p hp; simp at hp) (by intro x i n y _ _ _ he; simp at he) hb
      refine ih (early ++ [b]) cur1 st1 A1 PZ1 cur' st' (by rw [hord]; simp) H1 ?_ hL1 ?_ h
      · intro c hc
        rcases List.mem_append.1 hc with hc | hc
        · exact hE1 c hc
        · simp only [List.mem_singleton] at hc
          subst hc
          exact hb1
      · simpa using hs1

theorem optFn_al (hssa : IsSsa g (order.flatMap F.insns)) (hshape : Shape g F) (hnd : order.Nodup) {st st' : CF} {cur' : Nat → List Insn}
    (h0 : ∀ v, st.isConst v = false) (hv : st.initVal = cv0) (h : optFn g idom fuel order F.insns st = .ok (cur', st')) :
    ∃ A PZ, OInv g idom fuel cv0 F order cur' A PZ st' ∧ (∀ c ∈ order, Proc PZ (A c)) ∧ (PZ.map Prod.fst).Sublist (order.flatMap F.insns) := by
  refine optFn_inv hssa hshape hnd order [] F.insns st (fun c => (F.insns c).map fun i => .one i i) [] cur' st' rfl ⟨?_, ?_⟩ (by simp) ?_ (by simp) h
  · intro c
    refine ⟨?_, ?_, ?_, ?_⟩
    · simp [bef, List.flatMap_map, Al.bef]
    · rw [List.map_map]
      exact List.map_id' _
    · intro j j' hj
      obtain ⟨i, _, hi⟩ := List.mem_map.1 hj
      cases hi
      exact Or.inl rfl
    · intro X j k e Y he
      have : Al.two j k e ∈ (F.insns c).map fun i => Al.one i i := by rw [he]; simp
      obtain ⟨i, _, hi⟩ := List.mem_map.1 this
      cases hi
  · exact ⟨fun v hv => (by rw [h0 v] at hv; cases hv), fun _ _ => by rw [hv], fun p hp => (by cases hp)⟩
  · intro c _ j j' hj
    obtain ⟨i, _, hi⟩ := List.mem_map.1 hj
    cases hi
    rfl
end

end Shecc.Optimize
