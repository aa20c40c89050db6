import Verif.Spec.SsaSource
import Verif.Lemmas.Idom

/-!
# Executing renamed code

From a description of the result of renaming (`Cert`) to the simulation of the original function.
-/

namespace Shecc.SsaBuild
open Shecc.Cfg CRename CGraph

/-- The current subscript of a variable. -/
def top (R : Ren) (v : Nat) : Option Nat := (R.stack v).head?

/-- Subscripts on the stacks have been handed out by the counters. -/
def Ren.Ok (R : Ren) : Prop := ∀ v, ∀ k ∈ R.stack v, k < R.counter v

theorem top_push_self (R : Ren) (v : Nat) : top (R.push v) v = some (R.counter v) := by simp [top, Ren.push, upd]

theorem top_push_ne (R : Ren) {u v : Nat} (h : u ≠ v) : top (R.push v) u = top R u := by simp [top, Ren.push, upd, h]

theorem counter_push_le (R : Ren) (u v : Nat) : R.counter u ≤ (R.push v).counter u := by
  unfold Ren.push upd
  by_cases h : u = v
  · subst h; simp
  · simp [h]

theorem Ren.Ok.push {R : Ren} (h : R.Ok) (v : Nat) : (R.push v).Ok := by
  intro u k hk
  by_cases hu : u = v
  · subst hu
    simp only [Ren.push, upd, if_true, List.mem_cons] at hk ⊢
    rcases hk with rfl | hk
    · omega
    · have := h u k hk; omega
  · simp only [Ren.push, upd, if_neg hu] at hk ⊢
    exact h u k hk

theorem Ren.Ok.newOpt {f : Fn} {R : Ren} (h : R.Ok) (x : Option Nat) : (newOpt f R x).2.Ok := by
  cases x with
  | none => exact h
  | some v =>
    show (newName f v R).2.Ok
    unfold newName
    split
    · exact h
    · exact h.push v

theorem counter_newOpt_le (f : Fn) (R : Ren) (x : Option Nat) (v : Nat) : R.counter v ≤ (newOpt f R x).2.counter v := by
  cases x with
  | none => exact Nat.le_refl _
  | some u =>
    show R.counter v ≤ (newName f u R).2.counter v
    unfold newName
    split
    · exact Nat.le_refl _
    · exact counter_push_le R v u

theorem renIns_some {f : Fn} {i : Ins Nat} {R : Ren} {j : Ins Name} {R1 : Ren} (h : renIns f i R = some (j, R1)) :
    renOpt f R i.rs1 = some j.rs1 ∧ renOpt2 f R i.rs2 = some j.rs2 ∧ j.rd = (newOpt f R i.rd).1 ∧ R1 = (newOpt f R i.rd).2 ∧
      j.op = i.op ∧ j.sz = i.sz ∧ j.str = i.str := by
  unfold renIns at h
  split at h
  · rename_i a b ha hb
    simp only [Option.some.injEq, Prod.mk.injEq] at h
    obtain ⟨rfl, rfl⟩ := h
    exact ⟨ha, hb, rfl, rfl, rfl, rfl, rfl⟩
  · cases h

theorem renBody_cons {f : Fn} {i : Ins Nat} {is : List (Ins Nat)} {R R2 : Ren} {l : List (Ins Name)}
    (h : renBody f (i :: is) R = some (l, R2)) :
    ∃ j R1 js, renIns f i R = some (j, R1) ∧ renBody f is R1 = some (js, R2) ∧ l = j :: js := by
  unfold renBody at h
  split at h
  · cases h
  · rename_i j R1 hi
    split at h
    · cases h
    · rename_i js R2' hb
      simp only [Option.some.injEq, Prod.mk.injEq] at h
      obtain ⟨rfl, rfl⟩ := h
      exact ⟨j, R1, js, hi, hb, rfl⟩

theorem renBody_append {f : Fn} : ∀ (a b : List (Ins Nat)) {R R2 : Ren} {l : List (Ins Name)},
    renBody f (a ++ b) R = some (l, R2) → ∃ l1 R1 l2, renBody f a R = some (l1, R1) ∧ renBody f b R1 = some (l2, R2) ∧ l = l1 ++ l2 := by
  intro a
  induction a with
  | nil => intro b R R2 l h; exact ⟨[], R, l, rfl, h, rfl⟩
  | cons i a ih =>
    intro b R R2 l h
    obtain ⟨j, R1, js, h1, h2, rfl⟩ := renBody_cons h
    obtain ⟨l1, R1', l2, h3, h4, rfl⟩ := ih b h2
    refine ⟨j :: l1, R1', l2, ?_, h4, rfl⟩
    rw [renBody, h1]
    simp only
    rw [h3]

theorem renBody_mono {f : Fn} : ∀ (is : List (Ins Nat)) {R R2 : Ren} {l : List (Ins Name)}, renBody f is R = some (l, R2) →
    R.Ok → R2.Ok ∧ ∀ v, R.counter v ≤ R2.counter v := by
  intro is
  induction is with
  | nil => intro R R2 l h hR; simp only [renBody, Option.some.injEq, Prod.mk.injEq] at h; obtain ⟨_, rfl⟩ := h; exact ⟨hR, fun _ => Nat.le_refl _⟩
  | cons i is ih =>
    intro R R2 l h hR
    obtain ⟨j, R1, js, h1, h2, rfl⟩ := renBody_cons h
    obtain ⟨_, _, _, rfl, _⟩ := renIns_some h1
    obtain ⟨h3, h4⟩ := ih h2 (hR.newOpt i.rd)
    exact ⟨h3, fun v => Nat.le_trans (counter_newOpt_le f R i.rd v) (h4 v)⟩

theorem top_newOpt_ne {f : Fn} {R : Ren} {x : Option Nat} {v : Nat} (h : x ≠ some v) : top (newOpt f R x).2 v = top R v := by
  cases x with
  | none => rfl
  | some u =>
    have hu : v ≠ u := fun e => h (by rw [e])
    show top (newName f u R).2 v = top R v
    unfold newName
    split
    · rfl
    · exact top_push_ne R hu

theorem renBody_top {f : Fn} : ∀ (is : List (Ins Nat)) {R R2 : Ren} {l : List (Ins Name)}, renBody f is R = some (l, R2) →
    ∀ v, ¬ Assigns v is → top R2 v = top R v := by
  intro is
  induction is with
  | nil => intro R R2 l h v _; simp only [renBody, Option.some.injEq, Prod.mk.injEq] at h; obtain ⟨_, rfl⟩ := h; rfl
  | cons i is ih =>
    intro R R2 l h v hv
    obtain ⟨j, R1, js, h1, h2, rfl⟩ := renBody_cons h
    obtain ⟨_, _, _, rfl, _⟩ := renIns_some h1
    rw [ih h2 v (fun ⟨k, hk, e⟩ => hv ⟨k, List.mem_cons_of_mem _ hk, e⟩)]
    exact top_newOpt_ne (fun e => hv ⟨i, List.mem_cons_self .., e⟩)

/-! ### The correspondence -/

/-- `v` is live before the rest `l` of block `b`. -/
def LiveAt (f : Fn) (b : Nat) (l : List (Ins Nat)) (v : Nat) : Prop :=
  ReadsFirst v l ∨ (¬ Assigns v l ∧ ∃ c ∈ f.g.succs b, LiveIn f.g.succs f.code v c)

theorem ReadsFirst.cons_use {i : Ins Nat} {l : List (Ins Nat)} {v : Nat} (h : Uses i v) : ReadsFirst v (i :: l) :=
  ⟨[], i, l, rfl, h, fun _ h => by cases h⟩

theorem ReadsFirst.cons {i : Ins Nat} {l : List (Ins Nat)} {v : Nat} (h : ReadsFirst v l) (hi : i.rd ≠ some v) : ReadsFirst v (i :: l) := by
  obtain ⟨xs, k, ys, rfl, h1, h2⟩ := h
  refine ⟨i :: xs, k, ys, rfl, h1, ?_⟩
  intro x hx
  simp only [List.mem_cons] at hx
  rcases hx with rfl | hx
  · exact hi
  · exact h2 x hx

theorem LiveAt.cons {f : Fn} {b : Nat} {i : Ins Nat} {l : List (Ins Nat)} {v : Nat} (h : LiveAt f b l v) (hi : i.rd ≠ some v) :
    LiveAt f b (i :: l) v := by
  rcases h with h | ⟨h, hc⟩
  · exact Or.inl (ReadsFirst.cons h hi)
  · refine Or.inr ⟨?_, hc⟩
    rintro ⟨k, hk, e⟩
    simp only [List.mem_cons] at hk
    rcases hk with rfl | hk
    · exact hi e
    · exact h ⟨k, hk, e⟩

theorem LiveAt.liveIn {f : Fn} {b : Nat} {v : Nat} (h : LiveAt f b (f.code b) v) : LiveIn f.g.succs f.code v b := by
  rcases h with h | ⟨h, c, hc, hl⟩
  · exact .here h
  · exact .later hc h hl

variable {M : Mach} {H : Home Nat} {H' : Home Name} {nm : Nat → Nat}

/-- The source state `s` and the renamed state `t` agree on what is live before `l` in block `b`. -/
structure Agree (f : Fn) (H : Home Nat) (b : Nat) (l : List (Ins Nat)) (R : Ren) (s : State M Nat) (t : State M Name) : Prop where
  world : t.1 = s.1
  func : ∀ v, f.isFunc v = true → t.2 (v, none) = s.2 v
  vars : ∀ v, f.isGlobal v = false → H.mem v = false → LiveAt f b l v → ∀ k, top R v = some k → t.2 (v, some k) = s.2 v

/-- The instruction accesses variables in memory under the one name given by `nm`; declarations do not count. -/
def Single (nm : Nat → Nat) (H : Home Nat) (j : Ins Name) : Prop :=
  ∀ v k, H.mem v = true →
    (j.rs1 = some (v, some k) ∨ j.rs2 = some (v, some k) ∨ (j.rd = some (v, some k) ∧ j.op ≠ .allocat)) → k = nm v

theorem renameVar_name {f : Fn} {R : Ren} {v : Nat} {x : Name} (h : renameVar f R v = some x) :
    (f.isGlobal v = true ∧ x = (v, none)) ∨ (f.isGlobal v = false ∧ ∃ k, top R v = some k ∧ x = (v, some k)) := by
  unfold renameVar at h
  split at h
  · rename_i hg
    simp only [Option.some.injEq] at h
    exact Or.inl ⟨hg, h.symm⟩
  · rename_i hg
    split at h
    · cases h
    · rename_i k r hs
      simp only [Option.some.injEq] at h
      exact Or.inr ⟨by simpa using hg, k, by simp [top, hs], h.symm⟩

theorem addr_name {f : Fn} (hH : f.Homes nm H H') {R : Ren} {v : Nat} {x : Name} (h1 : ∀ k, x = (v, some k) → k = nm v)
    (h : renameVar f R v = some x) (hm : H.mem v = true) : H'.addr x = H.addr v := by
  rcases renameVar_name h with ⟨_, rfl⟩ | ⟨hg, k, hk, rfl⟩
  · exact hH.addr v
  · rw [h1 k rfl]
    exact hH.addr0 v hg hm

/-- A renamed operand has the same value. -/
theorem rd_eq {f : Fn} (hH : f.Homes nm H H') {R : Ren} {b : Nat} {l : List (Ins Nat)}
    {s : State M Nat} {t : State M Name} (A : Agree f H b l R s t) {v : Nat} {x : Name}
    (h1 : H.mem v = true → ∀ k, x = (v, some k) → k = nm v) (h : renameVar f R v = some x)
    (hl : LiveAt f b l v) : rd M H' t x = rd M H s v := by
  unfold rd
  have hm : H'.mem x = H.mem v := by
    rcases renameVar_name h with ⟨_, rfl⟩ | ⟨_, k, _, rfl⟩ <;> exact hH.mem v _
  rw [hm]
  by_cases hv : H.mem v = true
  · rw [if_pos hv, if_pos hv, A.world, addr_name hH (h1 hv) h hv]
  · rw [if_neg hv, if_neg hv]
    rcases renameVar_name h with ⟨hg, _⟩ | ⟨hg, k, hk, rfl⟩
    · exact absurd (hH.globals v hg) hv
    · exact A.vars v hg (by simpa using hv) hl k hk

theorem act_eq {f : Fn} (hH : f.Homes nm H H') {R R1 : Ren} {b : Nat}
    {i : Ins Nat} {l : List (Ins Nat)} (hi : i ∈ f.code b) {s : State M Nat} {t : State M Name} (A : Agree f H b (i :: l) R s t)
    {j : Ins Name} (h1 : Single nm H j) (h : renIns f i R = some (j, R1)) :
    j.tag = i.tag ∧ arg1 M H' j t = arg1 M H i s ∧ j.rs2.map (rd M H' t) = i.rs2.map (rd M H s) := by
  obtain ⟨e1, e2, e3, e4, e5, e6, e7⟩ := renIns_some h
  refine ⟨by unfold Ins.tag; rw [e5, e6, e7], ?_, ?_⟩
  · unfold arg1
    rw [e5]
    cases hrs : i.rs1 with
    | none =>
      rw [hrs, renOpt] at e1
      simp only [Option.some.injEq] at e1
      rw [← e1]; rfl
    | some v =>
      rw [hrs, renOpt] at e1
      simp only [Option.map_eq_some_iff] at e1
      obtain ⟨x, hx, e1⟩ := e1
      rw [← e1]
      simp only [Option.map_some, Option.some.injEq]
      have hs : H.mem v = true → ∀ k, x = (v, some k) → k = nm v := fun hm k e => h1 v k hm (Or.inl (by rw [← e1, e]))
      split
      · rename_i ho
        exact addr_name hH (hs (hH.taken b i hi ho v hrs)) hx (hH.taken b i hi ho v hrs)
      · exact rd_eq hH A hs hx (Or.inl (ReadsFirst.cons_use (Or.inl hrs)))
  · cases hrs : i.rs2 with
    | none =>
      rw [hrs, renOpt2] at e2
      simp only [Option.some.injEq] at e2
      rw [← e2]; rfl
    | some v =>
      rw [hrs, renOpt2] at e2
      split at e2
      · rename_i hf
        simp only [Option.some.injEq] at e2
        rw [← e2]
        simp only [Option.map_some, Option.some.injEq]
        unfold rd
        rw [hH.mem]
        split
        · rw [A.world, hH.addr]
        · exact A.func v hf
      · simp only [Option.map_eq_some_iff] at e2
        obtain ⟨x, hx, e2⟩ := e2
        rw [← e2]
        simp only [Option.map_some, Option.some.injEq]
        exact rd_eq hH A (fun hm k e => h1 v k hm (Or.inr (Or.inl (by rw [← e2, e])))) hx
          (Or.inl (ReadsFirst.cons_use (Or.inr hrs)))

theorem step_act {X : Type} [DecidableEq X] {H : Home X} {i : Ins X} (h : i.op ≠ .unwound_phi) (s : State M X) :
    step M H i s = (M.act i.tag (arg1 M H i s) (i.rs2.map (rd M H s)) s.1).map fun r =>
      match i.rd with
      | none => (r.1, s.2)
      | some d => if i.op = .allocat ∧ H.mem d = true then (r.1, s.2) else wr M H (r.1, s.2) d r.2 := by
  unfold step
  split
  · exact absurd ‹_› h
  · rfl

/-- One instruction. -/
theorem step_sim {f : Fn} (hp : f.Plain) (hH : f.Homes nm H H') {R R1 : Ren} {b : Nat}
    {i : Ins Nat} {l : List (Ins Nat)} (hi : i ∈ f.code b) {s : State M Nat} {t : State M Name} (A : Agree f H b (i :: l) R s t)
    {j : Ins Name} (h1 : Single nm H j) (h : renIns f i R = some (j, R1)) :
    (step M H i s = none ∧ step M H' j t = none) ∨
    ∃ s1 t1, step M H i s = some s1 ∧ step M H' j t = some t1 ∧ Agree f H b l R1 s1 t1 := by
  obtain ⟨a1, a2, a3⟩ := act_eq hH hi A h1 h
  obtain ⟨e1, e2, e3, e4, e5, e6, e7⟩ := renIns_some h
  rw [step_act (hp.noCopy b i hi), step_act (by rw [e5]; exact hp.noCopy b i hi), a1, a2, a3, A.world]
  cases M.act i.tag (arg1 M H i s) (i.rs2.map (rd M H s)) s.1 with
  | none => exact Or.inl ⟨rfl, rfl⟩
  | some r =>
    refine Or.inr ⟨_, _, rfl, rfl, ?_⟩
    cases hrd : i.rd with
    | none =>
      rw [hrd] at e3 e4
      simp only [newOpt] at e3 e4
      rw [e3, e4]
      exact ⟨rfl, A.func, fun v hg hm hl k hk => A.vars v hg hm (hl.cons (by rw [hrd]; simp)) k hk⟩
    | some d =>
      rw [hrd] at e3 e4
      simp only [newOpt] at e3 e4
      rw [e3, e4]
      have hfd := hp.func b i hi d hrd
      have other : ∀ v, f.isGlobal v = false → H.mem v = false → LiveAt f b l v → v ≠ d → ∀ k, top R v = some k →
          t.2 (v, some k) = s.2 v := fun v hg hm hl hv k hk =>
        A.vars v hg hm (hl.cons (by rw [hrd]; simp only [ne_eq, Option.some.injEq]; exact fun e => hv e.symm)) k hk
      simp only
      unfold newName
      by_cases hg : f.isGlobal d = true
      · rw [if_pos hg]
        have hmd := hH.globals d hg
        simp only [e5, hH.mem, hmd, and_true]
        have fin : ∀ v, f.isGlobal v = false → H.mem v = false → LiveAt f b l v → ∀ k, top R v = some k → t.2 (v, some k) = s.2 v :=
          fun v hgv hm hl k hk => other v hgv hm hl (fun e => by rw [e, hg] at hgv; cases hgv) k hk
        split
        · exact ⟨rfl, A.func, fin⟩
        · unfold wr
          simp only [hH.mem, hmd, if_true, hH.addr]
          exact ⟨rfl, A.func, fin⟩
      · rw [if_neg hg]
        simp only [e5, hH.mem]
        by_cases hm : H.mem d = true
        · have fin : ∀ v, f.isGlobal v = false → H.mem v = false → LiveAt f b l v → ∀ k, top (R.push d) v = some k →
              t.2 (v, some k) = s.2 v := by
            intro v hgv hmv hl k hk
            have hv : v ≠ d := fun e => by rw [e, hm] at hmv; cases hmv
            rw [top_push_ne R hv] at hk
            exact other v hgv hmv hl hv k hk
          by_cases ho : i.op = .allocat
          · rw [if_pos ⟨ho, hm⟩, if_pos ⟨ho, hm⟩]
            exact ⟨rfl, A.func, fin⟩
          · rw [if_neg (fun h => ho h.1), if_neg (fun h => ho h.1)]
            unfold wr
            simp only [hH.mem]
            rw [if_pos hm, if_pos hm]
            have hc : R.counter d = nm d := by
              refine h1 d _ hm (Or.inr (Or.inr ⟨?_, by rw [e5]; exact ho⟩))
              rw [e3]
              unfold newName
              rw [if_neg hg]
            rw [hc, hH.addr0 d (by simpa using hg) hm]
            exact ⟨rfl, A.func, fin⟩
        · rw [if_neg (fun h => hm h.2), if_neg (fun h => hm h.2)]
          unfold wr
          simp only [hH.mem]
          rw [if_neg hm, if_neg hm]
          refine ⟨rfl, fun v hf => ?_, fun v hgv hmv hl k hk => ?_⟩
          · have hv : v ≠ d := fun e => by rw [e, hfd] at hf; cases hf
            simp only [Prod.mk.injEq, reduceCtorEq, and_false, if_false, if_neg hv]
            exact A.func v hf
          · by_cases hv : v = d
            · subst hv
              rw [top_push_self] at hk
              simp only [Option.some.injEq] at hk
              subst hk
              simp
            · rw [top_push_ne R hv] at hk
              simp only [Prod.mk.injEq, hv, false_and, if_false]
              exact other v hgv hmv hl hv k hk

theorem run_append {X : Type} [DecidableEq X] (H : Home X) : ∀ (a b : List (Ins X)) (s : State M X),
    run M H (a ++ b) s = (run M H a s).bind (run M H b) := by
  intro a
  induction a with
  | nil => intro b s; rfl
  | cons i a ih =>
    intro b s
    rw [List.cons_append, run, run]
    cases step M H i s with
    | none => rfl
    | some s1 => exact ih b s1

/-- A stretch of a block. -/
theorem run_sim {f : Fn} (hp : f.Plain) (hH : f.Homes nm H H') {b : Nat} : ∀ (a l : List (Ins Nat)) (R R1 : Ren) (a' : List (Ins Name)),
    (∀ j ∈ a', Single nm H j) → (∀ i ∈ a, i ∈ f.code b) → renBody f a R = some (a', R1) →
    ∀ (s : State M Nat) (t : State M Name), Agree f H b (a ++ l) R s t →
    (run M H a s = none ∧ run M H' a' t = none) ∨
    ∃ s1 t1, run M H a s = some s1 ∧ run M H' a' t = some t1 ∧ Agree f H b l R1 s1 t1 := by
  intro a
  induction a with
  | nil =>
    intro l R R1 a' h1 hi hb s t A
    simp only [renBody, Option.some.injEq, Prod.mk.injEq] at hb
    obtain ⟨rfl, rfl⟩ := hb
    exact Or.inr ⟨s, t, rfl, rfl, A⟩
  | cons i a ih =>
    intro l R R1 a' h1 hi hb s t A
    obtain ⟨j, R2, js, h2, h3, rfl⟩ := renBody_cons hb
    rcases step_sim hp hH (hi i (List.mem_cons_self ..)) A (h1 j (List.mem_cons_self ..)) h2 with ⟨e1, e2⟩ | ⟨s1, t1, e1, e2, A1⟩
    · exact Or.inl ⟨by rw [run, e1]; rfl, by rw [run, e2]; rfl⟩
    · rw [run, run, e1, e2]
      exact ih l R2 R1 js (fun x hx => h1 x (List.mem_cons_of_mem _ hx)) (fun x hx => hi x (List.mem_cons_of_mem _ hx)) h3 s1 t1 A1

/-! ### Copies -/

/-- A copy at the end of a block whose current names are given by `R`. -/
def IsCopy (R : Ren) (c : Ins Name) : Prop :=
  ∃ v m k, c = { op := .unwound_phi, rd := some (v, some m), rs1 := some (v, some k) } ∧ top R v = some k

theorem copies_sim {R : Ren} : ∀ (cs : List (Ins Name)), (∀ c ∈ cs, IsCopy R c) →
    (∀ c ∈ cs, ∀ v m, c.rd = some (v, m) → ∀ o, H'.mem (v, o) = false) → ∀ t : State M Name,
    ∃ e, run M H' cs t = some (t.1, e) ∧
      (∀ v k, top R v = some k → e (v, some k) = t.2 (v, some k)) ∧ (∀ v, e (v, none) = t.2 (v, none)) ∧
      (∀ x, (∀ c ∈ cs, c.rd ≠ some x) → e x = t.2 x) ∧
      (∀ c ∈ cs, ∀ v m, c.rd = some (v, some m) → ∀ k, top R v = some k → e (v, some m) = t.2 (v, some k)) := by
  intro cs
  induction cs with
  | nil => intro _ _ t; exact ⟨t.2, rfl, fun _ _ _ => rfl, fun _ => rfl, fun _ _ => rfl, fun _ h => by cases h⟩
  | cons c cs ih =>
    intro h hm t
    obtain ⟨v, m, k, hc, hk⟩ := h c (List.mem_cons_self ..)
    have hmc : ∀ o, H'.mem (v, o) = false := hm c (List.mem_cons_self ..) v (some m) (by rw [hc])
    let t1 : State M Name := (t.1, fun y => if y = (v, some m) then t.2 (v, some k) else t.2 y)
    have hs : step M H' c t = some t1 := by
      rw [hc]
      simp only [step, wr, rd, hmc, Bool.false_eq_true, if_false]
      rfl
    obtain ⟨e, e0, e1, e2, e3, e4⟩ := ih (fun x hx => h x (List.mem_cons_of_mem _ hx)) (fun x hx => hm x (List.mem_cons_of_mem _ hx)) t1
    have hcur : ∀ u j, top R u = some j → t1.2 (u, some j) = t.2 (u, some j) := by
      intro u j hj
      show (if (u, some j) = (v, some m) then t.2 (v, some k) else t.2 (u, some j)) = t.2 (u, some j)
      split
      · rename_i he
        simp only [Prod.mk.injEq, Option.some.injEq] at he
        obtain ⟨rfl, rfl⟩ := he
        rw [hk] at hj
        simp only [Option.some.injEq] at hj
        rw [hj]
      · rfl
    refine ⟨e, ?_, ?_, ?_, ?_, ?_⟩
    · rw [run, hs]; exact e0
    · intro u j hj; rw [e1 u j hj, hcur u j hj]
    · intro u; rw [e2 u]; simp [t1]
    · intro x hx
      rw [e3 x (fun c' hc' => hx c' (List.mem_cons_of_mem _ hc'))]
      show (if x = (v, some m) then t.2 (v, some k) else t.2 x) = t.2 x
      rw [if_neg]
      intro he
      exact hx c (List.mem_cons_self ..) (by rw [hc, he])
    · intro c' hc' u m' hrd j hj
      by_cases hin : ∃ c'' ∈ cs, c''.rd = some (u, some m')
      · obtain ⟨c'', hc'', hrd''⟩ := hin
        rw [e4 c'' hc'' u m' hrd'' j hj, hcur u j hj]
      · simp only [List.mem_cons] at hc'
        rcases hc' with rfl | hc'
        · rw [hc] at hrd
          simp only [Option.some.injEq, Prod.mk.injEq] at hrd
          obtain ⟨rfl, rfl⟩ := hrd
          rw [hk] at hj
          simp only [Option.some.injEq] at hj
          subst hj
          rw [e3 _ (fun c'' hc'' he => hin ⟨c'', hc'', he⟩)]
          simp [t1]
        · exact absurd ⟨c', hc', hrd⟩ hin

/-! ### The result of renaming -/

/-- Insertion of copies before a final branch. -/
def weave (l cs : List (Ins Name)) : List (Ins Name) :=
  match l.getLast? with
  | some i => if i.op = .branch then l.dropLast ++ cs ++ [i] else l ++ cs
  | none => cs

/-- What the passes establish.  `phis`: the variables with a phi; `sub`: their new subscripts; `Rin`, `Rphi`, `Rout`: the names in
force at the start of a block, after its phis and at its end; `ren` the renamed code and `out` the code after unwinding. -/
structure Cert (f : Fn) (idom : Nat → Option Nat) (phis : Nat → List Nat) (sub : Nat → Nat → Nat) (Rin Rphi Rout : Nat → Ren)
    (ren out : Nat → List (Ins Name)) : Prop where
  body : ∀ b, Reach f.g.succs f.g.entry b → renBody f (f.code b) (Rphi b) = some (ren b, Rout b)
  ok : ∀ b, Reach f.g.succs f.g.entry b → (Rphi b).Ok
  phi : ∀ b, Reach f.g.succs f.g.entry b → ∀ v, top (Rphi b) v = if v ∈ phis b then some (sub b v) else top (Rin b) v
  chain : ∀ b d, Reach f.g.succs f.g.entry b → b ≠ f.g.entry → idom b = some d → ∀ v, top (Rin b) v = top (Rout d) v
  weave : ∀ b, Reach f.g.succs f.g.entry b → ∃ cs, out b = weave (ren b) cs ∧
    (∀ c ∈ cs, IsCopy (Rout b) c ∧ ∀ v m, c.rd = some (v, m) → ∃ x ∈ f.g.succs b, v ∈ phis x) ∧
    ∀ x ∈ f.g.succs b, ∀ v ∈ phis x, (top (Rout b) v).isSome ∧ ∃ c ∈ cs, c.rd = some (v, some (sub x v))

/-- Phis stand where live names would otherwise differ. -/
def Placed (f : Fn) (phis : Nat → List Nat) : Prop :=
  ∀ v q b, f.isGlobal v = false → Reach f.g.succs f.g.entry q → (Assigns v (f.code q) ∨ v ∈ phis q) →
    InDF f.g.succs f.g.entry q b → LiveIn f.g.succs f.code v b → v ∈ phis b

theorem path_prefix {succ : Nat → List Nat} {a b : Nat} {l : List Nat} (p : Path succ a l b) {d : Nat} (hd : d ∈ l) :
    ∃ m, Path succ a m d ∧ (∀ x ∈ m, x ∈ l) ∧ (d ≠ b → m.length < l.length) := by
  induction p with
  | nil a =>
    simp only [List.mem_singleton] at hd
    subst hd
    exact ⟨[d], .nil d, fun x h => h, fun h => absurd rfl h⟩
  | @cons a c b l h p ih =>
    by_cases hda : d = a
    · subst hda
      refine ⟨[d], .nil d, fun x hx => by simp only [List.mem_singleton] at hx; subst hx; simp, fun _ => ?_⟩
      cases p <;> simp
    · simp only [List.mem_cons, hda, false_or] at hd
      obtain ⟨m, hm, hs, hl⟩ := ih hd
      refine ⟨a :: m, .cons h hm, ?_, fun hne => by simp only [List.length_cons]; have := hl hne; omega⟩
      intro x hx
      simp only [List.mem_cons] at hx ⊢
      rcases hx with rfl | hx
      · exact Or.inl rfl
      · exact Or.inr (hs x hx)

theorem dom_trans {succ : Nat → List Nat} {entry a b c : Nat} (h1 : Dom succ entry a b) (h2 : Dom succ entry b c) :
    Dom succ entry a c := by
  intro l p
  obtain ⟨m, hm, hs, _⟩ := path_prefix p (h2 l p)
  exact hs a (h1 m hm)

theorem sdom_antisymm {succ : Nat → List Nat} {entry a b : Nat} (h1 : SDom succ entry a b) (h2 : Dom succ entry b a)
    (hr : Reach succ entry b) : False := by
  obtain ⟨l, p⟩ := hr
  suffices H : ∀ n, ∀ l, l.length ≤ n → Path succ entry l b → False from H _ l (Nat.le_refl _) p
  intro n
  induction n with
  | zero => intro l hl p; cases p <;> simp at hl
  | succ n ih =>
    intro l hl p
    obtain ⟨m, hm, _, h3⟩ := path_prefix p (h1.1 l p)
    obtain ⟨m', hm', _, h4⟩ := path_prefix hm (h2 m hm)
    have := h3 h1.2
    have := h4 (fun e => h1.2 e.symm)
    exact ih m' (by omega) hm'

/-- Without a phi, the name at the end of every predecessor is the one at the end of the immediate dominator. -/
theorem top_pred {f : Fn} {idom : Nat → Option Nat} {phis sub Rin Rphi Rout ren out}
    (C : Cert f idom phis sub Rin Rphi Rout ren out) (hidom : ∀ b, Reach f.g.succs f.g.entry b → b ≠ f.g.entry →
      ∃ d, idom b = some d ∧ IsIdom f.g.succs f.g.entry d b) (hpl : Placed f phis) {p b v : Nat}
    (hp : Reach f.g.succs f.g.entry p) (hb : b ∈ f.g.succs p) (hne : b ≠ f.g.entry) (hg : f.isGlobal v = false)
    (hv : v ∉ phis b) (hl : LiveIn f.g.succs f.code v b) : top (Rin b) v = top (Rout p) v := by
  have hrb : Reach f.g.succs f.g.entry b := Reach.trans hp (Reach.one hb)
  obtain ⟨d, hd, hi⟩ := hidom b hrb hne
  rw [C.chain b d hrb hne hd v]
  have H : ∀ n x l, Path f.g.succs f.g.entry l x → l.length ≤ n → Dom f.g.succs f.g.entry x p → Dom f.g.succs f.g.entry d x →
      top (Rout x) v = top (Rout d) v := by
    intro n
    induction n with
    | zero => intro x l hx hn; cases hx <;> simp at hn
    | succ n ih =>
      intro x l hx hn hxp hdx
      by_cases he : d = x
      · rw [he]
      · have hrx : Reach f.g.succs f.g.entry x := ⟨l, hx⟩
        have hxe : x ≠ f.g.entry := by
          intro e
          have := hdx [x] (by rw [← e]; exact Path.nil x)
          simp only [List.mem_singleton] at this
          exact he this
        have hdf : InDF f.g.succs f.g.entry x b :=
          ⟨⟨p, hb, hp, hxp⟩, fun h => sdom_antisymm ⟨hdx, he⟩ (hi.2 x h) hrx⟩
        have h1 : ¬ Assigns v (f.code x) := fun h => hv (hpl v x b hg hrx (Or.inl h) hdf hl)
        have h2 : v ∉ phis x := fun h => hv (hpl v x b hg hrx (Or.inr h) hdf hl)
        obtain ⟨y, hy, hiy⟩ := hidom x hrx hxe
        have h3 : top (Rout x) v = top (Rout y) v := by
          rw [renBody_top _ (C.body x hrx) v h1, C.phi x hrx v, if_neg h2, C.chain x y hrx hxe hy v]
        rw [h3]
        obtain ⟨m, hm, _, hlt⟩ := path_prefix hx (hiy.1.1 l hx)
        have := hlt hiy.1.2
        exact ih y m hm (by omega) (dom_trans hiy.1.1 hxp) (hiy.2 d ⟨hdx, he⟩)
  obtain ⟨l, hl⟩ := hp
  exact (H _ p l hl (Nat.le_refl _) (fun m hm => Path.last hm) (Dom.pred hi.1.1 hb hi.1.2)).symm

theorem weave_cases (l cs : List (Ins Name)) :
    (∃ a i, l = a ++ [i] ∧ i.op = .branch ∧ weave l cs = a ++ cs ++ [i]) ∨ weave l cs = l ++ cs := by
  unfold weave
  split
  · rename_i i hi
    split
    · rename_i hb
      have hne : l ≠ [] := by intro e; rw [e] at hi; cases hi
      have hla : l.getLast hne = i := by
        rw [List.getLast?_eq_some_getLast hne] at hi
        exact Option.some.inj hi
      exact Or.inl ⟨l.dropLast, i, by rw [← hla]; exact (List.dropLast_concat_getLast hne).symm, hb, rfl⟩
    · exact Or.inr rfl
  · rename_i hn
    have : l = [] := List.getLast?_eq_none_iff.1 hn
    rw [this]
    exact Or.inr rfl

theorem renBody_snoc {f : Fn} {is : List (Ins Nat)} {R R2 : Ren} {a : List (Ins Name)} {j : Ins Name}
    (h : renBody f is R = some (a ++ [j], R2)) :
    ∃ as i R1, is = as ++ [i] ∧ renBody f as R = some (a, R1) ∧ renIns f i R1 = some (j, R2) := by
  rcases List.eq_nil_or_concat is with rfl | ⟨as, i, rfl⟩
  · simp [renBody] at h
  · rw [List.concat_eq_append] at h ⊢
    obtain ⟨l1, R1, l2, h1, h2, h3⟩ := renBody_append as [i] h
    obtain ⟨j', R1', js, h4, h5, rfl⟩ := renBody_cons h2
    simp only [renBody, Option.some.injEq, Prod.mk.injEq] at h5
    obtain ⟨rfl, rfl⟩ := h5
    obtain ⟨rfl, he⟩ := List.append_inj' h3 rfl
    simp only [List.cons.injEq, and_true] at he
    subst he
    exact ⟨as, i, R1, rfl, h1, h4⟩

theorem Agree.toEnd {f : Fn} {b : Nat} {R : Ren} {s : State M Nat} {t : State M Name} (A : Agree f H b [] R s t) (l : List (Ins Nat)) :
    ∀ v, f.isGlobal v = false → H.mem v = false → (∃ c ∈ f.g.succs b, LiveIn f.g.succs f.code v c) → ∀ k, top R v = some k →
      t.2 (v, some k) = s.2 v := by
  intro v hg hm hc k hk
  exact A.vars v hg hm (Or.inr ⟨fun ⟨_, h, _⟩ => (by cases h), hc⟩) k hk

/-- A whole block: the states at its end agree, and the phi targets of every successor hold the current values. -/
theorem block_sim {f : Fn} (hpn : f.Plain) (hH : f.Homes nm H H') {idom : Nat → Option Nat} {phis sub Rin Rphi Rout ren out}
    (C : Cert f idom phis sub Rin Rphi Rout ren out) (hone : ∀ b, Reach f.g.succs f.g.entry b → ∀ j ∈ ren b, Single nm H j)
    (hmem : ∀ b, ∀ v ∈ phis b, H.mem v = false) {b : Nat} (hb : Reach f.g.succs f.g.entry b) {s : State M Nat} {t : State M Name}
    (A : Agree f H b (f.code b) (Rphi b) s t) :
    (run M H (f.code b) s = none ∧ run M H' (out b) t = none) ∨
    ∃ s1 t1, run M H (f.code b) s = some s1 ∧ run M H' (out b) t = some t1 ∧ Agree f H b [] (Rout b) s1 t1 ∧
      ∀ x ∈ f.g.succs b, ∀ v ∈ phis x, ∀ k, top (Rout b) v = some k → t1.2 (v, some (sub x v)) = t1.2 (v, some k) := by
  obtain ⟨cs, hw, hcs, hall⟩ := C.weave b hb
  have hmem' : ∀ c ∈ cs, ∀ v m, c.rd = some (v, m) → ∀ o, H'.mem (v, o) = false := by
    intro c hc v m hrd o
    obtain ⟨x, _, hx⟩ := (hcs c hc).2 v m hrd
    rw [hH.mem]
    exact hmem x v hx
  -- the copies, from any state
  have copies : ∀ l (s : State M Nat) (t : State M Name), Agree f H b l (Rout b) s t → ∃ t1, run M H' cs t = some t1 ∧
      Agree f H b l (Rout b) s t1 ∧
      ∀ x ∈ f.g.succs b, ∀ v ∈ phis x, ∀ k, top (Rout b) v = some k → t1.2 (v, some (sub x v)) = t1.2 (v, some k) := by
    intro l s t A
    obtain ⟨e, e0, e1, e2, e3, e4⟩ := copies_sim cs (fun c hc => (hcs c hc).1) hmem' t
    refine ⟨(t.1, e), e0, ⟨A.world, fun v hv => by rw [← A.func v hv]; exact e2 v, fun v hg hm hl k hk => ?_⟩, ?_⟩
    · show e (v, some k) = _
      rw [e1 v k hk]
      exact A.vars v hg hm hl k hk
    · intro x hx v hv k hk
      obtain ⟨_, c, hc, hrd⟩ := hall x hx v hv
      show e _ = e _
      rw [e4 c hc v _ hrd k hk, e1 v k hk]
  have hbody := C.body b hb
  rw [hw]
  rcases weave_cases (ren b) cs with ⟨a, j, hl, hbr, hwe⟩ | hwe
  · rw [hwe]
    rw [hl] at hbody
    obtain ⟨as, i, R1, hcode, hra, hri⟩ := renBody_snoc hbody
    obtain ⟨q1, q2, q3, q4, q5, q6, q7⟩ := renIns_some hri
    have hi : i ∈ f.code b := by rw [hcode]; simp
    have hrd : i.rd = none := hpn.branch b i hi (by rw [← q5]; exact hbr)
    have hRR : R1 = Rout b := by rw [q4, hrd]; rfl
    rw [hRR] at hra hri
    have hs : ∀ x ∈ a ++ [j], Single nm H x := by rw [← hl]; exact hone b hb
    have A' : Agree f H b (as ++ [i]) (Rphi b) s t := by rw [← hcode]; exact A
    rw [hcode, run_append, run_append, run_append]
    rcases run_sim hpn hH as [i] _ _ a (fun x hx => hs x (by simp [hx])) (fun x hx => by rw [hcode]; simp [hx]) hra s t A' with
      ⟨e1, e2⟩ | ⟨s1, t1, e1, e2, A1⟩
    · exact Or.inl ⟨by rw [e1]; rfl, by rw [e2]; rfl⟩
    · rw [e1, e2]
      obtain ⟨t2, e3, A2, hphi⟩ := copies [i] s1 t1 A1
      simp only [Option.bind_some]
      rw [e3]
      simp only [Option.bind_some, run]
      rcases step_sim hpn hH hi A2 (hs j (by simp)) hri with ⟨e4, e5⟩ | ⟨s3, t3, e4, e5, A3⟩
      · exact Or.inl ⟨by rw [e4]; rfl, by rw [e5]; rfl⟩
      · refine Or.inr ⟨s3, t3, by rw [e4]; rfl, by rw [e5]; rfl, A3, ?_⟩
        have henv : t3.2 = t2.2 := by
          rw [step_act (by rw [q5]; exact hpn.noCopy b i hi)] at e5
          have hjd : j.rd = none := by rw [q3, hrd]; rfl
          rw [hjd] at e5
          simp only [Option.map_eq_some_iff] at e5
          obtain ⟨r, _, rfl⟩ := e5
          rfl
        rw [henv]
        exact hphi
  · rw [hwe, run_append]
    have A' : Agree f H b (f.code b ++ []) (Rphi b) s t := by rw [List.append_nil]; exact A
    rcases run_sim hpn hH (f.code b) [] _ _ _ (hone b hb) (fun x hx => hx) hbody s t A' with
      ⟨e1, e2⟩ | ⟨s1, t1, e1, e2, A1⟩
    · exact Or.inl ⟨e1, by rw [e2]; rfl⟩
    · obtain ⟨t2, e3, A2, hphi⟩ := copies [] s1 t1 A1
      exact Or.inr ⟨s1, t2, e1, by rw [e2]; exact e3, A2, hphi⟩

/-- From the end of a block to the start of a successor. -/
theorem edge_sim {f : Fn} {idom : Nat → Option Nat} {phis sub Rin Rphi Rout ren out}
    (C : Cert f idom phis sub Rin Rphi Rout ren out) (hidom : ∀ b, Reach f.g.succs f.g.entry b → b ≠ f.g.entry →
      ∃ d, idom b = some d ∧ IsIdom f.g.succs f.g.entry d b) (hpl : Placed f phis) {p b : Nat}
    (hp : Reach f.g.succs f.g.entry p) (hb : b ∈ f.g.succs p) (hne : b ≠ f.g.entry) {s : State M Nat} {t : State M Name}
    (A : Agree f H p [] (Rout p) s t)
    (hphi : ∀ v ∈ phis b, ∀ k, top (Rout p) v = some k → t.2 (v, some (sub b v)) = t.2 (v, some k)) :
    Agree f H b (f.code b) (Rphi b) s t := by
  have hrb : Reach f.g.succs f.g.entry b := Reach.trans hp (Reach.one hb)
  refine ⟨A.world, A.func, fun v hg hm hl k hk => ?_⟩
  have hlive := hl.liveIn
  have hend := A.toEnd [] v hg hm ⟨b, hb, hlive⟩
  rw [C.phi b hrb v] at hk
  by_cases hv : v ∈ phis b
  · rw [if_pos hv] at hk
    simp only [Option.some.injEq] at hk
    subst hk
    obtain ⟨cs, _, _, hall⟩ := C.weave p hp
    obtain ⟨k, hk⟩ := Option.isSome_iff_exists.1 (hall b hb v hv).1
    rw [hphi v hv k hk]
    exact hend k hk
  · rw [if_neg hv, top_pred C hidom hpl hp hb hne hg hv hlive] at hk
    exact hend k hk

/-- Along any path, the two programs do the same to the world. -/
theorem path_sim {f : Fn} (hpn : f.Plain) (hH : f.Homes nm H H') {idom : Nat → Option Nat} {phis sub Rin Rphi Rout ren out}
    (C : Cert f idom phis sub Rin Rphi Rout ren out) (hone : ∀ b, Reach f.g.succs f.g.entry b → ∀ j ∈ ren b, Single nm H j)
    (hmem : ∀ b, ∀ v ∈ phis b, H.mem v = false) (hidom : ∀ b, Reach f.g.succs f.g.entry b → b ≠ f.g.entry →
      ∃ d, idom b = some d ∧ IsIdom f.g.succs f.g.entry d b) (hpl : Placed f phis) (hentry : ∀ q, f.g.entry ∉ f.g.succs q)
    {b c : Nat} {path : List Nat} (hpath : Path f.g.succs b path c) : Reach f.g.succs f.g.entry b →
    ∀ (s : State M Nat) (t : State M Name), Agree f H b (f.code b) (Rphi b) s t →
    (run M H (trace f.code path) s).map (·.1) = (run M H' (trace out path) t).map (·.1) := by
  induction hpath with
  | nil b =>
    intro hb s t A
    simp only [trace, List.flatMap_cons, List.flatMap_nil, List.append_nil]
    rcases block_sim hpn hH C hone hmem hb A with ⟨e1, e2⟩ | ⟨s1, t1, e1, e2, A1, _⟩
    · rw [e1, e2]; rfl
    · rw [e1, e2]
      simp [A1.world]
  | @cons b x c l hx hp ih =>
    intro hb s t A
    simp only [trace, List.flatMap_cons]
    rw [run_append, run_append]
    rcases block_sim hpn hH C hone hmem hb A with ⟨e1, e2⟩ | ⟨s1, t1, e1, e2, A1, hphi⟩
    · rw [e1, e2]; rfl
    · rw [e1, e2]
      have hxe : x ≠ f.g.entry := fun e => hentry b (e ▸ hx)
      exact ih (Reach.trans hb (Reach.one hx)) s1 t1 (edge_sim C hidom hpl hb hx hxe A1 (hphi x hx))

end Shecc.SsaBuild
