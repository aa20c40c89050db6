import Verif.Model.Cse
import Verif.Spec.SsaSem
import Verif.Props.ConstFold
import Verif.Lemmas.RenameSim

/-!
# C54: common subexpression elimination
-/

namespace Shecc.Props
open Shecc.Ssa Shecc.Cse SsaSem CArith

theorem items_before (base idx : Nat) (l : List Insn) : (items base idx l).flatMap Item.before = l := by
  fun_induction items base idx l with
  | case1 i n rest h ih => simp [Item.before, ih]
  | case2 i n rest h ih => simp [Item.before, ih]
  | case3 i => simp [Item.before]
  | case4 => rfl

theorem items_hit (base idx : Nat) (l : List Insn) : ∀ i n, Item.pair i n ∈ items base idx l → hit base idx i n = true := by
  fun_induction items base idx l with
  | case1 i n rest h ih =>
    intro i' n' hm
    rcases List.mem_cons.1 hm with hm | hm
    · cases hm; exact h
    · exact ih i' n' hm
  | case2 i n rest h ih =>
    intro i' n' hm
    rcases List.mem_cons.1 hm with hm | hm
    · cases hm
    · exact ih i' n' hm
  | case3 i => intro i' n' hm; simp at hm
  | case4 => intro i' n' hm; cases hm

/-- The items of each block, according to what `cse` does to it. -/
def cseItems (idom : Nat → Nat) (fuel : Nat) (blocks : Nat → List Insn) (b : Nat) (pre : List Insn)
    (prev insn : Insn) (post : List Insn) (base idx : Nat) (c : Nat) : List Item :=
  if c = b then items base idx pre ++ .keep prev :: .keep insn :: items base idx post
  else if domCheck idom b fuel c then items base idx (blocks c) else (blocks c).map .keep

theorem run_append (M : Mach) (cv : Nat → Word) (xs ys : List Insn) (s : State M) :
    run M cv (xs ++ ys) s = (run M cv xs s).bind (run M cv ys) := by
  induction xs generalizing s with
  | nil => rfl
  | cons x xs ih =>
    simp only [List.cons_append, run]
    cases step M cv x s with
    | none => rfl
    | some s' => simp only [Option.bind_some, ih]

theorem step_pure (M : Mach) (cv : Nat → Word) {i : Insn} {s s' : State M} (hp : Pure M.mem i) (h : step M cv i s = some s') :
    s'.1 = s.1 := by
  obtain ⟨hop, d, hd, hm⟩ := hp
  have hw : ∀ x, (wrVar M s d x).1 = s.1 := by
    intro x
    unfold wrVar
    rw [hm]
    rfl
  have hw' : ∀ d' x, i.rd = some d' → (wrVar M s d' x).1 = s.1 := by
    intro d' x hd'
    rw [hd] at hd'
    cases hd'
    exact hw x
  unfold step at h
  split at h
  · rename_i hd; cases h; exact hw' _ _ hd
  · rename_i hd; cases h; exact hw' _ _ hd
  · rename_i hd _; cases h; exact hw' _ _ hd
  · rename_i hd _; cases h; exact hw' _ _ hd
  · rename_i hd _; cases h; exact hw' _ _ hd
  · rename_i hd _
    simp only [Option.map_eq_some_iff] at h
    obtain ⟨x, _, rfl⟩ := h
    exact hw' _ _ hd
  · rename_i hd _
    split at h
    · simp only [Option.map_eq_some_iff] at h
      obtain ⟨x, _, rfl⟩ := h
      exact hw' _ _ hd
    · cases h; exact hw' _ _ hd
    · cases h
  · cases h
  · cases h
  · cases h
  · cases h
  · cases h
  · cases h
  · cases h
  · exfalso
    rcases hop with h | h | h | h | h | h | ⟨o, h⟩ <;> simp_all

theorem rdVar_rel (M : Mach) {D : Nat → Prop} {s t : State M} (h1 : t.1 = s.1) (h2 : ∀ v, ¬ D v → t.2 v = s.2 v) {v : Nat}
    (hv : ¬ D v) : rdVar M t v = rdVar M s v := by
  unfold rdVar
  rw [h1, h2 v hv]

theorem wrVar_rel (M : Mach) {D : Nat → Prop} {s t : State M} (h1 : t.1 = s.1) (h2 : ∀ v, ¬ D v → t.2 v = s.2 v) (d : Nat)
    (x : Word) : (wrVar M t d x).1 = (wrVar M s d x).1 ∧ ∀ v, ¬ D v → (wrVar M t d x).2 v = (wrVar M s d x).2 v := by
  unfold wrVar
  split
  · exact ⟨by rw [h1], h2⟩
  · refine ⟨h1, ?_⟩
    intro v hv
    simp only
    rw [h2 v hv]

/-- Related states make related steps. -/
theorem step_rel (M : Mach) (cv : Nat → Word) {D : Nat → Prop} {i : Insn} {s t s' : State M} (h1 : t.1 = s.1)
    (h2 : ∀ v, ¬ D v → t.2 v = s.2 v) (hop : ∀ v, Operand i v → ¬ D v) (h : step M cv i s = some s') :
    ∃ t', step M cv i t = some t' ∧ t'.1 = s'.1 ∧ ∀ v, ¬ D v → t'.2 v = s'.2 v := by
  have r1 : ∀ a, i.rs1 = some a → rdVar M t a = rdVar M s a := fun a ha => rdVar_rel M h1 h2 (hop a (Or.inl ha))
  have r2 : ∀ a, i.rs2 = some a → rdVar M t a = rdVar M s a := fun a ha => rdVar_rel M h1 h2 (hop a (Or.inr ha))
  unfold step at h ⊢
  split at h
  · cases h; exact ⟨_, rfl, wrVar_rel M h1 h2 _ _⟩
  · cases h; exact ⟨_, rfl, wrVar_rel M h1 h2 _ _⟩
  · rename_i ha; cases h; rw [← r1 _ ha]; exact ⟨_, rfl, wrVar_rel M h1 h2 _ _⟩
  · rename_i ha; cases h; rw [← r1 _ ha]; exact ⟨_, rfl, wrVar_rel M h1 h2 _ _⟩
  · cases h; exact ⟨_, rfl, wrVar_rel M h1 h2 _ _⟩
  · rename_i ha
    simp only [Option.map_eq_some_iff] at h
    obtain ⟨x, hx, rfl⟩ := h
    rw [← r1 _ ha, ← h1] at hx
    simp only [hx]
    exact ⟨_, rfl, wrVar_rel M h1 h2 _ _⟩
  · rename_i ha
    split at h
    · rename_i b _ ho hb
      simp only [Option.map_eq_some_iff] at h
      obtain ⟨x, hx, rfl⟩ := h
      rw [← r1 _ ha, ← r2 _ (by assumption)] at hx
      simp only [hx]
      exact ⟨_, rfl, wrVar_rel M h1 h2 _ _⟩
    · rename_i ho hu
      cases h
      rw [← r1 _ ha]
      exact ⟨_, rfl, wrVar_rel M h1 h2 _ _⟩
    · cases h
  · cases h
  · cases h
  · cases h
  · cases h
  · cases h
  · cases h
  · cases h
  · simp only [Option.map_eq_some_iff] at h
    obtain ⟨r, hr, rfl⟩ := h
    have e1 : i.rs1.map (rdVar M t) = i.rs1.map (rdVar M s) := by
      cases ha : i.rs1 with
      | none => rfl
      | some a => simp [r1 a ha]
    have e2 : i.rs2.map (rdVar M t) = i.rs2.map (rdVar M s) := by
      cases ha : i.rs2 with
      | none => rfl
      | some a => simp [r2 a ha]
    rw [e1, e2, h1, hr]
    refine ⟨_, rfl, ?_⟩
    unfold wrOpt
    cases i.rd with
    | none => exact ⟨rfl, h2⟩
    | some d => exact wrVar_rel M (s := (r.1, s.2)) (t := (r.1, t.2)) rfl h2 d r.2

theorem run_pure (M : Mach) (cv : Nat → Word) {P : Nat → Prop} : ∀ (ws : List Insn) (s s' : State M),
    (∀ w ∈ ws, Pure M.mem w ∧ ∀ v, P v → w.rd ≠ some v) → run M cv ws s = some s' →
    s'.1 = s.1 ∧ ∀ v, P v → s'.2 v = s.2 v := by
  intro ws
  induction ws with
  | nil => intro s s' _ h; cases h; exact ⟨rfl, fun _ _ => rfl⟩
  | cons w ws ih =>
    intro s s' hw h
    simp only [run, Option.bind_eq_some_iff] at h
    obtain ⟨s1, h1, h2⟩ := h
    obtain ⟨g1, g2⟩ := ih s1 s' (fun w' hw' => hw w' (by simp [hw'])) h2
    obtain ⟨p1, p2⟩ := hw w (by simp)
    refine ⟨g1.trans (step_pure M cv p1 h1), fun v hv => (g2 v hv).trans (step_other M cv w s s1 h1 v (p2 v hv))⟩

/-- What an available value is. -/
theorem available_value (M : Mach) (cv : Nat → Word) {isGlobal : Nat → Bool} {prev insn : Insn} {base idx d a : Nat}
    (ht : target isGlobal prev insn = some (base, idx, d)) (ha : prev.rd = some a)
    (hd : a ≠ base ∧ a ≠ idx ∧ d ≠ base ∧ d ≠ idx)
    (hreg : M.mem base = false ∧ M.mem idx = false ∧ M.mem d = false ∧ M.mem a = false)
    {xs : List Insn} (hav : Available M.mem prev insn base idx d xs) {s s' : State M} (h : run M cv xs s = some s') :
    M.load insn.sz s'.1 (s'.2 base + s'.2 idx) = some (s'.2 d) := by
  obtain ⟨us, ws, rfl, hw⟩ := hav
  unfold target at ht
  split at ht
  · rename_i hc
    obtain ⟨hop, hopp, hrs⟩ := hc
    split at ht
    · rename_i base' idx' d' hb hi hdd
      split at ht
      · cases ht
      · cases ht
        rw [run_append] at h
        simp only [Option.bind_eq_some_iff, run] at h
        obtain ⟨s0, _, s1, h1, s2, h2, h3⟩ := h
        obtain ⟨g1, g2⟩ := run_pure M cv (P := fun v => v = base ∨ v = idx ∨ v = d) ws s2 s'
          (fun w h => ⟨(hw w h).1, by
            rintro v (rfl | rfl | rfl)
            · exact (hw w h).2.1
            · exact (hw w h).2.2.1
            · exact (hw w h).2.2.2⟩) h3
        have e1 : s1 = wrVar M s0 a (s0.2 base + s0.2 idx) := by
          unfold step at h1
          rw [hopp, ha, hb, hi] at h1
          simp only [IrM.binOf, CArith.bin, Option.map_some, Option.some.injEq] at h1
          rw [← h1]
          simp [rdVar, hreg.1, hreg.2.1]
        obtain ⟨x, hx, e2⟩ : ∃ x, M.load insn.sz s1.1 (s1.2 a) = some x ∧ s2 = wrVar M s1 d x := by
          unfold step at h2
          rw [hop, hdd, ← hrs, ha] at h2
          simp only [Option.map_eq_some_iff] at h2
          obtain ⟨x, hx, h2⟩ := h2
          exact ⟨x, by simpa [rdVar, hreg.2.2.2] using hx, h2.symm⟩
        rw [e1] at hx
        rw [g1, g2 d (by simp), g2 base (by simp), g2 idx (by simp), e2, e1]
        simp [wrVar, hreg.2.2.2] at hx
        simp [wrVar, hx, hreg.2.2.1, hreg.2.2.2, hd.1.symm, hd.2.1.symm, hd.2.2.1.symm, hd.2.2.2.symm]
    · cases ht
  · cases ht

/-- C54. One application of the elimination preserves every execution (all paths, all starting states, all machines) in which,
at each replaced read: the value is still available in the sense of the specification (in particular nothing was stored since),
the read used the address just computed, with the same size, and that address has no other use.  The variables `D` that held
the eliminated addresses are the only ones that may differ. -/
theorem C54_cse_preserves_partial (isGlobal : Nat → Bool) (idom : Nat → Nat) (fuel : Nat) (blocks blocks' : Nat → List Insn)
    (b : Nat) (pre post : List Insn) (prev insn : Insn) (hb : blocks b = pre ++ prev :: insn :: post)
    (hc : cse isGlobal idom fuel blocks b pre prev insn post = some blocks')
    {base idx d a : Nat} (ht : target isGlobal prev insn = some (base, idx, d)) (ha : prev.rd = some a)
    (hne : a ≠ base ∧ a ≠ idx ∧ d ≠ base ∧ d ≠ idx)
    (M : Mach) (hreg : M.mem base = false ∧ M.mem idx = false ∧ M.mem d = false ∧ M.mem a = false)
    (path : List Nat) (D : Nat → Prop) (hD : ¬ D base ∧ ¬ D idx ∧ ¬ D d)
    (hkeep : ∀ j, Item.keep j ∈ path.flatMap (cseItems idom fuel blocks b pre prev insn post base idx) →
      ∀ v, Operand j v → ¬ D v)
    (hpair : ∀ X i n Y, path.flatMap (cseItems idom fuel blocks b pre prev insn post base idx) = X ++ .pair i n :: Y →
      Available M.mem prev insn base idx d (X.flatMap Item.before) ∧ n.sz = insn.sz ∧
        ∃ t, i.rd = some t ∧ n.rs1 = some t ∧ D t ∧ M.mem t = false)
    (cv : Nat → Word) (s s' : State M) (h : run M cv (traceF blocks path) s = some s') :
    ∃ t', run M cv (traceF blocks' path) s = some t' ∧ t'.1 = s'.1 ∧ ∀ v, ¬ D v → t'.2 v = s'.2 v := by
  -- both traces come from the items
  have hbef : traceF blocks path =
      (path.flatMap (cseItems idom fuel blocks b pre prev insn post base idx)).flatMap Item.before := by
    unfold traceF
    rw [List.flatMap_assoc]
    congr 1
    funext c
    unfold cseItems
    split
    · rename_i hcb
      rw [hcb, hb, List.flatMap_append, List.flatMap_cons, List.flatMap_cons, items_before, items_before]
      rfl
    · split
      · rw [items_before]
      · rw [List.flatMap_map]; simp [Item.before]
  have haft : traceF blocks' path =
      (path.flatMap (cseItems idom fuel blocks b pre prev insn post base idx)).flatMap (Item.after d) := by
    unfold cse at hc
    rw [ht] at hc
    cases hc
    unfold traceF
    rw [List.flatMap_assoc]
    congr 1
    funext c
    unfold cseItems
    split
    · rw [List.flatMap_append, List.flatMap_cons, List.flatMap_cons]
      rfl
    · split
      · rfl
      · rw [List.flatMap_map]; simp [Item.after]
  have hhit : ∀ i n, Item.pair i n ∈ path.flatMap (cseItems idom fuel blocks b pre prev insn post base idx) →
      hit base idx i n = true := by
    intro i n hm
    obtain ⟨c, _, hm⟩ := List.mem_flatMap.1 hm
    unfold cseItems at hm
    split at hm
    · simp only [List.mem_append, List.mem_cons, reduceCtorEq, false_or] at hm
      rcases hm with hm | hm
      · exact items_hit _ _ _ i n hm
      · exact items_hit _ _ _ i n hm
    · split at hm
      · exact items_hit _ _ _ i n hm
      · simp at hm
  rw [hbef] at h
  rw [haft]
  generalize path.flatMap (cseItems idom fuel blocks b pre prev insn post base idx) = I at *
  clear hbef haft hc hb
  suffices H : ∀ (Y P : List Item) (s1 t1 : State M), I = P ++ Y → run M cv (P.flatMap Item.before) s = some s1 →
      t1.1 = s1.1 → (∀ v, ¬ D v → t1.2 v = s1.2 v) → run M cv (Y.flatMap Item.before) s1 = some s' →
      ∃ t', run M cv (Y.flatMap (Item.after d)) t1 = some t' ∧ t'.1 = s'.1 ∧ ∀ v, ¬ D v → t'.2 v = s'.2 v from
    H I [] s s rfl rfl rfl (fun _ _ => rfl) h
  clear h
  intro Y
  induction Y with
  | nil =>
    intro P s1 t1 _ _ h1 h2 h
    cases h
    exact ⟨t1, rfl, h1, h2⟩
  | cons y Y ih =>
    intro P s1 t1 he hP h1 h2 h
    rw [List.flatMap_cons, run_append] at h
    simp only [Option.bind_eq_some_iff] at h
    obtain ⟨s2, hs2, h⟩ := h
    have hP' : run M cv ((P ++ [y]).flatMap Item.before) s = some s2 := by
      rw [List.flatMap_append, run_append, hP]
      simpa using hs2
    rw [List.flatMap_cons, run_append]
    suffices hy : ∃ t2, run M cv (Item.after d y) t1 = some t2 ∧ t2.1 = s2.1 ∧ ∀ v, ¬ D v → t2.2 v = s2.2 v by
      obtain ⟨t2, e1, e2, e3⟩ := hy
      rw [e1]
      exact ih (P ++ [y]) s2 t2 (by simpa using he) hP' e2 e3 h
    cases y with
    | keep j =>
      simp only [Item.before, run, Option.bind_eq_some_iff, Option.some.injEq] at hs2
      obtain ⟨s3, hs3, rfl⟩ := hs2
      obtain ⟨t2, e1, e2⟩ := step_rel M cv h1 h2 (hkeep j (by simp [he])) hs3
      exact ⟨t2, by simp [Item.after, run, e1], e2⟩
    | pair i n =>
      obtain ⟨hav, hsz, t, hit1, hn1, hDt, hmt⟩ := hpair P i n Y he
      have hh := hhit i n (by simp [he])
      simp only [hit, Bool.and_eq_true, decide_eq_true_eq] at hh
      obtain ⟨⟨⟨hio, hno⟩, hi1⟩, hi2⟩ := hh
      have hval := available_value M cv ht ha hne hreg hav hP
      simp only [Item.before, run, Option.bind_eq_some_iff, Option.some.injEq] at hs2
      obtain ⟨s3, hs3, s4, hs4, rfl⟩ := hs2
      have e1 : s3 = wrVar M s1 t (s1.2 base + s1.2 idx) := by
        unfold step at hs3
        rw [hio, hit1, hi1, hi2] at hs3
        simp only [IrM.binOf, CArith.bin, Option.map_some, Option.some.injEq] at hs3
        rw [← hs3]
        simp [rdVar, hreg.1, hreg.2.1]
      cases hr : n.rd with
      | none =>
        unfold step at hs4
        rw [hno, hr] at hs4
        cases hs4
      | some r =>
        have e3 : M.load insn.sz s3.1 (s3.2 t) = some (t1.2 d) := by
          rw [h2 d hD.2.2, ← hval, e1]
          simp [wrVar, hmt]
        have e2 : s4 = wrVar M s3 r (t1.2 d) := by
          unfold step at hs4
          rw [hno, hr, hn1] at hs4
          simp only [Option.map_eq_some_iff] at hs4
          obtain ⟨x, hx, hs4⟩ := hs4
          rw [hsz] at hx
          simp only [rdVar, hmt] at hx
          rw [← hs4]
          have : some x = some (t1.2 d) := by rw [← hx, ← e3]; rfl
          rw [Option.some.inj this]
        have hst : step M cv { n with op := .assign, rs1 := some d } t1 = some (wrVar M t1 r (t1.2 d)) := by
          unfold step
          simp only [hr]
          simp [rdVar, hreg.2.2.1]
        refine ⟨wrVar M t1 r (t1.2 d), by simp [Item.after, run, hst], ?_⟩
        rw [e2]
        apply wrVar_rel M
        · rw [h1, e1]; simp [wrVar, hmt]
        · intro v hv
          rw [h2 v hv, e1]
          have : v ≠ t := by rintro rfl; exact hv hDt
          simp [wrVar, hmt, this]

/-! Concrete programs. `1` is a character array `p`, `2` an index `i`, `3` another pointer `q`. -/

def rd1 (a t v : Nat) (base idx : Nat) : List Insn :=
  [{ op := .alu .add, rd := some t, rs1 := some base, rs2 := some idx }, { op := .read, rd := some v, rs1 := some a, sz := 1 }]

/-- Memory and the arguments pushed or returned. -/
def cseMach : Mach where
  World := (Word → Word) × List Word
  mem _ := false
  get _ _ := 0
  set w _ _ := w
  load _ w a := w.1 a
  addrOf _ := 0
  dataAddr := 0
  ext i a b w :=
    match i.op, a, b with
    | .write, some a, some b => some ((fun u => if u = a then b else w.1 u, w.2), 0)
    | .push, some a, _ => some ((w.1, w.2 ++ [a]), 0)
    | .ret, some a, _ => some ((w.1, w.2 ++ [a]), 0)
    | _, _, _ => some (w, 0)

def cseInit : State cseMach := ((fun a => if a = 104#32 then 77 else if a = 200#32 then 55 else 0, []),
  fun | 1 => 100 | 2 => 4 | 3 => 200 | _ => 0)

/-- `return p[i] + p[i]`: the second read is replaced, and the theorem applies. -/
def csePost : List Insn := rd1 12 12 13 1 2 ++
  [{ op := .alu .add, rd := some 14, rs1 := some 11, rs2 := some 13 }, { op := .ret, rs1 := some 14 }]

def cseRd : List Insn := rd1 10 10 11 1 2

example : ∃ bl', cse (fun _ => false) (fun _ => 0) 5 (fun _ => cseRd ++ csePost) 0 [] cseRd[0] cseRd[1] csePost = some bl' ∧
    bl' 0 = cseRd ++ [{ op := .assign, rd := some 13, rs1 := some 11, sz := 1 },
      { op := .alu .add, rd := some 14, rs1 := some 11, rs2 := some 13 }, { op := .ret, rs1 := some 14 }] ∧
    ∃ t', run cseMach (fun _ => 0) (traceF bl' [0]) cseInit = some t' ∧ t'.1.2 = [154] := by
  have hc : cse (fun _ => false) (fun _ => 0) 5 (fun _ => cseRd ++ csePost) 0 [] cseRd[0] cseRd[1] csePost ≠ none := by decide
  cases hbl : cse (fun _ => false) (fun _ => 0) 5 (fun _ => cseRd ++ csePost) 0 [] cseRd[0] cseRd[1] csePost with
  | none => exact absurd hbl hc
  | some bl' =>
    refine ⟨bl', rfl, ?_, ?_⟩
    · unfold cse target at hbl
      cases hbl
      decide +kernel
    · have hrun : (run cseMach (fun _ => 0) (traceF (fun _ => cseRd ++ csePost) [0]) cseInit).map (·.1.2) = some [154] := by
        decide +kernel
      simp only [Option.map_eq_some_iff] at hrun
      obtain ⟨s', hs', hw⟩ := hrun
      obtain ⟨t', h1, h2, _⟩ := C54_cse_preserves_partial (fun _ => false) (fun _ => 0) 5 (fun _ => cseRd ++ csePost) bl' 0 []
        csePost cseRd[0] cseRd[1] rfl hbl (base := 1) (idx := 2) (d := 11) (a := 10) rfl rfl (by decide) cseMach (by decide) [0]
        (fun v => v = 12) (by decide) (by
          intro j hj v hv
          have : j ∈ [cseRd[0], cseRd[1], ⟨.alu .add, some 14, some 11, some 13, 0, ""⟩, ⟨.ret, none, some 14, none, 0, ""⟩] := by
            simpa [cseItems, items, hit, csePost, rd1] using hj
          rintro rfl
          unfold Operand at hv
          clear hj
          revert j
          decide) (by
          intro X i n Y he
          have he' : [Item.keep cseRd[0], .keep cseRd[1], .pair (rd1 12 12 13 1 2)[0] (rd1 12 12 13 1 2)[1],
              .keep ⟨.alu .add, some 14, some 11, some 13, 0, ""⟩, .keep ⟨.ret, none, some 14, none, 0, ""⟩] =
              X ++ .pair i n :: Y := by rw [← he]; rfl
          match X, he' with
          | [x, y], he' =>
            simp only [List.cons_append, List.nil_append, List.cons.injEq, Item.pair.injEq] at he'
            obtain ⟨rfl, rfl, ⟨rfl, rfl⟩, _⟩ := he'
            exact ⟨⟨[], [], rfl, by simp⟩, rfl, 12, rfl, rfl, rfl, rfl⟩
          | [], he' => simp at he'
          | [x], he' => simp at he'
          | [x, y, z], he' => simp at he'
          | [x, y, z, w], he' => simp at he'
          | x :: y :: z :: w :: v :: X, he' => simp at he') (fun _ => 0) cseInit s' hs'
      exact ⟨t', h1, by rw [h2]; exact hw⟩

/-- What the walk up the dominator tree finds. -/
theorem dom_of_check {succ : Nat → List Nat} {entry : Nat} {idom : Nat → Nat} {b : Nat} (he : idom entry = entry)
    (hi : ∀ c, CGraph.Reach succ entry c → c ≠ entry → CGraph.IsIdom succ entry (idom c) c) :
    ∀ n c, CGraph.Reach succ entry c → domCheck idom b n c = true → CGraph.Dom succ entry b c := by
  intro n
  induction n with
  | zero => intro c _ h; cases h
  | succ n ih =>
    intro c hr h
    rw [domCheck] at h
    split at h
    · rename_i hcb
      subst hcb
      exact fun l p => Cfg.Path.last p
    · split at h
      · cases h
      · rename_i h1 h2
        have hce : c ≠ entry := fun h => h2 (by rw [h, he])
        have hd := hi c hr hce
        obtain ⟨l, p⟩ := hr
        obtain ⟨m, hm, _⟩ := SsaBuild.path_prefix p (hd.1.1 l p)
        exact SsaBuild.dom_trans (ih (idom c) ⟨m, hm⟩ h) hd.1.1

/-- C54. A block in which something is replaced is dominated by the block of the value that replaces it: on every path from the
entry to a replaced read the block of the kept read comes first.  `idom` is the result of `build_idom` (C52). -/
theorem C54_replaced_where_dominated (succ : Nat → List Nat) (entry : Nat) (isGlobal : Nat → Bool) (idom : Nat → Nat) (fuel : Nat)
    (blocks blocks' : Nat → List Insn) (b : Nat) (pre post : List Insn) (prev insn : Insn)
    (he : idom entry = entry) (hi : ∀ c, CGraph.Reach succ entry c → c ≠ entry → CGraph.IsIdom succ entry (idom c) c)
    (hc : cse isGlobal idom fuel blocks b pre prev insn post = some blocks')
    (c : Nat) (hr : CGraph.Reach succ entry c) (hne : blocks' c ≠ blocks c) : CGraph.Dom succ entry b c := by
  unfold cse at hc
  split at hc
  · cases hc
  · cases hc
    simp only at hne
    split at hne
    · rename_i hcb
      subst hcb
      exact fun l p => Cfg.Path.last p
    · split at hne
      · rename_i h
        exact dom_of_check he hi fuel c hr h
      · exact absurd rfl hne

/-- `a = p[i]; p[i] = 1; return p[i];` returns 1, but the old value 77 after elimination: stores are ignored. -/
theorem C54_store_between_wrong :
    let post : List Insn := [{ op := .assign, rd := some 20, rs1 := some 11 },
      { op := .alu .add, rd := some 21, rs1 := some 1, rs2 := some 2 }, { op := .load_constant, rd := some 22 },
      { op := .write, rs1 := some 21, rs2 := some 22, sz := 1 }] ++ rd1 12 12 13 1 2 ++ [{ op := .ret, rs1 := some 13 }]
    let cv : Nat → Word := fun _ => 1
    (run cseMach cv (cseRd ++ post) cseInit).map (·.1.2) = some [1] ∧
    ((cse (fun _ => false) (fun _ => 0) 5 (fun _ => cseRd ++ post) 0 [] cseRd[0] cseRd[1] post).bind fun bl' =>
      (run cseMach cv (bl' 0) cseInit).map (·.1.2)) = some [77] := by
  decide +kernel

/-- `c = p[i]; f(p + i, *q);` passes 104 and 55, but 0 (nothing computes the first argument any more) and 77 after elimination:
the read after the addition need not use it. -/
theorem C54_other_read_wrong :
    let post : List Insn := [{ op := .assign, rd := some 20, rs1 := some 11 },
      { op := .alu .add, rd := some 12, rs1 := some 1, rs2 := some 2 }, { op := .read, rd := some 13, rs1 := some 3, sz := 1 },
      { op := .push, rs1 := some 12 }, { op := .push, rs1 := some 13 }, { op := .call, str := "f" }]
    (run cseMach (fun _ => 0) (cseRd ++ post) cseInit).map (·.1.2) = some [104, 55] ∧
    ((cse (fun _ => false) (fun _ => 0) 5 (fun _ => cseRd ++ post) 0 [] cseRd[0] cseRd[1] post).bind fun bl' =>
      (run cseMach (fun _ => 0) (bl' 0) cseInit).map (·.1.2)) = some [0, 77] := by
  decide +kernel

end Shecc.Props
