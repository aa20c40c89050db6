import Verif.Model.ConstFold
import Verif.Spec.SsaSem

/-!
# C50: constant folding
-/

namespace Shecc.Props
open Shecc.Ssa Shecc.ConstFold SsaSem CArith

/-- C50 (values). What the compiler computes for an arithmetic opcode is what the C operator gives; it computes nothing for
the other opcodes. -/
theorem C50_values (op : Op1) (l r x : BitVec 32) (h : evalOp op l r = some (some x)) :
    ∃ o b, op = .alu o ∧ IrM.binOf o = some b ∧ CArith.bin b l r = some x := by
  unfold evalOp at h
  split at h
  · exact ⟨_, _, rfl, rfl, by simpa [CArith.bin] using h⟩
  · exact ⟨_, _, rfl, rfl, by simpa [CArith.bin] using h⟩
  · exact ⟨_, _, rfl, rfl, by simpa [CArith.bin] using h⟩
  · refine ⟨_, _, rfl, rfl, ?_⟩
    simp only [hostDiv, Option.some.injEq] at h
    split at h
    · cases h
    · split at h
      · cases h
      · rename_i h1 _
        simp only [CArith.bin, if_neg h1]
        exact h
  · refine ⟨_, _, rfl, rfl, ?_⟩
    simp only [hostMod, Option.some.injEq] at h
    split at h
    · cases h
    · split at h
      · cases h
      · rename_i h1 _
        simp only [CArith.bin, if_neg h1]
        exact h
  · cases h

/-- The compiler itself divides by zero, or overflows, exactly when a division or remainder with constant operands would. -/
theorem C50_host_trap (op : Op1) (l r : BitVec 32) :
    evalOp op l r = some none ↔ (op = .alu .div ∨ op = .alu .mod) ∧ (r = 0#32 ∨ (l = 0x80000000#32 ∧ r = 0xffffffff#32)) := by
  have hd : hostDiv l r = none ↔ r = 0#32 ∨ (l = 0x80000000#32 ∧ r = 0xffffffff#32) := by
    unfold hostDiv
    split
    · simp_all
    · split <;> simp_all
  have hm : hostMod l r = none ↔ r = 0#32 ∨ (l = 0x80000000#32 ∧ r = 0xffffffff#32) := by
    unfold hostMod
    split
    · simp_all
    · split <;> simp_all
  unfold evalOp
  split <;> simp_all

/-- Which instructions the pass may turn into a constant load. -/
def Foldable (isGlobal : Nat → Bool) (i : Insn) : Prop :=
  i.op = .load_constant ∨ (∃ o, i.op = .alu o) ∨ (i.op = .assign ∧ ∀ v, i.rd = some v → isGlobal v = false)

theorem IsSsa.single {isGlobal : Nat → Bool} {prog : List Insn} (h : IsSsa isGlobal prog) {xs ys : List Insn} {i : Insn}
    {v : Nat} (he : prog = xs ++ i :: ys) (hf : Foldable isGlobal i) (hr : i.rd = some v) :
    isGlobal v = false ∧ ∀ j ∈ xs ++ ys, j.rd ≠ some v := by
  have hg : isGlobal v = false := by
    rcases hf with hf | hf | ⟨_, hf⟩
    · exact h.2 i (by simp [he]) v hr (Or.inl hf)
    · exact h.2 i (by simp [he]) v hr (Or.inr hf)
    · exact hf v hr
  refine ⟨hg, h.1 xs i ys v he hr hg ?_⟩
  rcases hf with hf | ⟨o, hf⟩ | ⟨hf, _⟩ <;> rw [hf] <;> intro h <;> cases h

/-- How an instruction and its image are related, in terms of the constants recorded. -/
inductive Img (cv0 : Nat → Word) (st : CF) (i : Insn) : Insn → Prop
  | same (h : ∀ d, i.rd = some d → i.op = .load_constant → st.isConst d = true ∧ st.initVal d = cv0 d) : Img cv0 st i i
  | assign {d a i'} (hop : i.op = .assign) (hd : i.rd = some d) (ha : i.rs1 = some a) (hc : st.isConst a = true)
      (hcd : st.isConst d = true) (hv : st.initVal d = st.initVal a) (hop' : i'.op = .load_constant) (hd' : i'.rd = some d) :
      Img cv0 st i i'
  | alu {d a b o bo i'} (hop : i.op = .alu o) (hd : i.rd = some d) (ha : i.rs1 = some a) (hb : i.rs2 = some b)
      (hca : st.isConst a = true) (hcb : st.isConst b = true) (hcd : st.isConst d = true) (ho : IrM.binOf o = some bo)
      (hv : CArith.bin bo (st.initVal a) (st.initVal b) = some (st.initVal d)) (hop' : i'.op = .load_constant)
      (hd' : i'.rd = some d) : Img cv0 st i i'

structure FInv (isGlobal : Nat → Bool) (cv0 : Nat → Word) (Z : List (Insn × Insn)) (st : CF) : Prop where
  isc : ∀ v, st.isConst v = true → ∃ p ∈ Z, p.1.rd = some v ∧ Foldable isGlobal p.1 ∧ p.2.op = .load_constant
  val : ∀ v, (∀ p ∈ Z, p.1.rd = some v → ¬ Foldable isGlobal p.1) → st.initVal v = cv0 v
  img : ∀ p ∈ Z, Img cv0 st p.1 p.2

theorem Img.ext {cv0 : Nat → Word} {st st' : CF} {i i' : Insn}
    (h : ∀ v, st.isConst v = true → st'.isConst v = true ∧ st'.initVal v = st.initVal v) (H : Img cv0 st i i') :
    Img cv0 st' i i' := by
  cases H with
  | same hs =>
    refine .same fun d hd ho => ?_
    obtain ⟨h1, h2⟩ := hs d hd ho
    obtain ⟨h3, h4⟩ := h d h1
    exact ⟨h3, h4.trans h2⟩
  | assign hop hd ha hc hcd hv hop' hd' =>
    exact .assign hop hd ha (h _ hc).1 (h _ hcd).1 (by rw [(h _ hcd).2, (h _ hc).2, hv]) hop' hd'
  | alu hop hd ha hb hca hcb hcd ho hv hop' hd' =>
    exact .alu hop hd ha hb (h _ hca).1 (h _ hcb).1 (h _ hcd).1 ho (by rw [(h _ hca).2, (h _ hcb).2, (h _ hcd).2, hv])
      hop' hd'

/-- Adding a pair when the constants change at most at a variable not defined before. -/
theorem FInv.snoc {isGlobal : Nat → Bool} {cv0 : Nat → Word} {Z : List (Insn × Insn)} {st st' : CF} {i i' : Insn}
    (H : FInv isGlobal cv0 Z st)
    (hext : ∀ v, st.isConst v = true → st'.isConst v = true ∧ st'.initVal v = st.initVal v)
    (hchg : ∀ v, st'.isConst v = true → st.isConst v = true ∨ (i.rd = some v ∧ Foldable isGlobal i ∧ i'.op = .load_constant))
    (hval : ∀ v, st'.initVal v = st.initVal v ∨ (i.rd = some v ∧ Foldable isGlobal i))
    (himg : Img cv0 st' i i') : FInv isGlobal cv0 (Z ++ [(i, i')]) st' := by
  refine ⟨?_, ?_, ?_⟩
  · intro v hv
    rcases hchg v hv with h | h
    · obtain ⟨p, hp, h⟩ := H.isc v h
      exact ⟨p, by simp [hp], h⟩
    · exact ⟨(i, i'), by simp, h⟩
  · intro v hv
    rcases hval v with h | ⟨h1, h2⟩
    · rw [h]
      exact H.val v fun p hp => hv p (by simp [hp])
    · exact absurd h2 (hv (i, i') (by simp) h1)
  · intro p hp
    rcases List.mem_append.1 hp with hp | hp
    · exact (H.img p hp).ext hext
    · simp only [List.mem_singleton] at hp
      subst hp
      exact himg

theorem const_folding_inv {isGlobal : Nat → Bool} {cv0 : Nat → Word} {Z : List (Insn × Insn)} {st : CF} {prev : Option Insn}
    {i : Insn} {r : Insn × CF} (H : FInv isGlobal cv0 Z st)
    (hprev : ∀ p, prev = some p → p.op = .load_constant → ∀ u, p.rd = some u → st.isConst u = true)
    (hnew : ∀ v, i.rd = some v → Foldable isGlobal i → ∀ p ∈ Z, p.1.rd ≠ some v)
    (h : const_folding isGlobal prev i st = .ok r) :
    FInv isGlobal cv0 (Z ++ [(i, r.1)]) r.2 ∧
      (∀ u, r.1.op = .load_constant → r.1.rd = some u → r.2.isConst u = true) := by
  -- a variable that a foldable `i` defines is not yet constant and still has its initial value
  have hfresh : ∀ v, i.rd = some v → Foldable isGlobal i → st.isConst v = false := by
    intro v hv hf
    cases hc : st.isConst v with
    | false => rfl
    | true =>
      obtain ⟨p, hp, hpr, _⟩ := H.isc v hc
      exact absurd hpr (hnew v hv hf p hp)
  have hfv : ∀ v, i.rd = some v → Foldable isGlobal i → st.initVal v = cv0 v := by
    intro v hv hf
    exact H.val v fun p hp hpr => absurd hpr (hnew v hv hf p hp)
  -- the unchanged case
  have hsame : i.op ≠ .load_constant → FInv isGlobal cv0 (Z ++ [(i, i)]) st ∧
      (∀ u, i.op = .load_constant → i.rd = some u → st.isConst u = true) := by
    intro hop
    refine ⟨H.snoc (fun v h => ⟨h, rfl⟩) (fun v h => Or.inl h) (fun v => Or.inl rfl) (.same fun _ _ h => absurd h hop), ?_⟩
    intro u h
    exact absurd h hop
  -- a replacement by a constant load
  have hset : ∀ d x, i.rd = some d → Foldable isGlobal i → ∀ i' : Insn, i'.op = .load_constant → i'.rd = some d →
      Img cv0 (st.set d x) i i' →
      FInv isGlobal cv0 (Z ++ [(i, i')]) (st.set d x) ∧
      (∀ u, i'.op = .load_constant → i'.rd = some u → (st.set d x).isConst u = true) := by
    intro d x hd hf i' hop' hd' himg
    have hne := hfresh d hd hf
    refine ⟨H.snoc ?_ ?_ ?_ himg, ?_⟩
    · intro v hv
      have : v ≠ d := by rintro rfl; rw [hne] at hv; cases hv
      simp [CF.set, this, hv]
    · intro v hv
      by_cases hvd : v = d
      · subst hvd; exact Or.inr ⟨hd, hf, hop'⟩
      · simp only [CF.set, if_neg hvd] at hv
        exact Or.inl hv
    · intro v
      by_cases hvd : v = d
      · subst hvd; exact Or.inr ⟨hd, hf⟩
      · exact Or.inl (by simp [CF.set, hvd])
    · intro u _ hu
      rw [hd'] at hu
      cases hu
      simp [CF.set]
  -- arithmetic
  have heval : ∀ r, eval_const_arithmetic i st = .ok r → i.op ≠ .load_constant → FInv isGlobal cv0 (Z ++ [(i, r.1)]) r.2 ∧
      (∀ u, r.1.op = .load_constant → r.1.rd = some u → r.2.isConst u = true) := by
    intro r h hop
    unfold eval_const_arithmetic at h
    split at h
    · rename_i a b ha hb
      split at h
      · rename_i hc
        simp only [Bool.and_eq_true] at hc
        split at h
        · cases h; exact hsame hop
        · cases h
        · rename_i x hx
          obtain ⟨o, bo, ho, hbo, hv⟩ := C50_values _ _ _ _ hx
          split at h
          · cases h
          · rename_i d hd
            cases h
            have hf : Foldable isGlobal i := Or.inr (Or.inl ⟨o, ho⟩)
            have hne := hfresh d hd hf
            have hda : a ≠ d := by rintro rfl; rw [hne] at hc; cases hc.1
            have hdb : b ≠ d := by rintro rfl; rw [hne] at hc; cases hc.2
            refine hset d x hd hf _ rfl hd ?_
            refine .alu ho hd ha hb ?_ ?_ ?_ hbo ?_ rfl hd
            · simp [CF.set, hc.1]
            · simp [CF.set, hc.2]
            · simp [CF.set]
            · simp [CF.set, hda, hdb, hv]
      · cases h; exact hsame hop
    · cases h; exact hsame hop
  unfold const_folding at h
  split at h
  · cases h
  · rename_i i' st' hm
    cases h
    unfold mark_const at hm
    split at hm
    · split at hm <;> cases hm
    · rename_i hop
      split at hm
      · rename_i d a hd ha
        split at hm
        · cases hm
        · rename_i hg
          split at hm
          · rename_i hc
            cases hm
            have hf : Foldable isGlobal i := Or.inr (Or.inr ⟨hop, by
              intro v hv
              rw [hd] at hv
              cases hv
              simpa using hg⟩)
            have hca : st.isConst a = true := by
              simp only [Bool.or_eq_true] at hc
              rcases hc with hc | hc
              · exact hc
              · unfold prevLoads at hc
                split at hc
                · cases hc
                · rename_i p
                  simp only [Bool.and_eq_true, decide_eq_true_eq] at hc
                  exact hprev p rfl hc.1 a hc.2
            have hne := hfresh d hd hf
            have hda : a ≠ d := by rintro rfl; rw [hne] at hca; cases hca
            refine hset d _ hd hf _ rfl hd ?_
            refine .assign hop hd ha ?_ ?_ ?_ rfl hd
            · simp [CF.set, hca]
            · simp [CF.set]
            · simp [CF.set, hda]
          · cases hm
      · cases hm
    · cases hm
  · rename_i i' st' hm
    unfold mark_const at hm
    split at hm
    · rename_i hop
      split at hm
      · cases hm
      · rename_i d hd
        cases hm
        have hf : Foldable isGlobal i := Or.inl hop
        -- arithmetic does nothing on a constant load
        have he : r = (i, st.mark d) := by
          unfold eval_const_arithmetic at h
          split at h
          · split at h
            · simp only [hop, evalOp] at h
              cases h; rfl
            · cases h; rfl
          · cases h; rfl
        subst he
        have hne := hfresh d hd hf
        refine ⟨H.snoc ?_ ?_ (fun v => Or.inl rfl) (.same ?_), ?_⟩
        · intro v hv
          refine ⟨?_, rfl⟩
          simp [CF.mark, hv]
        · intro v hv
          by_cases hvd : v = d
          · subst hvd; exact Or.inr ⟨hd, hf, hop⟩
          · simp only [CF.mark, if_neg hvd] at hv
            exact Or.inl hv
        · intro d' hd' _
          rw [hd] at hd'
          cases hd'
          exact ⟨by simp [CF.mark], hfv d hd hf⟩
        · intro u _ hu
          rw [hd] at hu
          cases hu
          simp [CF.mark]
    · rename_i hop
      have hop' : i.op ≠ .load_constant := by rw [hop]; intro h; cases h
      split at hm
      · split at hm
        · cases hm; exact heval r h hop'
        · split at hm
          · cases hm
          · cases hm; exact heval r h hop'
      · cases hm
    · rename_i hop _
      cases hm
      exact heval r h hop

theorem foldBlock_inv {isGlobal : Nat → Bool} {cv0 : Nat → Word} : ∀ (is : List Insn) (prev : Option Insn) (st : CF)
    (Z : List (Insn × Insn)) (rest : List Insn) (r : List Insn × CF), FInv isGlobal cv0 Z st →
    IsSsa isGlobal (Z.map Prod.fst ++ (is ++ rest)) →
    (∀ p, prev = some p → p.op = .load_constant → ∀ u, p.rd = some u → st.isConst u = true) →
    foldBlock isGlobal prev is st = .ok r →
    ∃ zs : List (Insn × Insn), zs.map Prod.fst = is ∧ zs.map Prod.snd = r.1 ∧ FInv isGlobal cv0 (Z ++ zs) r.2 := by
  intro is
  induction is with
  | nil =>
    intro prev st Z rest r H _ _ h
    cases h
    exact ⟨[], rfl, rfl, by simpa using H⟩
  | cons i is ih =>
    intro prev st Z rest r H hs hprev h
    rw [foldBlock] at h
    split at h
    · cases h
    · rename_i i' st' hc
      split at h
      · cases h
      · rename_i is' st'' hr
        cases h
        obtain ⟨H1, hp1⟩ := const_folding_inv H hprev (by
          intro v hv hf p hp
          exact (IsSsa.single hs (xs := Z.map Prod.fst) (ys := is ++ rest) (i := i) rfl hf hv).2 p.1
            (by simp only [List.mem_append, List.mem_map]; exact Or.inl ⟨p, hp, rfl⟩)) hc
        obtain ⟨zs, h1, h2, h3⟩ := ih (some i') st' (Z ++ [(i, i')]) rest _ H1 (by simpa using hs)
          (by intro p hp hop u hu; cases hp; exact hp1 u hop hu) hr
        exact ⟨(i, i') :: zs, by simp [h1], by simp [h2], by simpa using h3⟩

theorem foldBlocks_inv {isGlobal : Nat → Bool} {cv0 : Nat → Word} : ∀ (bs : List (List Insn)) (st : CF)
    (Z : List (Insn × Insn)) (r : List (List Insn) × CF), FInv isGlobal cv0 Z st →
    IsSsa isGlobal (Z.map Prod.fst ++ bs.flatten) →
    foldBlocks isGlobal bs st = .ok r →
    ∃ zb : List (List (Insn × Insn)), zb.map (·.map Prod.fst) = bs ∧ zb.map (·.map Prod.snd) = r.1 ∧
      FInv isGlobal cv0 (Z ++ zb.flatten) r.2 := by
  intro bs
  induction bs with
  | nil =>
    intro st Z r H _ h
    cases h
    exact ⟨[], rfl, rfl, by simpa using H⟩
  | cons b bs ih =>
    intro st Z r H hs h
    rw [foldBlocks] at h
    split at h
    · cases h
    · rename_i b' st' hc
      split at h
      · cases h
      · rename_i bs' st'' hr
        cases h
        obtain ⟨zs, h1, h2, h3⟩ := foldBlock_inv b none st Z bs.flatten _ H (by simpa using hs) (by intro p hp; cases hp) hc
        obtain ⟨zb, g1, g2, g3⟩ := ih st' (Z ++ zs) _ h3 (by rw [List.map_append, h1]; simpa using hs) hr
        exact ⟨zs :: zb, by simp [g1, h1], by simp [g2, h2], by simpa using g3⟩

theorem img_const {isGlobal : Nat → Bool} {cv0 : Nat → Word} {Z : List (Insn × Insn)} {st : CF}
    (H : FInv isGlobal cv0 Z st) (hs : IsSsa isGlobal (Z.map Prod.fst)) {p : Insn × Insn} (hp : p ∈ Z) {v : Nat}
    (hv : p.1.rd = some v) (hc : st.isConst v = true) : isGlobal v = false ∧ p.2.op = .load_constant ∧ Foldable isGlobal p.1 := by
  obtain ⟨q, hq, hqr, hqf, hqo⟩ := H.isc v hc
  obtain ⟨A, B, rfl⟩ := List.append_of_mem hq
  have := IsSsa.single hs (xs := A.map Prod.fst) (ys := B.map Prod.fst) (i := q.1) (by simp) hqf hqr
  refine ⟨this.1, ?_⟩
  rcases List.mem_append.1 hp with hp | hp
  · exact absurd hv (this.2 p.1 (by simp only [List.mem_append, List.mem_map]; exact Or.inl ⟨p, hp, rfl⟩))
  · rcases List.mem_cons.1 hp with rfl | hp
    · exact ⟨hqo, hqf⟩
    · exact absurd hv (this.2 p.1 (by simp only [List.mem_append, List.mem_map]; exact Or.inr ⟨p, hp, rfl⟩))

/-- `initVal` is unchanged for a variable with a definition that is not foldable. -/
theorem val_same {isGlobal : Nat → Bool} {cv0 : Nat → Word} {Z : List (Insn × Insn)} {st : CF}
    (H : FInv isGlobal cv0 Z st) (hs : IsSsa isGlobal (Z.map Prod.fst)) {p : Insn × Insn} (hp : p ∈ Z) {v : Nat}
    (hv : p.1.rd = some v) (hn : ¬ Foldable isGlobal p.1) : st.initVal v = cv0 v := by
  apply H.val
  intro q hq hqr hqf
  obtain ⟨A, B, rfl⟩ := List.append_of_mem hq
  have := IsSsa.single hs (xs := A.map Prod.fst) (ys := B.map Prod.fst) (i := q.1) (by simp) hqf hqr
  rcases List.mem_append.1 hp with hp | hp
  · exact absurd hv (this.2 p.1 (by simp only [List.mem_append, List.mem_map]; exact Or.inl ⟨p, hp, rfl⟩))
  · rcases List.mem_cons.1 hp with rfl | hp
    · exact hn hqf
    · exact absurd hv (this.2 p.1 (by simp only [List.mem_append, List.mem_map]; exact Or.inr ⟨p, hp, rfl⟩))

/-- Writing one variable keeps the values of the other register variables. -/
theorem wrVar_other (M : Mach) (s : State M) (v u : Nat) (x : Word) (h : u ≠ v) : (wrVar M s v x).2 u = s.2 u := by
  unfold wrVar
  split
  · rfl
  · simp [h]

theorem step_other (M : Mach) (cv : Nat → Word) (i : Insn) (s s' : State M) (h : step M cv i s = some s') (u : Nat)
    (hu : i.rd ≠ some u) : s'.2 u = s.2 u := by
  have hw : ∀ d x, i.rd = some d → (wrVar M s d x).2 u = s.2 u := fun d x hd =>
    wrVar_other M s d u x (by rintro rfl; exact hu hd)
  unfold step at h
  split at h
  · rename_i hd; cases h; exact hw _ _ hd
  · rename_i hd; cases h; exact hw _ _ hd
  · rename_i hd _; cases h; exact hw _ _ hd
  · rename_i hd _; cases h; exact hw _ _ hd
  · rename_i hd _; cases h; exact hw _ _ hd
  · rename_i hd _
    simp only [Option.map_eq_some_iff] at h
    obtain ⟨x, _, rfl⟩ := h
    exact hw _ _ hd
  · rename_i hd _
    split at h
    · simp only [Option.map_eq_some_iff] at h
      obtain ⟨x, _, rfl⟩ := h
      exact hw _ _ hd
    · cases h; exact hw _ _ hd
    · cases h
  · cases h
  · cases h
  · cases h
  · cases h
  · cases h
  · cases h
  · cases h
  · simp only [Option.map_eq_some_iff] at h
    obtain ⟨r, _, rfl⟩ := h
    unfold wrOpt
    split
    · rfl
    · rename_i v hv
      exact wrVar_other M _ v u r.2 (by rintro rfl; exact hu hv)

theorem step_const (M : Mach) (cv : Nat → Word) (i : Insn) (s : State M) {d : Nat} (hop : i.op = .load_constant)
    (hd : i.rd = some d) : step M cv i s = some (wrVar M s d (cv d)) := by
  unfold step
  rw [hop, hd]

theorem step_cv (M : Mach) (cv cv' : Nat → Word) (i : Insn) (s : State M)
    (h : ∀ d, i.rd = some d → i.op = .load_constant ∨ i.op = .load_data_address → cv d = cv' d) :
    step M cv i s = step M cv' i s := by
  unfold step
  split
  · rename_i hop hd; rw [h _ hd (Or.inl hop)]
  · rename_i hop hd; rw [h _ hd (Or.inr hop)]
  all_goals rfl

theorem run_img (M : Mach) {isGlobal : Nat → Bool} {cv0 : Nat → Word} {Z : List (Insn × Insn)} {st : CF}
    (H : FInv isGlobal cv0 Z st) (hs : IsSsa isGlobal (Z.map Prod.fst)) (hm : ∀ v, M.mem v = true → isGlobal v = true ∨
      ∀ i ∈ Z.map Prod.fst, i.rd = some v → i.op ≠ .load_constant ∧ i.op ≠ .assign ∧ ∀ o, i.op ≠ .alu o) :
    ∀ (T P : List (Insn × Insn)) (s : State M), (∀ p ∈ T, p ∈ Z) →
    DefinedBeforeUse isGlobal (Z.map Prod.fst) ((P ++ T).map Prod.fst) →
    (∀ v, st.isConst v = true → (∃ p ∈ P, p.1.rd = some v) → s.2 v = st.initVal v) →
    run M cv0 (T.map Prod.fst) s = run M st.initVal (T.map Prod.snd) s := by
  intro T
  induction T with
  | nil => intros; rfl
  | cons p T ih =>
    intro P s hT hu hinv
    have hp := hT p (by simp)
    have hreg : ∀ v, st.isConst v = true → M.mem v = false := by
      intro v hv
      obtain ⟨q, hq, hqr, hqf, _⟩ := H.isc v hv
      have := (img_const H hs hq hqr hv).1
      cases hmv : M.mem v with
      | false => rfl
      | true =>
        rcases hm v hmv with h | h
        · rw [h] at this; cases this
        · obtain ⟨h1, h2, h3⟩ := h q.1 (List.mem_map_of_mem hq) hqr
          rcases hqf with hf | ⟨o, hf⟩ | ⟨hf, _⟩
          · exact absurd hf h1
          · exact absurd hf (h3 o)
          · exact absurd hf h2
    -- a constant operand has its value
    have hop : ∀ a, Operand p.1 a → st.isConst a = true → rdVar M s a = st.initVal a := by
      intro a ha hca
      obtain ⟨q, hq, hqr, _⟩ := H.isc a hca
      have hg := (img_const H hs hq hqr hca).1
      obtain ⟨j, hj, hjr⟩ := hu (P.map Prod.fst) p.1 (T.map Prod.fst) a (by simp) ha hg
        ⟨q.1, List.mem_map_of_mem hq, hqr⟩
      obtain ⟨q', hq', rfl⟩ := List.mem_map.1 hj
      unfold rdVar
      rw [hreg a hca]
      exact hinv a hca ⟨q', hq', hjr⟩
    have hstep : step M cv0 p.1 s = step M st.initVal p.2 s := by
      have himg := H.img p hp
      generalize hp2 : p.2 = i' at himg
      cases himg with
      | same hsm =>
        apply step_cv
        intro d hd ho
        rcases ho with ho | ho
        · exact (hsm d hd ho).2.symm
        · refine (val_same H hs hp hd ?_).symm
          rintro (hf | ⟨o, hf⟩ | ⟨hf, _⟩) <;> rw [ho] at hf <;> cases hf
      | assign hop' hd ha hc hcd hv ho' hd' =>
        rw [step_const M _ _ s ho' hd', hv, ← hop _ (Or.inl ha) hc]
        unfold step
        rw [hop', hd, ha]
      | alu hop' hd ha hb hca hcb hcd ho hv ho' hd' =>
        rw [step_const M _ _ s ho' hd']
        unfold step
        rw [hop', hd, ha, hb]
        simp only [ho]
        rw [hop _ (Or.inl ha) hca, hop _ (Or.inr hb) hcb, hv]
        rfl
    simp only [List.map_cons, run]
    rw [← hstep]
    cases hst : step M cv0 p.1 s with
    | none => rfl
    | some s' =>
      simp only [Option.bind_some]
      refine ih (P ++ [p]) s' (fun q hq => hT q (by simp [hq])) (by simpa using hu) ?_
      intro v hv hdef
      by_cases hpv : p.1.rd = some v
      · obtain ⟨hg, ho, _⟩ := img_const H hs hp hpv hv
        rw [hstep] at hst
        have hd' : p.2.rd = some v := by
          have himg := H.img p hp
          generalize p.2 = i' at himg ⊢
          cases himg with
          | same => exact hpv
          | assign _ hd _ _ _ _ _ hd' => rw [hpv] at hd; cases hd; exact hd'
          | alu _ hd _ _ _ _ _ _ _ _ hd' => rw [hpv] at hd; cases hd; exact hd'
        rw [step_const M _ _ s ho hd'] at hst
        cases hst
        unfold wrVar
        rw [hreg v hv]
        simp
      · rw [step_other M cv0 p.1 s s' hst v hpv]
        apply hinv v hv
        obtain ⟨q, hq, hqr⟩ := hdef
        rcases List.mem_append.1 hq with hq | hq
        · exact ⟨q, hq, hqr⟩
        · simp only [List.mem_singleton] at hq
          subst hq
          exact absurd hqr hpv

theorem flatMap_getD_map {α β : Type} (f : α → β) (zb : List (List α)) (path : List Nat) :
    path.flatMap (fun k => (zb.map (·.map f)).getD k []) = (path.flatMap fun k => zb.getD k []).map f := by
  induction path with
  | nil => rfl
  | cons k path ih =>
    rw [List.flatMap_cons, List.flatMap_cons, List.map_append, ih]
    congr 1
    rw [List.getD_eq_getElem?_getD, List.getD_eq_getElem?_getD, List.getElem?_map]
    cases zb[k]? <;> rfl

/-- C50. For every function in SSA form, every machine, every path through its blocks and every starting state, the folded
function does what the original does (including running into undefined behaviour at the same point), provided that the pass
itself does not divide by zero and that no local variable whose address is taken is assigned directly (arrays and structures
are not). -/
theorem C50_fold_preserves_partial (isGlobal : Nat → Bool) (blocks blocks' : List (List Insn)) (st st' : CF)
    (h0 : ∀ v, st.isConst v = false) (hs : IsSsa isGlobal blocks.flatten)
    (hf : foldBlocks isGlobal blocks st = .ok (blocks', st'))
    (M : Mach) (hm : ∀ v, M.mem v = true → isGlobal v = true ∨
      ∀ i ∈ blocks.flatten, i.rd = some v → i.op ≠ .load_constant ∧ i.op ≠ .assign ∧ ∀ o, i.op ≠ .alu o) (path : List Nat)
    (hu : DefinedBeforeUse isGlobal blocks.flatten (trace blocks path)) (s : State M) :
    run M st.initVal (trace blocks path) s = run M st'.initVal (trace blocks' path) s := by
  have H0 : FInv isGlobal st.initVal [] st :=
    ⟨fun v hv => (by rw [h0 v] at hv; cases hv), fun _ _ => rfl, fun p hp => (by cases hp)⟩
  obtain ⟨zb, h1, h2, H⟩ := foldBlocks_inv blocks st [] _ H0 (by simpa using hs) hf
  simp only [List.nil_append] at H h2
  subst h1
  subst h2
  have hfl : (zb.map (·.map Prod.fst)).flatten = zb.flatten.map Prod.fst := by rw [List.map_flatten]
  unfold trace at *
  rw [hfl] at hs hm
  rw [hfl, flatMap_getD_map] at hu
  rw [flatMap_getD_map, flatMap_getD_map]
  refine run_img M H hs hm _ [] s ?_ (by simpa using hu) (by rintro v _ ⟨p, hp, _⟩; cases hp)
  intro p hp
  obtain ⟨k, _, hk⟩ := List.mem_flatMap.1 hp
  rw [List.getD_eq_getElem?_getD] at hk
  cases hz : zb[k]? with
  | none => rw [hz] at hk; cases hk
  | some z =>
    rw [hz] at hk
    exact List.mem_flatten.2 ⟨z, List.mem_of_getElem? hz, hk⟩

/-! Checks for concrete programs -/

theorem IsSsa.of_pairwise {isGlobal : Nat → Bool} {prog : List Insn}
    (h1 : prog.Pairwise fun i j => i.rd = none ∨ i.rd ≠ j.rd ∨ i.rd.map isGlobal = some true ∨
      (i.op = .unwound_phi ∧ j.op = .unwound_phi))
    (h2 : ∀ i ∈ prog, (i.op = .load_constant ∨ i.op ∉ [.unwound_phi, .allocat, .load_constant, .load_data_address,
      .address_of, .assign, .read, .write, .branch, .push, .call, .indirect, .func_ret, .ret]) → i.rd.map isGlobal ≠ some true) :
    IsSsa isGlobal prog := by
  refine ⟨?_, ?_⟩
  · rintro xs i ys v rfl hv hg hop j hj hjv
    have hP := List.pairwise_append.1 h1
    rcases List.mem_append.1 hj with hj | hj
    · rcases hP.2.2 j hj i (by simp) with h | h | h | h
      · rw [hjv] at h; cases h
      · exact h (hjv.trans hv.symm)
      · rw [hjv, Option.map_some, hg] at h; cases h
      · exact hop h.2
    · rcases (List.pairwise_cons.1 hP.2.1).1 j hj with h | h | h | h
      · rw [hv] at h; cases h
      · exact h (hv.trans hjv.symm)
      · rw [hv, Option.map_some, hg] at h; cases h
      · exact hop h.1
  · intro i hi v hv ho
    have := h2 i hi (by
      rcases ho with ho | ⟨o, ho⟩
      · exact Or.inl ho
      · rw [ho]; exact Or.inr (by simp))
    rw [hv, Option.map_some] at this
    cases hg : isGlobal v with
    | false => rfl
    | true => exact absurd (by rw [hg]) this

/-- Every operand that `prog` assigns was assigned before, in `defs` or earlier in the list. -/
def usesOk (isGlobal : Nat → Bool) (prog : List Insn) : List (Option Nat) → List Insn → Bool
  | _, [] => true
  | defs, i :: is =>
    ([i.rs1, i.rs2].all fun o => o == none || o.map isGlobal == some true || defs.contains o || !(prog.map (·.rd)).contains o) &&
      usesOk isGlobal prog (i.rd :: defs) is

theorem usesOk_sound {isGlobal : Nat → Bool} {prog : List Insn} : ∀ (T : List Insn) (defs : List (Option Nat)) (P : List Insn),
    (∀ o ∈ defs, ∃ j ∈ P, j.rd = o) → usesOk isGlobal prog defs T = true →
    ∀ xs i ys v, T = xs ++ i :: ys → Operand i v → isGlobal v = false → (∃ j ∈ prog, j.rd = some v) →
      ∃ j ∈ P ++ xs, j.rd = some v := by
  intro T
  induction T with
  | nil => intro defs P _ _ xs i ys v h; simp at h
  | cons k T ih =>
    intro defs P hd h xs i ys v he hop hg hj
    simp only [usesOk, Bool.and_eq_true] at h
    cases xs with
    | nil =>
      simp only [List.nil_append, List.cons.injEq] at he
      obtain ⟨rfl, rfl⟩ := he
      have ho : some v ∈ [k.rs1, k.rs2] := by rcases hop with h | h <;> simp [h]
      have := List.all_eq_true.1 h.1 _ ho
      simp only [Option.map_some, hg, Bool.or_eq_true, beq_iff_eq, reduceCtorEq, false_or, Option.some.injEq, Bool.false_eq_true,
        List.contains_iff_mem, Bool.not_eq_true', ← Bool.not_eq_true, List.mem_map, not_exists] at this
      rcases this with h | h
      · obtain ⟨j, hj, hjr⟩ := hd _ h
        exact ⟨j, by simpa using hj, hjr⟩
      · obtain ⟨j, hj, hjr⟩ := hj
        exact absurd ⟨hj, hjr⟩ (h j)
    | cons x xs =>
      simp only [List.cons_append, List.cons.injEq] at he
      obtain ⟨rfl, rfl⟩ := he
      have := ih (k.rd :: defs) (P ++ [k]) (by
        intro o ho
        rcases List.mem_cons.1 ho with rfl | ho
        · exact ⟨k, by simp, rfl⟩
        · obtain ⟨j, hj, h⟩ := hd o ho
          exact ⟨j, by simp [hj], h⟩) h.2 xs i ys v rfl hop hg hj
      simpa using this

theorem DefinedBeforeUse.of_check {isGlobal : Nat → Bool} {prog T : List Insn} (h : usesOk isGlobal prog [] T = true) :
    DefinedBeforeUse isGlobal prog T := by
  intro xs i ys v he hop hg hj
  simpa using usesOk_sound T [] [] (by simp) h xs i ys v he hop hg hj

/-- `x = 6 * 7; while (p) { y = x - 2; g = y; } return x;` after SSA construction: `0`, `1`, `4` are constants, `2` is `6 * 7`,
`3` is `x`, `5`, `6` are `x - 2` and `y`, `7` the parameter, `100` the global. -/
def foldDemo : List (List Insn) :=
  [[{ op := .load_constant, rd := some 0 }, { op := .load_constant, rd := some 1 },
    { op := .alu .mul, rd := some 2, rs1 := some 0, rs2 := some 1 }, { op := .assign, rd := some 3, rs1 := some 2 }],
   [{ op := .branch, rs1 := some 7 }],
   [{ op := .load_constant, rd := some 4 }, { op := .alu .sub, rd := some 5, rs1 := some 3, rs2 := some 4 },
    { op := .assign, rd := some 6, rs1 := some 5 }, { op := .assign, rd := some 100, rs1 := some 6 }],
   [{ op := .ret, rs1 := some 3 }]]

def foldDemoCf : CF := ⟨fun _ => false, fun | 0 => 6 | 1 => 7 | 4 => 2 | _ => 0⟩

example : IsSsa (fun v => v == 100) foldDemo.flatten ∧
    DefinedBeforeUse (fun v => v == 100) foldDemo.flatten (trace foldDemo [0, 1, 2, 1, 2, 1, 3]) ∧
    (match foldBlocks (fun v => v == 100) foldDemo foldDemoCf with
      | .crash => none
      | .ok (b, st) => some (b.map (·.map (·.op)), st.initVal 3, st.initVal 6)) =
      some ([[.load_constant, .load_constant, .load_constant, .load_constant], [.branch],
        [.load_constant, .load_constant, .load_constant, .assign], [.ret]], 42, 40) :=
  ⟨IsSsa.of_pairwise (by decide) (by decide), DefinedBeforeUse.of_check (by decide), by decide +kernel⟩

/-- `if (0) x = 1 / 0;`: the compiler divides by zero although the program never would. -/
theorem C50_dead_division_crashes :
    (match foldBlocks (fun _ => false) [[{ op := .branch, rs1 := some 9 }],
      [{ op := .load_constant, rd := some 0 }, { op := .load_constant, rd := some 1 },
       { op := .alu .div, rd := some 2, rs1 := some 0, rs2 := some 1 }], [{ op := .ret, rs1 := some 9 }]]
      ⟨fun _ => false, fun | 0 => 1 | _ => 0⟩ with
    | .crash => true
    | .ok _ => false) = true := by decide +kernel

/-- A machine in which variable `3` (whose address is taken) lives in memory, at address 3; `ret` makes its operand the
world's result. -/
def addrMach : Mach where
  World := (Nat → Word) × Word
  mem v := v == 3
  get w v := w.1 v
  set w v x := (fun u => if u = v then x else w.1 u, w.2)
  load _ w a := w.1 a.toNat
  addrOf v := BitVec.ofNat 32 v
  dataAddr := 0
  ext i a b w :=
    match i.op, a, b with
    | .write, some a, some b => some ((fun u => if u = a.toNat then b else w.1 u, w.2), 0)
    | .ret, some a, _ => some ((w.1, a), 0)
    | _, _, _ => some (w, 0)

/-- `int x = 5; int *p = &x; *p = 6; return x + 1;` -/
def addrProg : List (List Insn) :=
  [[{ op := .load_constant, rd := some 0 }, { op := .assign, rd := some 3, rs1 := some 0 },
    { op := .address_of, rd := some 1, rs1 := some 3 }, { op := .load_constant, rd := some 2 },
    { op := .write, rs1 := some 1, rs2 := some 2, sz := 4 }, { op := .load_constant, rd := some 4 },
    { op := .alu .add, rd := some 5, rs1 := some 3, rs2 := some 4 }, { op := .ret, rs1 := some 5 }]]

def addrCf : CF := ⟨fun _ => false, fun | 0 => 5 | 2 => 6 | 4 => 1 | _ => 0⟩

/-- The hypothesis on addresses is needed: this program returns 7, but 6 after folding, because a store through a pointer
does not make the variable non-constant. -/
theorem C50_address_taken_wrong :
    IsSsa (fun _ => false) addrProg.flatten ∧
    ((run addrMach addrCf.initVal (trace addrProg [0]) ((fun _ => 0, 0), fun _ => 0)).map fun s => s.1.2) = some 7 ∧
    (match foldBlocks (fun _ => false) addrProg addrCf with
      | .crash => none
      | .ok (b, st) => (run addrMach st.initVal (trace b [0]) ((fun _ => 0, 0), fun _ => 0)).map fun s => s.1.2) = some 6 :=
  ⟨IsSsa.of_pairwise (by decide) (by decide), by decide +kernel, by decide +kernel⟩

end Shecc.Props
