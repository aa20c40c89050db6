import Verif.Spec.CDce
import Verif.Props.Cse

/-!
# C55: dead code elimination
-/

namespace Shecc.Props
open Shecc.Ssa Shecc.Dce CDce SsaSem

def Dep (f : Fn) (i k : Nat) : Prop := DataDep f i k ∨ ControlDep f i k

/-- Invariant: marks are justified, and what a marked instruction depends on is marked or will be when the work list is
processed; `X` are instructions being processed. -/
structure DInv (f : Fn) (order : List Nat) (X : Nat → Prop) (st : St) : Prop where
  pend : ∀ i, st.useful i = true → ∀ k, Dep f i k → st.useful k = true ∨ (∃ j ∈ st.wl, Dep f j k) ∨ ∃ j, X j ∧ Dep f j k
  need : ∀ i, st.useful i = true → Needed f order i
  wl : ∀ i ∈ st.wl, st.useful i = true

theorem DInv.markPush {f : Fn} {order : List Nat} {X : Nat → Prop} {st : St} (I : DInv f order X st) {i j b : Nat}
    (hi : Needed f order i) (hj : j = i ∨ st.useful j = true) (hd : ∀ k, Dep f i k → Dep f j k) :
    DInv f order X ((st.mark i).push j) ∧ DInv f order X (((st.mark i).markBb b).push j) := by
  have h : DInv f order X ((st.mark i).push j) := by
    refine ⟨?_, ?_, ?_⟩
    · intro x hx k hk
      simp only [St.push, St.mark] at hx ⊢
      by_cases hxi : x = i
      · subst hxi
        exact Or.inr (Or.inl ⟨j, by simp, hd k hk⟩)
      · rw [if_neg hxi] at hx
        rcases I.pend x hx k hk with h | ⟨y, hy, h⟩ | h
        · left; split
          · rfl
          · exact h
        · exact Or.inr (Or.inl ⟨y, by simp [hy], h⟩)
        · exact Or.inr (Or.inr h)
    · intro x hx
      simp only [St.push, St.mark] at hx
      by_cases hxi : x = i
      · subst hxi; exact hi
      · rw [if_neg hxi] at hx; exact I.need x hx
    · intro x hx
      simp only [St.push, St.mark, List.mem_cons] at hx ⊢
      split
      · rfl
      · rename_i hxi
        rcases hx with rfl | hx
        · rcases hj with hj | hj
          · exact absurd hj hxi
          · exact hj
        · exact I.wl x hx
  exact ⟨h, ⟨h.pend, h.need, h.wl⟩⟩

/-- Flags only go up. -/
def Up (st st' : St) : Prop := ∀ i, st.useful i = true → st'.useful i = true

theorem Up.refl (st : St) : Up st st := fun _ h => h
theorem Up.trans {a b c : St} (h : Up a b) (h' : Up b c) : Up a c := fun i hi => h' i (h i hi)
theorem Up.markPush (st : St) (i j : Nat) : Up st ((st.mark i).push j) := by
  intro x hx
  simp only [St.push, St.mark]
  split
  · rfl
  · exact hx
theorem Up.markBbPush (st : St) (i j b : Nat) : Up st (((st.mark i).markBb b).push j) := Up.markPush st i j

theorem useful_markPush (st : St) (i j : Nat) : ((st.mark i).push j).useful i = true := by simp [St.push, St.mark]
theorem useful_markBbPush (st : St) (i j b : Nat) : (((st.mark i).markBb b).push j).useful i = true := useful_markPush st i j

theorem markPushes_ok {f : Fn} {order : List Nat} {X : Nat → Prop} : ∀ (before : List Nat) (st : St), DInv f order X st →
    (∀ qs rs, before = qs ++ rs → (∀ q ∈ qs, (f.insn q).op = .push) → ∀ q ∈ qs, Needed f order q) →
    DInv f order X (markPushes f before st) ∧ Up st (markPushes f before st) ∧
      ∀ qs rs, before = qs ++ rs → (∀ q ∈ qs, (f.insn q).op = .push) → ∀ q ∈ qs, (markPushes f before st).useful q = true := by
  intro before
  induction before with
  | nil =>
    intro st I _
    refine ⟨I, Up.refl _, ?_⟩
    intro qs rs h _ q hq
    have : qs = [] := by
      cases qs with
      | nil => rfl
      | cons => simp at h
    subst this
    cases hq
  | cons p ps ih =>
    intro st I hn
    rw [markPushes]
    split
    · rename_i hp
      obtain ⟨I1, u1, m1⟩ := ih ((st.mark p).push p)
        (I.markPush (b := 0) (hn [p] ps rfl (by simpa using hp) p (by simp)) (Or.inl rfl) (fun _ h => h)).1 (by
          intro qs rs he hq q hqm
          exact hn (p :: qs) rs (by simp [he]) (by
            intro x hx
            rcases List.mem_cons.1 hx with rfl | hx
            · exact hp
            · exact hq x hx) q (by simp [hqm]))
      refine ⟨I1, (Up.markPush st p p).trans u1, ?_⟩
      intro qs rs he hq q hqm
      cases qs with
      | nil => cases hqm
      | cons x qs =>
        simp only [List.cons_append, List.cons.injEq] at he
        obtain ⟨rfl, he⟩ := he
        rcases List.mem_cons.1 hqm with rfl | hqm
        · exact u1 q (useful_markPush st q q)
        · exact m1 qs rs he (fun y hy => hq y (by simp [hy])) q hqm
    · rename_i hp
      refine ⟨I, Up.refl _, ?_⟩
      intro qs rs he hq q hqm
      cases qs with
      | nil => cases hqm
      | cons x qs =>
        simp only [List.cons_append, List.cons.injEq] at he
        obtain ⟨rfl, he⟩ := he
        exact absurd (hq p (by simp)) hp

/-- Well-formedness: instructions of a block belong to it, and the fetch of a result has no operands. -/
def DWf (f : Fn) : Prop :=
  (∀ b, ∀ i ∈ f.blocks b, f.blk i = b) ∧ ∀ i, (f.insn i).op = .func_ret → (f.insn i).rs1 = none ∧ (f.insn i).rs2 = none

theorem initMark_ok {f : Fn} (hw : DWf f) {order : List Nat} {X : Nat → Prop} {b : Nat} (hb : b ∈ order)
    {before is : List Nat} {i : Nat} (he : f.blocks b = before.reverse ++ i :: is) {st : St} (I : DInv f order X st) :
    DInv f order X (initMark f before i is.head? st) ∧ Up st (initMark f before i is.head? st) ∧
      (HasEffect f i → (initMark f before i is.head? st).useful i = true) ∧
      ((f.insn i).op = .call ∨ (f.insn i).op = .indirect →
        (∀ n ys, is = n :: ys → (f.insn n).op = .func_ret → (initMark f before i is.head? st).useful n = true) ∧
        ∀ qs rs, before = qs ++ rs → (∀ q ∈ qs, (f.insn q).op = .push) → ∀ q ∈ qs,
          (initMark f before i is.head? st).useful q = true) := by
  have hi : i ∈ f.blocks b := by simp [he]
  have hsimple : HasEffect f i → ¬ ((f.insn i).op = .call ∨ (f.insn i).op = .indirect) →
      initMark f before i is.head? st = ((st.mark i).markBb (f.blk i)).push i →
      DInv f order X (initMark f before i is.head? st) ∧ Up st (initMark f before i is.head? st) ∧
      (HasEffect f i → (initMark f before i is.head? st).useful i = true) ∧
      ((f.insn i).op = .call ∨ (f.insn i).op = .indirect →
        (∀ n ys, is = n :: ys → (f.insn n).op = .func_ret → (initMark f before i is.head? st).useful n = true) ∧
        ∀ qs rs, before = qs ++ rs → (∀ q ∈ qs, (f.insn q).op = .push) → ∀ q ∈ qs,
          (initMark f before i is.head? st).useful q = true) := by
    intro he hnc heq
    rw [heq]
    exact ⟨(I.markPush (.effect hb hi he) (Or.inl rfl) (fun _ h => h)).2, Up.markBbPush _ _ _ _,
      fun _ => useful_markBbPush _ _ _ _, fun h => absurd h hnc⟩
  have hcall : (f.insn i).op = .call ∨ (f.insn i).op = .indirect →
      DInv f order X (initMark f before i is.head? st) ∧ Up st (initMark f before i is.head? st) ∧
      (HasEffect f i → (initMark f before i is.head? st).useful i = true) ∧
      ((f.insn i).op = .call ∨ (f.insn i).op = .indirect →
        (∀ n ys, is = n :: ys → (f.insn n).op = .func_ret → (initMark f before i is.head? st).useful n = true) ∧
        ∀ qs rs, before = qs ++ rs → (∀ q ∈ qs, (f.insn q).op = .push) → ∀ q ∈ qs,
          (initMark f before i is.head? st).useful q = true) := by
    intro hop
    have heff : HasEffect f i := by
      rcases hop with h | h
      · exact Or.inr (Or.inl h)
      · exact Or.inr (Or.inr (Or.inl h))
    have I1 : DInv f order X (((st.mark i).markBb (f.blk i)).push i) :=
      (I.markPush (.effect hb hi heff) (Or.inl rfl) (fun _ h => h)).2
    have u1 := Up.markBbPush st i i (f.blk i)
    have m1 := useful_markBbPush st i i (f.blk i)
    generalize hst1 : ((st.mark i).markBb (f.blk i)).push i = st1 at I1 u1 m1
    have hpush : ∀ qs rs, before = qs ++ rs → (∀ q ∈ qs, (f.insn q).op = .push) → ∀ q ∈ qs, Needed f order q := by
      intro qs rs hqs hq q hqm
      refine .part hb (Or.inr ?_)
      obtain ⟨A, B, rfl⟩ := List.append_of_mem hqm
      refine ⟨rs.reverse ++ B.reverse, A.reverse, i, is, ?_, hop, ?_⟩
      · rw [he, hqs]; simp
      · intro p hp
        apply hq
        rcases List.mem_cons.1 hp with rfl | hp
        · simp
        · simp only [List.mem_reverse] at hp; simp [hp]
    have h2 : DInv f order X (markFuncRet f i is.head? st1) ∧ Up st1 (markFuncRet f i is.head? st1) ∧
        ∀ n ys, is = n :: ys → (f.insn n).op = .func_ret → (markFuncRet f i is.head? st1).useful n = true := by
      cases is with
      | nil => exact ⟨I1, Up.refl _, fun n ys h => (by cases h)⟩
      | cons n ys =>
        simp only [List.head?_cons, markFuncRet]
        split
        · rename_i hn
          refine ⟨(I1.markPush (b := 0) (.part hb (Or.inl ⟨before.reverse, i, ys, he, hop, hn⟩)) (Or.inr m1) ?_).1,
            Up.markPush _ _ _, ?_⟩
          · rintro k (⟨v, hv, _⟩ | ⟨r, hr, h⟩)
            · obtain ⟨r1, r2⟩ := hw.2 n hn
              rcases hv with hv | hv
              · rw [r1] at hv; cases hv
              · rw [r2] at hv; cases hv
            · have e1 := hw.1 b n (by simp [he])
              have e2 := hw.1 b i hi
              rw [e1, ← e2] at hr
              exact Or.inr ⟨r, hr, h⟩
          · intro n' ys' h _
            cases h
            exact useful_markPush _ _ _
        · rename_i hn
          refine ⟨I1, Up.refl _, ?_⟩
          intro n' ys' h hn'
          cases h
          exact absurd hn' hn
    have heq : initMark f before i is.head? st =
        markPushes f before (markFuncRet f i is.head? (((st.mark i).markBb (f.blk i)).push i)) := by
      unfold initMark
      rcases hop with h | h <;> rw [h]
    rw [heq, hst1]
    obtain ⟨I2, u2, m2⟩ := h2
    obtain ⟨I3, u3, m3⟩ := markPushes_ok before _ I2 hpush
    exact ⟨I3, u1.trans (u2.trans u3), fun _ => u3 i (u2 i m1), fun _ => ⟨fun n ys h hn => u3 n (m2 n ys h hn), m3⟩⟩
  have hglob : (f.insn i).op ≠ .call → (f.insn i).op ≠ .indirect →
      ¬ ((f.insn i).op = .ret ∨ (f.insn i).op = .write ∨ (f.insn i).op = .address_of ∨ (f.insn i).op = .unwound_phi ∨
        (f.insn i).op = .allocat) →
      DInv f order X (initMark f before i is.head? st) ∧ Up st (initMark f before i is.head? st) ∧
      (HasEffect f i → (initMark f before i is.head? st).useful i = true) ∧
      ((f.insn i).op = .call ∨ (f.insn i).op = .indirect →
        (∀ n ys, is = n :: ys → (f.insn n).op = .func_ret → (initMark f before i is.head? st).useful n = true) ∧
        ∀ qs rs, before = qs ++ rs → (∀ q ∈ qs, (f.insn q).op = .push) → ∀ q ∈ qs,
          (initMark f before i is.head? st).useful q = true) := by
    intro h1 h2 h3
    have hnc : ¬ ((f.insn i).op = .call ∨ (f.insn i).op = .indirect) := by
      rintro (h | h)
      · exact h1 h
      · exact h2 h
    have heq : initMark f before i is.head? st = markGlobal f i st := by
      unfold initMark
      split <;> simp_all
    unfold markGlobal at heq
    by_cases hg : ∃ v, (f.insn i).rd = some v ∧ f.isGlobal v = true
    · have heff : HasEffect f i := by
        unfold HasEffect
        simp only [hg, or_true]
      obtain ⟨v, hv, hgv⟩ := hg
      rw [hv] at heq
      simp only [hgv, Bool.true_and] at heq
      cases hu : st.useful i with
      | false =>
        rw [hu] at heq
        exact hsimple heff hnc heq
      | true =>
        rw [hu] at heq
        simp only [Bool.not_true, Bool.false_eq_true, if_false] at heq
        rw [heq]
        exact ⟨I, Up.refl _, fun _ => hu, fun h => absurd h hnc⟩
    · have hne : ¬ HasEffect f i := by
        unfold HasEffect
        rintro (h | h | h | h | h | h | h | h)
        · exact h3 (by simp [h])
        · exact h1 h
        · exact h2 h
        · exact h3 (by simp [h])
        · exact h3 (by simp [h])
        · exact h3 (by simp [h])
        · exact h3 (by simp [h])
        · exact hg h
      have heq' : initMark f before i is.head? st = st := by
        rw [heq]
        cases hv : (f.insn i).rd with
        | none => rfl
        | some v =>
          cases hgv : f.isGlobal v with
          | true => exact absurd ⟨v, hv, hgv⟩ hg
          | false => simp [hgv]
      rw [heq']
      exact ⟨I, Up.refl _, fun h => absurd h hne, fun h => absurd h hnc⟩
  by_cases hop : (f.insn i).op = .call ∨ (f.insn i).op = .indirect
  · exact hcall hop
  · by_cases hop2 : (f.insn i).op = .ret ∨ (f.insn i).op = .write ∨ (f.insn i).op = .address_of ∨
        (f.insn i).op = .unwound_phi ∨ (f.insn i).op = .allocat
    · refine hsimple ?_ hop ?_
      · unfold HasEffect
        rcases hop2 with h | h | h | h | h <;> simp [h]
      · unfold initMark
        rcases hop2 with h | h | h | h | h <;> rw [h]
    · exact hglob (fun h => hop (Or.inl h)) (fun h => hop (Or.inr h)) hop2

theorem initLoop_ok {f : Fn} (hw : DWf f) {order : List Nat} {X : Nat → Prop} {b cap : Nat} (hb : b ∈ order) :
    ∀ (is before : List Nat) (st st' : St), f.blocks b = before.reverse ++ is → DInv f order X st →
    initLoop f cap before is st = some st' →
    DInv f order X st' ∧ Up st st' ∧ ∀ xs i ys, is = xs ++ i :: ys →
      (HasEffect f i → st'.useful i = true) ∧
      ((f.insn i).op = .call ∨ (f.insn i).op = .indirect →
        (∀ n zs, ys = n :: zs → (f.insn n).op = .func_ret → st'.useful n = true) ∧
        ∀ qs rs, xs.reverse ++ before = qs ++ rs → (∀ q ∈ qs, (f.insn q).op = .push) → ∀ q ∈ qs, st'.useful q = true) := by
  intro is
  induction is with
  | nil =>
    intro before st st' _ I h
    cases h
    exact ⟨I, Up.refl _, fun xs i ys h => (by simp at h)⟩
  | cons i is ih =>
    intro before st st' he I h
    rw [initLoop] at h
    obtain ⟨I1, u1, m1, m2⟩ := initMark_ok hw hb he I
    split at h
    · cases h
    · obtain ⟨I2, u2, m3⟩ := ih (i :: before) _ st' (by simpa using he) I1 h
      refine ⟨I2, u1.trans u2, ?_⟩
      intro xs j ys hxs
      cases xs with
      | nil =>
        simp only [List.nil_append, List.cons.injEq] at hxs
        obtain ⟨rfl, rfl⟩ := hxs
        refine ⟨fun h => u2 _ (m1 h), ?_⟩
        intro hop
        obtain ⟨g1, g2⟩ := m2 hop
        refine ⟨fun n zs h hn => u2 _ (g1 n zs h hn), ?_⟩
        intro qs rs hqs hq q hqm
        exact u2 _ (g2 qs rs (by simpa using hqs) hq q hqm)
      | cons x xs =>
        simp only [List.cons_append, List.cons.injEq] at hxs
        obtain ⟨rfl, rfl⟩ := hxs
        obtain ⟨g1, g2⟩ := m3 xs j ys rfl
        refine ⟨g1, fun hop => ⟨(g2 hop).1, ?_⟩⟩
        intro qs rs hqs
        exact (g2 hop).2 qs rs (by simpa using hqs)

theorem touch_ok {f : Fn} {order : List Nat} {X : Nat → Prop} {st : St} (I : DInv f order X st) {k : Nat}
    (hk : Needed f order k) : DInv f order X (touch f k st) ∧ Up st (touch f k st) ∧ (touch f k st).useful k = true := by
  unfold touch
  split
  · rename_i h; exact ⟨I, Up.refl _, h⟩
  · exact ⟨(I.markPush hk (Or.inl rfl) (fun _ h => h)).2, Up.markBbPush _ _ _ _, useful_markBbPush _ _ _ _⟩

theorem touchOperand_ok {f : Fn} {order : List Nat} {X : Nat → Prop} {st : St} (I : DInv f order X st) (o : Option Nat)
    (hk : ∀ v k, o = some v → f.lastAssign v = some k → Needed f order k) :
    DInv f order X (touchOperand f o st) ∧ Up st (touchOperand f o st) ∧
      ∀ v k, o = some v → f.lastAssign v = some k → (touchOperand f o st).useful k = true := by
  unfold touchOperand
  split
  · exact ⟨I, Up.refl _, fun v k h => (by cases h)⟩
  · rename_i v
    split
    · rename_i hn
      refine ⟨I, Up.refl _, ?_⟩
      intro v' k h1 h2
      cases h1
      rw [hn] at h2
      cases h2
    · rename_i k hl
      obtain ⟨I1, u1, m1⟩ := touch_ok I (hk v k rfl hl)
      refine ⟨I1, u1, ?_⟩
      intro v' k' h1 h2
      cases h1
      rw [hl] at h2
      cases h2
      exact m1

theorem touchRdf_ok {f : Fn} {order : List Nat} {X : Nat → Prop} : ∀ (rs : List Nat) (st st' : St), DInv f order X st →
    (∀ r ∈ rs, ∀ k, (f.blocks r).getLast? = some k → (f.insn k).op = .branch → Needed f order k) →
    touchRdf f rs st = some st' →
    DInv f order X st' ∧ Up st st' ∧
      ∀ r ∈ rs, ∀ k, (f.blocks r).getLast? = some k → (f.insn k).op = .branch → st'.useful k = true := by
  intro rs
  induction rs with
  | nil =>
    intro st st' I _ h
    cases h
    exact ⟨I, Up.refl _, fun r hr => (by cases hr)⟩
  | cons r rs ih =>
    intro st st' I hn h
    rw [touchRdf] at h
    split at h
    · cases h
    · rename_i t ht
      have h1 : ∃ st1, touchRdf f rs st1 = some st' ∧ DInv f order X st1 ∧ Up st st1 ∧
          ((f.insn t).op = .branch → st1.useful t = true) := by
        refine ⟨_, h, ?_⟩
        split
        · rename_i hop
          split
          · rename_i hu; exact ⟨I, Up.refl _, fun _ => hu⟩
          · exact ⟨(I.markPush (hn r (by simp) t ht hop) (Or.inl rfl) (fun _ h => h)).2, Up.markBbPush _ _ _ _,
              fun _ => useful_markBbPush _ _ _ _⟩
        · rename_i hop; exact ⟨I, Up.refl _, fun h => absurd h hop⟩
      obtain ⟨st1, h, I1, u1, m1⟩ := h1
      obtain ⟨I2, u2, m2⟩ := ih st1 st' I1 (fun r' hr' => hn r' (by simp [hr'])) h
      refine ⟨I2, u1.trans u2, ?_⟩
      intro r' hr' k hk hop
      rcases List.mem_cons.1 hr' with rfl | hr'
      · rw [ht] at hk
        cases hk
        exact u2 _ (m1 hop)
      · exact m2 r' hr' k hk hop

theorem drain_ok {f : Fn} {order : List Nat} : ∀ (n : Nat) (st st' : St), DInv f order (fun _ => False) st →
    drain f n st = some st' → DInv f order (fun _ => False) st' ∧ Up st st' ∧ st'.wl = [] := by
  intro n
  induction n with
  | zero => intro st st' _ h; cases h
  | succ n ih =>
    intro st st' I h
    rw [drain] at h
    split at h
    · rename_i hwl; cases h; exact ⟨I, Up.refl _, hwl⟩
    · rename_i i rest hwl
      have hui : st.useful i = true := I.wl i (by simp [hwl])
      have hni := I.need i hui
      have I0 : DInv f order (fun j => j = i) { st with wl := rest } := by
        refine ⟨?_, I.need, fun x hx => I.wl x (by simp [hwl, hx])⟩
        intro x hx k hk
        rcases I.pend x hx k hk with hd | ⟨j, hj, hd⟩ | ⟨_, hd, _⟩
        · exact Or.inl hd
        · rw [hwl] at hj
          rcases List.mem_cons.1 hj with rfl | hj
          · exact Or.inr (Or.inr ⟨j, rfl, hd⟩)
          · exact Or.inr (Or.inl ⟨j, hj, hd⟩)
        · cases hd
      obtain ⟨I1, u1, m1⟩ := touchOperand_ok I0 (f.insn i).rs1 (fun v k hv hk => .data hni ⟨v, Or.inl hv, hk⟩)
      obtain ⟨I2, u2, m2⟩ := touchOperand_ok I1 (f.insn i).rs2 (fun v k hv hk => .data hni ⟨v, Or.inr hv, hk⟩)
      simp only at h
      split at h
      · cases h
      · rename_i st3 h3
        obtain ⟨I3, u3, m3⟩ := touchRdf_ok _ _ st3 I2 (fun r hr k hk hop => .control hni ⟨r, hr, hk, hop⟩) h3
        have I4 : DInv f order (fun _ => False) st3 := by
          refine ⟨?_, I3.need, I3.wl⟩
          intro x hx k hk
          rcases I3.pend x hx k hk with h | h | ⟨j, rfl, h⟩
          · exact Or.inl h
          · exact Or.inr (Or.inl h)
          · left
            rcases h with ⟨v, hv | hv, hk⟩ | ⟨r, hr, hk, hop⟩
            · exact u3 _ (u2 _ (m1 v k hv hk))
            · exact u3 _ (m2 v k hv hk)
            · exact m3 r hr k hk hop
        obtain ⟨I5, u5, h5⟩ := ih st3 st' I4 h
        exact ⟨I5, Up.trans (b := { st with wl := rest }) (fun _ h => h) (u1.trans (u2.trans (u3.trans u5))), h5⟩

theorem dceMark_ok {f : Fn} (hw : DWf f) {order : List Nat} {cap n : Nat} : ∀ (bs : List Nat) (st st' : St),
    (∀ b ∈ bs, b ∈ order) → DInv f order (fun _ => False) st → st.wl = [] → dceMark f cap n bs st = some st' →
    DInv f order (fun _ => False) st' ∧ Up st st' ∧ st'.wl = [] ∧
      ∀ b ∈ bs, ∀ xs i ys, f.blocks b = xs ++ i :: ys → (HasEffect f i → st'.useful i = true) ∧
        ((f.insn i).op = .call ∨ (f.insn i).op = .indirect →
        (∀ n zs, ys = n :: zs → (f.insn n).op = .func_ret → st'.useful n = true) ∧
        ∀ qs rs, xs.reverse = qs ++ rs → (∀ q ∈ qs, (f.insn q).op = .push) → ∀ q ∈ qs, st'.useful q = true) := by
  intro bs
  induction bs with
  | nil =>
    intro st st' _ I hwl h
    cases h
    exact ⟨I, Up.refl _, hwl, fun b hb => (by cases hb)⟩
  | cons b bs ih =>
    intro st st' hb I hwl h
    rw [dceMark] at h
    split at h
    · cases h
    · rename_i st1 h1
      unfold dceInsn at h1
      split at h1
      · cases h1
      · rename_i st0 h0
        have he : ({ st with wl := [] } : St) = st := by rw [← hwl]
        rw [he] at h0
        obtain ⟨I0, u0, m0⟩ := initLoop_ok hw (hb b (by simp)) (f.blocks b) [] st st0 (by simp) I h0
        obtain ⟨I1, u1, w1⟩ := drain_ok n st0 st1 I0 h1
        obtain ⟨I2, u2, w2, m2⟩ := ih st1 st' (fun c hc => hb c (by simp [hc])) I1 w1 h
        refine ⟨I2, u0.trans (u1.trans u2), w2, ?_⟩
        intro c hc xs i ys hxs
        rcases List.mem_cons.1 hc with rfl | hc
        · obtain ⟨g1, g2⟩ := m0 xs i ys hxs
          refine ⟨fun h => u2 _ (u1 _ (g1 h)), fun hop => ⟨fun n zs h hn => u2 _ (u1 _ ((g2 hop).1 n zs h hn)), ?_⟩⟩
          intro qs rs hqs hq q hqm
          exact u2 _ (u1 _ ((g2 hop).2 qs rs (by simpa using hqs) hq q hqm))
        · exact m2 c hc xs i ys hxs

/-- C55. For every function: after marking, an instruction is kept exactly when it is needed: it has an effect of its own,
belongs to the calling sequence of a call, defines an operand of a needed instruction, or is a branch on which a needed
instruction is control dependent. -/
theorem C55_kept_iff_needed (f : Fn) (hw : DWf f) (order : List Nat) (cap n : Nat) (st st' : St)
    (h0 : ∀ i, st.useful i = false) (hwl : st.wl = []) (h : dceMark f cap n order st = some st') (i : Nat) :
    st'.useful i = true ↔ Needed f order i := by
  have I0 : DInv f order (fun _ => False) st :=
    ⟨fun i hi => (by rw [h0 i] at hi; cases hi), fun i hi => (by rw [h0 i] at hi; cases hi), fun i hi => (by rw [hwl] at hi; cases hi)⟩
  obtain ⟨I, _, w, m⟩ := dceMark_ok hw order st st' (fun _ h => h) I0 hwl h
  have hcl : ∀ i, st'.useful i = true → ∀ k, Dep f i k → st'.useful k = true := by
    intro i hi k hk
    rcases I.pend i hi k hk with h | ⟨j, hj, _⟩ | ⟨_, h, _⟩
    · exact h
    · rw [w] at hj; cases hj
    · cases h
  refine ⟨I.need i, ?_⟩
  intro hn
  induction hn with
  | effect hb hi he =>
    obtain ⟨xs, ys, hxs⟩ := List.append_of_mem hi
    exact (m _ hb xs _ ys hxs).1 he
  | @part b i hb hp =>
    rcases hp with ⟨xs, c, ys, hxs, hop, hn⟩ | ⟨xs, ps, c, ys, hxs, hop, hn⟩
    · exact ((m _ hb xs c (i :: ys) hxs).2 hop).1 i ys rfl hn
    · have hxs' : f.blocks b = (xs ++ i :: ps) ++ c :: ys := by rw [hxs]; simp
      refine ((m _ hb _ c ys hxs').2 hop).2 (ps.reverse ++ [i]) xs.reverse (by simp) ?_ i (by simp)
      intro q hq
      apply hn
      simp only [List.mem_append, List.mem_reverse, List.mem_singleton] at hq
      rcases hq with hq | rfl
      · simp [hq]
      · simp
  | data _ d ih => exact hcl _ ih _ (Or.inl d)
  | control _ d ih => exact hcl _ ih _ (Or.inr d)

/-! Termination -/

def dmu (univ : List Nat) (st : St) : Nat := st.wl.length + (univ.filter fun i => !st.useful i).length

theorem filter_mark {univ : List Nat} {u : Nat → Bool} {k : Nat} (hk : k ∈ univ) (hu : u k = false) :
    (univ.filter fun i => !(if i = k then true else u i)).length < (univ.filter fun i => !u i).length := by
  induction univ with
  | nil => cases hk
  | cons x xs ih =>
    have hle : ∀ l : List Nat, (l.filter fun i => !(if i = k then true else u i)).length ≤ (l.filter fun i => !u i).length := by
      intro l
      induction l with
      | nil => simp
      | cons y l ih =>
        simp only [List.filter_cons]
        by_cases hy : y = k
        · subst hy
          simp only [if_true, Bool.not_true, Bool.false_eq_true, if_false]
          split
          · simp only [List.length_cons]; omega
          · exact ih
        · simp only [if_neg hy]
          split
          · simp only [List.length_cons]; omega
          · exact ih
    simp only [List.filter_cons]
    by_cases hx : x = k
    · subst hx
      simp only [if_true, Bool.not_true, Bool.false_eq_true, if_false, hu, Bool.not_false, List.length_cons]
      have := hle xs
      omega
    · have := ih (by
        rcases List.mem_cons.1 hk with h | h
        · exact absurd h.symm hx
        · exact h)
      simp only [if_neg hx]
      split
      · simp only [List.length_cons]; omega
      · exact this

theorem dmu_push {univ : List Nat} {st : St} {k b : Nat} (hk : k ∈ univ) (hu : st.useful k = false) :
    dmu univ (((st.mark k).markBb b).push k) ≤ dmu univ st := by
  have := filter_mark (u := st.useful) hk hu
  simp only [dmu, St.push, St.mark, St.markBb, List.length_cons]
  omega

theorem dmu_touchOperand {f : Fn} {univ : List Nat} (hl : ∀ v k, f.lastAssign v = some k → k ∈ univ) (o : Option Nat) (st : St) :
    dmu univ (touchOperand f o st) ≤ dmu univ st := by
  unfold touchOperand
  split
  · exact Nat.le_refl _
  · split
    · exact Nat.le_refl _
    · rename_i k hk
      unfold touch
      split
      · exact Nat.le_refl _
      · rename_i hu
        exact dmu_push (hl _ _ hk) (by simpa using hu)

theorem dmu_touchRdf {f : Fn} {univ : List Nat} (hl : ∀ r k, (f.blocks r).getLast? = some k → k ∈ univ) : ∀ (rs : List Nat)
    (st : St), (∀ r ∈ rs, f.blocks r ≠ []) → ∃ st', touchRdf f rs st = some st' ∧ dmu univ st' ≤ dmu univ st := by
  intro rs
  induction rs with
  | nil => intro st _; exact ⟨st, rfl, Nat.le_refl _⟩
  | cons r rs ih =>
    intro st hne
    rw [touchRdf]
    cases ht : (f.blocks r).getLast? with
    | none => exact absurd (List.getLast?_eq_none_iff.1 ht) (hne r (by simp))
    | some t =>
      simp only
      have hle : ∀ st1 : St, dmu univ st1 ≤ dmu univ st → ∃ st', touchRdf f rs st1 = some st' ∧ dmu univ st' ≤ dmu univ st := by
        intro st1 h1
        obtain ⟨st', h2, h3⟩ := ih st1 (fun r' hr' => hne r' (by simp [hr']))
        exact ⟨st', h2, Nat.le_trans h3 h1⟩
      apply hle
      split
      · split
        · exact Nat.le_refl _
        · rename_i hu
          exact dmu_push (hl _ _ ht) (by simpa using hu)
      · exact Nat.le_refl _

/-- The marking of a block ends: each entry of the work list is either initial or a newly marked instruction. -/
theorem C55_marking_terminates (f : Fn) (univ : List Nat) (h1 : ∀ v k, f.lastAssign v = some k → k ∈ univ)
    (h2 : ∀ r k, (f.blocks r).getLast? = some k → k ∈ univ) (h3 : ∀ b, ∀ r ∈ f.rdf b, f.blocks r ≠ []) (n : Nat) (st : St)
    (hn : st.wl.length + univ.length < n) : ∃ st', drain f n st = some st' := by
  have hmu : dmu univ st < n := by
    have := List.length_filter_le (fun i => !st.useful i) univ
    unfold dmu
    omega
  clear hn
  induction n generalizing st with
  | zero => omega
  | succ n ih =>
    rw [drain]
    split
    · exact ⟨st, rfl⟩
    · rename_i i rest hwl
      have e0 : dmu univ { st with wl := rest } < dmu univ st := by simp [dmu, hwl]
      have e1 := dmu_touchOperand h1 (f.insn i).rs1 { st with wl := rest }
      have e2 := dmu_touchOperand h1 (f.insn i).rs2 (touchOperand f (f.insn i).rs1 { st with wl := rest })
      obtain ⟨st3, e3, e4⟩ := dmu_touchRdf h2 (f.rdf (f.blk i))
        (touchOperand f (f.insn i).rs2 (touchOperand f (f.insn i).rs1 { st with wl := rest })) (h3 _)
      simp only [e3]
      exact ih st3 (by omega)

/-! Executions -/

theorem lastAssignOf_mem {insn : Nat → Insn} : ∀ (is : List Nat) (v k : Nat), lastAssignOf insn is v = some k →
    k ∈ is ∧ (insn k).rd = some v := by
  intro is
  induction is with
  | nil => intro v k h; cases h
  | cons i is ih =>
    intro v k h
    rw [lastAssignOf] at h
    split at h
    · rename_i k' hk
      cases h
      obtain ⟨h1, h2⟩ := ih v k hk
      exact ⟨by simp [h1], h2⟩
    · split at h
      · rename_i hr; cases h; exact ⟨by simp, hr⟩
      · cases h

theorem lastAssignOf_some {insn : Nat → Insn} : ∀ (is : List Nat) (v j : Nat), j ∈ is → (insn j).rd = some v →
    ∃ k, lastAssignOf insn is v = some k := by
  intro is
  induction is with
  | nil => intro v j h; cases h
  | cons i is ih =>
    intro v j hj hr
    rw [lastAssignOf]
    cases h : lastAssignOf insn is v with
    | some k => exact ⟨k, rfl⟩
    | none =>
      rcases List.mem_cons.1 hj with rfl | hj
      · exact ⟨j, by simp [hr]⟩
      · obtain ⟨k, hk⟩ := ih v j hj hr
        rw [h] at hk
        cases hk

/-- `k` steps along the chain of reverse immediate dominators. -/
def walkBack (rIdom : Nat → Nat) : Nat → Nat → Nat
  | 0, b => b
  | n + 1, b => rIdom (walkBack rIdom n b)

theorem pure_ops (o : Op1) (h1 : o ≠ .branch) (h2 : ¬ (o = .push ∨ o = .func_ret))
    (h3 : ¬ (o = .write ∨ o = .call ∨ o = .indirect ∨ o = .ret ∨ o = .address_of ∨ o = .allocat)) :
    o = .load_constant ∨ o = .load_data_address ∨ o = .assign ∨ o = .unwound_phi ∨ o = .address_of ∨ o = .read ∨
      ∃ p, o = .alu p := by
  cases o <;> simp at h1 h2 h3 ⊢

/-- Removing the instructions that are not needed preserves every execution: along any path `T` of instructions of the
function, if the original runs to `s'`, what is left runs to a state with the same world, in which only variables assigned by
removed instructions differ.  Branches are taken to have no effect but on control, which the path describes; that a path of
the swept control-flow graph is such a path without the removed branches is not part of this theorem. -/
theorem C55_removal_preserves_partial (f : Fn) (order : List Nat)
    (hla : f.lastAssign = lastAssignOf f.insn (order.flatMap f.blocks))
    (hssa : ∀ i ∈ order.flatMap f.blocks, ∀ j ∈ order.flatMap f.blocks, ∀ v, (f.insn i).rd = some v →
      (f.insn j).rd = some v → f.isGlobal v = false → (f.insn i).op ≠ .unwound_phi → i = j)
    (hparts : ∀ b ∈ order, ∀ i ∈ f.blocks b, (f.insn i).op = .push ∨ (f.insn i).op = .func_ret → CallPart f b i)
    (kept : Nat → Bool) (hkept : ∀ i, kept i = true ↔ Needed f order i)
    (M : Mach) (hm : ∀ v, M.mem v = true → f.isGlobal v = true)
    (hbr : ∀ i a b w r, i.op = .branch → M.ext i a b w = some r → i.rd = none ∧ r.1 = w)
    (cv : Nat → CArith.Word) (T : List Nat) (hT : ∀ i ∈ T, i ∈ order.flatMap f.blocks) (s s' : State M)
    (h : run M cv (T.map f.insn) s = some s') :
    ∃ t', run M cv ((T.filter kept).map f.insn) s = some t' ∧ t'.1 = s'.1 ∧
      ∀ v, (∀ i ∈ T, kept i = false → (f.insn i).rd ≠ some v) → t'.2 v = s'.2 v := by
  have hop : ∀ i ∈ T, kept i = true → ∀ v, Operand (f.insn i) v → ∀ j ∈ T, kept j = false → (f.insn j).rd ≠ some v := by
    intro i hi hki v hv j hj hkj hr
    have hnj : ¬ Needed f order j := by
      intro hn
      rw [(hkept j).2 hn] at hkj
      cases hkj
    apply hnj
    obtain ⟨b, hb, hjb⟩ := List.mem_flatMap.1 (hT j hj)
    cases hg : f.isGlobal v with
    | true =>
      refine .effect hb hjb ?_
      unfold HasEffect
      exact Or.inr (Or.inr (Or.inr (Or.inr (Or.inr (Or.inr (Or.inr ⟨v, hr, hg⟩))))))
    | false =>
      by_cases hp : (f.insn j).op = .unwound_phi
      · refine .effect hb hjb ?_
        unfold HasEffect
        simp [hp]
      · obtain ⟨k, hk⟩ := lastAssignOf_some (order.flatMap f.blocks) v j (hT j hj) hr
        obtain ⟨hkm, hkr⟩ := lastAssignOf_mem _ _ _ hk
        have := hssa j (hT j hj) k hkm v hr hkr hg hp
        subst this
        exact .data ((hkept i).1 hki) ⟨v, hv, by rw [hla]; exact hk⟩
  suffices H : ∀ (D : Nat → Prop) (T : List Nat) (s t : State M),
      (∀ i ∈ T, i ∈ order.flatMap f.blocks) →
      (∀ i ∈ T, kept i = true → ∀ v, Operand (f.insn i) v → ¬ D v) →
      (∀ i ∈ T, kept i = false → ∀ v, (f.insn i).rd = some v → D v) → t.1 = s.1 → (∀ v, ¬ D v → t.2 v = s.2 v) →
      run M cv (T.map f.insn) s = some s' →
      ∃ t', run M cv ((T.filter kept).map f.insn) t = some t' ∧ t'.1 = s'.1 ∧ ∀ v, ¬ D v → t'.2 v = s'.2 v by
    obtain ⟨t', e1, e2, e3⟩ := H (fun v => ∃ i ∈ T, kept i = false ∧ (f.insn i).rd = some v) T s s hT
      (fun i hi hk v hv => (by
        rintro ⟨j, hj, hkj, hr⟩
        exact hop i hi hk v hv j hj hkj hr))
      (fun i hi hk v hv => ⟨i, hi, hk, hv⟩) rfl (fun _ _ => rfl) h
    refine ⟨t', e1, e2, fun v hv => e3 v ?_⟩
    rintro ⟨i, hi, hk, hr⟩
    exact hv i hi hk hr
  clear hop h s hT T
  intro D T
  induction T with
  | nil =>
    intro s t _ _ _ h1 h2 h
    cases h
    exact ⟨t, rfl, h1, h2⟩
  | cons i T ih =>
    intro s t hT hop hD h1 h2 h
    simp only [List.map_cons, run, Option.bind_eq_some_iff] at h
    obtain ⟨s1, hs1, h⟩ := h
    cases hk : kept i with
    | true =>
      obtain ⟨t1, g1, g2, g3⟩ := step_rel M cv h1 h2 (hop i (by simp) hk) hs1
      simp only [List.filter_cons, hk, if_true, List.map_cons, run, g1, Option.bind_some]
      exact ih s1 t1 (fun j hj => hT j (by simp [hj])) (fun j hj => hop j (by simp [hj])) (fun j hj => hD j (by simp [hj])) g2 g3 h
    | false =>
      simp only [List.filter_cons, hk, Bool.false_eq_true, if_false]
      have hni : ¬ Needed f order i := by
        intro hn
        rw [(hkept i).2 hn] at hk
        cases hk
      obtain ⟨b, hb, hib⟩ := List.mem_flatMap.1 (hT i (by simp))
      have hne : ¬ HasEffect f i := fun he => hni (.effect hb hib he)
      have hw : s1.1 = s.1 := by
        by_cases hop' : (f.insn i).op = .branch
        · unfold step at hs1
          rw [hop'] at hs1
          simp only [Option.map_eq_some_iff] at hs1
          obtain ⟨r, hr, rfl⟩ := hs1
          obtain ⟨hrd, hw⟩ := hbr _ _ _ _ _ hop' hr
          rw [hrd]
          exact hw
        · have hpart : ¬ ((f.insn i).op = .push ∨ (f.insn i).op = .func_ret) := fun hp =>
            hni (.part hb (hparts b hb i hib hp))
          unfold HasEffect at hne
          have hpu : (f.insn i).op = .load_constant ∨ (f.insn i).op = .load_data_address ∨ (f.insn i).op = .assign ∨
              (f.insn i).op = .unwound_phi ∨ (f.insn i).op = .address_of ∨ (f.insn i).op = .read ∨ ∃ o, (f.insn i).op = .alu o := by
            exact pure_ops (f.insn i).op hop' hpart (fun h => hne (by
              rcases h with h | h | h | h | h | h
              · exact Or.inl h
              · exact Or.inr (Or.inl h)
              · exact Or.inr (Or.inr (Or.inl h))
              · exact Or.inr (Or.inr (Or.inr (Or.inl h)))
              · exact Or.inr (Or.inr (Or.inr (Or.inr (Or.inl h))))
              · exact Or.inr (Or.inr (Or.inr (Or.inr (Or.inr (Or.inl h)))))))
          have hrd : ∃ d, (f.insn i).rd = some d := by
            cases hr : (f.insn i).rd with
            | some d => exact ⟨d, rfl⟩
            | none =>
              exfalso
              unfold step at hs1
              rw [hr] at hs1
              rcases hpu with h | h | h | h | h | h | ⟨o, h⟩ <;> rw [h] at hs1 <;> cases hs1
          obtain ⟨d, hd⟩ := hrd
          refine step_pure M cv (i := f.insn i) ⟨hpu, d, hd, ?_⟩ hs1
          cases hmd : M.mem d with
          | false => rfl
          | true =>
            exfalso
            apply hne
            exact Or.inr (Or.inr (Or.inr (Or.inr (Or.inr (Or.inr (Or.inr ⟨d, hd, hm d hmd⟩))))))
      refine ih s1 t (fun j hj => hT j (by simp [hj])) (fun j hj => hop j (by simp [hj])) (fun j hj => hD j (by simp [hj]))
        (h1.trans hw.symm) ?_ h
      intro v hv
      rw [h2 v hv]
      refine (step_other M cv _ s s1 hs1 v ?_).symm
      intro hr
      exact hv (hD i (by simp) hk v hr)

/-! ## A concrete function

`int f(int a) { int u = a + a; int v = a * a; if (v) g(v); return a; }`: variables a = 0, u = 1, v = 2. Block 0 branches to
1 (the call) or 2 (the return). -/

def dceDemo : Fn where
  insn
    | 0 => { op := .alu .add, rd := some 1, rs1 := some 0, rs2 := some 0 }
    | 1 => { op := .alu .mul, rd := some 2, rs1 := some 0, rs2 := some 0 }
    | 2 => { op := .branch, rs1 := some 2 }
    | 3 => { op := .push, rs1 := some 2 }
    | 4 => { op := .call, str := "g" }
    | 5 => { op := .ret, rs1 := some 0 }
    | _ => { op := .ret }
  blocks
    | 0 => [0, 1, 2]
    | 1 => [3, 4]
    | 2 => [5]
    | _ => []
  blk
    | 0 => 0
    | 1 => 0
    | 2 => 0
    | 3 => 1
    | 4 => 1
    | 5 => 2
    | _ => 3
  rdf
    | 1 => [0]
    | _ => []
  lastAssign := fun v => if v = 1 then some 0 else if v = 2 then some 1 else none
  isGlobal := fun _ => false

def dceInit : St := { useful := fun _ => false, bbUseful := fun _ => false, wl := [] }

/-- The demo meets the hypotheses of `C55_kept_iff_needed`, and exactly the dead addition goes. -/
example : DWf dceDemo ∧
    (dceMark dceDemo 2048 100 [0, 1, 2] dceInit).map (fun st => [0, 1, 2].map (sweep dceDemo st)) =
      some [[1, 2], [3, 4], [5]] := by
  refine ⟨⟨?_, ?_⟩, by decide⟩
  · intro b i hi
    match b, hi with
    | 0, hi =>
      simp only [dceDemo, List.mem_cons, List.not_mem_nil, or_false] at hi
      rcases hi with rfl | rfl | rfl <;> rfl
    | 1, hi =>
      simp only [dceDemo, List.mem_cons, List.not_mem_nil, or_false] at hi
      rcases hi with rfl | rfl <;> rfl
    | 2, hi =>
      simp only [dceDemo, List.mem_cons, List.not_mem_nil, or_false] at hi
      rcases hi with rfl <;> rfl
    | _ + 3, hi => exact absurd hi (by simp [dceDemo])
  · intro i hi
    match i, hi with
    | 0, hi | 1, hi | 2, hi | 3, hi | 4, hi | 5, hi => exact absurd hi (by decide)
    | _ + 6, hi => exact absurd hi (by simp [dceDemo])

/-- The block a removed branch is redirected to is the nearest useful block on the chain of reverse immediate dominators. -/
theorem C55_redirect_nearest_useful (rIdom : Nat → Nat) (u : Nat → Bool) (exit n b j : Nat)
    (h : redirect rIdom u exit n (rIdom b) = some j) :
    ∃ k, j = walkBack rIdom (k + 1) b ∧ u j = true ∧ j ≠ exit ∧
      ∀ m, m < k → walkBack rIdom (m + 1) b ≠ exit ∧ u (walkBack rIdom (m + 1) b) = false := by
  induction n generalizing b with
  | zero => cases h
  | succ n ih =>
    rw [redirect] at h
    split at h
    · cases h
    · rename_i he
      split at h
      · rename_i hu
        injection h with h
        subst h
        exact ⟨0, rfl, hu, he, fun m hm => absurd hm (Nat.not_lt_zero m)⟩
      · rename_i hu
        obtain ⟨k, h1, h2, h3, h4⟩ := ih (rIdom b) h
        have hb : ∀ m, walkBack rIdom (m + 1) (rIdom b) = walkBack rIdom (m + 2) b := by
          intro m
          induction m with
          | zero => rfl
          | succ m ihm => rw [walkBack, ihm]; rfl
        refine ⟨k + 1, by rw [h1, hb], h2, h3, ?_⟩
        intro m hm
        match m with
        | 0 => exact ⟨he, by simpa [walkBack] using hu⟩
        | m + 1 =>
          have := h4 m (by omega)
          rw [hb] at this
          exact this

/-- The edges after removal: a block whose last instruction is a removed branch gets one successor, the nearest useful block on
its chain of reverse immediate dominators, if there is one before the exit (and the search is not cut off); every other block keeps
its successors. -/
theorem C55_edges_after_removal (f : Fn) (st : St) (succ : Nat → List Nat) (rIdom : Nat → Nat) (exit n b : Nat) :
    (∀ t k, (f.blocks b).getLast? = some t → (f.insn t).op = .branch → st.useful t = false → k < n →
      st.bbUseful (walkBack rIdom (k + 1) b) = true → walkBack rIdom (k + 1) b ≠ exit →
      (∀ m, m < k → walkBack rIdom (m + 1) b ≠ exit ∧ st.bbUseful (walkBack rIdom (m + 1) b) = false) →
      sweptSucc f st succ rIdom exit n b = [walkBack rIdom (k + 1) b]) ∧
    ((∀ t, (f.blocks b).getLast? = some t → (f.insn t).op = .branch → st.useful t = true) →
      sweptSucc f st succ rIdom exit n b = succ b) := by
  constructor
  · intro t k ht ho hu hk h1 h2 h3
    have hb : ∀ m b, walkBack rIdom (m + 1) (rIdom b) = walkBack rIdom (m + 2) b := by
      intro m b
      induction m with
      | zero => rfl
      | succ m ihm => rw [walkBack, ihm]; rfl
    have key : redirect rIdom st.bbUseful exit n (rIdom b) = some (walkBack rIdom (k + 1) b) := by
      clear ht
      induction n generalizing b k with
      | zero => omega
      | succ n ih =>
        rw [redirect]
        cases k with
        | zero =>
          rw [if_neg (show rIdom b ≠ exit from h2), if_pos (show st.bbUseful (rIdom b) = true from h1)]; rfl
        | succ k =>
          have h0 := h3 0 (by omega)
          rw [if_neg (show rIdom b ≠ exit from h0.1), if_neg (by rw [show st.bbUseful (rIdom b) = false from h0.2]; simp)]
          rw [ih (rIdom b) k (by omega) (by rw [hb]; exact h1) (by rw [hb]; exact h2) (fun m hm => by rw [hb]; exact h3 (m + 1) (by omega)), hb]
    simp only [sweptSucc, ht, ho, hu, key]
    rfl
  · intro h
    unfold sweptSucc
    split
    · rfl
    · rename_i t ht
      split
      · rename_i hc
        simp only [Bool.and_eq_true, decide_eq_true_eq, Bool.not_eq_true'] at hc
        rw [h t ht hc.1] at hc
        cases hc.2
      · rfl

/-! ## Removed branches

`void f(int a, int b) { while (a) { if (b) break; } }`, blocks numbered in layout order: 0 entry, 1 the loop test, 2 the body,
3 the `if`, 4 its else part, which goes back to 1, 5 the `break`, 6 after the loop, 7 the exit. -/

def dceLoop : Fn where
  insn
    | 0 => { op := .branch, rs1 := some 0 }
    | _ => { op := .branch, rs1 := some 1 }
  blocks
    | 1 => [0]
    | 3 => [1]
    | _ => []
  blk
    | 0 => 1
    | _ => 3
  rdf
    | 1 => [1, 3]
    | 2 => [1]
    | 3 => [1]
    | 4 => [3]
    | 5 => [3]
    | _ => []
  lastAssign := fun _ => none
  isGlobal := fun _ => false

def dceLoopSucc : Nat → List Nat
  | 0 => [1]
  | 1 => [2, 6]
  | 2 => [3]
  | 3 => [5, 4]
  | 4 => [1]
  | 5 => [6]
  | 6 => [7]
  | _ => []

def dceLoopRIdom : Nat → Nat
  | 0 => 1
  | 1 => 6
  | 2 => 3
  | 3 => 6
  | 4 => 1
  | 5 => 6
  | _ => 7

/-- Where control goes after block `b` of the swept function: along its only edge, or, with no edge, into the block that
follows in the output. -/
def afterBlock (succ : Nat → List Nat) (b : Nat) : Nat :=
  match succ b with
  | c :: _ => c
  | [] => b + 1

def walk (next : Nat → Nat) : Nat → Nat → Nat
  | 0, b => b
  | n + 1, b => next (walk next n b)

/-- The edges of a removed branch are not always replaced by one to the block where the two sides meet: when no block between
the branch and the exit is useful, the block is left with none and control falls into whatever block follows. Here the source
can leave the loop (the first line), and whatever the arguments the compiled function never does. -/
theorem C55_removed_branch_can_loop_forever :
    (6 ∈ dceLoopSucc 1 ∧ 7 ∈ dceLoopSucc 6) ∧
    ∃ st, dceMark dceLoop 2048 100 [0, 1, 2, 3, 4, 5, 6, 7] dceInit = some st ∧
      (∀ b, sweep dceLoop st b = []) ∧
      ∀ n, walk (afterBlock (sweptSucc dceLoop st dceLoopSucc dceLoopRIdom 7 8)) n 0 < 5 := by
  refine ⟨by decide, dceInit, rfl, ?_, ?_⟩
  · intro b
    simp [sweep, dceInit]
  · intro n
    induction n with
    | zero => decide
    | succ n ih =>
      rw [walk]
      generalize walk (afterBlock (sweptSucc dceLoop dceInit dceLoopSucc dceLoopRIdom 7 8)) n 0 = b at ih ⊢
      match b, ih with
      | 0, _ | 1, _ | 2, _ | 3, _ | 4, _ => decide
      | _ + 5, ih => omega

end Shecc.Props
