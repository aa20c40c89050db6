import Verif.Lemmas.Graph

/-!
# Lemmas on the immediate-dominator computation

`Anc idom e c`: `e` lies on the chain `c`, `idom c`, `idom (idom c)`, ...
-/

namespace Shecc.Cfg
open CGraph

/-- What the numbering gives. -/
structure Order (succ preds : Nat → List Nat) (entry : Nat) (l : List Nat) (rpo : Nat → Nat) : Prop where
  cons : ∀ a b, b ∈ succ a ↔ a ∈ preds b
  mem : ∀ x, x ∈ l ↔ Reach succ entry x
  nodup : l.Nodup
  inj : ∀ x ∈ l, ∀ y ∈ l, rpo x = rpo y → x = y
  min : ∀ x ∈ l, x ≠ entry → rpo entry < rpo x
  parent : ∀ x ∈ l, x ≠ entry → ∃ p ∈ l, x ∈ succ p ∧ rpo p < rpo x
  bound : ∀ x ∈ l, rpo x ≤ l.length

inductive Anc (idom : Nat → Option Nat) : Nat → Nat → Prop
  | refl (a : Nat) : Anc idom a a
  | step {e p c : Nat} (h : idom c = some p) (a : Anc idom e p) : Anc idom e c

section
variable {succ preds : Nat → List Nat} {entry : Nat} {l : List Nat} {rpo : Nat → Nat}

theorem Order.entry_mem (O : Order succ preds entry l rpo) : entry ∈ l := (O.mem _).2 (Reach.refl _)

theorem Order.succ_mem (O : Order succ preds entry l rpo) {a b : Nat} (ha : a ∈ l) (h : b ∈ succ a) : b ∈ l :=
  (O.mem _).2 (Reach.trans ((O.mem _).1 ha) (Reach.one h))

/-- The invariant of the computation. -/
structure Inv (succ : Nat → List Nat) (entry : Nat) (l : List Nat) (rpo : Nat → Nat) (idom : Nat → Option Nat) : Prop where
  root : idom entry = some entry
  up : ∀ c p, idom c = some p → c ≠ entry → c ∈ l ∧ p ∈ l ∧ rpo p < rpo c ∧ (idom p).isSome
  path : ∀ c e, (idom c).isSome → Anc idom e c → ∃ m, Path succ e m c ∧ ∀ x ∈ m, rpo e ≤ rpo x
  dom : ∀ c d, (idom c).isSome → Dom succ entry d c → Anc idom d c

theorem Anc.at_entry {idom : Nat → Option Nat} (h : idom entry = some entry) {e : Nat} (a : Anc idom e entry) : e = entry := by
  have : ∀ c, Anc idom e c → c = entry → e = entry := by
    intro c a
    induction a with
    | refl => exact fun h => h
    | @step p c h' a ih =>
      intro hc
      subst hc
      rw [h] at h'
      injection h' with h'
      exact ih h'.symm
  exact this _ a rfl

theorem Anc.trans {idom : Nat → Option Nat} {a b c : Nat} (h1 : Anc idom a b) (h2 : Anc idom b c) : Anc idom a c := by
  induction h2 with
  | refl => exact h1
  | step h _ ih => exact .step h ih

theorem Inv.mem (I : Inv succ entry l rpo idom) (O : Order succ preds entry l rpo) {c : Nat} (h : (idom c).isSome) : c ∈ l := by
  by_cases hc : c = entry
  · rw [hc]; exact O.entry_mem
  · obtain ⟨p, hp⟩ := Option.isSome_iff_exists.1 h
    exact (I.up c p hp hc).1

theorem Inv.anc_le (I : Inv succ entry l rpo idom) {e c : Nat} (a : Anc idom e c) : rpo e ≤ rpo c := by
  induction a with
  | refl => exact Nat.le_refl _
  | @step p c h _ ih =>
    by_cases hc : c = entry
    · subst hc
      rw [I.root] at h
      injection h with h
      rw [h]; exact ih
    · have := (I.up c p h hc).2.2.1
      omega

theorem Inv.anc_some (I : Inv succ entry l rpo idom) {e c : Nat} (h : (idom c).isSome) (a : Anc idom e c) :
    (idom e).isSome := by
  induction a with
  | refl => exact h
  | @step p c h' _ ih =>
    apply ih
    by_cases hc : c = entry
    · subst hc
      rw [I.root] at h'
      injection h' with h'
      rw [← h']; exact h
    · exact (I.up c p h' hc).2.2.2

theorem Inv.anc_eq (I : Inv succ entry l rpo idom) {c p : Nat} (h : idom c = some p) (e : Nat) :
    Anc idom e c ↔ e = c ∨ Anc idom e p := by
  constructor
  · intro a
    cases a with
    | refl => exact Or.inl rfl
    | step h' a =>
      rw [h] at h'
      injection h' with h'
      exact Or.inr (h' ▸ a)
  · rintro (rfl | a)
    · exact .refl _
    · exact .step h a

theorem Inv.antisymm (I : Inv succ entry l rpo idom) (O : Order succ preds entry l rpo) {a b : Nat} (ha : (idom a).isSome)
    (hb : (idom b).isSome) (h1 : Anc idom a b) (h2 : Anc idom b a) : a = b := by
  have := I.anc_le h1
  have := I.anc_le h2
  exact O.inj a (I.mem O ha) b (I.mem O hb) (by omega)

/-- `intersect` finds the nearest common ancestor. -/
theorem intersect_ok (I : Inv succ entry l rpo idom) (O : Order succ preds entry l rpo) : ∀ n i j,
    (idom i).isSome → (idom j).isSome → rpo i + rpo j < n →
    ∃ r, intersect rpo idom n i j = some r ∧ (idom r).isSome ∧ ∀ e, Anc idom e r ↔ Anc idom e i ∧ Anc idom e j := by
  intro n
  induction n with
  | zero => intro i j _ _ h; omega
  | succ n ih =>
    intro i j hi hj hn
    rw [intersect]
    have key : ∀ i j, (idom i).isSome → (idom j).isSome → rpo i > rpo j →
        ∃ i', idom i = some i' ∧ (idom i').isSome ∧ rpo i' < rpo i ∧
          ∀ e, (Anc idom e i ∧ Anc idom e j) ↔ (Anc idom e i' ∧ Anc idom e j) := by
      intro i j hi hj hgt
      have hne : i ≠ entry := by
        rintro rfl
        by_cases hje : j = i
        · subst hje; omega
        · have := O.min j (I.mem O hj) hje
          omega
      obtain ⟨i', hi'⟩ := Option.isSome_iff_exists.1 hi
      obtain ⟨_, _, hlt, hs⟩ := I.up i i' hi' hne
      refine ⟨i', hi', hs, hlt, ?_⟩
      intro e
      rw [I.anc_eq hi' e]
      constructor
      · rintro ⟨rfl | h, hj'⟩
        · have := I.anc_le hj'
          omega
        · exact ⟨h, hj'⟩
      · rintro ⟨h, hj'⟩
        exact ⟨Or.inr h, hj'⟩
    by_cases hij : i = j
    · rw [if_pos hij]
      subst hij
      exact ⟨i, rfl, hi, fun e => by simp⟩
    · rw [if_neg hij]
      by_cases h1 : rpo i > rpo j
      · rw [if_pos h1]
        obtain ⟨i', hi', hs, hlt, he⟩ := key i j hi hj h1
        obtain ⟨r, hr, hrs, hre⟩ := ih i' j hs hj (by omega)
        rw [hi']
        exact ⟨r, hr, hrs, fun e => by rw [hre, he]⟩
      · rw [if_neg h1]
        by_cases h2 : rpo j > rpo i
        · rw [if_pos h2]
          obtain ⟨j', hj', hs, hlt, he⟩ := key j i hj hi h2
          obtain ⟨r, hr, hrs, hre⟩ := ih i j' hi hs (by omega)
          rw [hj']
          refine ⟨r, hr, hrs, fun e => ?_⟩
          rw [hre]
          constructor
          · intro h
            have := (he e).2 ⟨h.2, h.1⟩
            exact ⟨this.2, this.1⟩
          · intro h
            have := (he e).1 ⟨h.2, h.1⟩
            exact ⟨this.2, this.1⟩
        · exact absurd (O.inj i (I.mem O hi) j (I.mem O hj) (by omega)) hij

theorem mergePreds_ok (I : Inv succ entry l rpo idom) (O : Order succ preds entry l rpo) {n : Nat}
    (hn : 2 * l.length < n) : ∀ ps pred, (idom pred).isSome →
    ∃ r, mergePreds rpo idom n ps pred = some r ∧ (idom r).isSome ∧
      ∀ e, Anc idom e r ↔ Anc idom e pred ∧ ∀ q ∈ ps, (idom q).isSome → Anc idom e q := by
  intro ps
  induction ps with
  | nil => intro pred h; exact ⟨pred, rfl, h, fun e => by simp⟩
  | cons p ps ih =>
    intro pred h
    rw [mergePreds]
    by_cases hp : p = pred
    · rw [if_pos hp]
      subst hp
      obtain ⟨r, hr, hs, he⟩ := ih p h
      refine ⟨r, hr, hs, fun e => ?_⟩
      rw [he]
      constructor
      · rintro ⟨h1, h2⟩
        refine ⟨h1, fun q hq hqs => ?_⟩
        rcases List.mem_cons.1 hq with rfl | hq
        · exact h1
        · exact h2 q hq hqs
      · rintro ⟨h1, h2⟩
        exact ⟨h1, fun q hq hqs => h2 q (List.mem_cons_of_mem _ hq) hqs⟩
    · rw [if_neg hp]
      cases hip : idom p with
      | none =>
        obtain ⟨r, hr, hs, he⟩ := ih pred h
        refine ⟨r, hr, hs, fun e => ?_⟩
        rw [he]
        constructor
        · rintro ⟨h1, h2⟩
          refine ⟨h1, fun q hq hqs => ?_⟩
          rcases List.mem_cons.1 hq with rfl | hq
          · rw [hip] at hqs; simp at hqs
          · exact h2 q hq hqs
        · rintro ⟨h1, h2⟩
          exact ⟨h1, fun q hq hqs => h2 q (List.mem_cons_of_mem _ hq) hqs⟩
      | some ip =>
        have hps : (idom p).isSome := by rw [hip]; rfl
        have b1 := O.bound p (I.mem O hps)
        have b2 := O.bound pred (I.mem O h)
        obtain ⟨r0, hr0, hs0, he0⟩ := intersect_ok I O n p pred hps h (by omega)
        obtain ⟨r, hr, hs, he⟩ := ih r0 hs0
        refine ⟨r, ?_, hs, fun e => ?_⟩
        · simp only [hr0]; exact hr
        · rw [he, he0]
          constructor
          · rintro ⟨⟨h1, h1'⟩, h2⟩
            refine ⟨h1', fun q hq hqs => ?_⟩
            rcases List.mem_cons.1 hq with rfl | hq
            · exact h1
            · exact h2 q hq hqs
          · rintro ⟨h1, h2⟩
            exact ⟨⟨h2 p (by simp) hps, h1⟩, fun q hq hqs => h2 q (List.mem_cons_of_mem _ hq) hqs⟩

theorem newIdom_ok (I : Inv succ entry l rpo idom) (O : Order succ preds entry l rpo) {n : Nat}
    (hn : 2 * l.length < n) {ps : List Nat} {q : Nat} (hq : q ∈ ps) (hqs : (idom q).isSome) :
    ∃ r, newIdom rpo idom n ps = some r ∧ (idom r).isSome ∧
      ∀ e, Anc idom e r ↔ ∀ q ∈ ps, (idom q).isSome → Anc idom e q := by
  unfold newIdom
  cases hf : ps.find? (fun p => (idom p).isSome) with
  | none =>
    rw [List.find?_eq_none] at hf
    exact absurd hqs (by simpa using hf q hq)
  | some pred =>
    have h1 := List.find?_some hf
    have h2 := List.mem_of_find?_eq_some hf
    obtain ⟨r, hr, hs, he⟩ := mergePreds_ok I O hn ps pred h1
    refine ⟨r, hr, hs, fun e => ?_⟩
    rw [he]
    exact ⟨fun h => h.2, fun h => ⟨h pred h2 h1, h⟩⟩

/-- the update of one block -/
def upd (idom : Nat → Option Nat) (b p : Nat) : Nat → Option Nat := fun x => if x = b then some p else idom x

/-- Facts about the block and the value it gets. -/
structure Step (succ preds : Nat → List Nat) (entry : Nat) (l : List Nat) (rpo : Nat → Nat) (idom : Nat → Option Nat)
    (b p : Nat) : Prop where
  bl : b ∈ l
  be : b ≠ entry
  ps : (idom p).isSome
  anc : ∀ e, Anc idom e p ↔ ∀ q ∈ preds b, (idom q).isSome → Anc idom e q
  par : ∃ q ∈ preds b, (idom q).isSome ∧ rpo q < rpo b

theorem Step.lt (S : Step succ preds entry l rpo idom b p) (I : Inv succ entry l rpo idom) : rpo p < rpo b := by
  obtain ⟨q, hq, hs, hlt⟩ := S.par
  have := I.anc_le ((S.anc p).1 (.refl p) q hq hs)
  omega

theorem anc_upd_low (I : Inv succ entry l rpo idom) {b p e c : Nat} (hc : rpo c < rpo b) (a : Anc idom e c) :
    Anc (upd idom b p) e c := by
  induction a with
  | refl => exact .refl _
  | @step p' c h a ih =>
    have hcb : c ≠ b := by rintro rfl; omega
    have hp : rpo p' < rpo b := by
      have := I.anc_le (.step h (.refl p'))
      omega
    refine .step ?_ (ih hp)
    rw [upd, if_neg hcb]; exact h

theorem anc_of_upd_low (I : Inv succ entry l rpo idom) {b p e c : Nat} (hc : rpo c < rpo b)
    (a : Anc (upd idom b p) e c) : Anc idom e c := by
  induction a with
  | refl => exact .refl _
  | @step p' c h a ih =>
    have hcb : c ≠ b := by rintro rfl; omega
    rw [upd, if_neg hcb] at h
    have hp : rpo p' < rpo b := by
      have := I.anc_le (.step h (.refl p'))
      omega
    exact .step h (ih hp)

theorem anc_upd_b {idom : Nat → Option Nat} {b p c : Nat} (a : Anc idom b c) : Anc (upd idom b p) b c := by
  induction a with
  | refl => exact .refl _
  | @step p' c h a ih =>
    by_cases hcb : c = b
    · subst hcb; exact .refl _
    · refine .step ?_ ih
      rw [upd, if_neg hcb]; exact h

theorem anc_upd_cases (I : Inv succ entry l rpo idom) (S : Step succ preds entry l rpo idom b p) {e c : Nat}
    (a : Anc (upd idom b p) e c) : Anc idom e c ∨ (Anc idom b c ∧ Anc idom e p) := by
  induction a with
  | refl => exact Or.inl (.refl _)
  | @step p' c h a ih =>
    by_cases hcb : c = b
    · subst hcb
      rw [upd, if_pos rfl] at h
      injection h with h
      subst h
      exact Or.inr ⟨.refl _, anc_of_upd_low I (S.lt I) a⟩
    · rw [upd, if_neg hcb] at h
      rcases ih with h' | ⟨h1, h2⟩
      · exact Or.inl (.step h h')
      · exact Or.inr ⟨.step h h1, h2⟩

theorem anc_old_cases {idom : Nat → Option Nat} {b p e c : Nat} (a : Anc idom e c) :
    Anc (upd idom b p) e c ∨ (Anc idom b c ∧ Anc idom e b ∧ e ≠ b) := by
  induction a with
  | refl => exact Or.inl (.refl _)
  | @step p' c h a ih =>
    by_cases hcb : c = b
    · subst hcb
      by_cases he : e = c
      · subst he; exact Or.inl (.refl _)
      · exact Or.inr ⟨.refl _, .step h a, he⟩
    · rcases ih with h' | ⟨h1, h2, h3⟩
      · exact Or.inl (.step (by rw [upd, if_neg hcb]; exact h) h')
      · exact Or.inr ⟨.step h h1, h2, h3⟩

theorem Dom.pred {d b q : Nat} (h : Dom succ entry d b) (hb : b ∈ succ q) (hd : d ≠ b) : Dom succ entry d q := by
  intro m hm
  have := h _ (Path.snoc hm hb)
  rcases List.mem_append.1 this with h | h
  · exact h
  · simp only [List.mem_singleton] at h
    exact absurd h hd

theorem inv_upd (O : Order succ preds entry l rpo) (I : Inv succ entry l rpo idom)
    (S : Step succ preds entry l rpo idom b p) : Inv succ entry l rpo (upd idom b p) := by
  have hlt := S.lt I
  have hpb : p ≠ b := by rintro rfl; omega
  have hpl := I.mem O S.ps
  -- a dominator of `b` other than `b` is on the new chain of `b`
  have key : ∀ d, Dom succ entry d b → d ≠ b → Anc (upd idom b p) d b := by
    intro d hd hdb
    have : Anc idom d p := by
      rw [S.anc]
      intro q hq hqs
      exact I.dom q d hqs (Dom.pred hd ((O.cons q b).2 hq) hdb)
    exact .step (by rw [upd, if_pos rfl]) (anc_upd_low I hlt this)
  refine ⟨?_, ?_, ?_, ?_⟩
  · rw [upd, if_neg (fun h => S.be h.symm)]
    exact I.root
  · intro c p' h hc
    by_cases hcb : c = b
    · subst hcb
      rw [upd, if_pos rfl] at h
      injection h with h
      subst h
      refine ⟨S.bl, hpl, hlt, ?_⟩
      rw [upd, if_neg hpb]; exact S.ps
    · rw [upd, if_neg hcb] at h
      obtain ⟨h1, h2, h3, h4⟩ := I.up c p' h hc
      refine ⟨h1, h2, h3, ?_⟩
      unfold upd
      split
      · rfl
      · exact h4
  · intro c e hc a
    -- path from `b` to `c` if `b` is above `c`
    have hbc : Anc idom b c → ∃ m, Path succ b m c ∧ ∀ x ∈ m, rpo b ≤ rpo x := by
      intro h
      by_cases hcb : c = b
      · subst hcb
        exact ⟨[c], .nil c, by simp⟩
      · rw [upd, if_neg hcb] at hc
        exact I.path c b hc h
    rcases anc_upd_cases I S a with h | ⟨h1, h2⟩
    · by_cases hs : (idom c).isSome
      · exact I.path c e hs h
      · have hec : e = c := by
          cases h with
          | refl => rfl
          | step h' _ => rw [h'] at hs; exact absurd rfl hs
        subst hec
        exact ⟨[e], .nil e, by simp⟩
    · obtain ⟨m2, hm2, hr2⟩ := hbc h1
      obtain ⟨q, hq, hqs, hql⟩ := S.par
      have hq' := (S.anc e).1 h2 q hq hqs
      obtain ⟨m1, hm1, hr1⟩ := I.path q e hqs hq'
      have he := I.anc_le hq'
      have hp1 := Path.snoc hm1 ((O.cons q b).2 hq)
      obtain ⟨k, hk, hmem⟩ := Path.trans hp1 hm2
      refine ⟨k, hk, ?_⟩
      intro x hx
      rcases hmem x hx with h | h
      · rcases List.mem_append.1 h with h | h
        · exact hr1 x h
        · simp only [List.mem_singleton] at h
          subst h
          omega
      · have := hr2 x h
        omega
  · intro c d hc hd
    by_cases hcb : c = b
    · subst hcb
      by_cases hdb : d = c
      · subst hdb; exact .refl _
      · exact key d hd hdb
    · rw [upd, if_neg hcb] at hc
      rcases anc_old_cases (b := b) (p := p) (I.dom c d hc hd) with h | ⟨h1, h2, h3⟩
      · exact h
      · have hdl : rpo d < rpo b := by
          have h4 := I.anc_le h2
          have hbs : (idom b).isSome := I.anc_some hc h1
          rcases Nat.lt_or_eq_of_le h4 with h | h
          · exact h
          · exact absurd (O.inj d (I.mem O (I.anc_some hbs h2)) b S.bl h) h3
        obtain ⟨m, hm, hr⟩ := I.path c b hc h1
        have hdb : Dom succ entry d b := by
          intro k hk
          obtain ⟨k', hk', hmem⟩ := Path.trans hk hm
          rcases hmem d (hd k' hk') with h | h
          · exact h
          · have := hr d h
            omega
        exact Anc.trans (key d hdb h3) (anc_upd_b h1)

theorem inv_init (O : Order succ preds entry l rpo) :
    Inv succ entry l rpo (fun b => if b = entry then some entry else none) := by
  have hs : ∀ c, (if c = entry then some entry else none : Option Nat).isSome → c = entry := by
    intro c h
    by_cases hc : c = entry
    · exact hc
    · rw [if_neg hc] at h; simp at h
  refine ⟨by simp, ?_, ?_, ?_⟩
  · intro c p h hc
    rw [if_neg hc] at h
    cases h
  · intro c e h a
    have hc := hs c h
    subst hc
    have := Anc.at_entry (by simp) a
    subst this
    exact ⟨[e], .nil e, by simp⟩
  · intro c d h hd
    have hc := hs c h
    subst hc
    have := hd _ (.nil c)
    simp only [List.mem_singleton] at this
    subst this
    exact .refl _

/-! ### Termination: paths with a bounded number of retreating edges -/

/-- Paths from the entry, last block first, with at most `k` edges that do not go up in the numbering. -/
inductive RPath (succ : Nat → List Nat) (rpo : Nat → Nat) (entry : Nat) : Nat → List Nat → Nat → Prop
  | nil (k : Nat) : RPath succ rpo entry k [entry] entry
  | fwd {k : Nat} {l : List Nat} {q b : Nat} (p : RPath succ rpo entry k l q) (h : b ∈ succ q) (hr : rpo q < rpo b) :
      RPath succ rpo entry k (b :: l) b
  | back {k : Nat} {l : List Nat} {q b : Nat} (p : RPath succ rpo entry k l q) (h : b ∈ succ q) :
      RPath succ rpo entry (k + 1) (b :: l) b

theorem RPath.mono {k k' m c} (p : RPath succ rpo entry k m c) (h : k ≤ k') : RPath succ rpo entry k' m c := by
  induction p generalizing k' with
  | nil => exact .nil _
  | fwd _ h' hr ih => exact .fwd (ih h) h' hr
  | back _ h' ih =>
    obtain ⟨j, rfl⟩ : ∃ j, k' = j + 1 := ⟨k' - 1, by omega⟩
    exact .back (ih (by omega)) h'

theorem RPath.prefix {k m c} (p : RPath succ rpo entry k m c) {b : Nat} (hb : b ∈ m) :
    ∃ m', RPath succ rpo entry k m' b ∧ ∀ x ∈ m', x ∈ m := by
  induction p with
  | nil k =>
    simp only [List.mem_singleton] at hb
    subst hb
    exact ⟨_, .nil k, fun x h => h⟩
  | fwd p h hr ih =>
    rcases List.mem_cons.1 hb with rfl | hb
    · exact ⟨_, .fwd p h hr, fun x h => h⟩
    · obtain ⟨m', hm, hs⟩ := ih hb
      exact ⟨m', hm, fun x h => List.mem_cons_of_mem _ (hs x h)⟩
  | back p h ih =>
    rcases List.mem_cons.1 hb with rfl | hb
    · exact ⟨_, .back p h, fun x h => h⟩
    · obtain ⟨m', hm, hs⟩ := ih hb
      exact ⟨m', hm.mono (by omega), fun x h => List.mem_cons_of_mem _ (hs x h)⟩

theorem RPath.head_mem {k m c} (p : RPath succ rpo entry k m c) : c ∈ m := by
  cases p <;> simp

theorem RPath.reach {k m c} (p : RPath succ rpo entry k m c) : Reach succ entry c := by
  induction p with
  | nil => exact Reach.refl _
  | fwd _ h _ ih => exact Reach.trans ih (Reach.one h)
  | back _ h ih => exact Reach.trans ih (Reach.one h)

theorem rpath_of_path {a c : Nat} {m : List Nat} (p : Path succ a m c) : ∀ k m0, RPath succ rpo entry k m0 a →
    ∃ m', RPath succ rpo entry (k + m.length) m' c ∧ ∀ x ∈ m', x ∈ m0 ∨ x ∈ m := by
  induction p with
  | nil a =>
    intro k m0 h
    exact ⟨m0, h.mono (by simp), fun x hx => Or.inl hx⟩
  | @cons a c b m h p ih =>
    intro k m0 h0
    obtain ⟨m', hm', hs⟩ := ih (k + 1) (c :: m0) (.back h0 h)
    refine ⟨m', ?_, ?_⟩
    · simp only [List.length_cons]
      exact hm'.mono (by omega)
    · intro x hx
      rcases hs x hx with h | h
      · rcases List.mem_cons.1 h with rfl | h
        · exact Or.inr (List.mem_cons_of_mem _ (Path.first p))
        · exact Or.inl h
      · exact Or.inr (List.mem_cons_of_mem _ h)

/-- Everything on the chain of `c` is on all paths to `c` with at most `k` retreating edges. -/
def Bd (succ : Nat → List Nat) (rpo : Nat → Nat) (entry : Nat) (idom : Nat → Option Nat) (k c : Nat) : Prop :=
  ∀ e, Anc idom e c → ∀ m, RPath succ rpo entry k m c → e ∈ m

theorem Bd.mono {k k' c} (h : Bd succ rpo entry idom k' c) (hk : k ≤ k') : Bd succ rpo entry idom k c :=
  fun e a m p => h e a m (p.mono hk)

theorem nodup_length_le {m l : List Nat} (hn : m.Nodup) (hs : ∀ x ∈ m, x ∈ l) : m.length ≤ l.length := by
  induction m generalizing l with
  | nil => simp
  | cons a m ih =>
    rw [List.nodup_cons] at hn
    obtain ⟨l1, l2, rfl⟩ := List.append_of_mem (hs a (by simp))
    have := ih (l := l1 ++ l2) hn.2 (by
      intro x hx
      have h := hs x (List.mem_cons_of_mem _ hx)
      rcases List.mem_append.1 h with h | h
      · exact List.mem_append.2 (Or.inl h)
      · rcases List.mem_cons.1 h with rfl | h
        · exact absurd hx hn.1
        · exact List.mem_append.2 (Or.inr h))
    simp only [List.length_append, List.length_cons] at *
    omega

theorem path_in_l (O : Order succ preds entry l rpo) {a m c} (p : Path succ a m c) (ha : a ∈ l) : ∀ x ∈ m, x ∈ l := by
  induction p with
  | nil => intro x hx; simp only [List.mem_singleton] at hx; rw [hx]; exact ha
  | cons h p ih =>
    intro x hx
    rcases List.mem_cons.1 hx with rfl | hx
    · exact ha
    · exact ih (O.succ_mem ha h) x hx

/-- With enough retreating edges allowed, the chain consists of dominators. -/
theorem Bd.dom (O : Order succ preds entry l rpo) {k c : Nat} (h : Bd succ rpo entry idom k c) (hk : l.length ≤ k) {e : Nat}
    (a : Anc idom e c) : Dom succ entry e c := by
  intro m hm
  obtain ⟨m1, h1, hn, hs⟩ := Path.simple hm
  have hlen := nodup_length_le hn (path_in_l O h1 O.entry_mem)
  obtain ⟨m2, h2, hs2⟩ := rpath_of_path h1 0 [entry] (.nil 0)
  have := h e a m2 (h2.mono (by omega))
  rcases hs2 e this with h | h
  · simp only [List.mem_singleton] at h
    subst h
    exact Path.first hm
  · exact hs e h

structure PassInv (succ : Nat → List Nat) (entry : Nat) (l : List Nat) (rpo : Nat → Nat)
    (k : Nat) (bs : List Nat) (idom : Nat → Option Nat) : Prop where
  inv : Inv succ entry l rpo idom
  done : ∀ x ∈ l, x ∉ bs → (idom x).isSome ∧ Bd succ rpo entry idom k x
  todo : ∀ x ∈ bs, ∀ j, j + 1 = k → (idom x).isSome ∧ Bd succ rpo entry idom j x

theorem passInv_step (O : Order succ preds entry l rpo) {n k b : Nat} {bs : List Nat} (hn : 2 * l.length < n)
    (hs : (b :: bs).Pairwise (fun a b => rpo a < rpo b)) (hb : b ∈ l) (hbe : b ≠ entry)
    (P : PassInv succ entry l rpo k (b :: bs) idom) :
    ∃ p, newIdom rpo idom n (preds b) = some p ∧ Step succ preds entry l rpo idom b p ∧
      PassInv succ entry l rpo k bs (upd idom b p) := by
  have hlow : ∀ q ∈ l, rpo q < rpo b → q ∉ b :: bs := by
    intro q _ hq hm
    rcases List.mem_cons.1 hm with rfl | hm
    · omega
    · have := (List.pairwise_cons.1 hs).1 q hm
      omega
  obtain ⟨q, hq, hqb, hql⟩ := O.parent b hb hbe
  have hqs := (P.done q hq (hlow q hq hql)).1
  have hqp := (O.cons q b).1 hqb
  obtain ⟨p, hp, hps, ha⟩ := newIdom_ok P.inv O hn hqp hqs
  have S : Step succ preds entry l rpo idom b p := ⟨hb, hbe, hps, ha, q, hqp, hqs, hql⟩
  refine ⟨p, hp, S, inv_upd O P.inv S, ?_, ?_⟩
  all_goals
    -- everything on the chain of `p` is on every path to `b` with at most `k` retreating edges
    have hpb : ∀ e, Anc idom e p → ∀ m, RPath succ rpo entry k m b → e ∈ m := by
      intro e he m hm
      cases hm with
      | nil => exact absurd rfl hbe
      | @fwd _ m q _ h1 h2 h3 =>
        have hql : q ∈ l := (O.mem q).2 h1.reach
        obtain ⟨s, B⟩ := P.done q hql (hlow q hql h3)
        exact List.mem_cons_of_mem _ (B e ((ha e).1 he q ((O.cons q b).1 h2) s) m h1)
      | @back j m q _ h1 h2 =>
        have hql : q ∈ l := (O.mem q).2 h1.reach
        have : (idom q).isSome ∧ Bd succ rpo entry idom j q := by
          by_cases hqm : q ∈ b :: bs
          · exact P.todo q hqm j rfl
          · obtain ⟨s, B⟩ := P.done q hql hqm
            exact ⟨s, B.mono (by omega)⟩
        exact List.mem_cons_of_mem _ (this.2 e ((ha e).1 he q ((O.cons q b).1 h2) this.1) m h1)
    have hother : ∀ j, j ≤ k → ∀ c, Bd succ rpo entry idom j c → Bd succ rpo entry (upd idom b p) j c := by
      intro j hj c B e a m hm
      rcases anc_upd_cases P.inv S a with h | ⟨h1, h2⟩
      · exact B e h m hm
      · obtain ⟨m', hm', hsub⟩ := hm.prefix (B b h1 m hm)
        exact hsub e (hpb e h2 m' (hm'.mono hj))
  · intro x hx hxb
    by_cases hxe : x = b
    · subst hxe
      refine ⟨by rw [upd, if_pos rfl]; rfl, ?_⟩
      intro e a m hm
      cases a with
      | refl => exact hm.head_mem
      | step h a =>
        rw [upd, if_pos rfl] at h
        injection h with h
        subst h
        exact hpb e (anc_of_upd_low P.inv (S.lt P.inv) a) m hm
    · obtain ⟨s, B⟩ := P.done x hx (by
        intro h
        rcases List.mem_cons.1 h with h | h
        · exact hxe h
        · exact hxb h)
      refine ⟨?_, hother k (Nat.le_refl _) x B⟩
      rw [upd, if_neg hxe]; exact s
  · intro x hx j hj
    obtain ⟨s, B⟩ := P.todo x (List.mem_cons_of_mem _ hx) j hj
    refine ⟨?_, hother j (by omega) x B⟩
    unfold upd
    split
    · rfl
    · exact s

theorem upd_same {idom : Nat → Option Nat} {b p : Nat} (h : idom b = some p) : upd idom b p = idom := by
  funext x
  unfold upd
  split
  · rename_i hx; rw [hx, h]
  · rfl

theorem idomPass_ok (O : Order succ preds entry l rpo) {n k : Nat} (hn : 2 * l.length < n) : ∀ bs idom,
    bs.Pairwise (fun a b => rpo a < rpo b) → (∀ b ∈ bs, b ∈ l ∧ b ≠ entry) → PassInv succ entry l rpo k bs idom →
    ∃ idom' ch, idomPass rpo preds n bs idom = some (idom', ch) ∧ PassInv succ entry l rpo k [] idom' ∧
      (ch = false → idom' = idom ∧ ∀ b ∈ bs, newIdom rpo idom n (preds b) = idom b) := by
  intro bs
  induction bs with
  | nil => intro idom _ _ P; exact ⟨idom, false, rfl, P, fun _ => ⟨rfl, by simp⟩⟩
  | cons b bs ih =>
    intro idom hs hm P
    obtain ⟨hb, hbe⟩ := hm b (by simp)
    obtain ⟨p, hp, S, P'⟩ := passInv_step O hn hs hb hbe P
    obtain ⟨idom', ch, h1, h2, h3⟩ := ih (upd idom b p) (List.pairwise_cons.1 hs).2
      (fun x hx => hm x (List.mem_cons_of_mem _ hx)) P'
    rw [idomPass, hp]
    by_cases hi : idom b = some p
    · have hu := upd_same hi
      rw [hu] at h1 h3
      refine ⟨idom', ch, ?_, h2, ?_⟩
      · simp only [hi, if_true]; exact h1
      · intro hch
        obtain ⟨h4, h5⟩ := h3 hch
        refine ⟨h4, ?_⟩
        intro x hx
        rcases List.mem_cons.1 hx with rfl | hx
        · rw [hp, hi]
        · exact h5 x hx
    · refine ⟨idom', true, ?_, h2, by simp⟩
      simp only [if_neg hi]
      have : (fun x => if x = b then some p else idom x) = upd idom b p := rfl
      rw [this, h1]

/-- A pass over the final values changes nothing. -/
theorem idomPass_stable {n : Nat} : ∀ bs idom, (∀ b ∈ bs, newIdom rpo idom n (preds b) = idom b ∧ (idom b).isSome) →
    idomPass rpo preds n bs idom = some (idom, false) := by
  intro bs
  induction bs with
  | nil => intro idom _; rfl
  | cons b bs ih =>
    intro idom h
    obtain ⟨h1, h2⟩ := h b (by simp)
    obtain ⟨p, hp⟩ := Option.isSome_iff_exists.1 h2
    rw [idomPass, h1, hp]
    simp only [hp, if_true]
    exact ih idom (fun x hx => h x (List.mem_cons_of_mem _ hx))

/-- When nothing changes, chains are exactly the dominators. -/
theorem fixpoint_dom (O : Order succ preds entry l rpo) {n : Nat} (hn : 2 * l.length < n) (I : Inv succ entry l rpo idom)
    (hall : ∀ x ∈ l, (idom x).isSome) (hfix : ∀ b ∈ l, b ≠ entry → newIdom rpo idom n (preds b) = idom b) :
    ∀ c ∈ l, ∀ e, Anc idom e c ↔ Dom succ entry e c := by
  have hpre : ∀ k m c, RPath succ rpo entry k m c → ∀ e, Anc idom e c → e ∈ m := by
    intro k m c p
    induction p with
    | nil k =>
      intro e a
      rw [Anc.at_entry I.root a]; simp
    | @fwd k m q b p h hr ih =>
      intro e a
      by_cases hbe : b = entry
      · subst hbe
        rw [Anc.at_entry I.root a]; simp
      · have hql : q ∈ l := (O.mem q).2 p.reach
        have hbl := O.succ_mem hql h
        obtain ⟨r, hr1, hr2, hr3⟩ := newIdom_ok I O hn ((O.cons q b).1 h) (hall q hql)
        rw [hfix b hbl hbe] at hr1
        rcases (I.anc_eq hr1 e).1 a with rfl | a
        · simp
        · exact List.mem_cons_of_mem _ (ih e ((hr3 e).1 a q ((O.cons q b).1 h) (hall q hql)))
    | @back k m q b p h ih =>
      intro e a
      by_cases hbe : b = entry
      · subst hbe
        rw [Anc.at_entry I.root a]; simp
      · have hql : q ∈ l := (O.mem q).2 p.reach
        have hbl := O.succ_mem hql h
        obtain ⟨r, hr1, hr2, hr3⟩ := newIdom_ok I O hn ((O.cons q b).1 h) (hall q hql)
        rw [hfix b hbl hbe] at hr1
        rcases (I.anc_eq hr1 e).1 a with rfl | a
        · simp
        · exact List.mem_cons_of_mem _ (ih e ((hr3 e).1 a q ((O.cons q b).1 h) (hall q hql)))
  intro c hc e
  constructor
  · intro a
    exact Bd.dom O (k := l.length) (fun e a m p => hpre _ m c p e a) (Nat.le_refl _) a
  · exact I.dom c e (hall c hc)

/-- Chains that are exactly the dominators are stable. -/
theorem dom_fixpoint (O : Order succ preds entry l rpo) {n : Nat} (hn : 2 * l.length < n) (I : Inv succ entry l rpo idom)
    (hall : ∀ x ∈ l, (idom x).isSome) (hd : ∀ c ∈ l, ∀ e, Anc idom e c → Dom succ entry e c) :
    ∀ b ∈ l, b ≠ entry → newIdom rpo idom n (preds b) = idom b := by
  intro b hb hbe
  obtain ⟨q, hq, hqb, hql⟩ := O.parent b hb hbe
  have hqp := (O.cons q b).1 hqb
  obtain ⟨p, hp, hps, ha⟩ := newIdom_ok I O hn hqp (hall q hq)
  have S : Step succ preds entry l rpo idom b p := ⟨hb, hbe, hps, ha, q, hqp, hall q hq, hql⟩
  have hlt := S.lt I
  obtain ⟨o, ho⟩ := Option.isSome_iff_exists.1 (hall b hb)
  obtain ⟨_, hol, hor, hos⟩ := I.up b o ho hbe
  rw [hp, ho]
  congr 1
  have hob : o ≠ b := by rintro rfl; omega
  have h1 : Anc idom o p := by
    rw [ha]
    intro q hq hqs
    exact I.dom q o hqs (Dom.pred (hd b hb o (.step ho (.refl o))) ((O.cons q b).2 hq) hob)
  have h2 : Anc idom p o := by
    have hpd : Dom succ entry p b := by
      intro m hm
      -- the last block before `b`
      obtain ⟨m1, hm1, hs1⟩ := rpath_of_path (rpo := rpo) (entry := entry) hm 0 [entry] (.nil 0)
      have : p ∈ m1 := by
        generalize 0 + m.length = kk at hm1
        cases hm1 with
        | nil => exact absurd rfl hbe
        | @fwd _ m q _ g1 g2 g3 =>
          have hql : q ∈ l := (O.mem q).2 g1.reach
          have := hd q hql p ((ha p).1 (.refl p) q ((O.cons q b).1 g2) (hall q hql))
          exact List.mem_cons_of_mem _ (dom_rpath this g1)
        | @back _ m q _ g1 g2 =>
          have hql : q ∈ l := (O.mem q).2 g1.reach
          have := hd q hql p ((ha p).1 (.refl p) q ((O.cons q b).1 g2) (hall q hql))
          exact List.mem_cons_of_mem _ (dom_rpath this g1)
      rcases hs1 p this with h | h
      · simp only [List.mem_singleton] at h
        rw [h]; exact Path.first hm
      · exact h
    have := I.dom b p (hall b hb) hpd
    rcases (I.anc_eq ho p).1 this with h | h
    · rw [h] at hlt
      omega
    · exact h
  exact I.antisymm O hps hos h2 h1
where
  dom_rpath {succ : Nat → List Nat} {rpo : Nat → Nat} {entry k q p : Nat} {m : List Nat} (h : Dom succ entry p q)
      (r : RPath succ rpo entry k m q) : p ∈ m := by
    have : ∃ m', Path succ entry m' q ∧ ∀ x ∈ m', x ∈ m := by
      clear h
      induction r with
      | nil => exact ⟨_, .nil _, fun x h => h⟩
      | fwd r h _ ih =>
        obtain ⟨m', h1, h2⟩ := ih
        refine ⟨_, Path.snoc h1 h, ?_⟩
        intro x hx
        rcases List.mem_append.1 hx with h | h
        · exact List.mem_cons_of_mem _ (h2 x h)
        · simp only [List.mem_singleton] at h
          simp [h]
      | back r h ih =>
        obtain ⟨m', h1, h2⟩ := ih
        refine ⟨_, Path.snoc h1 h, ?_⟩
        intro x hx
        rcases List.mem_append.1 hx with h | h
        · exact List.mem_cons_of_mem _ (h2 x h)
        · simp only [List.mem_singleton] at h
          simp [h]
    obtain ⟨m', h1, h2⟩ := this
    exact h2 p (h m' h1)

theorem idomLoop_ok (O : Order succ preds entry l rpo) {n : Nat} (hn : 2 * l.length < n) {order : List Nat}
    (hl : l = entry :: order) (hs : order.Pairwise (fun a b => rpo a < rpo b)) :
    ∀ f k idom, l.length + 2 ≤ f + k → k ≤ l.length + 1 → PassInv succ entry l rpo k order idom →
    ∃ idom', idomLoop rpo preds n order f idom = some idom' ∧ Inv succ entry l rpo idom' ∧
      (∀ x ∈ l, (idom' x).isSome) ∧ ∀ c ∈ l, ∀ e, Anc idom' e c ↔ Dom succ entry e c := by
  have hnd := O.nodup
  rw [hl, List.nodup_cons] at hnd
  have hord : ∀ b ∈ order, b ∈ l ∧ b ≠ entry := by
    intro b hb
    refine ⟨by rw [hl]; exact List.mem_cons_of_mem _ hb, ?_⟩
    rintro rfl
    exact hnd.1 hb
  have hmem : ∀ b ∈ l, b ≠ entry → b ∈ order := by
    intro b hb hbe
    rw [hl] at hb
    rcases List.mem_cons.1 hb with h | h
    · exact absurd h hbe
    · exact h
  intro f
  induction f with
  | zero => intro k idom h1 h2; omega
  | succ f ih =>
    intro k idom h1 h2 P
    obtain ⟨idom', ch, g1, g2, g3⟩ := idomPass_ok O hn order idom hs hord P
    have hall' : ∀ x ∈ l, (idom' x).isSome := fun x hx => (g2.done x hx (by simp)).1
    rw [idomLoop, g1]
    cases ch with
    | false =>
      obtain ⟨rfl, g4⟩ := g3 rfl
      exact ⟨idom', rfl, g2.inv, hall',
        fixpoint_dom O hn g2.inv hall' (fun b hb hbe => g4 b (hmem b hb hbe))⟩
    | true =>
      simp only
      by_cases hk : k = l.length + 1
      · exfalso
        -- the values before this pass were already exact
        have hall : ∀ x ∈ l, (idom x).isSome ∧ Bd succ rpo entry idom l.length x := by
          intro x hx
          by_cases hxo : x ∈ order
          · exact P.todo x hxo l.length hk.symm
          · obtain ⟨s, B⟩ := P.done x hx hxo
            exact ⟨s, B.mono (by omega)⟩
        have hfix := dom_fixpoint O hn P.inv (fun x hx => (hall x hx).1)
          (fun c hc e a => Bd.dom O (hall c hc).2 (Nat.le_refl _) a)
        have := idomPass_stable (rpo := rpo) (preds := preds) (n := n) order idom
          (fun b hb => ⟨hfix b (hord b hb).1 (hord b hb).2, (hall b (hord b hb).1).1⟩)
        rw [this] at g1
        simp at g1
      · refine ih (k + 1) idom' (by omega) (by omega) ⟨g2.inv, ?_, ?_⟩
        · intro x hx hxo
          have hxe : x = entry := by
            by_cases h : x = entry
            · exact h
            · exact absurd (hmem x hx h) hxo
          subst hxe
          refine ⟨hall' x hx, ?_⟩
          intro e a m hm
          rw [Anc.at_entry g2.inv.root a]
          exact hm.head_mem
        · intro x hx j hj
          obtain ⟨s, B⟩ := g2.done x (hord x hx).1 (by simp)
          exact ⟨s, B.mono (by omega)⟩

theorem buildIdom_ok (O : Order succ preds entry l rpo) {n f : Nat} (hn : 2 * l.length < n) (hf : l.length + 2 ≤ f)
    {order : List Nat} (hl : l = entry :: order) (hs : order.Pairwise (fun a b => rpo a < rpo b)) :
    ∃ idom, buildIdom rpo preds entry order n f = some idom ∧ Inv succ entry l rpo idom ∧
      (∀ x ∈ l, (idom x).isSome) ∧ ∀ c ∈ l, ∀ e, Anc idom e c ↔ Dom succ entry e c := by
  unfold buildIdom
  refine idomLoop_ok O hn hl hs f 0 _ (by omega) (by omega) ⟨inv_init O, ?_, ?_⟩
  · intro x hx hxo
    have hxe : x = entry := by
      rw [hl] at hx
      rcases List.mem_cons.1 hx with h | h
      · exact h
      · exact absurd h hxo
    subst hxe
    refine ⟨by simp, ?_⟩
    intro e a m hm
    rw [Anc.at_entry (by simp) a]
    exact hm.head_mem
  · intro x hx j hj
    omega

end

/-- `build_rpo`'s results satisfy `Order`. -/
theorem order_of_buildRpo {succ preds : Nat → List Nat} {entry n : Nat} {rpo : Nat → Nat} {l : List Nat}
    (hc : ∀ a b, b ∈ succ a ↔ a ∈ preds b) (h : buildRpo succ entry n = some (rpo, l)) :
    Order succ preds entry l rpo ∧ ∃ order, l = entry :: order ∧ l.Pairwise (fun a b => rpo a < rpo b) := by
  obtain ⟨vis, post, hd, rfl, rfl, D⟩ := buildRpo_eq h
  obtain ⟨p, hp⟩ := D.last
  have hpair : post.reverse.Pairwise (fun a b => rpoNumber post a < rpoNumber post b) := by
    rw [List.pairwise_reverse]
    exact rpoNumber_pairwise post D.nodup
  have hl : post.reverse = entry :: p.reverse := by rw [hp]; simp
  have hmem : ∀ x, x ∈ post ↔ Reach succ entry x := by
    intro x
    constructor
    · exact D.reach x
    · rintro ⟨m, hm⟩
      have hcl : ∀ a ∈ post, ∀ b ∈ succ a, b ∈ post := by
        intro a ha b hb
        rcases (D.mem b).1 (D.closed a ha b hb) with h | h
        · simp at h
        · exact h
      have hen : entry ∈ post := by rw [hp]; simp
      clear hd h hpair hl hp D
      induction hm with
      | nil => exact hen
      | cons h _ ih => exact ih (hcl _ hen _ h)
  refine ⟨⟨hc, ?_, ?_, ?_, ?_, ?_, ?_⟩, p.reverse, hl, hpair⟩
  · intro x; rw [List.mem_reverse]; exact hmem x
  · exact (List.pairwise_reverse.2 (D.nodup.imp fun h => Ne.symm h))
  · intro x hx y hy hxy
    rw [List.mem_reverse] at hx hy
    unfold rpoNumber at hxy
    have h1 := List.idxOf_lt_length_of_mem hx
    have h2 := List.idxOf_lt_length_of_mem hy
    have h3 : post.idxOf x = post.idxOf y := by omega
    rw [← List.getElem_idxOf h1, ← List.getElem_idxOf h2]
    simp only [h3]
  · intro x hx hxe
    rw [hl] at hpair hx
    rcases List.mem_cons.1 hx with h | h
    · exact absurd h hxe
    · exact (List.pairwise_cons.1 hpair).1 x h
  · intro x hx hxe
    rw [List.mem_reverse] at hx
    obtain ⟨q, hq, hb⟩ := D.parent x hx hxe
    refine ⟨q, by rw [List.mem_reverse]; exact (Before.mem hb).2, hq, ?_⟩
    have := rpoNumber_pairwise post D.nodup
    obtain ⟨a, b, hab, hqb⟩ := hb
    rw [hab] at this ⊢
    rw [List.pairwise_append] at this
    exact (List.pairwise_cons.1 this.2.1).1 q hqb
  · intro x _
    unfold rpoNumber
    rw [List.length_reverse]
    omega

end Shecc.Cfg
