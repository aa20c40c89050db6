import Verif.Lemmas.RenamePhi

/-!
# Lemmas on `unwind_phi`
-/

namespace Shecc.SsaBuild
open Shecc.Cfg CGraph
open CRename

/-- The copy for operand `k` of a phi. -/
def copyOf (p : Phi) (k : Nat) : Ins Name := { op := .unwound_phi, rd := some (p.var, p.sub), rs1 := some (p.var, some k) }

theorem insertCopy_weave (l : List (Ins Name)) (cs : List (Ins Name)) (c : Ins Name) (h : ∀ x ∈ cs, x.op ≠ .branch) :
    insertCopy (weave l cs) c = weave l (cs ++ [c]) := by
  have last : ∀ a : List (Ins Name), cs ≠ [] → ∃ i, (a ++ cs).getLast? = some i ∧ i.op ≠ .branch := by
    intro a hne
    rcases List.eq_nil_or_concat cs with rfl | ⟨ys, y, rfl⟩
    · exact absurd rfl hne
    · exact ⟨y, by rw [List.concat_eq_append, ← List.append_assoc, List.getLast?_concat], h y (by simp)⟩
  unfold weave
  cases hl : l.getLast? with
  | none =>
    simp only
    unfold insertCopy
    by_cases hne : cs = []
    · subst hne; rfl
    · obtain ⟨i, h1, h2⟩ := last [] hne
      rw [List.nil_append] at h1
      rw [h1]
      simp only
      rw [if_neg h2]
  | some i =>
    simp only
    by_cases hi : i.op = .branch
    · rw [if_pos hi, if_pos hi]
      unfold insertCopy
      rw [List.getLast?_concat]
      simp only
      rw [if_pos hi, List.dropLast_concat]
      simp
    · rw [if_neg hi, if_neg hi]
      unfold insertCopy
      by_cases hne : cs = []
      · subst hne
        simp only [List.append_nil, List.nil_append]
        rw [hl]
        simp only
        rw [if_neg hi]
      · obtain ⟨j, h1, h2⟩ := last l hne
        rw [h1]
        simp only
        rw [if_neg h2, List.append_assoc]

/-- The copies a list of blocks sends to block `q`. -/
def copiesTo (q : Nat) (phi : Nat → List Phi) (bs : List Nat) : List (Ins Name) :=
  bs.flatMap fun b => (phi b).flatMap fun p => (p.ops.filter fun o => o.1 == q).map fun o => copyOf p o.2

theorem copyOf_op (p : Phi) (k : Nat) : (copyOf p k).op ≠ .branch := by simp [copyOf]

/-- The blocks carry their own code with some copies. -/
def Woven (ren code : Nat → List (Ins Name)) (cs : Nat → List (Ins Name)) : Prop :=
  ∀ q, code q = weave (ren q) (cs q) ∧ ∀ x ∈ cs q, x.op ≠ .branch

theorem unwindPhi_ok {ren : Nat → List (Ins Name)} (p : Phi) : ∀ (ops : List (Nat × Nat)) (code cs : Nat → List (Ins Name)),
    Woven ren code cs →
    Woven ren (unwindPhi p ops code) (fun q => cs q ++ (ops.filter fun o => o.1 == q).map fun o => copyOf p o.2) := by
  intro ops
  induction ops with
  | nil => intro code cs h; intro q; simpa [unwindPhi] using h q
  | cons o ops ih =>
    obtain ⟨b, k⟩ := o
    intro code cs h
    rw [unwindPhi]
    have h1 : Woven ren (upd code b (insertCopy (code b) (copyOf p k))) (upd cs b (cs b ++ [copyOf p k])) := by
      intro q
      by_cases hq : q = b
      · subst hq
        rw [upd_self, upd_self, (h q).1, insertCopy_weave _ _ _ (h q).2]
        refine ⟨rfl, ?_⟩
        intro x hx
        rw [List.mem_append] at hx
        rcases hx with hx | hx
        · exact (h q).2 x hx
        · simp only [List.mem_singleton] at hx
          rw [hx]; exact copyOf_op p k
      · rw [upd_ne _ _ hq, upd_ne _ _ hq]
        exact h q
    have := ih _ _ h1
    intro q
    have h2 := this q
    by_cases hq : q = b
    · subst hq
      simp only [upd_self] at h2
      simpa [copyOf] using h2
    · simp only [upd_ne _ _ hq] at h2
      have : (b == q) = false := by simpa using fun e => hq e.symm
      simp only [List.filter_cons, this]
      exact h2

theorem unwindPhis_ok {ren : Nat → List (Ins Name)} : ∀ (ps : List Phi) (code cs : Nat → List (Ins Name)), Woven ren code cs →
    Woven ren (unwindPhis ps code)
      (fun q => cs q ++ ps.flatMap fun p => (p.ops.filter fun o => o.1 == q).map fun o => copyOf p o.2) := by
  intro ps
  induction ps with
  | nil => intro code cs h; intro q; simpa [unwindPhis] using h q
  | cons p ps ih =>
    intro code cs h
    rw [unwindPhis]
    have := ih _ _ (unwindPhi_ok p p.ops code cs h)
    intro q
    simpa [List.flatMap_cons, List.append_assoc] using this q

theorem unwind_ok' {ren : Nat → List (Ins Name)} (phi : Nat → List Phi) : ∀ (bs : List Nat) (code cs : Nat → List (Ins Name)),
    Woven ren code cs → Woven ren (unwind phi bs code) (fun q => cs q ++ copiesTo q phi bs) := by
  intro bs
  induction bs with
  | nil => intro code cs h; intro q; simpa [unwind, copiesTo] using h q
  | cons b bs ih =>
    intro code cs h
    rw [unwind]
    have := ih _ _ (unwindPhis_ok (phi b) code cs h)
    intro q
    simpa [copiesTo, List.flatMap_cons, List.append_assoc] using this q

theorem weave_nil (l : List (Ins Name)) : weave l [] = l := by
  rcases weave_cases l [] with ⟨a, i, h1, _, h2⟩ | h
  · rw [h2, h1]; simp
  · rw [h, List.append_nil]

theorem unwind_ok (phi : Nat → List Phi) (bs : List Nat) (code : Nat → List (Ins Name)) (q : Nat) :
    unwind phi bs code q = weave (code q) (copiesTo q phi bs) := by
  have := (unwind_ok' (ren := code) phi bs code (fun _ => []) (fun q => ⟨(weave_nil _).symm, fun _ h => by cases h⟩) q).1
  simpa using this

theorem mem_copiesTo {q : Nat} {phi : Nat → List Phi} {bs : List Nat} {c : Ins Name} :
    c ∈ copiesTo q phi bs ↔ ∃ b ∈ bs, ∃ p ∈ phi b, ∃ k, (q, k) ∈ p.ops ∧ c = copyOf p k := by
  unfold copiesTo
  simp only [List.mem_flatMap, List.mem_map, List.mem_filter, beq_iff_eq]
  constructor
  · rintro ⟨b, hb, p, hp, ⟨q', k⟩, ⟨ho, rfl⟩, rfl⟩
    exact ⟨b, hb, p, hp, k, ho, rfl⟩
  · rintro ⟨b, hb, p, hp, k, ho, rfl⟩
    exact ⟨b, hb, p, hp, (q, k), ⟨ho, rfl⟩, rfl⟩

end Shecc.SsaBuild
