import Verif.Lemmas.Optimize
import Verif.Props.ConstFold
import Verif.Spec.CCse

/-!
# What `optimize` does to the instructions of a function, before dead code elimination
-/

namespace Shecc.Optimize
open Shecc.Ssa Shecc.Cse Shecc.ConstFold Shecc.Props SsaSem CCse

/-! ### Repetitions in a list -/

theorem HasHit.left {base idx : Nat} {l m : List Insn} (h : HasHit base idx l) : HasHit base idx (l ++ m) := by
  obtain ⟨pre, i, n, post, rfl, hh⟩ := h
  exact ⟨pre, i, n, post ++ m, by simp, hh⟩

theorem HasHit.right {base idx : Nat} {l m : List Insn} (h : HasHit base idx m) : HasHit base idx (l ++ m) := by
  obtain ⟨pre, i, n, post, rfl, hh⟩ := h
  exact ⟨l ++ pre, i, n, post, by simp, hh⟩

/-- An instruction that is neither an addition nor a read separates. -/
theorem HasHit.split {base idx : Nat} {a : Insn} (ha : a.op ≠ .alu .add) (hr : a.op ≠ .read) : ∀ {l r : List Insn},
    HasHit base idx (l ++ a :: r) → HasHit base idx l ∨ HasHit base idx r := by
  intro l
  induction l with
  | nil =>
    rintro r ⟨pre, i, n, post, he, hh⟩
    obtain ⟨h1, h2⟩ := hit_ops hh
    cases pre with
    | nil =>
      simp only [List.nil_append, List.cons.injEq] at he
      rw [← he.1] at h1
      exact absurd h1 ha
    | cons x pre =>
      simp only [List.nil_append, List.cons_append, List.cons.injEq] at he
      exact Or.inr ⟨pre, i, n, post, he.2, hh⟩
  | cons y l ih =>
    rintro r ⟨pre, i, n, post, he, hh⟩
    obtain ⟨h1, h2⟩ := hit_ops hh
    cases pre with
    | nil =>
      simp only [List.nil_append, List.cons_append, List.cons.injEq] at he
      obtain ⟨rfl, he⟩ := he
      cases l with
      | nil =>
        simp only [List.nil_append, List.cons.injEq] at he
        rw [← he.1] at h2
        exact absurd h2 hr
      | cons z l =>
        simp only [List.cons_append, List.cons.injEq] at he
        obtain ⟨rfl, he⟩ := he
        exact Or.inl ⟨[], y, z, l, rfl, hh⟩
    | cons x pre =>
      simp only [List.cons_append, List.cons.injEq] at he
      rcases ih ⟨pre, i, n, post, he.2, hh⟩ with ⟨p, i, n, q, h, hh⟩ | h
      · exact Or.inl ⟨y :: p, i, n, q, by rw [h]; rfl, hh⟩
      · exact Or.inr h

/-- The assignment that replaces a read. -/
def asg (n : Insn) (d : Nat) : Insn := { n with op := .assign, rs1 := some d }

theorem rewrite_pair {base idx d : Nat} {i n : Insn} {rest : List Insn} (h : hit base idx i n = true) :
    rewrite base idx d (i :: n :: rest) = asg n d :: rewrite base idx d rest := by
  unfold rewrite
  rw [items, if_pos h, List.flatMap_cons]
  rfl

theorem rewrite_keep {base idx d : Nat} {i n : Insn} {rest : List Insn} (h : ¬ hit base idx i n = true) :
    rewrite base idx d (i :: n :: rest) = i :: rewrite base idx d (n :: rest) := by
  unfold rewrite
  rw [items, if_neg h, List.flatMap_cons]
  rfl

theorem rewrite_length {base idx d : Nat} (m : List Insn) : (rewrite base idx d m).length ≤ m.length := by
  fun_induction items base idx m with
  | case1 i n rest h ih => rw [rewrite_pair h]; simp; omega
  | case2 i n rest h ih => rw [rewrite_keep h]; simp at ih ⊢; omega
  | case3 i => exact Nat.le_refl _
  | case4 => exact Nat.le_refl _

/-- Replacing makes no new repetition. -/
theorem HasHit.unrewrite {base idx d bs ix : Nat} (m : List Insn) : ∀ (l : List Insn), HasHit bs ix (l ++ rewrite base idx d m) → HasHit bs ix (l ++ m) := by
  fun_induction items base idx m with
  | case1 i n rest h ih =>
    intro l hh
    rw [rewrite_pair h] at hh
    rcases hh.split (a := asg n d) (by simp [asg]) (by simp [asg]) with h1 | h1
    · exact h1.left
    · have := ih [] (by simpa using h1)
      have : HasHit bs ix ((l ++ [i, n]) ++ rest) := HasHit.right (by simpa using this)
      simpa using this
  | case2 i n rest h ih =>
    intro l hh
    rw [rewrite_keep h] at hh
    have := ih (l ++ [i]) (by simpa using hh)
    simpa using this
  | case3 i => intro l hh; exact hh
  | case4 => intro l hh; exact hh

theorem rewrite_head {base idx d : Nat} (n : Insn) (rest : List Insn) :
    ∃ h t, rewrite base idx d (n :: rest) = h :: t ∧ (h = n ∨ h.op = .assign) := by
  cases rest with
  | nil => exact ⟨n, [], rfl, Or.inl rfl⟩
  | cons k rest =>
    by_cases h : hit base idx n k = true
    · exact ⟨_, _, rewrite_pair h, Or.inr rfl⟩
    · exact ⟨_, _, rewrite_keep h, Or.inl rfl⟩

/-- No repetition is left. -/
theorem rewrite_clean {base idx d : Nat} (m : List Insn) : ¬ HasHit base idx (rewrite base idx d m) := by
  fun_induction items base idx m with
  | case1 i n rest h ih =>
    intro hh
    rw [rewrite_pair h] at hh
    rcases HasHit.split (l := []) (a := asg n d) (by simp [asg]) (by simp [asg]) hh with ⟨p, _, _, q, he, _⟩ | h1
    · simp at he
    · exact ih h1
  | case2 i n rest h ih =>
    rintro ⟨pre, a, b, post, he, hh⟩
    rw [rewrite_keep h] at he
    cases pre with
    | nil =>
      obtain ⟨x, t, hx, hxn⟩ := rewrite_head (base := base) (idx := idx) (d := d) n rest
      rw [hx] at he
      simp only [List.nil_append, List.cons.injEq] at he
      obtain ⟨rfl, rfl, rfl⟩ := he
      rcases hxn with rfl | hxn
      · exact h hh
      · rw [(hit_ops hh).2] at hxn; cases hxn
    | cons y pre =>
      simp only [List.cons_append, List.cons.injEq] at he
      exact ih ⟨pre, a, b, post, he.2, hh⟩
  | case3 i =>
    rintro ⟨pre, a, b, post, he, hh⟩
    have : (rewrite base idx d [i]).length = 1 := rfl
    rw [he] at this
    simp at this
    omega
  | case4 =>
    rintro ⟨pre, a, b, post, he, hh⟩
    have : (rewrite base idx d []).length = 0 := rfl
    rw [he] at this
    simp at this

/-! ### The instructions before and after -/

/-- An instruction and what became of it, or an addition and the read after it, which became an assignment from `d`. -/
inductive Al
  | one (i i' : Insn)
  | two (i n : Insn) (d : Nat)

def Al.bef : Al → List Insn
  | .one i _ => [i]
  | .two i n _ => [i, n]

def Al.aft : Al → Insn
  | .one _ i' => i'
  | .two _ n d => asg n d

abbrev bef (A : List Al) : List Insn := A.flatMap Al.bef

/-- Instructions are kept or become constant loads. -/
def Ones (A : List Al) : Prop := ∀ i i', Al.one i i' ∈ A → i' = i ∨ i'.op = .load_constant

def Raw (A : List Al) : Prop := ∀ i i', Al.one i i' ∈ A → i' = i

def Proc (PZ : List (Insn × Insn)) (A : List Al) : Prop := ∀ i i', Al.one i i' ∈ A → (i, i') ∈ PZ

theorem Al.of_aft {a : Al} {A : List Al} (h : Ones A) (ha : a ∈ A) (h1 : a.aft.op ≠ .load_constant) (h2 : a.aft.op ≠ .assign) :
    a = .one a.aft a.aft := by
  cases a with
  | one i i' =>
    rcases h i i' ha with rfl | h
    · rfl
    · exact absurd h h1
  | two i n d => exact absurd rfl h2

/-- What replacing does, in these terms. -/
theorem rewrite_al {base idx d : Nat} (l : List Insn) : ∀ (A : List Al), Ones A → A.map Al.aft = l →
    ∃ A', bef A' = bef A ∧ A'.map Al.aft = rewrite base idx d l ∧ (∀ i i', Al.one i i' ∈ A' → Al.one i i' ∈ A) ∧
      ∀ X i n e Y, A' = X ++ .two i n e :: Y → (∃ X' Y', A = X' ++ .two i n e :: Y' ∧ bef X' = bef X) ∨ (e = d ∧ hit base idx i n = true) := by
  fun_induction items base idx l with
  | case1 i n rest h ih =>
    intro A hO hA
    match A, hA with
    | a :: b :: A, hA =>
      simp only [List.map_cons, List.cons.injEq] at hA
      obtain ⟨ha, hb, hA⟩ := hA
      obtain ⟨o1, o2⟩ := hit_ops h
      have ea := Al.of_aft hO (a := a) (by simp) (by rw [ha, o1]; simp) (by rw [ha, o1]; simp)
      have eb := Al.of_aft hO (a := b) (by simp) (by rw [hb, o2]; simp) (by rw [hb, o2]; simp)
      rw [ha] at ea
      rw [hb] at eb
      subst ea eb
      obtain ⟨A', h1, h2, h3, h4⟩ := ih A (fun i i' hm => hO i i' (by simp [hm])) hA
      refine ⟨.two i n d :: A', by simp [bef, Al.bef] at h1 ⊢; exact h1, ?_, ?_, ?_⟩
      · rw [rewrite_pair h, List.map_cons, h2]; rfl
      · intro j j' hm
        simp only [List.mem_cons, reduceCtorEq, false_or] at hm
        have := h3 j j' hm
        simp [this]
      · intro X j k e Y he
        cases X with
        | nil =>
          simp only [List.nil_append, List.cons.injEq, Al.two.injEq] at he
          obtain ⟨⟨rfl, rfl, rfl⟩, _⟩ := he
          exact Or.inr ⟨rfl, h⟩
        | cons x X =>
          simp only [List.cons_append, List.cons.injEq] at he
          obtain ⟨rfl, he⟩ := he
          rcases h4 X j k e Y he with ⟨X', Y', e1, e2⟩ | h5
          · refine Or.inl ⟨.one i i :: .one n n :: X', Y', by rw [e1]; rfl, ?_⟩
            simp [bef, Al.bef] at e2 ⊢
            exact e2
          · exact Or.inr h5
  | case2 i n rest h ih =>
    intro A hO hA
    match A, hA with
    | a :: A, hA =>
      simp only [List.map_cons, List.cons.injEq] at hA
      obtain ⟨ha, hA⟩ := hA
      obtain ⟨A', h1, h2, h3, h4⟩ := ih A (fun i i' hm => hO i i' (by simp [hm])) hA
      refine ⟨a :: A', by simp [bef] at h1 ⊢; exact h1, ?_, ?_, ?_⟩
      · rw [rewrite_keep h, List.map_cons, h2, ha]
      · intro j j' hm
        rcases List.mem_cons.1 hm with hm | hm
        · simp [hm]
        · simp [h3 j j' hm]
      · intro X j k e Y he
        cases X with
        | nil =>
          simp only [List.nil_append, List.cons.injEq] at he
          exact Or.inl ⟨[], A, by rw [he.1]; rfl, rfl⟩
        | cons x X =>
          simp only [List.cons_append, List.cons.injEq] at he
          obtain ⟨rfl, he⟩ := he
          rcases h4 X j k e Y he with ⟨X', Y', e1, e2⟩ | h5
          · refine Or.inl ⟨a :: X', Y', by rw [e1]; rfl, ?_⟩
            simp [bef] at e2 ⊢
            exact e2
          · exact Or.inr h5
  | case3 i =>
    intro A hO hA
    exact ⟨A, rfl, hA, fun _ _ h => h, fun X j k e Y he => Or.inl ⟨X, Y, he, rfl⟩⟩
  | case4 =>
    intro A hO hA
    exact ⟨A, rfl, hA, fun _ _ h => h, fun X j k e Y he => Or.inl ⟨X, Y, he, rfl⟩⟩

end Shecc.Optimize
