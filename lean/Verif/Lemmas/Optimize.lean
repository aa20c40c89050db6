import Verif.Model.Optimize

/-!
# Where no subexpression is repeated, `optimize` folds constants
-/

namespace Shecc.Optimize
open Shecc.Ssa Shecc.Cse Shecc.ConstFold

/-- Some addition `base + idx` is followed at once by a read. -/
def HasHit (base idx : Nat) (l : List Insn) : Prop := ∃ pre i n post, l = pre ++ i :: n :: post ∧ hit base idx i n = true

theorem items_none {base idx : Nat} (l : List Insn) (h : ¬ HasHit base idx l) : items base idx l = l.map .keep := by
  fun_induction items base idx l with
  | case1 i n rest hh ih => exact absurd ⟨[], i, n, rest, rfl, hh⟩ h
  | case2 i n rest hh ih =>
    have h' : ¬ HasHit base idx (n :: rest) := by
      rintro ⟨pre, j, k, post, he, hk⟩
      exact h ⟨i :: pre, j, k, post, by rw [he]; rfl, hk⟩
    rw [ih h']
    rfl
  | case3 i => rfl
  | case4 => rfl

theorem rewrite_none {base idx d : Nat} {l : List Insn} (h : ¬ HasHit base idx l) : rewrite base idx d l = l := by
  unfold rewrite
  rw [items_none l h, List.flatMap_map]
  simp [Item.after]

/-- No addition that is followed by a read from its result occurs twice before a read. -/
def NoRepeat (isGlobal : Nat → Bool) (blocks : Nat → List Insn) : Prop :=
  ∀ b pre prev insn post base idx d, blocks b = pre ++ prev :: insn :: post → target isGlobal prev insn = some (base, idx, d) →
    ¬ HasHit base idx pre ∧ ¬ HasHit base idx post ∧ ∀ c, c ≠ b → ¬ HasHit base idx (blocks c)

/-- An instruction may have become a constant load. -/
def Chg1 (i i' : Insn) : Prop := i' = i ∨ i'.op = .load_constant

inductive Chg : List Insn → List Insn → Prop
  | nil : Chg [] []
  | cons {i i' l l'} (h : Chg1 i i') (hr : Chg l l') : Chg (i :: l) (i' :: l')

theorem Chg.refl : ∀ l, Chg l l
  | [] => .nil
  | _ :: l => .cons (Or.inl rfl) (Chg.refl l)

theorem Chg.append : ∀ {a a' b b' : List Insn}, Chg a a' → Chg b b' → Chg (a ++ b) (a' ++ b')
  | _, _, _, _, .nil, h => h
  | _, _, _, _, .cons h1 h2, h => .cons h1 (Chg.append h2 h)

theorem Chg.trans : ∀ {a b c : List Insn}, Chg a b → Chg b c → Chg a c
  | _, _, _, .nil, .nil => .nil
  | _, _, _, .cons h1 h2, .cons h3 h4 => .cons (by
      rcases h3 with h3 | h3
      · rw [h3]; exact h1
      · exact Or.inr h3) (Chg.trans h2 h4)

theorem Chg.split : ∀ {l : List Insn} {a b : List Insn}, Chg l (a ++ b) → ∃ a0 b0, l = a0 ++ b0 ∧ Chg a0 a ∧ Chg b0 b := by
  intro l a
  induction a generalizing l with
  | nil => intro b h; exact ⟨[], l, rfl, .nil, h⟩
  | cons x a ih =>
    intro b h
    cases h with
    | @cons i i' l l' h1 h2 =>
      obtain ⟨a0, b0, rfl, h3, h4⟩ := ih h2
      exact ⟨i :: a0, b0, rfl, .cons h1 h3, h4⟩

theorem hit_ops {base idx : Nat} {i n : Insn} (h : hit base idx i n = true) : i.op = .alu .add ∧ n.op = .read := by
  simp only [hit, Bool.and_eq_true, decide_eq_true_eq] at h
  exact ⟨h.1.1.1, h.1.1.2⟩

theorem Chg.two {l pre post : List Insn} {i n : Insn} (h : Chg l (pre ++ i :: n :: post)) (hi : i.op ≠ .load_constant)
    (hn : n.op ≠ .load_constant) : ∃ pre0 post0, l = pre0 ++ i :: n :: post0 ∧ Chg pre0 pre ∧ Chg post0 post := by
  obtain ⟨a0, b0, rfl, h1, h2⟩ := h.split
  cases h2 with
  | cons h3 h4 =>
    cases h4 with
    | cons h5 h6 =>
      rcases h3 with rfl | h3
      · rcases h5 with rfl | h5
        · exact ⟨_, _, rfl, h1, h6⟩
        · exact absurd h5 hn
      · exact absurd h3 hi

theorem HasHit.back {base idx : Nat} {l l' : List Insn} (hc : Chg l l') (h : HasHit base idx l') : HasHit base idx l := by
  obtain ⟨pre, i, n, post, rfl, hh⟩ := h
  obtain ⟨h1, h2⟩ := hit_ops hh
  obtain ⟨p0, q0, rfl, _, _⟩ := hc.two (by rw [h1]; simp) (by rw [h2]; simp)
  exact ⟨p0, i, n, q0, rfl, hh⟩

theorem target_ops {g : Nat → Bool} {prev insn : Insn} {t} (h : target g prev insn = some t) : insn.op = .read ∧ prev.op = .alu .add := by
  unfold target at h
  split at h
  · rename_i hc; exact ⟨hc.1, hc.2.1⟩
  · cases h

theorem NoRepeat.changed {g : Nat → Bool} {blocks blocks' : Nat → List Insn} (h : NoRepeat g blocks) (hc : ∀ b, Chg (blocks b) (blocks' b)) :
    NoRepeat g blocks' := by
  intro b pre prev insn post base idx d hb ht
  obtain ⟨h1, h2⟩ := target_ops ht
  have hcb := hc b
  rw [hb] at hcb
  obtain ⟨p0, q0, he, k1, k2⟩ := hcb.two (by rw [h2]; simp) (by rw [h1]; simp)
  obtain ⟨g1, g2, g3⟩ := h b p0 prev insn q0 base idx d he ht
  exact ⟨fun x => g1 (x.back k1), fun x => g2 (x.back k2), fun c hcb x => g3 c hcb (x.back (hc c))⟩

theorem folding_chg {g : Nat → Bool} {prev : Option Insn} {i i' : Insn} {st st' : CF} (h : const_folding g prev i st = .ok (i', st')) :
    Chg1 i i' := by
  unfold const_folding at h
  have hm : ∀ {x s b}, mark_const g prev i st = .ok (x, s, b) → (b = false → x = i) ∧ (b = true → x.op = .load_constant) := by
    intro x s b hm
    unfold mark_const at hm
    split at hm
    · split at hm
      · cases hm
      · cases hm; exact ⟨fun _ => rfl, fun h => by cases h⟩
    · split at hm
      · split at hm
        · cases hm; exact ⟨fun _ => rfl, fun h => by cases h⟩
        · split at hm
          · cases hm; exact ⟨(fun h => by cases h), fun _ => rfl⟩
          · cases hm; exact ⟨fun _ => rfl, fun h => by cases h⟩
      · cases hm
    · cases hm; exact ⟨fun _ => rfl, fun h => by cases h⟩
  split at h
  · cases h
  · rename_i heq
    cases h
    exact Or.inr ((hm heq).2 rfl)
  · rename_i x s heq
    have := (hm heq).1 rfl
    subst this
    unfold eval_const_arithmetic at h
    split at h
    · split at h
      · split at h
        · cases h; exact Or.inl rfl
        · cases h
        · split at h
          · cases h
          · cases h; exact Or.inr rfl
      · cases h; exact Or.inl rfl
    · cases h; exact Or.inl rfl

theorem folding_read {g : Nat → Bool} {prev : Option Insn} {i : Insn} {st : CF} (ho : i.op = .read) :
    const_folding g prev i st = .ok (i, st) := by
  unfold const_folding mark_const
  simp only [ho]
  unfold eval_const_arithmetic
  split
  · split
    · rw [ho]
      rfl
    · rfl
  · rfl

theorem foldBlock_chg {g : Nat → Bool} : ∀ {l l' : List Insn} {prev : Option Insn} {st st' : CF}, foldBlock g prev l st = .ok (l', st') → Chg l l' := by
  intro l
  induction l with
  | nil =>
    intro l' prev st st' h
    simp only [foldBlock, Res.ok.injEq, Prod.mk.injEq] at h
    obtain ⟨rfl, _⟩ := h
    exact .nil
  | cons i l ih =>
    intro l' prev st st' h
    rw [foldBlock] at h
    split at h
    · cases h
    · rename_i i' st1 h1
      split at h
      · cases h
      · rename_i is' st2 h2
        cases h
        exact .cons (folding_chg h1) (ih h2)

/-- One block. -/
theorem optBlock_fold {g : Nat → Bool} {idom : Nat → Nat} {fuel b : Nat} : ∀ (n : Nat) (blocks : Nat → List Insn) (done todo : List Insn) (st : CF),
    blocks b = done ++ todo → todo.length ≤ n → NoRepeat g blocks →
    optBlock g idom fuel b n blocks done todo st = (match foldBlock g done.getLast? todo st with
      | .crash => .crash
      | .ok (todo', st') => .ok ((fun c => if c = b then done ++ todo' else blocks c), st')) := by
  intro n
  induction n with
  | zero =>
    intro blocks done todo st hb hn _
    have : todo = [] := List.length_eq_zero_iff.1 (by omega)
    subst this
    simp only [optBlock, foldBlock, Res.ok.injEq, Prod.mk.injEq, and_true]
    funext c
    by_cases hc : c = b
    · rw [if_pos hc, hc, hb]
    · rw [if_neg hc]
  | succ n ih =>
    intro blocks done todo st hb hn hr
    cases todo with
    | nil =>
      simp only [optBlock, foldBlock, Res.ok.injEq, Prod.mk.injEq, and_true]
      funext c
      by_cases hc : c = b
      · rw [if_pos hc, hc, hb]
      · rw [if_neg hc]
    | cons i is =>
      simp only [List.length_cons] at hn
      -- continuing with the next instruction
      have go : ∀ (i' : Insn) (st1 : CF), const_folding g done.getLast? i st = .ok (i', st1) →
          optBlock g idom fuel b n (fun c => if c = b then done ++ i' :: is else blocks c) (done ++ [i']) is st1 =
            (match foldBlock g done.getLast? (i :: is) st with
              | .crash => .crash
              | .ok (todo', st') => .ok ((fun c => if c = b then done ++ todo' else blocks c), st')) := by
        intro i' st1 hf
        have hchg : ∀ c, Chg (blocks c) (if c = b then done ++ i' :: is else blocks c) := by
          intro c
          by_cases hc : c = b
          · rw [if_pos hc, hc, hb]
            exact (Chg.refl done).append (.cons (folding_chg hf) (Chg.refl is))
          · rw [if_neg hc]; exact Chg.refl _
        rw [ih _ (done ++ [i']) is st1 (by simp) (by omega) (hr.changed hchg), List.getLast?_concat, foldBlock, hf]
        simp only
        cases foldBlock g (some i') is st1 with
        | crash => rfl
        | ok p =>
          obtain ⟨is', st2⟩ := p
          simp only [Res.ok.injEq, Prod.mk.injEq, and_true]
          funext c
          by_cases hc : c = b
          · rw [if_pos hc, if_pos hc]; simp
          · rw [if_neg hc, if_neg hc, if_neg hc]
      rw [optBlock]
      cases hm : (done.getLast?.bind fun prev => (target g prev i).map fun t => (prev, t)) with
      | none =>
        simp only
        cases hf : const_folding g done.getLast? i st with
        | crash => simp only [foldBlock, hf]
        | ok p =>
          obtain ⟨i', st1⟩ := p
          exact go i' st1 hf
      | some q =>
        obtain ⟨prev, base, idx, d⟩ := q
        simp only [Option.bind_eq_some_iff, Option.map_eq_some_iff, Prod.mk.injEq] at hm
        obtain ⟨prev', hl, t, ht, rfl, rfl⟩ := hm
        have hd : done = done.dropLast ++ [prev'] := by
          obtain ⟨ys, hys⟩ := List.getLast?_eq_some_iff.1 hl
          rw [hys, List.dropLast_concat]
        have hb' : blocks b = done.dropLast ++ prev' :: i :: is := by rw [hb, hd]; simp
        obtain ⟨g1, g2, g3⟩ := hr b _ _ _ _ _ _ _ hb' ht
        obtain ⟨o1, o2⟩ := target_ops ht
        have hcse : cse g idom fuel blocks b done.dropLast prev' i is = some blocks := by
          unfold cse
          rw [ht]
          simp only [Option.some.injEq]
          funext c
          by_cases hc : c = b
          · rw [if_pos hc, rewrite_none g1, rewrite_none g2, hc, hb']
          · rw [if_neg hc, rewrite_none (g3 c hc)]
            split <;> rfl
        simp only [hcse, rewrite_none g1, rewrite_none g2]
        have := go i st (folding_read o1)
        rw [← this]
        have e1 : (fun c => if c = b then done ++ i :: is else blocks c) = blocks := by
          funext c
          by_cases hc : c = b
          · rw [if_pos hc, hc, hb]
          · rw [if_neg hc]
        have e2 : done.dropLast ++ [prev', i] = done ++ [i] := by
          conv => rhs; rw [hd]
          simp
        rw [e1, e2]

/-- A function. -/
theorem optFn_fold {g : Nat → Bool} {idom : Nat → Nat} {fuel : Nat} : ∀ (order : List Nat) (blocks : Nat → List Insn) (st : CF),
    order.Nodup → NoRepeat g blocks → ∀ {blocks' : Nat → List Insn} {st' : CF}, optFn g idom fuel order blocks st = .ok (blocks', st') →
    foldBlocks g (order.map blocks) st = .ok (order.map blocks', st') ∧ (∀ c, c ∉ order → blocks' c = blocks c) ∧ ∀ c, Chg (blocks c) (blocks' c) := by
  intro order
  induction order with
  | nil =>
    intro blocks st _ _ blocks' st' h
    simp only [optFn, Res.ok.injEq, Prod.mk.injEq] at h
    obtain ⟨rfl, rfl⟩ := h
    exact ⟨rfl, fun _ _ => rfl, fun _ => Chg.refl _⟩
  | cons b bs ih =>
    intro blocks st hnd hr blocks' st' h
    rw [optFn, optBlock_fold (blocks b).length blocks [] (blocks b) st rfl (Nat.le_refl _) hr] at h
    simp only [List.getLast?_nil, List.nil_append] at h
    cases hf : foldBlock g none (blocks b) st with
    | crash => rw [hf] at h; cases h
    | ok p =>
      obtain ⟨l', st1⟩ := p
      rw [hf] at h
      simp only at h
      have hchg : ∀ c, Chg (blocks c) (if c = b then l' else blocks c) := by
        intro c
        by_cases hc : c = b
        · rw [if_pos hc, hc]; exact foldBlock_chg hf
        · rw [if_neg hc]; exact Chg.refl _
      obtain ⟨hb, hnd'⟩ := List.nodup_cons.1 hnd
      obtain ⟨h1, h2, h3⟩ := ih _ st1 hnd' (hr.changed hchg) h
      have hbs : bs.map (fun c => if c = b then l' else blocks c) = bs.map blocks := by
        apply List.map_congr_left
        intro c hc
        rw [if_neg (by rintro rfl; exact hb hc)]
      rw [hbs] at h1
      refine ⟨?_, ?_, fun c => (hchg c).trans (h3 c)⟩
      · rw [List.map_cons, List.map_cons, foldBlocks, hf]
        simp only [h1, h2 b hb, if_true]
      · intro c hc
        rw [h2 c (fun h => hc (by simp [h])), if_neg (by rintro rfl; exact hc (by simp))]

end Shecc.Optimize
