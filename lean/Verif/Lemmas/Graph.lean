import Verif.Model.Cfg
import Verif.Spec.CGraph

/-!
# Lemmas on depth-first traversal and the reverse post-order list
-/

namespace Shecc.Cfg
open CGraph

theorem Before.append_right {l x y} (m : List Nat) (h : Before l x y) : Before (l ++ m) x y := by
  obtain ⟨a, b, rfl, hy⟩ := h
  exact ⟨a, b ++ m, by simp, List.mem_append.2 (Or.inl hy)⟩

theorem Before.append_left {l x y} (m : List Nat) (h : Before l x y) : Before (m ++ l) x y := by
  obtain ⟨a, b, rfl, hy⟩ := h
  exact ⟨m ++ a, b, by simp, hy⟩

theorem Before.cross {l m : List Nat} {x y} (hx : x ∈ l) (hy : y ∈ m) : Before (l ++ m) x y := by
  obtain ⟨a, b, rfl⟩ := List.append_of_mem hx
  exact ⟨a, b ++ m, by simp, List.mem_append.2 (Or.inr hy)⟩

theorem Before.mem {l x y} (h : Before l x y) : x ∈ l ∧ y ∈ l := by
  obtain ⟨a, b, rfl, hy⟩ := h
  simp [hy]

theorem Before.reverse {l x y} (h : Before l x y) : Before l.reverse y x := by
  obtain ⟨a, b, rfl, hy⟩ := h
  obtain ⟨c, d, rfl⟩ := List.append_of_mem hy
  exact ⟨d.reverse, c.reverse ++ x :: a.reverse, by simp, by simp⟩

theorem Before.cons {l x y} (z : Nat) (h : Before l x y) : Before (z :: l) x y := Before.append_left [z] h

theorem Path.trans {succ a b c l m} (p : Path succ a l b) (q : Path succ b m c) :
    ∃ k, Path succ a k c ∧ ∀ x ∈ k, x ∈ l ∨ x ∈ m := by
  induction p with
  | nil a => exact ⟨m, q, fun x hx => Or.inr hx⟩
  | @cons a c' b l h _ ih =>
    obtain ⟨k, hk, hm⟩ := ih q
    refine ⟨_, .cons h hk, ?_⟩
    intro x hx
    rcases List.mem_cons.1 hx with rfl | hx
    · exact Or.inl (by simp)
    · rcases hm x hx with h | h
      · exact Or.inl (List.mem_cons_of_mem _ h)
      · exact Or.inr h

theorem Path.first {succ a b l} (p : Path succ a l b) : a ∈ l := by
  cases p <;> simp

theorem Path.last {succ a b l} (p : Path succ a l b) : b ∈ l := by
  induction p with
  | nil => simp
  | cons _ _ ih => exact List.mem_cons_of_mem _ ih

theorem Path.snoc {succ a b c l} (p : Path succ a l b) (h : c ∈ succ b) : Path succ a (l ++ [c]) c := by
  induction p with
  | nil a => exact .cons h (.nil c)
  | cons h' _ ih => exact .cons h' (ih h)

/-- Cutting cycles out of a path. -/
theorem Path.suffix {succ b l c} (p : Path succ c l b) {a : Nat} (ha : a ∈ l) :
    ∃ l1 l2, l = l1 ++ l2 ∧ Path succ a l2 b := by
  induction p with
  | nil c =>
    simp only [List.mem_singleton] at ha
    subst ha
    exact ⟨[], _, rfl, .nil _⟩
  | @cons c d b l h p ih =>
    rcases List.mem_cons.1 ha with rfl | ha
    · exact ⟨[], _, rfl, .cons h p⟩
    · obtain ⟨l1, l2, rfl, q⟩ := ih ha
      exact ⟨c :: l1, l2, rfl, q⟩

theorem Path.simple {succ a l b} (p : Path succ a l b) : ∃ m, Path succ a m b ∧ m.Nodup ∧ ∀ x ∈ m, x ∈ l := by
  induction p with
  | nil a => exact ⟨[a], .nil a, by simp, by simp⟩
  | @cons a c b l h p ih =>
    obtain ⟨m, q, hn, hs⟩ := ih
    by_cases ha : a ∈ m
    · obtain ⟨l1, l2, rfl, q'⟩ := Path.suffix q ha
      exact ⟨l2, q', (List.nodup_append.1 hn).2.1, fun x hx => List.mem_cons_of_mem _ (hs x (by simp [hx]))⟩
    · refine ⟨a :: m, .cons h q, List.nodup_cons.2 ⟨ha, hn⟩, ?_⟩
      intro x hx
      rcases List.mem_cons.1 hx with rfl | hx
      · simp
      · exact List.mem_cons_of_mem _ (hs x hx)

theorem Reach.refl {succ} (a : Nat) : Reach succ a a := ⟨_, .nil a⟩
theorem Reach.trans {succ a b c} (p : Reach succ a b) (q : Reach succ b c) : Reach succ a c := by
  obtain ⟨l, p⟩ := p
  obtain ⟨m, q⟩ := q
  obtain ⟨k, hk, _⟩ := Path.trans p q
  exact ⟨k, hk⟩
theorem Reach.step {succ a b c} (h : b ∈ succ a) (q : Reach succ b c) : Reach succ a c := by
  obtain ⟨m, q⟩ := q
  exact ⟨_, .cons h q⟩
theorem Reach.one {succ} {a b : Nat} (h : b ∈ succ a) : Reach succ a b := Reach.step h (Reach.refl b)

/-- What one call of the traversal guarantees. -/
structure DfsOk (children : Nat → List Nat) (b : Nat) (vis vis' post : List Nat) : Prop where
  mem : ∀ x, x ∈ vis' ↔ x ∈ vis ∨ x ∈ post
  nodup : post.Nodup
  fresh : ∀ x ∈ post, x ∉ vis
  last : ∃ p, post = p ++ [b]
  reach : ∀ x ∈ post, Reach children b x
  closed : ∀ x ∈ post, ∀ y ∈ children x, y ∈ vis'
  edge : ∀ x ∈ post, ∀ y ∈ children x, y ∈ vis ∨ Before post y x ∨ Reach children y x
  parent : ∀ x ∈ post, x ≠ b → ∃ p, x ∈ children p ∧ Before post x p

structure AllOk (children : Nat → List Nat) (cs vis vis' post : List Nat) : Prop where
  mem : ∀ x, x ∈ vis' ↔ x ∈ vis ∨ x ∈ post
  nodup : post.Nodup
  fresh : ∀ x ∈ post, x ∉ vis
  all : ∀ c ∈ cs, c ∈ vis'
  reach : ∀ x ∈ post, ∃ c ∈ cs, Reach children c x
  closed : ∀ x ∈ post, ∀ y ∈ children x, y ∈ vis'
  edge : ∀ x ∈ post, ∀ y ∈ children x, y ∈ vis ∨ Before post y x ∨ Reach children y x
  parent : ∀ x ∈ post, x ∈ cs ∨ ∃ p, x ∈ children p ∧ Before post x p

theorem dfsAll_ok {children : Nat → List Nat} {f : Nat → List Nat → Option (List Nat × List Nat)}
    (hf : ∀ b vis vis' post, b ∉ vis → f b vis = some (vis', post) → DfsOk children b vis vis' post) :
    ∀ cs vis vis' post, dfsAll f cs vis = some (vis', post) → AllOk children cs vis vis' post := by
  intro cs
  induction cs with
  | nil =>
    intro vis vis' post h
    simp only [dfsAll, Option.some.injEq, Prod.mk.injEq] at h
    obtain ⟨rfl, rfl⟩ := h
    constructor <;> simp
  | cons c cs ih =>
    intro vis vis' post h
    rw [dfsAll] at h
    split at h
    · rename_i hc
      have A := ih _ _ _ h
      refine ⟨A.mem, A.nodup, A.fresh, ?_, ?_, A.closed, A.edge, ?_⟩
      · intro x hx
        rcases List.mem_cons.1 hx with rfl | hx
        · exact (A.mem _).2 (Or.inl hc)
        · exact A.all x hx
      · intro x hx
        obtain ⟨d, hd, hr⟩ := A.reach x hx
        exact ⟨d, List.mem_cons_of_mem _ hd, hr⟩
      · intro x hx
        rcases A.parent x hx with h | h
        · exact Or.inl (List.mem_cons_of_mem _ h)
        · exact Or.inr h
    · rename_i hc
      split at h
      · cases h
      · rename_i vis1 post1 h1
        have D := hf _ _ _ _ hc h1
        split at h
        · cases h
        · rename_i vis2 post2 h2
          have A := ih _ _ _ h2
          simp only [Option.some.injEq, Prod.mk.injEq] at h
          obtain ⟨rfl, rfl⟩ := h
          have hcp : c ∈ post1 := by
            obtain ⟨p, hp⟩ := D.last
            simp [hp]
          refine ⟨?_, ?_, ?_, ?_, ?_, ?_, ?_, ?_⟩
          · intro x
            rw [A.mem, D.mem, List.mem_append]
            constructor
            · rintro ((h | h) | h)
              · exact Or.inl h
              · exact Or.inr (Or.inl h)
              · exact Or.inr (Or.inr h)
            · rintro (h | h | h)
              · exact Or.inl (Or.inl h)
              · exact Or.inl (Or.inr h)
              · exact Or.inr h
          · rw [List.nodup_append]
            refine ⟨D.nodup, A.nodup, ?_⟩
            rintro a ha b hb rfl
            exact A.fresh _ hb ((D.mem _).2 (Or.inr ha))
          · intro x hx hv
            rcases List.mem_append.1 hx with h | h
            · exact D.fresh _ h hv
            · exact A.fresh _ h ((D.mem _).2 (Or.inl hv))
          · intro x hx
            rcases List.mem_cons.1 hx with rfl | hx
            · exact (A.mem _).2 (Or.inl ((D.mem _).2 (Or.inr hcp)))
            · exact A.all x hx
          · intro x hx
            rcases List.mem_append.1 hx with h | h
            · exact ⟨c, by simp, D.reach x h⟩
            · obtain ⟨d, hd, hr⟩ := A.reach x h
              exact ⟨d, List.mem_cons_of_mem _ hd, hr⟩
          · intro x hx y hy
            rcases List.mem_append.1 hx with h | h
            · exact (A.mem _).2 (Or.inl (D.closed x h y hy))
            · exact A.closed x h y hy
          · intro x hx y hy
            rcases List.mem_append.1 hx with h | h
            · rcases D.edge x h y hy with h | h | h
              · exact Or.inl h
              · exact Or.inr (Or.inl (Before.append_right _ h))
              · exact Or.inr (Or.inr h)
            · rcases A.edge x h y hy with h' | h' | h'
              · rcases (D.mem _).1 h' with h' | h'
                · exact Or.inl h'
                · exact Or.inr (Or.inl (Before.cross h' h))
              · exact Or.inr (Or.inl (Before.append_left _ h'))
              · exact Or.inr (Or.inr h')
          · intro x hx
            rcases List.mem_append.1 hx with h | h
            · by_cases hxc : x = c
              · exact Or.inl (by simp [hxc])
              · obtain ⟨p, hp, hb⟩ := D.parent x h hxc
                exact Or.inr ⟨p, hp, Before.append_right _ hb⟩
            · rcases A.parent x h with h | ⟨p, hp, hb⟩
              · exact Or.inl (List.mem_cons_of_mem _ h)
              · exact Or.inr ⟨p, hp, Before.append_left _ hb⟩

theorem dfs_ok (children : Nat → List Nat) : ∀ n b vis vis' post, b ∉ vis →
    dfs children n b vis = some (vis', post) → DfsOk children b vis vis' post := by
  intro n
  induction n with
  | zero => intro b vis vis' post _ h; simp [dfs] at h
  | succ n ih =>
    intro b vis vis' post hb h
    rw [dfs] at h
    split at h
    · cases h
    · rename_i vis1 post1 h1
      simp only [Option.some.injEq, Prod.mk.injEq] at h
      obtain ⟨rfl, rfl⟩ := h
      have A := dfsAll_ok ih _ _ _ _ h1
      have hR : ∀ x ∈ post1, Reach children b x := by
        intro x hx
        obtain ⟨c, hc, hr⟩ := A.reach x hx
        exact Reach.step hc hr
      refine ⟨?_, ?_, ?_, ⟨_, rfl⟩, ?_, ?_, ?_, ?_⟩
      · intro x
        rw [A.mem]
        simp only [List.mem_cons, List.mem_append, List.not_mem_nil, or_false]
        constructor
        · rintro ((h | h) | h)
          · exact Or.inr (Or.inr h)
          · exact Or.inl h
          · exact Or.inr (Or.inl h)
        · rintro (h | h | h)
          · exact Or.inl (Or.inr h)
          · exact Or.inr h
          · exact Or.inl (Or.inl h)
      · rw [List.nodup_append]
        refine ⟨A.nodup, by simp, ?_⟩
        intro a ha c hc hac
        simp only [List.mem_singleton] at hc
        exact A.fresh _ ha (by simp [hac, hc])
      · intro x hx hv
        rcases List.mem_append.1 hx with h | h
        · exact A.fresh _ h (List.mem_cons_of_mem _ hv)
        · simp only [List.mem_singleton] at h
          exact hb (h ▸ hv)
      · intro x hx
        rcases List.mem_append.1 hx with h | h
        · exact hR x h
        · simp only [List.mem_singleton] at h
          subst h
          exact Reach.refl _
      · intro x hx y hy
        rcases List.mem_append.1 hx with h | h
        · exact A.closed x h y hy
        · simp only [List.mem_singleton] at h
          subst h
          exact A.all y hy
      · intro x hx y hy
        rcases List.mem_append.1 hx with h | h
        · rcases A.edge x h y hy with h' | h' | h'
          · rcases List.mem_cons.1 h' with rfl | h'
            · exact Or.inr (Or.inr (hR x h))
            · exact Or.inl h'
          · exact Or.inr (Or.inl (Before.append_right _ h'))
          · exact Or.inr (Or.inr h')
        · simp only [List.mem_singleton] at h
          subst h
          rcases (A.mem _).1 (A.all y hy) with h' | h'
          · rcases List.mem_cons.1 h' with rfl | h'
            · exact Or.inr (Or.inr (Reach.refl _))
            · exact Or.inl h'
          · exact Or.inr (Or.inl (Before.cross h' (by simp)))
      · intro x hx hxb
        rcases List.mem_append.1 hx with h | h
        · rcases A.parent x h with h' | ⟨p, hp, hbf⟩
          · exact ⟨b, h', Before.cross h (by simp)⟩
          · exact ⟨p, hp, Before.append_right _ hbf⟩
        · simp only [List.mem_singleton] at h
          exact absurd h hxb

/-! ### Enough recursion depth -/

/-- number of blocks of `univ` not visited -/
def left (univ vis : List Nat) : Nat := (univ.filter (fun x => decide (x ∉ vis))).length

theorem left_mono {univ vis vis' : List Nat} (h : ∀ x, x ∈ vis → x ∈ vis') : left univ vis' ≤ left univ vis := by
  unfold left
  induction univ with
  | nil => simp
  | cons u us ih =>
    simp only [List.filter_cons]
    by_cases h1 : u ∈ vis'
    · by_cases h2 : u ∈ vis
      · simpa [h1, h2] using ih
      · simp only [h1, h2, not_true_eq_false, decide_false, not_false_eq_true, decide_true, if_true, Bool.false_eq_true,
          if_false, List.length_cons]
        omega
    · have h2 : u ∉ vis := fun h' => h1 (h _ h')
      simp only [h1, h2, not_false_eq_true, decide_true, if_true, List.length_cons]
      omega

theorem left_cons {univ vis : List Nat} {b : Nat} (hu : b ∈ univ) (hb : b ∉ vis) :
    left univ (b :: vis) + 1 ≤ left univ vis := by
  induction univ with
  | nil => simp at hu
  | cons u us ih =>
    have hm : left us (b :: vis) ≤ left us vis := left_mono (fun x h => List.mem_cons_of_mem _ h)
    unfold left at *
    by_cases hub : u = b
    · subst hub
      rw [List.filter_cons_of_neg (by simp), List.filter_cons_of_pos (by simpa using hb)]
      simp only [List.length_cons]
      omega
    · have hu' : b ∈ us := by
        rcases List.mem_cons.1 hu with h | h
        · exact absurd h.symm hub
        · exact h
      have := ih hu'
      by_cases h2 : u ∈ vis
      · rw [List.filter_cons_of_neg (by simp [h2]), List.filter_cons_of_neg (by simp [h2])]
        exact this
      · have h3 : ¬ (u = b ∨ u ∈ vis) := by
          rintro (h | h)
          · exact hub h
          · exact h2 h
        rw [List.filter_cons_of_pos (by simpa using h3), List.filter_cons_of_pos (by simpa using h2)]
        simp only [List.length_cons]
        omega

theorem dfsAll_some {children : Nat → List Nat} {univ : List Nat} {n : Nat}
    (hf : ∀ b vis, b ∈ univ → b ∉ vis → left univ vis ≤ n → ∃ r, dfs children n b vis = some r) :
    ∀ cs vis, (∀ c ∈ cs, c ∈ univ) → left univ vis ≤ n → ∃ r, dfsAll (dfs children n) cs vis = some r := by
  intro cs
  induction cs with
  | nil => intro vis _ _; exact ⟨_, rfl⟩
  | cons c cs ih =>
    intro vis hcs hn
    rw [dfsAll]
    split
    · exact ih vis (fun x hx => hcs x (List.mem_cons_of_mem _ hx)) hn
    · rename_i hc
      obtain ⟨⟨vis1, post1⟩, h1⟩ := hf c vis (hcs c (by simp)) hc hn
      have D := dfs_ok children n c vis vis1 post1 hc h1
      obtain ⟨⟨vis2, post2⟩, h2⟩ := ih vis1 (fun x hx => hcs x (List.mem_cons_of_mem _ hx))
        (Nat.le_trans (left_mono fun x hx => (D.mem x).2 (Or.inl hx)) hn)
      rw [h1]
      simp only [h2]
      exact ⟨_, rfl⟩

theorem dfs_some {children : Nat → List Nat} {univ : List Nat} (hc : ∀ x ∈ univ, ∀ y ∈ children x, y ∈ univ) :
    ∀ n b vis, b ∈ univ → b ∉ vis → left univ vis ≤ n → ∃ r, dfs children n b vis = some r := by
  intro n
  induction n with
  | zero =>
    intro b vis hu hb hn
    have := left_cons hu hb
    omega
  | succ n ih =>
    intro b vis hu hb hn
    have := left_cons hu hb
    obtain ⟨⟨v, p⟩, h⟩ := dfsAll_some ih (children b) (b :: vis) (fun c h => hc b hu c h) (by omega)
    rw [dfs, h]
    exact ⟨_, rfl⟩

/-! ### The list -/

theorem buildRpoTail_eq (rpo : Nat → Nat) (entry : Nat) : ∀ post l,
    (∀ x ∈ post, ∀ y ∈ l, rpo x < rpo y) → post.Pairwise (fun a b => rpo b < rpo a) →
    buildRpoTail rpo entry post l = (post.filter (· ≠ entry)).reverse ++ l := by
  intro post
  induction post with
  | nil => intro l _ _; simp [buildRpoTail]
  | cons b bs ih =>
    intro l hl hp
    rw [List.pairwise_cons] at hp
    rw [buildRpoTail]
    by_cases hb : b = entry
    · rw [if_pos hb, ih _ (fun x hx y hy => hl x (List.mem_cons_of_mem _ hx) y hy) hp.2]
      simp [hb]
    · rw [if_neg hb]
      have hins : insertRpo rpo b l = b :: l := by
        cases l with
        | nil => rfl
        | cons c cs =>
          rw [insertRpo, if_neg]
          have := hl b (by simp) c (by simp)
          omega
      rw [hins, ih _ _ hp.2]
      · rw [List.filter_cons_of_pos (by simpa using hb)]
        simp
      · intro x hx y hy
        rcases List.mem_cons.1 hy with rfl | hy
        · exact hp.1 x hx
        · exact hl x (List.mem_cons_of_mem _ hx) y hy

theorem rpoNumber_pairwise (post : List Nat) (h : post.Nodup) :
    post.Pairwise (fun a b => rpoNumber post b < rpoNumber post a) := by
  rw [List.pairwise_iff_getElem]
  intro i j hi hj hij
  unfold rpoNumber
  have h1 : post.idxOf post[i] = i := h.idxOf_getElem _ _
  have h2 : post.idxOf post[j] = j := h.idxOf_getElem _ _
  rw [h1, h2]
  omega

/-- The list is the reverse of the post-order, and a block's number is its position, counting from 1. -/
theorem buildRpo_eq {children : Nat → List Nat} {entry n rpo l} (h : buildRpo children entry n = some (rpo, l)) :
    ∃ vis post, dfs children n entry [] = some (vis, post) ∧ rpo = rpoNumber post ∧ l = post.reverse ∧
      DfsOk children entry [] vis post := by
  unfold buildRpo at h
  split at h
  · cases h
  · rename_i vis post hd
    have D := dfs_ok children n entry [] vis post (by simp) hd
    simp only [Option.some.injEq, Prod.mk.injEq] at h
    obtain ⟨rfl, rfl⟩ := h
    refine ⟨vis, post, hd, rfl, ?_, D⟩
    rw [buildRpoTail_eq _ _ _ _ (by simp) (rpoNumber_pairwise _ D.nodup)]
    obtain ⟨p, rfl⟩ := D.last
    have hn := D.nodup
    rw [List.nodup_append] at hn
    have : List.filter (fun x => decide (x ≠ entry)) (p ++ [entry]) = p := by
      rw [List.filter_append, List.filter_eq_self.2]
      · simp
      · intro a ha
        have := hn.2.2 a ha entry (by simp)
        simpa using this
    rw [this]
    simp

theorem rpoNumber_lt_of_before {post : List Nat} (hn : post.Nodup) {x y : Nat} (h : Before post.reverse x y) :
    rpoNumber post x < rpoNumber post y := by
  have hb : Before post y x := by
    have := Before.reverse h
    rwa [List.reverse_reverse] at this
  obtain ⟨a, b, rfl, hx⟩ := hb
  have := rpoNumber_pairwise _ hn
  rw [List.pairwise_append] at this
  exact (List.pairwise_cons.1 this.2.1).1 x hx

end Shecc.Cfg
