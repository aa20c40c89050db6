import Verif.Lemmas.Graph

/-!
# Post-dominance and the blocks in which removed branches may end
-/

namespace Shecc.Cfg
open CGraph

/-- `d` lies on every path from `b` to `exit`. -/
def PD (succ : Nat → List Nat) (exit d b : Nat) : Prop := ∀ l, Path succ b l exit → d ∈ l

theorem Path.flip {succ preds : Nat → List Nat} (hp : ∀ a b, b ∈ succ a ↔ a ∈ preds b) {a b : Nat} {l : List Nat}
    (p : Path succ a l b) : Path preds b l.reverse a := by
  induction p with
  | nil a => exact .nil a
  | @cons a c b l h p ih =>
    rw [List.reverse_cons]
    exact Path.snoc ih ((hp a c).1 h)

theorem PD_iff {succ preds : Nat → List Nat} (hp : ∀ a b, b ∈ succ a ↔ a ∈ preds b) {exit d b : Nat} :
    PD succ exit d b ↔ Dom preds exit d b := by
  constructor
  · intro h l p
    have := h _ (Path.flip (fun a b => (hp b a).symm) p)
    simpa using this
  · intro h l p
    have := h _ (Path.flip hp p)
    simpa using this

theorem Reach.flip {succ preds : Nat → List Nat} (hp : ∀ a b, b ∈ succ a ↔ a ∈ preds b) {a b : Nat} (h : Reach succ a b) :
    Reach preds b a := by
  obtain ⟨l, p⟩ := h
  exact ⟨_, Path.flip hp p⟩

/-- From the last occurrence of a block on a path. -/
theorem Path.lastVisit {succ : Nat → List Nat} {a b c : Nat} {l : List Nat} (p : Path succ a l b) (hc : c ∈ l) :
    ∃ zs, Path succ c (c :: zs) b ∧ c ∉ zs ∧ ∀ z ∈ zs, z ∈ l := by
  induction p with
  | nil a =>
    rw [List.mem_singleton] at hc
    subst hc
    exact ⟨[], .nil c, by simp, by simp⟩
  | @cons a c' b l h p ih =>
    by_cases hl : c ∈ l
    · obtain ⟨zs, h1, h2, h3⟩ := ih hl
      exact ⟨zs, h1, h2, fun z hz => List.mem_cons_of_mem _ (h3 z hz)⟩
    · rcases List.mem_cons.1 hc with rfl | hc
      · exact ⟨l, .cons h p, hl, fun z hz => List.mem_cons_of_mem _ hz⟩
      · exact absurd hc hl

/-- A path cut at one of its blocks. -/
theorem Path.cut {succ : Nat → List Nat} {a b c : Nat} {xs ys : List Nat} (p : Path succ a (xs ++ c :: ys) b) :
    Path succ a (xs ++ [c]) c ∧ Path succ c (c :: ys) b := by
  induction xs generalizing a with
  | nil =>
    cases p with
    | nil => exact ⟨.nil _, .nil _⟩
    | cons h p => exact ⟨.nil _, .cons h p⟩
  | cons x xs ih =>
    generalize hl : x :: xs ++ c :: ys = l at p
    cases p with
    | nil =>
      simp at hl
    | @cons _ c' _ l h p =>
      simp only [List.cons_append, List.cons.injEq] at hl
      obtain ⟨rfl, rfl⟩ := hl
      obtain ⟨h1, h2⟩ := ih p
      exact ⟨.cons h h1, h2⟩

theorem Path.glue {succ : Nat → List Nat} {a b c : Nat} {xs ys : List Nat} (p : Path succ a (xs ++ [c]) c)
    (q : Path succ c (c :: ys) b) : Path succ a (xs ++ c :: ys) b := by
  induction xs generalizing a with
  | nil =>
    generalize hl : [] ++ [c] = l at p
    cases p with
    | nil => exact q
    | @cons _ c' _ l h p =>
      simp only [List.nil_append, List.cons.injEq] at hl
      obtain ⟨_, rfl⟩ := hl
      cases p
  | cons x xs ih =>
    generalize hl : x :: xs ++ [c] = l at p
    cases p with
    | nil => simp at hl
    | @cons _ c' _ l h p =>
      simp only [List.cons_append, List.cons.injEq] at hl
      obtain ⟨rfl, rfl⟩ := hl
      exact .cons h (ih p)

/-- The first useful block on the list is `j`. -/
def FirstUseful (u : Nat → Bool) (j : Nat) (l : List Nat) : Prop := ∃ xs ys, l = xs ++ j :: ys ∧ ∀ x ∈ xs, u x = false

/-- On every path from `b` to the exit the first useful block is `j`. -/
def Meets (succ : Nat → List Nat) (exit : Nat) (u : Nat → Bool) (j b : Nat) : Prop :=
  ∀ l, Path succ b l exit → FirstUseful u j l

theorem mem_tail {x y : Nat} {xs ys : List Nat} (h : x ∈ y :: ys) : x ∈ xs ++ y :: ys := List.mem_append_right _ h

section
variable {succ : Nat → List Nat} {exit : Nat} {R : Nat → Prop} {u kept : Nat → Bool}

/-- `kept b`: the branch of `b` is kept. Where a useful block post-dominates a successor of a block with two successors, but not the
block itself strictly, the branch is kept. -/
def Controlled (succ : Nat → List Nat) (exit : Nat) (R : Nat → Prop) (u kept : Nat → Bool) : Prop :=
  ∀ x b q, R b → u x = true → q ∈ succ b → PD succ exit x q → ¬ (PD succ exit x b ∧ x ≠ b) → (∃ q' ∈ succ b, q' ≠ q) → kept b = true

/-- The end of a path through blocks without kept branches post-dominates its start. -/
theorem pd_of_path (hc : Controlled succ exit R u kept) (hR : ∀ a b, R a → b ∈ succ a → R b) {a c : Nat} (ha : R a) {xs : List Nat} (p : Path succ a (xs ++ [c]) c)
    (hk : ∀ x ∈ xs, kept x = false) (huc : u c = true) (hex : exit ∉ xs) : PD succ exit c a := by
  induction xs generalizing a with
  | nil =>
    generalize hl : [] ++ [c] = l at p
    cases p with
    | nil => exact fun l p => Path.first p
    | @cons _ c' _ l h p =>
      simp only [List.nil_append, List.cons.injEq] at hl
      obtain ⟨_, rfl⟩ := hl
      cases p
  | cons x xs ih =>
    generalize hl : x :: xs ++ [c] = l at p
    cases p with
    | nil => simp at hl
    | @cons _ q _ l h p =>
      simp only [List.cons_append, List.cons.injEq] at hl
      obtain ⟨rfl, rfl⟩ := hl
      have hq := ih (hR _ _ ha h) p (fun y hy => hk y (by simp [hy])) (fun h => hex (by simp [h]))
      apply Classical.byContradiction
      intro hn
      by_cases h2 : ∃ q' ∈ succ x, q' ≠ q
      · have := hc c x q ha huc h hq (fun h => hn h.1) h2
        rw [hk x (by simp)] at this
        cases this
      · apply hn
        intro l pl
        cases pl with
        | nil => exact absurd (by simp) hex
        | @cons _ q' _ l h' p' =>
          have : q' = q := Classical.byContradiction fun hne => h2 ⟨q', h', hne⟩
          subst this
          exact List.mem_cons_of_mem _ (hq l p')

/-- Immediate post-dominators. -/
structure IPD (succ : Nat → List Nat) (exit : Nat) (rIdom : Nat → Nat) (b : Nat) : Prop where
  pd : PD succ exit (rIdom b) b
  ne : rIdom b ≠ b
  near : ∀ e, PD succ exit e b → e ≠ b → PD succ exit e (rIdom b)

/-- After a removed branch, the first useful block on every path to the exit is the nearest useful one on the chain of immediate
post-dominators. -/
theorem meets_of_removed (hc : Controlled succ exit R u kept) (hu : ∀ x, kept x = true → u x = true) {rIdom : Nat → Nat}
    (hR : ∀ a b, R a → b ∈ succ a → R b) (hRx : ∀ a, R a → Reach succ a exit) (hxs : succ exit = [])
    (hI : ∀ b, R b → b ≠ exit → IPD succ exit rIdom b) {walk : Nat → Nat} {k : Nat}
    (hw : ∀ m, walk (m + 1) = rIdom (walk m)) {b j : Nat} (hwb : walk 0 = b) (hb : R b) (hbe : b ≠ exit)
    (hk : kept b = false)
    (hj : j = walk (k + 1)) (huj : u j = true) (hje : j ≠ exit)
    (hbefore : ∀ m, m < k → walk (m + 1) ≠ exit ∧ u (walk (m + 1)) = false) {c : Nat} (hcb : c ∈ succ b) :
    Meets succ exit u j c := by
  have hRpath : ∀ {a b l}, R a → Path succ a l b → ∀ x ∈ l, R x := by
    intro a b l ha p
    induction p with
    | nil => intro x hx; rw [List.mem_singleton] at hx; subst hx; exact ha
    | cons h p ih =>
      intro x hx
      rcases List.mem_cons.1 hx with rfl | hx
      · exact ha
      · exact ih (hR _ _ ha h) x hx
  -- the chain stays among the blocks considered
  have hwalk : ∀ m, m ≤ k + 1 → R (walk m) ∧ (m ≤ k → walk m ≠ exit) := by
    intro m
    induction m with
    | zero => intro _; rw [hwb]; exact ⟨hb, fun _ => hbe⟩
    | succ m ih =>
      intro hm
      obtain ⟨h1, h2⟩ := ih (by omega)
      have hI' := hI _ h1 (h2 (by omega))
      obtain ⟨l, pl⟩ := hRx _ h1
      refine ⟨?_, fun h => (hbefore m (by omega)).1⟩
      rw [hw]
      exact hRpath h1 pl _ (hI'.pd l pl)
  -- every strict post-dominator of `b` that is useful post-dominates `j`
  have hnear : ∀ e, PD succ exit e b → e ≠ b → u e = true → PD succ exit e j := by
    intro e h1 h2 h3
    suffices H : ∀ m, m ≤ k → PD succ exit e (walk (m + 1)) by
      rw [hj]; exact H k (Nat.le_refl _)
    intro m
    induction m with
    | zero =>
      intro _
      rw [hw, hwb]
      exact (hI b hb hbe).near e h1 h2
    | succ m ih =>
      intro hm
      have hpd := ih (by omega)
      obtain ⟨g1, g2⟩ := hwalk (m + 1) (by omega)
      rw [hw]
      refine (hI _ g1 (g2 (by omega))).near e hpd ?_
      rintro rfl
      rw [(hbefore m (by omega)).2] at h3
      cases h3
  -- `j` strictly post-dominates `b`
  have hjb : PD succ exit j b := by
    have H : ∀ m, m ≤ k + 1 → PD succ exit (walk m) b := by
      intro m
      induction m with
      | zero => intro _ l p; rw [hwb]; exact Path.first p
      | succ m ih =>
        intro hm l p
        obtain ⟨g1, g2⟩ := hwalk m (by omega)
        have hin := ih (by omega) l p
        obtain ⟨zs, pz, _, hz⟩ := Path.lastVisit p hin
        have := (hI _ g1 (g2 (by omega))).pd _ pz
        rw [hw]
        rcases List.mem_cons.1 this with h | h
        · rw [h]; exact hin
        · exact hz _ h
    rw [hj]; exact H _ (Nat.le_refl _)
  have hRc := hR _ _ hb hcb
  -- a useful block at the end of a path without other useful blocks
  have hpath : ∀ xs c', Path succ c (xs ++ [c']) c' → (∀ x ∈ xs, u x = false) → exit ∉ xs → u c' = true →
      PD succ exit c' b ∧ c' ≠ b := by
    intro xs c' p hx he huc
    have hkx : ∀ x ∈ xs, kept x = false := by
      intro x hxm
      cases h : kept x with
      | false => rfl
      | true => have := hu x h; rw [hx x hxm] at this; cases this
    have h1 : PD succ exit c' c := pd_of_path hc hR hRc p hkx huc he
    by_cases hbs : ∃ q' ∈ succ b, q' ≠ c
    · have h2 : PD succ exit c' b := by
        apply Classical.byContradiction
        intro hn
        have := hc c' b c hb huc hcb h1 (fun h => hn h.1) hbs
        rw [hk] at this
        cases this
      refine ⟨h2, ?_⟩
      intro he'
      have := hc c' b c hb huc hcb h1 (fun h => h.2 he') hbs
      rw [hk] at this
      cases this
    · have hone : ∀ q ∈ succ b, q = c := fun q hq => Classical.byContradiction fun hne => hbs ⟨q, hq, hne⟩
      refine ⟨?_, ?_⟩
      · intro l pl
        cases pl with
        | nil => exact absurd rfl hbe
        | @cons _ q' _ l h' p' =>
          have := hone q' h'
          subst this
          exact List.mem_cons_of_mem _ (h1 l p')
      · rintro rfl
        obtain ⟨l, pl⟩ := hRx _ hb
        obtain ⟨zs, pz, hz, _⟩ := Path.lastVisit pl (Path.first pl)
        cases pz with
        | nil => exact absurd rfl hbe
        | @cons _ q' _ _ h' p' =>
          have := hone q' h'
          subst this
          exact hz (h1 _ p')
  have hjneb : j ≠ b := by
    intro hjb'
    -- otherwise `b` would be useful, and its branch kept: take a path from `b` back to itself
    obtain ⟨l, pl⟩ := hRx _ hb
    -- the chain is strict
    have H : ∀ m, m ≤ k → ∀ l, Path succ (walk m) l exit → ∃ zs, Path succ (walk (m + 1)) (walk (m + 1) :: zs) exit ∧ walk m ∉ walk (m + 1) :: zs := by
      intro m hm l p
      obtain ⟨g1, g2⟩ := hwalk m (by omega)
      have hI' := hI _ g1 (g2 hm)
      obtain ⟨zs, pz, hz, _⟩ := Path.lastVisit p (Path.first p)
      have hin := hI'.pd _ pz
      rw [hw]
      rcases List.mem_cons.1 hin with h | h
      · exact absurd h hI'.ne
      · obtain ⟨xs, ys, hxy⟩ := List.append_of_mem h
        rw [hxy] at pz hz
        obtain ⟨_, q⟩ := Path.cut (xs := walk m :: xs) pz
        exact ⟨ys, q, fun h' => hz (mem_tail h')⟩
    -- a path from `walk (m+1)` that avoids `b`
    have H2 : ∀ m, m ≤ k → ∃ zs, Path succ (walk (m + 1)) (walk (m + 1) :: zs) exit ∧ b ∉ walk (m + 1) :: zs := by
      intro m
      induction m with
      | zero =>
        intro hm
        obtain ⟨zs, h1, h2⟩ := H 0 hm l (by rw [hwb]; exact pl)
        rw [hwb] at h2
        exact ⟨zs, h1, h2⟩
      | succ m ih =>
        intro hm
        obtain ⟨zs, p, hz⟩ := ih (by omega)
        obtain ⟨g1, g2⟩ := hwalk (m + 1) (by omega)
        have hI' := hI _ g1 (g2 hm)
        have hin := hI'.pd _ p
        rw [← hw] at hin
        rcases List.mem_cons.1 hin with h | h
        · rw [hw] at h; exact absurd h hI'.ne
        · obtain ⟨xs, ys, hxy⟩ := List.append_of_mem h
          rw [hxy] at p hz
          obtain ⟨_, q⟩ := Path.cut (xs := walk (m + 1) :: xs) p
          exact ⟨ys, q, fun h' => hz (List.mem_cons_of_mem _ (mem_tail h'))⟩
    obtain ⟨zs, _, hz⟩ := H2 k (Nat.le_refl _)
    rw [← hj, hjb'] at hz
    exact hz (by simp)
  intro l pl
  have hjl : j ∈ l := by
    have := hjb _ (Path.cons hcb pl)
    rcases List.mem_cons.1 this with h | h
    · exact absurd h hjneb
    · exact h
  -- the first useful block of `l`
  have hfirst : ∀ l : List Nat, j ∈ l → ∃ xs c' ys, l = xs ++ c' :: ys ∧ (∀ x ∈ xs, u x = false) ∧ u c' = true := by
    intro l
    induction l with
    | nil => intro h; cases h
    | cons x l ih =>
      intro h
      cases hx : u x with
      | true => exact ⟨[], x, l, rfl, by simp, hx⟩
      | false =>
        rcases List.mem_cons.1 h with rfl | h
        · rw [huj] at hx; cases hx
        · obtain ⟨xs, c', ys, rfl, h1, h2⟩ := ih h
          refine ⟨x :: xs, c', ys, rfl, ?_, h2⟩
          intro y hy
          rcases List.mem_cons.1 hy with rfl | hy
          · exact hx
          · exact h1 y hy
  obtain ⟨xs, c', ys, rfl, hxs', huc⟩ := hfirst l hjl
  obtain ⟨p1, p2⟩ := Path.cut pl
  have hexs : exit ∉ xs := by
    intro h
    obtain ⟨a1, a2, rfl⟩ := List.append_of_mem h
    obtain ⟨_, q⟩ := Path.cut (xs := a1) (ys := a2 ++ [c']) (by simpa using p1)
    cases hq : a2 ++ [c'] with
    | nil => simp at hq
    | cons y zs =>
      rw [hq] at q
      cases q with
      | cons h _ => rw [hxs] at h; cases h
  obtain ⟨g1, g2⟩ := hpath xs c' p1 hxs' hexs huc
  have hcj := hnear c' g1 g2 huc
  by_cases hcj' : c' = j
  · subst hcj'
    exact ⟨xs, ys, rfl, hxs'⟩
  · exfalso
    obtain ⟨zs, pz, hz, _⟩ := Path.lastVisit p2 (Path.first p2)
    have pb : Path succ b (b :: (xs ++ c' :: zs)) exit := .cons hcb (Path.glue p1 pz)
    have := hjb _ pb
    simp only [List.mem_cons, List.mem_append] at this
    rcases this with h | h | h | h
    · exact hjneb h
    · rw [hxs' j h] at huj; cases huj
    · exact hcj' h.symm
    · obtain ⟨a1, a2, rfl⟩ := List.append_of_mem h
      obtain ⟨_, q⟩ := Path.cut (xs := c' :: a1) pz
      have := hcj _ q
      exact hz (mem_tail this)

end

end Shecc.Cfg
