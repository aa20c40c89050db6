import Verif.Lemmas.Idom

/-!
# C51, C52, C68: block order, immediate dominators, dominance frontiers
-/

namespace Shecc.Props
open Shecc.Cfg CGraph

/-! ## C51 -/

theorem dfsAll_spec {succ : Nat → List Nat} {f : Nat → List Nat → Option (List Nat × List Nat)}
    (hf : ∀ b vis vis' post, b ∉ vis → f b vis = some (vis', post) →
      ∃ p, post = p ++ [b] ∧ Dfs succ (b :: vis) (succ b) vis' p) :
    ∀ cs vis vis' post, dfsAll f cs vis = some (vis', post) → Dfs succ vis cs vis' post := by
  intro cs
  induction cs with
  | nil =>
    intro vis vis' post h
    simp only [dfsAll, Option.some.injEq, Prod.mk.injEq] at h
    obtain ⟨rfl, rfl⟩ := h
    exact .nil _
  | cons c cs ih =>
    intro vis vis' post h
    rw [dfsAll] at h
    split at h
    · rename_i hc
      exact .skip hc (ih _ _ _ h)
    · rename_i hc
      split at h
      · cases h
      · rename_i vis1 post1 h1
        split at h
        · cases h
        · rename_i vis2 post2 h2
          simp only [Option.some.injEq, Prod.mk.injEq] at h
          obtain ⟨rfl, rfl⟩ := h
          obtain ⟨p, rfl, hd⟩ := hf _ _ _ _ hc h1
          have := Dfs.visit hc hd (ih _ _ _ h2)
          simpa using this

theorem dfs_spec (succ : Nat → List Nat) : ∀ n b vis vis' post, b ∉ vis → dfs succ n b vis = some (vis', post) →
    ∃ p, post = p ++ [b] ∧ Dfs succ (b :: vis) (succ b) vis' p := by
  intro n
  induction n with
  | zero => intro b vis vis' post _ h; simp [dfs] at h
  | succ n ih =>
    intro b vis vis' post _ h
    rw [dfs] at h
    split at h
    · cases h
    · rename_i v p h1
      simp only [Option.some.injEq, Prod.mk.injEq] at h
      obtain ⟨rfl, rfl⟩ := h
      exact ⟨p, rfl, dfsAll_spec ih _ _ _ _ h1⟩

/-- C51. For every finite control-flow graph (`univ` contains the entry and is closed under successors) the block list exists;
it starts with the entry, contains exactly the reachable blocks, each once, and is the reverse of the post-order of a
depth-first search; the numbers increase along it.  Every edge leads forward in the list unless its target can reach its
source (a loop), and every block but the entry has a predecessor before it. -/
theorem C51_layout (succ : Nat → List Nat) (entry : Nat) (univ : List Nat) (he : entry ∈ univ)
    (hc : ∀ x ∈ univ, ∀ y ∈ succ x, y ∈ univ) :
    ∃ rpo l, buildRpo succ entry univ.length = some (rpo, l) ∧
      l.head? = some entry ∧ l.Nodup ∧ (∀ x, x ∈ l ↔ Reach succ entry x) ∧
      (∃ vis, Dfs succ [] [entry] vis l.reverse) ∧
      (∀ x y, Before l x y → rpo x < rpo y) ∧
      (∀ x ∈ l, ∀ y ∈ succ x, Before l x y ∨ Reach succ y x) ∧
      (∀ x ∈ l, x ≠ entry → ∃ p, x ∈ succ p ∧ Before l p x) := by
  have hleft : left univ [] ≤ univ.length := List.length_filter_le _ _
  obtain ⟨⟨vis, post⟩, hd⟩ := dfs_some hc univ.length entry [] he (by simp) hleft
  have hb : ∃ r, buildRpo succ entry univ.length = some r := by
    unfold buildRpo
    rw [hd]
    exact ⟨_, rfl⟩
  obtain ⟨⟨rpo, l⟩, hb⟩ := hb
  obtain ⟨vis', post', hd', rfl, rfl, D⟩ := buildRpo_eq hb
  obtain ⟨p, hp, hdfs⟩ := dfs_spec succ _ _ _ _ _ (by simp) hd'
  have hmem : ∀ x, x ∈ post' ↔ Reach succ entry x := by
    intro x
    constructor
    · exact D.reach x
    · rintro ⟨m, hm⟩
      have hcl : ∀ a ∈ post', ∀ b ∈ succ a, b ∈ post' := by
        intro a ha b hb
        rcases (D.mem b).1 (D.closed a ha b hb) with h | h
        · simp at h
        · exact h
      have hen : entry ∈ post' := by rw [hp]; simp
      clear hd hd' hb he D hp hdfs
      induction hm with
      | nil => exact hen
      | cons h _ ih => exact ih (hcl _ hen _ h)
  refine ⟨_, _, hb, by rw [hp]; simp, List.pairwise_reverse.2 (D.nodup.imp fun h => Ne.symm h),
    fun x => by rw [List.mem_reverse, hmem], ⟨vis', ?_⟩, ?_, ?_, ?_⟩
  · rw [List.reverse_reverse, hp]
    exact .visit (by simp) hdfs (.nil _)
  · intro x y h
    exact rpoNumber_lt_of_before D.nodup h
  · intro x hx y hy
    rw [List.mem_reverse] at hx
    rcases D.edge x hx y hy with h | h | h
    · simp at h
    · exact Or.inl (Before.reverse h)
    · exact Or.inr h
  · intro x hx hxe
    rw [List.mem_reverse] at hx
    obtain ⟨q, hq, hb'⟩ := D.parent x hx hxe
    exact ⟨q, hq, Before.reverse hb'⟩

/-- A loop with a conditional in it, and an unreachable block 9. -/
def demoBlock : Nat → Cfg.Block
  | 0 => { next := some 1 }
  | 1 => { then_ := some 2, else_ := some 6, prev := [0, 5] }
  | 2 => { then_ := some 3, else_ := some 4, prev := [1] }
  | 3 => { next := some 5, prev := [2, 9] }
  | 4 => { next := some 5, prev := [2] }
  | 5 => { next := some 1, prev := [3, 4] }
  | 6 => { prev := [1] }
  | 9 => { next := some 3 }
  | _ => {}

def demo : Graph := ⟨demoBlock, 0, 6⟩

example : (buildRpo demo.succs demo.entry 7).map (·.2) = some [0, 1, 6, 2, 4, 3, 5] := by decide +kernel

/-! ## C52 -/

/-- C52. For every finite control-flow graph whose predecessor lists agree with its edges: `build_rpo` followed by
`build_idom` terminates, and gives every reachable block other than the entry its closest strict dominator (and no
unreachable block anything). -/
theorem C52_idom (succ preds : Nat → List Nat) (entry : Nat) (univ : List Nat) (he : entry ∈ univ)
    (hc : ∀ x ∈ univ, ∀ y ∈ succ x, y ∈ univ) (hp : ∀ a b, b ∈ succ a ↔ a ∈ preds b) :
    ∃ rpo order idom, buildRpo succ entry univ.length = some (rpo, entry :: order) ∧
      buildIdom rpo preds entry order (2 * univ.length + 1) (univ.length + 2) = some idom ∧
      idom entry = some entry ∧
      (∀ b, Reach succ entry b → b ≠ entry → ∃ d, idom b = some d ∧ IsIdom succ entry d b) ∧
      ∀ b, ¬ Reach succ entry b → idom b = none := by
  obtain ⟨rpo, l, hb, hh, hnd, hmem, g1, g2, g3, g4⟩ := C51_layout succ entry univ he hc
  clear g1 g2 g3 g4
  obtain ⟨O, order, hl, hpair⟩ := order_of_buildRpo hp hb
  have hlen : l.length ≤ univ.length := by
    refine nodup_length_le hnd ?_
    intro x hx
    obtain ⟨m, hm⟩ := (hmem x).1 hx
    clear hx hb hh hnd hmem O hl hpair
    induction hm with
    | nil => exact he
    | cons h _ ih => exact ih (hc _ he _ h)
  have hs : order.Pairwise (fun a b => rpo a < rpo b) := by
    rw [hl] at hpair
    exact (List.pairwise_cons.1 hpair).2
  obtain ⟨idom, hi, I, hall, hdom⟩ := buildIdom_ok O (n := 2 * univ.length + 1) (f := univ.length + 2) (by omega) (by omega)
    hl hs
  refine ⟨rpo, order, idom, by rw [hb, hl], hi, I.root, ?_, ?_⟩
  · intro b hbr hbe
    have hbl := (O.mem b).2 hbr
    obtain ⟨d, hd⟩ := Option.isSome_iff_exists.1 (hall b hbl)
    obtain ⟨_, hdl, hlt, _⟩ := I.up b d hd hbe
    refine ⟨d, hd, ⟨(hdom b hbl d).1 (.step hd (.refl d)), ?_⟩, ?_⟩
    · rintro rfl; omega
    · rintro e ⟨h1, h2⟩
      rcases (I.anc_eq hd e).1 ((hdom b hbl e).2 h1) with h | h
      · exact absurd h h2
      · exact (hdom d hdl e).1 h
  · intro b hbr
    cases h : idom b with
    | none => rfl
    | some p =>
      have := I.mem O (c := b) (by rw [h]; rfl)
      exact absurd ((O.mem b).1 this) hbr

/-- The same algorithm on the reversed graph (`build_reversed_rpo`, `build_r_idom`): every block that can reach the exit gets
its closest strict post-dominator. -/
theorem C52_post_dominators (g : Graph) (univ : List Nat) (he : g.exit ∈ univ) (hc : ∀ x ∈ univ, ∀ y ∈ g.preds x, y ∈ univ)
    (hp : ∀ a b, b ∈ g.succs a ↔ a ∈ g.preds b) :
    ∃ rpo order idom, buildRpo g.preds g.exit univ.length = some (rpo, g.exit :: order) ∧
      buildIdom rpo (fun b => (g.block b).next.toList ++ (g.block b).else_.toList ++ (g.block b).then_.toList) g.exit order
        (2 * univ.length + 1) (univ.length + 2) = some idom ∧
      idom g.exit = some g.exit ∧
      (∀ b, Reach g.preds g.exit b → b ≠ g.exit → ∃ d, idom b = some d ∧ IsIdom g.preds g.exit d b) ∧
      ∀ b, ¬ Reach g.preds g.exit b → idom b = none := by
  apply C52_idom g.preds _ g.exit univ he hc
  intro a b
  rw [← hp b a]
  unfold Graph.succs
  simp only [List.mem_append]
  constructor
  · rintro ((h | h) | h)
    · exact Or.inl (Or.inl h)
    · exact Or.inr h
    · exact Or.inl (Or.inr h)
  · rintro ((h | h) | h)
    · exact Or.inl (Or.inl h)
    · exact Or.inr h
    · exact Or.inl (Or.inr h)

/-- The demo graph satisfies the hypotheses (its predecessor list at 3 contains the unreachable block 9). -/
theorem demo_consistent : ∀ a b, b ∈ demo.succs a ↔ a ∈ demo.preds b := by
  have h1 : ∀ a, a ∉ [0, 1, 2, 3, 4, 5, 6, 9] → demo.block a = {} := by
    intro a ha
    simp only [List.mem_cons, List.not_mem_nil, or_false, not_or] at ha
    show demoBlock a = {}
    unfold demoBlock
    split <;> simp_all
  have h2 : ∀ a ∈ [0, 1, 2, 3, 4, 5, 6, 9], ∀ b ∈ demo.succs a, a ∈ demo.preds b := by decide +kernel
  have h3 : ∀ b ∈ [0, 1, 2, 3, 4, 5, 6, 9], ∀ a ∈ demo.preds b, b ∈ demo.succs a := by decide +kernel
  intro a b
  constructor
  · intro h
    by_cases ha : a ∈ [0, 1, 2, 3, 4, 5, 6, 9]
    · exact h2 a ha b h
    · unfold Graph.succs at h
      rw [h1 a ha] at h
      simp at h
  · intro h
    by_cases hb : b ∈ [0, 1, 2, 3, 4, 5, 6, 9]
    · exact h3 b hb a h
    · unfold Graph.preds at h
      rw [h1 b hb] at h
      simp at h

example : (∀ x ∈ [0, 1, 2, 3, 4, 5, 6], ∀ y ∈ demo.succs x, y ∈ [0, 1, 2, 3, 4, 5, 6]) := by decide +kernel

example : ((buildRpo demo.succs demo.entry 7).bind fun (rpo, l) => buildIdom rpo demo.preds 0 l.tail 15 9).map
    (fun idom => [0, 1, 2, 3, 4, 5, 6, 9].map idom) =
    some [some 0, some 0, some 1, some 2, some 2, some 2, some 1, none] := by decide +kernel

/-! ## C68 -/

theorem dfWalk_ok {succ : Nat → List Nat} {entry : Nat} {l : List Nat} {rpo : Nat → Nat} {idom : Nat → Option Nat}
    (I : Inv succ entry l rpo idom) {stop : Nat} (hstop : (idom stop).isSome) : ∀ n q, (idom q).isSome → rpo q < n →
    Anc idom stop q →
    ∃ w, dfWalk idom (some stop) n q = some w ∧ ∀ x, x ∈ w ↔ Anc idom x q ∧ ¬ Anc idom x stop := by
  intro n
  induction n with
  | zero => intro q _ h; omega
  | succ n ih =>
    intro q hq hn ha
    rw [dfWalk]
    by_cases h : q = stop
    · subst h
      rw [if_pos rfl]
      refine ⟨[], rfl, ?_⟩
      intro x
      simp only [List.not_mem_nil, false_iff]
      rintro ⟨h1, h2⟩
      exact h2 h1
    · rw [if_neg (by intro h'; injection h' with h'; exact h h')]
      obtain ⟨p, hp⟩ := Option.isSome_iff_exists.1 hq
      have hsp : Anc idom stop p := by
        rcases (I.anc_eq hp stop).1 ha with h' | h'
        · exact absurd h'.symm h
        · exact h'
      have hqe : q ≠ entry := by
        rintro rfl
        exact h (Anc.at_entry I.root ha).symm
      obtain ⟨_, _, hlt, hps⟩ := I.up q p hp hqe
      obtain ⟨w, hw, hx⟩ := ih p hps (by omega) hsp
      rw [hp]
      refine ⟨q :: w, by simp only [hw]; rfl, ?_⟩
      intro x
      rw [List.mem_cons, hx, I.anc_eq hp x]
      constructor
      · rintro (rfl | ⟨h1, h2⟩)
        · refine ⟨Or.inl rfl, fun h' => ?_⟩
          have := I.anc_le h'
          have := I.anc_le hsp
          omega
        · exact ⟨Or.inr h1, h2⟩
      · rintro ⟨rfl | h1, h2⟩
        · exact Or.inl rfl
        · exact Or.inr ⟨h1, h2⟩

theorem bbDf_ok {succ : Nat → List Nat} {entry : Nat} {l : List Nat} {rpo : Nat → Nat} {idom : Nat → Option Nat} {N : Nat}
    (I : Inv succ entry l rpo idom) {b stop : Nat} (hb : idom b = some stop) (hstop : (idom stop).isSome) : ∀ ps,
    (∀ q ∈ ps, (idom q).isSome ∧ rpo q < N ∧ Anc idom stop q) →
    ∃ w, bbDf idom N b ps = some w ∧ ∀ x, x ∈ w ↔ ∃ q ∈ ps, Anc idom x q ∧ ¬ Anc idom x stop := by
  intro ps
  induction ps with
  | nil => intro _; exact ⟨[], rfl, by simp⟩
  | cons p ps ih =>
    intro h
    obtain ⟨h1, h2, h3⟩ := h p (by simp)
    obtain ⟨w1, hw1, hx1⟩ := dfWalk_ok I hstop N p h1 h2 h3
    obtain ⟨w2, hw2, hx2⟩ := ih (fun q hq => h q (List.mem_cons_of_mem _ hq))
    refine ⟨w1 ++ w2, ?_, ?_⟩
    · rw [bbDf, hb, hw1]
      simp only [hw2]
      rfl
    · intro x
      rw [List.mem_append, hx1, hx2]
      constructor
      · rintro (h | ⟨q, hq, h⟩)
        · exact ⟨p, by simp, h⟩
        · exact ⟨q, List.mem_cons_of_mem _ hq, h⟩
      · rintro ⟨q, hq, h'⟩
        rcases List.mem_cons.1 hq with rfl | hq
        · exact Or.inl h'
        · exact Or.inr ⟨q, hq, h'⟩

theorem buildDf_ok {idom : Nat → Option Nat} {preds : Nat → List Nat} {n : Nat} {R : Nat → Nat → Prop} : ∀ bs,
    (∀ b ∈ bs, ∃ w, bbDf idom n b (preds b) = some w ∧ ∀ x, x ∈ w ↔ R x b) →
    ∃ w, buildDf idom preds n bs = some w ∧ ∀ x b, (x, b) ∈ w ↔ b ∈ bs ∧ R x b := by
  intro bs
  induction bs with
  | nil => intro _; exact ⟨[], rfl, by simp⟩
  | cons c bs ih =>
    intro h
    obtain ⟨w1, hw1, hx1⟩ := h c (by simp)
    obtain ⟨w2, hw2, hx2⟩ := ih (fun b hb => h b (List.mem_cons_of_mem _ hb))
    refine ⟨w1.map (·, c) ++ w2, by rw [buildDf, hw1]; simp only [hw2]; rfl, ?_⟩
    intro x b
    rw [List.mem_append, hx2, List.mem_map]
    constructor
    · rintro (⟨a, ha, he⟩ | ⟨h1, h2⟩)
      · simp only [Prod.mk.injEq] at he
        obtain ⟨rfl, rfl⟩ := he
        exact ⟨by simp, (hx1 a).1 ha⟩
      · exact ⟨List.mem_cons_of_mem _ h1, h2⟩
    · rintro ⟨h1, h2⟩
      rcases List.mem_cons.1 h1 with rfl | h1
      · exact Or.inl ⟨x, (hx1 x).2 h2, rfl⟩
      · exact Or.inr ⟨h1, h2⟩

/-- C68. After `build_rpo` and `build_idom`, `build_df` records exactly the dominance frontiers of the reachable blocks,
provided no reachable block has an unreachable predecessor and the entry has no predecessor. -/
theorem C68_dominance_frontier_partial (succ preds : Nat → List Nat) (entry : Nat) (univ : List Nat) (he : entry ∈ univ)
    (hc : ∀ x ∈ univ, ∀ y ∈ succ x, y ∈ univ) (hp : ∀ a b, b ∈ succ a ↔ a ∈ preds b) (hentry : preds entry = [])
    (hpred : ∀ b, Reach succ entry b → ∀ q ∈ preds b, Reach succ entry q) :
    ∃ rpo order idom df, buildRpo succ entry univ.length = some (rpo, entry :: order) ∧
      buildIdom rpo preds entry order (2 * univ.length + 1) (univ.length + 2) = some idom ∧
      buildDf idom preds (univ.length + 1) (entry :: order).reverse = some df ∧
      ∀ x b, (x, b) ∈ df ↔ Reach succ entry b ∧ InDF succ entry x b := by
  obtain ⟨rpo, l, hb, hh, hnd, hmem, g1, g2, g3, g4⟩ := C51_layout succ entry univ he hc
  clear g1 g2 g3 g4
  obtain ⟨O, order, hl, hpair⟩ := order_of_buildRpo hp hb
  have hlen : l.length ≤ univ.length := by
    refine nodup_length_le hnd ?_
    intro x hx
    obtain ⟨m, hm⟩ := (hmem x).1 hx
    clear hx hb hh hnd hmem O hl hpair hentry hpred
    induction hm with
    | nil => exact he
    | cons h _ ih => exact ih (hc _ he _ h)
  have hs : order.Pairwise (fun a b => rpo a < rpo b) := by
    rw [hl] at hpair
    exact (List.pairwise_cons.1 hpair).2
  obtain ⟨idom, hi, I, hall, hdom⟩ := buildIdom_ok O (n := 2 * univ.length + 1) (f := univ.length + 2) (by omega) (by omega)
    hl hs
  have hdf : ∀ b ∈ l.reverse, ∃ w, bbDf idom (univ.length + 1) b (preds b) = some w ∧
      ∀ x, x ∈ w ↔ InDF succ entry x b := by
    intro b hbl
    rw [List.mem_reverse] at hbl
    by_cases hbe : b = entry
    · subst hbe
      rw [hentry]
      refine ⟨[], rfl, ?_⟩
      intro x
      simp only [List.not_mem_nil, false_iff]
      rintro ⟨⟨q, hq, _⟩, _⟩
      rw [hp, hentry] at hq
      simp at hq
    · obtain ⟨d, hd⟩ := Option.isSome_iff_exists.1 (hall b hbl)
      obtain ⟨_, hdl, hlt, hds⟩ := I.up b d hd hbe
      have hdb : Dom succ entry d b := (hdom b hbl d).1 (.step hd (.refl d))
      have hne : d ≠ b := by rintro rfl; omega
      have hpq : ∀ q ∈ preds b, (idom q).isSome ∧ rpo q < univ.length + 1 ∧ Anc idom d q := by
        intro q hq
        have hql := (O.mem q).2 (hpred b ((O.mem b).1 hbl) q hq)
        have := O.bound q hql
        exact ⟨hall q hql, by omega, (hdom q hql d).2 (Dom.pred hdb ((hp q b).2 hq) hne)⟩
      obtain ⟨w, hw, hx⟩ := bbDf_ok I hd hds (preds b) hpq
      refine ⟨w, hw, ?_⟩
      intro x
      rw [hx]
      have hsd : SDom succ entry x b ↔ Anc idom x d := by
        constructor
        · rintro ⟨h1, h2⟩
          rcases (I.anc_eq hd x).1 ((hdom b hbl x).2 h1) with h | h
          · exact absurd h h2
          · exact h
        · intro h
          refine ⟨(hdom b hbl x).1 (.step hd h), ?_⟩
          rintro rfl
          have := I.anc_le h
          omega
      unfold InDF
      rw [hsd]
      constructor
      · rintro ⟨q, hq, h1, h2⟩
        have hqr := hpred b ((O.mem b).1 hbl) q hq
        exact ⟨⟨q, (hp q b).2 hq, hqr, (hdom q ((O.mem q).2 hqr) x).1 h1⟩, h2⟩
      · rintro ⟨⟨q, hq, hqr, h1⟩, h2⟩
        exact ⟨q, (hp q b).1 hq, (hdom q ((O.mem q).2 hqr) x).2 h1, h2⟩
  obtain ⟨df, h1, h2⟩ := buildDf_ok (R := fun x b => InDF succ entry x b) l.reverse hdf
  refine ⟨rpo, order, idom, df, by rw [hb, hl], hi, by rw [← hl]; exact h1, ?_⟩
  intro x b
  rw [h2, List.mem_reverse, O.mem]

/-- The frontiers of the demo graph without block 9. -/
def demo2 : Graph := { demo with block := fun b => if b = 3 then { next := some 5, prev := [2] } else if b = 9 then {} else demo.block b }

example : ((buildRpo demo2.succs 0 7).bind fun (rpo, l) => (buildIdom rpo demo2.preds 0 l.tail 15 9).bind fun idom =>
    buildDf idom demo2.preds 8 l.reverse) = some [(3, 5), (4, 5), (5, 1), (2, 1), (1, 1)] := by decide +kernel

/-- With the unreachable predecessor 9, the walk runs into a null pointer. -/
theorem C68_unreachable_pred_crashes : ((buildRpo demo.succs 0 7).bind fun (rpo, l) =>
    (buildIdom rpo demo.preds 0 l.tail 15 9).bind fun idom => buildDf idom demo.preds 100 l.reverse) = none := by
  decide +kernel

end Shecc.Props
