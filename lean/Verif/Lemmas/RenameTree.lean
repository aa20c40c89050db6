import Verif.Lemmas.RenameAlg
import Verif.Lemmas.Idom
import Verif.Props.Cfg

/-!
# Lemmas on the dominator tree built by `build_dom`
-/

namespace Shecc.SsaBuild
open Shecc.Cfg CGraph
open CRename

/-! ### `build_dom` -/

/-- What the tree satisfies while it grows. -/
structure TreeOk (idom : Nat → Option Nat) (entry : Nat) (t : Tree) : Prop where
  conv : ∀ x y, t.prev y = some x ↔ y ∈ t.next x
  up : ∀ x y, t.prev y = some x → idom y = some x ∧ y ≠ entry
  nodup : ∀ x, (t.next x).Nodup

theorem treeOk_nil (idom : Nat → Option Nat) (entry : Nat) : TreeOk idom entry ⟨fun _ => [], fun _ => none⟩ :=
  ⟨fun _ _ => (by simp), fun _ _ h => (by cases h), fun _ => List.nodup_nil⟩

theorem domConnect_ok {idom : Nat → Option Nat} {entry : Nat} {t : Tree} (T : TreeOk idom entry t) {d b : Nat}
    (hd : idom b = some d) (hb : b ≠ entry) :
    ((t.prev b).isSome ∧ domConnect t d b = none) ∨
    ∃ t', domConnect t d b = some t' ∧ TreeOk idom entry t' ∧ t'.prev b = some d ∧ ∀ y, (t.prev y).isSome → (t'.prev y).isSome := by
  unfold domConnect
  by_cases h : (t.prev b).isSome
  · exact Or.inl ⟨h, by rw [if_pos h]⟩
  · rw [if_neg h]
    have hn : ∀ x, b ∉ t.next x := fun x hx => h (by rw [(T.conv x b).2 hx]; rfl)
    rw [if_neg (hn d)]
    refine Or.inr ⟨_, rfl, ⟨?_, ?_, ?_⟩, by simp [upd], ?_⟩
    · intro x y
      simp only [upd]
      by_cases hy : y = b
      · subst hy
        by_cases hx : x = d
        · subst hx; simp
        · simp [hx, hn x, Ne.symm hx]
      · by_cases hx : x = d
        · subst hx; simp [hy, T.conv]
        · simp [hx, hy, T.conv]
    · intro x y
      simp only [upd]
      split
      · rename_i hy
        subst hy
        intro e
        simp only [Option.some.injEq] at e
        subst e
        exact ⟨hd, hb⟩
      · exact T.up x y
    · intro x
      simp only [upd]
      split
      · rename_i hx
        subst hx
        rw [List.nodup_append]
        refine ⟨T.nodup x, by simp, ?_⟩
        intro a ha c hc
        simp only [List.mem_singleton] at hc
        subst hc
        rintro rfl
        exact hn x ha
      · exact T.nodup x
    · intro y hy
      simp only [upd]
      split
      · rfl
      · exact hy

theorem bbBuildDom_ok {idom : Nat → Option Nat} {entry : Nat} {rk : Nat → Nat}
    (hup : ∀ b d, idom b = some d → b ≠ entry → rk d < rk b ∧ (idom d).isSome) :
    ∀ (n b : Nat) (t : Tree), rk b < n → (idom b).isSome → TreeOk idom entry t →
    ∃ t', bbBuildDom idom entry n b t = some t' ∧ TreeOk idom entry t' ∧ (∀ y, (t.prev y).isSome → (t'.prev y).isSome) ∧
      (b ≠ entry → (t'.prev b).isSome) := by
  intro n
  induction n with
  | zero => intro b t h; omega
  | succ n ih =>
    intro b t hn hs T
    rw [bbBuildDom]
    by_cases hb : b = entry
    · rw [if_pos hb]
      exact ⟨t, rfl, T, fun _ h => h, fun h => absurd hb h⟩
    · rw [if_neg hb]
      obtain ⟨d, hd⟩ := Option.isSome_iff_exists.1 hs
      rw [hd]
      simp only
      obtain ⟨h1, h2⟩ := hup b d hd hb
      rcases domConnect_ok T hd hb with ⟨hp, e⟩ | ⟨t1, e, T1, hp, hm⟩
      · rw [e]
        exact ⟨t, rfl, T, fun _ h => h, fun _ => hp⟩
      · rw [e]
        simp only
        obtain ⟨t2, e2, T2, hm2, _⟩ := ih d t1 (by omega) h2 T1
        exact ⟨t2, e2, T2, fun y hy => hm2 y (hm y hy), fun _ => hm2 b (by rw [hp]; rfl)⟩

theorem buildDom_ok {idom : Nat → Option Nat} {entry n : Nat} {rk : Nat → Nat}
    (hup : ∀ b d, idom b = some d → b ≠ entry → rk d < rk b ∧ (idom d).isSome) :
    ∀ (bs : List Nat) (t : Tree), (∀ b ∈ bs, rk b < n ∧ (idom b).isSome) → TreeOk idom entry t →
    ∃ t', buildDom idom entry n bs t = some t' ∧ TreeOk idom entry t' ∧ (∀ y, (t.prev y).isSome → (t'.prev y).isSome) ∧
      ∀ b ∈ bs, b ≠ entry → (t'.prev b).isSome := by
  intro bs
  induction bs with
  | nil => intro t _ T; exact ⟨t, rfl, T, fun _ h => h, fun _ h => by cases h⟩
  | cons b bs ih =>
    intro t hb T
    rw [buildDom]
    obtain ⟨h1, h2⟩ := hb b (List.mem_cons_self ..)
    obtain ⟨t1, e1, T1, m1, p1⟩ := bbBuildDom_ok hup n b t h1 h2 T
    rw [e1]
    simp only
    obtain ⟨t2, e2, T2, m2, p2⟩ := ih t1 (fun x hx => hb x (List.mem_cons_of_mem _ hx)) T1
    refine ⟨t2, e2, T2, fun y hy => m2 y (m1 y hy), ?_⟩
    intro x hx hne
    simp only [List.mem_cons] at hx
    rcases hx with rfl | hx
    · exact m2 x (p1 hne)
    · exact p2 x hx hne

/-! ### The tree has no repetitions -/

inductive Below (kids : Nat → List Nat) : Nat → Nat → Prop
  | refl (a : Nat) : Below kids a a
  | step {a p c : Nat} (h : c ∈ kids p) (b : Below kids a p) : Below kids a c

theorem Below.head {kids : Nat → List Nat} {a c z : Nat} (h : c ∈ kids a) (b : Below kids c z) : Below kids a z := by
  induction b with
  | refl => exact .step h (.refl a)
  | step hz _ ih => exact .step hz ih

theorem below_of_subtree {kids : Nat → List Nat} : ∀ (n b z : Nat), z ∈ subtree kids n b → Below kids b z := by
  intro n
  induction n with
  | zero => intro b z h; cases h
  | succ n ih =>
    intro b z h
    rw [subtree] at h
    simp only [List.mem_cons, List.mem_flatMap] at h
    rcases h with rfl | ⟨c, hc, hz⟩
    · exact .refl z
    · exact Below.head hc (ih c z hz)

theorem Below.rank {kids : Nat → List Nat} {rk : Nat → Nat} (hr : ∀ x, ∀ y ∈ kids x, rk x < rk y) {a c : Nat} (h : Below kids a c) :
    rk a ≤ rk c := by
  induction h with
  | refl => exact Nat.le_refl _
  | step h _ ih => have := hr _ _ h; omega

theorem Below.linear {kids : Nat → List Nat} (hu : ∀ x x' y, y ∈ kids x → y ∈ kids x' → x = x') {a z : Nat} (ha : Below kids a z) :
    ∀ b, Below kids b z → Below kids a b ∨ Below kids b a := by
  induction ha with
  | refl => intro b hb; exact Or.inr hb
  | @step p c h hp ih =>
    intro b hb
    cases hb with
    | refl => exact Or.inl (.step h hp)
    | @step p' _ h' hp' =>
      have := hu _ _ _ h h'
      subst this
      exact ih b hp'

theorem subtree_nodup {kids : Nat → List Nat} {rk : Nat → Nat} (hr : ∀ x, ∀ y ∈ kids x, rk x < rk y)
    (hu : ∀ x x' y, y ∈ kids x → y ∈ kids x' → x = x') (hn : ∀ x, (kids x).Nodup) : ∀ (n b : Nat), (subtree kids n b).Nodup := by
  intro n
  induction n with
  | zero => intro b; exact List.nodup_nil
  | succ n ih =>
    intro b
    rw [subtree, List.nodup_cons]
    refine ⟨?_, ?_⟩
    · simp only [List.mem_flatMap, not_exists, not_and]
      intro c hc hb
      have := (below_of_subtree n c b hb).rank hr
      have := hr b c hc
      omega
    · have all : ∀ cs : List Nat, (∀ c ∈ cs, c ∈ kids b) → cs.Nodup → (cs.flatMap (subtree kids n)).Nodup := by
        intro cs
        induction cs with
        | nil => intro _ _; exact List.nodup_nil
        | cons c cs ihc =>
          intro hk hnd
          rw [List.flatMap_cons, List.nodup_append]
          rw [List.nodup_cons] at hnd
          refine ⟨ih c, ihc (fun x hx => hk x (List.mem_cons_of_mem _ hx)) hnd.2, ?_⟩
          intro z hz z' hz' e
          subst e
          simp only [List.mem_flatMap] at hz'
          obtain ⟨c', hc', hz'⟩ := hz'
          have hck := hk c (List.mem_cons_self ..)
          have hck' := hk c' (List.mem_cons_of_mem _ hc')
          have key : ∀ a e, a ∈ kids b → e ∈ kids b → Below kids a e → a = e := by
            intro a e ha he hb
            cases hb with
            | refl => rfl
            | @step p _ h hp =>
              have := hu _ _ _ h he
              subst this
              have := hp.rank hr
              have := hr _ _ ha
              omega
          have hne : c ≠ c' := fun e => hnd.1 (e ▸ hc')
          rcases (below_of_subtree n c z hz).linear hu c' (below_of_subtree n c' z hz') with h | h
          · exact hne (key _ _ hck hck' h)
          · exact hne (key _ _ hck' hck h).symm
      exact all (kids b) (fun _ h => h) (hn b)

/-! ### The analyses together -/

/-- What the analyses before renaming give. -/
structure Analysis (g : Graph) (n : Nat) (vis post : List Nat) (rpo : Nat → Nat) (l : List Nat) (idom : Nat → Option Nat) (t : Tree)
    (df : List (Nat × Nat)) : Prop where
  visMem : ∀ x, x ∈ vis ↔ Reach g.succs g.entry x
  postMem : ∀ x, x ∈ post ↔ Reach g.succs g.entry x
  postNodup : post.Nodup
  isIdom : ∀ b, Reach g.succs g.entry b → b ≠ g.entry → ∃ d, idom b = some d ∧ IsIdom g.succs g.entry d b
  kids : ∀ b d, Reach g.succs g.entry b → b ≠ g.entry → idom b = some d → b ∈ t.next d
  tree : ∀ b, (subtree t.next n b).Nodup
  kidsReach : ∀ x, ∀ y ∈ t.next x, Reach g.succs g.entry y
  kidsIdom : ∀ x, ∀ y ∈ t.next x, IsIdom g.succs g.entry x y
  dfMem : ∀ x b, (x, b) ∈ df ↔ Reach g.succs g.entry b ∧ InDF g.succs g.entry x b

theorem analysis_ok (g : Graph) (univ : List Nat) (n : Nat) (he : g.entry ∈ univ) (hc : ∀ x ∈ univ, ∀ y ∈ g.succs x, y ∈ univ)
    (hp : ∀ a b, b ∈ g.succs a ↔ a ∈ g.preds b) (hentry : g.preds g.entry = [])
    (hpred : ∀ b, Reach g.succs g.entry b → ∀ q ∈ g.preds b, Reach g.succs g.entry q) (hn : 2 * univ.length + 2 ≤ n) :
    ∃ vis post rpo l idom t df, dfs g.succs n g.entry [] = some (vis, post) ∧ buildRpo g.succs g.entry n = some (rpo, l) ∧
      buildIdom rpo g.preds g.entry l.tail n n = some idom ∧
      buildDom idom g.entry n vis.reverse ⟨fun _ => [], fun _ => none⟩ = some t ∧ buildDf idom g.preds n post = some df ∧
      Analysis g n vis post rpo l idom t df := by
  have hleft : left univ [] ≤ n := Nat.le_trans (List.length_filter_le _ _) (by omega)
  obtain ⟨⟨vis, post⟩, hd⟩ := dfs_some hc n g.entry [] he (by simp) hleft
  have hb : ∃ r, buildRpo g.succs g.entry n = some r := by
    unfold buildRpo
    rw [hd]
    exact ⟨_, rfl⟩
  obtain ⟨⟨rpo, l⟩, hb⟩ := hb
  obtain ⟨vis', post', hd', e1, e2, D⟩ := buildRpo_eq hb
  rw [hd] at hd'
  simp only [Option.some.injEq, Prod.mk.injEq] at hd'
  obtain ⟨rfl, rfl⟩ := hd'
  obtain ⟨O, order, hl, hpair⟩ := order_of_buildRpo hp hb
  have hpl : ∀ x, x ∈ post ↔ x ∈ l := by intro x; rw [e2, List.mem_reverse]
  have hlen : l.length ≤ univ.length := by
    refine nodup_length_le O.nodup ?_
    intro x hx
    have key : ∀ a m y, Path g.succs a m y → a ∈ univ → y ∈ univ := by
      intro a m y h
      induction h with
      | nil => exact fun h => h
      | cons h _ ih => exact fun ha => ih (hc _ ha _ h)
    obtain ⟨m, hm⟩ := (O.mem x).1 hx
    exact key _ _ _ hm he
  have hs : order.Pairwise (fun a b => rpo a < rpo b) := by
    rw [hl] at hpair
    exact (List.pairwise_cons.1 hpair).2
  obtain ⟨idom, hi, I, hall, hdom⟩ := buildIdom_ok O (n := n) (f := n) (by omega) (by omega) hl hs
  have hdf : ∀ b ∈ post, ∃ w, bbDf idom n b (g.preds b) = some w ∧ ∀ x, x ∈ w ↔ InDF g.succs g.entry x b := by
    intro b hbl
    rw [hpl] at hbl
    by_cases hbe : b = g.entry
    · subst hbe
      rw [hentry]
      refine ⟨[], rfl, ?_⟩
      intro x
      simp only [List.not_mem_nil, false_iff]
      rintro ⟨⟨q, hq, _⟩, _⟩
      rw [hp, hentry] at hq
      simp at hq
    · obtain ⟨d, hd⟩ := Option.isSome_iff_exists.1 (hall b hbl)
      obtain ⟨_, hdl, hlt, hds⟩ := I.up b d hd hbe
      have hdb : Dom g.succs g.entry d b := (hdom b hbl d).1 (.step hd (.refl d))
      have hne : d ≠ b := by rintro rfl; omega
      have hpq : ∀ q ∈ g.preds b, (idom q).isSome ∧ rpo q < n ∧ Cfg.Anc idom d q := by
        intro q hq
        have hql := (O.mem q).2 (hpred b ((O.mem b).1 hbl) q hq)
        have := O.bound q hql
        exact ⟨hall q hql, by omega, (hdom q hql d).2 (Cfg.Dom.pred hdb ((hp q b).2 hq) hne)⟩
      obtain ⟨w, hw, hx⟩ := Props.bbDf_ok I hd hds (g.preds b) hpq
      refine ⟨w, hw, ?_⟩
      intro x
      rw [hx]
      have hsd : SDom g.succs g.entry x b ↔ Cfg.Anc idom x d := by
        constructor
        · rintro ⟨h1, h2⟩
          rcases (I.anc_eq hd x).1 ((hdom b hbl x).2 h1) with h | h
          · exact absurd h h2
          · exact h
        · intro h
          refine ⟨(hdom b hbl x).1 (.step hd h), ?_⟩
          rintro rfl
          have := I.anc_le h
          omega
      unfold InDF
      rw [hsd]
      constructor
      · rintro ⟨q, hq, h1, h2⟩
        have hqr := hpred b ((O.mem b).1 hbl) q hq
        exact ⟨⟨q, (hp q b).2 hq, hqr, (hdom q ((O.mem q).2 hqr) x).1 h1⟩, h2⟩
      · rintro ⟨⟨q, hq, hqr, h1⟩, h2⟩
        exact ⟨q, (hp q b).1 hq, (hdom q ((O.mem q).2 hqr) x).2 h1, h2⟩
  obtain ⟨df, h1, h2⟩ := Props.buildDf_ok (R := fun x b => InDF g.succs g.entry x b) post hdf
  have hvis : ∀ x, x ∈ vis ↔ Reach g.succs g.entry x := by
    intro x
    rw [D.mem, hpl, O.mem]
    simp
  have hup : ∀ b d, idom b = some d → b ≠ g.entry → rpo d < rpo b ∧ (idom d).isSome := fun b d hd hb =>
    ⟨(I.up b d hd hb).2.2.1, (I.up b d hd hb).2.2.2⟩
  obtain ⟨t, ht, T, _, hprev⟩ := buildDom_ok (n := n) hup vis.reverse ⟨fun _ => [], fun _ => none⟩
    (by
      intro b hb
      rw [List.mem_reverse, hvis, ← O.mem] at hb
      have := O.bound b hb
      exact ⟨by omega, hall b hb⟩) (treeOk_nil idom g.entry)
  have hkid : ∀ x, ∀ y ∈ t.next x, idom y = some x ∧ y ≠ g.entry := fun x y hy => T.up x y ((T.conv x y).2 hy)
  have isI : ∀ b d, b ∈ l → b ≠ g.entry → idom b = some d → IsIdom g.succs g.entry d b := by
    intro b d hbl hne hd
    refine ⟨⟨(hdom b hbl d).1 (.step hd (.refl d)), ?_⟩, ?_⟩
    · rintro rfl
      have := (hup d d hd hne).1
      omega
    · intro e hes
      have hdl := (I.up b d hd hne).2.1
      rcases (I.anc_eq hd e).1 ((hdom b hbl e).2 hes.1) with h | h
      · exact absurd h hes.2
      · exact (hdom d hdl e).1 h
  refine ⟨vis, post, rpo, l, idom, t, df, hd, hb, ?_, ht, h1, hvis, ?_, D.nodup, ?_, ?_, ?_, ?_, ?_, ?_⟩
  · rw [hl]; exact hi
  · intro x; rw [hpl, O.mem]
  · intro b hrb hne
    have hbl := (O.mem b).2 hrb
    obtain ⟨d, hd⟩ := Option.isSome_iff_exists.1 (hall b hbl)
    exact ⟨d, hd, isI b d hbl hne hd⟩
  · intro b d hrb hne hd
    have := hprev b (by rw [List.mem_reverse, hvis]; exact hrb) hne
    obtain ⟨x, hx⟩ := Option.isSome_iff_exists.1 this
    have hx' := (T.up x b hx).1
    rw [hd] at hx'
    simp only [Option.some.injEq] at hx'
    subst hx'
    exact (T.conv _ _).1 hx
  · intro b
    refine subtree_nodup (rk := rpo) ?_ ?_ T.nodup n b
    · intro x y hy
      obtain ⟨h3, h4⟩ := hkid x y hy
      exact (hup y x h3 h4).1
    · intro x x' y hy hy'
      have a1 := (hkid x y hy).1
      have a2 := (hkid x' y hy').1
      rw [a1] at a2
      simpa using a2
  · intro x y hy
    obtain ⟨h3, h4⟩ := hkid x y hy
    exact (O.mem y).1 (I.up y x h3 h4).1
  · intro x y hy
    obtain ⟨h3, h4⟩ := hkid x y hy
    exact isI y x (I.up y x h3 h4).1 h4 h3
  · intro x b
    rw [h2, hpl, O.mem]

end Shecc.SsaBuild
