import Verif.Model.UseChain

/-! # Lemmas about doubly linked lists, for `Props/UseChain` -/

namespace Shecc.UseChain

section
variable {α : Type}

/-- address of the first element, `n` if there is none -/
def hd (l : List (Nat × α)) (n : Option Nat) : Option Nat := match l with | [] => n | x :: _ => some x.1

/-- address of the last element, `p` if there is none -/
def lst : List (Nat × α) → Option Nat → Option Nat
  | [], p => p
  | x :: r, _ => lst r (some x.1)

/-- The elements `l` (address, instruction) are linked to each other, to `p` before and to `n` behind. -/
def Seg (node : Nat → Option (Node α)) : Option Nat → List (Nat × α) → Option Nat → Prop
  | _, [], _ => True
  | p, x :: r, n => node x.1 = some ⟨x.2, hd r n, p⟩ ∧ Seg node (some x.1) r n

theorem hd_append (a b : List (Nat × α)) (n) : hd (a ++ b) n = hd a (hd b n) := by cases a <;> rfl

theorem lst_append (a b : List (Nat × α)) (p) : lst (a ++ b) p = lst b (lst a p) := by
  induction a generalizing p with
  | nil => rfl
  | cons x a ih => exact ih _

theorem seg_append (node) (a b : List (Nat × α)) (p n) :
    Seg node p (a ++ b) n ↔ Seg node p a (hd b n) ∧ Seg node (lst a p) b n := by
  induction a generalizing p with
  | nil => simp [Seg, lst]
  | cons x a ih => simp only [List.cons_append, Seg, hd_append, lst, ih, and_assoc]

theorem seg_frame {node node' : Nat → Option (Node α)} {l : List (Nat × α)} {p n}
    (h : ∀ x ∈ l.map Prod.fst, node' x = node x) (hs : Seg node p l n) : Seg node' p l n := by
  induction l generalizing p with
  | nil => trivial
  | cons x l ih =>
    refine ⟨by rw [h _ (by simp)]; exact hs.1, ih (fun y hy => h y (by simp at hy ⊢; exact Or.inr hy)) hs.2⟩

theorem seg_mem {node : Nat → Option (Node α)} {l : List (Nat × α)} {p n} (hs : Seg node p l n) (x) (hx : x ∈ l) :
    ∃ nx pv, node x.1 = some ⟨x.2, nx, pv⟩ := by
  induction l generalizing p with
  | nil => cases hx
  | cons y l ih =>
    rcases List.mem_cons.mp hx with e | h
    · subst e; exact ⟨_, _, hs.1⟩
    · exact ih hs.2 h

theorem lst_mem (a : List (Nat × α)) (p y) (h : lst a p = some y) (hp : p ≠ some y) : y ∈ a.map Prod.fst := by
  induction a generalizing p with
  | nil => exact absurd h hp
  | cons x a ih =>
    by_cases e : x.1 = y
    · simp [e]
    · have := ih _ h (by simpa using e)
      simp at this ⊢; exact Or.inr this

theorem hd_mem (b : List (Nat × α)) (y) (h : hd b none = some y) : y ∈ b.map Prod.fst := by
  cases b with
  | nil => cases h
  | cons z b => injection h with h; simp [h]

theorem seg_next {node node' : Nat → Option (Node α)} {a : List (Nat × α)} {p n n'} (hs : Seg node p a n)
    (nd : (a.map Prod.fst).Nodup)
    (h : ∀ q ∈ a.map Prod.fst, node' q = if lst a none = some q then (node q).map fun m => { m with next := n' } else node q) :
    Seg node' p a n' := by
  rcases List.eq_nil_or_concat a with e | ⟨a, y, e⟩
  · subst e; trivial
  · subst e
    rw [List.concat_eq_append] at *
    rw [seg_append] at hs ⊢
    have hl : lst (a ++ [y]) none = some y.1 := by rw [lst_append]; rfl
    rw [hl] at h
    simp only [List.map_append, List.map_cons, List.map_nil, List.nodup_append, List.mem_singleton] at nd
    refine ⟨seg_frame (fun q hq => ?_) hs.1, ?_, trivial⟩
    · rw [h q (by simp only [List.map_append]; exact List.mem_append_left _ hq), if_neg]
      intro e; injection e with e; exact nd.2.2 q hq y.1 rfl e.symm
    · rw [h y.1 (by simp), if_pos rfl, hs.2.1]; rfl

theorem seg_prev {node node' : Nat → Option (Node α)} {b : List (Nat × α)} {p p' n} (hs : Seg node p b n)
    (nd : (b.map Prod.fst).Nodup)
    (h : ∀ q ∈ b.map Prod.fst, node' q = if hd b none = some q then (node q).map fun m => { m with prev := p' } else node q) :
    Seg node' p' b n := by
  cases b with
  | nil => trivial
  | cons z b =>
    simp only [List.map_cons, List.nodup_cons] at nd
    refine ⟨?_, seg_frame (fun q hq => ?_) hs.2⟩
    · rw [h z.1 (by simp), if_pos (show hd (z :: b) none = some z.1 from rfl), hs.1]; rfl
    · rw [h q (by simp only [List.map_cons]; exact List.mem_cons_of_mem _ hq), if_neg]
      intro e; injection e with e; exact nd.1 (e ▸ hq)

end

structure Valid (s : Chains) (L : Nat → List (Nat × Nat)) : Prop where
  seg : ∀ v, Seg s.node none (L v) none
  head : ∀ v, s.head v = hd (L v) none
  tail : ∀ v, s.tail v = lst (L v) none
  disj : ∀ v w x, x ∈ (L v).map Prod.fst → x ∈ (L w).map Prod.fst → v = w
  nodup : ∀ v, ((L v).map Prod.fst).Nodup

/-- What `delete` leaves of the elements. -/
def without (node : Nat → Option (Node Nat)) (a : List (Nat × Nat)) (x : Nat × Nat) (b : List (Nat × Nat)) : Nat → Option (Node Nat) :=
  fun q => if q = x.1 then none
    else if lst a none = some q then (node q).map fun m => { m with next := hd b none }
    else if hd b none = some q then (node q).map fun m => { m with prev := lst a none }
    else node q

theorem delete_eq {s : Chains} {v : Nat} {a b : List (Nat × Nat)} {x : Nat × Nat}
    (hs : Seg s.node none (a ++ x :: b) none) (nd : ((a ++ x :: b).map Prod.fst).Nodup) (hne : a ++ b ≠ []) :
    delete x.1 v s = some
      { node := without s.node a x b
        head := if lst a none = none then upd s.head v (hd b none) else s.head
        tail := if hd b none = none then upd s.tail v (lst a none) else s.tail } := by
  rw [seg_append] at hs
  obtain ⟨ha, hx, hb⟩ := hs
  simp only [List.map_append, List.map_cons, List.nodup_append, List.nodup_cons] at nd
  obtain ⟨nda, ⟨hxb, ndb⟩, hab⟩ := nd
  have hxa : x.1 ∉ a.map Prod.fst := fun h => hab _ h _ List.mem_cons_self rfl
  rcases ea : lst a none with _ | y <;> rcases eb : hd b none with _ | z
  · exfalso
    cases b with
    | cons z b => cases eb
    | nil =>
      rcases List.eq_nil_or_concat a with e | ⟨a, y, e⟩
      · subst e; exact hne rfl
      · subst e; rw [List.concat_eq_append, lst_append] at ea; cases ea
  · have hz := hd_mem b z eb
    have hzx : z ≠ x.1 := fun e => hxb (e ▸ hz)
    obtain ⟨⟨z', iz⟩, hzm, hze⟩ := List.mem_map.mp hz
    subst hze
    obtain ⟨nx, pv, hzn⟩ := seg_mem hb _ hzm
    rw [ea, eb] at hx
    simp only at hzn hzx
    simp only [delete, hx, unlinkPrev, modify, hzn]
    simp only [upd, if_neg (Ne.symm hzx), hx, unlinkNext, modify, if_pos, Option.map_some]
    simp only [if_neg (Ne.symm hzx), hx, Option.some.injEq]
    simp only [Chains.mk.injEq, reduceCtorEq, if_false, if_true, and_true]
    refine funext fun q => ?_
    simp only [without, upd, ea, eb, reduceCtorEq, if_false, Option.some.injEq]
    by_cases e1 : q = x.1
    · simp [e1]
    · by_cases e2 : z' = q
      · subst e2; simp [hzx, hzn]
      · simp [e1, e2, Ne.symm e2]
  · have hy := lst_mem a none y ea (by simp)
    have hyx : y ≠ x.1 := fun e => hxa (e ▸ hy)
    obtain ⟨⟨y', iy⟩, hym, hye⟩ := List.mem_map.mp hy
    subst hye
    obtain ⟨nx, pv, hyn⟩ := seg_mem ha _ hym
    rw [ea, eb] at hx
    simp only at hyn hyx
    simp only [delete, hx, unlinkPrev, modify, hyn]
    simp only [upd, if_neg (Ne.symm hyx), hx, unlinkNext, modify, if_pos, Option.map_some]
    simp only [if_neg (Ne.symm hyx), hx, Option.some.injEq]
    simp only [Chains.mk.injEq, reduceCtorEq, if_false, if_true, and_true]
    refine funext fun q => ?_
    simp only [without, upd, ea, eb, reduceCtorEq, if_false, Option.some.injEq]
    by_cases e1 : q = x.1
    · simp [e1]
    · by_cases e2 : y' = q
      · subst e2; simp [hyx, hyn]
      · simp [e1, e2, Ne.symm e2]
  · have hz := hd_mem b z eb
    have hzx : z ≠ x.1 := fun e => hxb (e ▸ hz)
    obtain ⟨⟨z', iz⟩, hzm, hze⟩ := List.mem_map.mp hz
    subst hze
    obtain ⟨nx, pv, hzn⟩ := seg_mem hb _ hzm
    have hy := lst_mem a none y ea (by simp)
    have hyx : y ≠ x.1 := fun e => hxa (e ▸ hy)
    obtain ⟨⟨y', iy⟩, hym, hye⟩ := List.mem_map.mp hy
    subst hye
    obtain ⟨nx', pv', hyn⟩ := seg_mem ha _ hym
    have hyz : y' ≠ z' := fun e => hab _ hy _ (List.mem_cons_of_mem _ hz) e
    rw [ea, eb] at hx
    simp only at hyn hyx hzn hzx
    simp only [delete, hx, unlinkPrev, modify, hyn]
    simp only [upd, if_neg (Ne.symm hyx), hx, unlinkNext, modify, if_neg (Ne.symm hyz), hzn]
    simp only [if_neg (Ne.symm hyx), if_neg (Ne.symm hzx), hx, Option.some.injEq]
    simp only [Chains.mk.injEq, reduceCtorEq, if_false, and_true]
    refine funext fun q => ?_
    simp only [without, upd, ea, eb, Option.some.injEq]
    by_cases e1 : q = x.1
    · simp [e1]
    · by_cases e2 : y' = q
      · subst e2; simp [hyx, hyn, hyz]
      · by_cases e3 : z' = q
        · subst e3; simp [hzx, hzn, hyz]
        · simp [e1, e2, e3, Ne.symm e2, Ne.symm e3]

theorem without_other {node : Nat → Option (Node Nat)} {a b : List (Nat × Nat)} {x : Nat × Nat} {q : Nat}
    (h : q ∉ (a ++ x :: b).map Prod.fst) : without node a x b q = node q := by
  simp only [List.map_append, List.map_cons, List.mem_append, List.mem_cons, not_or] at h
  rw [without, if_neg h.2.1, if_neg (fun e => h.1 (lst_mem a none q e (by simp))),
    if_neg (fun e => h.2.2 (hd_mem b q e))]

/-- Releasing an element that is not the only one of its list leaves the lists without this element. -/
theorem delete_valid {s : Chains} {L : Nat → List (Nat × Nat)} (V : Valid s L) {v : Nat} {a b : List (Nat × Nat)}
    {x : Nat × Nat} (e : L v = a ++ x :: b) (hne : a ++ b ≠ []) :
    ∃ s', delete x.1 v s = some s' ∧ Valid s' (upd L v (a ++ b)) ∧ s'.node x.1 = none ∧
      ∀ q, q ∉ (L v).map Prod.fst → s'.node q = s.node q := by
  have hs := V.seg v
  have nd := V.nodup v
  rw [e] at hs nd
  refine ⟨_, delete_eq hs nd hne, ?_, by simp [without], fun q hq => without_other (e ▸ hq)⟩
  have hs' := hs
  rw [seg_append] at hs'
  obtain ⟨ha, hx, hb⟩ := hs'
  have nd' := nd
  simp only [List.map_append, List.map_cons, List.nodup_append, List.nodup_cons] at nd'
  obtain ⟨nda, ⟨hxb, ndb⟩, hab⟩ := nd'
  have hxa : x.1 ∉ a.map Prod.fst := fun h => hab _ h _ List.mem_cons_self rfl
  have sub : ∀ w q, q ∈ (upd L v (a ++ b) w).map Prod.fst → q ∈ (L w).map Prod.fst := by
    intro w q hq
    by_cases ew : w = v
    · subst ew
      simp only [upd, if_pos, List.map_append, List.mem_append] at hq
      rw [e]; simp only [List.map_append, List.map_cons, List.mem_append, List.mem_cons]
      rcases hq with h | h
      · exact Or.inl h
      · exact Or.inr (Or.inr h)
    · simpa only [upd, if_neg ew] using hq
  constructor
  · intro w
    by_cases ew : w = v
    · subst ew
      simp only [upd, if_pos]
      rw [seg_append]
      refine ⟨seg_next ha nda fun q hq => ?_, seg_prev hb ndb fun q hq => ?_⟩
      · rw [without, if_neg (c := q = x.1) (fun h => hxa (h ▸ hq)), if_neg (c := hd b none = some q)]
        intro h; exact hab _ hq _ (List.mem_cons_of_mem _ (hd_mem b q h)) rfl
      · rw [without, if_neg (c := q = x.1) (fun h => hxb (h ▸ hq)), if_neg (c := lst a none = some q)]
        intro h; exact hab _ (lst_mem a none q h (by simp)) _ (List.mem_cons_of_mem _ hq) rfl
    · simp only [upd, if_neg ew]
      refine seg_frame (fun q hq => without_other fun h => ew (V.disj w v q hq (e ▸ h))) (V.seg w)
  · intro w
    have h0 := V.head w
    by_cases ew : w = v
    · subst ew
      rw [e, hd_append] at h0
      simp only [upd, if_pos, hd_append]
      cases a with
      | nil => simp [lst, hd, upd]
      | cons y a =>
        have : lst (y :: a) none ≠ none := by
          intro h
          rcases List.eq_nil_or_concat (y :: a) with e | ⟨a', y', e⟩
          · cases e
          · rw [e, List.concat_eq_append, lst_append] at h; cases h
        rw [if_neg this, h0]; rfl
    · simp only [upd, if_neg ew]
      by_cases hc : lst a none = none
      · rw [if_pos hc]; exact (if_neg ew).trans h0
      · rw [if_neg hc]; exact h0
  · intro w
    have h0 := V.tail w
    by_cases ew : w = v
    · subst ew
      rw [e, lst_append] at h0
      simp only [upd, if_pos, lst_append]
      cases b with
      | nil => simp [lst, hd, upd]
      | cons z b => rw [if_neg (by simp [hd]), h0]; rfl
    · simp only [upd, if_neg ew]
      by_cases hc : hd b none = none
      · rw [if_pos hc]; exact (if_neg ew).trans h0
      · rw [if_neg hc]; exact h0
  · intro w w' q h h'
    exact V.disj w w' q (sub _ _ h) (sub _ _ h')
  · intro w
    by_cases ew : w = v
    · subst ew
      simp only [upd, if_pos, List.map_append, List.nodup_append]
      exact ⟨nda, ndb, fun p hp q hq => hab p hp q (List.mem_cons_of_mem _ hq)⟩
    · simp only [upd, if_neg ew]; exact V.nodup w

/-- Releasing the only element of a list goes through the null pointer. -/
theorem delete_only {s : Chains} {v : Nat} {x : Nat × Nat} (hs : Seg s.node none [x] none) : delete x.1 v s = none := by
  obtain ⟨hx, _⟩ := hs
  simp only [hd] at hx
  simp [delete, hx, unlinkPrev]

/-- Adding a use at a free address appends it to the list of its variable. -/
theorem addTail_valid {s : Chains} {L : Nat → List (Nat × Nat)} (V : Valid s L) (u i v : Nat)
    (hu : ∀ w, u ∉ (L w).map Prod.fst) :
    ∃ s', addTail u i v s = some s' ∧ Valid s' (upd L v (L v ++ [(u, i)])) := by
  have key : ∃ s', addTail u i v s = some s' ∧ s'.head = upd s.head v (hd (L v ++ [(u, i)]) none) ∧
      s'.tail = upd s.tail v (some u) ∧
      ∀ q, s'.node q = if q = u then some ⟨i, none, lst (L v) none⟩
        else if lst (L v) none = some q then (s.node q).map fun m => { m with next := some u } else s.node q := by
    rcases List.eq_nil_or_concat (L v) with e | ⟨a, y, e⟩
    · have hh := V.head v; have ht := V.tail v
      rw [e] at hh ht
      simp only [hd, lst] at hh ht
      refine ⟨⟨upd (upd s.node u (some ⟨i, none, none⟩)) u (some ⟨i, none, none⟩), upd s.head v (some u), upd s.tail v (some u)⟩,
        ?_, ?_, ?_, ?_⟩
      · simp [addTail, hh, ht, modify, upd]
      · simp [e, hd]
      · rfl
      · intro q; simp only [upd, e, lst, reduceCtorEq, if_false]
        by_cases e1 : q = u <;> simp [e1]
    · rw [List.concat_eq_append] at e
      have hl : lst (L v) none = some y.1 := by rw [e, lst_append]; rfl
      have ht := V.tail v
      rw [hl] at ht
      have hy : y ∈ L v := by rw [e]; simp
      obtain ⟨nx, pv, hn⟩ := seg_mem (V.seg v) y hy
      have hyu : y.1 ≠ u := fun h => hu v (h ▸ List.mem_map_of_mem hy)
      obtain ⟨f, hf⟩ : ∃ f, hd (L v) none = some f := by
        rw [e]; cases a <;> exact ⟨_, rfl⟩
      have hh := V.head v
      rw [hf] at hh
      refine ⟨⟨upd (upd (upd s.node u (some ⟨i, none, none⟩)) y.1 (some ⟨y.2, some u, pv⟩)) u (some ⟨i, none, some y.1⟩),
        s.head, upd s.tail v (some u)⟩, ?_, ?_, rfl, ?_⟩
      · simp [addTail, hh, ht, modify, upd, hyu, Ne.symm hyu, hn]
      · funext w
        by_cases ew : w = v
        · subst ew
          simp only [upd, if_pos, hd_append]
          rw [hh, ← hf, e]; cases a <;> rfl
        · simp [upd, ew]
      · intro q; simp only [upd, hl]
        by_cases e1 : q = u
        · simp [e1]
        · by_cases e2 : q = y.1
          · simp [e2, hn, hyu]
          · have : ¬ y.1 = q := fun h => e2 h.symm
            simp [e1, e2, this]
  obtain ⟨s', e, hh, ht, hn⟩ := key
  have sub : ∀ w q, q ∈ (upd L v (L v ++ [(u, i)]) w).map Prod.fst → q ∈ (L w).map Prod.fst ∨ (w = v ∧ q = u) := by
    intro w q hq
    by_cases ew : w = v
    · subst ew
      simp only [upd, if_pos, List.map_append, List.mem_append, List.map_cons, List.map_nil, List.mem_singleton] at hq
      rcases hq with h | h
      · exact Or.inl h
      · exact Or.inr ⟨rfl, h⟩
    · exact Or.inl (by simpa only [upd, if_neg ew] using hq)
  refine ⟨s', e, ?_, ?_, ?_, ?_, ?_⟩
  · intro w
    by_cases ew : w = v
    · subst ew
      simp only [upd, if_pos]
      rw [seg_append]
      refine ⟨seg_next (V.seg w) (V.nodup w) fun q hq => ?_, ?_, trivial⟩
      · rw [hn, if_neg (c := q = u) (fun h => hu w (h ▸ hq))]; rfl
      · rw [hn, if_pos rfl]; rfl
    · simp only [upd, if_neg ew]
      refine seg_frame (fun q hq => ?_) (V.seg w)
      rw [hn, if_neg (c := q = u) (fun h => hu w (h ▸ hq)), if_neg]
      intro h; exact ew (V.disj w v q hq (lst_mem _ _ q h (by simp)))
  · intro w
    rw [hh]
    by_cases ew : w = v
    · subst ew; simp [upd]
    · simp only [upd, if_neg ew]; exact V.head w
  · intro w
    rw [ht]
    by_cases ew : w = v
    · subst ew; simp only [upd, if_pos, lst_append]; rfl
    · simp only [upd, if_neg ew]; exact V.tail w
  · intro w w' q h h'
    rcases sub _ _ h with h1 | ⟨h1, e1⟩ <;> rcases sub _ _ h' with h2 | ⟨h2, e2⟩
    · exact V.disj w w' q h1 h2
    · subst e2; exact absurd h1 (hu w)
    · subst e1; exact absurd h2 (hu w')
    · exact h1.trans h2.symm
  · intro w
    by_cases ew : w = v
    · subst ew
      simp only [upd, if_pos, List.map_append, List.nodup_append]
      refine ⟨V.nodup w, by simp, fun p hp q hq epq => ?_⟩
      simp at hq; subst hq; subst epq; exact hu w hp
    · simp only [upd, if_neg ew]; exact V.nodup w

/-- The whole of `use_chain_build`. -/
theorem addAll_valid (us : List (Nat × Nat)) : ∀ (addrs : List Nat) (s : Chains) (L : Nat → List (Nat × Nat)), Valid s L →
    addrs.Nodup → (∀ u ∈ addrs, ∀ w, u ∉ (L w).map Prod.fst) → us.length ≤ addrs.length →
    ∃ s' L', addAll us addrs s = some s' ∧ Valid s' L' ∧
      ∀ v, (L' v).map Prod.snd = (L v).map Prod.snd ++ (us.filter fun x => x.2 = v).map Prod.fst := by
  induction us with
  | nil => intro addrs s L V _ _ _; exact ⟨s, L, by simp [addAll], V, by simp⟩
  | cons x us ih =>
    intro addrs s L V nd hf hl
    obtain ⟨i, v⟩ := x
    cases addrs with
    | nil => simp at hl
    | cons u addrs =>
      obtain ⟨s', e, V'⟩ := addTail_valid V u i v (hf u (by simp))
      simp only [List.nodup_cons] at nd
      obtain ⟨s2, L2, e2, V2, h2⟩ := ih addrs s' _ V' nd.2 (by
        intro u' hu' w h
        by_cases ew : w = v
        · subst ew
          simp only [upd, if_pos, List.map_append, List.mem_append, List.map_cons, List.map_nil, List.mem_singleton] at h
          rcases h with h | h
          · exact hf u' (by simp [hu']) w h
          · subst h; exact nd.1 hu'
        · simp only [upd, if_neg ew] at h
          exact hf u' (by simp [hu']) w h) (by simpa using hl)
      refine ⟨s2, L2, by simp only [addAll, e, e2], V2, fun w => ?_⟩
      rw [h2]
      by_cases ew : w = v
      · subst ew; simp [upd]
      · have : ¬ v = w := fun h => ew h.symm
        simp [upd, ew, this]

theorem search_spec {s : Chains} {l : List (Nat × Nat)} {p} (hs : Seg s.node p l none) (j n : Nat) (hn : l.length < n)
    (hj : j ∈ l.map Prod.snd) : ∃ d, search j s n (hd l none) = some d ∧ (d, j) ∈ l := by
  induction l generalizing p n with
  | nil => simp at hj
  | cons x l ih =>
    obtain ⟨n, rfl⟩ : ∃ m, n = m + 1 := ⟨n - 1, by simp at hn; omega⟩
    by_cases e : x.2 = j
    · refine ⟨x.1, by simp only [hd, search, hs.1, if_pos e], ?_⟩
      subst e; simp
    · obtain ⟨d, h1, h2⟩ := ih hs.2 n (by simp at hn; omega) (by
        simp only [List.map_cons, List.mem_cons] at hj
        rcases hj with h | h
        · exact absurd h.symm e
        · exact h)
      refine ⟨d, ?_, by simp [h2]⟩
      simp only [hd, search, hs.1, if_neg e]
      exact h1

/-- instructions that occur in the chain of `v` -/
abbrev users (L : Nat → List (Nat × Nat)) (v : Nat) : List Nat := (L v).map Prod.snd

/-- An instruction with two different operands is at most once in the chain of the first, and then also in that of the second. -/
def Paired (o : Operands) (L : Nat → List (Nat × Nat)) : Prop :=
  ∀ i b x, o.rs1 i = some b → o.rs2 i = some x → b ≠ x →
    (users L b).count i ≤ 1 ∧ (i ∈ users L b → i ∈ users L x)

/-- The chains differ only in uses by the instructions `out`. -/
def Keeps (out : List Nat) (L L' : Nat → List (Nat × Nat)) : Prop :=
  ∀ v (P : Nat → Bool), (∀ j ∈ out, P j = false) → (users L' v).filter P = (users L v).filter P

theorem Keeps.mem {out L L'} (h : Keeps out L L') {v i : Nat} (hi : i ∉ out) : i ∈ users L' v ↔ i ∈ users L v := by
  have := h v (fun k => k = i) (fun j hj => by
    have : j ≠ i := fun e => hi (e ▸ hj)
    simpa using this)
  constructor
  · intro h'
    have : i ∈ (users L v).filter (fun k => k = i) := this ▸ List.mem_filter.mpr ⟨h', by simp⟩
    exact (List.mem_filter.mp this).1
  · intro h'
    have : i ∈ (users L' v).filter (fun k => k = i) := this ▸ List.mem_filter.mpr ⟨h', by simp⟩
    exact (List.mem_filter.mp this).1

theorem Keeps.count {out L L'} (h : Keeps out L L') {v i : Nat} (hi : i ∉ out) : (users L' v).count i = (users L v).count i := by
  have := h v (fun k => k == i) (fun j hj => by
    have : j ≠ i := fun e => hi (e ▸ hj)
    simpa using this)
  change List.countP (fun k => k == i) _ = List.countP (fun k => k == i) _
  rw [List.countP_eq_length_filter, List.countP_eq_length_filter, this]

theorem Keeps.trans {out L L' L''} (h : Keeps out L L') (h' : Keeps out L' L'') : Keeps out L L'' :=
  fun v P hP => (h' v P hP).trans (h v P hP)

theorem Keeps.mono {out out' L L'} (h : Keeps out L L') (hs : ∀ j ∈ out, j ∈ out') : Keeps out' L L' :=
  fun v P hP => h v P fun j hj => hP j (hs j hj)

theorem Keeps.refl (out L) : Keeps out L L := fun _ _ _ => rfl

/-- What the two pointers to elements that are to be released point to. -/
inductive Pending (o : Operands) (prev base idx : Nat) (L : Nat → List (Nat × Nat)) (a : List (Nat × Nat)) (out : List Nat) :
    Option Nat → Option Nat → Prop
  | none : Pending o prev base idx L a out none none
  | some (j d1 d2 : Nat) (a' : List (Nat × Nat)) : a = a' ++ [(d1, j)] → (d2, j) ∈ L idx → o.rs1 j = some base →
      o.rs2 j = some idx → j ≠ prev → j ∈ out → Pending o prev base idx L a out (some d1) (some d2)

theorem flush {o : Operands} {prev base idx : Nat} {s L a out d1 d2} {x : Nat × Nat} {rest : List (Nat × Nat)}
    (V : Valid s L) (hP : Paired o L)
    (hbi : base ≠ idx) (hp : Pending o prev base idx L a out d1 d2) (e : L base = a ++ x :: rest)
    (hprev : prev ∈ users L idx) :
    ∃ s1 s2 L' a', deleteIf o.rs1 d1 s = some s1 ∧ deleteIf o.rs2 d2 s1 = some s2 ∧ Valid s2 L' ∧ Paired o L' ∧
      L' base = a' ++ x :: rest ∧ Keeps out L L' ∧ (∀ v, (L' v).length ≤ (L v).length) ∧ prev ∈ users L' idx := by
  cases hp with
  | none => exact ⟨s, s, L, a, rfl, rfl, V, hP, e, Keeps.refl _ _, fun _ => Nat.le_refl _, hprev⟩
  | some j d1 d2 a' ha hd2 h1 h2 hjp hjo =>
    subst ha
    have e' : L base = a' ++ (d1, j) :: (x :: rest) := by rw [e]; simp
    obtain ⟨s1, es1, V1, _, _⟩ := delete_valid V e' (by simp)
    obtain ⟨nx, pv, hn⟩ := seg_mem (V.seg base) (d1, j) (by rw [e']; simp)
    have hidx : upd L base (a' ++ x :: rest) idx = L idx := if_neg (Ne.symm hbi)
    obtain ⟨p, q, epq⟩ := List.append_of_mem hd2
    have hne : p ++ q ≠ [] := by
      intro h
      simp only [List.append_eq_nil_iff] at h
      rw [users, epq, h.1, h.2] at hprev
      simp at hprev; exact hjp hprev.symm
    have epq' : upd L base (a' ++ x :: rest) idx = p ++ (d2, j) :: q := hidx.trans epq
    obtain ⟨s2, es2, V2, _, _⟩ := delete_valid V1 epq' hne
    obtain ⟨nx', pv', hn'⟩ := seg_mem (V1.seg idx) (d2, j) (by rw [hidx]; exact hd2)
    have hb2 : upd (upd L base (a' ++ x :: rest)) idx (p ++ q) base = a' ++ x :: rest := by simp [upd, hbi]
    have hi2 : upd (upd L base (a' ++ x :: rest)) idx (p ++ q) idx = p ++ q := by simp [upd]
    have hK : Keeps [j] L (upd (upd L base (a' ++ x :: rest)) idx (p ++ q)) := by
      intro v P hPj
      have hPj : P j = false := hPj j (by simp)
      by_cases eb : v = base
      · subst eb
        simp only [users, hb2, e']
        simp [hPj]
      · by_cases ei : v = idx
        · subst ei
          simp only [users, hi2, epq]
          simp [hPj]
        · simp [users, upd, eb, ei]
    refine ⟨s1, s2, _, a', ?_, ?_, V2, ?_, hb2, hK.mono (by simp [hjo]), ?_, ?_⟩
    · simp only [deleteIf, hn, h1]; exact es1
    · simp only [deleteIf, hn', h2]; exact es2
    · intro i b y hi1 hi2' hby
      by_cases eij : i = j
      · subst eij
        rw [h1] at hi1; injection hi1 with hi1; subst hi1
        have hc := (hP i base y h1 hi2' hby).1
        have : (users (upd (upd L base (a' ++ x :: rest)) idx (p ++ q)) base).count i = 0 := by
          simp only [users, hb2]
          simp only [users, e', List.map_append, List.map_cons, List.count_append, List.count_cons] at hc
          simp only [List.map_append, List.map_cons, List.count_append, List.count_cons]
          rw [if_pos (c := (Prod.snd (d1, i) == i) = true) (by simp)] at hc
          omega
        exact ⟨by omega, fun h => absurd h (List.count_eq_zero.mp this)⟩
      · have hij : i ∉ [j] := by simpa using eij
        rw [hK.count hij, hK.mem hij, hK.mem hij]
        exact hP i b y hi1 hi2' hby
    · intro v
      by_cases eb : v = base
      · subst eb; rw [hb2, e']; simp
      · by_cases ei : v = idx
        · subst ei; rw [hi2, epq]; simp
        · simp [upd, eb, ei]
    · exact (hK.mem (by simpa using (Ne.symm hjp))).mpr hprev

/-- what the tests of the loop select -/
def selected (o : Operands) (ok : Nat → Bool) (prev base idx i : Nat) : Bool :=
  decide (i ≠ prev) && ok i && decide (o.rs1 i = some base) && decide (o.rs2 i = some idx)

theorem walk_spec {σ : Type} {o : Operands} {test : σ → Nat → Option Bool} {act : σ → Nat → Option σ} {prev base idx : Nat}
    (hbi : base ≠ idx) (sel : Nat → Bool) (R : List Nat → σ → Prop) (U : Nat → Prop)
    (hsel : ∀ i, sel i = true → i ≠ prev ∧ o.rs1 i = some base ∧ o.rs2 i = some idx)
    (hstep : ∀ out m i, R out m → U i → i ∉ out → i ≠ prev → test m i = some (sel i) ∧
      (sel i = true → ∃ m', act m i = some m' ∧ R (out ++ [i]) m')) (rest : List (Nat × Nat)) :
    ∀ (n : Nat) (s : Chains) (L : Nat → List (Nat × Nat)) (a : List (Nat × Nat)) (d1 d2 : Option Nat) (out : List Nat) (m : σ),
    rest.length + (L idx).length + 1 < n → Valid s L → Paired o L → L base = a ++ rest →
    Pending o prev base idx L a out d1 d2 → prev ∈ users L idx → (∀ x ∈ rest, U x.2) → (∀ j ∈ out, sel j = true) →
    (out ++ (rest.map Prod.snd).filter sel).Nodup → R out m →
    ∃ m' s' L', walk o test act prev idx n (hd rest none) d1 d2 out m s =
        some (out ++ (rest.map Prod.snd).filter sel, m', s') ∧ Valid s' L' ∧ Paired o L' ∧
      Keeps (out ++ (rest.map Prod.snd).filter sel) L L' ∧ (∀ v, (L' v).length ≤ (L v).length) ∧
      R (out ++ (rest.map Prod.snd).filter sel) m' := by
  induction rest with
  | nil =>
    intro n s L a d1 d2 out m hn V hP e hp hprev _ _ _ hR
    obtain ⟨n, rfl⟩ : ∃ m, n = m + 1 := ⟨n - 1, by omega⟩
    exact ⟨m, s, L, by simp [hd, walk], V, hP, Keeps.refl _ _, fun _ => Nat.le_refl _, by simpa using hR⟩
  | cons x rest ih =>
    intro n s L a d1 d2 out m hn V hP e hp hprev hU hout hnd hR
    obtain ⟨n, rfl⟩ : ∃ m, n = m + 1 := ⟨n - 1, by omega⟩
    obtain ⟨nx, pv, hnode⟩ := seg_mem (V.seg base) x (by rw [e]; simp)
    obtain ⟨s1, s2, L', a', f1, f2, V', hP', e', hK, hlen, hprev'⟩ := flush V hP hbi hp e hprev
    have hnode' : s2.node x.1 = some ⟨x.2, hd rest none, lst a' none⟩ := by
      have := V'.seg base
      rw [e', seg_append] at this
      exact this.2.1
    have e2 : L' base = (a' ++ [x]) ++ rest := by rw [e']; simp
    have hli := hlen idx
    simp only [List.length_cons] at hn
    have hxo : x.2 ∉ out := by
      intro h
      have h' : x.2 ∈ ((x :: rest).map Prod.snd).filter sel := List.mem_filter.mpr ⟨by simp, hout _ h⟩
      exact (List.nodup_append.mp hnd).2.2 _ h _ h' rfl
    simp only [hd, walk, hnode, f1, f2]
    by_cases hs : sel x.2 = true
    · obtain ⟨h1, h3, h4⟩ := hsel _ hs
      obtain ⟨ht, ha⟩ := hstep out m x.2 hR (hU x (by simp)) hxo h1
      obtain ⟨m', ha, hR'⟩ := ha hs
      rw [if_neg h1, ht, hs]
      have hmem : x.2 ∈ users L' idx := (hP' x.2 base idx h3 h4 hbi).2 (by simp [users, e'])
      obtain ⟨d, hd1, hd2⟩ := search_spec (V'.seg idx) x.2 n (by omega) hmem
      rw [V'.head idx]
      simp only [ha, hd1, hnode']
      have eo : out ++ (((x :: rest).map Prod.snd).filter sel) = out ++ [x.2] ++ ((rest.map Prod.snd).filter sel) := by
        simp [hs]
      rw [eo] at hnd ⊢
      obtain ⟨m'', s', L'', w, V'', hP'', hK', hlen', hR''⟩ := ih n s2 L' (a' ++ [x]) (some x.1) (some d) (out ++ [x.2]) m'
        (by omega) V' hP' e2 (.some x.2 x.1 d a' rfl hd2 h3 h4 h1 (by simp)) hprev' (fun y hy => hU y (by simp [hy]))
        (fun j hj => by
          rcases List.mem_append.mp hj with h | h
          · exact hout j h
          · simp at h; subst h; exact hs) hnd hR'
      exact ⟨m'', s', L'', w, V'', hP'', (hK.mono (by simp; intro j h; exact Or.inl h)).trans hK',
        fun v => Nat.le_trans (hlen' v) (hlen v), hR''⟩
    · have hs : sel x.2 = false := by simpa using hs
      have ht : (if x.2 = prev then some false else test m x.2) = some false := by
        by_cases h1 : x.2 = prev
        · rw [if_pos h1]
        · rw [if_neg h1, (hstep out m x.2 hR (hU x (by simp)) hxo h1).1, hs]
      rw [ht]
      simp only [hnode']
      have eo : out ++ (((x :: rest).map Prod.snd).filter sel) = out ++ ((rest.map Prod.snd).filter sel) := by simp [hs]
      rw [eo] at hnd ⊢
      obtain ⟨m'', s', L'', w, V'', hP'', hK', hlen', hR''⟩ := ih n s2 L' (a' ++ [x]) none none out m (by omega) V' hP' e2
        .none hprev' (fun y hy => hU y (by simp [hy])) hout hnd hR
      exact ⟨m'', s', L'', w, V'', hP'', (hK.mono (by simp; intro j h; exact Or.inl h)).trans hK',
        fun v => Nat.le_trans (hlen' v) (hlen v), hR''⟩

theorem selected_nodup {o : Operands} {L : Nat → List (Nat × Nat)} (hP : Paired o L) {base idx : Nat} (hbi : base ≠ idx)
    (sel : Nat → Bool) (hsel : ∀ i, sel i = true → o.rs1 i = some base ∧ o.rs2 i = some idx) :
    ((users L base).filter sel).Nodup := by
  rw [List.nodup_iff_count]
  intro i
  by_cases h : sel i = true
  · refine Nat.le_trans (List.Sublist.count_le i List.filter_sublist) (hP i base idx (hsel i h).1 (hsel i h).2 hbi).1
  · rw [List.count_eq_zero.mpr]
    · omega
    · intro h'; exact h (List.mem_filter.mp h').2

end Shecc.UseChain
