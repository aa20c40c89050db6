import Verif.Spec.RaSource
import Verif.Props.Live
import Verif.Lemmas.RaPressure

/-!
# What the analyses that run before register allocation compute
-/

namespace RaSource
open Shecc Shecc.Ssa Shecc.RegAlloc SrcBlock RaLink RaFn CGraph

theorem cfgOf_succs (F : RegAlloc.Fn) (entry : Nat) (prev : Nat → List Nat) : (cfgOf F entry prev).succs = succs F := by
  funext b
  unfold Cfg.Graph.succs cfgOf succs
  by_cases h : b = F.fnExit
  · simp [h]
  · simp only [h, if_false]
    cases (F.block b).next <;> simp

/-! ## Layout -/

structure LayoutOk (F : RegAlloc.Fn) (entry : Nat) (rest : List Nat) : Prop where
  nodup : (entry :: rest).Nodup
  numbered : ∀ k b, (entry :: rest)[k]? = some b → F.rpo b = F.rpo entry + k
  mem : ∀ b, b ∈ entry :: rest ↔ Reach (succs F) entry b
  parent : ∀ n ∈ rest, ∃ b, n ∈ succs F b ∧ Before (entry :: rest) b n

theorem rpo_mem {children : Nat → List Nat} {entry n rpo l} (h : Cfg.buildRpo children entry n = some (rpo, l)) (x : Nat) :
    x ∈ l ↔ Reach children entry x := by
  obtain ⟨vis, post, hd, rfl, rfl, D⟩ := Cfg.buildRpo_eq h
  rw [List.mem_reverse]
  constructor
  · exact D.reach x
  · rintro ⟨m, hm⟩
    have hcl : ∀ a ∈ post, ∀ b ∈ children a, b ∈ post := by
      intro a ha b hb
      rcases (D.mem b).1 (D.closed a ha b hb) with h | h
      · simp at h
      · exact h
    have hen : entry ∈ post := by
      obtain ⟨p, hp⟩ := D.last
      rw [hp]; simp
    clear h D hd
    induction hm with
    | nil => exact hen
    | cons h _ ih => exact ih (hcl _ hen _ h)

theorem rpo_number {post : List Nat} (hn : post.Nodup) {k b : Nat} (h : post.reverse[k]? = some b) :
    Cfg.rpoNumber post b = k + 1 := by
  have hk : k < post.reverse.length := (List.getElem?_eq_some_iff.1 h).1
  have hb : post.reverse[k] = b := (List.getElem?_eq_some_iff.1 h).2
  rw [List.length_reverse] at hk
  rw [List.getElem_reverse] at hb
  unfold Cfg.rpoNumber
  have := hn.idxOf_getElem (post.length - 1 - k) (by omega)
  rw [hb] at this
  rw [this]
  omega

theorem layout_ok {F : RegAlloc.Fn} {entry : Nat} {rest : List Nat} {n : Nat}
    (h : Cfg.buildRpo (succs F) entry n = some (F.rpo, entry :: rest)) : LayoutOk F entry rest := by
  have hm := rpo_mem h
  obtain ⟨vis, post, hd, hrpo, hl, D⟩ := Cfg.buildRpo_eq h
  have hnd : (entry :: rest).Nodup := by
    rw [hl]; exact List.pairwise_reverse.2 (D.nodup.imp fun h => Ne.symm h)
  have hnum : ∀ k b, (entry :: rest)[k]? = some b → F.rpo b = k + 1 := by
    intro k b hk
    rw [hl] at hk
    rw [hrpo]
    exact rpo_number D.nodup hk
  refine ⟨hnd, ?_, hm, ?_⟩
  · intro k b hk
    rw [hnum k b hk, hnum 0 entry rfl]
    omega
  · intro x hx
    have hxe : x ≠ entry := by
      rintro rfl
      exact (List.nodup_cons.1 hnd).1 hx
    have hxp : x ∈ post := by
      rw [← List.mem_reverse, ← hl]; exact List.mem_cons_of_mem _ hx
    obtain ⟨q, hq, hb⟩ := D.parent x hxp hxe
    exact ⟨q, hq, by rw [hl]; exact Cfg.Before.reverse hb⟩

/-- Every block is reached along blocks that are earlier in the layout. -/
theorem LayoutOk.path {F : RegAlloc.Fn} {entry : Nat} {rest : List Nat} (H : LayoutOk F entry rest) : ∀ (n : Nat) pre b post,
    pre.length = n → entry :: rest = pre ++ b :: post → ∃ l, Path (succs F) entry (l ++ [b]) b ∧ ∀ x ∈ l, x ∈ pre := by
  intro n
  induction n using Nat.strongRecOn with
  | _ n ih =>
    intro pre b post hn he
    cases pre with
    | nil =>
      simp only [List.nil_append, List.cons.injEq] at he
      obtain ⟨rfl, rfl⟩ := he
      exact ⟨[], .nil _, by simp⟩
    | cons e0 pre =>
      have hb : b ∈ rest := by
        simp only [List.cons_append, List.cons.injEq] at he
        rw [he.2]; simp
      obtain ⟨q, hq, a, c, hac, hbc⟩ := H.parent b hb
      have hnd := H.nodup
      -- `q` is in `pre`
      have hlt : a.length < (e0 :: pre).length := by
        obtain ⟨c1, c2, rfl⟩ := List.append_of_mem hbc
        by_cases hlt : a.length < (e0 :: pre).length
        · exact hlt
        · exfalso
          have h1 : (entry :: rest)[(e0 :: pre).length]? = some b := by rw [he]; simp
          have h2 : (entry :: rest)[(a ++ q :: c1).length]? = some b := by
            rw [hac, show a ++ q :: (c1 ++ b :: c2) = (a ++ q :: c1) ++ b :: c2 by simp]
            rw [List.getElem?_append_right (Nat.le_refl _)]; simp
          have hl1 := (List.getElem?_eq_some_iff.1 h1).1
          have := (List.getElem?_inj hl1 hnd).1 (h1.trans h2.symm)
          simp only [List.length_append, List.length_cons] at this hlt
          omega
      obtain ⟨l, hp, hl⟩ := ih a.length (by omega) a q c rfl hac
      have hsub : ∀ x ∈ a ++ [q], x ∈ e0 :: pre := by
        intro x hx
        have e1 : a ++ [q] = (entry :: rest).take (a.length + 1) := by
          rw [hac, show a ++ q :: c = (a ++ [q]) ++ c by simp, List.take_left' (by simp)]
        have e2 : e0 :: pre = (entry :: rest).take (e0 :: pre).length := by
          rw [he, List.take_left' rfl]
        rw [e1] at hx
        rw [e2]
        exact List.take_subset_take_left _ (by omega) hx
      refine ⟨l ++ [q], Cfg.Path.snoc hp hq, ?_⟩
      intro x hx
      rcases List.mem_append.1 hx with hx | hx
      · exact hsub x (List.mem_append_left _ (hl x hx))
      · exact hsub x (List.mem_append_right _ hx)

/-! ## Last uses -/

theorem updateConsumed_le (idx : Int) (con : Nat → Int) (o : Option Nat) (v : Nat) : con v ≤ Live.updateConsumed idx con o v := by
  cases o with
  | none => exact Int.le_refl _
  | some w =>
    simp only [Live.updateConsumed]
    split
    · rename_i h; subst h; split <;> omega
    · omega

theorem updateConsumed_some (idx : Int) (con : Nat → Int) (v : Nat) : idx ≤ Live.updateConsumed idx con (some v) v := by
  simp only [Live.updateConsumed, if_true]
  split <;> omega

theorem solveUses_le : ∀ (is : List Live.Insn) idx con v, con v ≤ Live.solveUses idx is con v := by
  intro is
  induction is with
  | nil => intro idx con v; exact Int.le_refl _
  | cons i is ih =>
    intro idx con v
    rw [Live.solveUses]
    exact Int.le_trans (Int.le_trans (updateConsumed_le _ _ _ _) (updateConsumed_le _ _ _ _)) (ih _ _ _)

theorem solveUses_use {i : Live.Insn} {ys : List Live.Insn} {v : Nat} (h : CLive.Uses i v) : ∀ (xs : List Live.Insn) idx con,
    ((idx + xs.length : Nat) : Int) ≤ Live.solveUses idx (xs ++ i :: ys) con v := by
  intro xs
  induction xs with
  | nil =>
    intro idx con
    rw [List.nil_append, Live.solveUses]
    refine Int.le_trans ?_ (solveUses_le _ _ _ _)
    simp only [List.length_nil, Nat.add_zero]
    rcases h with h | h
    · rw [h]
      exact Int.le_trans (updateConsumed_some _ _ _) (updateConsumed_le _ _ _ _)
    · rw [h]
      exact updateConsumed_some _ _ _
  | cons x xs ih =>
    intro idx con
    rw [List.cons_append, Live.solveUses]
    have := ih (idx + 1) (Live.updateConsumed idx (Live.updateConsumed idx con x.rs1) x.rs2)
    simp only [List.length_cons] at this ⊢
    rw [show idx + (xs.length + 1) = idx + 1 + xs.length by omega]
    exact this

theorem consumed_le (f : Live.Fn) : ∀ order con v, con v ≤ Live.consumed f order con v := by
  intro order
  induction order with
  | nil => intro con v; exact Int.le_refl _
  | cons b bs ih =>
    intro con v
    exact Int.le_trans (solveUses_le _ _ _ _) (ih _ v)

theorem consumed_use {f : Live.Fn} {b v : Nat} {xs ys : List Live.Insn} {i : Live.Insn} (hi : f.insns b = xs ++ i :: ys)
    (hu : CLive.Uses i v) : ∀ order con, b ∈ order → (xs.length : Int) ≤ Live.consumed f order con v := by
  intro order
  induction order with
  | nil => intro con h; simp at h
  | cons c cs ih =>
    intro con h
    by_cases hb : b ∈ cs
    · exact ih _ hb
    · have : b = c := by
        rcases List.mem_cons.1 h with h | h
        · exact h
        · exact absurd h hb
      subst this
      refine Int.le_trans ?_ (consumed_le f cs _ v)
      show _ ≤ Live.solveUses 0 (f.insns b) con v
      rw [hi]
      have := solveUses_use (ys := ys) hu xs 0 con
      rwa [Nat.zero_add] at this

/-! ## Liveness -/

open Shecc.Props in
theorem liveLoop_some {f : Live.Fn} {order : List Nat} : ∀ n L L', LInv f L → Live.liveLoop f order n L = some L' →
    LInv f L' ∧ ∀ b ∈ order, ∀ x ∈ Live.newOut f L' b, x ∈ L' b := by
  intro n
  induction n with
  | zero => intro L L' _ h; simp [Live.liveLoop] at h
  | succ n ih =>
    intro L L' I h
    obtain ⟨I', h1, h2, h3⟩ := livePass_ok order L I
    rw [Live.liveLoop] at h
    split at h
    · exact ih _ _ I' h
    · rename_i hch
      obtain ⟨e1, e2⟩ := h3 (by simpa using hch)
      cases h
      rw [e1]
      exact ⟨I, e2⟩

theorem reach_back {succ preds : Nat → List Nat} {l : List Nat} (hc : ∀ b ∈ l, ∀ n ∈ succ b, n ∈ l)
    (h : ∀ a, ∀ b ∈ l, (b ∈ preds a ↔ a ∈ succ b)) {a b : Nat} (ha : a ∈ l) (hr : Reach succ a b) : Reach preds b a := by
  obtain ⟨m, hp⟩ := hr
  induction hp with
  | nil a => exact Cfg.Reach.refl a
  | cons hn _ ih => exact Cfg.Reach.trans (ih (hc _ ha _ hn)) (Cfg.Reach.one ((h _ _ ha).2 hn))

end RaSource
