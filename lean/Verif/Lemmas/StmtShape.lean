import Verif.Lemmas.StmtExpr
import Verif.Spec.CFlow

/-! # Lemmas about the graph built for a function: where its edges come from and where they go -/

namespace Shecc.Stmt
open Shecc.Cfg
open CRename (Ins)
open CStmt

/-- No edge goes to the entry, no branch to the exit, and blocks not made yet have no predecessors and no code. -/
structure In (s : PS) : Prop where
  two : 2 ≤ s.n
  exit : s.exit = 1
  target : ∀ b k q, ptr k (s.block b) = some q → q < s.n ∧ (2 ≤ q ∨ (k = .next ∧ q = 1))
  fresh : ∀ b, s.n ≤ b → (s.block b).prev = [] ∧ s.code b = []
  brk : ∀ y ∈ s.brk, 2 ≤ y ∧ y < s.n
  cont : ∀ y ∈ s.cont, 2 ≤ y ∧ y < s.n

section
variable (R : Nat → Prop) (m : Nat)

/-- Edges lead from `R` into `R`. -/
def Cl (s : PS) : Prop := ∀ a q, R a → a ∈ (s.block q).prev → R q

/-- From `s`, with the blocks `A` current, to `t`, with the blocks `B` current. Code is added only to `W` and new blocks; if the
blocks `A` can be reached then so can `B` and the blocks that edges were added to. -/
structure Tr (W : List Nat) (s : PS) (A : List Nat) (t : PS) (B : List Nat) : Prop where
  inn : In t
  n : s.n ≤ t.n
  two : 2 ≤ s.n
  brk : t.brk = s.brk
  cont : t.cont = s.cont
  prev : ∀ q a, a ∈ (s.block q).prev → a ∈ (t.block q).prev
  code : ∀ b, b < s.n → b ∉ W → t.code b = s.code b
  bnd : ∀ b ∈ B, m ≤ b ∧ b < t.n ∧ (b ∈ W ∨ s.n ≤ b)
  live : Cl R t → (∀ a ∈ A, R a) → (∀ b ∈ B, R b) ∧ ∀ q a, a ∈ (t.block q).prev → a ∈ (s.block q).prev ∨ R a

end

variable {R : Nat → Prop} {m : Nat} {W : List Nat} {s t : PS} {A B : List Nat}

theorem Tr.refl (h : In s) (hb : ∀ b ∈ A, m ≤ b ∧ b < s.n ∧ (b ∈ W ∨ s.n ≤ b)) : Tr R m W s A s A :=
  ⟨h, Nat.le_refl _, h.two, rfl, rfl, fun _ _ h => h, fun _ _ _ => rfl, hb, fun _ hA => ⟨hA, fun _ _ h => .inl h⟩⟩

theorem Tr.weak (h : Tr R m W s A t B) {B' : List Nat} (hb : ∀ b ∈ B', b ∈ B) : Tr R m W s A t B' :=
  ⟨h.inn, h.n, h.two, h.brk, h.cont, h.prev, h.code, fun b hb' => h.bnd b (hb b hb'), fun hc ha =>
    ⟨fun b hb' => (h.live hc ha).1 b (hb b hb'), (h.live hc ha).2⟩⟩

theorem Tr.less (h : Tr R m W s A t B) {A' : List Nat} (ha : ∀ a ∈ A, a ∈ A') : Tr R m W s A' t B :=
  ⟨h.inn, h.n, h.two, h.brk, h.cont, h.prev, h.code, h.bnd, fun hc hA => h.live hc fun a h => hA a (ha a h)⟩

theorem Tr.lower (h : Tr R m W s A t B) {m' : Nat} (hm : m' ≤ m) : Tr R m' W s A t B :=
  ⟨h.inn, h.n, h.two, h.brk, h.cont, h.prev, h.code, fun b hb => ⟨Nat.le_trans hm (h.bnd b hb).1, (h.bnd b hb).2⟩, h.live⟩

theorem In.create (h : In s) : In s.create where
  two := Nat.le_succ_of_le h.two
  exit := h.exit
  target := fun b k q hq => ⟨Nat.lt_succ_of_lt (h.target b k q hq).1, (h.target b k q hq).2⟩
  fresh := fun b hb => h.fresh b (Nat.le_of_succ_le hb)
  brk := fun y hy => ⟨(h.brk y hy).1, Nat.lt_succ_of_lt (h.brk y hy).2⟩
  cont := fun y hy => ⟨(h.cont y hy).1, Nat.lt_succ_of_lt (h.cont y hy).2⟩

theorem Tr.create (h : Tr R m W s A t B) : Tr R m W s A t.create B :=
  ⟨h.inn.create, Nat.le_succ_of_le h.n, h.two, h.brk, h.cont, h.prev, h.code,
   fun b hb => ⟨(h.bnd b hb).1, Nat.lt_succ_of_lt (h.bnd b hb).2.1, (h.bnd b hb).2.2⟩, h.live⟩

theorem prev_link (s : PS) (p q : Nat) (k : Kind) (b : Nat) :
    ((s.link p q k).block b).prev = if b = q then (s.block q).prev ++ [p] else (s.block b).prev := by
  have : ∀ (x : Block) (q : Nat), (setPtr k x q).prev = x.prev := by intro x q; cases k <;> rfl
  simp only [PS.link, upd]
  by_cases h1 : b = p
  · subst h1
    rw [if_pos rfl, this]
    split <;> rfl
  · rw [if_neg h1]
    split <;> rfl

theorem mem_prev_link (s : PS) (p q : Nat) (k : Kind) (b a : Nat) :
    a ∈ ((s.link p q k).block b).prev ↔ a ∈ (s.block b).prev ∨ (b = q ∧ a = p) := by
  rw [prev_link]
  split
  · rename_i h
    subst h
    simp
  · rename_i h
    simp [h]

theorem ptr_link (s : PS) (p q : Nat) (k : Kind) {b r : Nat} {j : Kind} (h : ptr j ((s.link p q k).block b) = some r) :
    ptr j (s.block b) = some r ∨ (b = p ∧ j = k ∧ r = q) := by
  have h1 : ∀ c, ptr j ((upd s.block q { s.block q with prev := (s.block q).prev ++ [p] }) c) = ptr j (s.block c) := by
    intro c
    simp only [upd]
    split
    · rename_i e
      subst e
      cases j <;> rfl
    · rfl
  simp only [PS.link] at h
  by_cases hb : b = p
  · subst hb
    rw [upd_self] at h
    by_cases hj : j = k
    · subst hj
      right
      cases j <;> (simp only [ptr, setPtr, Option.some.injEq] at h; exact ⟨rfl, rfl, h.symm⟩)
    · left
      rw [← h1 b]
      cases j <;> cases k <;> first | exact h | exact absurd rfl hj
  · rw [upd_other _ _ _ hb, h1] at h
    exact .inl h

theorem In.link (h : In s) (p q : Nat) (k : Kind) (hq : q < s.n ∧ (2 ≤ q ∨ (k = .next ∧ q = 1))) : In (s.link p q k) where
  two := h.two
  exit := h.exit
  target := fun b j r hr => by
    rcases ptr_link s p q k hr with h1 | ⟨_, rfl, rfl⟩
    · exact h.target b j r h1
    · exact hq
  fresh := fun b hb => by
    refine ⟨?_, (h.fresh b hb).2⟩
    rw [prev_link, if_neg (Nat.ne_of_gt (Nat.lt_of_lt_of_le hq.1 hb))]
    exact (h.fresh b hb).1
  brk := h.brk
  cont := h.cont

/-- An edge from a current block; its target becomes current. -/
theorem Tr.link (h : Tr R m W s A t B) (hm : m ≤ 2) {p q : Nat} {k : Kind} (hp : p ∈ B) (h2 : 2 ≤ q) (hq : q < t.n)
    (hw : q ∈ W ∨ s.n ≤ q) : Tr R m W s A (t.link p q k) (q :: B) where
  inn := h.inn.link p q k ⟨hq, .inl h2⟩
  n := h.n
  two := h.two
  brk := h.brk
  cont := h.cont
  prev := fun b a ha => (mem_prev_link ..).2 (.inl (h.prev b a ha))
  code := h.code
  bnd := by
    intro b hb
    rcases List.mem_cons.1 hb with rfl | hb
    · exact ⟨Nat.le_trans hm h2, hq, hw⟩
    · exact h.bnd b hb
  live := fun hc ha => by
    obtain ⟨l1, l2⟩ := h.live (fun a b r ha => hc a b r ((mem_prev_link ..).2 (.inl ha))) ha
    refine ⟨?_, ?_⟩
    · intro b hb
      rcases List.mem_cons.1 hb with rfl | hb
      · exact hc p b (l1 p hp) ((mem_prev_link ..).2 (.inr ⟨rfl, rfl⟩))
      · exact l1 b hb
    · intro b a hab
      rcases (mem_prev_link ..).1 hab with h1 | ⟨_, rfl⟩
      · exact l2 b a h1
      · exact .inr (l1 _ hp)

/-- An edge from a current block to some other one. -/
theorem Tr.jump (h : Tr R m W s A t B) {p q : Nat} {k : Kind} (hp : p ∈ B) (hq : q < t.n ∧ (2 ≤ q ∨ (k = .next ∧ q = 1))) :
    Tr R m W s A (t.link p q k) B where
  inn := h.inn.link p q k hq
  n := h.n
  two := h.two
  brk := h.brk
  cont := h.cont
  prev := fun b a ha => (mem_prev_link ..).2 (.inl (h.prev b a ha))
  code := h.code
  bnd := h.bnd
  live := fun hc ha => by
    obtain ⟨l1, l2⟩ := h.live (fun a b r ha => hc a b r ((mem_prev_link ..).2 (.inl ha))) ha
    refine ⟨l1, ?_⟩
    intro b a hab
    rcases (mem_prev_link ..).1 hab with h1 | ⟨_, rfl⟩
    · exact l2 b a h1
    · exact .inr (l1 _ hp)

theorem In.emit (h : In s) (p : Nat) (is : List (Ins Nat)) (hp : p < s.n) : In (s.emit (some p) is) where
  two := h.two
  exit := h.exit
  target := h.target
  fresh := fun b hb => by
    refine ⟨(h.fresh b hb).1, ?_⟩
    simp only [PS.emit]
    rw [upd_other _ _ _ (Nat.ne_of_gt (Nat.lt_of_lt_of_le hp hb))]
    exact (h.fresh b hb).2
  brk := h.brk
  cont := h.cont

theorem Tr.emit (h : Tr R m W s A t B) {p : Nat} {is : List (Ins Nat)} (hp : p < t.n) (hw : p ∈ W ∨ s.n ≤ p) :
    Tr R m W s A (t.emit (some p) is) B where
  inn := h.inn.emit p is hp
  n := h.n
  two := h.two
  brk := h.brk
  cont := h.cont
  prev := h.prev
  code := fun b hb hn => by
    have : b ≠ p := by
      rintro rfl
      rcases hw with hw | hw
      · exact hn hw
      · exact absurd hb (Nat.not_lt.2 hw)
    simp only [PS.emit]
    rw [upd_other _ _ _ this]
    exact h.code b hb hn
  bnd := h.bnd
  live := h.live

theorem Tr.emitB (h : Tr R m W s A t B) {p : Nat} {is : List (Ins Nat)} (hp : p ∈ B) : Tr R m W s A (t.emit (some p) is) B :=
  h.emit (h.bnd p hp).2.1 (h.bnd p hp).2.2

theorem Tr.emitO (h : Tr R m W s A t B) {p : Option Nat} {is : List (Ins Nat)} (hp : ∀ b ∈ p, b ∈ B) : Tr R m W s A (t.emit p is) B := by
  cases p with
  | none => exact h
  | some p => exact h.emitB (hp p rfl)

/-- The pending side effects do not matter. -/
theorem Tr.se (h : Tr R m W s A t B) (se : List (Ins Nat)) : Tr R m W s A { t with se := se } B :=
  ⟨⟨h.inn.two, h.inn.exit, h.inn.target, h.inn.fresh, h.inn.brk, h.inn.cont⟩, h.n, h.two, h.brk, h.cont, h.prev, h.code, h.bnd, h.live⟩

theorem Tr.flush (h : Tr R m W s A t B) {p : Option Nat} (hp : ∀ b ∈ p, b ∈ B) : Tr R m W s A (t.flush p) B :=
  (h.emitO hp).se []

/-- Go on with a part of the translation, within which `break` and `continue` may mean something else. -/
theorem Tr.sub (h : Tr R m W s A t B) {m' : Nat} (hm : m ≤ m') (hm2 : m' ≤ 2) {b c b' c' : List Nat} {u : PS} {W' A' B' : List Nat}
    (k : Tr R m' W' { t with brk := b, cont := c } A' u B') (hA : ∀ a ∈ A', a ∈ B) (hW : ∀ a ∈ W', a ∈ W ∨ s.n ≤ a)
    (hb : b' = t.brk) (hc : c' = t.cont) : Tr R m W s A { u with brk := b', cont := c' } (B' ++ B) where
  inn := ⟨k.inn.two, k.inn.exit, k.inn.target, k.inn.fresh,
    fun y hy => ⟨(h.inn.brk y (hb ▸ hy)).1, Nat.lt_of_lt_of_le (h.inn.brk y (hb ▸ hy)).2 k.n⟩,
    fun y hy => ⟨(h.inn.cont y (hc ▸ hy)).1, Nat.lt_of_lt_of_le (h.inn.cont y (hc ▸ hy)).2 k.n⟩⟩
  n := Nat.le_trans h.n k.n
  two := h.two
  brk := hb.trans h.brk
  cont := hc.trans h.cont
  prev := fun q a ha => k.prev q a (h.prev q a ha)
  code := fun x hx hn => by
    have : x ∉ W' := fun hw => by
      rcases hW x hw with h1 | h1
      · exact hn h1
      · exact absurd hx (Nat.not_lt.2 h1)
    exact (k.code x (Nat.lt_of_lt_of_le hx h.n) this).trans (h.code x hx hn)
  bnd := fun x hx => by
    rcases List.mem_append.1 hx with hx | hx
    · obtain ⟨h1, h2, h3⟩ := k.bnd x hx
      refine ⟨Nat.le_trans hm h1, h2, ?_⟩
      rcases h3 with h3 | h3
      · exact hW x h3
      · exact .inr (Nat.le_trans h.n h3)
    · obtain ⟨h1, h2, h3⟩ := h.bnd x hx
      exact ⟨h1, Nat.lt_of_lt_of_le h2 k.n, h3⟩
  live := fun cl ha => by
    obtain ⟨l1, l2⟩ := h.live (fun a q r hq => cl a q r (k.prev q a hq)) ha
    obtain ⟨k1, k2⟩ := k.live cl (fun a h => l1 a (hA a h))
    refine ⟨?_, ?_⟩
    · intro x hx
      rcases List.mem_append.1 hx with hx | hx
      · exact k1 x hx
      · exact l1 x hx
    · intro q a hq
      rcases k2 q a hq with h1 | h1
      · exact l2 q a h1
      · exact .inr h1

theorem Tr.call (h : Tr R m W s A t B) {m' : Nat} (hm : m ≤ m') (hm2 : m' ≤ 2) {u : PS} {W' A' B' : List Nat} (k : Tr R m' W' t A' u B')
    (hA : ∀ a ∈ A', a ∈ B) (hW : ∀ a ∈ W', a ∈ W ∨ s.n ≤ a) : Tr R m W s A u (B' ++ B) := by
  have h1 : ({ u with brk := t.brk, cont := t.cont } : PS) = u := by rw [← k.brk, ← k.cont]
  rw [← h1]
  exact h.sub (b := t.brk) (c := t.cont) hm hm2 k hA hW rfl rfl

/-- A block that had no predecessor and now has one can be reached. -/
theorem Tr.reached (h : Tr R m W s A t B) {y : Nat} (hy : (s.block y).prev = []) (hn : (t.block y).prev ≠ []) (hm : m ≤ y)
    (hlt : y < t.n) (hw : y ∈ W ∨ s.n ≤ y) : Tr R m W s A t (y :: B) where
  inn := h.inn
  n := h.n
  two := h.two
  brk := h.brk
  cont := h.cont
  prev := h.prev
  code := h.code
  bnd := by
    intro b hb
    rcases List.mem_cons.1 hb with rfl | hb
    · exact ⟨hm, hlt, hw⟩
    · exact h.bnd b hb
  live := fun cl ha => by
    obtain ⟨l1, l2⟩ := h.live cl ha
    refine ⟨?_, l2⟩
    intro b hb
    rcases List.mem_cons.1 hb with rfl | hb
    · obtain ⟨a, l, e⟩ := List.exists_cons_of_ne_nil hn
      have ha : a ∈ (t.block b).prev := by rw [e]; simp
      rcases l2 b a ha with h1 | h1
      · rw [hy] at h1; cases h1
      · exact cl a b h1 ha
    · exact l1 b hb

/-- Two blocks after `p`, and a third after both. -/
theorem Tr.fork (h : Tr R m W s A t B) (hm : m ≤ 2) {p : Nat} (hp : p ∈ B) {t' : PS} (hn : t'.n = t.n + 3) (he : t'.exit = t.exit)
    (hb : t'.brk = t.brk) (hc : t'.cont = t.cont) (hcode : ∀ b, b ≠ t.n → b ≠ t.n + 1 → t'.code b = t.code b)
    (hprev : ∀ q a, a ∈ (t'.block q).prev ↔ a ∈ (t.block q).prev ∨ (q = t.n + 2 ∧ (a = t.n ∨ a = t.n + 1)) ∨ (q = t.n ∧ a = p) ∨
      (q = t.n + 1 ∧ a = p))
    (hptr : ∀ b k r, ptr k (t'.block b) = some r → ptr k (t.block b) = some r ∨ (t.n ≤ r ∧ r < t.n + 3)) :
    Tr R m W s A t' ((t.n + 2) :: t.n :: (t.n + 1) :: B) where
  inn := by
    have h2 := h.inn.two
    refine ⟨by omega, he.trans h.inn.exit, ?_, ?_, ?_, ?_⟩
    · intro b k r hr
      rcases hptr b k r hr with h1 | ⟨h1, h3⟩
      · exact ⟨by have := (h.inn.target b k r h1).1; omega, (h.inn.target b k r h1).2⟩
      · exact ⟨by omega, .inl (by omega)⟩
    · intro b hb
      refine ⟨?_, ?_⟩
      · refine List.eq_nil_iff_forall_not_mem.2 fun a ha => ?_
        rcases (hprev b a).1 ha with h1 | h1 | h1 | h1
        · rw [(h.inn.fresh b (by omega)).1] at h1; cases h1
        · omega
        · omega
        · omega
      · rw [hcode b (by omega) (by omega)]
        exact (h.inn.fresh b (by omega)).2
    · rw [hb]; exact fun y hy => ⟨(h.inn.brk y hy).1, by have := (h.inn.brk y hy).2; omega⟩
    · rw [hc]; exact fun y hy => ⟨(h.inn.cont y hy).1, by have := (h.inn.cont y hy).2; omega⟩
  n := by have := h.n; omega
  two := h.two
  brk := hb.trans h.brk
  cont := hc.trans h.cont
  prev := fun q a ha => (hprev q a).2 (.inl (h.prev q a ha))
  code := fun b hb hw => by
    have := h.n
    rw [hcode b (by omega) (by omega)]
    exact h.code b hb hw
  bnd := by
    have h1 := h.n
    have h2 := h.inn.two
    intro b hb
    simp only [List.mem_cons] at hb
    rcases hb with rfl | rfl | rfl | hb
    · exact ⟨by omega, by omega, .inr (by omega)⟩
    · exact ⟨by omega, by omega, .inr (by omega)⟩
    · exact ⟨by omega, by omega, .inr (by omega)⟩
    · exact ⟨(h.bnd b hb).1, by have := (h.bnd b hb).2.1; omega, (h.bnd b hb).2.2⟩
  live := fun cl ha => by
    obtain ⟨l1, l2⟩ := h.live (fun a q r hq => cl a q r ((hprev q a).2 (.inl hq))) ha
    have rx : R t.n := cl p _ (l1 p hp) ((hprev _ _).2 (.inr (.inr (.inl ⟨rfl, rfl⟩))))
    have ry : R (t.n + 1) := cl p _ (l1 p hp) ((hprev _ _).2 (.inr (.inr (.inr ⟨rfl, rfl⟩))))
    have re : R (t.n + 2) := cl _ _ rx ((hprev _ _).2 (.inr (.inl ⟨rfl, .inl rfl⟩)))
    refine ⟨?_, ?_⟩
    · intro b hb
      simp only [List.mem_cons] at hb
      rcases hb with rfl | rfl | rfl | hb
      · exact re
      · exact rx
      · exact ry
      · exact l1 b hb
    · intro q a hq
      rcases (hprev q a).1 hq with h1 | ⟨_, h1 | h1⟩ | ⟨_, h1⟩ | ⟨_, h1⟩
      · exact l2 q a h1
      · rw [h1]; exact .inr rx
      · rw [h1]; exact .inr ry
      · rw [h1]; exact .inr (l1 p hp)
      · rw [h1]; exact .inr (l1 p hp)

/-! ### Expressions -/

/-- The current block is still the same, or has a predecessor. -/
def Ent (bb : Option Nat) (t : PS) (bb' : Option Nat) : Prop := bb' = bb ∨ ∃ b, bb' = some b ∧ (t.block b).prev ≠ []

/-- Predecessors stay. -/
def Mono (t t' : PS) : Prop := ∀ q a, a ∈ (t.block q).prev → a ∈ (t'.block q).prev

theorem Mono.ne {t t' : PS} (h : Mono t t') {q : Nat} (hn : (t.block q).prev ≠ []) : (t'.block q).prev ≠ [] := by
  obtain ⟨a, l, e⟩ := List.exists_cons_of_ne_nil hn
  exact List.ne_nil_of_mem (h q a (by rw [e]; simp))

theorem Mono.trans {t u v : PS} (h : Mono t u) (k : Mono u v) : Mono t v := fun q a ha => k q a (h q a ha)

theorem Mono.refl (t : PS) : Mono t t := fun _ _ h => h

theorem Mono.link (t : PS) (p q : Nat) (k : Kind) : Mono t (t.link p q k) := fun _ _ ha => (mem_prev_link ..).2 (.inl ha)

theorem link_ne (t : PS) (p q : Nat) (k : Kind) : ((t.link p q k).block q).prev ≠ [] :=
  List.ne_nil_of_mem ((mem_prev_link t p q k q p).2 (.inr ⟨rfl, rfl⟩))

theorem Ent.trans {bb b1 b2 : Option Nat} {t u : PS} (h : Ent bb t b1) (m : Mono t u) (k : Ent b1 u b2) : Ent bb u b2 := by
  rcases k with rfl | k
  · rcases h with rfl | ⟨b, e, hn⟩
    · exact .inl rfl
    · exact .inr ⟨b, e, m.ne hn⟩
  · exact .inr k

/-- A part of the translation, with what is known of its result. -/
structure Walk (R : Nat → Prop) (m : Nat) (W : List Nat) (s : PS) (A : List Nat) (t : PS) (B : List Nat) (bb : Option Nat) (t' : PS) (B' : List Nat)
    (bb' : Option Nat) : Prop where
  tr : Tr R m W s A t' B'
  sub : ∀ b ∈ B, b ∈ B'
  cur : ∀ b ∈ bb', b ∈ B'
  ent : Ent bb t' bb'
  mono : Mono t t'
  n : t.n ≤ t'.n

theorem Walk.trans {t u v : PS} {B B1 B2 : List Nat} {bb b1 b2 : Option Nat} (h : Walk R m W s A t B bb u B1 b1) (k : Walk R m W s A u B1 b1 v B2 b2) :
    Walk R m W s A t B bb v B2 b2 :=
  ⟨k.tr, fun b hb => k.sub b (h.sub b hb), k.cur, h.ent.trans k.mono k.ent, h.mono.trans k.mono, Nat.le_trans h.n k.n⟩

theorem connect_some {t t' : PS} {bb : Option Nat} {q : Nat} {k : Kind} (h : t.connect bb q k = some t') :
    ∃ b, bb = some b ∧ t' = t.link b q k := by
  unfold PS.connect at h
  cases bb with
  | none => cases h
  | some b => exact ⟨b, rfl, (Option.some.inj h).symm⟩

/-- A block shared by the operands of a logical expression. -/
def Ready2 (W : List Nat) (s t : PS) (q : Nat) : Prop := 2 ≤ q ∧ q < t.n ∧ (q ∈ W ∨ s.n ≤ q)

theorem Ready2.mono {t u : PS} {q : Nat} (h : Ready2 W s t q) (hn : t.n ≤ u.n) : Ready2 W s u q := ⟨h.1, Nat.lt_of_lt_of_le h.2.1 hn, h.2.2⟩

theorem read_go (h : Tr R m W s A t B) (hm : m ≤ 2) {b : Nat} (hb : b ∈ B) {sh : Nat} (is : List (Ins Nat)) (hs : Ready2 W s t sh) (k1 k2 : Kind) :
    ∃ B', Walk R m W s A t B (some b) (((t.link b sh k1).emit (some b) is).create.link b t.n k2) B' (some t.n) ∧ sh ∈ B' := by
  have h1 := h.link (k := k1) hm hb hs.1 hs.2.1 hs.2.2
  have h2 := (h1.emitB (p := b) (is := is) (by simp [hb])).create
  have h3 := h2.link (k := k2) hm (p := b) (q := t.n) (by simp [hb]) h.inn.two (Nat.lt_succ_self t.n) (.inr h.n)
  refine ⟨_, ⟨h3, fun x hx => by simp [hx], fun x hx => ?_, .inr ⟨_, rfl, link_ne _ _ _ _⟩,
    (Mono.link t b sh k1).trans (Mono.link _ _ _ _), Nat.le_succ _⟩, by simp⟩
  cases hx
  exact List.mem_cons_self ..

theorem readLogical_go (h : Tr R m W s A t B) (hm : m ≤ 2) {bb : Option Nat} (hbb : ∀ b ∈ bb, b ∈ B) {op : LogOp} {sh v : Nat}
    (hs : Ready2 W s t sh) {t' : PS} {bb' : Option Nat} (e : readLogical op sh v t bb = some (t', bb')) :
    ∃ B', Walk R m W s A t B bb t' B' bb' ∧ sh ∈ B' := by
  unfold readLogical at e
  obtain ⟨u, e1, e2⟩ := Option.bind_eq_some_iff.mp e
  obtain ⟨b, rfl, rfl⟩ := connect_some e1
  dsimp only at e2
  obtain ⟨u, e3, e4⟩ := Option.map_eq_some_iff.mp e2
  obtain ⟨b', hb', rfl⟩ := connect_some e3
  cases hb'
  cases e4
  exact read_go h hm (hbb b rfl) _ hs _ _

theorem finalize_go (h : Tr R m W s A t B) (hm : m ≤ 2) {bb : Option Nat} (hbb : ∀ b ∈ bb, b ∈ B) {op : LogOp} {sh v : Nat} {tm : Tmp}
    (hs : Ready2 W s t sh) (hsb : sh ∈ B) {t' : PS} {bb' : Option Nat} (e : finalize op sh tm v t bb = some (t', bb')) :
    ∃ B', Walk R m W s A t B bb t' B' bb' := by
  unfold finalize at e
  obtain ⟨b, rfl, e⟩ := Option.map_eq_some_iff.mp e
  have hb := hbb b rfl
  have hn := h.n
  have h2 := h.inn.two
  have h0 := h.create.create
  have hlt : t.n < t.create.create.n ∧ t.n + 1 < t.create.create.n := ⟨by simp only [PS.create]; omega, by simp only [PS.create]; omega⟩
  cases op with
  | and =>
    dsimp only at e
    cases e
    have h1 := h0.link (k := .then_) hm (p := b) (q := t.n + 1) hb (by omega) hlt.2 (.inr (by omega))
    have h2 := h1.link (k := .else_) hm (p := b) (q := sh) (by simp [hb]) hs.1 (Nat.lt_trans hs.2.1 hlt.1) hs.2.2
    have h3 := h2.link (k := .next) hm (p := t.n + 1) (q := t.n) (by simp) (by omega) hlt.1 (.inr hn)
    have h4 := h3.link (k := .next) hm (p := sh) (q := t.n) (by simp) (by omega) hlt.1 (.inr hn)
    have h5 := ((h4.emitB (p := b) (is := [branchIns v]) (by simp [hb])).emitB (p := t.n + 1) (is := [constIns tm.one 1, moveIns tm.res tm.one])
      (by simp)).emitB (p := sh) (is := [constIns tm.zero 0, moveIns tm.res tm.zero]) (by simp)
    refine ⟨_, h5, fun x hx => by simp [hx], fun x hx => ?_, .inr ⟨_, rfl, link_ne _ _ _ _⟩,
      (((Mono.link _ _ _ _).trans (Mono.link _ _ _ _)).trans (Mono.link _ _ _ _)).trans (Mono.link _ _ _ _), ?_⟩
    · cases hx
      exact List.mem_cons_self ..
    · exact Nat.le_of_lt (Nat.lt_of_lt_of_le hlt.1 (Nat.le_refl _))
  | or =>
    dsimp only at e
    cases e
    have h1 := h0.link (k := .then_) hm (p := b) (q := sh) hb hs.1 (Nat.lt_trans hs.2.1 hlt.1) hs.2.2
    have h2 := h1.link (k := .else_) hm (p := b) (q := t.n + 1) (by simp [hb]) (by omega) hlt.2 (.inr (by omega))
    have h3 := h2.link (k := .next) hm (p := sh) (q := t.n) (by simp) (by omega) hlt.1 (.inr hn)
    have h4 := h3.link (k := .next) hm (p := t.n + 1) (q := t.n) (by simp) (by omega) hlt.1 (.inr hn)
    have h5 := ((h4.emitB (p := b) (is := [branchIns v]) (by simp [hb])).emitB (p := t.n + 1) (is := [constIns tm.zero 0, moveIns tm.res tm.zero])
      (by simp)).emitB (p := sh) (is := [constIns tm.one 1, moveIns tm.res tm.one]) (by simp)
    refine ⟨_, h5, fun x hx => by simp [hx], fun x hx => ?_, .inr ⟨_, rfl, link_ne _ _ _ _⟩,
      (((Mono.link _ _ _ _).trans (Mono.link _ _ _ _)).trans (Mono.link _ _ _ _)).trans (Mono.link _ _ _ _), ?_⟩
    · cases hx
      exact List.mem_cons_self ..
    · exact Nat.le_of_lt (Nat.lt_of_lt_of_le hlt.1 (Nat.le_refl _))

/-- What is known of the blocks shared by the operands: those that an operator is pending for are current. -/
structure LogIn (W : List Nat) (s : PS) (L : Log) (t : PS) (B : List Nat) : Prop where
  and : Ready2 W s t L.and
  or : Ready2 W s t L.or
  prev : ∀ op, L.prev = some op → L.shared op ∈ B
  pprev : ∀ op, L.pprev = some op → L.shared op ∈ B

theorem LogIn.shared {L : Log} (h : LogIn W s L t B) (op : LogOp) : Ready2 W s t (L.shared op) := by
  cases op
  · exact h.and
  · exact h.or

theorem LogIn.mono {L : Log} (h : LogIn W s L t B) {u : PS} {B' : List Nat} (hn : t.n ≤ u.n) (hB : ∀ b ∈ B, b ∈ B') : LogIn W s L u B' :=
  ⟨h.and.mono hn, h.or.mono hn, fun op e => hB _ (h.prev op e), fun op e => hB _ (h.pprev op e)⟩

theorem applyOp_go (h : Tr R m W s A t B) (hm : m ≤ 2) {bb : Option Nat} (hbb : ∀ b ∈ bb, b ∈ B) {op : LogOp} {tmp : Nat → Tmp} {v : Nat}
    {L L' : Log} (hL : LogIn W s L t B) {t' : PS} {bb' : Option Nat} (e : applyOp op tmp v L t bb = some (t', bb', L')) :
    ∃ B', Walk R m W s A t B bb t' B' bb' ∧ LogIn W s L' t' B' := by
  unfold applyOp at e
  split at e
  · obtain ⟨r, e1, e2⟩ := Option.map_eq_some_iff.mp e
    cases e2
    obtain ⟨B', g, hs⟩ := readLogical_go h hm hbb (hL.shared op) e1
    refine ⟨B', g, ?_⟩
    have hL' := hL.mono g.n g.sub
    exact ⟨hL'.and, hL'.or, fun o ho => by cases ho; exact hs, hL'.pprev⟩
  · rename_i h1
    split at e
    · rename_i h2
      obtain ⟨r, e1, e2⟩ := Option.bind_eq_some_iff.mp e
      dsimp only at e2
      obtain ⟨q, e3, e4⟩ := Option.map_eq_some_iff.mp e2
      cases e4
      obtain ⟨B1, g1⟩ := finalize_go h hm hbb hL.and (hL.prev .and h2) e1
      obtain ⟨B2, g2, hs⟩ := readLogical_go g1.tr.create hm g1.cur (hL.or.mono (Nat.le_succ_of_le g1.n)) e3
      have hop : op = .or := by
        cases op
        · exact absurd (.inr h2) h1
        · rfl
      subst hop
      have hn := h.n
      have n1 := g1.n
      have n2 : r.1.n + 1 ≤ q.1.n := g2.n
      refine ⟨B2, ⟨g2.tr, fun b hb => g2.sub b (g1.sub b hb), g2.cur, Ent.trans g1.ent g2.mono g2.ent, g1.mono.trans g2.mono,
        by omega⟩, ?_, hL.or.mono (by omega), ?_, ?_⟩
      · exact ⟨Nat.le_trans h.inn.two n1, by dsimp only; omega, .inr (by dsimp only; omega)⟩
      · intro o ho; cases ho; exact hs
      · intro o ho; cases ho
    · rename_i h2
      obtain ⟨r, e1, e2⟩ := Option.map_eq_some_iff.mp e
      cases e2
      obtain ⟨B', g, hs⟩ := readLogical_go h hm hbb hL.and e1
      have hL' := hL.mono g.n g.sub
      refine ⟨B', g, hL'.and, hL'.or, ?_, ?_⟩
      · intro o ho
        cases ho
        cases op with
        | and => exact hs
        | or =>
          exfalso
          cases hp : L.prev with
          | none => exact h1 (.inl hp)
          | some o => cases o with
            | and => exact h2 hp
            | or => exact h1 (.inr hp)
      · intro o ho
        exact hL'.prev o ho

theorem finish_go (hm : m ≤ 2) {tmp : Nat → Tmp} : ∀ (n : Nat) {t : PS} {B : List Nat} {bb : Option Nat} {v : Nat} {L : Log} {t' : PS} {bb' : Option Nat}
    {v' : Nat}, Tr R m W s A t B → (∀ b ∈ bb, b ∈ B) → LogIn W s L t B → finish n tmp v L t bb = some (t', bb', v') →
    ∃ B', Walk R m W s A t B bb t' B' bb' := by
  intro n
  induction n with
  | zero =>
    intro t B bb v L t' bb' v' h hbb hL e
    cases e
    exact ⟨B, h, fun _ h => h, hbb, .inl rfl, .refl _, Nat.le_refl _⟩
  | succ n ih =>
    intro t B bb v L t' bb' v' h hbb hL e
    unfold finish at e
    cases hp : L.prev with
    | none =>
      rw [hp] at e
      cases e
      exact ⟨B, h, fun _ h => h, hbb, .inl rfl, .refl _, Nat.le_refl _⟩
    | some op =>
      rw [hp] at e
      obtain ⟨r, e1, e2⟩ := Option.bind_eq_some_iff.mp e
      obtain ⟨B1, g1⟩ := finalize_go h hm hbb (hL.shared op) (hL.prev op hp) e1
      have hL' := hL.mono g1.n g1.sub
      have hL2 : LogIn W s { L with prev := L.pprev, pprev := none, i := L.i + 1 } r.1 B1 :=
        ⟨hL'.and, hL'.or, fun o ho => hL'.pprev o ho, fun o ho => by cases ho⟩
      obtain ⟨B2, g2⟩ := ih g1.tr g1.cur hL2 e2
      exact ⟨B2, g1.trans g2⟩

variable {H : CRename.Home Nat}

theorem emitO_n (t : PS) (p : Option Nat) (is : List (Ins Nat)) : (t.emit p is).n = t.n := by cases p <;> rfl
theorem emitO_block (t : PS) (p : Option Nat) (is : List (Ins Nat)) : (t.emit p is).block = t.block := by cases p <;> rfl

theorem Walk.refl (h : Tr R m W s A t B) {bb : Option Nat} (hbb : ∀ b ∈ bb, b ∈ B) : Walk R m W s A t B bb t B bb :=
  ⟨h, fun _ h => h, hbb, .inl rfl, .refl _, Nat.le_refl _⟩

theorem Walk.emit (h : Tr R m W s A t B) {bb : Option Nat} (hbb : ∀ b ∈ bb, b ∈ B) (is : List (Ins Nat)) (se : List (Ins Nat)) :
    Walk R m W s A t B bb { t.emit bb is with se := se } B bb :=
  ⟨(h.emitO hbb).se se, fun _ h => h, hbb, .inl rfl, fun q a ha => by rw [emitO_block]; exact ha, Nat.le_of_eq (emitO_n t bb is).symm⟩

mutual
theorem lowerE_walk (hm : m ≤ 2) (e : Expr) (hg : e.Good H) {t : PS} {B : List Nat} {bb : Option Nat} (h : Tr R m W s A t B)
    (hbb : ∀ b ∈ bb, b ∈ B) {t' : PS} {bb' : Option Nat} {v : Nat} (he : lowerE e t bb = some (t', bb', v)) :
    ∃ B', Walk R m W s A t B bb t' B' bb' := by
  match e, hg with
  | .comp args code v se, hg =>
    simp only [lowerE] at he
    obtain ⟨r, e1, e2⟩ := Option.map_eq_some_iff.mp he
    cases e2
    obtain ⟨B1, g1⟩ := lowerArgs_walk hm args hg.1 h hbb e1
    exact ⟨B1, g1.trans (Walk.emit g1.tr g1.cur _ _)⟩
  | .logic g tmp, hg =>
    simp only [lowerE] at he
    have hn := h.n
    have h2 := h.inn.two
    have hL : LogIn W s { and := t.n, or := t.n + 1 } t.create.create B :=
      ⟨⟨h2, by simp only [PS.create]; omega, .inr hn⟩, ⟨by dsimp only; omega, by simp only [PS.create]; omega, .inr (by dsimp only; omega)⟩,
        (fun o ho => by cases ho), (fun o ho => by cases ho)⟩
    obtain ⟨B1, g1⟩ := lowerOrs_walk hm g hg.1 h.create.create hbb hL he
    exact ⟨B1, g1.tr, g1.sub, g1.cur, g1.ent, g1.mono, Nat.le_trans (Nat.le_succ_of_le (Nat.le_succ _)) g1.n⟩
  | .tern c a b tm, hg =>
    simp only [lowerE] at he
    obtain ⟨r, e1, he⟩ := Option.bind_eq_some_iff.mp he
    obtain ⟨B1, g1⟩ := lowerE_walk hm c hg.1 h hbb e1
    rw [lowerE_straight a hg.2.2.2.1, Option.bind_some] at he
    dsimp only at he
    obtain ⟨u, e2, he⟩ := Option.bind_eq_some_iff.mp he
    obtain ⟨p, hp, rfl⟩ := connect_some e2
    rw [lowerE_straight b hg.2.2.2.2, Option.bind_some] at he
    dsimp only at he
    obtain ⟨u, e3, he⟩ := Option.map_eq_some_iff.mp he
    obtain ⟨p', hp', rfl⟩ := connect_some e3
    rw [hp] at hp'
    cases hp'
    cases he
    have hpB : p ∈ B1 := g1.cur p hp
    have h0 := g1.tr.emitO (p := r.2.1) (is := [branchIns r.2.2]) g1.cur
    have n0 := emitO_n r.1 r.2.1 [branchIns r.2.2]
    have k0 := emitO_block r.1 r.2.1 [branchIns r.2.2]
    clear e1 e2 e3
    generalize hu : r.1.emit r.2.1 [branchIns r.2.2] = u at h0 n0 k0 ⊢
    have hpn : p < u.n := (h0.bnd p hpB).2.1
    refine ⟨_, ⟨h0.fork hm hpB ?_ ?_ ?_ ?_ ?_ ?_ ?_, fun x hx => ?_, fun x hx => ?_, ?_, ?_, ?_⟩⟩
    all_goals clear hu
    · rfl
    · rfl
    · rfl
    · rfl
    · intro x h1 h2
      simp [PS.emit, PS.link, PS.create, upd, h1, h2]
    · intro q x
      simp only [PS.emit, mem_prev_link, PS.create, Option.getD_some]
      constructor
      · rintro ((((h1 | ⟨h1, h2⟩) | ⟨h1, h2⟩) | ⟨h1, h2⟩) | ⟨h1, h2⟩)
        · exact .inl h1
        · exact .inr (.inl ⟨h1, .inl h2⟩)
        · exact .inr (.inl ⟨h1, .inr h2⟩)
        · exact .inr (.inr (.inl ⟨h1, h2⟩))
        · exact .inr (.inr (.inr ⟨h1, h2⟩))
      · rintro (h1 | ⟨h1, h2 | h2⟩ | ⟨h1, h2⟩ | ⟨h1, h2⟩)
        · exact .inl (.inl (.inl (.inl h1)))
        · exact .inl (.inl (.inl (.inr ⟨h1, h2⟩)))
        · exact .inl (.inl (.inr ⟨h1, h2⟩))
        · exact .inl (.inr ⟨h1, h2⟩)
        · exact .inr ⟨h1, h2⟩
    · intro x k r hr
      simp only [PS.emit, PS.create, Option.getD_some] at hr
      rcases ptr_link _ _ _ _ hr with h1 | ⟨_, _, rfl⟩
      · rcases ptr_link _ _ _ _ h1 with h1 | ⟨_, _, rfl⟩
        · rcases ptr_link _ _ _ _ h1 with h1 | ⟨_, _, rfl⟩
          · rcases ptr_link _ _ _ _ h1 with h1 | ⟨_, _, rfl⟩
            · exact .inl h1
            · exact .inr ⟨by omega, by omega⟩
          · exact .inr ⟨by omega, by omega⟩
        · exact .inr ⟨by omega, by omega⟩
      · exact .inr ⟨by omega, by omega⟩
    · simp [g1.sub x hx]
    · cases hx
      exact List.mem_cons_self ..
    · refine .inr ⟨_, rfl, List.ne_nil_of_mem (a := u.n) ?_⟩
      simp only [PS.emit, mem_prev_link, PS.create, Option.getD_some]
      simp
    · intro q x hx
      have := g1.mono q x hx
      rw [← k0] at this
      simp only [PS.emit, mem_prev_link, PS.create, Option.getD_some]
      exact .inl (.inl (.inl (.inl this)))
    · have := g1.n
      simp only [PS.emit, PS.link, PS.create]
      omega
theorem lowerArgs_walk (hm : m ≤ 2) (es : Exprs) (hg : es.Good H) {t : PS} {B : List Nat} {bb : Option Nat} (h : Tr R m W s A t B)
    (hbb : ∀ b ∈ bb, b ∈ B) {t' : PS} {bb' : Option Nat} (he : lowerArgs es t bb = some (t', bb')) :
    ∃ B', Walk R m W s A t B bb t' B' bb' := by
  match es, hg with
  | .nil, _ =>
    cases he
    exact ⟨B, Walk.refl h hbb⟩
  | .cons e es, hg =>
    simp only [lowerArgs] at he
    obtain ⟨r, e1, he⟩ := Option.bind_eq_some_iff.mp he
    obtain ⟨B1, g1⟩ := lowerE_walk hm e hg.1 h hbb e1
    obtain ⟨B2, g2⟩ := lowerArgs_walk hm es hg.2 g1.tr g1.cur he
    exact ⟨B2, g1.trans g2⟩
theorem lowerOrs_walk (hm : m ≤ 2) (g : Ors) (hg : g.Good H) {t : PS} {B : List Nat} {bb : Option Nat} {tmp : Nat → Tmp} {L : Log}
    (h : Tr R m W s A t B) (hbb : ∀ b ∈ bb, b ∈ B) (hL : LogIn W s L t B) {t' : PS} {bb' : Option Nat} {v : Nat}
    (he : lowerOrs g tmp L t bb = some (t', bb', v)) : ∃ B', Walk R m W s A t B bb t' B' bb' := by
  match g, hg with
  | .one a, hg =>
    simp only [lowerOrs] at he
    obtain ⟨r, e1, he⟩ := Option.bind_eq_some_iff.mp he
    obtain ⟨B1, g1, l1⟩ := lowerAnds_walk hm a hg h hbb hL e1
    obtain ⟨B2, g2⟩ := finish_go hm 2 g1.tr g1.cur l1 he
    exact ⟨B2, g1.trans g2⟩
  | .more a r, hg =>
    simp only [lowerOrs] at he
    obtain ⟨q, e1, he⟩ := Option.bind_eq_some_iff.mp he
    obtain ⟨x, e2, he⟩ := Option.bind_eq_some_iff.mp he
    obtain ⟨B1, g1, l1⟩ := lowerAnds_walk hm a hg.1 h hbb hL e1
    obtain ⟨B2, g2, l2⟩ := applyOp_go g1.tr hm g1.cur l1 e2
    obtain ⟨B3, g3⟩ := lowerOrs_walk hm r hg.2 g2.tr g2.cur l2 he
    exact ⟨B3, (g1.trans g2).trans g3⟩
theorem lowerAnds_walk (hm : m ≤ 2) (g : Ands) (hg : g.Good H) {t : PS} {B : List Nat} {bb : Option Nat} {tmp : Nat → Tmp} {L L' : Log}
    (h : Tr R m W s A t B) (hbb : ∀ b ∈ bb, b ∈ B) (hL : LogIn W s L t B) {t' : PS} {bb' : Option Nat} {v : Nat}
    (he : lowerAnds g tmp L t bb = some (t', bb', L', v)) : ∃ B', Walk R m W s A t B bb t' B' bb' ∧ LogIn W s L' t' B' := by
  match g, hg with
  | .one e, hg =>
    simp only [lowerAnds] at he
    obtain ⟨r, e1, he⟩ := Option.map_eq_some_iff.mp he
    cases he
    obtain ⟨B1, g1⟩ := lowerE_walk hm e hg h hbb e1
    exact ⟨B1, g1, hL.mono g1.n g1.sub⟩
  | .more e r, hg =>
    simp only [lowerAnds] at he
    obtain ⟨q, e1, he⟩ := Option.bind_eq_some_iff.mp he
    obtain ⟨x, e2, he⟩ := Option.bind_eq_some_iff.mp he
    obtain ⟨B1, g1⟩ := lowerE_walk hm e hg.1 h hbb e1
    obtain ⟨B2, g2, l2⟩ := applyOp_go g1.tr hm g1.cur (hL.mono g1.n g1.sub) e2
    obtain ⟨B3, g3, l3⟩ := lowerAnds_walk hm r hg.2 g2.tr g2.cur l2 he
    exact ⟨B3, (g1.trans g2).trans g3, l3⟩
end

end Shecc.Stmt
