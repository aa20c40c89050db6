import Verif.Model.Stmt

/-! # Lemmas about the construction of the graph: what changes, and execution in later graphs -/

namespace Shecc.Stmt
open Shecc.Cfg
open CRename (Ins Mach Home run)
open CStmt

/-! ### Primitives -/

@[simp] theorem upd_self {α : Type} (f : Nat → α) (k : Nat) (x : α) : upd f k x k = x := by simp [upd]

theorem upd_other {α : Type} (f : Nat → α) (k : Nat) (x : α) {j : Nat} (h : j ≠ k) : upd f k x j = f j := by simp [upd, h]

/-- Nothing a translation looks at in a block has changed. -/
structure Same (s s' : PS) (b : Nat) : Prop where
  code : s'.code b = s.code b
  next : (s'.block b).next = (s.block b).next
  then_ : (s'.block b).then_ = (s.block b).then_
  else_ : (s'.block b).else_ = (s.block b).else_

theorem Same.refl (s : PS) (b : Nat) : Same s s b := ⟨rfl, rfl, rfl, rfl⟩

theorem Same.trans {s t u : PS} {b : Nat} (h : Same s t b) (k : Same t u b) : Same s u b :=
  ⟨k.code.trans h.code, k.next.trans h.next, k.then_.trans h.then_, k.else_.trans h.else_⟩

/-- Code without branches and returns. -/
def Clean (l : List (Ins Nat)) : Prop := ∀ i ∈ l, Simple i

theorem simple_nb {i : Ins Nat} (h : Simple i) : i.op ≠ .branch := by
  intro e
  simp [Simple, e, simple] at h

theorem simple_nr {i : Ins Nat} (h : Simple i) : i.op ≠ .ret := by
  intro e
  simp [Simple, e, simple] at h

theorem Clean.nb {l : List (Ins Nat)} (h : Clean l) : ∀ i ∈ l, i.op ≠ .branch := fun i hi => simple_nb (h i hi)

/-- Code in which the last instruction can be a branch. -/
def Tail (l : List (Ins Nat)) : Prop := ∀ xs i ys, l = xs ++ i :: ys → Simple i ∨ (ys = [] ∧ i.rd = none ∧ i.op = .branch)

theorem Clean.nil : Clean [] := by intro i hi; cases hi

theorem Clean.tail {l : List (Ins Nat)} (h : Clean l) : Tail l := fun xs i ys e => .inl (h i (by rw [e]; simp))

theorem Clean.append {l m : List (Ins Nat)} (h : Clean l) (k : Clean m) : Clean (l ++ m) := by
  intro i hi
  rcases List.mem_append.1 hi with hi | hi
  · exact h i hi
  · exact k i hi

theorem Tail.single (v : Nat) : Tail [branchIns v] := by
  intro xs j ys e
  cases xs with
  | nil => cases e; exact .inr ⟨rfl, rfl, rfl⟩
  | cons x xs =>
    have := congrArg List.length e
    simp at this

theorem Clean.appendTail {l m : List (Ins Nat)} (h : Clean l) (k : Tail m) : Tail (l ++ m) := by
  induction l with
  | nil => exact k
  | cons a l ih =>
    intro xs i ys e
    cases xs with
    | nil =>
      cases e
      exact .inl (h _ (by simp))
    | cons x xs =>
      simp only [List.cons_append, List.cons.injEq] at e
      exact ih (fun j hj => h j (by simp [hj])) xs i ys e.2

/-- A block without successors and without a branch. -/
structure Open (s : PS) (b : Nat) : Prop where
  next : (s.block b).next = none
  then_ : (s.block b).then_ = none
  else_ : (s.block b).else_ = none
  clean : Clean (s.code b)

theorem Open.same {s t : PS} {b : Nat} (h : Open s b) (k : Same s t b) : Open t b :=
  ⟨k.next.trans h.next, k.then_.trans h.then_, k.else_.trans h.else_, by rw [k.code]; exact h.clean⟩

/-- A block that gets no more instructions. -/
def Frozen (s : PS) (b : Nat) : Prop := (s.block b).next ≠ none ∨ ((s.block b).then_ ≠ none ∧ (s.block b).else_ ≠ none)

theorem Open.notFrozen {s : PS} {b : Nat} (h : Open s b) : ¬ Frozen s b := by
  intro k
  rcases k with k | k
  · exact k h.next
  · exact k.1 h.then_

/-- `F` is a later graph. -/
structure Le (s F : PS) : Prop where
  code : ∀ b, s.code b <+: F.code b
  next : ∀ b q, (s.block b).next = some q → (F.block b).next = some q
  then_ : ∀ b q, (s.block b).then_ = some q → (F.block b).then_ = some q
  else_ : ∀ b q, (s.block b).else_ = some q → (F.block b).else_ = some q
  frozen : ∀ b, Frozen s b → F.code b = s.code b
  prev : ∀ b, (s.block b).prev ≠ [] → (F.block b).prev ≠ []

theorem Le.refl (s : PS) : Le s s :=
  ⟨fun _ => List.prefix_refl _, fun _ _ h => h, fun _ _ h => h, fun _ _ h => h, fun _ _ => rfl, fun _ h => h⟩

theorem Le.frozenMono {s F : PS} (h : Le s F) {b : Nat} (k : Frozen s b) : Frozen F b := by
  rcases k with k | ⟨k, k'⟩
  · left
    obtain ⟨q, e⟩ := Option.ne_none_iff_exists'.mp k
    simp [h.next _ _ e]
  · right
    obtain ⟨q, e⟩ := Option.ne_none_iff_exists'.mp k
    obtain ⟨q', e'⟩ := Option.ne_none_iff_exists'.mp k'
    simp [h.then_ _ _ e, h.else_ _ _ e']

theorem Le.trans {s t u : PS} (h : Le s t) (k : Le t u) : Le s u :=
  ⟨fun b => (h.code b).trans (k.code b), fun b q e => k.next b q (h.next b q e), fun b q e => k.then_ b q (h.then_ b q e),
   fun b q e => k.else_ b q (h.else_ b q e), fun b f => (k.frozen b (h.frozenMono f)).trans (h.frozen b f),
   fun b e => k.prev b (h.prev b e)⟩

/-- The pointer of a kind. -/
def ptr (k : Kind) (b : Block) : Option Nat :=
  match k with
  | .next => b.next
  | .then_ => b.then_
  | .else_ => b.else_

/-- Every edge is recorded at both ends. -/
def Sym (s : PS) : Prop := ∀ a b, (∃ k, ptr k (s.block a) = some b) ↔ a ∈ (s.block b).prev

/-- Blocks not made yet are empty. -/
def Fresh (s : PS) : Prop := ∀ b, s.n ≤ b → s.code b = [] ∧ Open s b

/-- Branches and returns end their block. -/
def Ends (s : PS) : Prop := ∀ b xs i ys, s.code b = xs ++ i :: ys →
  Simple i ∨ (ys = [] ∧ i.rd = none ∧ (i.op = .branch ∧ (s.block b).next = none ∨
    i.op = .ret ∧ (s.block b).next = some s.exit ∧ (s.block b).then_ = none ∧ (s.block b).else_ = none))

/-- A step of the translation that changes only the blocks in `W`, and new ones; without the condition on the ends of blocks. -/
structure Post0 (W : List Nat) (s s' : PS) : Prop where
  n : s.n ≤ s'.n
  same : ∀ b, b < s.n → b ∉ W → Same s s' b
  le : Le s s'
  fresh : Fresh s → Fresh s'
  brk : s'.brk = s.brk
  cont : s'.cont = s.cont
  se : s'.se = s.se
  exit : s'.exit = s.exit
  sym : Sym s → Sym s'

/-- A step of the translation that changes only the blocks in `W`, and new ones. -/
structure Post (W : List Nat) (s s' : PS) : Prop extends Post0 W s s' where
  ends : Ends s → Ends s'

theorem Post.refl (s : PS) : Post [] s s :=
  ⟨⟨Nat.le_refl _, fun b _ _ => Same.refl s b, Le.refl s, fun h => h, rfl, rfl, rfl, rfl, id⟩, id⟩

theorem Post0.trans {V W : List Nat} {s t u : PS} (h : Post0 V s t) (k : Post0 W t u) (hw : ∀ b ∈ W, b ∈ V ∨ s.n ≤ b) : Post0 V s u := by
  refine ⟨Nat.le_trans h.n k.n, ?_, h.le.trans k.le, fun f => k.fresh (h.fresh f), k.brk.trans h.brk, k.cont.trans h.cont,
    k.se.trans h.se, k.exit.trans h.exit, fun y => k.sym (h.sym y)⟩
  intro b hb hv
  refine (h.same b hb hv).trans (k.same b (by have := h.n; omega) ?_)
  intro hw'
  rcases hw b hw' with x | x
  · exact hv x
  · omega

theorem Post.trans {V W : List Nat} {s t u : PS} (h : Post V s t) (k : Post W t u) (hw : ∀ b ∈ W, b ∈ V ∨ s.n ≤ b) : Post V s u :=
  ⟨h.toPost0.trans k.toPost0 hw, fun y => k.ends (h.ends y)⟩

theorem Post.mono {V W : List Nat} {s t : PS} (h : Post V s t) (hw : ∀ b ∈ V, b ∈ W) : Post W s t :=
  ⟨⟨h.n, fun b hb hn => h.same b hb (fun hv => hn (hw b hv)), h.le, h.fresh, h.brk, h.cont, h.se, h.exit, h.sym⟩, h.ends⟩

/-! #### `create` -/

@[simp] theorem create_n (s : PS) : s.create.n = s.n + 1 := rfl
@[simp] theorem create_code (s : PS) : s.create.code = s.code := rfl
@[simp] theorem create_block (s : PS) : s.create.block = s.block := rfl
@[simp] theorem create_brk (s : PS) : s.create.brk = s.brk := rfl
@[simp] theorem create_cont (s : PS) : s.create.cont = s.cont := rfl
@[simp] theorem create_se (s : PS) : s.create.se = s.se := rfl
@[simp] theorem create_exit (s : PS) : s.create.exit = s.exit := rfl

theorem post_create (s : PS) : Post [] s s.create :=
  ⟨⟨Nat.le_succ _, fun _ _ _ => ⟨rfl, rfl, rfl, rfl⟩,
   ⟨fun _ => List.prefix_refl _, fun _ _ h => h, fun _ _ h => h, fun _ _ h => h, fun _ _ => rfl, fun _ h => h⟩,
   fun f b hb => ⟨(f b (by simp at hb; omega)).1, ⟨(f b (by simp at hb; omega)).2.1, (f b (by simp at hb; omega)).2.2,
     (f b (by simp at hb; omega)).2.3, (f b (by simp at hb; omega)).2.4⟩⟩, rfl, rfl, rfl, rfl, id⟩, id⟩

/-! #### `emit` -/

@[simp] theorem emit_n (s : PS) (p : Option Nat) (is : List (Ins Nat)) : (s.emit p is).n = s.n := by cases p <;> rfl
@[simp] theorem emit_block (s : PS) (p : Option Nat) (is : List (Ins Nat)) : (s.emit p is).block = s.block := by cases p <;> rfl
@[simp] theorem emit_brk (s : PS) (p : Option Nat) (is : List (Ins Nat)) : (s.emit p is).brk = s.brk := by cases p <;> rfl
@[simp] theorem emit_cont (s : PS) (p : Option Nat) (is : List (Ins Nat)) : (s.emit p is).cont = s.cont := by cases p <;> rfl
@[simp] theorem emit_se (s : PS) (p : Option Nat) (is : List (Ins Nat)) : (s.emit p is).se = s.se := by cases p <;> rfl
@[simp] theorem emit_exit (s : PS) (p : Option Nat) (is : List (Ins Nat)) : (s.emit p is).exit = s.exit := by cases p <;> rfl
theorem emit_code (s : PS) (b c : Nat) (is : List (Ins Nat)) :
    (s.emit (some b) is).code c = if c = b then s.code b ++ is else s.code c := rfl
@[simp] theorem emit_code_self (s : PS) (b : Nat) (is : List (Ins Nat)) : (s.emit (some b) is).code b = s.code b ++ is := by
  simp [emit_code]
theorem emit_code_ne (s : PS) {b c : Nat} (is : List (Ins Nat)) (h : c ≠ b) : (s.emit (some b) is).code c = s.code c := by
  simp [emit_code, h]
@[simp] theorem emit_none (s : PS) (is : List (Ins Nat)) : s.emit none is = s := rfl

theorem emit_nil (s : PS) (p : Option Nat) : s.emit p [] = s := by
  cases p with
  | none => rfl
  | some b =>
    have : upd s.code b (s.code b ++ []) = s.code := by
      funext c
      unfold upd
      split
      · simp_all
      · rfl
    show ({ s with code := upd s.code b (s.code b ++ []) } : PS) = s
    rw [this]

theorem emit_emit (s : PS) (b : Nat) (x y : List (Ins Nat)) : (s.emit (some b) x).emit (some b) y = s.emit (some b) (x ++ y) := by
  have : upd (upd s.code b (s.code b ++ x)) b (upd s.code b (s.code b ++ x) b ++ y) = upd s.code b (s.code b ++ (x ++ y)) := by
    funext c
    unfold upd
    by_cases h : c = b <;> simp [h]
  show ({ s with code := upd (upd s.code b (s.code b ++ x)) b (upd s.code b (s.code b ++ x) b ++ y) } : PS) = _
  rw [this]
  rfl

theorem post0_emit (s : PS) (b : Nat) (is : List (Ins Nat)) (hb : b < s.n) (hf : ¬ Frozen s b)
    : Post0 [b] s (s.emit (some b) is) := by
  refine ⟨Nat.le_refl _, ?_, ⟨?_, fun _ _ h => h, fun _ _ h => h, fun _ _ h => h, ?_, fun _ h => h⟩, ?_, rfl, rfl, rfl, rfl, id⟩
  · intro c _ hc
    have hne : c ≠ b := by simpa using hc
    exact ⟨emit_code_ne s is hne, rfl, rfl, rfl⟩
  · intro c
    by_cases h : c = b
    · subst h; rw [emit_code_self]; exact List.prefix_append _ _
    · rw [emit_code_ne s is h]; exact List.prefix_refl _
  · intro c k
    have hne : c ≠ b := fun e => hf (e ▸ k)
    exact emit_code_ne s is hne
  · intro f c hc
    have hc' : s.n ≤ c := hc
    have e : (s.emit (some b) is).code c = s.code c := emit_code_ne s is (by omega)
    exact ⟨e.trans (f c hc').1, ⟨(f c hc').2.1, (f c hc').2.2, (f c hc').2.3, by rw [e]; exact (f c hc').2.4⟩⟩

theorem post_emit (s : PS) (b : Nat) (is : List (Ins Nat)) (hb : b < s.n) (hf : ¬ Frozen s b)
    (hc : Clean (s.code b)) (ht : Tail is) : Post [b] s (s.emit (some b) is) := by
  refine ⟨post0_emit s b is hb hf, ?_⟩
  · intro f c xs i ys e
    by_cases h : c = b
    · subst h
      rw [emit_code_self] at e
      have hn : (s.block c).next = none := by
        by_cases hn : (s.block c).next = none
        · exact hn
        · exact absurd (.inl hn) hf
      rcases hc.appendTail ht xs i ys e with k | ⟨k1, k2, k3⟩
      · exact .inl k
      · exact .inr ⟨k1, k2, .inl ⟨k3, hn⟩⟩
    · rw [emit_code_ne s is h] at e
      exact f c xs i ys e

/-! #### `link` -/

@[simp] theorem link_n (s : PS) (p q : Nat) (k : Kind) : (s.link p q k).n = s.n := rfl
@[simp] theorem link_code (s : PS) (p q : Nat) (k : Kind) : (s.link p q k).code = s.code := rfl
@[simp] theorem link_brk (s : PS) (p q : Nat) (k : Kind) : (s.link p q k).brk = s.brk := rfl
@[simp] theorem link_cont (s : PS) (p q : Nat) (k : Kind) : (s.link p q k).cont = s.cont := rfl
@[simp] theorem link_se (s : PS) (p q : Nat) (k : Kind) : (s.link p q k).se = s.se := rfl
@[simp] theorem link_exit (s : PS) (p q : Nat) (k : Kind) : (s.link p q k).exit = s.exit := rfl

theorem link_ptr (s : PS) (p q : Nat) (k : Kind) : ptr k ((s.link p q k).block p) = some q := by
  cases k <;> simp [PS.link, ptr, setPtr]

theorem link_ptr_ne (s : PS) (p q b : Nat) (k j : Kind) (h : b ≠ p ∨ j ≠ k) :
    ptr j ((s.link p q k).block b) = ptr j (s.block b) := by
  have hb : ∀ f : Block → Option Nat, (∀ x pr, f { x with prev := pr } = f x) →
      f (upd s.block q { s.block q with prev := (s.block q).prev ++ [p] } b) = f (s.block b) := by
    intro f hf
    by_cases hq : b = q
    · subst hq; simp [hf]
    · simp [upd, hq]
  by_cases hp : b = p
  · subst hp
    have hj : j ≠ k := by rcases h with h | h; exact absurd rfl h; exact h
    have := hb (ptr j) (by intro x pr; cases j <;> rfl)
    simp only [PS.link, upd_self]
    rw [← this]
    cases j <;> cases k <;> first | exact absurd rfl hj | rfl
  · have := hb (ptr j) (by intro x pr; cases j <;> rfl)
    simp only [PS.link]
    rw [upd_other _ _ _ hp]
    exact this

theorem link_prev (s : PS) (p q b : Nat) (k : Kind) :
    ((s.link p q k).block b).prev = if b = q then (s.block q).prev ++ [p] else (s.block b).prev := by
  by_cases hp : b = p
  · subst hp
    by_cases hq : b = q <;> cases k <;> simp [PS.link, setPtr, upd, hq]
  · by_cases hq : b = q <;> cases k <;> simp [PS.link, upd, hp, hq] <;> simp_all

@[simp] theorem link_next (s : PS) (p q : Nat) : ((s.link p q .next).block p).next = some q := link_ptr s p q .next
@[simp] theorem link_then (s : PS) (p q : Nat) : ((s.link p q .then_).block p).then_ = some q := link_ptr s p q .then_
@[simp] theorem link_else (s : PS) (p q : Nat) : ((s.link p q .else_).block p).else_ = some q := link_ptr s p q .else_
theorem link_next_ne (s : PS) {p b : Nat} (q : Nat) (k : Kind) (h : b ≠ p ∨ Kind.next ≠ k) :
    ((s.link p q k).block b).next = (s.block b).next := link_ptr_ne s p q b k .next h
theorem link_then_ne (s : PS) {p b : Nat} (q : Nat) (k : Kind) (h : b ≠ p ∨ Kind.then_ ≠ k) :
    ((s.link p q k).block b).then_ = (s.block b).then_ := link_ptr_ne s p q b k .then_ h
theorem link_else_ne (s : PS) {p b : Nat} (q : Nat) (k : Kind) (h : b ≠ p ∨ Kind.else_ ≠ k) :
    ((s.link p q k).block b).else_ = (s.block b).else_ := link_ptr_ne s p q b k .else_ h

theorem link_same (s : PS) {p b : Nat} (q : Nat) (k : Kind) (h : b ≠ p) : Same s (s.link p q k) b :=
  ⟨rfl, link_next_ne s q k (.inl h), link_then_ne s q k (.inl h), link_else_ne s q k (.inl h)⟩

theorem link_prev_ne (s : PS) (p q : Nat) (k : Kind) : ((s.link p q k).block q).prev ≠ [] := by
  rw [link_prev]; simp

theorem post0_link (s : PS) (p q : Nat) (k : Kind) (hp : p < s.n) (hk : ptr k (s.block p) = none) :
    Post0 [p] s (s.link p q k) := by
  have hptr : ∀ j b x, ptr j (s.block b) = some x → ptr j ((s.link p q k).block b) = some x := by
    intro j b x hx
    rw [link_ptr_ne s p q b k j ?_]
    · exact hx
    · by_cases h : b = p
      · right
        intro e
        subst e h
        rw [hk] at hx
        cases hx
      · exact .inl h
  refine ⟨Nat.le_refl _, ?_, ⟨fun _ => List.prefix_refl _, fun b => hptr .next b, fun b => hptr .then_ b, fun b => hptr .else_ b,
    fun _ _ => rfl, ?_⟩, ?_, rfl, rfl, rfl, rfl, ?_⟩
  · intro b _ hb
    have hne : b ≠ p := by simpa using hb
    exact link_same s q k hne
  · intro b hb
    rw [link_prev]
    split <;> simp_all
  · intro f b hb
    have hb' : s.n ≤ b := hb
    have hs : Same s (s.link p q k) b := link_same s q k (by omega)
    exact ⟨hs.code.trans (f b hb').1, (f b hb').2.same hs⟩
  · intro y a b
    rw [link_prev]
    by_cases hb : b = q
    · subst hb
      rw [if_pos rfl]
      simp only [List.mem_append, List.mem_singleton]
      constructor
      · rintro ⟨j, hj⟩
        by_cases hc : a = p ∧ j = k
        · exact .inr hc.1
        · rw [link_ptr_ne s p b a k j (by
            by_cases ha : a = p
            · exact .inr (fun e => hc ⟨ha, e⟩)
            · exact .inl ha)] at hj
          exact .inl ((y a b).1 ⟨j, hj⟩)
      · rintro (h | rfl)
        · obtain ⟨j, hj⟩ := (y a b).2 h
          exact ⟨j, hptr j a b hj⟩
        · exact ⟨k, link_ptr _ _ _ _⟩
    · rw [if_neg hb]
      constructor
      · rintro ⟨j, hj⟩
        by_cases hc : a = p ∧ j = k
        · obtain ⟨rfl, rfl⟩ := hc
          rw [link_ptr] at hj
          exact absurd (Option.some.inj hj).symm hb
        · rw [link_ptr_ne s p q a k j (by
            by_cases ha : a = p
            · exact .inr (fun e => hc ⟨ha, e⟩)
            · exact .inl ha)] at hj
          exact (y a b).1 ⟨j, hj⟩
      · intro h
        obtain ⟨j, hj⟩ := (y a b).2 h
        exact ⟨j, hptr j a b hj⟩

theorem post_link (s : PS) (p q : Nat) (k : Kind) (hp : p < s.n) (hk : ptr k (s.block p) = none)
    (hc : k = .next → Clean (s.code p) := by first | (intro h; cases h) | assumption | (intro _; assumption))
    (hx : k ≠ .next → (s.block p).next = none := by first | (intro h; exact absurd rfl h) | assumption | (intro _; assumption)) :
    Post [p] s (s.link p q k) := by
  refine ⟨post0_link s p q k hp hk, ?_⟩
  intro f b xs i ys e
  have e' : s.code b = xs ++ i :: ys := e
  rcases f b xs i ys e' with h | ⟨h1, h2, h3⟩
  · exact .inl h
  · by_cases hb : b ≠ p ∨ Kind.next ≠ k
    · rw [link_next_ne s q k hb]
      refine .inr ⟨h1, h2, ?_⟩
      rcases h3 with h3 | ⟨h3, h4, h5, h6⟩
      · exact .inl h3
      · have hb' : b ≠ p := by
          rintro rfl
          have hk' : k ≠ .next := by
            rcases hb with hb | hb
            · exact absurd rfl hb
            · exact Ne.symm hb
          rw [hx hk'] at h4
          cases h4
        rw [link_then_ne s q k (.inl hb'), link_else_ne s q k (.inl hb')]
        exact .inr ⟨h3, h4, h5, h6⟩
    · have hb' : b = p ∧ k = .next := by
        constructor
        · exact Classical.byContradiction fun h => hb (.inl h)
        · exact Classical.byContradiction fun h => hb (.inr (Ne.symm h))
      obtain ⟨rfl, rfl⟩ := hb'
      exact .inl (hc rfl i (by rw [e']; simp))

/-- There is no plain edge, and none is made by adding an edge of another kind. -/
macro "nonext " t:term : term => `(fun _ => by first | exact $t | (rw [link_next_ne _ _ _ (.inr (by simp))]; exact $t) | (simp only [create_block, emit_block]; rw [link_next_ne _ _ _ (.inr (by simp))]; exact $t))

/-- A return. -/
theorem post_ret (s : PS) (p : Nat) (v : Option Nat) (hp : p < s.n) (ho : Open s p) :
    Post [p] s ((s.emit (some p) [retIns v]).link p s.exit .next) := by
  refine ⟨(post0_emit s p _ hp ho.notFrozen).trans (post0_link _ p _ .next hp ho.next) (by simp), ?_⟩
  intro f b xs i ys e
  have e' : (s.emit (some p) [retIns v]).code b = xs ++ i :: ys := e
  by_cases hb : b = p
  · subst hb
    rw [emit_code_self] at e'
    rcases List.eq_nil_or_concat ys with rfl | ⟨ys', j, rfl⟩
    · have := congrArg List.getLast? e'
      simp at this
      subst this
      refine .inr ⟨rfl, rfl, .inr ⟨rfl, link_ptr _ _ _ .next, ?_, ?_⟩⟩
      · rw [link_then_ne _ _ _ (.inr (by intro h; cases h))]; exact ho.then_
      · rw [link_else_ne _ _ _ (.inr (by intro h; cases h))]; exact ho.else_
    · left
      have h2 : s.code b ++ [retIns v] = (xs ++ i :: ys') ++ [j] := by rw [e']; simp
      have h3 := List.append_inj_left' h2 rfl
      exact ho.clean i (by rw [h3]; simp)
  · rw [emit_code_ne s _ hb] at e'
    rw [link_next_ne _ _ _ (.inl hb), link_then_ne _ _ _ (.inl hb), link_else_ne _ _ _ (.inl hb)]
    exact f b xs i ys e'

theorem block_ext {a b : Block} (h1 : a.next = b.next) (h2 : a.then_ = b.then_) (h3 : a.else_ = b.else_) (h4 : a.prev = b.prev) :
    a = b := by
  cases a
  cases b
  simp_all

theorem link_comm (s : PS) {p q p' q' : Nat} {k k' : Kind} (hp : p ≠ p') (hq : q ≠ q') :
    (s.link p q k).link p' q' k' = (s.link p' q' k').link p q k := by
  have hptr : ∀ j b, ptr j (((s.link p q k).link p' q' k').block b) = ptr j (((s.link p' q' k').link p q k).block b) := by
    intro j b
    by_cases h1 : b = p ∧ j = k
    · obtain ⟨rfl, rfl⟩ := h1
      rw [link_ptr, link_ptr_ne _ _ _ _ _ _ (.inl hp), link_ptr]
    · have h1' : b ≠ p ∨ j ≠ k := by
        by_cases hb : b = p
        · exact .inr (fun e => h1 ⟨hb, e⟩)
        · exact .inl hb
      rw [link_ptr_ne (s.link p' q' k') p q b k j h1']
      by_cases h2 : b = p' ∧ j = k'
      · obtain ⟨rfl, rfl⟩ := h2
        rw [link_ptr, link_ptr]
      · have h2' : b ≠ p' ∨ j ≠ k' := by
          by_cases hb : b = p'
          · exact .inr (fun e => h2 ⟨hb, e⟩)
          · exact .inl hb
        rw [link_ptr_ne _ _ _ _ _ _ h2', link_ptr_ne _ _ _ _ _ _ h1', link_ptr_ne _ _ _ _ _ _ h2']
  have hb : ((s.link p q k).link p' q' k').block = ((s.link p' q' k').link p q k).block := by
    funext b
    refine block_ext (hptr .next b) (hptr .then_ b) (hptr .else_ b) ?_
    rw [link_prev, link_prev, link_prev, link_prev, link_prev, link_prev]
    by_cases a1 : b = q
    · subst a1; simp [hq]
    · by_cases a2 : b = q'
      · subst a2; simp [a1]
      · simp [a1, a2]
  show ({ s with block := ((s.link p q k).link p' q' k').block } : PS) = { s with block := ((s.link p' q' k').link p q k).block }
  rw [hb]

theorem emit_comm (s : PS) {b c : Nat} (x y : List (Ins Nat)) (h : b ≠ c) :
    (s.emit (some b) x).emit (some c) y = (s.emit (some c) y).emit (some b) x := by
  have : ∀ f : Nat → List (Ins Nat), upd (upd f b (f b ++ x)) c (upd f b (f b ++ x) c ++ y) =
      upd (upd f c (f c ++ y)) b (upd f c (f c ++ y) b ++ x) := by
    intro f
    funext d
    by_cases a1 : d = c
    · subst a1; simp [upd, h.symm]
    · by_cases a2 : d = b
      · subst a2; simp [upd, h]
      · simp [upd, a1, a2]
  exact congrArg (fun f => ({ s with code := f } : PS)) (this s.code)

theorem Open.ptr {s : PS} {b : Nat} (h : Open s b) (k : Kind) : Stmt.ptr k (s.block b) = none := by
  cases k
  · exact h.next
  · exact h.then_
  · exact h.else_

theorem Open.create {s : PS} {b : Nat} (h : Open s b) : Open s.create b := ⟨h.next, h.then_, h.else_, h.clean⟩
theorem Open.emit {s : PS} {b : Nat} (h : Open s b) (p : Option Nat) (is : List (Ins Nat)) (hc : p ≠ some b ∨ Clean is) :
    Open (s.emit p is) b := by
  cases p with
  | none => exact h
  | some c =>
    refine ⟨h.next, h.then_, h.else_, ?_⟩
    by_cases e : b = c
    · subst e
      rw [emit_code_self]
      rcases hc with hc | hc
      · exact absurd rfl hc
      · exact h.clean.append hc
    · rw [emit_code_ne s is e]; exact h.clean
theorem Open.link {s : PS} {b p q : Nat} {k : Kind} (h : Open s b) (hp : b ≠ p) : Open (s.link p q k) b :=
  h.same (link_same s q k hp)

theorem Post.create {V : List Nat} {s t : PS} (h : Post V s t) : Post V s t.create := h.trans (post_create t) (by simp)

theorem Post.emit {V : List Nat} {s t : PS} (h : Post V s t) {b : Nat} {is : List (Ins Nat)} (hb : b < t.n) (hf : ¬ Frozen t b)
    (hc : Clean (t.code b)) (ht : Tail is) (hv : b ∈ V ∨ s.n ≤ b) : Post V s (t.emit (some b) is) :=
  h.trans (post_emit t b is hb hf hc ht) (by simpa using hv)

theorem Post.link {V : List Nat} {s t : PS} (h : Post V s t) {p q : Nat} {k : Kind} (hp : p < t.n) (hk : ptr k (t.block p) = none)
    (hv : p ∈ V ∨ s.n ≤ p) (hc : k = .next → Clean (t.code p) := by first | (intro h; cases h) | assumption | (intro _; assumption))
    (hx : k ≠ .next → (t.block p).next = none := by first | (intro h; exact absurd rfl h) | assumption | (intro _; assumption)) :
    Post V s (t.link p q k) :=
  h.trans (post_link t p q k hp hk hc hx) (by simpa using hv)

theorem Post.nil {V : List Nat} (s : PS) : Post V s s := (Post.refl s).mono (by simp)

/-- Connecting blocks and emitting code commute. -/
theorem link_emit (s : PS) (p q b : Nat) (k : Kind) (is : List (Ins Nat)) :
    (s.link p q k).emit (some b) is = (s.emit (some b) is).link p q k := rfl

/-! ### Execution -/

variable {M : Mach} {H : Home Nat}

abbrev St (M : Mach) (H : Home Nat) (F : PS) (k : Nat) (c d : Conf M) : Prop := Prog.Steps M H F.prog k c d

/-- Some steps lead from one configuration to another. -/
def Go (M : Mach) (H : Home Nat) (F : PS) (c d : Conf M) : Prop := ∃ k, St M H F k c d

/-- `n` or more steps are possible. -/
def GoN (M : Mach) (H : Home Nat) (F : PS) (n : Nat) (c : Conf M) : Prop := ∃ k d, n ≤ k ∧ St M H F k c d

theorem steps_trans {F : PS} {j k : Nat} {c d e : Conf M} (h : St M H F j c d) (h' : St M H F k d e) : St M H F (j + k) c e := by
  induction h with
  | refl c => simpa using h'
  | step hs _ ih =>
    have := Prog.Steps.step hs (ih h')
    rwa [show ∀ n : Nat, n + 1 + k = n + k + 1 by intro n; omega]

theorem Go.refl (F : PS) (c : Conf M) : Go M H F c c := ⟨0, .refl c⟩
theorem Go.trans {F : PS} {c d e : Conf M} (h : Go M H F c d) (h' : Go M H F d e) : Go M H F c e := by
  obtain ⟨j, h⟩ := h
  obtain ⟨k, h'⟩ := h'
  exact ⟨j + k, steps_trans h h'⟩
theorem Go.thenN {F : PS} {n : Nat} {c d : Conf M} (h : Go M H F c d) (h' : GoN M H F n d) : GoN M H F n c := by
  obtain ⟨j, h⟩ := h
  obtain ⟨k, e, hk, h'⟩ := h'
  exact ⟨j + k, e, by omega, steps_trans h h'⟩
theorem GoN.more {F : PS} {n j : Nat} {c d : Conf M} (h : St M H F j c d) (hj : 0 < j) (h' : GoN M H F n d) :
    GoN M H F (n + 1) c := by
  obtain ⟨k, e, hk, h'⟩ := h'
  exact ⟨j + k, e, by omega, steps_trans h h'⟩

/-- Code without branches. -/
theorem steps_code {F : PS} {b : Nat} : ∀ (is pre post : List (Ins Nat)) (s s' : S M), F.code b = pre ++ is ++ post →
    (∀ i ∈ is, i.op ≠ .branch) → run M H is s = some s' →
    St M H F is.length ⟨b, pre.length, s⟩ ⟨b, pre.length + is.length, s'⟩ := by
  intro is
  induction is with
  | nil =>
    intro pre post s s' _ _ hr
    simp only [run, Option.some.injEq] at hr
    subst hr
    exact .refl _
  | cons i is ih =>
    intro pre post s s' hc hb hr
    simp only [run, Option.bind_eq_some_iff] at hr
    obtain ⟨s1, h1, h2⟩ := hr
    have := ih (pre ++ [i]) post s1 s' (by simp [hc]) (fun j hj => hb j (List.mem_cons_of_mem _ hj)) h2
    rw [List.length_append, List.length_singleton] at this
    refine .step (d := ⟨b, pre.length + 1, s1⟩) ?_ (by
      rw [show pre.length + (i :: is).length = pre.length + 1 + is.length by simp; omega]
      exact this)
    have hg : (F.prog.code b)[pre.length]? = some i := by
      show (F.code b)[pre.length]? = some i
      rw [hc]
      simp
    unfold Prog.step
    rw [hg]
    simp [hb i (List.mem_cons_self ..), h1]

theorem Le.steps {s' F : PS} (h : Le s' F) {b : Nat} {pre is : List (Ins Nat)} (hc : s'.code b = pre ++ is)
    (hb : ∀ i ∈ is, i.op ≠ .branch) {σ σ' : S M} (hr : run M H is σ = some σ') :
    Go M H F ⟨b, pre.length, σ⟩ ⟨b, (s'.code b).length, σ'⟩ := by
  obtain ⟨post, hp⟩ := h.code b
  refine ⟨is.length, ?_⟩
  rw [hc, List.length_append]
  exact steps_code is pre post σ σ' (by rw [← hp, hc]) hb hr

theorem Le.jump {s F : PS} (h : Le s F) {b q : Nat} (hn : (s.block b).next = some q) (σ : S M) :
    Go M H F ⟨b, (s.code b).length, σ⟩ ⟨q, 0, σ⟩ := by
  refine ⟨1, .step ?_ (.refl _)⟩
  have hc : (F.prog.code b) = s.code b := h.frozen b (.inl (by simp [hn]))
  have hq : F.prog.next b = some q := h.next b q hn
  unfold Prog.step
  simp [hc, hq]

theorem Le.branchStep {s F : PS} (h : Le s F) {b x y v : Nat} {pre : List (Ins Nat)} (hc : s.code b = pre ++ [branchIns v])
    (hx : (s.block b).then_ = some x) (hy : (s.block b).else_ = some y) (σ : S M) :
    St M H F 1 ⟨b, pre.length, σ⟩ ⟨if truth M H σ v then x else y, 0, σ⟩ := by
  refine .step ?_ (.refl _)
  obtain ⟨post, hp⟩ := h.code b
  have hg : (F.prog.code b)[pre.length]? = some (branchIns v) := by
    show (F.code b)[pre.length]? = _
    rw [← hp, hc]; simp
  have h1 : F.prog.then_ b = some x := h.then_ b x hx
  have h2 : F.prog.else_ b = some y := h.else_ b y hy
  unfold Prog.step
  rw [hg]
  simp only [branchIns, if_true, h1, h2]
  split <;> rfl

theorem Le.branch {s F : PS} (h : Le s F) {b x y v : Nat} {pre : List (Ins Nat)} (hc : s.code b = pre ++ [branchIns v])
    (hx : (s.block b).then_ = some x) (hy : (s.block b).else_ = some y) (σ : S M) :
    Go M H F ⟨b, pre.length, σ⟩ ⟨if truth M H σ v then x else y, 0, σ⟩ := ⟨1, h.branchStep hc hx hy σ⟩

/-! ### Truth values -/

theorem run_append (xs ys : List (Ins Nat)) (s : S M) : run M H (xs ++ ys) s = (run M H xs s).bind (run M H ys) := by
  induction xs generalizing s with
  | nil => rfl
  | cons i xs ih =>
    simp only [List.cons_append, run]
    cases CRename.step M H i s with
    | none => rfl
    | some s1 => simp [ih]

theorem truth_setBool (B : Basic M) {t : Tmp} (ht : t.Ok H) {b : Bool} {s s' : S M} (h : run M H (setBool t b) s = some s') :
    truth M H s' t.res = b := by
  obtain ⟨h1, h0, hr⟩ := ht
  cases b
  · simp [setBool, run, CRename.step, constIns, moveIns, CRename.arg1, CRename.Ins.tag, B.const, B.move, CRename.wr, h0, hr] at h
    subst h
    simp [truth, CRename.rd, hr, h0]
  · simp [setBool, run, CRename.step, constIns, moveIns, CRename.arg1, CRename.Ins.tag, B.const, B.move, CRename.wr, h1, hr] at h
    subst h
    simp [truth, CRename.rd, hr, h1]

theorem setBool_noBranch (t : Tmp) (b : Bool) : ∀ i ∈ setBool t b, i.op ≠ .branch := by
  cases b <;> simp [setBool, constIns, moveIns]

theorem setBool_clean (t : Tmp) (b : Bool) : Clean (setBool t b) := by
  intro i hi
  cases b <;> simp [setBool, constIns, moveIns] at hi <;> rcases hi with rfl | rfl <;> rfl

theorem Clean.one {i : Ins Nat} (h : Simple i) : Clean [i] := by
  intro j hj
  rw [List.mem_singleton.1 hj]
  exact h

end Shecc.Stmt
