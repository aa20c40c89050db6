import Verif.Lemmas.StmtWays2

/-! # Lemmas about the graph built for a function: from every block that is entered the exit can be reached -/

namespace Shecc.Stmt
open Shecc.Cfg
open CRename (Ins)
open CStmt

/-- There is an edge from `a` to `b`. -/
def Ed (s : PS) (a b : Nat) : Prop := a ∈ (s.block b).prev

/-- From the block the exit, or one of `Y`, can be reached. -/
inductive To (E : Nat → Nat → Prop) (Y : List Nat) : Nat → Prop
  | here {b : Nat} (h : b ∈ Y) : To E Y b
  | exit : To E Y 1
  | on {a b : Nat} (h : E a b) (k : To E Y b) : To E Y a

theorem To.lift {E E' : Nat → Nat → Prop} {Y Y' : List Nat} {b : Nat} (h : To E Y b) (he : ∀ a b, E a b → E' a b) (hy : ∀ x ∈ Y, To E' Y' x) :
    To E' Y' b := by
  induction h with
  | here h => exact hy _ h
  | exit => exact .exit
  | on h _ ih => exact .on (he _ _ h) ih

/-- From every block with a predecessor, and from the entry, the exit or one of `Y` can be reached; the edges `E` are
there. Blocks with two edges, and the blocks `T`, have a branch. -/
structure Outs (E : Nat → Nat → Prop) (T : Nat → Prop) (s : PS) (Y : List Nat) : Prop where
  outs : ∀ b, (b = 0 ∨ (s.block b).prev ≠ []) → To (Ed s) Y b
  keep : ∀ a b, E a b → Ed s a b
  brs : ∀ b, Thn s b ∨ Els s b → Br s b
  half : ∀ b, T b → Br s b

variable {E : Nat → Nat → Prop} {T : Nat → Prop} {H : CRename.Home Nat}
variable {s : PS} {p q a b : Nat} {k : Kind} {Y : List Nat} {o : Option Nat} {is : List (Ins Nat)}

theorem edge_link (h : Ed s a b) : Ed (s.link p q k) a b := by
  unfold Ed at *
  rw [prev_link]
  split
  · rename_i e
    subst e
    exact List.mem_append_left _ h
  · exact h
theorem edge_self : Ed (s.link p q k) p q := by
  unfold Ed
  rw [prev_link, if_pos rfl]
  simp
theorem edge_emit (h : Ed s a b) : Ed (s.emit o is) a b := by cases o <;> exact h
theorem edge_create (h : Ed s a b) : Ed s.create a b := h
theorem To.step {a b : Nat} {Y' : List Nat} (h : Ed s a b) (hb : b ∈ Y') : To (Ed s) Y' a := .on h (.here hb)
theorem To.step2 {a b c : Nat} {Y' : List Nat} (h : Ed s a b) (h' : Ed s b c) (hb : c ∈ Y') : To (Ed s) Y' a := .on h (.on h' (.here hb))

/-- One more edge. -/
macro "edge" : tactic => `(tactic| repeat first
  | exact edge_self | assumption | refine edge_link ?_ | refine edge_emit ?_ | refine edge_create ?_)

theorem Outs.create (h : Outs E T s Y) : Outs E T s.create Y := ⟨h.outs, h.keep, h.brs, h.half⟩
theorem Outs.se (h : Outs E T s Y) (l : List (Ins Nat)) : Outs E T { s with se := l } Y := ⟨h.outs, h.keep, h.brs, h.half⟩
theorem Outs.setBC (h : Outs E T s Y) (l m : List Nat) : Outs E T { s with brk := l, cont := m } Y := ⟨h.outs, h.keep, h.brs, h.half⟩
theorem Outs.emit (h : Outs E T s Y) : Outs E T (s.emit o is) Y := by
  cases o with
  | none => exact h
  | some b => exact ⟨h.outs, h.keep, fun b hb => br_emit (h.brs b hb), fun b hb => br_emit (h.half b hb)⟩
theorem Outs.flush (h : Outs E T s Y) : Outs E T (s.flush o) Y := (h.emit (is := s.se)).se []
theorem Outs.edge (h : Outs E T s Y) (hk : k = .next ∨ Br s p) : Outs E T (s.link p q k) (q :: Y) := by
  refine ⟨fun b hb => ?_, fun a b h' => edge_link (h.keep a b h'), fun b hb => ?_, fun b hb => br_link (h.half b hb)⟩
  · by_cases hq : b = q
    · exact .here (by simp [hq])
    · rw [prev_link, if_neg hq] at hb
      exact (h.outs b hb).lift (fun _ _ => edge_link) fun x hx => .here (List.mem_cons_of_mem _ hx)
  · refine br_link ?_
    rcases hk with rfl | hk
    · refine h.brs b (hb.imp (fun hb => ?_) fun hb => ?_)
      · intro h0
        refine hb ?_
        have := ptr_upd s p q .next b .then_
        rw [if_neg (fun h => by cases h.2)] at this
        exact this.trans h0
      · intro h0
        refine hb ?_
        have := ptr_upd s p q .next b .else_
        rw [if_neg (fun h => by cases h.2)] at this
        exact this.trans h0
    · by_cases hp : b = p
      · rw [hp]; exact hk
      · refine h.brs b (hb.imp (fun hb => ?_) fun hb => ?_)
        · intro h0
          refine hb ?_
          have := ptr_upd s p q k b .then_
          rw [if_neg (fun h => hp h.1)] at this
          exact this.trans h0
        · intro h0
          refine hb ?_
          have := ptr_upd s p q k b .else_
          rw [if_neg (fun h => hp h.1)] at this
          exact this.trans h0
theorem Outs.link (h : Outs E T s Y) : Outs E T (s.link p q .next) (q :: Y) := h.edge (.inl rfl)
theorem Outs.fork (h : Outs E T s Y) (hb : Br s p) : Outs E T (s.link p q k) (q :: Y) := h.edge (.inr hb)
theorem Outs.mono (h : Outs E T s Y) {Y' : List Nat} (hz : ∀ b ∈ Y, To (Ed s) Y' b) : Outs E T s Y' :=
  ⟨fun b hb => (h.outs b hb).lift (fun _ _ h => h) hz, h.keep, h.brs, h.half⟩
theorem Outs.less {T' : Nat → Prop} (h : Outs E T s Y) (ht : ∀ b, T' b → T b) : Outs E T' s Y := ⟨h.outs, h.keep, h.brs, fun b hb => h.half b (ht b hb)⟩
theorem Outs.plus (h : Outs E T s Y) (hb : Br s b) : Outs E (fun x => T x ∨ x = b) s Y :=
  ⟨h.outs, h.keep, h.brs, fun x hx => hx.elim (h.half x) fun hx => by rw [hx]; exact hb⟩
theorem Outs.weak {Y' : List Nat} (h : Outs E T s Y) (hs : ∀ x ∈ Y, x ∈ Y') : Outs E T s Y' := h.mono fun x hx => .here (hs x hx)
theorem Outs.now (h : Outs E T s Y) : Outs (Ed s) T s Y := ⟨h.outs, fun _ _ h => h, h.brs, h.half⟩
theorem Outs.back {s' : PS} {Y' : List Nat} (h : Outs E T s Y) (h' : Outs (Ed s) T s' Y') : Outs E T s' Y' := ⟨h'.outs, fun a b k => h'.keep a b (h.keep a b k), h'.brs, h'.half⟩

theorem To.drop {z : Nat} (h : To (Ed s) (z :: Y) b) (hb : b ≠ z) (hz : (s.block z).prev = []) : To (Ed s) Y b := by
  induction h with
  | here h =>
    rcases List.mem_cons.1 h with h | h
    · exact absurd h hb
    · exact .here h
  | exit => exact .exit
  | on h k ih =>
    refine .on h (ih ?_)
    rintro rfl
    unfold Ed at h
    rw [hz] at h
    cases h

/-- A block without predecessors is not on the way. -/
theorem Outs.drop {z : Nat} (h : Outs E T s (z :: Y)) (h0 : z ≠ 0) (hz : (s.block z).prev = []) : Outs E T s Y :=
  ⟨fun b hb => (h.outs b hb).drop (by
    rintro rfl
    rcases hb with hb | hb
    · exact h0 hb
    · exact hb hz) hz, h.keep, h.brs, h.half⟩

/-! ### Expressions -/

theorem readLogical_outs {op : LogOp} {sh v : Nat} {t t' : PS} {bb bb' : Option Nat} {Y : List Nat} (h : Outs E T t (bb.toList ++ Y))
    (e : readLogical op sh v t bb = some (t', bb')) : Outs E T t' (bb'.toList ++ sh :: Y) := by
  unfold readLogical at e
  obtain ⟨u, e1, e2⟩ := Option.bind_eq_some_iff.mp e
  obtain ⟨b, rfl, rfl⟩ := connect_some e1
  dsimp only at e2
  obtain ⟨u, e3, e4⟩ := Option.map_eq_some_iff.mp e2
  obtain ⟨b', hb', rfl⟩ := connect_some e3
  cases hb'
  cases e4
  have b0 : Br (t.emit (some b) [branchIns v]) b := br_self
  refine Outs.mono (((h.emit (o := some b) (is := [branchIns v])).fork (p := b) (q := sh) b0).create.fork (p := b) b0) ?_
  intro x hx
  simp only [Option.toList_some, List.cons_append, List.nil_append, List.mem_cons] at hx ⊢
  rcases hx with rfl | rfl | rfl | hx
  · exact .here (by simp)
  · exact .here (by simp)
  · exact .step (by edge) (List.mem_cons_self ..)
  · exact .here (by simp [hx])

theorem finalize_outs {op : LogOp} {sh v : Nat} {tm : Tmp} {t t' : PS} {bb bb' : Option Nat} {Y : List Nat} (h : Outs E T t (bb.toList ++ sh :: Y))
    (e : finalize op sh tm v t bb = some (t', bb')) : Outs E T t' (bb'.toList ++ Y) := by
  unfold finalize at e
  obtain ⟨b, rfl, e⟩ := Option.map_eq_some_iff.mp e
  cases op <;> (dsimp only at e; cases e)
  · have b0 : Br (t.create.create.emit (some b) [branchIns v]) b := br_self
    refine Outs.mono ((((((h.create.create.emit (o := some b) (is := [branchIns v])).fork (p := b) (q := t.n + 1) b0).fork (p := b) (q := sh)
      b0).link (p := t.n + 1) (q := t.n)).link (p := sh) (q := t.n)).emit.emit) ?_
    intro x hx
    simp only [Option.toList_some, List.cons_append, List.nil_append, List.mem_cons] at hx ⊢
    rcases hx with rfl | rfl | rfl | rfl | rfl | rfl | hx
    · exact .here (List.mem_cons_self ..)
    · exact .here (List.mem_cons_self ..)
    · exact .step (by edge) (List.mem_cons_self ..)
    · exact .step (by edge) (List.mem_cons_self ..)
    · exact .step2 (b := t.n + 1) (by edge) (by edge) (List.mem_cons_self ..)
    · exact .step (by edge) (List.mem_cons_self ..)
    · exact .here (List.mem_cons_of_mem _ hx)
  · have b0 : Br (t.create.create.emit (some b) [branchIns v]) b := br_self
    refine Outs.mono ((((((h.create.create.emit (o := some b) (is := [branchIns v])).fork (p := b) (q := sh) b0).fork (p := b) (q := t.n + 1)
      b0).link (p := sh) (q := t.n)).link (p := t.n + 1) (q := t.n)).emit.emit) ?_
    intro x hx
    simp only [Option.toList_some, List.cons_append, List.nil_append, List.mem_cons] at hx ⊢
    rcases hx with rfl | rfl | rfl | rfl | rfl | rfl | hx
    · exact .here (List.mem_cons_self ..)
    · exact .here (List.mem_cons_self ..)
    · exact .step (by edge) (List.mem_cons_self ..)
    · exact .step (by edge) (List.mem_cons_self ..)
    · exact .step2 (b := t.n + 1) (by edge) (by edge) (List.mem_cons_self ..)
    · exact .step (by edge) (List.mem_cons_self ..)
    · exact .here (List.mem_cons_of_mem _ hx)

theorem applyOp_outs {op : LogOp} {tmp : Nat → Tmp} {v : Nat} {L L' : Log} {t t' : PS} {bb bb' : Option Nat} {Y : List Nat} (hL : L.Or)
    (h : Outs E T t (bb.toList ++ (L.pend ++ Y))) (e : applyOp op tmp v L t bb = some (t', bb', L')) :
    Outs E T t' (bb'.toList ++ (L'.pend ++ Y)) ∧ L'.Or := by
  unfold applyOp at e
  split at e
  · rename_i h1
    obtain ⟨r, e1, e2⟩ := Option.map_eq_some_iff.mp e
    cases e2
    refine ⟨(readLogical_outs h e1).weak ?_, hL⟩
    intro x hx
    have hs : ∀ o, Log.shared { L with prev := some op } o = L.shared o := fun o => by cases o <;> rfl
    simp only [Log.pend, Option.map_some, Option.toList_some, List.mem_append, List.mem_cons, List.not_mem_nil, or_false] at hx ⊢
    rcases hx with hx | rfl | (hx | hx) | hx
    · exact .inl hx
    · exact .inr (.inl (.inl (hs op).symm))
    · rcases h1 with h1 | h1
      · rw [h1] at hx; cases hx
      · rw [h1] at hx
        simp only [Option.map_some, Option.toList_some, List.mem_singleton] at hx
        exact .inr (.inl (.inl (by rw [hs]; exact hx)))
    · refine .inr (.inl (.inr ?_))
      cases hp : L.pprev with
      | none => rw [hp] at hx; exact hx
      | some o => rw [hp] at hx; cases o <;> exact hx
    · exact .inr (.inr hx)
  · rename_i h1
    split at e
    · rename_i h2
      obtain ⟨r, e1, e2⟩ := Option.bind_eq_some_iff.mp e
      dsimp only at e2
      obtain ⟨q, e3, e4⟩ := Option.map_eq_some_iff.mp e2
      cases e4
      have hop : op = .or := by
        cases op
        · exact absurd (.inr h2) h1
        · rfl
      subst hop
      have k : Outs E T t (bb.toList ++ L.and :: ((L.pprev.map L.shared).toList ++ Y)) := by
        refine h.weak fun x hx => ?_
        simp only [Log.pend, h2, Option.map_some, Option.toList_some, List.mem_append, List.mem_cons, List.not_mem_nil, or_false, Log.shared] at hx ⊢
        rcases hx with hx | (hx | hx) | hx
        · exact .inl hx
        · exact .inr (.inl hx)
        · exact .inr (.inr (.inl hx))
        · exact .inr (.inr (.inr hx))
      refine ⟨(readLogical_outs (finalize_outs k e1).create e3).weak ?_, fun x hx => by cases hx⟩
      intro x hx
      simp only [Log.pend, Option.map_some, Option.toList_some, List.mem_append, List.mem_cons, List.not_mem_nil, or_false, Log.shared,
        Option.map_none, Option.toList_none] at hx ⊢
      rcases hx with hx | hx | hx | hx
      · exact .inl hx
      · exact .inr (.inl hx)
      · refine .inr (.inl ?_)
        cases hp : L.pprev with
        | none => rw [hp] at hx; cases hx
        | some o =>
          rw [hp, hL o hp] at hx
          simpa only [Option.map_some, Option.toList_some, List.mem_singleton, Log.shared] using hx
      · exact .inr (.inr hx)
    · rename_i h2
      obtain ⟨r, e1, e2⟩ := Option.map_eq_some_iff.mp e
      cases e2
      have hp : L.prev = some .or := by
        cases hp : L.prev with
        | none => exact absurd (.inl hp) h1
        | some o => cases o with
          | and => exact absurd hp h2
          | or => rfl
      have hop : op = .and := by
        cases op
        · rfl
        · exact absurd (.inr hp) h1
      subst hop
      refine ⟨(readLogical_outs h e1).weak ?_, fun x hx => by rw [hp] at hx; cases hx; rfl⟩
      intro x hx
      simp only [Log.pend, hp, Option.map_some, Option.toList_some, List.mem_append, List.mem_cons, List.not_mem_nil, or_false, Log.shared] at hx ⊢
      rcases hx with hx | hx | (hx | hx) | hx
      · exact .inl hx
      · exact .inr (.inl (.inl hx))
      · exact .inr (.inl (.inr hx))
      · cases hq : L.pprev with
        | none => rw [hq] at hx; cases hx
        | some o =>
          rw [hq, hL o hq] at hx
          simp only [Option.map_some, Option.toList_some, List.mem_singleton, Log.shared] at hx
          exact .inr (.inl (.inr hx))
      · exact .inr (.inr hx)

theorem finish_outs {tmp : Nat → Tmp} {Y : List Nat} : ∀ (n : Nat) {t : PS} {bb : Option Nat} {v : Nat} {L : Log} {t' : PS} {bb' : Option Nat}
    {v' : Nat}, (n = 0 → L.pend = []) → (n = 1 → L.pprev = none) → (L.prev = none → L.pprev = none) → Outs E T t (bb.toList ++ (L.pend ++ Y)) →
    finish n tmp v L t bb = some (t', bb', v') → Outs E T t' (bb'.toList ++ Y) := by
  intro n
  induction n with
  | zero =>
    intro t bb v L t' bb' v' h0 _ _ h e
    cases e
    rw [h0 rfl] at h
    exact h
  | succ n ih =>
    intro t bb v L t' bb' v' _ h1 hp h e
    unfold finish at e
    cases hq : L.prev with
    | none =>
      rw [hq] at e
      cases e
      simp only [Log.pend, hq, hp hq, Option.map_none, Option.toList_none, List.nil_append] at h
      exact h
    | some op =>
      rw [hq] at e
      obtain ⟨r, e1, e2⟩ := Option.bind_eq_some_iff.mp e
      refine ih (L := { L with prev := L.pprev, pprev := none, i := L.i + 1 }) ?_ (fun _ => rfl) (fun _ => rfl) ?_ e2
      · rintro rfl
        simp only [Log.pend, h1 rfl, Option.map_none, Option.toList_none, List.nil_append]
      · have k : Outs E T t (bb.toList ++ L.shared op :: ((L.pprev.map L.shared).toList ++ Y)) := by
          simpa only [Log.pend, hq, Option.map_some, Option.toList_some, List.cons_append, List.nil_append, List.append_assoc] using h
        have hs : ∀ o, Log.shared { L with prev := L.pprev, pprev := none, i := L.i + 1 } o = L.shared o := fun o => by cases o <;> rfl
        have := finalize_outs k e1
        refine this.weak fun x hx => ?_
        simp only [Log.pend, List.mem_append, Option.map_none, Option.toList_none, List.not_mem_nil, or_false] at hx ⊢
        rcases hx with hx | hx | hx
        · exact .inl hx
        · refine .inr (.inl ?_)
          cases hp : L.pprev with
          | none => rw [hp] at hx; exact hx
          | some o => rw [hp] at hx; cases o <;> exact hx
        · exact .inr (.inr hx)

mutual
theorem lowerE_outs (e : Expr) (hg : e.Good H) {t t' : PS} {bb bb' : Option Nat} {v : Nat} {Y : List Nat} (h : Outs E T t (bb.toList ++ Y))
    (he : lowerE e t bb = some (t', bb', v)) : Outs E T t' (bb'.toList ++ Y) := by
  match e, hg with
  | .comp args code v se, hg =>
    simp only [lowerE] at he
    obtain ⟨r, e1, e2⟩ := Option.map_eq_some_iff.mp he
    cases e2
    exact (lowerArgs_outs args hg.1 h e1).emit.se _
  | .logic g tmp, hg =>
    simp only [lowerE] at he
    exact lowerOrs_outs g hg.1 (L := { and := t.n, or := t.n + 1 }) (fun _ h => by cases h) (fun _ => rfl) h.create.create he
  | .tern c a b tm, hg =>
    simp only [lowerE] at he
    obtain ⟨r, e1, he⟩ := Option.bind_eq_some_iff.mp he
    have g1 := lowerE_outs c hg.1 h e1
    rw [lowerE_straight a hg.2.2.2.1, Option.bind_some] at he
    dsimp only at he
    obtain ⟨u, e2, he⟩ := Option.bind_eq_some_iff.mp he
    obtain ⟨p, hp, rfl⟩ := connect_some e2
    rw [lowerE_straight b hg.2.2.2.2, Option.bind_some] at he
    dsimp only at he
    obtain ⟨u, e3, he⟩ := Option.map_eq_some_iff.mp he
    obtain ⟨p', hp', rfl⟩ := connect_some e3
    rw [hp] at hp'
    cases hp'
    cases he
    rw [hp] at g1 ⊢
    clear e1 e2 e3
    have n0 : (r.1.emit (some p) [branchIns r.2.2]).n = r.1.n := rfl
    rw [n0]
    have b0 : Br (r.1.emit (some p) [branchIns r.2.2]) p := br_self
    have g2 : Outs E T (r.1.emit (some p) [branchIns r.2.2]) _ := g1.emit
    generalize r.1.emit (some p) [branchIns r.2.2] = w at g2 b0 n0 ⊢
    dsimp only [Option.getD_some]
    have g3 : Outs E T ((w.create.create.create.link r.1.n (r.1.n + 2) .next).link (r.1.n + 1) (r.1.n + 2) .next) _ := g2.create.create.create.link.link
    have x1 : Ed ((w.create.create.create.link r.1.n (r.1.n + 2) .next).link (r.1.n + 1) (r.1.n + 2) .next) r.1.n (r.1.n + 2) := by edge
    have x2 : Ed ((w.create.create.create.link r.1.n (r.1.n + 2) .next).link (r.1.n + 1) (r.1.n + 2) .next) (r.1.n + 1) (r.1.n + 2) := by edge
    have x3 : Br ((w.create.create.create.link r.1.n (r.1.n + 2) .next).link (r.1.n + 1) (r.1.n + 2) .next) p := b0
    generalize (w.create.create.create.link r.1.n (r.1.n + 2) .next).link (r.1.n + 1) (r.1.n + 2) .next = w2 at g3 x1 x2 x3 ⊢
    have g4 : Outs E T ({ w2.emit (some r.1.n) a.code with se := w2.se ++ ses a } : PS) _ := g3.emit.se _
    have y1 : Ed ({ w2.emit (some r.1.n) a.code with se := w2.se ++ ses a } : PS) r.1.n (r.1.n + 2) := x1
    have y2 : Ed ({ w2.emit (some r.1.n) a.code with se := w2.se ++ ses a } : PS) (r.1.n + 1) (r.1.n + 2) := x2
    have y3 : Br ({ w2.emit (some r.1.n) a.code with se := w2.se ++ ses a } : PS) p := (br_emit x3 : Br (w2.emit (some r.1.n) a.code) p)
    generalize ({ w2.emit (some r.1.n) a.code with se := w2.se ++ ses a } : PS) = w3 at g4 y1 y2 y3 ⊢
    have g5 : Outs E T ((w3.link p r.1.n .then_).emit (some r.1.n) [moveIns v a.res]) _ := (g4.fork y3).emit
    have z1 : Ed ((w3.link p r.1.n .then_).emit (some r.1.n) [moveIns v a.res]) r.1.n (r.1.n + 2) := by edge
    have z2 : Ed ((w3.link p r.1.n .then_).emit (some r.1.n) [moveIns v a.res]) (r.1.n + 1) (r.1.n + 2) := by edge
    have z3 : Ed ((w3.link p r.1.n .then_).emit (some r.1.n) [moveIns v a.res]) p r.1.n := by edge
    have z4 : Br ((w3.link p r.1.n .then_).emit (some r.1.n) [moveIns v a.res]) p := br_emit y3
    generalize (w3.link p r.1.n .then_).emit (some r.1.n) [moveIns v a.res] = w4 at g5 z1 z2 z3 z4 ⊢
    have g6 : Outs E T ({ w4.emit (some (r.1.n + 1)) b.code with se := w4.se ++ ses b } : PS) _ := g5.emit.se _
    have v1 : Ed ({ w4.emit (some (r.1.n + 1)) b.code with se := w4.se ++ ses b } : PS) r.1.n (r.1.n + 2) := z1
    have v2 : Ed ({ w4.emit (some (r.1.n + 1)) b.code with se := w4.se ++ ses b } : PS) (r.1.n + 1) (r.1.n + 2) := z2
    have v3 : Ed ({ w4.emit (some (r.1.n + 1)) b.code with se := w4.se ++ ses b } : PS) p r.1.n := z3
    have v4 : Br ({ w4.emit (some (r.1.n + 1)) b.code with se := w4.se ++ ses b } : PS) p := (br_emit z4 : Br (w4.emit (some (r.1.n + 1)) b.code) p)
    generalize ({ w4.emit (some (r.1.n + 1)) b.code with se := w4.se ++ ses b } : PS) = w5 at g6 v1 v2 v3 v4 ⊢
    refine Outs.mono (g6.fork v4).emit ?_
    intro x hx
    simp only [Option.toList_some, List.cons_append, List.nil_append, List.mem_cons] at hx ⊢
    rcases hx with rfl | rfl | rfl | rfl | rfl | hx
    · exact .step (edge_emit (edge_link v2)) (List.mem_cons_self ..)
    · exact .step (edge_emit (edge_link v1)) (List.mem_cons_self ..)
    · exact .here (List.mem_cons_self ..)
    · exact .here (List.mem_cons_self ..)
    · exact .step2 (edge_emit (edge_link v3)) (edge_emit (edge_link v1)) (List.mem_cons_self ..)
    · exact .here (List.mem_cons_of_mem _ hx)
theorem lowerArgs_outs (es : Exprs) (hg : es.Good H) {t t' : PS} {bb bb' : Option Nat} {Y : List Nat} (h : Outs E T t (bb.toList ++ Y))
    (he : lowerArgs es t bb = some (t', bb')) : Outs E T t' (bb'.toList ++ Y) := by
  match es, hg with
  | .nil, _ =>
    cases he
    exact h
  | .cons e es, hg =>
    simp only [lowerArgs] at he
    obtain ⟨r, e1, he⟩ := Option.bind_eq_some_iff.mp he
    exact lowerArgs_outs es hg.2 (lowerE_outs e hg.1 h e1) he
theorem lowerOrs_outs (g : Ors) (hg : g.Good H) {t t' : PS} {bb bb' : Option Nat} {tmp : Nat → Tmp} {L : Log} {v : Nat} {Y : List Nat} (hL : L.Or)
    (hF : L.Fst) (h : Outs E T t (bb.toList ++ (L.pend ++ Y))) (he : lowerOrs g tmp L t bb = some (t', bb', v)) : Outs E T t' (bb'.toList ++ Y) := by
  match g, hg with
  | .one a, hg =>
    simp only [lowerOrs] at he
    obtain ⟨r, e1, he⟩ := Option.bind_eq_some_iff.mp he
    obtain ⟨g1, o1, f1⟩ := lowerAnds_outs a hg hL hF h e1
    exact finish_outs 2 (by omega) (by omega) f1 g1 he
  | .more a r, hg =>
    simp only [lowerOrs] at he
    obtain ⟨q, e1, he⟩ := Option.bind_eq_some_iff.mp he
    obtain ⟨x, e2, he⟩ := Option.bind_eq_some_iff.mp he
    obtain ⟨g1, o1, f1⟩ := lowerAnds_outs a hg.1 hL hF h e1
    obtain ⟨g2, o2⟩ := applyOp_outs o1 g1 e2
    exact lowerOrs_outs r hg.2 o2 (applyOp_fst e2) g2 he
theorem lowerAnds_outs (g : Ands) (hg : g.Good H) {t t' : PS} {bb bb' : Option Nat} {tmp : Nat → Tmp} {L L' : Log} {v : Nat} {Y : List Nat} (hL : L.Or)
    (hF : L.Fst) (h : Outs E T t (bb.toList ++ (L.pend ++ Y))) (he : lowerAnds g tmp L t bb = some (t', bb', L', v)) :
    Outs E T t' (bb'.toList ++ (L'.pend ++ Y)) ∧ L'.Or ∧ L'.Fst := by
  match g, hg with
  | .one e, hg =>
    simp only [lowerAnds] at he
    obtain ⟨r, e1, he⟩ := Option.map_eq_some_iff.mp he
    cases he
    exact ⟨lowerE_outs e hg h e1, hL, hF⟩
  | .more e r, hg =>
    simp only [lowerAnds] at he
    obtain ⟨q, e1, he⟩ := Option.bind_eq_some_iff.mp he
    obtain ⟨x, e2, he⟩ := Option.bind_eq_some_iff.mp he
    have g1 := lowerE_outs e hg.1 h e1
    obtain ⟨g2, o2⟩ := applyOp_outs hL g1 e2
    exact lowerAnds_outs r hg.2 o2 (applyOp_fst e2) g2 he
end

theorem lowerC_outs {e : Expr} (hg : e.Plain H) {t t' : PS} {bb bb' : Option Nat} {v : Nat} {Y : List Nat} (h : Outs E T t (bb.toList ++ Y))
    (he : lowerC e t bb = some (t', bb', v)) : Outs E T t' (bb'.toList ++ Y) := by
  unfold lowerC at he
  split at he
  · cases he
  · exact lowerE_outs e hg.1 h he

theorem lowerOpt_outs {e : Option Expr} (hg : ∀ x, e = some x → x.Plain H) {t t' : PS} {bb bb' : Option Nat} {Y : List Nat}
    (h : Outs E T t (bb.toList ++ Y)) (he : lowerOpt e t bb = some (t', bb')) : Outs E T t' (bb'.toList ++ Y) := by
  unfold lowerOpt at he
  cases e with
  | none =>
    cases he
    exact h
  | some e =>
    obtain ⟨r, e1, e2⟩ := Option.map_eq_some_iff.mp he
    cases e2
    exact lowerE_outs e (hg e rfl).1 h e1

theorem lowerForC_outs {e : Option Expr} (hg : ∀ x, e = some x → x.Plain H) {one : Nat} {t t' : PS} {bb bb' : Option Nat} {v : Nat} {Y : List Nat}
    (h : Outs E T t (bb.toList ++ Y)) (he : lowerForC e one t bb = some (t', bb', v)) : Outs E T t' (bb'.toList ++ Y) := by
  unfold lowerForC at he
  cases e with
  | none =>
    cases he
    exact h.emit
  | some e => exact lowerC_outs (hg e rfl) h he

/-- A branch to two new blocks. -/
theorem branch_outs {s : PS} {b1 v : Nat} {Y : List Nat} (h : Outs E T s (b1 :: Y)) :
    Outs E T ((((s.emit (some b1) [branchIns v]).create.create).link b1 s.n .then_).link b1 (s.n + 1) .else_) (s.n :: (s.n + 1) :: Y) := by
  have b0 : Br (s.emit (some b1) [branchIns v]) b1 := br_self
  refine Outs.mono ((((h.emit (o := some b1) (is := [branchIns v])).create.create.fork (p := b1) b0)).fork (p := b1) b0) ?_
  intro x hx
  simp only [List.mem_cons] at hx
  rcases hx with rfl | rfl | rfl | hx
  · exact .here (by simp)
  · exact .here (by simp)
  · exact .step (b := s.n + 1) (by edge) (by simp)
  · exact .here (by simp [hx])

/-- Control goes on to a new block. -/
theorem on_outs {s : PS} {b : Nat} {Y : List Nat} (h : Outs E T s (b :: Y)) : Outs E T (s.create.link b s.n .next) (s.n :: Y) := by
  refine Outs.mono h.create.link ?_
  intro x hx
  simp only [List.mem_cons] at hx
  rcases hx with rfl | rfl | hx
  · exact .here (by simp)
  · exact .step (b := s.n) (by edge) (by simp)
  · exact .here (by simp [hx])

/-- Control goes on to a block from which one to be continued can be reached. -/
theorem to_outs {s : PS} {b q : Nat} {Y : List Nat} (h : Outs E T s (b :: Y)) (hq : To (Ed s) Y q) : Outs E T (s.link b q .next) Y := by
  have hq' : To (Ed (s.link b q .next)) Y q := hq.lift (fun _ _ => edge_link) fun _ => .here
  refine Outs.mono h.link ?_
  intro x hx
  simp only [List.mem_cons] at hx
  rcases hx with rfl | rfl | hx
  · exact hq'
  · exact .on edge_self hq'
  · exact .here hx

/-! ### Statements -/

/-- The claim for a statement. -/
def StO (st : Stmt) : Prop :=
  ∀ {E : Nat → Nat → Prop} {T : Nat → Prop} {t : PS} {bb : Option Nat} {t' : PS} {bb' : Option Nat} {Y : List Nat}, Rdy t bb → lowerS st t bb = some (t', bb') →
    (∀ z ∈ t.brk.head?, To E Y z) → (st.conts = true → ∀ z ∈ t.cont.head?, To E Y z) → Outs E T t (bb.toList ++ Y) → Outs E T t' (bb'.toList ++ Y)

theorem To.more {Y' : List Nat} {z : Nat} (h : To E Y z) (hs : ∀ x ∈ Y, x ∈ Y') : To E Y' z := h.lift (fun _ _ h => h) fun x hx => .here (hs x hx)

/-- A condition, read in a new block, and the branch after it. -/
theorem cond_outs {c : Expr} (hc : c.Plain H) {t : PS} {b b1 v : Nat} {bk cn : List Nat} {r : PS} {Y : List Nat} (h : Rdy t (some b))
    (hb : bk = t.brk) (hcn : ∀ z ∈ cn, z ∈ t.cont ∨ z = t.n)
    (e : lowerC c { t.create.link b t.n .next with brk := bk, cont := cn } (some t.n) = some (r, some b1, v)) (p : Outs E T t (b :: Y)) :
    Rdy r (some b1) ∧ Outs E T r (b1 :: Y) ∧ t.n + 1 ≤ r.n ∧ r.brk = t.brk ∧ r.cont = cn := by
  have h1 : Rdy (t.create.link b t.n .next) (some t.n) := on_rdy h
  have h2 : Rdy { t.create.link b t.n .next with brk := bk, cont := cn } (some t.n) := h1.setBC (by rw [hb]; exact h1.1.brk) (by
    intro z hz
    rcases hcn z hz with hz | rfl
    · exact h1.1.cont z hz
    · exact ⟨h.1.two, Nat.lt_succ_self _⟩)
  have w := lowerC_went hc h2 e
  exact ⟨w.rdy, lowerC_outs hc (bb := some t.n) ((on_outs p).setBC bk cn) e, w.n, w.brk.trans hb, w.cont⟩

theorem ite_outs {c : Expr} {st : Stmt} (hc : c.Plain H) (ok : st.Ok H) (ih : StO st) : StO (.ite c st) := by
  intro E T t bb t' bb' Y h he0 hk hn p
  simp only [lowerS] at he0
  obtain ⟨u, e1, he1⟩ := Option.bind_eq_some_iff.mp he0
  obtain ⟨b, rfl, rfl⟩ := connect_some e1
  obtain ⟨r, e2, he2⟩ := Option.bind_eq_some_iff.mp he1
  obtain ⟨u, e3, he3⟩ := Option.bind_eq_some_iff.mp he2
  obtain ⟨b1, hb1, rfl⟩ := connect_some e3
  obtain ⟨u, e4, he4⟩ := Option.bind_eq_some_iff.mp he3
  obtain ⟨b2, hb2, rfl⟩ := connect_some e4
  obtain ⟨q, e5, he⟩ := Option.map_eq_some_iff.mp he4
  clear he0 he1 he2 he3 he4 e1 e3 e4
  rw [hb1] at hb2
  cases hb2
  obtain ⟨r, r2, v⟩ := r
  simp only at hb1
  subst hb1
  obtain ⟨h1, p1, n1, k1, c1⟩ := cond_outs hc (bk := t.brk) (cn := t.cont) h rfl (fun z hz => .inl hz) e2 p
  have h2 := branch_rdy (v := v) h1
  have p2 := branch_outs (v := v) p1
  dsimp only at e5 he
  have n0 : (r.emit (some b1) [branchIns v]).n = r.n := rfl
  rw [n0] at e5 he
  have p3 := ih h2 e5 (Y := (r.n + 1) :: Y)
    (fun z hz => (hk z (k1 ▸ hz)).more (by simp +contextual)) (fun hcc z hz => (hn hcc z (c1 ▸ hz)).more (by simp +contextual)) p2
  have w := (lowerS_went ok h2 e5).1
  cases hq : q.2 with
  | none =>
    rw [hq] at he p3
    cases he
    exact p3
  | some tb =>
    rw [hq] at he p3
    cases he
    refine Outs.mono (p3.create.link.link) ?_
    intro x hx
    simp only [List.mem_cons, Option.toList_some, List.cons_append, List.nil_append] at hx ⊢
    rcases hx with rfl | rfl | rfl | rfl | hx
    · exact .here (by simp)
    · exact .here (by simp)
    · exact .step (b := q.1.n) (by edge) (by simp)
    · exact .step (b := q.1.n) (by edge) (by simp)
    · exact .here (by simp [hx])

theorem endOf_outs {s : PS} {q : Option Nat} {Y : List Nat} (h : Rdy s q) (p : Outs E T s (q.toList ++ Y)) :
    Rdy (endOf s q).1 (endOf s q).2 ∧ Outs E T (endOf s q).1 ((endOf s q).2.toList ++ Y) ∧ s.n ≤ (endOf s q).1.n ∧
      (endOf s q).1.brk = s.brk ∧ (endOf s q).1.cont = s.cont := by
  cases q with
  | none => exact ⟨h, p, Nat.le_refl _, rfl, rfl⟩
  | some b => exact ⟨on_rdy h, on_outs p, Nat.le_succ _, rfl, rfl⟩

theorem iteElse_outs {c : Expr} {st se : Stmt} (hc : c.Plain H) (ok : st.Ok H) (oke : se.Ok H) (ih : StO st) (ihe : StO se) :
    StO (.iteElse c st se) := by
  intro E T t bb t' bb' Y h he0 hk hn p
  simp only [lowerS] at he0
  obtain ⟨u, e1, he1⟩ := Option.bind_eq_some_iff.mp he0
  obtain ⟨b, rfl, rfl⟩ := connect_some e1
  obtain ⟨r, e2, he2⟩ := Option.bind_eq_some_iff.mp he1
  obtain ⟨u, e3, he3⟩ := Option.bind_eq_some_iff.mp he2
  obtain ⟨b1, hb1, rfl⟩ := connect_some e3
  obtain ⟨u, e4, he4⟩ := Option.bind_eq_some_iff.mp he3
  obtain ⟨b2, hb2, rfl⟩ := connect_some e4
  obtain ⟨q, e5, he5⟩ := Option.bind_eq_some_iff.mp he4
  obtain ⟨q2, e6, he⟩ := Option.map_eq_some_iff.mp he5
  clear he0 he1 he2 he3 he4 he5 e1 e3 e4
  rw [hb1] at hb2
  cases hb2
  obtain ⟨r, r2, v⟩ := r
  simp only at hb1
  subst hb1
  obtain ⟨h1, p1, n1, k1, c1⟩ := cond_outs hc (bk := t.brk) (cn := t.cont) h rfl (fun z hz => .inl hz) e2 p
  have h2 := branch_rdy (v := v) h1
  have p2 := branch_outs (v := v) p1
  dsimp only at e5 e6 he
  have n0 : (r.emit (some b1) [branchIns v]).n = r.n := rfl
  rw [n0] at e5 e6
  have n2 : r.n + 2 = ((((r.emit (some b1) [branchIns v]).create.create).link b1 r.n .then_).link b1 (r.n + 1) .else_).n := rfl
  have k2 : t.brk = ((((r.emit (some b1) [branchIns v]).create.create).link b1 r.n .then_).link b1 (r.n + 1) .else_).brk := k1.symm
  have c2 : t.cont = ((((r.emit (some b1) [branchIns v]).create.create).link b1 r.n .then_).link b1 (r.n + 1) .else_).cont := c1.symm
  have p3 := ih h2 e5 (Y := (r.n + 1) :: Y)
    (fun z hz => (hk z (k2 ▸ hz)).more (by simp +contextual))
    (fun hcc z hz => (hn (by simp [Stmt.conts, hcc]) z (c2 ▸ hz)).more (by simp +contextual)) p2
  have w := (lowerS_went ok h2 e5).1
  obtain ⟨h4, p4, n4, k4, c4⟩ := endOf_outs w.rdy p3
  have wn := w.n
  have e6' : lowerS se (endOf q.1 q.2).1 (some (r.n + 1)) = some q2 := by
    rw [← e6]
    cases hq : q.2 <;> rfl
  have h4' : Rdy (endOf q.1 q.2).1 (some (r.n + 1)) := h4.at (by omega)
  have p4' : Outs E T (endOf q.1 q.2).1 ((some (r.n + 1)).toList ++ ((endOf q.1 q.2).2.toList ++ Y)) := p4.weak (by
    intro x hx
    simp only [List.mem_append, List.mem_cons, Option.toList_some, List.not_mem_nil, or_false] at hx ⊢
    rcases hx with hx | hx | hx
    · exact .inr (.inl hx)
    · exact .inl hx
    · exact .inr (.inr hx))
  have kk : (endOf q.1 q.2).1.brk = t.brk := k4.trans (w.brk.trans k2.symm)
  have cc : (endOf q.1 q.2).1.cont = t.cont := c4.trans (w.cont.trans c2.symm)
  have p5 := ihe h4' e6'
    (fun z hz => (hk z (kk ▸ hz)).more (by simp +contextual))
    (fun hcc z hz => (hn (by simp [Stmt.conts, hcc]) z (cc ▸ hz)).more (by simp +contextual)) p4'
  have w5 := (lowerS_went oke h4' e6').1
  obtain ⟨h6, p6, n6, k6, c6⟩ := endOf_outs w5.rdy p5
  have he' : joinEnds (endOf q2.1 q2.2).1 (endOf q.1 q.2).2 (endOf q2.1 q2.2).2 = (t', bb') := by
    rw [← he]
    cases hq : q.2 <;> cases hq2 : q2.2 <;> rfl
  clear he e5 e6 e6' h1 h2 p1 p2 p3 p4 p5 p4' h4 h4' w w5 n4 n6 k4 k6 c4 c6 kk cc
  generalize endOf q.1 q.2 = a at he' p6
  generalize endOf q2.1 q2.2 = d at he' p6 h6
  obtain ⟨a1, a2⟩ := a
  obtain ⟨d1, d2⟩ := d
  simp only at he' p6 h6
  cases a2 with
  | none =>
    cases he'
    exact p6
  | some x =>
    cases d2 with
    | none =>
      cases he'
      exact p6
    | some y =>
      cases he'
      refine Outs.mono (p6.create.link.link) ?_
      intro z hx
      simp only [List.mem_cons, Option.toList_some, List.cons_append, List.nil_append] at hx ⊢
      rcases hx with rfl | rfl | rfl | rfl | hx
      · exact .here (by simp)
      · exact .here (by simp)
      · exact .step (b := d1.n) (by edge) (by simp)
      · exact .step (b := d1.n) (by edge) (by simp)
      · exact .here (by simp [hx])

theorem while_outs {c : Expr} {st : Stmt} (hc : c.Plain H) (ok : st.Ok H) (ih : StO st) : StO (.while_ c st) := by
  intro E T t bb t' bb' Y h he0 hk hn p
  simp only [lowerS] at he0
  obtain ⟨u, e1, he1⟩ := Option.bind_eq_some_iff.mp he0
  obtain ⟨b, rfl, rfl⟩ := connect_some e1
  obtain ⟨r, e2, he2⟩ := Option.bind_eq_some_iff.mp he1
  obtain ⟨u, e3, he3⟩ := Option.bind_eq_some_iff.mp he2
  obtain ⟨b1, hb1, rfl⟩ := connect_some e3
  obtain ⟨u, e4, he4⟩ := Option.bind_eq_some_iff.mp he3
  obtain ⟨b2, hb2, rfl⟩ := connect_some e4
  obtain ⟨q, e5, he⟩ := Option.map_eq_some_iff.mp he4
  clear he0 he1 he2 he3 he4 e1 e3 e4
  rw [hb1] at hb2
  cases hb2
  obtain ⟨r, r2, v⟩ := r
  simp only at hb1
  subst hb1
  have h0 : Rdy (t.create.link b t.n .next) (some t.n) := on_rdy h
  have h0' : Rdy { (t.create.link b t.n .next).create with brk := t.brk, cont := t.n :: t.cont } (some t.n) := h0.create.setBC h0.create.1.brk (by
    intro z hz
    rcases List.mem_cons.1 hz with rfl | hz
    · exact ⟨h.1.two, by simp only [PS.create, PS.link]; omega⟩
    · exact h0.create.1.cont z hz)
  have p0 := ((on_outs p).create.setBC t.brk (t.n :: t.cont)).now
  have pk := ((on_outs p).create.setBC t.brk (t.n :: t.cont))
  have p1 := lowerC_outs hc (bb := some t.n) p0 e2
  have w1 := lowerC_went hc h0' e2
  have h1 := w1.rdy
  have k1 : r.brk = t.brk := w1.brk
  have c1 : r.cont = t.n :: t.cont := w1.cont
  have n1 : t.n + 2 ≤ r.n := w1.n
  clear w1 e2
  have h2 := branch_rdy (v := v) h1
  have p2 := branch_outs (v := v) p1
  dsimp only at e5 he
  have n0 : (r.emit (some b1) [branchIns v]).n = r.n := rfl
  rw [n0] at e5 he
  have n2 : r.n + 2 = ((((r.emit (some b1) [branchIns v]).create.create).link b1 r.n .then_).link b1 (r.n + 1) .else_).n := rfl
  have k2 : t.brk = ((((r.emit (some b1) [branchIns v]).create.create).link b1 r.n .then_).link b1 (r.n + 1) .else_).brk := k1.symm
  have c2 : t.n :: t.cont = ((((r.emit (some b1) [branchIns v]).create.create).link b1 r.n .then_).link b1 (r.n + 1) .else_).cont := c1.symm
  have h3 := h2.setBC (b := (r.n + 1) :: ((((r.emit (some b1) [branchIns v]).create.create).link b1 r.n .then_).link b1 (r.n + 1) .else_).brk)
    (c := ((((r.emit (some b1) [branchIns v]).create.create).link b1 r.n .then_).link b1 (r.n + 1) .else_).cont) (by
      intro z hz
      rcases List.mem_cons.1 hz with rfl | hz
      · exact ⟨by have := h1.1.two; omega, by omega⟩
      · exact h2.1.brk z hz) h2.1.cont
  have q1 : To (Ed ((((r.emit (some b1) [branchIns v]).create.create).link b1 r.n .then_).link b1 (r.n + 1) .else_)) ((r.n + 1) :: Y) t.n := by
    have hp : (r.block t.n).prev ≠ [] := by
      have := p1.keep b t.n (show Ed (t.create.link b t.n .next) b t.n from edge_self)
      intro h0
      unfold Ed at this
      rw [h0] at this
      cases this
    refine (p1.outs t.n (.inr hp)).lift (fun _ _ h => edge_link (edge_link (edge_create (edge_create (edge_emit h))))) fun x hx => ?_
    simp only [Option.toList_some, List.cons_append, List.nil_append, List.mem_cons] at hx
    rcases hx with rfl | hx
    · exact .step (b := r.n + 1) (by edge) (by simp)
    · exact .here (by simp [hx])
  have p3 := ih h3 e5 (Y := (r.n + 1) :: Y)
    (fun z hz => by cases hz; exact .here (List.mem_cons_self ..))
    (fun hcc z hz => by
      have hz' : z ∈ (t.n :: t.cont).head? := by rw [c2]; exact hz
      cases hz'
      exact q1) ((p2.setBC _ _).now)
  have pb := pk.back p2
  cases hq : q.2 with
  | none =>
    rw [hq] at he p3
    cases he
    exact pb.back (p3.setBC _ _)
  | some z =>
    rw [hq] at he p3
    cases he
    exact pb.back ((to_outs p3 (q1.lift p3.keep fun _ => .here)).setBC _ _)

theorem do_outs {c : Expr} {st : Stmt} (hc : c.Plain H) (ok : st.Ok H) (ih : StO st) : StO (.doWhile st c) := by
  intro E T t bb t' bb' Y h he0 hk hn p
  simp only [lowerS] at he0
  obtain ⟨u, e1, he1⟩ := Option.bind_eq_some_iff.mp he0
  obtain ⟨b, rfl, rfl⟩ := connect_some e1
  obtain ⟨q, e2, he2⟩ := Option.bind_eq_some_iff.mp he1
  obtain ⟨r, e3, he⟩ := Option.map_eq_some_iff.mp he2
  clear he0 he1 he2 e1
  have n0 : (t.create.link b t.n .next).n = t.n + 1 := rfl
  rw [n0] at e2 e3 he
  have h0 : Rdy (t.create.link b t.n .next) (some t.n) := on_rdy h
  have h1 := h0.create.create.setBC (b := (t.n + 1 + 1) :: (t.create.link b t.n .next).brk) (c := (t.n + 1) :: (t.create.link b t.n .next).cont)
    (by
      intro z hz
      rcases List.mem_cons.1 hz with rfl | hz
      · exact ⟨by have := h.1.two; omega, Nat.lt_succ_self _⟩
      · exact h0.create.create.1.brk z hz) (by
      intro z hz
      rcases List.mem_cons.1 hz with rfl | hz
      · exact ⟨by have := h.1.two; omega, Nat.lt_succ_of_lt (Nat.lt_succ_self _)⟩
      · exact h0.create.create.1.cont z hz)
  have p1 := ((on_outs p).create.create.setBC ((t.n + 1 + 1) :: (t.create.link b t.n .next).brk) ((t.n + 1) :: (t.create.link b t.n .next).cont))
  have p2 := ih h1 e2 (Y := (t.n + 1) :: (t.n + 1 + 1) :: Y)
    (fun z hz => by cases hz; exact .here (by simp)) (fun _ z hz => by cases hz; exact .here (by simp))
    (p1.now.weak (by simp +contextual))
  have w2 := (lowerS_went ok h1 e2).1
  have n2 : t.n + 1 + 1 + 1 ≤ q.1.n := w2.n
  -- the state before the condition
  obtain ⟨s, hs, p3, h3, n3⟩ : ∃ s, (s = match (motive := Option Nat → PS) q.2 with | none => q.1 | some z => q.1.link z (t.n + 1) .next) ∧
      Outs (Ed (t.create.link b t.n .next)) T s ((some (t.n + 1)).toList ++ (t.n + 1 + 1) :: Y) ∧ Rdy s (some (t.n + 1)) ∧ t.n + 1 + 1 + 1 ≤ s.n := by
    cases hq : q.2 with
    | none =>
      rw [hq] at p2
      exact ⟨_, rfl, p2, w2.rdy.at (by omega), n2⟩
    | some z =>
      rw [hq] at p2
      exact ⟨_, rfl, to_outs p2 (.here (List.mem_cons_self ..)),
        (w2.rdy.link (by have := h.1.two; omega) (by omega)).at (by show _ < q.1.n; omega), n2⟩
  have e3' : lowerC c s (some (t.n + 1)) = some r := by
    rw [← e3, hs]
    cases q.2 <;> rfl
  clear hs e3 p2
  have p4 := lowerC_outs hc p3 e3'
  have w4 := lowerC_went hc h3 e3'
  obtain ⟨r, r2, v⟩ := r
  simp only at he p4 w4
  cases r2 with
  | none =>
    cases he
    exact p1.back (p4.setBC _ _)
  | some z =>
    have hz2 : 2 ≤ z := by
      have := h.1.two
      rcases w4.cur z rfl with k | k
      · cases k; omega
      · omega
    dsimp only at he
    split at he
    · rename_i hp
      cases he
      exact p1.back (((p4.emit (o := some z) (is := [branchIns v])).drop (by omega) hp).setBC _ _)
    · cases he
      refine p1.back (Outs.setBC (s := ((r.emit (some z) [branchIns v]).link z t.n .then_).link z (t.n + 1 + 1) .else_) ?_ _ _)
      have b0 : Br (r.emit (some z) [branchIns v]) z := br_self
      refine Outs.mono ((p4.emit.fork b0).fork b0) ?_
      intro x hx
      have hz : To (Ed (((r.emit (some z) [branchIns v]).link z t.n .then_).link z (t.n + 1 + 1) .else_)) ((t.n + 1 + 1) :: Y) z :=
        .step (b := t.n + 1 + 1) (by edge) (by simp)
      simp only [List.mem_cons, Option.toList_some, List.cons_append, List.nil_append] at hx
      rcases hx with rfl | rfl | rfl | rfl | hx
      · exact .here (by simp)
      · have hp : (r.block t.n).prev ≠ [] := by
          have := p4.keep b t.n edge_self
          intro h0
          unfold Ed at this
          rw [h0] at this
          cases this
        refine (p4.outs t.n (.inr hp)).lift (fun _ _ h => edge_link (edge_link (edge_emit h))) fun y hy => ?_
        simp only [Option.toList_some, List.cons_append, List.nil_append, List.mem_cons] at hy
        rcases hy with rfl | hy | hy
        · exact hz
        · exact .here (by simp [hy])
        · exact .here (by simp [hy])
      · exact hz
      · exact .here (by simp)
      · exact .here (by simp [hx])

theorem for_outs {init : Option Expr} {c : Option Expr} {one : Nat} {inc : Option Expr} {st : Stmt} (hi : ∀ e, init = some e → e.Plain H)
    (hc : ∀ e, c = some e → e.Plain H) (hj : ∀ e, inc = some e → e.Plain H ∧ e.straight = true) (ok : st.Ok H)
    (hcc : optCode inc ≠ [] ∨ st.conts = false ∨ st.completes = true) (ih : StO st) : StO (.for_ init c one inc st) := by
  intro E T t bb t' bb' Y h he0 hk hn p
  simp only [lowerS] at he0
  obtain ⟨u, e1, he1⟩ := Option.bind_eq_some_iff.mp he0
  obtain ⟨b, rfl, rfl⟩ := connect_some e1
  obtain ⟨ri, e2, he2⟩ := Option.bind_eq_some_iff.mp he1
  obtain ⟨u, e3, he3⟩ := Option.bind_eq_some_iff.mp he2
  obtain ⟨b1, hb1, rfl⟩ := connect_some e3
  obtain ⟨r, e4, he4⟩ := Option.bind_eq_some_iff.mp he3
  obtain ⟨u, e5, he5⟩ := Option.bind_eq_some_iff.mp he4
  obtain ⟨b2, hb2, rfl⟩ := connect_some e5
  obtain ⟨rz, e6, he6⟩ := Option.bind_eq_some_iff.mp he5
  obtain ⟨u, e7, he7⟩ := Option.bind_eq_some_iff.mp he6
  obtain ⟨b3, hb3, rfl⟩ := connect_some e7
  obtain ⟨q, e8, he8⟩ := Option.bind_eq_some_iff.mp he7
  obtain ⟨s9, e9, he⟩ := Option.map_eq_some_iff.mp he8
  clear he0 he1 he2 he3 he4 he5 he6 he7 he8 e1 e3 e5 e7
  rw [hb2] at hb3
  cases hb3
  obtain ⟨ri, ri2⟩ := ri
  obtain ⟨r, r2, v⟩ := r
  simp only at hb1 hb2
  subst hb1
  subst hb2
  have t2 := h.1.two
  -- up to the condition
  have h0 : Rdy (t.create.link b t.n .next) (some t.n) := on_rdy h
  have w1 := lowerOpt_went hi h0 e2
  have p1 := lowerOpt_outs hi (bb := some t.n) (on_outs p) e2
  have n1 : t.n + 1 ≤ ri.n := w1.n
  dsimp only at e4
  have h1 : Rdy (ri.create.create.link b1 ri.n .next) (some ri.n) :=
    (w1.rdy.create.create.link (by omega) (by show _ < ri.n + 2; omega)).at (by show _ < ri.n + 2; omega)
  have pS : Outs E T (ri.create.create.link b1 ri.n .next) ((some ri.n).toList ++ Y) := by
    refine Outs.mono p1.create.create.link ?_
    intro x hx
    simp only [List.mem_cons, Option.toList_some, List.cons_append, List.nil_append] at hx
    rcases hx with rfl | rfl | hx
    · exact .here (by simp)
    · exact .step (b := ri.n) (by edge) (by simp)
    · exact .here (by simp [hx])
  have w2 := lowerForC_went hc h1 e4
  have p3 := lowerForC_outs hc pS.now e4
  have q0 : To (Ed r) (b2 :: Y) ri.n := by
    refine p3.outs ri.n (.inr ?_)
    have := p3.keep b1 ri.n edge_self
    intro h0
    unfold Ed at this
    rw [h0] at this
    cases this
  have n2 : ri.n + 2 ≤ r.n := w2.n
  have k2 : r.brk = t.brk := w2.brk.trans w1.brk
  have c2 : r.cont = t.cont := w2.cont.trans w1.cont
  have r2 := w2.rdy
  clear w2 w1 p1 e2 e4 h0 h1
  dsimp only at e6 e8 e9 he
  have n3 : ((r.link b2 (ri.n + 1) .else_).emit (some b2) [branchIns v]).n = r.n := rfl
  rw [n3] at e6 e9
  obtain ⟨se, hse⟩ := lowerOpt_straight (fun e he => (hj e he).2) { ((r.link b2 (ri.n + 1) .else_).emit (some b2) [branchIns v]).create with
    brk := (ri.n + 1) :: ((r.link b2 (ri.n + 1) .else_).emit (some b2) [branchIns v]).create.brk,
    cont := r.n :: ((r.link b2 (ri.n + 1) .else_).emit (some b2) [branchIns v]).create.cont } (some r.n)
  have h4 : Rdy { ((r.link b2 (ri.n + 1) .else_).emit (some b2) [branchIns v]).create with
    brk := (ri.n + 1) :: ((r.link b2 (ri.n + 1) .else_).emit (some b2) [branchIns v]).create.brk,
    cont := r.n :: ((r.link b2 (ri.n + 1) .else_).emit (some b2) [branchIns v]).create.cont } (some r.n) := by
    have g : Rdy ((r.link b2 (ri.n + 1) .else_).emit (some b2) [branchIns v]).create (some r.n) :=
      (((r2.link (k := .else_) (p := b2) (q := ri.n + 1) (by omega) (by omega)).emit (o := some b2) (is := [branchIns v]) r2.2).create).at (Nat.lt_succ_self _)
    refine g.setBC ?_ ?_
    · intro z hz
      rcases List.mem_cons.1 hz with rfl | hz
      · exact ⟨by omega, by show _ < r.n + 1; omega⟩
      · exact g.1.brk z hz
    · intro z hz
      rcases List.mem_cons.1 hz with rfl | hz
      · exact ⟨by omega, by show _ < r.n + 1; omega⟩
      · exact g.1.cont z hz
  have f4 : ({ ((r.link b2 (ri.n + 1) .else_).emit (some b2) [branchIns v]).create with
    brk := (ri.n + 1) :: ((r.link b2 (ri.n + 1) .else_).emit (some b2) [branchIns v]).create.brk,
    cont := r.n :: ((r.link b2 (ri.n + 1) .else_).emit (some b2) [branchIns v]).create.cont } : PS).code r.n = [] := by
    have g := (r2.link (k := .else_) (p := b2) (q := ri.n + 1) (by omega) (by omega)).emit (o := some b2) (is := [branchIns v]) r2.2
    exact (g.1.fresh r.n (Nat.le_refl _)).2
  have x4 : Ed ((r.link b2 (ri.n + 1) .else_).emit (some b2) [branchIns v]).create b2 (ri.n + 1) := by edge
  have b4 : Br ({ ((r.link b2 (ri.n + 1) .else_).emit (some b2) [branchIns v]).create with
    brk := (ri.n + 1) :: ((r.link b2 (ri.n + 1) .else_).emit (some b2) [branchIns v]).create.brk,
    cont := r.n :: ((r.link b2 (ri.n + 1) .else_).emit (some b2) [branchIns v]).create.cont } : PS) b2 :=
    (br_self : Br ((r.link b2 (ri.n + 1) .else_).emit (some b2) [branchIns v]) b2)
  have p4 : Outs (Ed (ri.create.create.link b1 ri.n .next)) T { ((r.link b2 (ri.n + 1) .else_).emit (some b2) [branchIns v]).create with
    brk := (ri.n + 1) :: ((r.link b2 (ri.n + 1) .else_).emit (some b2) [branchIns v]).create.brk,
    cont := r.n :: ((r.link b2 (ri.n + 1) .else_).emit (some b2) [branchIns v]).create.cont } ((ri.n + 1) :: Y) := by
    have b0 : Br (r.emit (some b2) [branchIns v]) b2 := br_self
    refine Outs.setBC (Outs.mono ((p3.emit (o := some b2) (is := [branchIns v])).fork (p := b2) (q := ri.n + 1) (k := .else_) b0).create ?_) _ _
    intro x hx
    simp only [Option.toList_some, List.cons_append, List.nil_append, List.mem_cons] at hx
    rcases hx with rfl | rfl | hx
    · exact .here (by simp)
    · exact .step x4 (by simp)
    · exact .here (by simp [hx])
  have q4 : To (Ed ({ ((r.link b2 (ri.n + 1) .else_).emit (some b2) [branchIns v]).create with
    brk := (ri.n + 1) :: ((r.link b2 (ri.n + 1) .else_).emit (some b2) [branchIns v]).create.brk,
    cont := r.n :: ((r.link b2 (ri.n + 1) .else_).emit (some b2) [branchIns v]).create.cont } : PS)) ((ri.n + 1) :: Y) ri.n := by
    refine q0.lift (fun _ _ h => (edge_create (edge_emit (edge_link h)) : Ed ((r.link b2 (ri.n + 1) .else_).emit (some b2) [branchIns v]).create _ _)) fun y hy => ?_
    rcases List.mem_cons.1 hy with rfl | hy
    · exact .on x4 (.here (by simp))
    · exact .here (by simp [hy])
  obtain ⟨w, hw⟩ : ∃ w : PS, w = { ((r.link b2 (ri.n + 1) .else_).emit (some b2) [branchIns v]).create with
    brk := (ri.n + 1) :: ((r.link b2 (ri.n + 1) .else_).emit (some b2) [branchIns v]).create.brk,
    cont := r.n :: ((r.link b2 (ri.n + 1) .else_).emit (some b2) [branchIns v]).create.cont } := ⟨_, rfl⟩
  have nw : w.n = r.n + 1 := by rw [hw]; rfl
  have kw : w.brk = (ri.n + 1) :: t.brk := by rw [hw, ← k2]; rfl
  have cw : w.cont = r.n :: t.cont := by rw [hw, ← c2]; rfl
  rw [← hw] at hse h4 f4 p4 q4 b4
  have e6' : lowerOpt inc w (some r.n) = some rz := by
    rw [hw]
    exact e6
  rw [hse] at e6'
  cases e6'
  clear hw e6 hse n3
  dsimp only at e8 e9 he
  simp only [Option.getD_some] at e9
  have nn : (w.emit (some r.n) (optCode inc)).n = r.n + 1 := nw
  -- the increment, and the block of the body
  obtain ⟨x, hx⟩ : ∃ x : PS, x = PS.link (PS.create { w.emit (some r.n) (optCode inc) with se := se }) b2 (r.n + 1) .then_ := ⟨_, rfl⟩
  have e8' : lowerS st x (some (r.n + 1)) = some q := by
    rw [hx, ← nn]
    exact e8
  have p5 : Outs (Ed (ri.create.create.link b1 ri.n .next)) T x ((r.n + 1) :: (ri.n + 1) :: Y) := by
    rw [hx]
    exact (((p4.emit (o := some r.n) (is := optCode inc)).se se).create.fork (p := b2) (q := r.n + 1) (k := .then_) (br_emit (o := some r.n) (is := optCode inc) b4)).weak fun y hy => hy
  have q5 : To (Ed x) ((ri.n + 1) :: Y) ri.n := by
    rw [hx]
    exact q4.lift (fun _ _ h => edge_link (edge_create (edge_emit h : Ed (w.emit (some r.n) (optCode inc)) _ _))) fun _ => .here
  have nx : x.n = r.n + 2 := by rw [hx]; exact congrArg (· + 1) nn
  have kx : x.brk = (ri.n + 1) :: t.brk := by rw [hx]; exact kw
  have cx : x.cont = r.n :: t.cont := by rw [hx]; exact cw
  have fx : x.code r.n = optCode inc := by
    rw [hx]
    show (w.emit (some r.n) (optCode inc)).code r.n = _
    simp only [PS.emit, upd_self, f4, List.nil_append]
  have h5 : Rdy x (some (r.n + 1)) := by
    rw [hx]
    have g := ((h4.emit (o := some r.n) (is := optCode inc) h4.2).se se).create
    exact (g.link (p := b2) (k := .then_) (q := r.n + 1) (by omega) (by show _ < w.n + 1; omega)).at (by show _ < w.n + 1; omega)
  clear hx e8 p4 p3 h4 f4 q4 q0
  have hk' : ∀ {Y' : List Nat}, ∀ z ∈ x.brk.head?, To (Ed x) ((ri.n + 1) :: Y') z := fun z hz => by
    rw [kx] at hz
    cases hz
    exact .here (List.mem_cons_self ..)
  have w5 := lowerS_went ok h5 e8'
  have code5 : q.1.code r.n = optCode inc := (w5.1.code r.n (by omega) (by simp)).trans fx
  have hfin : Outs (Ed x) T s9 ((ri.n + 1) :: Y) := by
    have p6 := ih h5 e8' (Y := (ri.n + 1) :: r.n :: Y) hk' (fun _ z hz => by
      rw [cx] at hz
      cases hz
      exact .here (by simp)) (Outs.weak (Y' := (some (r.n + 1)).toList ++ (ri.n + 1) :: r.n :: Y) p5.now (by
      intro y hy
      simp only [Option.toList_some, List.cons_append, List.nil_append, List.mem_cons] at hy ⊢
      rcases hy with h | h | h
      · exact .inl h
      · exact .inr (.inl h)
      · exact .inr (.inr (.inr h))))
    cases hq : q.2 with
    | some v =>
      rw [hq] at e9 p6
      obtain ⟨z', hz', rfl⟩ := connect_some e9
      cases hz'
      have p6' : Outs (Ed x) T q.1 (v :: (ri.n + 1) :: r.n :: Y) := p6
      have p7 := to_outs (q := r.n) p6' (.here (by simp))
      refine to_outs (b := r.n) (Outs.weak (Y' := r.n :: (ri.n + 1) :: Y) p7 (by
        intro y hy
        simp only [List.mem_cons] at hy ⊢
        rcases hy with h | h | h
        · exact .inr (.inl h)
        · exact .inl h
        · exact .inr (.inr h))) (q5.lift p7.keep fun _ => .here)
    | none =>
      rw [hq] at e9 p6
      dsimp only at e9
      split at e9
      · rename_i hcode
        cases e9
        rw [code5] at hcode
        have hcc' : st.conts = false := by
          rcases hcc with k | k | k
          · exact absurd hcode k
          · exact k
          · exact absurd hq (w5.2 (falls_of_completes st k) (by simp))
        have p7 := ih h5 e8' (Y := (ri.n + 1) :: Y) hk' (fun k => by rw [hcc'] at k; cases k) p5.now
        rw [hq] at p7
        exact p7
      · obtain ⟨z', hz', rfl⟩ := connect_some e9
        cases hz'
        exact to_outs (b := r.n) (p6.weak (by
          intro y hy
          simp only [Option.toList_none, List.nil_append, List.mem_cons] at hy ⊢
          rcases hy with h | h | h
          · exact .inr (.inl h)
          · exact .inl h
          · exact .inr (.inr h))) (q5.lift p6.keep fun _ => .here)
  have he' : ((({ s9 with brk := s9.brk.tail, cont := s9.cont.tail } : PS), some (ri.n + 1)) : PS × Option Nat) = (t', bb') := he
  cases he'
  exact (pS.back p5).back (hfin.setBC _ _)

/-- The claim for the groups of a `switch`: `b` is the block of the comparison. -/
def CaO (cs : Cases) : Prop :=
  ∀ {E : Nat → Nat → Prop} {T : Nat → Prop} {t : PS} {v y b : Nat} {tb : Option Nat} {t' : PS} {tb' : Option Nat} {Y : List Nat}, Rdy t tb → 2 ≤ b ∧ b < t.n →
    (∀ q ∈ tb, 2 ≤ q) → 2 ≤ y ∧ y < t.n → lowerCases cs v y t b tb = some (t', tb') → cs ≠ .nil → y ∈ Y →
    (∀ z ∈ t.brk.head?, To E Y z) → (cs.conts = true → ∀ z ∈ t.cont.head?, To E Y z) →
    Outs E T t (b :: (tb.toList ++ Y)) → Outs E T t' (tb'.toList ++ Y)

/-- The claim for the statements of a group. -/
def BoO (ss : Stmts) : Prop :=
  ∀ {E : Nat → Nat → Prop} {T : Nat → Prop} {t : PS} {bb : Option Nat} {t' : PS} {bb' : Option Nat} {Y : List Nat}, Rdy t bb → lowerBody ss t bb = some (t', bb') →
    (∀ z ∈ t.brk.head?, To E Y z) → (ss.conts = true → ∀ z ∈ t.cont.head?, To E Y z) → Outs E T t (bb.toList ++ Y) → Outs E T t' (bb'.toList ++ Y)

theorem groupEnd_outs {body : Stmts} {s : PS} {q : Option Nat} {Y : List Nat} (h : Rdy s q) (p : Outs E T s (q.toList ++ Y)) :
    Rdy (groupEnd body s q).1 (groupEnd body s q).2 ∧ Outs E T (groupEnd body s q).1 ((groupEnd body s q).2.toList ++ Y) ∧
      s.n ≤ (groupEnd body s q).1.n ∧ (groupEnd body s q).1.brk = s.brk ∧ (groupEnd body s q).1.cont = s.cont := by
  cases q with
  | none => cases body <;> exact ⟨h, p, Nat.le_refl _, rfl, rfl⟩
  | some b =>
    cases body with
    | nil => exact ⟨h, p, Nat.le_refl _, rfl, rfl⟩
    | cons st ss => exact ⟨on_rdy h, on_outs p, Nat.le_succ _, rfl, rfl⟩

theorem nextBody_outs {s : PS} {tb : Option Nat} {Y : List Nat} (h : Rdy s tb) (h2 : ∀ z ∈ tb, 2 ≤ z) (p : Outs E T s (tb.toList ++ Y)) :
    Rdy (nextBody s tb).1 (nextBody s tb).2 ∧ Outs E T (nextBody s tb).1 ((nextBody s tb).2.toList ++ Y) ∧ s.n ≤ (nextBody s tb).1.n ∧
      (nextBody s tb).1.brk = s.brk ∧ (nextBody s tb).1.cont = s.cont ∧ ∀ z ∈ (nextBody s tb).2, 2 ≤ z := by
  cases tb with
  | none =>
    refine ⟨h.create.at (Nat.lt_succ_self _), p.create.weak fun x hx => ?_, Nat.le_succ _, rfl, rfl, fun z hz => by cases hz; exact h.1.two⟩
    exact List.mem_append_right _ hx
  | some b => exact ⟨h, p, Nat.le_refl _, rfl, rfl, h2⟩

theorem case_outs {l : Option Label} {body : Stmts} {r : Cases} (ok : body.Ok H) (ihb : BoO body) (ihr : CaO r) : CaO (.cons l body r) := by
  intro E T t v y b tb t' tb' Y h hb htb hy he0 _ hyY hk hn p
  rw [lowerCases.eq_def] at he0
  dsimp only at he0
  obtain ⟨tq, rfl, he1⟩ := Option.bind_eq_some_iff.mp he0
  obtain ⟨q, e1, he⟩ := Option.bind_eq_some_iff.mp he1
  clear he0 he1
  have ht := htb tq rfl
  have htn := h.2 tq rfl
  obtain ⟨q1, q2⟩ := q
  obtain ⟨g, hg⟩ : ∃ g, g = groupEnd body q1 q2 := ⟨_, rfl⟩
  cases l with
  | none =>
    cases r with
    | cons l' b' r' => cases he
    | nil =>
      have he' : some (g.1, g.2) = some (t', tb') := by
        rw [hg]
        cases q2 <;> cases body <;> exact he
      dsimp only at e1
      have h1 : Rdy (t.link b tq .next) (some tq) := h.link ht htn
      have p1 : Outs E T (t.link b tq .next) ((some tq).toList ++ Y) := to_outs p (.here (by simp))
      have p2 := ihb h1 e1 hk (fun hc => hn (by simp [Cases.conts, hc])) p1
      have w := lowerBody_went ok h1 e1
      obtain ⟨_, p3, _⟩ := groupEnd_outs (body := body) w.rdy p2
      rw [← hg] at p3
      cases he'
      exact p3
  | some k =>
    dsimp only at e1
    have h1 : Rdy ((lowerLabel k v t b).link b tq .then_) (some tq) :=
      (h.emit (o := some b) (is := k.code v ++ [branchIns k.t]) (fun x hx => by cases hx; exact hb.2)).link ht htn
    have bb : Br (t.emit (some b) (k.code v ++ [branchIns k.t])) b := ⟨branchIns k.t, by simp [PS.emit, upd], rfl⟩
    have p1 : Outs E (fun x => T x ∨ x = b) ((lowerLabel k v t b).link b tq .then_) ((some tq).toList ++ b :: Y) := by
      have := ((p.emit (o := some b) (is := k.code v ++ [branchIns k.t])).plus bb).fork (p := b) (q := tq) (k := .then_) bb
      exact this.weak (Y' := (some tq).toList ++ b :: Y) (by
        intro x hx
        simp only [Option.toList_some, List.cons_append, List.nil_append, List.mem_cons] at hx ⊢
        rcases hx with h | h | h | h
        · exact .inl h
        · exact .inr (.inl h)
        · exact .inl h
        · exact .inr (.inr h))
    have p2 := ihb h1 e1 (fun z hz => (hk z hz).more (fun x hx => List.mem_cons_of_mem _ hx))
      (fun hc z hz => (hn (by simp [Cases.conts, hc]) z hz).more (fun x hx => List.mem_cons_of_mem _ hx)) p1
    have w := lowerBody_went ok h1 e1
    have hq2 : ∀ z ∈ q2, 2 ≤ z := by
      intro z hz
      rcases w.cur z hz with k | k
      · cases k; exact ht
      · exact Nat.le_trans h.1.two k
    obtain ⟨h3, p3, n3, k3, c3⟩ := groupEnd_outs (body := body) w.rdy p2
    have t3 := groupEnd_two (body := body) w.rdy hq2
    have nw : t.n ≤ q1.n := w.n
    have kw : q1.brk = t.brk := w.brk
    have cw : q1.cont = t.cont := w.cont
    rw [← hg] at h3 p3 n3 k3 c3 t3
    obtain ⟨g1, g2⟩ := g
    simp only at h3 p3 n3 k3 c3 t3
    cases r with
    | nil =>
      have he' : some ((g1, g2).1.link b y .else_, (g1, g2).2) = some (t', tb') := by
        rw [hg]
        cases q2 <;> cases body <;> exact he
      cases he'
      refine Outs.mono (Y' := g2.toList ++ Y) ((p3.fork (p3.half b (.inr rfl))).less fun _ => .inl) ?_
      intro x hx
      simp only [List.mem_cons, List.mem_append] at hx
      rcases hx with rfl | hx | rfl | hx
      · exact .here (List.mem_append_right _ hyY)
      · exact .here (List.mem_append_left _ hx)
      · exact .step (b := y) (by edge) (List.mem_append_right _ hyY)
      · exact .here (List.mem_append_right _ hx)
    | cons l' body' r' =>
      have he' : lowerCases (.cons l' body' r') v y (nextBody ((g1, g2).1.create.link b (g1, g2).1.n .else_) (g1, g2).2).1 (g1, g2).1.n
          (nextBody ((g1, g2).1.create.link b (g1, g2).1.n .else_) (g1, g2).2).2 = some (t', tb') := by
        rw [hg]
        cases q2 <;> cases body <;> exact he
      dsimp only at he'
      have h4 : Rdy (g1.create.link b g1.n .else_) g2 := h3.create.link h3.1.two (Nat.lt_succ_self _)
      have p4 : Outs E T (g1.create.link b g1.n .else_) (g2.toList ++ g1.n :: Y) := by
        refine Outs.mono (Y' := g2.toList ++ g1.n :: Y) ((p3.create.fork (p3.half b (.inr rfl))).less fun _ => .inl) ?_
        intro x hx
        simp only [List.mem_cons, List.mem_append] at hx
        rcases hx with rfl | hx | rfl | hx
        · exact .here (by simp)
        · exact .here (by simp [hx])
        · exact .step (b := g1.n) (by edge) (by simp)
        · exact .here (by simp [hx])
      have n4 : (g1.create.link b g1.n .else_).n = g1.n + 1 := rfl
      obtain ⟨h5, p5, n5, k5, c5, t5⟩ := nextBody_outs h4 t3 p4
      have k6 : (nextBody (g1.create.link b g1.n .else_) g2).1.brk = t.brk := k5.trans (k3.trans kw)
      have c6 : (nextBody (g1.create.link b g1.n .else_) g2).1.cont = t.cont := c5.trans (c3.trans cw)
      generalize nextBody (g1.create.link b g1.n .else_) g2 = d at he' h5 p5 n5 k6 c6 t5
      refine ihr h5 ⟨h3.1.two, by omega⟩ t5 ⟨hy.1, by omega⟩ he' (fun h => by cases h) hyY
        (fun z hz => hk z (k6 ▸ hz)) (fun hc z hz => hn (by rw [Cases.conts, hc, Bool.or_true]) z (c6 ▸ hz)) (p5.weak ?_)
      intro x hx
      simp only [List.mem_cons, List.mem_append] at hx ⊢
      rcases hx with hx | hx | hx
      · exact .inr (.inl hx)
      · exact .inl hx
      · exact .inr (.inr hx)

theorem switch_outs {e : Expr} {cs : Cases} (hc : e.Plain H) (hne : cs ≠ .nil) (ih : CaO cs) : StO (.switch_ e cs) := by
  intro E T t bb t' bb' Y h he0 hk hn p
  simp only [lowerS] at he0
  obtain ⟨u, e1, he1⟩ := Option.bind_eq_some_iff.mp he0
  obtain ⟨b, rfl, rfl⟩ := connect_some e1
  obtain ⟨r, e2, he2⟩ := Option.bind_eq_some_iff.mp he1
  obtain ⟨b1, hb1, he3⟩ := Option.bind_eq_some_iff.mp he2
  obtain ⟨q, e3, he⟩ := Option.map_eq_some_iff.mp he3
  clear he0 he1 he2 he3 e1
  obtain ⟨r, r2, v⟩ := r
  simp only at hb1
  subst hb1
  obtain ⟨h1, p1, n1, k1, c1⟩ := cond_outs hc (bk := t.brk) (cn := t.cont) h rfl (fun z hz => .inl hz) e2 p
  have w1 := (lowerC_went hc (on_rdy h) e2).cur b1 rfl
  have t2 := h.1.two
  have hb1 : 2 ≤ b1 := by
    rcases w1 with k | k
    · cases k; exact t2
    · have : t.n + 1 ≤ b1 := k
      omega
  dsimp only at e3 he
  have h2 : Rdy { r.create.create with brk := r.n :: r.create.create.brk } (some (r.n + 1)) := by
    refine (h1.create.create.setBC (b := r.n :: r.create.create.brk) (c := r.create.create.cont) ?_ h1.create.create.1.cont).at ?_
    · intro z hz
      rcases List.mem_cons.1 hz with rfl | hz
      · exact ⟨h1.1.two, by show _ < r.n + 2; omega⟩
      · exact h1.create.create.1.brk z hz
    · show _ < r.n + 2
      omega
  have p2 : Outs E T { r.create.create with brk := r.n :: r.create.create.brk } (b1 :: ((some (r.n + 1)).toList ++ r.n :: Y)) :=
    ((p1.create.create.setBC (r.n :: r.create.create.brk) r.create.create.cont).weak (by
      intro x hx
      simp only [Option.toList_some, List.cons_append, List.nil_append, List.mem_cons] at hx ⊢
      rcases hx with hx | hx
      · exact .inl hx
      · exact .inr (.inr (.inr hx))))
  have p3 := ih h2 ⟨hb1, by have := h1.2 b1 rfl; show _ < r.n + 2; omega⟩ (fun z hz => by cases hz; have := h1.1.two; omega)
    ⟨h1.1.two, by show _ < r.n + 2; omega⟩ e3 hne (List.mem_cons_self ..)
    (fun z hz => by cases hz; exact .here (List.mem_cons_self ..))
    (fun hcc z hz => (hn (by simpa only [Stmt.conts] using hcc) z (by rw [← c1]; exact hz)).more (fun x hx => List.mem_cons_of_mem _ hx)) p2
  obtain ⟨s, hs, p4⟩ : ∃ s, (s = match (motive := Option Nat → PS) q.2 with | none => q.1 | some z => q.1.link z r.n .next) ∧
      Outs E T s (r.n :: Y) := by
    cases hq : q.2 with
    | none =>
      rw [hq] at p3
      exact ⟨_, rfl, p3⟩
    | some z =>
      rw [hq] at p3
      exact ⟨_, rfl, to_outs p3 (.here (List.mem_cons_self ..))⟩
  have he' : (({ s with brk := s.brk.tail } : PS), if (s.block r.n).prev = [] then none else some r.n) = (t', bb') := by
    rw [hs, ← he]
    cases q.2 <;> rfl
  clear he hs
  split at he'
  · rename_i hp
    cases he'
    exact Outs.setBC (s := s) (p4.drop (by have := h1.1.two; omega) hp) s.brk.tail s.cont
  · cases he'
    exact p4.setBC s.brk.tail s.cont

mutual
theorem lowerS_outs (st : Stmt) (ok : st.Ok H) : StO st := by
  match st, ok with
  | .expr e, ok =>
    intro E T t bb t' bb' Y h he hk hn p
    simp only [lowerS] at he
    obtain ⟨r, e1, e2⟩ := Option.map_eq_some_iff.mp he
    cases e2
    exact (lowerE_outs e ok.1 p e1).flush
  | .empty, _ =>
    intro E T t bb t' bb' Y h he hk hn p
    cases he
    exact p
  | .block ss, ok =>
    intro E T t bb t' bb' Y h he hk hn p
    simp only [lowerS] at he
    obtain ⟨b, rfl, e1⟩ := Option.bind_eq_some_iff.mp he
    exact lowerSs_outs ss ok h e1 hk (fun hc => hn (by simpa only [Stmt.conts] using hc)) p
  | .ret none, ok =>
    intro E T t bb t' bb' Y h he hk hn p
    simp only [lowerS] at he
    obtain ⟨s1, e1, e2⟩ := Option.map_eq_some_iff.mp he
    obtain ⟨b, rfl, rfl⟩ := connect_some e1
    cases e2
    have := to_outs (q := t.exit) (p.emit (o := some b) (is := [retIns none])) (by rw [h.1.exit]; exact .exit)
    exact this
  | .ret (some e), ok =>
    intro E T t bb t' bb' Y h he hk hn p
    simp only [lowerS] at he
    obtain ⟨r, e1, he1⟩ := Option.bind_eq_some_iff.mp he
    obtain ⟨s1, e2, e3⟩ := Option.map_eq_some_iff.mp he1
    obtain ⟨b, hb, rfl⟩ := connect_some e2
    cases e3
    have w := lowerE_walk (Nat.zero_le 2) e (ok e rfl).1 h.tr (fun b hb => Option.mem_toList.2 hb) e1
    obtain ⟨B, w⟩ := w
    have g := (lowerE_outs e (ok e rfl).1 p e1).flush (o := r.2.1)
    have g := g.emit (o := r.2.1) (is := [retIns (some r.2.2)])
    rw [hb] at g ⊢
    refine to_outs g ?_
    have he : ((r.1.flush (some b)).emit (some b) [retIns (some r.2.2)]).exit = 1 := w.tr.inn.exit
    rw [he]
    exact .exit
  | .ite c t, ok =>
    intro E T t' bb t'' bb' Y
    exact ite_outs ok.1 ok.2 (lowerS_outs t ok.2)
  | .iteElse c t e, ok =>
    intro E T t' bb t'' bb' Y
    exact iteElse_outs ok.1 ok.2.1 ok.2.2 (lowerS_outs t ok.2.1) (lowerS_outs e ok.2.2)
  | .while_ c b, ok =>
    intro E T t' bb t'' bb' Y
    exact while_outs ok.1 ok.2 (lowerS_outs b ok.2)
  | .doWhile b c, ok =>
    intro E T t' bb t'' bb' Y
    exact do_outs ok.1 ok.2 (lowerS_outs b ok.2)
  | .for_ init c one inc b, ok =>
    intro E T t bb t' bb' Y
    exact for_outs ok.1 ok.2.1 ok.2.2.2.1 ok.2.2.2.2.1 ok.2.2.2.2.2 (lowerS_outs b ok.2.2.2.2.1)
  | .switch_ e cs, ok =>
    intro E T t' bb t'' bb' Y
    exact switch_outs ok.1 ok.2.1 (lowerCases_outs cs ok.2.2)
  | .brk, _ =>
    intro E T t bb t' bb' Y h he hk hn p
    simp only [lowerS] at he
    obtain ⟨y, hy, he1⟩ := Option.bind_eq_some_iff.mp he
    obtain ⟨s1, e1, e2⟩ := Option.map_eq_some_iff.mp he1
    obtain ⟨b, rfl, rfl⟩ := connect_some e1
    cases e2
    exact to_outs p ((hk y hy).lift p.keep fun _ => .here)
  | .cont, _ =>
    intro E T t bb t' bb' Y h he hk hn p
    simp only [lowerS] at he
    obtain ⟨y, hy, he1⟩ := Option.bind_eq_some_iff.mp he
    obtain ⟨s1, e1, e2⟩ := Option.map_eq_some_iff.mp he1
    obtain ⟨b, rfl, rfl⟩ := connect_some e1
    cases e2
    exact to_outs p ((hn rfl y hy).lift p.keep fun _ => .here)
theorem lowerSs_outs (ss : Stmts) (ok : ss.Ok H) {E : Nat → Nat → Prop} {T : Nat → Prop} {t : PS} {bb : Option Nat} {t' : PS} {bb' : Option Nat} {Y : List Nat} (h : Rdy t bb)
    (he : lowerSs ss t bb = some (t', bb')) (hk : ∀ z ∈ t.brk.head?, To E Y z)
    (hn : ss.conts = true → ∀ z ∈ t.cont.head?, To E Y z) (p : Outs E T t (bb.toList ++ Y)) : Outs E T t' (bb'.toList ++ Y) := by
  match ss, ok with
  | .nil, _ =>
    cases he
    exact p
  | .cons st ss, ok =>
    simp only [lowerSs] at he
    obtain ⟨r, e1, he⟩ := Option.bind_eq_some_iff.mp he
    have p1 := lowerS_outs st ok.1 h e1 hk (fun hc => hn (by simp [Stmts.conts, hc])) p
    have w := (lowerS_went ok.1 h e1).1
    have kk : (r.1.flush r.2).brk = t.brk := by rw [← w.brk]; cases r.2 <;> rfl
    have cc : (r.1.flush r.2).cont = t.cont := by rw [← w.cont]; cases r.2 <;> rfl
    exact lowerSs_outs ss ok.2 w.rdy.flush he (by rw [kk]; exact hk)
      (fun hc => by rw [cc]; exact hn (by simp [Stmts.conts, hc])) p1.flush
theorem lowerBody_outs (ss : Stmts) (ok : ss.Ok H) : BoO ss := by
  match ss, ok with
  | .nil, _ =>
    intro E T t bb t' bb' Y h he hk hn p
    cases he
    exact p
  | .cons st ss, ok =>
    intro E T t bb t' bb' Y h he hk hn p
    simp only [lowerBody] at he
    obtain ⟨r, e1, he⟩ := Option.bind_eq_some_iff.mp he
    have p1 := lowerS_outs st ok.1 h e1 hk (fun hc => hn (by simp [Stmts.conts, hc])) p
    have w := (lowerS_went ok.1 h e1).1
    exact lowerBody_outs ss ok.2 w.rdy he (by rw [w.brk]; exact hk)
      (fun hc => by rw [w.cont]; exact hn (by simp [Stmts.conts, hc])) p1
theorem lowerCases_outs (cs : Cases) {k : Nat} (ok : cs.Ok H k) : CaO cs := by
  match cs, ok with
  | .nil, _ =>
    intro E T t v y b tb t' tb' Y _ _ _ _ _ h
    exact absurd rfl h
  | .cons l body r, ok =>
    intro E T t v y b tb t' tb' Y
    exact case_outs ok.2.1 (lowerBody_outs body ok.2.1) (lowerCases_outs r ok.2.2)
end


/-- From every block that is entered the exit can be reached; a block with two edges has a branch. -/
theorem lowerFn_outs {body : Stmts} (hb : body.Ok H) {P : PS} (hP : lowerFn body = some P) :
    (∀ b, (b = 0 ∨ (P.block b).prev ≠ []) → To (Ed P) [] b) ∧ ∀ b, Thn P b ∨ Els P b → Br P b := by
  obtain ⟨s0, hs0⟩ : ∃ s0 : PS, s0 = { n := 2, block := fun _ => {}, code := fun _ => [], brk := [], cont := [], se := [], exit := 1 } :=
    ⟨_, rfl⟩
  unfold lowerFn at hP
  simp only [← hs0, Option.map_eq_some_iff] at hP
  obtain ⟨⟨s1, q⟩, h1, h2⟩ := hP
  have i0 : In s0 := by
    rw [hs0]
    refine ⟨Nat.le_refl _, rfl, ?_, fun b _ => ⟨rfl, rfl⟩, fun y hy => (by cases hy), fun y hy => (by cases hy)⟩
    intro b k q hq
    cases k <;> cases hq
  have r0 : Rdy s0 (some 0) := ⟨i0, fun b hb => by cases hb; rw [hs0]; show 0 < 2; omega⟩
  have p0 : Outs (fun _ _ => False) (fun _ => False) s0 ((some 0).toList ++ []) := by
    refine ⟨fun b hb => ?_, fun a b h => h.elim, fun b hb => ?_, fun b h => h.elim⟩
    rotate_left
    · rw [hs0] at hb
      exact absurd rfl (hb.elim id id)
    rcases hb with rfl | hb
    · exact .here (by simp)
    · rw [hs0] at hb
      exact absurd rfl hb
  have p1 := lowerSs_outs body hb r0 h1 (by rw [hs0]; exact fun z hz => by cases hz) (fun _ => by rw [hs0]; exact fun z hz => by cases hz) p0
  cases q with
  | none =>
    simp only at h2
    rw [← h2]
    exact ⟨p1.outs, p1.brs⟩
  | some z =>
    simp only at h2
    rw [← h2]
    exact ⟨(to_outs p1 .exit).outs, (to_outs p1 .exit).brs⟩

end Shecc.Stmt
