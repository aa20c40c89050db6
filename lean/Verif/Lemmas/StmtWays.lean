import Verif.Lemmas.StmtShape2

/-! # Lemmas about the graph built for a function: every block that is entered has a way on -/

namespace Shecc.Stmt
open Shecc.Cfg
open CRename (Ins)
open CStmt

def Thn (s : PS) (b : Nat) : Prop := (s.block b).then_ ≠ none
def Els (s : PS) (b : Nat) : Prop := (s.block b).else_ ≠ none
def Nxt (s : PS) (b : Nat) : Prop := (s.block b).next ≠ none
def Br (s : PS) (b : Nat) : Prop := ∃ i ∈ s.code b, i.op = .branch

/-- Control goes on from the block: along a plain edge, or along two edges that a branch chooses from. -/
def Ways (s : PS) (b : Nat) : Prop := Nxt s b ∨ (Thn s b ∧ Els s b ∧ Br s b)

/-- Every block with a predecessor, other than the exit, has a way on or is one of `Y`; the entry and the blocks `Z`, too. The blocks `T`
have at least one edge for their branch. -/
structure Pend (Z T : Nat → Prop) (s : PS) (Y : List Nat) : Prop where
  ways : ∀ b, (b = 0 ∨ Z b ∨ (s.block b).prev ≠ []) → b ≠ 1 → Ways s b ∨ b ∈ Y
  half : ∀ b, T b → Thn s b ∧ Br s b

variable {Z T : Nat → Prop}
variable {s : PS} {p q b : Nat} {k : Kind} {Y : List Nat}

open Classical in
theorem ptr_upd (s : PS) (p q : Nat) (k : Kind) (b : Nat) (j : Kind) :
    ptr j ((s.link p q k).block b) = if b = p ∧ j = k then some q else ptr j (s.block b) := by
  have h1 : ∀ c, ptr j ((upd s.block q { s.block q with prev := (s.block q).prev ++ [p] }) c) = ptr j (s.block c) := by
    intro c
    simp only [upd]
    split
    · rename_i e
      subst e
      cases j <;> rfl
    · rfl
  simp only [PS.link]
  by_cases hb : b = p
  · subst hb
    rw [upd_self]
    by_cases hj : j = k
    · subst hj
      rw [if_pos ⟨rfl, rfl⟩]
      cases j <;> rfl
    · rw [if_neg (fun h => hj h.2), ← h1 b]
      cases j <;> cases k <;> first | rfl | exact absurd rfl hj
  · rw [upd_other _ _ _ hb, h1, if_neg (fun h => hb h.1)]

theorem ptr_keep {j : Kind} (h : ptr j (s.block b) ≠ none) : ptr j ((s.link p q k).block b) ≠ none := by
  rw [ptr_upd]
  split
  · intro h; cases h
  · exact h

theorem thn_link (h : Thn s b) : Thn (s.link p q k) b := ptr_keep (j := .then_) h
theorem els_link (h : Els s b) : Els (s.link p q k) b := ptr_keep (j := .else_) h
theorem nxt_link (h : Nxt s b) : Nxt (s.link p q k) b := ptr_keep (j := .next) h
theorem br_link (h : Br s b) : Br (s.link p q k) b := h

theorem thn_self : Thn (s.link p q .then_) p := by
  have := ptr_upd s p q .then_ p .then_
  rw [if_pos ⟨rfl, rfl⟩] at this
  intro h
  rw [show ptr .then_ ((s.link p q .then_).block p) = none from h] at this
  cases this
theorem els_self : Els (s.link p q .else_) p := by
  have := ptr_upd s p q .else_ p .else_
  rw [if_pos ⟨rfl, rfl⟩] at this
  intro h
  rw [show ptr .else_ ((s.link p q .else_).block p) = none from h] at this
  cases this
theorem nxt_self : Nxt (s.link p q .next) p := by
  have := ptr_upd s p q .next p .next
  rw [if_pos ⟨rfl, rfl⟩] at this
  intro h
  rw [show ptr .next ((s.link p q .next).block p) = none from h] at this
  cases this

variable {o : Option Nat} {is : List (Ins Nat)}

theorem thn_emit (h : Thn s b) : Thn (s.emit o is) b := by cases o <;> exact h
theorem els_emit (h : Els s b) : Els (s.emit o is) b := by cases o <;> exact h
theorem nxt_emit (h : Nxt s b) : Nxt (s.emit o is) b := by cases o <;> exact h
theorem br_emit (h : Br s b) : Br (s.emit o is) b := by
  cases o with
  | none => exact h
  | some p =>
    obtain ⟨i, hi, ho⟩ := h
    refine ⟨i, ?_, ho⟩
    simp only [PS.emit, upd]
    split
    · rename_i e
      subst e
      exact List.mem_append_left _ hi
    · exact hi
theorem br_self {v : Nat} : Br (s.emit (some b) [branchIns v]) b := ⟨branchIns v, by simp [PS.emit, upd], rfl⟩

theorem ways_link (h : Ways s b) : Ways (s.link p q k) b := h.imp nxt_link fun h => ⟨thn_link h.1, els_link h.2.1, br_link h.2.2⟩
theorem ways_emit (h : Ways s b) : Ways (s.emit o is) b := h.imp nxt_emit fun h => ⟨thn_emit h.1, els_emit h.2.1, br_emit h.2.2⟩
theorem ways_next (h : Nxt s b) : Ways s b := .inl h

theorem Pend.create (h : Pend Z T s Y) : Pend Z T s.create Y := ⟨h.ways, h.half⟩
theorem Pend.se (h : Pend Z T s Y) (l : List (Ins Nat)) : Pend Z T { s with se := l } Y := ⟨h.ways, h.half⟩
theorem Pend.setBC (h : Pend Z T s Y) (l m : List Nat) : Pend Z T { s with brk := l, cont := m } Y := ⟨h.ways, h.half⟩
theorem Pend.emit (h : Pend Z T s Y) : Pend Z T (s.emit o is) Y :=
  ⟨fun b hb h1 => by
    refine (h.ways b ?_ h1).imp_left ways_emit
    rwa [emitO_block] at hb, fun b hb => ⟨thn_emit (h.half b hb).1, br_emit (h.half b hb).2⟩⟩
theorem Pend.flush (h : Pend Z T s Y) : Pend Z T (s.flush o) Y := (h.emit (is := s.se)).se []
theorem Pend.link (h : Pend Z T s Y) : Pend Z T (s.link p q k) (q :: Y) :=
  ⟨fun b hb h1 => by
    by_cases hq : b = q
    · exact .inr (by simp [hq])
    · rw [prev_link, if_neg hq] at hb
      exact (h.ways b hb h1).imp ways_link (List.mem_cons_of_mem _), fun b hb => ⟨thn_link (h.half b hb).1, br_link (h.half b hb).2⟩⟩
theorem Pend.mono (h : Pend Z T s Y) {Y' : List Nat} (hz : ∀ b ∈ Y, b ∈ Y' ∨ b = 1 ∨ Ways s b) : Pend Z T s Y' :=
  ⟨fun b hb h1 => by
    rcases h.ways b hb h1 with h | h
    · exact .inl h
    · rcases hz b h with h | h | h
      · exact .inr h
      · exact absurd h h1
      · exact .inl h, h.half⟩

theorem thn_create (h : Thn s b) : Thn s.create b := h
theorem els_create (h : Els s b) : Els s.create b := h
theorem nxt_create (h : Nxt s b) : Nxt s.create b := h
theorem br_create (h : Br s b) : Br s.create b := h

/-- One more case of `Ways`. -/
macro "ways" : tactic => `(tactic| repeat first
  | exact thn_self | exact els_self | exact nxt_self | exact br_self | assumption
  | refine thn_link ?_ | refine els_link ?_ | refine nxt_link ?_ | refine br_link ?_
  | refine thn_create ?_ | refine els_create ?_ | refine nxt_create ?_ | refine br_create ?_
  | refine thn_emit ?_ | refine els_emit ?_ | refine nxt_emit ?_ | refine br_emit ?_)

/-! ### Expressions -/

/-- The translation can start: the current block exists. -/
def Rdy (s : PS) (bb : Option Nat) : Prop := In s ∧ ∀ b ∈ bb, b < s.n

theorem Rdy.tr {s : PS} {bb : Option Nat} (h : Rdy s bb) : Tr (fun _ => True) 0 bb.toList s bb.toList s bb.toList :=
  Tr.refl h.1 fun b hb => ⟨Nat.zero_le _, h.2 b (Option.mem_toList.1 hb), .inl hb⟩

variable {H : CRename.Home Nat}

/-- Afterwards it can go on. -/
structure Went (t : PS) (bb : Option Nat) (t' : PS) (bb' : Option Nat) : Prop where
  rdy : Rdy t' bb'
  brk : t'.brk = t.brk
  cont : t'.cont = t.cont
  n : t.n ≤ t'.n
  cur : ∀ b, bb' = some b → bb = some b ∨ t.n ≤ b
  code : ∀ b, b < t.n → bb ≠ some b → t'.code b = t.code b

theorem went_walk {t t' : PS} {bb bb' : Option Nat} {B : List Nat} (w : Tr (fun _ => True) 0 bb.toList t bb.toList t' B)
    (hc : ∀ b ∈ bb', b ∈ B) : Went t bb t' bb' :=
  ⟨⟨w.inn, fun b hb => (w.bnd b (hc b hb)).2.1⟩, w.brk, w.cont, w.n, fun b hb => by
    have := (w.bnd b (hc b hb)).2.2
    rwa [Option.mem_toList] at this, fun b hb hn => w.code b hb fun h => hn (Option.mem_toList.1 h)⟩

theorem lowerC_went {e : Expr} (hg : e.Plain H) {t t' : PS} {bb bb' : Option Nat} {v : Nat} (h : Rdy t bb)
    (he : lowerC e t bb = some (t', bb', v)) : Went t bb t' bb' := by
  obtain ⟨B, w⟩ := lowerC_walk (Nat.zero_le 2) hg h.tr (fun b hb => Option.mem_toList.2 hb) he
  exact went_walk w.tr w.cur

theorem lowerOpt_went {e : Option Expr} (hg : ∀ x, e = some x → x.Plain H) {t t' : PS} {bb bb' : Option Nat} (h : Rdy t bb)
    (he : lowerOpt e t bb = some (t', bb')) : Went t bb t' bb' := by
  obtain ⟨B, w⟩ := lowerOpt_walk (Nat.zero_le 2) hg h.tr (fun b hb => Option.mem_toList.2 hb) he
  exact went_walk w.tr w.cur

theorem lowerForC_went {e : Option Expr} (hg : ∀ x, e = some x → x.Plain H) {one : Nat} {t t' : PS} {bb bb' : Option Nat} {v : Nat} (h : Rdy t bb)
    (he : lowerForC e one t bb = some (t', bb', v)) : Went t bb t' bb' := by
  obtain ⟨B, w⟩ := lowerForC_walk (Nat.zero_le 2) hg h.tr (fun b hb => Option.mem_toList.2 hb) he
  exact went_walk w.tr w.cur

theorem lowerS_went {st : Stmt} (ok : st.Ok H) {t t' : PS} {bb bb' : Option Nat} (h : Rdy t bb) (he : lowerS st t bb = some (t', bb')) :
    Went t bb t' bb' ∧ (st.falls = true → bb ≠ none → bb' ≠ none) := by
  obtain ⟨B, w⟩ := lowerS_walk st ok (.inl fun _ => trivial) (Nat.zero_le 2) h.tr (fun b hb => Option.mem_toList.2 hb) he
  exact ⟨went_walk w.tr w.cur, w.falls⟩

theorem lowerBody_went {ss : Stmts} (ok : ss.Ok H) {t t' : PS} {bb bb' : Option Nat} (h : Rdy t bb) (he : lowerBody ss t bb = some (t', bb')) :
    Went t bb t' bb' := by
  obtain ⟨B, w⟩ := lowerBody_walk ss ok (.inl fun _ => trivial) (Nat.zero_le 2) h.tr (fun b hb => Option.mem_toList.2 hb) he
  exact went_walk w.tr w.cur

/-- The shared blocks that an operator is pending for. -/
def Log.pend (L : Log) : List Nat := (L.prev.map L.shared).toList ++ (L.pprev.map L.shared).toList

theorem readLogical_pend {op : LogOp} {sh v : Nat} {t t' : PS} {bb bb' : Option Nat} {Y : List Nat} (h : Pend Z T t (bb.toList ++ Y))
    (e : readLogical op sh v t bb = some (t', bb')) : Pend Z T t' (bb'.toList ++ sh :: Y) := by
  unfold readLogical at e
  obtain ⟨u, e1, e2⟩ := Option.bind_eq_some_iff.mp e
  obtain ⟨b, rfl, rfl⟩ := connect_some e1
  dsimp only at e2
  obtain ⟨u, e3, e4⟩ := Option.map_eq_some_iff.mp e2
  obtain ⟨b', hb', rfl⟩ := connect_some e3
  cases hb'
  cases e4
  refine Pend.mono ((h.link.emit (o := some b) (is := [branchIns v])).create.link) ?_
  intro x hx
  simp only [Option.toList_some, List.cons_append, List.nil_append, List.mem_cons] at hx ⊢
  rcases hx with rfl | rfl | rfl | hx
  · exact .inl (.inl rfl)
  · exact .inl (.inr (.inl rfl))
  · refine .inr (.inr (.inr ⟨?_, ?_, ?_⟩))
    · cases op <;> ways
    · cases op <;> ways
    · ways
  · exact .inl (.inr (.inr hx))

theorem finalize_pend {op : LogOp} {sh v : Nat} {tm : Tmp} {t t' : PS} {bb bb' : Option Nat} {Y : List Nat} (h : Pend Z T t (bb.toList ++ sh :: Y))
    (e : finalize op sh tm v t bb = some (t', bb')) : Pend Z T t' (bb'.toList ++ Y) := by
  unfold finalize at e
  obtain ⟨b, rfl, e⟩ := Option.map_eq_some_iff.mp e
  cases op <;> (dsimp only at e; cases e)
  · refine Pend.mono ((((h.create.create.link.link.link.link).emit (o := some b)).emit).emit) ?_
    intro x hx
    simp only [Option.toList_some, List.cons_append, List.nil_append, List.mem_cons] at hx ⊢
    rcases hx with rfl | rfl | rfl | rfl | rfl | rfl | hx
    · exact .inl (.inl rfl)
    · exact .inl (.inl rfl)
    · exact .inr (.inr (.inl (by ways)))
    · exact .inr (.inr (.inl (by ways)))
    · exact .inr (.inr (.inr ⟨by ways, by ways, by ways⟩))
    · exact .inr (.inr (.inl (by ways)))
    · exact .inl (.inr hx)
  · refine Pend.mono ((((h.create.create.link.link.link.link).emit (o := some b)).emit).emit) ?_
    intro x hx
    simp only [Option.toList_some, List.cons_append, List.nil_append, List.mem_cons] at hx ⊢
    rcases hx with rfl | rfl | rfl | rfl | rfl | rfl | hx
    · exact .inl (.inl rfl)
    · exact .inl (.inl rfl)
    · exact .inr (.inr (.inl (by ways)))
    · exact .inr (.inr (.inl (by ways)))
    · exact .inr (.inr (.inr ⟨by ways, by ways, by ways⟩))
    · exact .inr (.inr (.inl (by ways)))
    · exact .inl (.inr hx)

/-- An operator is set aside only for an `&&` after `||`. -/
def Log.Or (L : Log) : Prop := ∀ x, L.pprev = some x → x = .or

theorem applyOp_pend {op : LogOp} {tmp : Nat → Tmp} {v : Nat} {L L' : Log} {t t' : PS} {bb bb' : Option Nat} {Y : List Nat} (hL : L.Or)
    (h : Pend Z T t (bb.toList ++ (L.pend ++ Y))) (e : applyOp op tmp v L t bb = some (t', bb', L')) :
    Pend Z T t' (bb'.toList ++ (L'.pend ++ Y)) ∧ L'.Or := by
  unfold applyOp at e
  split at e
  · rename_i h1
    obtain ⟨r, e1, e2⟩ := Option.map_eq_some_iff.mp e
    cases e2
    refine ⟨(readLogical_pend h e1).mono ?_, hL⟩
    intro x hx
    refine .inl ?_
    have hs : ∀ o, Log.shared { L with prev := some op } o = L.shared o := fun o => by cases o <;> rfl
    simp only [Log.pend, Option.map_some, Option.toList_some, List.mem_append, List.mem_cons, List.not_mem_nil, or_false] at hx ⊢
    rcases hx with hx | rfl | (hx | hx) | hx
    · exact .inl hx
    · exact .inr (.inl (.inl (hs op).symm))
    · rcases h1 with h1 | h1
      · rw [h1] at hx; cases hx
      · rw [h1] at hx
        simp only [Option.map_some, Option.toList_some, List.mem_singleton] at hx
        exact .inr (.inl (.inl (by rw [hs]; exact hx)))
    · refine .inr (.inl (.inr ?_))
      cases hp : L.pprev with
      | none => rw [hp] at hx; exact hx
      | some o => rw [hp] at hx; cases o <;> exact hx
    · exact .inr (.inr hx)
  · rename_i h1
    split at e
    · rename_i h2
      obtain ⟨r, e1, e2⟩ := Option.bind_eq_some_iff.mp e
      dsimp only at e2
      obtain ⟨q, e3, e4⟩ := Option.map_eq_some_iff.mp e2
      cases e4
      have hop : op = .or := by
        cases op
        · exact absurd (.inr h2) h1
        · rfl
      subst hop
      have k : Pend Z T t (bb.toList ++ L.and :: ((L.pprev.map L.shared).toList ++ Y)) := by
        refine h.mono fun x hx => .inl ?_
        simp only [Log.pend, h2, Option.map_some, Option.toList_some, List.mem_append, List.mem_cons, List.not_mem_nil, or_false, Log.shared] at hx ⊢
        rcases hx with hx | (hx | hx) | hx
        · exact .inl hx
        · exact .inr (.inl hx)
        · exact .inr (.inr (.inl hx))
        · exact .inr (.inr (.inr hx))
      refine ⟨(readLogical_pend (finalize_pend k e1).create e3).mono ?_, fun x hx => by cases hx⟩
      intro x hx
      refine .inl ?_
      simp only [Log.pend, Option.map_some, Option.toList_some, List.mem_append, List.mem_cons, List.not_mem_nil, or_false, Log.shared,
        Option.map_none, Option.toList_none] at hx ⊢
      rcases hx with hx | hx | hx | hx
      · exact .inl hx
      · exact .inr (.inl hx)
      · refine .inr (.inl ?_)
        cases hp : L.pprev with
        | none => rw [hp] at hx; cases hx
        | some o =>
          rw [hp, hL o hp] at hx
          simpa only [Option.map_some, Option.toList_some, List.mem_singleton, Log.shared] using hx
      · exact .inr (.inr hx)
    · rename_i h2
      obtain ⟨r, e1, e2⟩ := Option.map_eq_some_iff.mp e
      cases e2
      have hp : L.prev = some .or := by
        cases hp : L.prev with
        | none => exact absurd (.inl hp) h1
        | some o => cases o with
          | and => exact absurd hp h2
          | or => rfl
      have hop : op = .and := by
        cases op
        · rfl
        · exact absurd (.inr hp) h1
      subst hop
      refine ⟨(readLogical_pend h e1).mono ?_, fun x hx => by rw [hp] at hx; cases hx; rfl⟩
      intro x hx
      refine .inl ?_
      simp only [Log.pend, hp, Option.map_some, Option.toList_some, List.mem_append, List.mem_cons, List.not_mem_nil, or_false, Log.shared] at hx ⊢
      rcases hx with hx | hx | (hx | hx) | hx
      · exact .inl hx
      · exact .inr (.inl (.inl hx))
      · exact .inr (.inl (.inr hx))
      · cases hq : L.pprev with
        | none => rw [hq] at hx; cases hx
        | some o =>
          rw [hq, hL o hq] at hx
          simp only [Option.map_some, Option.toList_some, List.mem_singleton, Log.shared] at hx
          exact .inr (.inl (.inr hx))
      · exact .inr (.inr hx)

theorem finish_pend {tmp : Nat → Tmp} {Y : List Nat} : ∀ (n : Nat) {t : PS} {bb : Option Nat} {v : Nat} {L : Log} {t' : PS} {bb' : Option Nat}
    {v' : Nat}, (n = 0 → L.pend = []) → (n = 1 → L.pprev = none) → (L.prev = none → L.pprev = none) → Pend Z T t (bb.toList ++ (L.pend ++ Y)) →
    finish n tmp v L t bb = some (t', bb', v') → Pend Z T t' (bb'.toList ++ Y) := by
  intro n
  induction n with
  | zero =>
    intro t bb v L t' bb' v' h0 _ _ h e
    cases e
    rw [h0 rfl] at h
    exact h
  | succ n ih =>
    intro t bb v L t' bb' v' _ h1 hp h e
    unfold finish at e
    cases hq : L.prev with
    | none =>
      rw [hq] at e
      cases e
      simp only [Log.pend, hq, hp hq, Option.map_none, Option.toList_none, List.nil_append] at h
      exact h
    | some op =>
      rw [hq] at e
      obtain ⟨r, e1, e2⟩ := Option.bind_eq_some_iff.mp e
      refine ih (L := { L with prev := L.pprev, pprev := none, i := L.i + 1 }) ?_ (fun _ => rfl) (fun _ => rfl) ?_ e2
      · rintro rfl
        simp only [Log.pend, h1 rfl, Option.map_none, Option.toList_none, List.nil_append]
      · have k : Pend Z T t (bb.toList ++ L.shared op :: ((L.pprev.map L.shared).toList ++ Y)) := by
          simpa only [Log.pend, hq, Option.map_some, Option.toList_some, List.cons_append, List.nil_append, List.append_assoc] using h
        have hs : ∀ o, Log.shared { L with prev := L.pprev, pprev := none, i := L.i + 1 } o = L.shared o := fun o => by cases o <;> rfl
        have := finalize_pend k e1
        refine this.mono fun x hx => .inl ?_
        simp only [Log.pend, List.mem_append, Option.map_none, Option.toList_none, List.not_mem_nil, or_false] at hx ⊢
        rcases hx with hx | hx | hx
        · exact .inl hx
        · refine .inr (.inl ?_)
          cases hp : L.pprev with
          | none => rw [hp] at hx; exact hx
          | some o => rw [hp] at hx; cases o <;> exact hx
        · exact .inr (.inr hx)

/-- Once there is an operator set aside there is one before it. -/
def Log.Fst (L : Log) : Prop := L.prev = none → L.pprev = none

theorem applyOp_fst {op : LogOp} {tmp : Nat → Tmp} {v : Nat} {L L' : Log} {t t' : PS} {bb bb' : Option Nat}
    (e : applyOp op tmp v L t bb = some (t', bb', L')) : L'.Fst := by
  unfold applyOp at e
  split at e
  · obtain ⟨r, _, e2⟩ := Option.map_eq_some_iff.mp e
    cases e2
    intro h; cases h
  · split at e
    · obtain ⟨r, _, e2⟩ := Option.bind_eq_some_iff.mp e
      dsimp only at e2
      obtain ⟨q, _, e4⟩ := Option.map_eq_some_iff.mp e2
      cases e4
      intro h; cases h
    · obtain ⟨r, _, e2⟩ := Option.map_eq_some_iff.mp e
      cases e2
      intro h; cases h

mutual
theorem lowerE_pend (e : Expr) (hg : e.Good H) {t t' : PS} {bb bb' : Option Nat} {v : Nat} {Y : List Nat} (h : Pend Z T t (bb.toList ++ Y))
    (he : lowerE e t bb = some (t', bb', v)) : Pend Z T t' (bb'.toList ++ Y) := by
  match e, hg with
  | .comp args code v se, hg =>
    simp only [lowerE] at he
    obtain ⟨r, e1, e2⟩ := Option.map_eq_some_iff.mp he
    cases e2
    exact (lowerArgs_pend args hg.1 h e1).emit.se _
  | .logic g tmp, hg =>
    simp only [lowerE] at he
    exact lowerOrs_pend g hg.1 (L := { and := t.n, or := t.n + 1 }) (fun _ h => by cases h) (fun _ => rfl) h.create.create he
  | .tern c a b tm, hg =>
    simp only [lowerE] at he
    obtain ⟨r, e1, he⟩ := Option.bind_eq_some_iff.mp he
    have g1 := lowerE_pend c hg.1 h e1
    rw [lowerE_straight a hg.2.2.2.1, Option.bind_some] at he
    dsimp only at he
    obtain ⟨u, e2, he⟩ := Option.bind_eq_some_iff.mp he
    obtain ⟨p, hp, rfl⟩ := connect_some e2
    rw [lowerE_straight b hg.2.2.2.2, Option.bind_some] at he
    dsimp only at he
    obtain ⟨u, e3, he⟩ := Option.map_eq_some_iff.mp he
    obtain ⟨p', hp', rfl⟩ := connect_some e3
    rw [hp] at hp'
    cases hp'
    cases he
    rw [hp] at g1 ⊢
    clear e1 e2 e3
    have n0 : (r.1.emit (some p) [branchIns r.2.2]).n = r.1.n := rfl
    rw [n0]
    have b0 : Br (r.1.emit (some p) [branchIns r.2.2]) p := br_self
    have g2 : Pend Z T (r.1.emit (some p) [branchIns r.2.2]) _ := g1.emit
    generalize r.1.emit (some p) [branchIns r.2.2] = w at g2 b0 n0 ⊢
    dsimp only [Option.getD_some]
    have g3 : Pend Z T ((w.create.create.create.link r.1.n (r.1.n + 2) .next).link (r.1.n + 1) (r.1.n + 2) .next) _ := g2.create.create.create.link.link
    have x1 : Nxt ((w.create.create.create.link r.1.n (r.1.n + 2) .next).link (r.1.n + 1) (r.1.n + 2) .next) r.1.n := nxt_link nxt_self
    have x2 : Nxt ((w.create.create.create.link r.1.n (r.1.n + 2) .next).link (r.1.n + 1) (r.1.n + 2) .next) (r.1.n + 1) := nxt_self
    have x3 : Br ((w.create.create.create.link r.1.n (r.1.n + 2) .next).link (r.1.n + 1) (r.1.n + 2) .next) p := b0
    generalize (w.create.create.create.link r.1.n (r.1.n + 2) .next).link (r.1.n + 1) (r.1.n + 2) .next = w2 at g3 x1 x2 x3 ⊢
    have g4 : Pend Z T ({ w2.emit (some r.1.n) a.code with se := w2.se ++ ses a } : PS) _ := g3.emit.se _
    have y1 : Nxt ({ w2.emit (some r.1.n) a.code with se := w2.se ++ ses a } : PS) r.1.n := (nxt_emit x1 : Nxt (w2.emit (some r.1.n) a.code) _)
    have y2 : Nxt ({ w2.emit (some r.1.n) a.code with se := w2.se ++ ses a } : PS) (r.1.n + 1) := (nxt_emit x2 : Nxt (w2.emit (some r.1.n) a.code) _)
    have y3 : Br ({ w2.emit (some r.1.n) a.code with se := w2.se ++ ses a } : PS) p := (br_emit x3 : Br (w2.emit (some r.1.n) a.code) p)
    generalize ({ w2.emit (some r.1.n) a.code with se := w2.se ++ ses a } : PS) = w3 at g4 y1 y2 y3 ⊢
    have g5 : Pend Z T ((w3.link p r.1.n .then_).emit (some r.1.n) [moveIns v a.res]) _ := g4.link.emit
    have z1 : Nxt ((w3.link p r.1.n .then_).emit (some r.1.n) [moveIns v a.res]) r.1.n := by ways
    have z2 : Nxt ((w3.link p r.1.n .then_).emit (some r.1.n) [moveIns v a.res]) (r.1.n + 1) := by ways
    have z3 : Br ((w3.link p r.1.n .then_).emit (some r.1.n) [moveIns v a.res]) p := by ways
    have z4 : Thn ((w3.link p r.1.n .then_).emit (some r.1.n) [moveIns v a.res]) p := by ways
    generalize (w3.link p r.1.n .then_).emit (some r.1.n) [moveIns v a.res] = w4 at g5 z1 z2 z3 z4 ⊢
    have g6 : Pend Z T ({ w4.emit (some (r.1.n + 1)) b.code with se := w4.se ++ ses b } : PS) _ := g5.emit.se _
    have v1 : Nxt ({ w4.emit (some (r.1.n + 1)) b.code with se := w4.se ++ ses b } : PS) r.1.n := (nxt_emit z1 : Nxt (w4.emit (some (r.1.n + 1)) b.code) _)
    have v2 : Nxt ({ w4.emit (some (r.1.n + 1)) b.code with se := w4.se ++ ses b } : PS) (r.1.n + 1) := (nxt_emit z2 : Nxt (w4.emit (some (r.1.n + 1)) b.code) _)
    have v3 : Br ({ w4.emit (some (r.1.n + 1)) b.code with se := w4.se ++ ses b } : PS) p := (br_emit z3 : Br (w4.emit (some (r.1.n + 1)) b.code) p)
    have v4 : Thn ({ w4.emit (some (r.1.n + 1)) b.code with se := w4.se ++ ses b } : PS) p := (thn_emit z4 : Thn (w4.emit (some (r.1.n + 1)) b.code) p)
    generalize ({ w4.emit (some (r.1.n + 1)) b.code with se := w4.se ++ ses b } : PS) = w5 at g6 v1 v2 v3 v4 ⊢
    refine Pend.mono (g6.link.emit) ?_
    intro x hx
    simp only [Option.toList_some, List.cons_append, List.nil_append, List.mem_cons] at hx ⊢
    rcases hx with rfl | rfl | rfl | rfl | rfl | hx
    · exact .inr (.inr (.inl (by ways)))
    · exact .inr (.inr (.inl (by ways)))
    · exact .inl (.inl rfl)
    · exact .inl (.inl rfl)
    · exact .inr (.inr (.inr ⟨by ways, by ways, by ways⟩))
    · exact .inl (.inr hx)
theorem lowerArgs_pend (es : Exprs) (hg : es.Good H) {t t' : PS} {bb bb' : Option Nat} {Y : List Nat} (h : Pend Z T t (bb.toList ++ Y))
    (he : lowerArgs es t bb = some (t', bb')) : Pend Z T t' (bb'.toList ++ Y) := by
  match es, hg with
  | .nil, _ =>
    cases he
    exact h
  | .cons e es, hg =>
    simp only [lowerArgs] at he
    obtain ⟨r, e1, he⟩ := Option.bind_eq_some_iff.mp he
    exact lowerArgs_pend es hg.2 (lowerE_pend e hg.1 h e1) he
theorem lowerOrs_pend (g : Ors) (hg : g.Good H) {t t' : PS} {bb bb' : Option Nat} {tmp : Nat → Tmp} {L : Log} {v : Nat} {Y : List Nat} (hL : L.Or)
    (hF : L.Fst) (h : Pend Z T t (bb.toList ++ (L.pend ++ Y))) (he : lowerOrs g tmp L t bb = some (t', bb', v)) : Pend Z T t' (bb'.toList ++ Y) := by
  match g, hg with
  | .one a, hg =>
    simp only [lowerOrs] at he
    obtain ⟨r, e1, he⟩ := Option.bind_eq_some_iff.mp he
    obtain ⟨g1, o1, f1⟩ := lowerAnds_pend a hg hL hF h e1
    exact finish_pend 2 (by omega) (by omega) f1 g1 he
  | .more a r, hg =>
    simp only [lowerOrs] at he
    obtain ⟨q, e1, he⟩ := Option.bind_eq_some_iff.mp he
    obtain ⟨x, e2, he⟩ := Option.bind_eq_some_iff.mp he
    obtain ⟨g1, o1, f1⟩ := lowerAnds_pend a hg.1 hL hF h e1
    obtain ⟨g2, o2⟩ := applyOp_pend o1 g1 e2
    exact lowerOrs_pend r hg.2 o2 (applyOp_fst e2) g2 he
theorem lowerAnds_pend (g : Ands) (hg : g.Good H) {t t' : PS} {bb bb' : Option Nat} {tmp : Nat → Tmp} {L L' : Log} {v : Nat} {Y : List Nat} (hL : L.Or)
    (hF : L.Fst) (h : Pend Z T t (bb.toList ++ (L.pend ++ Y))) (he : lowerAnds g tmp L t bb = some (t', bb', L', v)) :
    Pend Z T t' (bb'.toList ++ (L'.pend ++ Y)) ∧ L'.Or ∧ L'.Fst := by
  match g, hg with
  | .one e, hg =>
    simp only [lowerAnds] at he
    obtain ⟨r, e1, he⟩ := Option.map_eq_some_iff.mp he
    cases he
    exact ⟨lowerE_pend e hg h e1, hL, hF⟩
  | .more e r, hg =>
    simp only [lowerAnds] at he
    obtain ⟨q, e1, he⟩ := Option.bind_eq_some_iff.mp he
    obtain ⟨x, e2, he⟩ := Option.bind_eq_some_iff.mp he
    have g1 := lowerE_pend e hg.1 h e1
    obtain ⟨g2, o2⟩ := applyOp_pend hL g1 e2
    exact lowerAnds_pend r hg.2 o2 (applyOp_fst e2) g2 he
end

end Shecc.Stmt
