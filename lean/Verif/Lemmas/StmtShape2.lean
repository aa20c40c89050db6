import Verif.Lemmas.StmtShape

/-! # Lemmas about the graph built for a function: statements -/

namespace Shecc.Stmt
open Shecc.Cfg
open CRename (Ins)
open CStmt

variable {R : Nat → Prop} {H : CRename.Home Nat}

theorem In.setBC {s : PS} (h : In s) {b c : List Nat} (hb : ∀ y ∈ b, 2 ≤ y ∧ y < s.n) (hc : ∀ y ∈ c, 2 ≤ y ∧ y < s.n) :
    In { s with brk := b, cont := c } :=
  ⟨h.two, h.exit, h.target, h.fresh, hb, hc⟩

/-- If every block counts as reached, so does this one. -/
theorem Tr.free {m : Nat} {W : List Nat} {s t : PS} {A B : List Nat} (h : Tr R m W s A t B) (hR : ∀ b, R b) {y : Nat} (hm : m ≤ y) (hlt : y < t.n)
    (hw : y ∈ W ∨ s.n ≤ y) : Tr R m W s A t (y :: B) where
  inn := h.inn
  n := h.n
  two := h.two
  brk := h.brk
  cont := h.cont
  prev := h.prev
  code := h.code
  bnd := by
    intro b hb
    rcases List.mem_cons.1 hb with rfl | hb
    · exact ⟨hm, hlt, hw⟩
    · exact h.bnd b hb
  live := fun cl ha => ⟨fun b _ => hR b, (h.live cl ha).2⟩

/-- The translation of a statement: what becomes current, and what is known if the statement has a `continue` (`c`), a `break`
(`b`), or an end that can be reached (`f`). -/
structure SWalk (R : Nat → Prop) (m : Nat) (W : List Nat) (s : PS) (A : List Nat) (t : PS) (B : List Nat) (bb : Option Nat) (t' : PS) (B' : List Nat)
    (bb' : Option Nat) (c b f : Bool) : Prop where
  tr : Tr R m W s A t' B'
  sub : ∀ b ∈ B, b ∈ B'
  cur : ∀ b ∈ bb', b ∈ B'
  mono : Mono t t'
  n : t.n ≤ t'.n
  conts : c = true → ∀ z ∈ t.cont.head?, (t'.block z).prev ≠ []
  brks : b = true → ∀ z ∈ t.brk.head?, (t'.block z).prev ≠ []
  falls : f = true → bb ≠ none → bb' ≠ none

theorem lowerC_walk {m : Nat} {W : List Nat} {s t : PS} {A B : List Nat} (hm : m ≤ 2) {e : Expr} (hg : e.Plain H) {bb : Option Nat}
    (h : Tr R m W s A t B) (hbb : ∀ b ∈ bb, b ∈ B) {t' : PS} {bb' : Option Nat} {v : Nat} (he : lowerC e t bb = some (t', bb', v)) :
    ∃ B', Walk R m W s A t B bb t' B' bb' := by
  unfold lowerC at he
  split at he
  · cases he
  · exact lowerE_walk hm e hg.1 h hbb he

theorem lowerOpt_walk {m : Nat} {W : List Nat} {s t : PS} {A B : List Nat} (hm : m ≤ 2) {e : Option Expr} (hg : ∀ x, e = some x → x.Plain H)
    {bb : Option Nat} (h : Tr R m W s A t B) (hbb : ∀ b ∈ bb, b ∈ B) {t' : PS} {bb' : Option Nat} (he : lowerOpt e t bb = some (t', bb')) :
    ∃ B', Walk R m W s A t B bb t' B' bb' := by
  unfold lowerOpt at he
  cases e with
  | none =>
    cases he
    exact ⟨B, Walk.refl h hbb⟩
  | some e =>
    obtain ⟨r, e1, e2⟩ := Option.map_eq_some_iff.mp he
    cases e2
    exact lowerE_walk hm e (hg e rfl).1 h hbb e1

theorem lowerForC_walk {m : Nat} {W : List Nat} {s t : PS} {A B : List Nat} (hm : m ≤ 2) {e : Option Expr} (hg : ∀ x, e = some x → x.Plain H)
    {one : Nat} {bb : Option Nat} (h : Tr R m W s A t B) (hbb : ∀ b ∈ bb, b ∈ B) {t' : PS} {bb' : Option Nat} {v : Nat}
    (he : lowerForC e one t bb = some (t', bb', v)) : ∃ B', Walk R m W s A t B bb t' B' bb' := by
  unfold lowerForC at he
  cases e with
  | none =>
    cases he
    exact ⟨B, h.emitO hbb, fun _ h => h, hbb, .inl rfl, fun q a ha => by rw [emitO_block]; exact ha, Nat.le_of_eq (emitO_n t bb _).symm⟩
  | some e => exact lowerC_walk hm (hg e rfl) h hbb he

/-- The increment of a `for` has no control flow. -/
theorem lowerOpt_straight {e : Option Expr} (hg : ∀ x, e = some x → x.straight = true) (t : PS) (bb : Option Nat) :
    ∃ se, lowerOpt e t bb = some ({ t.emit bb (optCode e) with se := se }, bb) := by
  cases e with
  | none =>
    refine ⟨t.se, ?_⟩
    simp only [lowerOpt, optCode]
    cases bb with
    | none => rfl
    | some b =>
      have : upd t.code b (t.code b ++ []) = t.code := by
        funext j
        simp only [upd, List.append_nil]
        split
        · rename_i h; rw [h]
        · rfl
      simp only [PS.emit, this]
  | some e => exact ⟨t.se ++ ses e, by simp only [lowerOpt, optCode, lowerE_straight e (hg e rfl), Option.map_some]⟩

theorem or_sub {P Q : Prop} {p : Prop} (h : P ∨ Q) (f : Q → p) : P ∨ p := h.imp id f

/-- The claim for a statement. -/
def StW (R : Nat → Prop) (st : Stmt) : Prop :=
  ∀ {m : Nat} (_ : m ≤ 2) {W : List Nat} {s : PS} {A : List Nat} {t : PS} {B : List Nat} {bb : Option Nat} (_ : Tr R m W s A t B)
    (_ : ∀ b ∈ bb, b ∈ B) {t' : PS} {bb' : Option Nat} (_ : lowerS st t bb = some (t', bb')),
    ∃ B', SWalk R m W s A t B bb t' B' bb' st.conts st.brks st.falls

theorem ite_walk {c : Expr} {st : Stmt} (hc : c.Plain H) (ih : StW R st) : StW R (.ite c st) := by
  intro m hm W s A t B bb h hbb t' bb' he0
  simp only [lowerS] at he0
  obtain ⟨u, e1, he1⟩ := Option.bind_eq_some_iff.mp he0
  obtain ⟨b, rfl, rfl⟩ := connect_some e1
  obtain ⟨r, e2, he2⟩ := Option.bind_eq_some_iff.mp he1
  obtain ⟨u, e3, he3⟩ := Option.bind_eq_some_iff.mp he2
  obtain ⟨b1, hb1, rfl⟩ := connect_some e3
  obtain ⟨u, e4, he4⟩ := Option.bind_eq_some_iff.mp he3
  obtain ⟨b2, hb2, rfl⟩ := connect_some e4
  obtain ⟨q, e5, he⟩ := Option.map_eq_some_iff.mp he4
  clear he0 he1 he2 he3 he4
  rw [hb1] at hb2
  cases hb2
  have hn := h.n
  have h1 := h.create.link (k := .next) hm (p := b) (q := t.n) (hbb b rfl) h.inn.two (Nat.lt_succ_self _) (.inr hn)
  obtain ⟨B1, g1⟩ := lowerC_walk hm hc h1 (bb := some t.n) (fun x hx => by cases hx; simp) e2
  have hb1B := g1.cur b1 hb1
  have n1 : t.n + 1 ≤ r.1.n := g1.n
  have t2 := h.inn.two
  have h2 := (g1.tr.emitO (p := r.2.1) (is := [branchIns r.2.2]) g1.cur).create.create
  have m2 : Mono t (r.1.emit r.2.1 [branchIns r.2.2]).create.create := fun q a ha => by
    have := g1.mono q a (Mono.link _ _ _ _ _ _ ha)
    simp only [PS.create, emitO_block]
    exact this
  have n2 : (r.1.emit r.2.1 [branchIns r.2.2]).create.create.n = r.1.n + 2 := by simp only [PS.create, emitO_n]
  have n2' : (r.1.emit r.2.1 [branchIns r.2.2]).n = r.1.n := emitO_n ..
  rw [n2'] at e5
  generalize (r.1.emit r.2.1 [branchIns r.2.2]).create.create = u at h2 m2 n2 e5
  have h3 := (h2.link (k := .then_) hm (p := b1) (q := r.1.n) hb1B (by omega) (by omega) (.inr (by omega)))
  have h4 := (h3.link (k := .else_) hm (p := b1) (q := r.1.n + 1) (by simp [hb1B]) (by omega)
    (by show _ < u.n; omega) (.inr (by omega)))
  obtain ⟨B2, g2⟩ := ih hm h4 (bb := some r.1.n) (fun x hx => by cases hx; simp) e5
  have m3 : Mono t q.1 := (m2.trans (Mono.link _ _ _ _)).trans ((Mono.link _ _ _ _).trans g2.mono)
  have n3 : t.n ≤ q.1.n := by
    have : u.n ≤ q.1.n := g2.n
    omega
  have hc3 : ∀ z, z ∈ t.cont.head? → z ∈ ((u.link b1 r.1.n .then_).link b1 (r.1.n + 1) .else_).cont.head? := by
    intro z hz
    rw [h4.cont, ← h.cont]
    exact hz
  have hb3 : ∀ z, z ∈ t.brk.head? → z ∈ ((u.link b1 r.1.n .then_).link b1 (r.1.n + 1) .else_).brk.head? := by
    intro z hz
    rw [h4.brk, ← h.brk]
    exact hz
  have hsub : ∀ x ∈ B, x ∈ B2 := fun x hx => g2.sub x (by simp [g1.sub x (by simp [hx])])
  have hy : r.1.n + 1 ∈ B2 := g2.sub _ (by simp)
  simp only [Stmt.conts, Stmt.brks, Stmt.falls]
  cases hq : q.2 with
  | none =>
    rw [hq] at he
    cases he
    refine ⟨B2, g2.tr, hsub, fun x hx => ?_, m3, n3, fun hc z hz => g2.conts hc z (hc3 z hz), fun hc z hz => g2.brks hc z (hb3 z hz),
      fun _ _ h => by cases h⟩
    rw [n2'] at hx
    cases hx
    exact hy
  | some tb =>
    rw [hq] at he
    cases he
    rw [n2']
    have hq2 : 2 ≤ q.1.n := g2.tr.inn.two
    have h5 := g2.tr.create.link (k := .next) hm (p := tb) (q := q.1.n) (g2.cur tb hq) hq2 (Nat.lt_succ_self _) (.inr g2.tr.n)
    have h6 := h5.link (k := .next) hm (p := r.1.n + 1) (q := q.1.n) (by simp [hy]) hq2 (Nat.lt_succ_self _) (.inr g2.tr.n)
    have m4 : Mono q.1 ((q.1.create.link tb q.1.n .next).link (r.1.n + 1) q.1.n .next) := (Mono.link _ _ _ _).trans (Mono.link _ _ _ _)
    refine ⟨_, h6, fun x hx => by simp [hsub x hx], fun x hx => ?_, m3.trans m4, Nat.le_succ_of_le n3, fun hc z hz => m4.ne (g2.conts hc z (hc3 z hz)),
      fun hc z hz => m4.ne (g2.brks hc z (hb3 z hz)), fun _ _ h => by cases h⟩
    cases hx
    exact List.mem_cons_self ..

/-- The end of `if`-`else`. -/
def joinEnds (s : PS) (tn en : Option Nat) : PS × Option Nat :=
  match tn, en with
  | some a, some b => ((s.create.link a s.n .next).link b s.n .next, some s.n)
  | some a, none => (s, some a)
  | none, en => (s, en)

theorem iteElse_walk {c : Expr} {st se : Stmt} (hc : c.Plain H) (ih : StW R st) (ihe : StW R se) : StW R (.iteElse c st se) := by
  intro m hm W s A t B bb h hbb t' bb' he0
  simp only [lowerS] at he0
  obtain ⟨u, e1, he1⟩ := Option.bind_eq_some_iff.mp he0
  obtain ⟨b, rfl, rfl⟩ := connect_some e1
  obtain ⟨r, e2, he2⟩ := Option.bind_eq_some_iff.mp he1
  obtain ⟨u, e3, he3⟩ := Option.bind_eq_some_iff.mp he2
  obtain ⟨b1, hb1, rfl⟩ := connect_some e3
  obtain ⟨u, e4, he4⟩ := Option.bind_eq_some_iff.mp he3
  obtain ⟨b2, hb2, rfl⟩ := connect_some e4
  obtain ⟨q, e5, he5⟩ := Option.bind_eq_some_iff.mp he4
  obtain ⟨q2, e6, he⟩ := Option.map_eq_some_iff.mp he5
  clear he0 he1 he2 he3 he4 he5
  rw [hb1] at hb2
  cases hb2
  have hn := h.n
  have h1 := h.create.link (k := .next) hm (p := b) (q := t.n) (hbb b rfl) h.inn.two (Nat.lt_succ_self _) (.inr hn)
  obtain ⟨B1, g1⟩ := lowerC_walk hm hc h1 (bb := some t.n) (fun x hx => by cases hx; simp) e2
  have hb1B := g1.cur b1 hb1
  have n1 : t.n + 1 ≤ r.1.n := g1.n
  have t2 := h.inn.two
  have h2 := (g1.tr.emitO (p := r.2.1) (is := [branchIns r.2.2]) g1.cur).create.create
  have m2 : Mono t (r.1.emit r.2.1 [branchIns r.2.2]).create.create := fun q a ha => by
    have := g1.mono q a (Mono.link _ _ _ _ _ _ ha)
    simp only [PS.create, emitO_block]
    exact this
  have n2 : (r.1.emit r.2.1 [branchIns r.2.2]).create.create.n = r.1.n + 2 := by simp only [PS.create, emitO_n]
  have n2' : (r.1.emit r.2.1 [branchIns r.2.2]).n = r.1.n := emitO_n ..
  rw [n2'] at e5
  generalize (r.1.emit r.2.1 [branchIns r.2.2]).create.create = u at h2 m2 n2 e5
  rw [n2'] at e6
  have h3 := (h2.link (k := .then_) hm (p := b1) (q := r.1.n) hb1B (by omega) (by omega) (.inr (by omega)))
  have h4 := (h3.link (k := .else_) hm (p := b1) (q := r.1.n + 1) (by simp [hb1B]) (by omega)
    (by show _ < u.n; omega) (.inr (by omega)))
  obtain ⟨B2, g2⟩ := ih hm h4 (bb := some r.1.n) (fun x hx => by cases hx; simp) e5
  have m3 : Mono t q.1 := (m2.trans (Mono.link _ _ _ _)).trans ((Mono.link _ _ _ _).trans g2.mono)
  have n3 : t.n ≤ q.1.n := by
    have : u.n ≤ q.1.n := g2.n
    omega
  have hc3 : ∀ z, z ∈ t.cont.head? → z ∈ ((u.link b1 r.1.n .then_).link b1 (r.1.n + 1) .else_).cont.head? := by
    intro z hz
    rw [h4.cont, ← h.cont]
    exact hz
  have hb3 : ∀ z, z ∈ t.brk.head? → z ∈ ((u.link b1 r.1.n .then_).link b1 (r.1.n + 1) .else_).brk.head? := by
    intro z hz
    rw [h4.brk, ← h.brk]
    exact hz
  have hsub : ∀ x ∈ B, x ∈ B2 := fun x hx => g2.sub x (by simp [g1.sub x (by simp [hx])])
  have hy : r.1.n + 1 ∈ B2 := g2.sub _ (by simp)
  -- the end of the first branch
  obtain ⟨s5, B3, tn, hs5, h5, hsub5, hcur5, m5, n5, hnone5⟩ : ∃ s5 B3 tn, ((q.2 = none ∧ s5 = q.1 ∧ tn = none) ∨
      ∃ tb, q.2 = some tb ∧ s5 = q.1.create.link tb q.1.n .next ∧ tn = some q.1.n) ∧ Tr R m W s A s5 B3 ∧ (∀ x ∈ B2, x ∈ B3) ∧
        (∀ x ∈ tn, x ∈ B3) ∧ Mono q.1 s5 ∧ q.1.n ≤ s5.n ∧ (q.2 ≠ none → tn ≠ none) := by
    cases hq : q.2 with
    | none => exact ⟨_, B2, none, .inl ⟨rfl, rfl, rfl⟩, g2.tr, fun _ h => h, (fun x hx => by cases hx), .refl _, Nat.le_refl _, fun h => absurd rfl h⟩
    | some tb =>
      refine ⟨_, _, _, .inr ⟨tb, rfl, rfl, rfl⟩, g2.tr.create.link (k := .next) hm (p := tb) (q := q.1.n) (g2.cur tb hq) g2.tr.inn.two (Nat.lt_succ_self _)
        (.inr g2.tr.n), fun x hx => by simp [hx], fun x hx => by cases hx; simp, Mono.link _ _ _ _, Nat.le_succ _, fun _ h => by cases h⟩
  have e6' : lowerS se s5 (some (r.1.n + 1)) = some q2 := by
    rcases hs5 with ⟨h1, h2, h3⟩ | ⟨tb, h1, h2, h3⟩
    · rw [h1] at e6
      rw [h2]
      exact e6
    · rw [h1] at e6
      rw [h2]
      exact e6
  obtain ⟨B4, g4⟩ := ihe hm h5 (bb := some (r.1.n + 1)) (fun x hx => by cases hx; exact hsub5 _ hy) e6'
  obtain ⟨s6, B5, en, hs6, h6, hsub6, hcur6, m6, n6, hnone6⟩ : ∃ s6 B5 en, ((q2.2 = none ∧ s6 = q2.1 ∧ en = none) ∨
      ∃ tb, q2.2 = some tb ∧ s6 = q2.1.create.link tb q2.1.n .next ∧ en = some q2.1.n) ∧ Tr R m W s A s6 B5 ∧ (∀ x ∈ B4, x ∈ B5) ∧
        (∀ x ∈ en, x ∈ B5) ∧ Mono q2.1 s6 ∧ q2.1.n ≤ s6.n ∧ (q2.2 ≠ none → en ≠ none) := by
    cases hq : q2.2 with
    | none => exact ⟨_, B4, none, .inl ⟨rfl, rfl, rfl⟩, g4.tr, fun _ h => h, (fun x hx => by cases hx), .refl _, Nat.le_refl _, fun h => absurd rfl h⟩
    | some tb =>
      refine ⟨_, _, _, .inr ⟨tb, rfl, rfl, rfl⟩, g4.tr.create.link (k := .next) hm (p := tb) (q := q2.1.n) (g4.cur tb hq) g4.tr.inn.two (Nat.lt_succ_self _)
        (.inr g4.tr.n), fun x hx => by simp [hx], fun x hx => by cases hx; simp, Mono.link _ _ _ _, Nat.le_succ _, fun _ h => by cases h⟩
  have he' : joinEnds s6 tn en = (t', bb') := by
    rcases hs5 with ⟨h1, h2, h3⟩ | ⟨tb, h1, h2, h3⟩ <;> rcases hs6 with ⟨k1, k2, k3⟩ | ⟨eb, k1, k2, k3⟩ <;>
      (rw [h1, k1] at he; rw [h3, k3, k2]; exact he)
  have m46 : Mono q.1 s6 := (m5.trans g4.mono).trans m6
  have n46 : q.1.n ≤ s6.n := by have := g4.n; omega
  have cts : (Stmt.iteElse c st se).conts = true → ∀ z ∈ t.cont.head?, (s6.block z).prev ≠ [] := by
    intro hc z hz
    simp only [Stmt.conts, Bool.or_eq_true] at hc
    rcases hc with hc | hc
    · exact m46.ne (g2.conts hc z (hc3 z hz))
    · refine m6.ne (g4.conts hc z ?_)
      rw [h5.cont, ← h.cont]
      exact hz
  have bks : (Stmt.iteElse c st se).brks = true → ∀ z ∈ t.brk.head?, (s6.block z).prev ≠ [] := by
    intro hc z hz
    simp only [Stmt.brks, Bool.or_eq_true] at hc
    rcases hc with hc | hc
    · exact m46.ne (g2.brks hc z (hb3 z hz))
    · refine m6.ne (g4.brks hc z ?_)
      rw [h5.brk, ← h.brk]
      exact hz
  have fls : (Stmt.iteElse c st se).falls = true → tn ≠ none ∨ en ≠ none := by
    intro hf
    simp only [Stmt.falls, Bool.or_eq_true] at hf
    rcases hf with hf | hf
    · exact .inl (hnone5 (g2.falls hf (by simp)))
    · exact .inr (hnone6 (g4.falls hf (by simp)))
  have hsb : ∀ x ∈ B, x ∈ B5 := fun x hx => hsub6 x (g4.sub x (hsub5 x (hsub x hx)))
  have htb : ∀ x ∈ tn, x ∈ B5 := fun x hx => hsub6 x (g4.sub x (hcur5 x hx))
  clear hs5 hs6 e1 e2 e3 e4 e5 e6 he
  cases tn with
  | none =>
    cases he'
    exact ⟨B5, h6, hsb, hcur6, m3.trans m46, Nat.le_trans n3 n46, cts, bks, fun hf _ => (fls hf).resolve_left (fun h => h rfl)⟩
  | some a =>
    cases en with
    | none =>
      cases he'
      exact ⟨B5, h6, hsb, htb, m3.trans m46, Nat.le_trans n3 n46, cts, bks, fun _ _ h => by cases h⟩
    | some bq =>
      cases he'
      have h7 := h6.create.link (k := .next) hm (p := a) (q := s6.n) (htb a rfl) h6.inn.two (Nat.lt_succ_self _) (.inr h6.n)
      have h8 := h7.link (k := .next) hm (p := bq) (q := s6.n) (by simp [hcur6 bq rfl]) h6.inn.two (Nat.lt_succ_self _) (.inr h6.n)
      have m8 : Mono s6 ((s6.create.link a s6.n .next).link bq s6.n .next) := (Mono.link _ _ _ _).trans (Mono.link _ _ _ _)
      refine ⟨_, h8, fun x hx => by simp [hsb x hx], fun x hx => ?_, (m3.trans m46).trans m8, Nat.le_succ_of_le (Nat.le_trans n3 n46),
        fun hc z hz => m8.ne (cts hc z hz), fun hc z hz => m8.ne (bks hc z hz), fun _ _ h => by cases h⟩
      cases hx
      exact List.mem_cons_self ..

theorem while_walk {c : Expr} {st : Stmt} (hc : c.Plain H) (ih : StW R st) : StW R (.while_ c st) := by
  intro m hm W s A t B bb h hbb t' bb' he0
  simp only [lowerS] at he0
  obtain ⟨u, e1, he1⟩ := Option.bind_eq_some_iff.mp he0
  obtain ⟨b, rfl, rfl⟩ := connect_some e1
  obtain ⟨r, e2, he2⟩ := Option.bind_eq_some_iff.mp he1
  obtain ⟨u, e3, he3⟩ := Option.bind_eq_some_iff.mp he2
  obtain ⟨b1, hb1, rfl⟩ := connect_some e3
  obtain ⟨u, e4, he4⟩ := Option.bind_eq_some_iff.mp he3
  obtain ⟨b2, hb2, rfl⟩ := connect_some e4
  obtain ⟨q, e5, he⟩ := Option.map_eq_some_iff.mp he4
  clear he0 he1 he2 he3 he4
  rw [hb1] at hb2
  cases hb2
  have hn := h.n
  have t2 := h.inn.two
  have h1 := (h.create.link (k := .next) hm (p := b) (q := t.n) (hbb b rfl) h.inn.two (Nat.lt_succ_self _) (.inr hn)).create
  have m1 : Mono t (t.create.link b t.n .next).create := Mono.link _ _ _ _
  have n1 : (t.create.link b t.n .next).create.n = t.n + 2 := rfl
  obtain ⟨v, hv⟩ : ∃ v, v = (t.create.link b t.n .next).create := ⟨_, rfl⟩
  rw [← hv] at h1 m1 n1
  have e2' : lowerC c { v with brk := v.brk, cont := t.n :: v.cont } (some t.n) = some r := by
    rw [hv]
    exact e2
  clear e1 e2
  have i1 : In { v with brk := v.brk, cont := t.n :: v.cont } := h1.inn.setBC h1.inn.brk (by
    intro y hy
    rcases List.mem_cons.1 hy with rfl | hy
    · exact ⟨t2, by omega⟩
    · exact h1.inn.cont y hy)
  have k0 : Tr R 2 [t.n] { v with brk := v.brk, cont := t.n :: v.cont } [t.n] { v with brk := v.brk, cont := t.n :: v.cont } [t.n] :=
    Tr.refl i1 (fun x hx => by
      simp only [List.mem_singleton] at hx
      subst hx
      exact ⟨t2, by show t.n < v.n; omega, .inl (by simp)⟩)
  obtain ⟨B1, g1⟩ := lowerC_walk (Nat.le_refl 2) hc k0 (bb := some t.n) (fun x hx => by cases hx; simp) e2'
  have hb1B := g1.cur b1 hb1
  have n2 : v.n ≤ r.1.n := g1.n
  have k2 := (g1.tr.emitO (p := r.2.1) (is := [branchIns r.2.2]) g1.cur).create.create
  have m2 : Mono v (r.1.emit r.2.1 [branchIns r.2.2]).create.create := fun q a ha => by
    have := g1.mono q a ha
    simp only [PS.create, emitO_block]
    exact this
  have n3 : (r.1.emit r.2.1 [branchIns r.2.2]).create.create.n = r.1.n + 2 := by simp only [PS.create, emitO_n]
  have n2' : (r.1.emit r.2.1 [branchIns r.2.2]).n = r.1.n := emitO_n ..
  rw [n2'] at e5 he
  generalize (r.1.emit r.2.1 [branchIns r.2.2]).create.create = u at k2 m2 n3 e5
  have k3 := (k2.link (k := .then_) (Nat.le_refl 2) (p := b1) (q := r.1.n) hb1B (by omega) (by omega) (.inr (by show v.n ≤ _; omega)))
  have k4 := (k3.link (k := .else_) (Nat.le_refl 2) (p := b1) (q := r.1.n + 1) (by simp [hb1B]) (by omega)
    (by show _ < u.n; omega) (.inr (by show v.n ≤ _; omega)))
  have m4 : Mono v ((u.link b1 r.1.n .then_).link b1 (r.1.n + 1) .else_) := (m2.trans (Mono.link _ _ _ _)).trans (Mono.link _ _ _ _)
  have n4 : ((u.link b1 r.1.n .then_).link b1 (r.1.n + 1) .else_).n = r.1.n + 2 := n3
  generalize (u.link b1 r.1.n .then_).link b1 (r.1.n + 1) .else_ = w at k4 m4 n4 e5
  have e5' : lowerS st { w with brk := (r.1.n + 1) :: w.brk, cont := w.cont } (some r.1.n) = some q := e5
  have i2 : In { w with brk := (r.1.n + 1) :: w.brk, cont := w.cont } := k4.inn.setBC (by
    intro y hy
    rcases List.mem_cons.1 hy with rfl | hy
    · exact ⟨by omega, by omega⟩
    · exact k4.inn.brk y hy) k4.inn.cont
  have l0 : Tr R 2 [r.1.n] { w with brk := (r.1.n + 1) :: w.brk, cont := w.cont } [r.1.n] { w with brk := (r.1.n + 1) :: w.brk, cont := w.cont } [r.1.n] :=
    Tr.refl i2 (fun x hx => by
      simp only [List.mem_singleton] at hx
      subst hx
      exact ⟨by omega, by show r.1.n < w.n; omega, .inl (by simp)⟩)
  obtain ⟨B2, g2⟩ := ih (Nat.le_refl 2) l0 (bb := some r.1.n) (fun x hx => by cases hx; simp) e5'
  have nq : w.n ≤ q.1.n := g2.n
  -- the way back
  obtain ⟨s5, hs5, l5, m5⟩ : ∃ s5, ((q.2 = none ∧ s5 = q.1) ∨ ∃ z, q.2 = some z ∧ s5 = q.1.link z t.n .next) ∧
      Tr R 2 [r.1.n] { w with brk := (r.1.n + 1) :: w.brk, cont := w.cont } [r.1.n] s5 B2 ∧ Mono q.1 s5 := by
    cases hq : q.2 with
    | none => exact ⟨_, .inl ⟨rfl, rfl⟩, g2.tr, .refl _⟩
    | some z => exact ⟨_, .inr ⟨z, rfl, rfl⟩, g2.tr.jump (g2.cur z hq) ⟨by omega, .inl t2⟩, Mono.link _ _ _ _⟩
  have he' : ({ s5 with brk := s5.brk.tail, cont := s5.cont.tail }, some (r.1.n + 1)) = (t', bb') := by
    rcases hs5 with ⟨h1, h2⟩ | ⟨z, h1, h2⟩ <;> (rw [h1] at he; rw [h2]; exact he)
  clear he
  cases he'
  have x1 := k4.sub (Nat.le_refl 2) (Nat.le_refl 2) l5 (b' := w.brk) (c' := w.cont) (fun a ha => by
    simp only [List.mem_singleton] at ha
    subst ha
    simp) (fun a ha => by
    simp only [List.mem_singleton] at ha
    subst ha
    exact .inr (by show v.n ≤ _; omega)) rfl rfl
  have x2 := h1.sub hm (Nat.le_refl 2) x1 (b' := s5.brk.tail) (c' := s5.cont.tail) (fun a ha => by
    simp only [List.mem_singleton] at ha
    subst ha
    simp) (fun a ha => by
    simp only [List.mem_singleton] at ha
    subst ha
    exact .inr hn) (by rw [l5.brk]; exact k4.brk) (by rw [l5.cont]; show w.cont.tail = _; rw [k4.cont]; rfl)
  refine ⟨_, x2, fun x hx => by simp [hx], fun x hx => ?_, ?_, ?_, by simp [Stmt.conts], by simp [Stmt.brks], fun _ _ h => by cases h⟩
  · cases hx
    simp
  · exact fun q' a ha => m5 q' a (g2.mono q' a (m4 q' a (m1 q' a ha)))
  · have : w.n ≤ s5.n := l5.n
    show t.n ≤ s5.n
    omega

theorem do_walk {c : Expr} {st : Stmt} (hc : c.Plain H) (fl : (∀ b, R b) ∨ (st.falls = true ∨ st.conts = true)) (ih : StW R st) :
    StW R (.doWhile st c) := by
  intro m hm W s A t B bb h hbb t' bb' he0
  simp only [lowerS] at he0
  obtain ⟨u, e1, he1⟩ := Option.bind_eq_some_iff.mp he0
  obtain ⟨b, rfl, rfl⟩ := connect_some e1
  obtain ⟨q, e2, he2⟩ := Option.bind_eq_some_iff.mp he1
  obtain ⟨r, e3, he⟩ := Option.map_eq_some_iff.mp he2
  clear he0 he1 he2
  have hn := h.n
  have t2 := h.inn.two
  have h1 := (h.create.link (k := .next) hm (p := b) (q := t.n) (hbb b rfl) h.inn.two (Nat.lt_succ_self _) (.inr hn)).create.create
  have m1 : Mono t (t.create.link b t.n .next).create.create := Mono.link _ _ _ _
  have n1 : (t.create.link b t.n .next).create.create.n = t.n + 3 := rfl
  have n1' : (t.create.link b t.n .next).n = t.n + 1 := rfl
  rw [n1'] at e2 e3 he
  obtain ⟨v, hv⟩ : ∃ v, v = (t.create.link b t.n .next).create.create := ⟨_, rfl⟩
  rw [← hv] at h1 m1 n1
  have px : (v.block (t.n + 1)).prev = [] := by
    rw [hv]
    simp only [PS.create, prev_link]
    rw [if_neg (by omega)]
    exact (h.inn.fresh _ (by omega)).1
  have e2' : lowerS st { v with brk := (t.n + 2) :: v.brk, cont := (t.n + 1) :: v.cont } (some t.n) = some q := by
    rw [hv]
    exact e2
  clear e1 e2
  have i1 : In { v with brk := (t.n + 2) :: v.brk, cont := (t.n + 1) :: v.cont } := h1.inn.setBC (by
    intro y hy
    rcases List.mem_cons.1 hy with rfl | hy
    · exact ⟨by omega, by omega⟩
    · exact h1.inn.brk y hy) (by
    intro y hy
    rcases List.mem_cons.1 hy with rfl | hy
    · exact ⟨by omega, by omega⟩
    · exact h1.inn.cont y hy)
  obtain ⟨v', hv'⟩ : ∃ v', v' = { v with brk := (t.n + 2) :: v.brk, cont := (t.n + 1) :: v.cont } := ⟨_, rfl⟩
  have nv' : v'.n = t.n + 3 := by rw [hv']; exact n1
  have px' : (v'.block (t.n + 1)).prev = [] := by rw [hv']; exact px
  have hct : v'.cont.head? = some (t.n + 1) := by rw [hv']; rfl
  have hbk : v'.brk = (t.n + 2) :: v.brk := by rw [hv']
  have hck : v'.cont = (t.n + 1) :: v.cont := by rw [hv']
  have m1' : Mono t v' := by rw [hv']; exact m1
  rw [← hv'] at i1 e2'
  have k0 : Tr R 2 [t.n, t.n + 1, t.n + 2] v' [t.n] v' [t.n] := Tr.refl i1 (fun x hx => by
      simp only [List.mem_singleton] at hx
      subst hx
      exact ⟨t2, by omega, .inl (by simp)⟩)
  obtain ⟨B1, g1⟩ := ih (Nat.le_refl 2) k0 (bb := some t.n) (fun x hx => by cases hx; simp) e2'
  have nq := g1.n
  obtain ⟨s2, B2, hs2, k2, hx2, hsub2, m2, n2, hp2⟩ : ∃ s2 B2, ((q.2 = none ∧ s2 = q.1) ∨ ∃ z, q.2 = some z ∧ s2 = q.1.link z (t.n + 1) .next) ∧
      Tr R 2 [t.n, t.n + 1, t.n + 2] v' [t.n] s2 B2 ∧ t.n + 1 ∈ B2 ∧ (∀ x ∈ B1, x ∈ B2) ∧ Mono q.1 s2 ∧ q.1.n = s2.n ∧
      ((∀ b, R b) ∨ (s2.block (t.n + 1)).prev ≠ []) := by
    cases hq : q.2 with
    | some z =>
      exact ⟨_, _, .inr ⟨z, rfl, rfl⟩, g1.tr.link (k := .next) (Nat.le_refl 2) (p := z) (q := t.n + 1) (g1.cur z hq) (by omega) (by omega)
        (.inl (by simp)), by simp, fun x hx => by simp [hx], Mono.link _ _ _ _, rfl, .inr (link_ne _ _ _ _)⟩
    | none =>
      rcases fl with fl | fl | fl
      · exact ⟨_, _, .inl ⟨rfl, rfl⟩, g1.tr.free fl (y := t.n + 1) (by omega) (by omega) (.inl (by simp)), by simp, fun x hx => by simp [hx],
          .refl _, rfl, .inl fl⟩
      · exact absurd hq (g1.falls fl (by simp))
      · have hne : (q.1.block (t.n + 1)).prev ≠ [] := g1.conts fl (t.n + 1) (by rw [hct]; rfl)
        exact ⟨_, _, .inl ⟨rfl, rfl⟩, g1.tr.reached px' hne (by omega) (by omega) (.inl (by simp)), by simp, fun x hx => by simp [hx],
          .refl _, rfl, .inr hne⟩
  have e3' : lowerC c s2 (some (t.n + 1)) = some r := by
    rcases hs2 with ⟨h1, h2⟩ | ⟨z, h1, h2⟩ <;> (rw [h1] at e3; rw [h2]; exact e3)
  clear e3 hs2
  obtain ⟨B3, g3⟩ := lowerC_walk (Nat.le_refl 2) hc k2 (bb := some (t.n + 1)) (fun x hx => by cases hx; exact hx2) e3'
  have n3 := g3.n
  have k3 := g3.tr.emitO (p := r.2.1) (is := [branchIns r.2.2]) g3.cur
  have kb : (r.1.emit r.2.1 [branchIns r.2.2]).block = r.1.block := emitO_block ..
  have kn : (r.1.emit r.2.1 [branchIns r.2.2]).n = r.1.n := emitO_n ..
  obtain ⟨w, hw⟩ : ∃ w, w = r.1.emit r.2.1 [branchIns r.2.2] := ⟨_, rfl⟩
  rw [← hw] at k3 kb kn he
  obtain ⟨z, hz⟩ : ∃ z, r.2.1 = some z := by
    rcases g3.ent with e | ⟨z, e, _⟩
    · exact ⟨_, e⟩
    · exact ⟨z, e⟩
  have hzB := g3.cur z hz
  have m3 : Mono v' w := fun q' a ha => by
    rw [kb]
    exact g3.mono q' a (m2 q' a (g1.mono q' a ha))
  obtain ⟨s5, B5, hs5, k5, hy5, m5, n5⟩ : ∃ s5 B5, ({ s5 with brk := s5.brk.tail, cont := s5.cont.tail }, some (t.n + 2)) = (t', bb') ∧
      Tr R 2 [t.n, t.n + 1, t.n + 2] v' [t.n] s5 B5 ∧ t.n + 2 ∈ B5 ∧ Mono w s5 ∧ s5.n = w.n := by
    rw [hz] at he
    dsimp only at he
    by_cases hp : (w.block z).prev = []
    · rw [if_pos hp] at he
      rcases hp2 with hp2 | hp2
      · exact ⟨w, _, he, k3.free hp2 (y := t.n + 2) (by omega) (by omega) (.inl (by simp)), by simp, .refl _, rfl⟩
      · exfalso
        rw [kb] at hp
        rcases g3.ent with e | ⟨z', e, hne⟩
        · rw [hz] at e
          cases e
          exact g3.mono.ne hp2 hp
        · rw [hz] at e
          cases e
          exact hne hp
    · rw [if_neg hp] at he
      refine ⟨_, _, he, (k3.link (k := .then_) (Nat.le_refl 2) (p := z) (q := t.n) hzB t2 (by omega) (.inl (by simp))).link (k := .else_)
        (Nat.le_refl 2) (p := z) (q := t.n + 2) (by simp [hzB]) (by omega) (by show _ < w.n; omega) (.inl (by simp)), by simp,
        (Mono.link _ _ _ _).trans (Mono.link _ _ _ _), rfl⟩
  clear he
  cases hs5
  rw [hv'] at k5
  have x2 := h1.sub hm (Nat.le_refl 2) k5 (b' := s5.brk.tail) (c' := s5.cont.tail) (fun a ha => by
    simp only [List.mem_singleton] at ha
    subst ha
    simp) (fun a ha => by
    simp only [List.mem_cons, List.not_mem_nil, or_false] at ha
    exact .inr (by rcases ha with rfl | rfl | rfl <;> omega)) (by rw [k5.brk]; rfl) (by rw [k5.cont]; rfl)
  refine ⟨_, x2, fun x hx => by simp [hx], fun x hx => ?_, ?_, ?_, by simp [Stmt.conts], by simp [Stmt.brks], fun _ _ h => by cases h⟩
  · cases hx
    simp [hy5]
  · exact fun q' a ha => m5 q' a (m3 q' a (m1' q' a ha))
  · show t.n ≤ s5.n
    omega

theorem for_walk {init : Option Expr} {c : Option Expr} {one : Nat} {inc : Option Expr} {st : Stmt} (hi : ∀ e, init = some e → e.Plain H)
    (hc : ∀ e, c = some e → e.Plain H) (hj : ∀ e, inc = some e → e.straight = true)
    (fl : (∀ b, R b) ∨ (optCode inc = [] ∨ st.falls = true ∨ st.conts = true)) (ih : StW R st) : StW R (.for_ init c one inc st) := by
  intro m hm W s A t B bb h hbb t' bb' he0
  simp only [lowerS] at he0
  obtain ⟨u, e1, he1⟩ := Option.bind_eq_some_iff.mp he0
  obtain ⟨b, rfl, rfl⟩ := connect_some e1
  obtain ⟨ri, e2, he2⟩ := Option.bind_eq_some_iff.mp he1
  obtain ⟨u, e3, he3⟩ := Option.bind_eq_some_iff.mp he2
  obtain ⟨b1, hb1, rfl⟩ := connect_some e3
  obtain ⟨r, e4, he4⟩ := Option.bind_eq_some_iff.mp he3
  obtain ⟨u, e5, he5⟩ := Option.bind_eq_some_iff.mp he4
  obtain ⟨b2, hb2, rfl⟩ := connect_some e5
  obtain ⟨rz, e6, he6⟩ := Option.bind_eq_some_iff.mp he5
  obtain ⟨u, e7, he7⟩ := Option.bind_eq_some_iff.mp he6
  obtain ⟨b3, hb3, rfl⟩ := connect_some e7
  obtain ⟨q, e8, he8⟩ := Option.bind_eq_some_iff.mp he7
  obtain ⟨s9, e9, he⟩ := Option.map_eq_some_iff.mp he8
  clear he0 he1 he2 he3 he4 he5 he6 he7 he8
  rw [hb2] at hb3
  cases hb3
  have hn := h.n
  have t2 := h.inn.two
  -- up to the condition
  have h1 := h.create.link (k := .next) hm (p := b) (q := t.n) (hbb b rfl) h.inn.two (Nat.lt_succ_self _) (.inr hn)
  obtain ⟨B1, g1⟩ := lowerOpt_walk hm hi h1 (bb := some t.n) (fun x hx => by cases hx; simp) e2
  have n1 : t.n + 1 ≤ ri.1.n := g1.n
  have h2 := g1.tr.create.create.link (k := .next) hm (p := b1) (q := ri.1.n) (g1.cur b1 hb1) g1.tr.inn.two
    (by simp only [PS.create]; omega) (.inr g1.tr.n)
  obtain ⟨B2, g2⟩ := lowerForC_walk hm hc h2 (bb := some ri.1.n) (fun x hx => by cases hx; simp) e4
  have n2 : ri.1.n + 2 ≤ r.1.n := g2.n
  have hb2B := g2.cur b2 hb2
  have hb2' : 2 ≤ b2 := by
    obtain ⟨_, g⟩ := lowerForC_walk (R := R) (Nat.le_refl 2) hc (Tr.refl (W := [ri.1.n]) (A := [ri.1.n]) h2.inn (fun x hx => by
      simp only [List.mem_singleton] at hx
      subst hx
      exact ⟨g1.tr.inn.two, by show _ < ri.1.n + 2; omega, .inl (by simp)⟩)) (bb := some ri.1.n) (fun x hx => by cases hx; simp) e4
    exact (g.tr.bnd b2 (g.cur b2 hb2)).1
  have h3 := g2.tr.link (k := .else_) hm (p := b2) (q := ri.1.n + 1) hb2B (by omega) (by omega) (.inr (by have := g1.tr.n; omega))
  have h4 := (h3.emitO (p := r.2.1) (is := [branchIns r.2.2]) (fun x hx => by simp [g2.cur x hx])).create
  have m4 : Mono t ((r.1.link b2 (ri.1.n + 1) .else_).emit r.2.1 [branchIns r.2.2]).create := fun q' a ha => by
    have := Mono.link _ b2 (ri.1.n + 1) .else_ _ _ (g2.mono q' a (Mono.link _ _ _ _ _ _ (g1.mono q' a (Mono.link _ _ _ _ _ _ ha))))
    simp only [PS.create, emitO_block]
    exact this
  have n4 : ((r.1.link b2 (ri.1.n + 1) .else_).emit r.2.1 [branchIns r.2.2]).create.n = r.1.n + 1 := by simp only [PS.create, emitO_n, PS.link]
  have n4' : ((r.1.link b2 (ri.1.n + 1) .else_).emit r.2.1 [branchIns r.2.2]).n = r.1.n := by simp only [emitO_n, PS.link]
  have p4 : (((r.1.link b2 (ri.1.n + 1) .else_).emit r.2.1 [branchIns r.2.2]).create.block r.1.n).prev = [] ∧
      ((r.1.link b2 (ri.1.n + 1) .else_).emit r.2.1 [branchIns r.2.2]).create.code r.1.n = [] := by
    have h3' := h3.emitO (p := r.2.1) (is := [branchIns r.2.2]) (fun x hx => by simp [g2.cur x hx])
    exact h3'.inn.fresh r.1.n (Nat.le_of_eq n4')
  obtain ⟨v, hv⟩ : ∃ v, v = ((r.1.link b2 (ri.1.n + 1) .else_).emit r.2.1 [branchIns r.2.2]).create := ⟨_, rfl⟩
  rw [← hv] at h4 m4 n4 p4
  rw [n4'] at e6 e9
  have e6' : lowerOpt inc { v with brk := (ri.1.n + 1) :: v.brk, cont := r.1.n :: v.cont } (some r.1.n) = some rz := by
    rw [hv]
    exact e6
  clear e1 e2 e3 e4 e5 e6 e7
  have i1 : In { v with brk := (ri.1.n + 1) :: v.brk, cont := r.1.n :: v.cont } := h4.inn.setBC (by
    intro y hy
    rcases List.mem_cons.1 hy with rfl | hy
    · exact ⟨by omega, by omega⟩
    · exact h4.inn.brk y hy) (by
    intro y hy
    rcases List.mem_cons.1 hy with rfl | hy
    · exact ⟨by omega, by omega⟩
    · exact h4.inn.cont y hy)
  obtain ⟨v', hv'⟩ : ∃ v', v' = { v with brk := (ri.1.n + 1) :: v.brk, cont := r.1.n :: v.cont } := ⟨_, rfl⟩
  have nv' : v'.n = r.1.n + 1 := by rw [hv']; exact n4
  have pv' : (v'.block r.1.n).prev = [] ∧ v'.code r.1.n = [] := by rw [hv']; exact p4
  have hct : v'.cont.head? = some r.1.n := by rw [hv']; rfl
  have m1' : Mono t v' := by rw [hv']; exact m4
  rw [← hv'] at i1 e6'
  have hb2n : 2 ≤ b2 ∧ b2 < r.1.n := by
    exact ⟨hb2', (g2.tr.bnd b2 hb2B).2.1⟩
  have k0 : Tr R 2 [b2, r.1.n] v' [b2] v' [b2] := Tr.refl i1 (fun x hx => by
      simp only [List.mem_singleton] at hx
      subst hx
      exact ⟨hb2n.1, by omega, .inl (by simp)⟩)
  -- the increment
  obtain ⟨se, hse⟩ := lowerOpt_straight hj v' (some r.1.n)
  rw [hse] at e6'
  cases e6'
  have k1 := ((k0.emit (p := r.1.n) (is := optCode inc) (by omega) (.inl (by simp))).se se).create
  obtain ⟨x, hx⟩ : ∃ x, x = { v'.emit (some r.1.n) (optCode inc) with se := se } := ⟨_, rfl⟩
  have nx : x.n = r.1.n + 1 := by rw [hx]; exact nv'
  have bx : x.block = v'.block := by rw [hx]; rfl
  have cx : x.code r.1.n = optCode inc := by rw [hx]; simp only [PS.emit, upd_self, pv'.2, List.nil_append]
  rw [← hx] at k1 e8
  have k2 := k1.link (k := .then_) (Nat.le_refl 2) (p := b2) (q := x.n) (by simp) (by omega) (Nat.lt_succ_self _) (.inr (by omega))
  -- the body, on its own
  have e8' : lowerS st (x.create.link b2 x.n .then_) (some x.n) = some q := e8
  obtain ⟨w, hw⟩ : ∃ w, w = x.create.link b2 x.n .then_ := ⟨_, rfl⟩
  have nw : w.n = r.1.n + 2 := by rw [hw]; show x.n + 1 = _; omega
  have pw : (w.block r.1.n).prev = [] := by
    rw [hw, prev_link, if_neg (by omega)]
    show (x.block r.1.n).prev = []
    rw [bx]
    exact pv'.1
  have cw : w.code r.1.n = optCode inc := by rw [hw]; exact cx
  have hcw : w.cont.head? = some r.1.n := by
    have := k2.cont
    rw [← hw] at this
    rw [this]
    exact hct
  have mw : Mono v' w := by
    rw [hw]
    intro q' a ha
    refine Mono.link _ _ _ _ _ _ ?_
    show a ∈ (x.block q').prev
    rw [bx]
    exact ha
  rw [← hw] at k2 e8'
  have l0 : Tr R 2 [x.n] w [x.n] w [x.n] := Tr.refl k2.inn (fun y hy => by
      simp only [List.mem_singleton] at hy
      subst hy
      exact ⟨by omega, by omega, .inl (by simp)⟩)
  obtain ⟨B3, g3⟩ := ih (Nat.le_refl 2) l0 (bb := some x.n) (fun y hy => by cases hy; simp) e8'
  have nq := g3.n
  have cq : q.1.code r.1.n = optCode inc := (g3.tr.code r.1.n (by omega) (by simp; omega)).trans cw
  have k3 := k2.call (Nat.le_refl 2) (Nat.le_refl 2) g3.tr (fun a ha => by
    simp only [List.mem_singleton] at ha
    subst ha
    simp) (fun a ha => by
    simp only [List.mem_singleton] at ha
    subst ha
    exact .inr (by omega))
  -- the way back
  obtain ⟨B9, k9, m9, n9⟩ : ∃ B9, Tr R 2 [b2, r.1.n] v' [b2] s9 B9 ∧ Mono q.1 s9 ∧ s9.n = q.1.n := by
    have back : ∀ {B' : List Nat} {s8 : PS}, Tr R 2 [b2, r.1.n] v' [b2] s8 B' → r.1.n ∈ B' → s8.n = q.1.n → Mono q.1 s8 →
        s8.link r.1.n ri.1.n .next = s9 → ∃ B9, Tr R 2 [b2, r.1.n] v' [b2] s9 B9 ∧ Mono q.1 s9 ∧ s9.n = q.1.n := by
      intro B' s8 hk hz hns hms e
      cases e
      exact ⟨_, hk.jump hz ⟨by omega, .inl (by omega)⟩, hms.trans (Mono.link _ _ _ _), hns⟩
    cases hq : q.2 with
    | some z =>
      rw [hq] at e9
      simp only [Option.getD_some, PS.connect, Option.map_some, Option.some.injEq] at e9
      refine back (k3.link (k := .next) (Nat.le_refl 2) (p := z) (q := r.1.n) (by simp [g3.cur z hq]) (by omega) (by omega)
        (.inl (by simp))) (by simp) rfl (Mono.link _ _ _ _) e9
    | none =>
      rw [hq] at e9
      simp only [Option.getD_some, PS.connect, Option.map_some] at e9
      by_cases hcz : q.1.code r.1.n = []
      · rw [if_pos hcz] at e9
        cases e9
        exact ⟨_, k3, .refl _, rfl⟩
      · rw [if_neg hcz] at e9
        have e9' := Option.some.inj e9
        rcases fl with fl | fl | fl | fl
        · exact back (k3.free fl (y := r.1.n) (by omega) (by omega) (.inl (by simp))) (by simp) rfl (.refl _) e9'
        · exact absurd (cq.trans fl) hcz
        · exact absurd hq (g3.falls fl (by simp))
        · have hne : (q.1.block r.1.n).prev ≠ [] := g3.conts fl r.1.n (by rw [hcw]; rfl)
          exact back (k3.reached pv'.1 hne (by omega) (by omega) (.inl (by simp))) (by simp) rfl (.refl _) e9'
  cases he
  rw [hv'] at k9
  have x2 := h4.sub hm (Nat.le_refl 2) k9 (b' := s9.brk.tail) (c' := s9.cont.tail) (fun a ha => by
    simp only [List.mem_singleton] at ha
    subst ha
    simp [hb2B]) (fun a ha => by
    simp only [List.mem_cons, List.not_mem_nil, or_false] at ha
    rcases ha with rfl | rfl
    · exact (g2.tr.bnd _ hb2B).2.2
    · exact .inr (by omega)) (by rw [k9.brk]; rfl) (by rw [k9.cont]; rfl)
  refine ⟨_, x2, fun y hy => ?_, fun y hy => ?_, ?_, ?_, by simp [Stmt.conts], by simp [Stmt.brks], fun _ _ h => by cases h⟩
  · have := g2.sub y (by simp [g1.sub y (by simp [hy])])
    simp [this]
  · cases hy
    simp
  · exact fun q' a ha => m9 q' a (g3.mono q' a (mw q' a (m1' q' a ha)))
  · show t.n ≤ s9.n
    omega

/-- The claim for the groups of a `switch`: `y` is the block after it. -/
structure CWalk (R : Nat → Prop) (W : List Nat) (s : PS) (A : List Nat) (t : PS) (B : List Nat) (y : Nat) (t' : PS) (B' : List Nat)
    (tb' : Option Nat) (c b f : Bool) : Prop where
  tr : Tr R 2 W s A t' B'
  sub : ∀ b ∈ B, b ∈ B'
  cur : ∀ b ∈ tb', b ∈ B'
  mono : Mono t t'
  n : t.n ≤ t'.n
  conts : c = true → ∀ z ∈ t.cont.head?, (t'.block z).prev ≠ []
  brks : b = true → ∀ z ∈ t.brk.head?, (t'.block z).prev ≠ []
  falls : f = true → tb' ≠ none ∨ (t'.block y).prev ≠ []

/-- The claim for the statements of a group. -/
def BoW (R : Nat → Prop) (ss : Stmts) : Prop :=
  ∀ {m : Nat} (_ : m ≤ 2) {W : List Nat} {s : PS} {A : List Nat} {t : PS} {B : List Nat} {bb : Option Nat} (_ : Tr R m W s A t B)
    (_ : ∀ b ∈ bb, b ∈ B) {t' : PS} {bb' : Option Nat} (_ : lowerBody ss t bb = some (t', bb')),
    ∃ B', SWalk R m W s A t B bb t' B' bb' ss.conts ss.brks ss.falls

/-- The claim for the groups. -/
def CaW (R : Nat → Prop) (cs : Cases) : Prop :=
  ∀ {W : List Nat} {s : PS} {A : List Nat} {t : PS} {B : List Nat} {v y b : Nat} {tb : Option Nat} (_ : Tr R 2 W s A t B) (_ : b ∈ B)
    (_ : ∀ q ∈ tb, Ready2 W s t q) (_ : 2 ≤ y ∧ y < t.n) {t' : PS} {tb' : Option Nat}
    (_ : lowerCases cs v y t b tb = some (t', tb')),
    cs ≠ .nil → ∃ B', CWalk R W s A t B y t' B' tb' cs.conts cs.brks cs.falls

/-- The block for the next group. -/
def nextBody (s : PS) (tb : Option Nat) : PS × Option Nat :=
  match tb with
  | none => (s.create, some s.n)
  | tb => (s, tb)

theorem cases_consW {l : Option Label} {body : Stmts} {r : Cases} (ihb : BoW R body) (ihr : CaW R r) : CaW R (.cons l body r) := by
  intro W s A t B v y b tb h hb htb hy t' tb' he0 _
  rw [lowerCases.eq_def] at he0
  dsimp only at he0
  obtain ⟨tq, rfl, he1⟩ := Option.bind_eq_some_iff.mp he0
  obtain ⟨q, e1, he⟩ := Option.bind_eq_some_iff.mp he1
  clear he0 he1
  have ht := htb tq rfl
  have n0 := h.n
  obtain ⟨s1, hs1, h1, m1, n1⟩ : ∃ s1, ((∃ k, l = some k ∧ s1 = (lowerLabel k v t b).link b tq .then_) ∨ (l = none ∧ s1 = t.link b tq .next)) ∧
      Tr R 2 W s A s1 (tq :: B) ∧ Mono t s1 ∧ s1.n = t.n := by
    cases l with
    | some k => exact ⟨_, .inl ⟨k, rfl, rfl⟩, (h.emitB hb).link (k := .then_) (Nat.le_refl 2) hb ht.1 ht.2.1 ht.2.2, Mono.link _ _ _ _, rfl⟩
    | none => exact ⟨_, .inr ⟨rfl, rfl⟩, h.link (k := .next) (Nat.le_refl 2) hb ht.1 ht.2.1 ht.2.2, Mono.link _ _ _ _, rfl⟩
  have e1' : lowerBody body s1 (some tq) = some q := by
    rcases hs1 with ⟨k, rfl, rfl⟩ | ⟨rfl, rfl⟩ <;> exact e1
  obtain ⟨B2, g2⟩ := ihb (Nat.le_refl 2) h1 (bb := some tq) (fun x hx => by cases hx; simp) e1'
  have n2 := g2.n
  obtain ⟨p, B3, hp, h3, hsub3, hcur3, m3, n3, hf3⟩ : ∃ (p : PS × Option Nat) (B3 : List Nat),
      (p = match (match body with | .nil => true | _ => false), q.2 with
        | false, some z => ((q.1.create.link z q.1.n .next), some q.1.n)
        | _, tb => (q.1, tb)) ∧ Tr R 2 W s A p.1 B3 ∧ (∀ x ∈ B2, x ∈ B3) ∧ (∀ x ∈ p.2, x ∈ B3) ∧ Mono q.1 p.1 ∧ q.1.n ≤ p.1.n ∧
        (q.2 ≠ none → p.2 ≠ none) := by
    cases hq : q.2 with
    | none =>
      refine ⟨(q.1, none), B2, ?_, g2.tr, fun _ h => h, (fun x hx => by cases hx), .refl _, Nat.le_refl _, fun h => absurd rfl h⟩
      cases body <;> rfl
    | some z =>
      cases body with
      | nil => exact ⟨(q.1, some z), B2, rfl, g2.tr, fun _ h => h, fun x hx => g2.cur x (hq ▸ hx), .refl _, Nat.le_refl _, fun _ h => by cases h⟩
      | cons st ss =>
        refine ⟨(q.1.create.link z q.1.n .next, some q.1.n), _, rfl, g2.tr.create.link (k := .next) (Nat.le_refl 2) (p := z) (q := q.1.n)
          (g2.cur z hq) g2.tr.inn.two (Nat.lt_succ_self _) (.inr g2.tr.n), fun x hx => by simp [hx], fun x hx => by cases hx; simp,
          Mono.link _ _ _ _, Nat.le_succ _, fun _ h => by cases h⟩
  have hb3 : b ∈ B3 := hsub3 b (g2.sub b (by simp [hb]))
  have hsb : ∀ x ∈ B, x ∈ B3 := fun x hx => hsub3 x (g2.sub x (by simp [hx]))
  have m03 : Mono t p.1 := (m1.trans g2.mono).trans m3
  have n03 : t.n ≤ p.1.n := by omega
  have hc1 : s1.cont = t.cont := h1.cont.trans h.cont.symm
  have hk1 : s1.brk = t.brk := h1.brk.trans h.brk.symm
  have cts : body.conts = true → ∀ z ∈ t.cont.head?, (p.1.block z).prev ≠ [] := fun hc z hz =>
    m3.ne (g2.conts hc z (by rw [hc1]; exact hz))
  have bks : body.brks = true → ∀ z ∈ t.brk.head?, (p.1.block z).prev ≠ [] := fun hc z hz =>
    m3.ne (g2.brks hc z (by rw [hk1]; exact hz))
  cases r with
  | nil =>
    simp only [Cases.conts, Cases.brks, Bool.or_false]
    cases l with
    | some k =>
      have he' : (p.1.link b y .else_, p.2) = (t', tb') := by
        rw [hp]
        exact Option.some.inj he
      clear he hp
      cases he'
      exact ⟨B3, h3.jump hb3 ⟨by omega, .inl hy.1⟩, hsb, hcur3, m03.trans (Mono.link _ _ _ _), n03, fun hc z hz => (Mono.link _ _ _ _).ne (cts hc z hz),
        fun hc z hz => (Mono.link _ _ _ _).ne (bks hc z hz), fun _ => .inr (link_ne _ _ _ _)⟩
    | none =>
      have he' : (p.1, p.2) = (t', tb') := by
        rw [hp]
        exact Option.some.inj he
      clear he hp
      cases he'
      exact ⟨B3, h3, hsb, hcur3, m03, n03, cts, bks, fun hf => .inl (hf3 (g2.falls (by simpa only [Cases.falls] using hf) (by simp)))⟩
  | cons l' body' r' =>
    cases l with
    | none => cases he
    | some k =>
      have he' : lowerCases (.cons l' body' r') v y (nextBody (p.1.create.link b p.1.n .else_) p.2).1 p.1.n
          (nextBody (p.1.create.link b p.1.n .else_) p.2).2 = some (t', tb') := by
        rw [hp]
        exact he
      clear he hp
      have h4 := h3.create.link (k := .else_) (Nat.le_refl 2) (p := b) (q := p.1.n) hb3 h3.inn.two (Nat.lt_succ_self _) (.inr h3.n)
      obtain ⟨x, hx⟩ : ∃ x, x = p.1.create.link b p.1.n .else_ := ⟨_, rfl⟩
      have nx : x.n = p.1.n + 1 := by rw [hx]; rfl
      have mx : Mono p.1 x := by rw [hx]; exact Mono.link _ _ _ _
      rw [← hx] at h4 he'
      obtain ⟨z, hz, h5, m5, n5, hr5⟩ : ∃ z, nextBody x p.2 = z ∧ Tr R 2 W s A z.1 (p.1.n :: B3) ∧ Mono x z.1 ∧ x.n ≤ z.1.n ∧
          ∀ q ∈ z.2, Ready2 W s z.1 q := by
        cases hp2 : p.2 with
        | none =>
          refine ⟨_, rfl, h4.create, .refl _, Nat.le_succ _, fun q hq => ?_⟩
          cases hq
          exact ⟨h4.inn.two, Nat.lt_succ_self _, .inr h4.n⟩
        | some w =>
          refine ⟨_, rfl, h4, .refl _, Nat.le_refl _, fun q hq => ?_⟩
          cases hq
          obtain ⟨x1, x2, x3⟩ := h4.bnd w (by simp [hcur3 w hp2])
          exact ⟨x1, x2, x3⟩
      rw [hz] at he'
      obtain ⟨B6, g6⟩ := ihr h5 (by simp) hr5 ⟨hy.1, by omega⟩ he' (fun h => by cases h)
      have m06 : Mono p.1 t' := (mx.trans m5).trans g6.mono
      have n6 := g6.n
      refine ⟨B6, g6.tr, fun w hw => g6.sub w (by simp [hsb w hw]), g6.cur, m03.trans m06, by omega, ?_, ?_, ?_⟩
      · intro hc w hw
        rw [Cases.conts, Bool.or_eq_true] at hc
        rcases hc with hc | hc
        · exact m06.ne (cts hc w hw)
        · refine g6.conts hc w ?_
          rw [h5.cont, ← h.cont]
          exact hw
      · intro hc w hw
        rw [Cases.brks, Bool.or_eq_true] at hc
        rcases hc with hc | hc
        · exact m06.ne (bks hc w hw)
        · refine g6.brks hc w ?_
          rw [h5.brk, ← h.brk]
          exact hw
      · intro hf
        exact g6.falls (by simpa only [Cases.falls] using hf)

theorem switch_walk {e : Expr} {cs : Cases} (hc : e.Plain H) (hne : cs ≠ .nil) (ih : CaW R cs) : StW R (.switch_ e cs) := by
  intro m hm W s A t B bb h hbb t' bb' he0
  simp only [lowerS] at he0
  obtain ⟨u, e1, he1⟩ := Option.bind_eq_some_iff.mp he0
  obtain ⟨b, rfl, rfl⟩ := connect_some e1
  obtain ⟨r, e2, he2⟩ := Option.bind_eq_some_iff.mp he1
  obtain ⟨b1, hb1, he3⟩ := Option.bind_eq_some_iff.mp he2
  obtain ⟨q, e3, he⟩ := Option.map_eq_some_iff.mp he3
  clear he0 he1 he2 he3
  have hn := h.n
  have t2 := h.inn.two
  have h1 := h.create.link (k := .next) hm (p := b) (q := t.n) (hbb b rfl) h.inn.two (Nat.lt_succ_self _) (.inr hn)
  obtain ⟨B1, g1⟩ := lowerC_walk hm hc h1 (bb := some t.n) (fun x hx => by cases hx; simp) e2
  have hb1B := g1.cur b1 hb1
  have hb1' : 2 ≤ b1 := by
    obtain ⟨_, g⟩ := lowerC_walk (R := R) (Nat.le_refl 2) hc (Tr.refl (W := [t.n]) (A := [t.n]) h1.inn (fun x hx => by
      simp only [List.mem_singleton] at hx
      subst hx
      exact ⟨t2, by show _ < t.n + 1; omega, .inl (by simp)⟩)) (bb := some t.n) (fun x hx => by cases hx; simp) e2
    exact (g.tr.bnd b1 (g.cur b1 hb1)).1
  have n1 : t.n + 1 ≤ r.1.n := g1.n
  have nb1 : b1 < r.1.n := (g1.tr.bnd b1 hb1B).2.1
  have m1 : Mono t r.1 := (Mono.link _ _ _ _).trans g1.mono
  have h2 := g1.tr.create.create
  have p2 : (r.1.block r.1.n).prev = [] := (g1.tr.inn.fresh _ (Nat.le_refl _)).1
  have e3' : lowerCases cs r.2.2 r.1.n { r.1.create.create with brk := r.1.n :: r.1.brk, cont := r.1.cont } b1 (some (r.1.n + 1)) = some q := e3
  have i1 : In { r.1.create.create with brk := r.1.n :: r.1.brk, cont := r.1.cont } := h2.inn.setBC (by
    intro y hy
    rcases List.mem_cons.1 hy with rfl | hy
    · exact ⟨by omega, by show _ < r.1.n + 2; omega⟩
    · exact h2.inn.brk y hy) h2.inn.cont
  obtain ⟨v, hv⟩ : ∃ v, v = { r.1.create.create with brk := r.1.n :: r.1.brk, cont := r.1.cont } := ⟨_, rfl⟩
  have nv : v.n = r.1.n + 2 := by rw [hv]; rfl
  have pv : (v.block r.1.n).prev = [] := by rw [hv]; exact p2
  have bv : v.brk.head? = some r.1.n := by rw [hv]; rfl
  have cv : v.cont = r.1.cont := by rw [hv]
  have mv : Mono r.1 v := by rw [hv]; exact .refl _
  rw [← hv] at i1 e3'
  clear e1 e2 e3
  have k0 : Tr R 2 [b1, r.1.n, r.1.n + 1] v [b1] v [b1] := Tr.refl i1 (fun x hx => by
      simp only [List.mem_singleton] at hx
      subst hx
      exact ⟨hb1', by omega, .inl (by simp)⟩)
  obtain ⟨B2, g2⟩ := ih k0 (by simp) (fun x hx => by cases hx; exact ⟨by omega, by omega, .inl (by simp)⟩) ⟨by omega, by omega⟩ e3' hne
  have n2 := g2.n
  obtain ⟨s5, hs5, k5, m5, n5, hf5⟩ : ∃ s5, ((q.2 = none ∧ s5 = q.1) ∨ ∃ z, q.2 = some z ∧ s5 = q.1.link z r.1.n .next) ∧
      Tr R 2 [b1, r.1.n, r.1.n + 1] v [b1] s5 B2 ∧ Mono q.1 s5 ∧ s5.n = q.1.n ∧ (q.2 ≠ none → (s5.block r.1.n).prev ≠ []) := by
    cases hq : q.2 with
    | none => exact ⟨_, .inl ⟨rfl, rfl⟩, g2.tr, .refl _, rfl, fun h => absurd rfl h⟩
    | some z =>
      exact ⟨_, .inr ⟨z, rfl, rfl⟩, g2.tr.jump (g2.cur z hq) ⟨by omega, .inl (by omega)⟩, Mono.link _ _ _ _, rfl, fun _ => link_ne _ _ _ _⟩
  have he' : ({ s5 with brk := s5.brk.tail }, if (s5.block r.1.n).prev = [] then none else some r.1.n) = (t', bb') := by
    rcases hs5 with ⟨h1, h2⟩ | ⟨z, h1, h2⟩ <;> (rw [h1] at he; rw [h2]; exact he)
  clear he
  obtain ⟨B6, k6, hb6, hcur6⟩ : ∃ B6, Tr R 2 [b1, r.1.n, r.1.n + 1] v [b1] s5 B6 ∧ (∀ x ∈ B2, x ∈ B6) ∧ ∀ x ∈ bb', x ∈ B6 := by
    by_cases hp : (s5.block r.1.n).prev = []
    · rw [if_pos hp] at he'
      exact ⟨B2, k5, fun _ h => h, fun x hx => by cases he'; cases hx⟩
    · rw [if_neg hp] at he'
      refine ⟨_, k5.reached pv hp (by omega) (by omega) (.inl (by simp)), fun x hx => by simp [hx], fun x hx => ?_⟩
      cases he'
      cases hx
      simp
  have hfalls : (Stmt.switch_ e cs).falls = true → bb' ≠ none := by
    intro hf
    have : (s5.block r.1.n).prev ≠ [] := by
      simp only [Stmt.falls, Bool.or_eq_true] at hf
      rcases hf with hf | hf
      · rcases g2.falls hf with hq | hq
        · exact hf5 hq
        · exact m5.ne hq
      · exact m5.ne (g2.brks hf r.1.n (by rw [bv]; rfl))
    rw [if_neg this] at he'
    cases he'
    exact fun h => by cases h
  have hst : ({ s5 with brk := s5.brk.tail } : PS) = t' := congrArg Prod.fst he'
  clear he'
  subst hst
  rw [hv] at k6
  have x2 := h2.sub hm (Nat.le_refl 2) k6 (b' := s5.brk.tail) (c' := s5.cont) (fun a ha => by
    simp only [List.mem_singleton] at ha
    subst ha
    exact hb1B) (fun a ha => by
    simp only [List.mem_cons, List.not_mem_nil, or_false] at ha
    rcases ha with rfl | rfl | rfl
    · exact (g1.tr.bnd _ hb1B).2.2
    · exact .inr (by omega)
    · exact .inr (by omega)) (by rw [k6.brk]; rfl) (by rw [k6.cont]; rfl)
  refine ⟨_, x2, fun x hx => ?_, fun x hx => by simp [hcur6 x hx], ?_, ?_, ?_, by simp [Stmt.brks], fun hf _ => hfalls hf⟩
  · have := g1.sub x (by simp [hx])
    simp [this]
  · exact fun q' a ha => m5 q' a (g2.mono q' a (mv q' a (m1 q' a ha)))
  · show t.n ≤ s5.n
    omega
  · intro hc z hz
    refine m5.ne (g2.conts hc z ?_)
    rw [cv, g1.tr.cont, ← h.cont]
    exact hz

mutual
theorem lowerS_walk (st : Stmt) (ok : st.Ok H) (fl : (∀ b, R b) ∨ st.Flows) {m : Nat} (hm : m ≤ 2) {W : List Nat} {s : PS} {A : List Nat} {t : PS}
    {B : List Nat} {bb : Option Nat} (h : Tr R m W s A t B) (hbb : ∀ b ∈ bb, b ∈ B) {t' : PS} {bb' : Option Nat}
    (he : lowerS st t bb = some (t', bb')) : ∃ B', SWalk R m W s A t B bb t' B' bb' st.conts st.brks st.falls := by
  match st, ok, fl with
  | .expr e, ok, fl =>
    simp only [lowerS] at he
    obtain ⟨r, e1, e2⟩ := Option.map_eq_some_iff.mp he
    cases e2
    obtain ⟨B1, g⟩ := lowerE_walk hm e ok.1 h hbb e1
    refine ⟨B1, g.tr.flush g.cur, g.sub, g.cur, ?_, ?_, by simp [Stmt.conts], by simp [Stmt.brks], ?_⟩
    · intro q a ha
      have := g.mono q a ha
      simp only [PS.flush, emitO_block]
      exact this
    · simp only [PS.flush, emitO_n]
      exact g.n
    · intro _ hb h0
      rcases g.ent with e | ⟨b, e, _⟩
      · rw [h0] at e; exact hb e.symm
      · rw [h0] at e; cases e
  | .empty, ok, fl =>
    cases he
    exact ⟨B, h, fun _ h => h, hbb, .refl _, Nat.le_refl _, by simp [Stmt.conts], by simp [Stmt.brks], fun _ h => h⟩
  | .block ss, ok, fl =>
    simp only [lowerS] at he
    obtain ⟨b, rfl, he⟩ := Option.bind_eq_some_iff.mp he
    simp only [Stmt.conts, Stmt.brks, Stmt.falls]
    exact lowerSs_walk ss ok fl hm h hbb he
  | .ret none, ok, fl =>
    simp only [lowerS] at he
    obtain ⟨u, e1, e2⟩ := Option.map_eq_some_iff.mp he
    cases e2
    obtain ⟨b, rfl, rfl⟩ := connect_some e1
    have hb := hbb b rfl
    have hx : t.exit < t.n ∧ (2 ≤ t.exit ∨ (Kind.next = .next ∧ t.exit = 1)) := by
      rw [h.inn.exit]
      exact ⟨h.inn.two, .inr ⟨rfl, rfl⟩⟩
    exact ⟨B, (h.emitB hb).jump hb hx, fun _ h => h, (fun _ h => by cases h), Mono.link _ _ _ _, Nat.le_refl _, by simp [Stmt.conts],
      by simp [Stmt.brks], by simp [Stmt.falls]⟩
  | .ret (some e), ok, fl =>
    simp only [lowerS] at he
    obtain ⟨r, e0, he⟩ := Option.bind_eq_some_iff.mp he
    obtain ⟨u, e1, e2⟩ := Option.map_eq_some_iff.mp he
    cases e2
    obtain ⟨b, hb, rfl⟩ := connect_some e1
    obtain ⟨B1, g⟩ := lowerE_walk hm e (ok e rfl).1 h hbb e0
    have h1 := (g.tr.flush g.cur).emitO (p := r.2.1) (is := [retIns (some r.2.2)]) g.cur
    have hx : ((r.1.flush r.2.1).emit r.2.1 [retIns (some r.2.2)]).exit < ((r.1.flush r.2.1).emit r.2.1 [retIns (some r.2.2)]).n ∧
        (2 ≤ ((r.1.flush r.2.1).emit r.2.1 [retIns (some r.2.2)]).exit ∨
          (Kind.next = .next ∧ ((r.1.flush r.2.1).emit r.2.1 [retIns (some r.2.2)]).exit = 1)) := by
      rw [h1.inn.exit]
      exact ⟨h1.inn.two, .inr ⟨rfl, rfl⟩⟩
    refine ⟨B1, h1.jump (g.cur b hb) hx, g.sub, (fun _ h => by cases h), ?_, ?_, by simp [Stmt.conts],
      by simp [Stmt.brks], by simp [Stmt.falls]⟩
    · refine Mono.trans ?_ (Mono.link _ _ _ _)
      intro q a ha
      have := g.mono q a ha
      simp only [PS.flush, emitO_block]
      exact this
    · have := g.n
      simp only [PS.link, PS.flush, emitO_n]
      exact this
  | .ite c tr, ok, fl => exact ite_walk ok.1 (lowerS_walk tr ok.2 fl) hm h hbb he
  | .iteElse c tr e, ok, fl =>
    exact iteElse_walk ok.1 (lowerS_walk tr ok.2.1 (or_sub fl And.left)) (lowerS_walk e ok.2.2 (or_sub fl And.right)) hm h hbb he
  | .while_ c b, ok, fl => exact while_walk ok.1 (lowerS_walk b ok.2 fl) hm h hbb he
  | .doWhile b c, ok, fl => exact do_walk ok.1 (or_sub fl And.right) (lowerS_walk b ok.2 (or_sub fl And.left)) hm h hbb he
  | .for_ init c one inc b, ok, fl =>
    exact for_walk ok.1 ok.2.1 (fun e he => (ok.2.2.2.1 e he).2) (or_sub fl And.right) (lowerS_walk b ok.2.2.2.2.1 (or_sub fl And.left)) hm h hbb he
  | .switch_ e cs, ok, fl => exact switch_walk ok.1 ok.2.1 (lowerCases_walk cs ok.2.2 fl) hm h hbb he
  | .brk, ok, fl =>
    simp only [lowerS] at he
    obtain ⟨y, e1, he⟩ := Option.bind_eq_some_iff.mp he
    obtain ⟨u, e2, e3⟩ := Option.map_eq_some_iff.mp he
    cases e3
    obtain ⟨b, rfl, rfl⟩ := connect_some e2
    have hb := hbb b rfl
    have hy := h.inn.brk y (List.mem_of_mem_head? e1)
    refine ⟨B, h.jump hb ⟨hy.2, .inl hy.1⟩, fun _ h => h, (fun _ h => by cases h), Mono.link _ _ _ _, Nat.le_refl _, by simp [Stmt.conts],
      ?_, by simp [Stmt.falls]⟩
    intro _ z hz
    rw [e1] at hz
    cases hz
    exact link_ne _ _ _ _
  | .cont, ok, fl =>
    simp only [lowerS] at he
    obtain ⟨y, e1, he⟩ := Option.bind_eq_some_iff.mp he
    obtain ⟨u, e2, e3⟩ := Option.map_eq_some_iff.mp he
    cases e3
    obtain ⟨b, rfl, rfl⟩ := connect_some e2
    have hb := hbb b rfl
    have hy := h.inn.cont y (List.mem_of_mem_head? e1)
    refine ⟨B, h.jump hb ⟨hy.2, .inl hy.1⟩, fun _ h => h, (fun _ h => by cases h), Mono.link _ _ _ _, Nat.le_refl _, ?_, by simp [Stmt.brks],
      by simp [Stmt.falls]⟩
    intro _ z hz
    rw [e1] at hz
    cases hz
    exact link_ne _ _ _ _
theorem lowerSs_walk (ss : Stmts) (ok : ss.Ok H) (fl : (∀ b, R b) ∨ ss.Flows) {m : Nat} (hm : m ≤ 2) {W : List Nat} {s : PS} {A : List Nat} {t : PS}
    {B : List Nat} {bb : Option Nat} (h : Tr R m W s A t B) (hbb : ∀ b ∈ bb, b ∈ B) {t' : PS} {bb' : Option Nat}
    (he : lowerSs ss t bb = some (t', bb')) : ∃ B', SWalk R m W s A t B bb t' B' bb' ss.conts ss.brks ss.falls := by
  match ss, ok, fl with
  | .nil, ok, fl =>
    cases he
    exact ⟨B, h, fun _ h => h, hbb, .refl _, Nat.le_refl _, by simp [Stmts.conts], by simp [Stmts.brks], fun _ h => h⟩
  | .cons st ss, ok, fl =>
    simp only [lowerSs] at he
    obtain ⟨r, e1, he⟩ := Option.bind_eq_some_iff.mp he
    obtain ⟨B1, g1⟩ := lowerS_walk st ok.1 (or_sub fl And.left) hm h hbb e1
    obtain ⟨B2, g2⟩ := lowerSs_walk ss ok.2 (or_sub fl And.right) hm (g1.tr.flush g1.cur) g1.cur he
    refine ⟨B2, g2.tr, fun b hb => g2.sub b (g1.sub b hb), g2.cur, ?_, ?_, ?_, ?_, ?_⟩
    · refine g1.mono.trans fun q a ha => g2.mono q a ?_
      simp only [PS.flush, emitO_block]
      exact ha
    · have := g1.n
      have h2 := g2.n
      simp only [PS.flush, emitO_n] at h2
      omega
    · intro hc z hz
      simp only [Stmts.conts, Bool.or_eq_true] at hc
      have h1 : ∀ q, (r.1.block q).prev ≠ [] → (t'.block q).prev ≠ [] := by
        intro q hq
        refine g2.mono.ne ?_
        simp only [PS.flush, emitO_block]
        exact hq
      rcases hc with hc | hc
      · exact h1 z (g1.conts hc z hz)
      · refine g2.conts hc z ?_
        have : (r.1.flush r.2).cont = t.cont := (g1.tr.flush g1.cur).cont.trans h.cont.symm
        rw [this]
        exact hz
    · intro hc z hz
      simp only [Stmts.brks, Bool.or_eq_true] at hc
      have h1 : ∀ q, (r.1.block q).prev ≠ [] → (t'.block q).prev ≠ [] := by
        intro q hq
        refine g2.mono.ne ?_
        simp only [PS.flush, emitO_block]
        exact hq
      rcases hc with hc | hc
      · exact h1 z (g1.brks hc z hz)
      · refine g2.brks hc z ?_
        have : (r.1.flush r.2).brk = t.brk := (g1.tr.flush g1.cur).brk.trans h.brk.symm
        rw [this]
        exact hz
    · intro hf hb
      simp only [Stmts.falls, Bool.and_eq_true] at hf
      exact g2.falls hf.2 (g1.falls hf.1 hb)
theorem lowerBody_walk (ss : Stmts) (ok : ss.Ok H) (fl : (∀ b, R b) ∨ ss.Flows) {m : Nat} (hm : m ≤ 2) {W : List Nat} {s : PS} {A : List Nat} {t : PS}
    {B : List Nat} {bb : Option Nat} (h : Tr R m W s A t B) (hbb : ∀ b ∈ bb, b ∈ B) {t' : PS} {bb' : Option Nat}
    (he : lowerBody ss t bb = some (t', bb')) : ∃ B', SWalk R m W s A t B bb t' B' bb' ss.conts ss.brks ss.falls := by
  match ss, ok, fl with
  | .nil, ok, fl =>
    cases he
    exact ⟨B, h, fun _ h => h, hbb, .refl _, Nat.le_refl _, by simp [Stmts.conts], by simp [Stmts.brks], fun _ h => h⟩
  | .cons st ss, ok, fl =>
    simp only [lowerBody] at he
    obtain ⟨r, e1, he⟩ := Option.bind_eq_some_iff.mp he
    obtain ⟨B1, g1⟩ := lowerS_walk st ok.1 (or_sub fl And.left) hm h hbb e1
    obtain ⟨B2, g2⟩ := lowerBody_walk ss ok.2 (or_sub fl And.right) hm g1.tr g1.cur he
    refine ⟨B2, g2.tr, fun b hb => g2.sub b (g1.sub b hb), g2.cur, g1.mono.trans g2.mono, Nat.le_trans g1.n g2.n, ?_, ?_, ?_⟩
    · intro hc z hz
      simp only [Stmts.conts, Bool.or_eq_true] at hc
      rcases hc with hc | hc
      · exact g2.mono.ne (g1.conts hc z hz)
      · refine g2.conts hc z ?_
        rw [g1.tr.cont, ← h.cont]
        exact hz
    · intro hc z hz
      simp only [Stmts.brks, Bool.or_eq_true] at hc
      rcases hc with hc | hc
      · exact g2.mono.ne (g1.brks hc z hz)
      · refine g2.brks hc z ?_
        rw [g1.tr.brk, ← h.brk]
        exact hz
    · intro hf hb
      simp only [Stmts.falls, Bool.and_eq_true] at hf
      exact g2.falls hf.2 (g1.falls hf.1 hb)
theorem lowerCases_walk (cs : Cases) {k : Nat} (ok : cs.Ok H k) (fl : (∀ b, R b) ∨ cs.Flows) : CaW R cs := by
  match cs, ok, fl with
  | .nil, _, _ =>
    intro W s A t B v y b tb _ _ _ _ t' tb' _ h
    exact absurd rfl h
  | .cons l body r, ok, fl =>
    intro W s A t B v y b tb
    exact cases_consW (lowerBody_walk body ok.2.1 (or_sub fl And.left)) (lowerCases_walk r ok.2.2 (or_sub fl And.right))
end

end Shecc.Stmt
