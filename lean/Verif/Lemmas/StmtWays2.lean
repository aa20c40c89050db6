import Verif.Lemmas.StmtWays

/-! # Lemmas about the graph built for a function: every block that is entered has a way on (statements) -/

namespace Shecc.Stmt
open Shecc.Cfg
open CRename (Ins)
open CStmt

variable {Z T : Nat → Prop} {H : CRename.Home Nat}

theorem lowerC_pend {e : Expr} (hg : e.Plain H) {t t' : PS} {bb bb' : Option Nat} {v : Nat} {Y : List Nat} (h : Pend Z T t (bb.toList ++ Y))
    (he : lowerC e t bb = some (t', bb', v)) : Pend Z T t' (bb'.toList ++ Y) := by
  unfold lowerC at he
  split at he
  · cases he
  · exact lowerE_pend e hg.1 h he

theorem lowerOpt_pend {e : Option Expr} (hg : ∀ x, e = some x → x.Plain H) {t t' : PS} {bb bb' : Option Nat} {Y : List Nat}
    (h : Pend Z T t (bb.toList ++ Y)) (he : lowerOpt e t bb = some (t', bb')) : Pend Z T t' (bb'.toList ++ Y) := by
  unfold lowerOpt at he
  cases e with
  | none =>
    cases he
    exact h
  | some e =>
    obtain ⟨r, e1, e2⟩ := Option.map_eq_some_iff.mp he
    cases e2
    exact lowerE_pend e (hg e rfl).1 h e1

theorem lowerForC_pend {e : Option Expr} (hg : ∀ x, e = some x → x.Plain H) {one : Nat} {t t' : PS} {bb bb' : Option Nat} {v : Nat} {Y : List Nat}
    (h : Pend Z T t (bb.toList ++ Y)) (he : lowerForC e one t bb = some (t', bb', v)) : Pend Z T t' (bb'.toList ++ Y) := by
  unfold lowerForC at he
  cases e with
  | none =>
    cases he
    exact h.emit
  | some e => exact lowerC_pend (hg e rfl) h he

/-! ### Which blocks exist -/

theorem Rdy.create {s : PS} {bb : Option Nat} (h : Rdy s bb) : Rdy s.create bb := ⟨h.1.create, fun b hb => Nat.lt_succ_of_lt (h.2 b hb)⟩
theorem Rdy.emit {s : PS} {bb o : Option Nat} {is : List (Ins Nat)} (h : Rdy s bb) (ho : ∀ b ∈ o, b < s.n) : Rdy (s.emit o is) bb := by
  cases o with
  | none => exact h
  | some p => exact ⟨h.1.emit p is (ho p rfl), h.2⟩
theorem Rdy.se {s : PS} {bb : Option Nat} (h : Rdy s bb) (l : List (Ins Nat)) : Rdy { s with se := l } bb :=
  ⟨⟨h.1.two, h.1.exit, h.1.target, h.1.fresh, h.1.brk, h.1.cont⟩, h.2⟩
theorem Rdy.flush {s : PS} {bb : Option Nat} (h : Rdy s bb) : Rdy (s.flush bb) bb := (h.emit h.2).se []
theorem Rdy.link {s : PS} {bb : Option Nat} {p q : Nat} {k : Kind} (h : Rdy s bb) (h2 : 2 ≤ q) (hq : q < s.n) : Rdy (s.link p q k) bb :=
  ⟨h.1.link p q k ⟨hq, .inl h2⟩, h.2⟩
theorem Rdy.at {s : PS} {bb : Option Nat} (h : Rdy s bb) {q : Nat} (hq : q < s.n) : Rdy s (some q) :=
  ⟨h.1, fun b hb => by cases hb; exact hq⟩
theorem Rdy.setBC {s : PS} {bb : Option Nat} (h : Rdy s bb) {b c : List Nat} (hb : ∀ y ∈ b, 2 ≤ y ∧ y < s.n) (hc : ∀ y ∈ c, 2 ≤ y ∧ y < s.n) :
    Rdy { s with brk := b, cont := c } bb := ⟨h.1.setBC hb hc, h.2⟩
theorem Rdy.none {s : PS} {bb : Option Nat} (h : Rdy s bb) : Rdy s none := ⟨h.1, fun b hb => by cases hb⟩

/-- A branch to two new blocks. -/
theorem branch_pend {s : PS} {b1 v : Nat} {Y : List Nat} (h : Pend Z T s (b1 :: Y)) :
    Pend Z T ((((s.emit (some b1) [branchIns v]).create.create).link b1 s.n .then_).link b1 (s.n + 1) .else_) (s.n :: (s.n + 1) :: Y) := by
  refine Pend.mono (h.emit.create.create.link.link) ?_
  intro x hx
  simp only [List.mem_cons] at hx ⊢
  rcases hx with rfl | rfl | rfl | hx
  · exact .inl (.inr (.inl rfl))
  · exact .inl (.inl rfl)
  · exact .inr (.inr (.inr ⟨by ways, by ways, by ways⟩))
  · exact .inl (.inr (.inr hx))

theorem branch_rdy {s : PS} {b1 v : Nat} (h : Rdy s (some b1)) :
    Rdy ((((s.emit (some b1) [branchIns v]).create.create).link b1 s.n .then_).link b1 (s.n + 1) .else_) (some s.n) := by
  have h2 := h.1.two
  have := ((h.emit (is := [branchIns v]) h.2).create.create.link (p := b1) (k := .then_) (q := s.n) h2 (by simp only [PS.create, PS.emit]; omega)).link
    (p := b1) (k := .else_) (q := s.n + 1) (by omega) (by simp only [PS.create, PS.emit, PS.link]; omega)
  exact this.at (by simp only [PS.create, PS.emit, PS.link]; omega)

/-- Control goes on to a new block. -/
theorem on_pend {s : PS} {b : Nat} {Y : List Nat} (h : Pend Z T s (b :: Y)) : Pend Z T (s.create.link b s.n .next) (s.n :: Y) := by
  refine Pend.mono h.create.link ?_
  intro x hx
  simp only [List.mem_cons] at hx ⊢
  rcases hx with rfl | rfl | hx
  · exact .inl (.inl rfl)
  · exact .inr (.inr (.inl (by ways)))
  · exact .inl (.inr hx)

theorem on_rdy {s : PS} {bb : Option Nat} {b : Nat} (h : Rdy s bb) : Rdy (s.create.link b s.n .next) (some s.n) :=
  (h.create.link (p := b) (k := .next) h.1.two (Nat.lt_succ_self _)).at (Nat.lt_succ_self _)

/-- Control goes on to a block that is already among those to be continued. -/
theorem to_pend {s : PS} {b q : Nat} {Y : List Nat} (h : Pend Z T s (b :: Y)) (hq : q = 1 ∨ q ∈ Y ∨ Z q) : Pend Z T (s.link b q .next) Y := by
  have n : Ways (s.link b q .next) b := .inl (by ways)
  refine Pend.mono h.link ?_
  intro x hx
  simp only [List.mem_cons] at hx
  rcases hx with rfl | rfl | hx
  · rcases hq with rfl | hq | hq
    · exact .inr (.inl rfl)
    · exact .inl hq
    · by_cases h1 : x = 1
      · exact .inr (.inl h1)
      · rcases h.ways x (.inr (.inl hq)) h1 with k | k
        · exact .inr (.inr (ways_link k))
        · rcases List.mem_cons.1 k with rfl | k
          · exact .inr (.inr n)
          · exact .inl k
  · exact .inr (.inr n)
  · exact .inl hx

/-! ### Statements -/

/-- The claim for a statement. -/
def StP (st : Stmt) : Prop :=
  ∀ {Z T : Nat → Prop} {t : PS} {bb : Option Nat} {t' : PS} {bb' : Option Nat} {Y : List Nat}, Rdy t bb → lowerS st t bb = some (t', bb') →
    (∀ b, Z b → b < t.n) → (∀ z ∈ t.brk.head?, z ∈ Y ∨ Z z) → (st.conts = true → ∀ z ∈ t.cont.head?, z ∈ Y ∨ Z z) →
    Pend Z T t (bb.toList ++ Y) → Pend Z T t' (bb'.toList ++ Y)

theorem mem_mono {Y Y' : List Nat} {z : Nat} (h : z ∈ Y ∨ Z z) (hs : ∀ x ∈ Y, x ∈ Y') : z ∈ Y' ∨ Z z := h.imp_left (hs z)

theorem mem_app {bb : Option Nat} {Y Y' : List Nat} (h : ∀ x ∈ Y, x ∈ Y') (x : Nat) (hx : x ∈ bb.toList ++ Y) : x ∈ bb.toList ++ Y' := by
  rcases List.mem_append.1 hx with hx | hx
  · exact List.mem_append_left _ hx
  · exact List.mem_append_right _ (h x hx)

theorem Pend.weak {s : PS} {Y Y' : List Nat} (h : Pend Z T s Y) (hs : ∀ x ∈ Y, x ∈ Y') : Pend Z T s Y' := h.mono fun x hx => .inl (hs x hx)

/-- A condition, read in a new block, and the branch after it. -/
theorem cond_pend {c : Expr} (hc : c.Plain H) {t : PS} {b b1 v : Nat} {bk cn : List Nat} {r : PS} {Y : List Nat} (h : Rdy t (some b))
    (hb : bk = t.brk) (hcn : ∀ z ∈ cn, z ∈ t.cont ∨ z = t.n)
    (e : lowerC c { t.create.link b t.n .next with brk := bk, cont := cn } (some t.n) = some (r, some b1, v)) (p : Pend Z T t (b :: Y)) :
    Rdy r (some b1) ∧ Pend Z T r (b1 :: Y) ∧ t.n + 1 ≤ r.n ∧ r.brk = t.brk ∧ r.cont = cn := by
  have h1 : Rdy (t.create.link b t.n .next) (some t.n) := on_rdy h
  have h2 : Rdy { t.create.link b t.n .next with brk := bk, cont := cn } (some t.n) := h1.setBC (by rw [hb]; exact h1.1.brk) (by
    intro z hz
    rcases hcn z hz with hz | rfl
    · exact h1.1.cont z hz
    · exact ⟨h.1.two, Nat.lt_succ_self _⟩)
  have w := lowerC_went hc h2 e
  exact ⟨w.rdy, lowerC_pend hc (bb := some t.n) ((on_pend p).setBC bk cn) e, w.n, w.brk.trans hb, w.cont⟩

theorem ite_pend {c : Expr} {st : Stmt} (hc : c.Plain H) (ok : st.Ok H) (ih : StP st) : StP (.ite c st) := by
  intro Z T t bb t' bb' Y h he0 hZ hk hn p
  simp only [lowerS] at he0
  obtain ⟨u, e1, he1⟩ := Option.bind_eq_some_iff.mp he0
  obtain ⟨b, rfl, rfl⟩ := connect_some e1
  obtain ⟨r, e2, he2⟩ := Option.bind_eq_some_iff.mp he1
  obtain ⟨u, e3, he3⟩ := Option.bind_eq_some_iff.mp he2
  obtain ⟨b1, hb1, rfl⟩ := connect_some e3
  obtain ⟨u, e4, he4⟩ := Option.bind_eq_some_iff.mp he3
  obtain ⟨b2, hb2, rfl⟩ := connect_some e4
  obtain ⟨q, e5, he⟩ := Option.map_eq_some_iff.mp he4
  clear he0 he1 he2 he3 he4 e1 e3 e4
  rw [hb1] at hb2
  cases hb2
  obtain ⟨r, r2, v⟩ := r
  simp only at hb1
  subst hb1
  obtain ⟨h1, p1, n1, k1, c1⟩ := cond_pend hc (bk := t.brk) (cn := t.cont) h rfl (fun z hz => .inl hz) e2 p
  have h2 := branch_rdy (v := v) h1
  have p2 := branch_pend (v := v) p1
  dsimp only at e5 he
  have n0 : (r.emit (some b1) [branchIns v]).n = r.n := rfl
  rw [n0] at e5 he
  have p3 := ih h2 e5 (fun x hx => by have := hZ x hx; simp only [PS.link, PS.create, PS.emit]; omega) (Y := (r.n + 1) :: Y)
    (fun z hz => mem_mono (hk z (k1 ▸ hz)) (by simp +contextual)) (fun hcc z hz => mem_mono (hn hcc z (c1 ▸ hz)) (by simp +contextual)) p2
  have w := (lowerS_went ok h2 e5).1
  cases hq : q.2 with
  | none =>
    rw [hq] at he p3
    cases he
    exact p3
  | some tb =>
    rw [hq] at he p3
    cases he
    refine Pend.mono (p3.create.link.link) ?_
    intro x hx
    simp only [List.mem_cons, Option.toList_some, List.cons_append, List.nil_append] at hx ⊢
    rcases hx with rfl | rfl | rfl | rfl | hx
    · exact .inl (.inl rfl)
    · exact .inl (.inl rfl)
    · exact .inr (.inr (.inl (by ways)))
    · exact .inr (.inr (.inl (by ways)))
    · exact .inl (.inr hx)

/-- The end of one side of `if`-`else`. -/
def endOf (s : PS) (q : Option Nat) : PS × Option Nat :=
  match q with
  | none => (s, none)
  | some b => (s.create.link b s.n .next, some s.n)

theorem endOf_pend {s : PS} {q : Option Nat} {Y : List Nat} (h : Rdy s q) (p : Pend Z T s (q.toList ++ Y)) :
    Rdy (endOf s q).1 (endOf s q).2 ∧ Pend Z T (endOf s q).1 ((endOf s q).2.toList ++ Y) ∧ s.n ≤ (endOf s q).1.n ∧
      (endOf s q).1.brk = s.brk ∧ (endOf s q).1.cont = s.cont := by
  cases q with
  | none => exact ⟨h, p, Nat.le_refl _, rfl, rfl⟩
  | some b => exact ⟨on_rdy h, on_pend p, Nat.le_succ _, rfl, rfl⟩

theorem iteElse_pend {c : Expr} {st se : Stmt} (hc : c.Plain H) (ok : st.Ok H) (oke : se.Ok H) (ih : StP st) (ihe : StP se) :
    StP (.iteElse c st se) := by
  intro Z T t bb t' bb' Y h he0 hZ hk hn p
  simp only [lowerS] at he0
  obtain ⟨u, e1, he1⟩ := Option.bind_eq_some_iff.mp he0
  obtain ⟨b, rfl, rfl⟩ := connect_some e1
  obtain ⟨r, e2, he2⟩ := Option.bind_eq_some_iff.mp he1
  obtain ⟨u, e3, he3⟩ := Option.bind_eq_some_iff.mp he2
  obtain ⟨b1, hb1, rfl⟩ := connect_some e3
  obtain ⟨u, e4, he4⟩ := Option.bind_eq_some_iff.mp he3
  obtain ⟨b2, hb2, rfl⟩ := connect_some e4
  obtain ⟨q, e5, he5⟩ := Option.bind_eq_some_iff.mp he4
  obtain ⟨q2, e6, he⟩ := Option.map_eq_some_iff.mp he5
  clear he0 he1 he2 he3 he4 he5 e1 e3 e4
  rw [hb1] at hb2
  cases hb2
  obtain ⟨r, r2, v⟩ := r
  simp only at hb1
  subst hb1
  obtain ⟨h1, p1, n1, k1, c1⟩ := cond_pend hc (bk := t.brk) (cn := t.cont) h rfl (fun z hz => .inl hz) e2 p
  have h2 := branch_rdy (v := v) h1
  have p2 := branch_pend (v := v) p1
  dsimp only at e5 e6 he
  have n0 : (r.emit (some b1) [branchIns v]).n = r.n := rfl
  rw [n0] at e5 e6
  have n2 : r.n + 2 = ((((r.emit (some b1) [branchIns v]).create.create).link b1 r.n .then_).link b1 (r.n + 1) .else_).n := rfl
  have k2 : t.brk = ((((r.emit (some b1) [branchIns v]).create.create).link b1 r.n .then_).link b1 (r.n + 1) .else_).brk := k1.symm
  have c2 : t.cont = ((((r.emit (some b1) [branchIns v]).create.create).link b1 r.n .then_).link b1 (r.n + 1) .else_).cont := c1.symm
  have p3 := ih h2 e5 (fun x hx => by have := hZ x hx; omega) (Y := (r.n + 1) :: Y)
    (fun z hz => mem_mono (hk z (k2 ▸ hz)) (by simp +contextual))
    (fun hcc z hz => mem_mono (hn (by simp [Stmt.conts, hcc]) z (c2 ▸ hz)) (by simp +contextual)) p2
  have w := (lowerS_went ok h2 e5).1
  obtain ⟨h4, p4, n4, k4, c4⟩ := endOf_pend w.rdy p3
  have wn := w.n
  have e6' : lowerS se (endOf q.1 q.2).1 (some (r.n + 1)) = some q2 := by
    rw [← e6]
    cases hq : q.2 <;> rfl
  have h4' : Rdy (endOf q.1 q.2).1 (some (r.n + 1)) := h4.at (by omega)
  have p4' : Pend Z T (endOf q.1 q.2).1 ((some (r.n + 1)).toList ++ ((endOf q.1 q.2).2.toList ++ Y)) := p4.weak (by
    intro x hx
    simp only [List.mem_append, List.mem_cons, Option.toList_some, List.not_mem_nil, or_false] at hx ⊢
    rcases hx with hx | hx | hx
    · exact .inr (.inl hx)
    · exact .inl hx
    · exact .inr (.inr hx))
  have kk : (endOf q.1 q.2).1.brk = t.brk := k4.trans (w.brk.trans k2.symm)
  have cc : (endOf q.1 q.2).1.cont = t.cont := c4.trans (w.cont.trans c2.symm)
  have p5 := ihe h4' e6' (fun x hx => by have := hZ x hx; omega)
    (fun z hz => mem_mono (hk z (kk ▸ hz)) (by simp +contextual))
    (fun hcc z hz => mem_mono (hn (by simp [Stmt.conts, hcc]) z (cc ▸ hz)) (by simp +contextual)) p4'
  have w5 := (lowerS_went oke h4' e6').1
  obtain ⟨h6, p6, n6, k6, c6⟩ := endOf_pend w5.rdy p5
  have he' : joinEnds (endOf q2.1 q2.2).1 (endOf q.1 q.2).2 (endOf q2.1 q2.2).2 = (t', bb') := by
    rw [← he]
    cases hq : q.2 <;> cases hq2 : q2.2 <;> rfl
  clear he e5 e6 e6' h1 h2 p1 p2 p3 p4 p5 p4' h4 h4' w w5 n4 n6 k4 k6 c4 c6 kk cc
  generalize endOf q.1 q.2 = a at he' p6
  generalize endOf q2.1 q2.2 = d at he' p6 h6
  obtain ⟨a1, a2⟩ := a
  obtain ⟨d1, d2⟩ := d
  simp only at he' p6 h6
  cases a2 with
  | none =>
    cases he'
    exact p6
  | some x =>
    cases d2 with
    | none =>
      cases he'
      exact p6
    | some y =>
      cases he'
      refine Pend.mono (p6.create.link.link) ?_
      intro z hx
      simp only [List.mem_cons, Option.toList_some, List.cons_append, List.nil_append] at hx ⊢
      rcases hx with rfl | rfl | rfl | rfl | hx
      · exact .inl (.inl rfl)
      · exact .inl (.inl rfl)
      · exact .inr (.inr (.inl (by ways)))
      · exact .inr (.inr (.inl (by ways)))
      · exact .inl (.inr hx)

/-- A block with a predecessor may be required to have a way on, too. -/
theorem Pend.more {t : PS} {Y : List Nat} (h : Pend Z T t Y) {n : Nat} (hn : n ∈ Y ∨ n = 1 ∨ Ways t n) : Pend (fun b => Z b ∨ b = n) T t Y :=
  ⟨fun b hb h1 => by
    rcases hb with hb | (hb | rfl) | hb
    · exact h.ways b (.inl hb) h1
    · exact h.ways b (.inr (.inl hb)) h1
    · rcases hn with hn | hn | hn
      · exact .inr hn
      · exact absurd hn h1
      · exact .inl hn
    · exact h.ways b (.inr (.inr hb)) h1, h.half⟩

theorem Pend.less {t : PS} {Y : List Nat} {Z' T' : Nat → Prop} (h : Pend Z' T' t Y) (hz : ∀ b, Z b → Z' b) (ht : ∀ b, T b → T' b) : Pend Z T t Y :=
  ⟨fun b hb h1 => h.ways b (hb.imp_right (Or.imp_left (hz b))) h1, fun b hb => h.half b (ht b hb)⟩

theorem while_pend {c : Expr} {st : Stmt} (hc : c.Plain H) (ok : st.Ok H) (ih : StP st) : StP (.while_ c st) := by
  intro Z T t bb t' bb' Y h he0 hZ hk hn p
  simp only [lowerS] at he0
  obtain ⟨u, e1, he1⟩ := Option.bind_eq_some_iff.mp he0
  obtain ⟨b, rfl, rfl⟩ := connect_some e1
  obtain ⟨r, e2, he2⟩ := Option.bind_eq_some_iff.mp he1
  obtain ⟨u, e3, he3⟩ := Option.bind_eq_some_iff.mp he2
  obtain ⟨b1, hb1, rfl⟩ := connect_some e3
  obtain ⟨u, e4, he4⟩ := Option.bind_eq_some_iff.mp he3
  obtain ⟨b2, hb2, rfl⟩ := connect_some e4
  obtain ⟨q, e5, he⟩ := Option.map_eq_some_iff.mp he4
  clear he0 he1 he2 he3 he4 e1 e3 e4
  rw [hb1] at hb2
  cases hb2
  obtain ⟨r, r2, v⟩ := r
  simp only at hb1
  subst hb1
  have h0 : Rdy (t.create.link b t.n .next) (some t.n) := on_rdy h
  have h0' : Rdy { (t.create.link b t.n .next).create with brk := t.brk, cont := t.n :: t.cont } (some t.n) := h0.create.setBC h0.create.1.brk (by
    intro z hz
    rcases List.mem_cons.1 hz with rfl | hz
    · exact ⟨h.1.two, by simp only [PS.create, PS.link]; omega⟩
    · exact h0.create.1.cont z hz)
  have p0 := ((on_pend p).create.setBC t.brk (t.n :: t.cont)).more (.inl (List.mem_cons_self ..))
  have p1 := lowerC_pend hc (bb := some t.n) p0 e2
  have w1 := lowerC_went hc h0' e2
  have h1 := w1.rdy
  have k1 : r.brk = t.brk := w1.brk
  have c1 : r.cont = t.n :: t.cont := w1.cont
  have n1 : t.n + 2 ≤ r.n := w1.n
  clear w1 e2
  have h2 := branch_rdy (v := v) h1
  have p2 := branch_pend (v := v) p1
  dsimp only at e5 he
  have n0 : (r.emit (some b1) [branchIns v]).n = r.n := rfl
  rw [n0] at e5 he
  have n2 : r.n + 2 = ((((r.emit (some b1) [branchIns v]).create.create).link b1 r.n .then_).link b1 (r.n + 1) .else_).n := rfl
  have k2 : t.brk = ((((r.emit (some b1) [branchIns v]).create.create).link b1 r.n .then_).link b1 (r.n + 1) .else_).brk := k1.symm
  have c2 : t.n :: t.cont = ((((r.emit (some b1) [branchIns v]).create.create).link b1 r.n .then_).link b1 (r.n + 1) .else_).cont := c1.symm
  have h3 := h2.setBC (b := (r.n + 1) :: ((((r.emit (some b1) [branchIns v]).create.create).link b1 r.n .then_).link b1 (r.n + 1) .else_).brk)
    (c := ((((r.emit (some b1) [branchIns v]).create.create).link b1 r.n .then_).link b1 (r.n + 1) .else_).cont) (by
      intro z hz
      rcases List.mem_cons.1 hz with rfl | hz
      · exact ⟨by have := h1.1.two; omega, by omega⟩
      · exact h2.1.brk z hz) h2.1.cont
  have p3 := ih h3 e5 (fun x hx => by
      rcases hx with hx | rfl
      · have := hZ x hx
        show _ < r.n + 2
        omega
      · show _ < r.n + 2
        omega) (Y := (r.n + 1) :: Y)
    (fun z hz => by cases hz; exact .inl (List.mem_cons_self ..))
    (fun hcc z hz => by
      have hz' : z ∈ (t.n :: t.cont).head? := by rw [c2]; exact hz
      cases hz'
      exact .inr (.inr rfl)) (p2.setBC _ _)
  cases hq : q.2 with
  | none =>
    rw [hq] at he p3
    cases he
    exact (p3.setBC _ _).less (fun _ h => .inl h) fun _ h => h
  | some z =>
    rw [hq] at he p3
    cases he
    exact ((to_pend p3 (.inr (.inr (.inr rfl)))).setBC _ _).less (fun _ h => .inl h) fun _ h => h

theorem do_pend {c : Expr} {st : Stmt} (hc : c.Plain H) (ok : st.Ok H) (ih : StP st) : StP (.doWhile st c) := by
  intro Z T t bb t' bb' Y h he0 hZ hk hn p
  simp only [lowerS] at he0
  obtain ⟨u, e1, he1⟩ := Option.bind_eq_some_iff.mp he0
  obtain ⟨b, rfl, rfl⟩ := connect_some e1
  obtain ⟨q, e2, he2⟩ := Option.bind_eq_some_iff.mp he1
  obtain ⟨r, e3, he⟩ := Option.map_eq_some_iff.mp he2
  clear he0 he1 he2 e1
  have n0 : (t.create.link b t.n .next).n = t.n + 1 := rfl
  rw [n0] at e2 e3 he
  have h0 : Rdy (t.create.link b t.n .next) (some t.n) := on_rdy h
  have h1 := h0.create.create.setBC (b := (t.n + 1 + 1) :: (t.create.link b t.n .next).brk) (c := (t.n + 1) :: (t.create.link b t.n .next).cont)
    (by
      intro z hz
      rcases List.mem_cons.1 hz with rfl | hz
      · exact ⟨by have := h.1.two; omega, Nat.lt_succ_self _⟩
      · exact h0.create.create.1.brk z hz) (by
      intro z hz
      rcases List.mem_cons.1 hz with rfl | hz
      · exact ⟨by have := h.1.two; omega, Nat.lt_succ_of_lt (Nat.lt_succ_self _)⟩
      · exact h0.create.create.1.cont z hz)
  have p1 := ((on_pend p).create.create.setBC ((t.n + 1 + 1) :: (t.create.link b t.n .next).brk) ((t.n + 1) :: (t.create.link b t.n .next).cont)).more
    (.inl (List.mem_cons_self ..))
  have p2 := ih h1 e2 (fun x hx => by
      show _ < t.n + 1 + 1 + 1
      rcases hx with hx | rfl
      · have := hZ x hx
        omega
      · omega) (Y := (t.n + 1) :: (t.n + 1 + 1) :: Y)
    (fun z hz => by cases hz; exact .inl (by simp)) (fun _ z hz => by cases hz; exact .inl (by simp))
    (p1.weak (by simp +contextual))
  have w2 := (lowerS_went ok h1 e2).1
  have n2 : t.n + 1 + 1 + 1 ≤ q.1.n := w2.n
  -- the state before the condition
  obtain ⟨s, hs, p3, h3, n3⟩ : ∃ s, (s = match (motive := Option Nat → PS) q.2 with | none => q.1 | some z => q.1.link z (t.n + 1) .next) ∧
      Pend (fun b => Z b ∨ b = t.n) T s ((some (t.n + 1)).toList ++ (t.n + 1 + 1) :: Y) ∧ Rdy s (some (t.n + 1)) ∧ t.n + 1 + 1 + 1 ≤ s.n := by
    cases hq : q.2 with
    | none =>
      rw [hq] at p2
      exact ⟨_, rfl, p2, w2.rdy.at (by omega), n2⟩
    | some z =>
      rw [hq] at p2
      exact ⟨_, rfl, to_pend p2 (.inr (.inl (List.mem_cons_self ..))),
        (w2.rdy.link (by have := h.1.two; omega) (by omega)).at (by show _ < q.1.n; omega), n2⟩
  have e3' : lowerC c s (some (t.n + 1)) = some r := by
    rw [← e3, hs]
    cases q.2 <;> rfl
  clear hs e3 p2
  have p4 := lowerC_pend hc p3 e3'
  have w4 := lowerC_went hc h3 e3'
  obtain ⟨r, r2, v⟩ := r
  simp only at he p4 w4
  cases r2 with
  | none =>
    cases he
    exact (p4.setBC _ _).less (fun _ h => .inl h) fun _ h => h
  | some z =>
    dsimp only at he
    split at he
    · rename_i hp
      cases he
      refine (Pend.setBC (s := r.emit (some z) [branchIns v]) ?_ _ _).less (Z' := fun b => Z b ∨ b = t.n) (T' := T) (fun _ h => .inl h) fun _ h => h
      refine ⟨fun x hx h1 => ?_, (p4.emit).half⟩
      rcases p4.emit.ways x hx h1 with k | k
      · exact .inl k
      · rcases List.mem_cons.1 k with rfl | k
        · exfalso
          have hz := w4.cur x rfl
          have h2 := h.1.two
          have hz' : t.n + 1 ≤ x := by
            rcases hz with hz | hz
            · cases hz; exact Nat.le_refl _
            · omega
          rcases hx with hx | (hx | hx) | hx
          · omega
          · have := hZ x hx
            omega
          · omega
          · exact hx hp
        · exact .inr k
    · cases he
      refine (Pend.setBC (s := ((r.emit (some z) [branchIns v]).link z t.n .then_).link z (t.n + 1 + 1) .else_) ?_ _ _).less
        (Z' := fun b => Z b ∨ b = t.n) (T' := T) (fun _ h => .inl h) fun _ h => h
      refine Pend.mono (p4.emit.link.link) ?_
      intro x hx
      have hw : Ways (((r.emit (some z) [branchIns v]).link z t.n .then_).link z (t.n + 1 + 1) .else_) z := .inr ⟨by ways, by ways, by ways⟩
      simp only [List.mem_cons, Option.toList_some, List.cons_append, List.nil_append] at hx ⊢
      rcases hx with rfl | rfl | rfl | rfl | hx
      · exact .inl (.inl rfl)
      · rcases p4.ways t.n (.inr (.inl (.inr rfl))) (by have := h.1.two; omega) with k | k
        · exact .inr (.inr (ways_link (ways_link (ways_emit k))))
        · simp only [List.mem_cons, Option.toList_some, List.cons_append, List.nil_append] at k
          rcases k with k | k | k
          · exact .inr (.inr (Eq.mpr (congrArg (Ways _) k) hw))
          · omega
          · exact .inl (.inr k)
      · exact .inr (.inr hw)
      · exact .inl (.inl rfl)
      · exact .inl (.inr hx)

mutual
theorem falls_of_completes (st : Stmt) (h : st.completes = true) : st.falls = true := by
  match st with
  | .brk => cases h
  | .cont => cases h
  | .ret _ => cases h
  | .block ss =>
    simp only [Stmt.completes] at h
    simp only [Stmt.falls]
    exact fallss_of_completes ss h
  | .iteElse c t e =>
    simp only [Stmt.completes, Bool.or_eq_true] at h
    simp only [Stmt.falls, Bool.or_eq_true]
    exact h.imp (falls_of_completes t) (falls_of_completes e)
  | .switch_ e cs =>
    simp only [Stmt.completes] at h
    simp only [Stmt.falls, Bool.or_eq_true]
    exact .inl (fallsc_of_completes cs h)
  | .expr _ => rfl
  | .empty => rfl
  | .ite _ _ => rfl
  | .while_ _ _ => rfl
  | .doWhile _ _ => rfl
  | .for_ _ _ _ _ _ => rfl
theorem fallss_of_completes (ss : Stmts) (h : ss.completes = true) : ss.falls = true := by
  match ss with
  | .nil => rfl
  | .cons s ss =>
    simp only [Stmts.completes, Bool.and_eq_true] at h
    simp only [Stmts.falls, Bool.and_eq_true]
    exact ⟨falls_of_completes s h.1, fallss_of_completes ss h.2⟩
theorem fallsc_of_completes (cs : Cases) (h : cs.completes = true) : cs.falls = true := by
  match cs with
  | .nil => cases h
  | .cons none b .nil =>
    simp only [Cases.completes] at h
    simp only [Cases.falls]
    exact fallss_of_completes b h
  | .cons (some _) b .nil => rfl
  | .cons l b (.cons l' b' r) =>
    have h' : (Cases.cons l' b' r).completes = true := by cases l <;> simpa only [Cases.completes] using h
    have := fallsc_of_completes (.cons l' b' r) h'
    cases l <;> simpa only [Cases.falls] using this
end

theorem for_pend {init : Option Expr} {c : Option Expr} {one : Nat} {inc : Option Expr} {st : Stmt} (hi : ∀ e, init = some e → e.Plain H)
    (hc : ∀ e, c = some e → e.Plain H) (hj : ∀ e, inc = some e → e.Plain H ∧ e.straight = true) (ok : st.Ok H)
    (hcc : optCode inc ≠ [] ∨ st.conts = false ∨ st.completes = true) (ih : StP st) : StP (.for_ init c one inc st) := by
  intro Z T t bb t' bb' Y h he0 hZ hk hn p
  simp only [lowerS] at he0
  obtain ⟨u, e1, he1⟩ := Option.bind_eq_some_iff.mp he0
  obtain ⟨b, rfl, rfl⟩ := connect_some e1
  obtain ⟨ri, e2, he2⟩ := Option.bind_eq_some_iff.mp he1
  obtain ⟨u, e3, he3⟩ := Option.bind_eq_some_iff.mp he2
  obtain ⟨b1, hb1, rfl⟩ := connect_some e3
  obtain ⟨r, e4, he4⟩ := Option.bind_eq_some_iff.mp he3
  obtain ⟨u, e5, he5⟩ := Option.bind_eq_some_iff.mp he4
  obtain ⟨b2, hb2, rfl⟩ := connect_some e5
  obtain ⟨rz, e6, he6⟩ := Option.bind_eq_some_iff.mp he5
  obtain ⟨u, e7, he7⟩ := Option.bind_eq_some_iff.mp he6
  obtain ⟨b3, hb3, rfl⟩ := connect_some e7
  obtain ⟨q, e8, he8⟩ := Option.bind_eq_some_iff.mp he7
  obtain ⟨s9, e9, he⟩ := Option.map_eq_some_iff.mp he8
  clear he0 he1 he2 he3 he4 he5 he6 he7 he8 e1 e3 e5 e7
  rw [hb2] at hb3
  cases hb3
  obtain ⟨ri, ri2⟩ := ri
  obtain ⟨r, r2, v⟩ := r
  simp only at hb1 hb2
  subst hb1
  subst hb2
  have t2 := h.1.two
  -- up to the condition
  have h0 : Rdy (t.create.link b t.n .next) (some t.n) := on_rdy h
  have w1 := lowerOpt_went hi h0 e2
  have p1 := lowerOpt_pend hi (bb := some t.n) (on_pend p) e2
  have n1 : t.n + 1 ≤ ri.n := w1.n
  dsimp only at e4
  have h1 : Rdy (ri.create.create.link b1 ri.n .next) (some ri.n) :=
    (w1.rdy.create.create.link (by omega) (by show _ < ri.n + 2; omega)).at (by show _ < ri.n + 2; omega)
  have p2 : Pend (fun b => Z b ∨ b = ri.n) T (ri.create.create.link b1 ri.n .next) ((some ri.n).toList ++ Y) := by
    refine Pend.more (Pend.mono p1.create.create.link ?_) (.inl (by simp))
    intro x hx
    simp only [List.mem_cons, Option.toList_some, List.cons_append, List.nil_append] at hx ⊢
    rcases hx with rfl | rfl | hx
    · exact .inl (.inl rfl)
    · exact .inr (.inr (.inl (by ways)))
    · exact .inl (.inr hx)
  have w2 := lowerForC_went hc h1 e4
  have p3 := lowerForC_pend hc p2 e4
  have n2 : ri.n + 2 ≤ r.n := w2.n
  have k2 : r.brk = t.brk := w2.brk.trans w1.brk
  have c2 : r.cont = t.cont := w2.cont.trans w1.cont
  have r2 := w2.rdy
  clear w2 w1 p1 p2 e2 e4 h0 h1
  dsimp only at e6 e8 e9 he
  have n3 : ((r.link b2 (ri.n + 1) .else_).emit (some b2) [branchIns v]).n = r.n := rfl
  rw [n3] at e6 e9
  obtain ⟨se, hse⟩ := lowerOpt_straight (fun e he => (hj e he).2) { ((r.link b2 (ri.n + 1) .else_).emit (some b2) [branchIns v]).create with
    brk := (ri.n + 1) :: ((r.link b2 (ri.n + 1) .else_).emit (some b2) [branchIns v]).create.brk,
    cont := r.n :: ((r.link b2 (ri.n + 1) .else_).emit (some b2) [branchIns v]).create.cont } (some r.n)
  have h4 : Rdy { ((r.link b2 (ri.n + 1) .else_).emit (some b2) [branchIns v]).create with
    brk := (ri.n + 1) :: ((r.link b2 (ri.n + 1) .else_).emit (some b2) [branchIns v]).create.brk,
    cont := r.n :: ((r.link b2 (ri.n + 1) .else_).emit (some b2) [branchIns v]).create.cont } (some r.n) := by
    have g : Rdy ((r.link b2 (ri.n + 1) .else_).emit (some b2) [branchIns v]).create (some r.n) :=
      (((r2.link (k := .else_) (p := b2) (q := ri.n + 1) (by omega) (by omega)).emit (o := some b2) (is := [branchIns v]) r2.2).create).at (Nat.lt_succ_self _)
    refine g.setBC ?_ ?_
    · intro z hz
      rcases List.mem_cons.1 hz with rfl | hz
      · exact ⟨by omega, by show _ < r.n + 1; omega⟩
      · exact g.1.brk z hz
    · intro z hz
      rcases List.mem_cons.1 hz with rfl | hz
      · exact ⟨by omega, by show _ < r.n + 1; omega⟩
      · exact g.1.cont z hz
  have f4 : ({ ((r.link b2 (ri.n + 1) .else_).emit (some b2) [branchIns v]).create with
    brk := (ri.n + 1) :: ((r.link b2 (ri.n + 1) .else_).emit (some b2) [branchIns v]).create.brk,
    cont := r.n :: ((r.link b2 (ri.n + 1) .else_).emit (some b2) [branchIns v]).create.cont } : PS).code r.n = [] := by
    have g := (r2.link (k := .else_) (p := b2) (q := ri.n + 1) (by omega) (by omega)).emit (o := some b2) (is := [branchIns v]) r2.2
    exact (g.1.fresh r.n (Nat.le_refl _)).2
  have p4 : Pend (fun b => Z b ∨ b = ri.n) T { ((r.link b2 (ri.n + 1) .else_).emit (some b2) [branchIns v]).create with
    brk := (ri.n + 1) :: ((r.link b2 (ri.n + 1) .else_).emit (some b2) [branchIns v]).create.brk,
    cont := r.n :: ((r.link b2 (ri.n + 1) .else_).emit (some b2) [branchIns v]).create.cont } ((ri.n + 1) :: b2 :: Y) :=
    (p3.link.emit.create).setBC _ _
  have x4 : Els { ((r.link b2 (ri.n + 1) .else_).emit (some b2) [branchIns v]).create with
    brk := (ri.n + 1) :: ((r.link b2 (ri.n + 1) .else_).emit (some b2) [branchIns v]).create.brk,
    cont := r.n :: ((r.link b2 (ri.n + 1) .else_).emit (some b2) [branchIns v]).create.cont } b2 :=
    (els_emit els_self : Els ((r.link b2 (ri.n + 1) .else_).emit (some b2) [branchIns v]) b2)
  have y4 : Br { ((r.link b2 (ri.n + 1) .else_).emit (some b2) [branchIns v]).create with
    brk := (ri.n + 1) :: ((r.link b2 (ri.n + 1) .else_).emit (some b2) [branchIns v]).create.brk,
    cont := r.n :: ((r.link b2 (ri.n + 1) .else_).emit (some b2) [branchIns v]).create.cont } b2 :=
    (br_self : Br ((r.link b2 (ri.n + 1) .else_).emit (some b2) [branchIns v]) b2)
  obtain ⟨w, hw⟩ : ∃ w : PS, w = { ((r.link b2 (ri.n + 1) .else_).emit (some b2) [branchIns v]).create with
    brk := (ri.n + 1) :: ((r.link b2 (ri.n + 1) .else_).emit (some b2) [branchIns v]).create.brk,
    cont := r.n :: ((r.link b2 (ri.n + 1) .else_).emit (some b2) [branchIns v]).create.cont } := ⟨_, rfl⟩
  have nw : w.n = r.n + 1 := by rw [hw]; rfl
  have kw : w.brk = (ri.n + 1) :: t.brk := by rw [hw, ← k2]; rfl
  have cw : w.cont = r.n :: t.cont := by rw [hw, ← c2]; rfl
  rw [← hw] at hse h4 f4 p4 x4 y4
  have e6' : lowerOpt inc w (some r.n) = some rz := by
    rw [hw]
    exact e6
  rw [hse] at e6'
  cases e6'
  clear hw e6 hse n3
  dsimp only at e8 e9 he
  simp only [Option.getD_some] at e9
  have nn : (w.emit (some r.n) (optCode inc)).n = r.n + 1 := nw
  -- the increment, and the block of the body
  obtain ⟨x, hx⟩ : ∃ x : PS, x = PS.link (PS.create { w.emit (some r.n) (optCode inc) with se := se }) b2 (r.n + 1) .then_ := ⟨_, rfl⟩
  have e8' : lowerS st x (some (r.n + 1)) = some q := by
    rw [hx, ← nn]
    exact e8
  have p5 : Pend (fun b => Z b ∨ b = ri.n) T x ((r.n + 1) :: (ri.n + 1) :: Y) := by
    rw [hx]
    refine Pend.mono ((p4.emit.se se).create.link) ?_
    intro z hz
    simp only [List.mem_cons] at hz ⊢
    rcases hz with rfl | rfl | rfl | hz
    · exact .inl (.inl rfl)
    · exact .inl (.inr (.inl rfl))
    · refine .inr (.inr (.inr ⟨by ways, els_link ?_, br_link ?_⟩))
      · exact (els_emit x4 : Els (w.emit (some r.n) (optCode inc)) z)
      · exact (br_emit y4 : Br (w.emit (some r.n) (optCode inc)) z)
    · exact .inl (.inr (.inr hz))
  have nx : x.n = r.n + 2 := by rw [hx]; exact congrArg (· + 1) nn
  have kx : x.brk = (ri.n + 1) :: t.brk := by rw [hx]; exact kw
  have cx : x.cont = r.n :: t.cont := by rw [hx]; exact cw
  have fx : x.code r.n = optCode inc := by
    rw [hx]
    show (w.emit (some r.n) (optCode inc)).code r.n = _
    simp only [PS.emit, upd_self, f4, List.nil_append]
  have h5 : Rdy x (some (r.n + 1)) := by
    rw [hx]
    have g := ((h4.emit (o := some r.n) (is := optCode inc) h4.2).se se).create
    exact (g.link (p := b2) (k := .then_) (q := r.n + 1) (by omega) (by show _ < w.n + 1; omega)).at (by show _ < w.n + 1; omega)
  clear hx e8 p4 p3 h4 f4 x4 y4
  have hZ' : ∀ b, (Z b ∨ b = ri.n) → b < x.n := fun y hy => by
    rcases hy with hy | rfl
    · have := hZ y hy
      omega
    · omega
  have hk' : ∀ {Y' : List Nat}, ∀ z ∈ x.brk.head?, z ∈ ((ri.n + 1) :: Y') ∨ (Z z ∨ z = ri.n) := fun z hz => by
    rw [kx] at hz
    cases hz
    exact .inl (List.mem_cons_self ..)
  have w5 := lowerS_went ok h5 e8'
  have code5 : q.1.code r.n = optCode inc := (w5.1.code r.n (by omega) (by simp)).trans fx
  have hfin : Pend (fun b => Z b ∨ b = ri.n) T s9 ((ri.n + 1) :: Y) := by
    have p6 := ih h5 e8' hZ' (Y := (ri.n + 1) :: r.n :: Y) hk' (fun _ z hz => by
      rw [cx] at hz
      cases hz
      exact .inl (by simp)) (Pend.weak (Y' := (some (r.n + 1)).toList ++ (ri.n + 1) :: r.n :: Y) p5 (by
      intro y hy
      simp only [Option.toList_some, List.cons_append, List.nil_append, List.mem_cons] at hy ⊢
      rcases hy with h | h | h
      · exact .inl h
      · exact .inr (.inl h)
      · exact .inr (.inr (.inr h))))
    cases hq : q.2 with
    | some v =>
      rw [hq] at e9 p6
      obtain ⟨z', hz', rfl⟩ := connect_some e9
      cases hz'
      have p6' : Pend (fun b => Z b ∨ b = ri.n) T q.1 (v :: (ri.n + 1) :: r.n :: Y) := p6
      have p7 := to_pend (q := r.n) p6' (.inr (.inl (by simp)))
      exact to_pend (b := r.n) (Pend.weak (Y' := r.n :: (ri.n + 1) :: Y) p7 (by
        intro y hy
        simp only [List.mem_cons] at hy ⊢
        rcases hy with h | h | h
        · exact .inr (.inl h)
        · exact .inl h
        · exact .inr (.inr h))) (.inr (.inr (.inr rfl)))
    | none =>
      rw [hq] at e9 p6
      dsimp only at e9
      split at e9
      · rename_i hcode
        cases e9
        rw [code5] at hcode
        have hcc' : st.conts = false := by
          rcases hcc with k | k | k
          · exact absurd hcode k
          · exact k
          · exact absurd hq (w5.2 (falls_of_completes st k) (by simp))
        have p7 := ih h5 e8' hZ' (Y := (ri.n + 1) :: Y) hk' (fun k => by rw [hcc'] at k; cases k) p5
        rw [hq] at p7
        exact p7
      · obtain ⟨z', hz', rfl⟩ := connect_some e9
        cases hz'
        exact to_pend (b := r.n) (p6.weak (by
          intro y hy
          simp only [Option.toList_none, List.nil_append, List.mem_cons] at hy ⊢
          rcases hy with h | h | h
          · exact .inr (.inl h)
          · exact .inl h
          · exact .inr (.inr h))) (.inr (.inr (.inr rfl)))
  have he' : ((({ s9 with brk := s9.brk.tail, cont := s9.cont.tail } : PS), some (ri.n + 1)) : PS × Option Nat) = (t', bb') := he
  cases he'
  exact (hfin.setBC _ _).less (fun _ h => .inl h) fun _ h => h

/-- The claim for the groups of a `switch`: `b` is the block of the comparison. -/
def CaP (cs : Cases) : Prop :=
  ∀ {Z T : Nat → Prop} {t : PS} {v y b : Nat} {tb : Option Nat} {t' : PS} {tb' : Option Nat} {Y : List Nat}, Rdy t tb → 2 ≤ b ∧ b < t.n →
    (∀ q ∈ tb, 2 ≤ q) → 2 ≤ y ∧ y < t.n → lowerCases cs v y t b tb = some (t', tb') → cs ≠ .nil → y ∈ Y →
    (∀ b, Z b → b < t.n) → (∀ z ∈ t.brk.head?, z ∈ Y ∨ Z z) → (cs.conts = true → ∀ z ∈ t.cont.head?, z ∈ Y ∨ Z z) →
    Pend Z T t (b :: (tb.toList ++ Y)) → Pend Z T t' (tb'.toList ++ Y)

/-- The claim for the statements of a group. -/
def BoP (ss : Stmts) : Prop :=
  ∀ {Z T : Nat → Prop} {t : PS} {bb : Option Nat} {t' : PS} {bb' : Option Nat} {Y : List Nat}, Rdy t bb → lowerBody ss t bb = some (t', bb') →
    (∀ b, Z b → b < t.n) → (∀ z ∈ t.brk.head?, z ∈ Y ∨ Z z) → (ss.conts = true → ∀ z ∈ t.cont.head?, z ∈ Y ∨ Z z) →
    Pend Z T t (bb.toList ++ Y) → Pend Z T t' (bb'.toList ++ Y)

/-- The end of the statements of a group. -/
def groupEnd (body : Stmts) (s : PS) (q : Option Nat) : PS × Option Nat :=
  match (match body with | .nil => true | _ => false), q with
  | false, some z => ((s.create.link z s.n .next), some s.n)
  | _, tb => (s, tb)

theorem groupEnd_pend {body : Stmts} {s : PS} {q : Option Nat} {Y : List Nat} (h : Rdy s q) (p : Pend Z T s (q.toList ++ Y)) :
    Rdy (groupEnd body s q).1 (groupEnd body s q).2 ∧ Pend Z T (groupEnd body s q).1 ((groupEnd body s q).2.toList ++ Y) ∧
      s.n ≤ (groupEnd body s q).1.n ∧ (groupEnd body s q).1.brk = s.brk ∧ (groupEnd body s q).1.cont = s.cont := by
  cases q with
  | none => cases body <;> exact ⟨h, p, Nat.le_refl _, rfl, rfl⟩
  | some b =>
    cases body with
    | nil => exact ⟨h, p, Nat.le_refl _, rfl, rfl⟩
    | cons st ss => exact ⟨on_rdy h, on_pend p, Nat.le_succ _, rfl, rfl⟩

theorem groupEnd_two {body : Stmts} {s : PS} {q : Option Nat} (h : Rdy s q) (h2 : ∀ z ∈ q, 2 ≤ z) : ∀ z ∈ (groupEnd body s q).2, 2 ≤ z := by
  cases q with
  | none => cases body <;> exact fun z hz => by cases hz
  | some b =>
    cases body with
    | nil => exact h2
    | cons st ss =>
      intro z hz
      cases hz
      exact h.1.two

theorem nextBody_pend {s : PS} {tb : Option Nat} {Y : List Nat} (h : Rdy s tb) (h2 : ∀ z ∈ tb, 2 ≤ z) (p : Pend Z T s (tb.toList ++ Y)) :
    Rdy (nextBody s tb).1 (nextBody s tb).2 ∧ Pend Z T (nextBody s tb).1 ((nextBody s tb).2.toList ++ Y) ∧ s.n ≤ (nextBody s tb).1.n ∧
      (nextBody s tb).1.brk = s.brk ∧ (nextBody s tb).1.cont = s.cont ∧ ∀ z ∈ (nextBody s tb).2, 2 ≤ z := by
  cases tb with
  | none =>
    refine ⟨h.create.at (Nat.lt_succ_self _), p.create.weak fun x hx => ?_, Nat.le_succ _, rfl, rfl, fun z hz => by cases hz; exact h.1.two⟩
    exact List.mem_append_right _ hx
  | some b => exact ⟨h, p, Nat.le_refl _, rfl, rfl, h2⟩

theorem case_pend {l : Option Label} {body : Stmts} {r : Cases} (ok : body.Ok H) (ihb : BoP body) (ihr : CaP r) : CaP (.cons l body r) := by
  intro Z T t v y b tb t' tb' Y h hb htb hy he0 _ hyY hZ hk hn p
  rw [lowerCases.eq_def] at he0
  dsimp only at he0
  obtain ⟨tq, rfl, he1⟩ := Option.bind_eq_some_iff.mp he0
  obtain ⟨q, e1, he⟩ := Option.bind_eq_some_iff.mp he1
  clear he0 he1
  have ht := htb tq rfl
  have htn := h.2 tq rfl
  obtain ⟨q1, q2⟩ := q
  obtain ⟨g, hg⟩ : ∃ g, g = groupEnd body q1 q2 := ⟨_, rfl⟩
  cases l with
  | none =>
    cases r with
    | cons l' b' r' => cases he
    | nil =>
      have he' : some (g.1, g.2) = some (t', tb') := by
        rw [hg]
        cases q2 <;> cases body <;> exact he
      dsimp only at e1
      have h1 : Rdy (t.link b tq .next) (some tq) := h.link ht htn
      have p1 : Pend Z T (t.link b tq .next) ((some tq).toList ++ Y) := to_pend p (.inr (.inl (by simp)))
      have p2 := ihb h1 e1 hZ hk (fun hc => hn (by simp [Cases.conts, hc])) p1
      have w := lowerBody_went ok h1 e1
      obtain ⟨_, p3, _⟩ := groupEnd_pend (body := body) w.rdy p2
      rw [← hg] at p3
      cases he'
      exact p3
  | some k =>
    dsimp only at e1
    have h1 : Rdy ((lowerLabel k v t b).link b tq .then_) (some tq) :=
      (h.emit (o := some b) (is := k.code v ++ [branchIns k.t]) (fun x hx => by cases hx; exact hb.2)).link ht htn
    have b1 : Br ((lowerLabel k v t b).link b tq .then_) b := by
      refine ⟨branchIns k.t, ?_, rfl⟩
      simp [lowerLabel, PS.emit, PS.link, upd]
    have p1 : Pend Z (fun x => T x ∨ x = b) ((lowerLabel k v t b).link b tq .then_) ((some tq).toList ++ b :: Y) := by
      have := (p.emit (o := some b) (is := k.code v ++ [branchIns k.t])).link (p := b) (q := tq) (k := .then_)
      have := this.weak (Y' := (some tq).toList ++ b :: Y) (by
        intro x hx
        simp only [Option.toList_some, List.cons_append, List.nil_append, List.mem_cons] at hx ⊢
        rcases hx with h | h | h | h
        · exact .inl h
        · exact .inr (.inl h)
        · exact .inl h
        · exact .inr (.inr h))
      exact ⟨this.ways, fun x hx => by
        rcases hx with hx | rfl
        · exact this.half x hx
        · exact ⟨thn_self, b1⟩⟩
    have p2 := ihb h1 e1 hZ (fun z hz => mem_mono (hk z hz) (by simp +contextual))
      (fun hc z hz => mem_mono (hn (by simp [Cases.conts, hc]) z hz) (by simp +contextual)) p1
    have w := lowerBody_went ok h1 e1
    have hq2 : ∀ z ∈ q2, 2 ≤ z := by
      intro z hz
      rcases w.cur z hz with k | k
      · cases k; exact ht
      · exact Nat.le_trans h.1.two k
    obtain ⟨h3, p3, n3, k3, c3⟩ := groupEnd_pend (body := body) w.rdy p2
    have t3 := groupEnd_two (body := body) w.rdy hq2
    have nw : t.n ≤ q1.n := w.n
    have kw : q1.brk = t.brk := w.brk
    have cw : q1.cont = t.cont := w.cont
    rw [← hg] at h3 p3 n3 k3 c3 t3
    obtain ⟨g1, g2⟩ := g
    simp only at h3 p3 n3 k3 c3 t3
    obtain ⟨x1, x2⟩ := p3.half b (.inr rfl)
    cases r with
    | nil =>
      have he' : some ((g1, g2).1.link b y .else_, (g1, g2).2) = some (t', tb') := by
        rw [hg]
        cases q2 <;> cases body <;> exact he
      cases he'
      refine (Pend.mono (Y' := g2.toList ++ Y) p3.link ?_).less (fun _ h => h) (fun _ h => .inl h)
      intro x hx
      simp only [List.mem_cons, List.mem_append] at hx ⊢
      rcases hx with rfl | hx | rfl | hx
      · exact .inl (.inr hyY)
      · exact .inl (.inl hx)
      · exact .inr (.inr (.inr ⟨by ways, by ways, by ways⟩))
      · exact .inl (.inr hx)
    | cons l' body' r' =>
      have he' : lowerCases (.cons l' body' r') v y (nextBody ((g1, g2).1.create.link b (g1, g2).1.n .else_) (g1, g2).2).1 (g1, g2).1.n
          (nextBody ((g1, g2).1.create.link b (g1, g2).1.n .else_) (g1, g2).2).2 = some (t', tb') := by
        rw [hg]
        cases q2 <;> cases body <;> exact he
      dsimp only at he'
      have h4 : Rdy (g1.create.link b g1.n .else_) g2 := h3.create.link h3.1.two (Nat.lt_succ_self _)
      have p4 : Pend Z T (g1.create.link b g1.n .else_) (g2.toList ++ g1.n :: Y) := by
        refine (Pend.mono (Y' := g2.toList ++ g1.n :: Y) p3.create.link ?_).less (fun _ h => h) (fun _ h => .inl h)
        intro x hx
        simp only [List.mem_cons, List.mem_append] at hx ⊢
        rcases hx with rfl | hx | rfl | hx
        · exact .inl (.inr (.inl rfl))
        · exact .inl (.inl hx)
        · exact .inr (.inr (.inr ⟨by ways, by ways, by ways⟩))
        · exact .inl (.inr (.inr hx))
      have n4 : (g1.create.link b g1.n .else_).n = g1.n + 1 := rfl
      obtain ⟨h5, p5, n5, k5, c5, t5⟩ := nextBody_pend h4 t3 p4
      have k6 : (nextBody (g1.create.link b g1.n .else_) g2).1.brk = t.brk := k5.trans (k3.trans kw)
      have c6 : (nextBody (g1.create.link b g1.n .else_) g2).1.cont = t.cont := c5.trans (c3.trans cw)
      generalize nextBody (g1.create.link b g1.n .else_) g2 = d at he' h5 p5 n5 k6 c6 t5
      refine ihr h5 ⟨h3.1.two, by omega⟩ t5 ⟨hy.1, by omega⟩ he' (fun h => by cases h) hyY (fun x hx => by have := hZ x hx; omega)
        (fun z hz => hk z (k6 ▸ hz)) (fun hc z hz => hn (by rw [Cases.conts, hc, Bool.or_true]) z (c6 ▸ hz)) (p5.weak ?_)
      intro x hx
      simp only [List.mem_cons, List.mem_append] at hx ⊢
      rcases hx with hx | hx | hx
      · exact .inr (.inl hx)
      · exact .inl hx
      · exact .inr (.inr hx)

theorem switch_pend {e : Expr} {cs : Cases} (hc : e.Plain H) (hne : cs ≠ .nil) (ih : CaP cs) : StP (.switch_ e cs) := by
  intro Z T t bb t' bb' Y h he0 hZ hk hn p
  simp only [lowerS] at he0
  obtain ⟨u, e1, he1⟩ := Option.bind_eq_some_iff.mp he0
  obtain ⟨b, rfl, rfl⟩ := connect_some e1
  obtain ⟨r, e2, he2⟩ := Option.bind_eq_some_iff.mp he1
  obtain ⟨b1, hb1, he3⟩ := Option.bind_eq_some_iff.mp he2
  obtain ⟨q, e3, he⟩ := Option.map_eq_some_iff.mp he3
  clear he0 he1 he2 he3 e1
  obtain ⟨r, r2, v⟩ := r
  simp only at hb1
  subst hb1
  obtain ⟨h1, p1, n1, k1, c1⟩ := cond_pend hc (bk := t.brk) (cn := t.cont) h rfl (fun z hz => .inl hz) e2 p
  have w1 := (lowerC_went hc (on_rdy h) e2).cur b1 rfl
  have t2 := h.1.two
  have hb1 : 2 ≤ b1 := by
    rcases w1 with k | k
    · cases k; exact t2
    · have : t.n + 1 ≤ b1 := k
      omega
  dsimp only at e3 he
  have h2 : Rdy { r.create.create with brk := r.n :: r.create.create.brk } (some (r.n + 1)) := by
    refine (h1.create.create.setBC (b := r.n :: r.create.create.brk) (c := r.create.create.cont) ?_ h1.create.create.1.cont).at ?_
    · intro z hz
      rcases List.mem_cons.1 hz with rfl | hz
      · exact ⟨h1.1.two, by show _ < r.n + 2; omega⟩
      · exact h1.create.create.1.brk z hz
    · show _ < r.n + 2
      omega
  have p2 : Pend Z T { r.create.create with brk := r.n :: r.create.create.brk } (b1 :: ((some (r.n + 1)).toList ++ r.n :: Y)) :=
    ((p1.create.create.setBC (r.n :: r.create.create.brk) r.create.create.cont).weak (by
      intro x hx
      simp only [Option.toList_some, List.cons_append, List.nil_append, List.mem_cons] at hx ⊢
      rcases hx with hx | hx
      · exact .inl hx
      · exact .inr (.inr (.inr hx))))
  have p3 := ih h2 ⟨hb1, by have := h1.2 b1 rfl; show _ < r.n + 2; omega⟩ (fun z hz => by cases hz; have := h1.1.two; omega)
    ⟨h1.1.two, by show _ < r.n + 2; omega⟩ e3 hne (List.mem_cons_self ..) (fun x hx => by have := hZ x hx; show _ < r.n + 2; omega)
    (fun z hz => by cases hz; exact .inl (List.mem_cons_self ..))
    (fun hcc z hz => mem_mono (hn (by simpa only [Stmt.conts] using hcc) z (by rw [← c1]; exact hz)) (by simp +contextual)) p2
  obtain ⟨s, hs, p4⟩ : ∃ s, (s = match (motive := Option Nat → PS) q.2 with | none => q.1 | some z => q.1.link z r.n .next) ∧
      Pend Z T s (r.n :: Y) := by
    cases hq : q.2 with
    | none =>
      rw [hq] at p3
      exact ⟨_, rfl, p3⟩
    | some z =>
      rw [hq] at p3
      exact ⟨_, rfl, to_pend p3 (.inr (.inl (List.mem_cons_self ..)))⟩
  have he' : (({ s with brk := s.brk.tail } : PS), if (s.block r.n).prev = [] then none else some r.n) = (t', bb') := by
    rw [hs, ← he]
    cases q.2 <;> rfl
  clear he hs
  split at he'
  · rename_i hp
    cases he'
    refine Pend.setBC (s := s) ⟨fun x hx hx1 => ?_, p4.half⟩ s.brk.tail s.cont
    rcases p4.ways x hx hx1 with k | k
    · exact .inl k
    · rcases List.mem_cons.1 k with rfl | k
      · exfalso
        have := h1.1.two
        rcases hx with hx | hx | hx
        · omega
        · have := hZ _ hx
          omega
        · exact hx hp
      · exact .inr k
  · cases he'
    exact p4.setBC s.brk.tail s.cont

mutual
theorem lowerS_pend (st : Stmt) (ok : st.Ok H) : StP st := by
  match st, ok with
  | .expr e, ok =>
    intro Z T t bb t' bb' Y h he hZ hk hn p
    simp only [lowerS] at he
    obtain ⟨r, e1, e2⟩ := Option.map_eq_some_iff.mp he
    cases e2
    exact (lowerE_pend e ok.1 p e1).flush
  | .empty, _ =>
    intro Z T t bb t' bb' Y h he hZ hk hn p
    cases he
    exact p
  | .block ss, ok =>
    intro Z T t bb t' bb' Y h he hZ hk hn p
    simp only [lowerS] at he
    obtain ⟨b, rfl, e1⟩ := Option.bind_eq_some_iff.mp he
    exact lowerSs_pend ss ok h e1 hZ hk (fun hc => hn (by simpa only [Stmt.conts] using hc)) p
  | .ret none, ok =>
    intro Z T t bb t' bb' Y h he hZ hk hn p
    simp only [lowerS] at he
    obtain ⟨s1, e1, e2⟩ := Option.map_eq_some_iff.mp he
    obtain ⟨b, rfl, rfl⟩ := connect_some e1
    cases e2
    have := to_pend (q := t.exit) (p.emit (o := some b) (is := [retIns none])) (.inl h.1.exit)
    exact this
  | .ret (some e), ok =>
    intro Z T t bb t' bb' Y h he hZ hk hn p
    simp only [lowerS] at he
    obtain ⟨r, e1, he1⟩ := Option.bind_eq_some_iff.mp he
    obtain ⟨s1, e2, e3⟩ := Option.map_eq_some_iff.mp he1
    obtain ⟨b, hb, rfl⟩ := connect_some e2
    cases e3
    have w := lowerE_walk (Nat.zero_le 2) e (ok e rfl).1 h.tr (fun b hb => Option.mem_toList.2 hb) e1
    obtain ⟨B, w⟩ := w
    have g := (lowerE_pend e (ok e rfl).1 p e1).flush (o := r.2.1)
    have g := g.emit (o := r.2.1) (is := [retIns (some r.2.2)])
    rw [hb] at g ⊢
    refine to_pend g (.inl ?_)
    exact w.tr.inn.exit
  | .ite c t, ok =>
    intro Z T t' bb t'' bb' Y
    exact ite_pend ok.1 ok.2 (lowerS_pend t ok.2)
  | .iteElse c t e, ok =>
    intro Z T t' bb t'' bb' Y
    exact iteElse_pend ok.1 ok.2.1 ok.2.2 (lowerS_pend t ok.2.1) (lowerS_pend e ok.2.2)
  | .while_ c b, ok =>
    intro Z T t' bb t'' bb' Y
    exact while_pend ok.1 ok.2 (lowerS_pend b ok.2)
  | .doWhile b c, ok =>
    intro Z T t' bb t'' bb' Y
    exact do_pend ok.1 ok.2 (lowerS_pend b ok.2)
  | .for_ init c one inc b, ok =>
    intro Z T t bb t' bb' Y
    exact for_pend ok.1 ok.2.1 ok.2.2.2.1 ok.2.2.2.2.1 ok.2.2.2.2.2 (lowerS_pend b ok.2.2.2.2.1)
  | .switch_ e cs, ok =>
    intro Z T t' bb t'' bb' Y
    exact switch_pend ok.1 ok.2.1 (lowerCases_pend cs ok.2.2)
  | .brk, _ =>
    intro Z T t bb t' bb' Y h he hZ hk hn p
    simp only [lowerS] at he
    obtain ⟨y, hy, he1⟩ := Option.bind_eq_some_iff.mp he
    obtain ⟨s1, e1, e2⟩ := Option.map_eq_some_iff.mp he1
    obtain ⟨b, rfl, rfl⟩ := connect_some e1
    cases e2
    exact to_pend p (.inr (hk y hy))
  | .cont, _ =>
    intro Z T t bb t' bb' Y h he hZ hk hn p
    simp only [lowerS] at he
    obtain ⟨y, hy, he1⟩ := Option.bind_eq_some_iff.mp he
    obtain ⟨s1, e1, e2⟩ := Option.map_eq_some_iff.mp he1
    obtain ⟨b, rfl, rfl⟩ := connect_some e1
    cases e2
    exact to_pend p (.inr (hn rfl y hy))
theorem lowerSs_pend (ss : Stmts) (ok : ss.Ok H) {Z T : Nat → Prop} {t : PS} {bb : Option Nat} {t' : PS} {bb' : Option Nat} {Y : List Nat} (h : Rdy t bb)
    (he : lowerSs ss t bb = some (t', bb')) (hZ : ∀ b, Z b → b < t.n) (hk : ∀ z ∈ t.brk.head?, z ∈ Y ∨ Z z)
    (hn : ss.conts = true → ∀ z ∈ t.cont.head?, z ∈ Y ∨ Z z) (p : Pend Z T t (bb.toList ++ Y)) : Pend Z T t' (bb'.toList ++ Y) := by
  match ss, ok with
  | .nil, _ =>
    cases he
    exact p
  | .cons st ss, ok =>
    simp only [lowerSs] at he
    obtain ⟨r, e1, he⟩ := Option.bind_eq_some_iff.mp he
    have p1 := lowerS_pend st ok.1 h e1 hZ hk (fun hc => hn (by simp [Stmts.conts, hc])) p
    have w := (lowerS_went ok.1 h e1).1
    have nn : (r.1.flush r.2).n = r.1.n := by simp only [PS.flush, emitO_n]
    have kk : (r.1.flush r.2).brk = t.brk := by rw [← w.brk]; cases r.2 <;> rfl
    have cc : (r.1.flush r.2).cont = t.cont := by rw [← w.cont]; cases r.2 <;> rfl
    exact lowerSs_pend ss ok.2 w.rdy.flush he (fun x hx => by have := hZ x hx; have := w.n; omega) (by rw [kk]; exact hk)
      (fun hc => by rw [cc]; exact hn (by simp [Stmts.conts, hc])) p1.flush
theorem lowerBody_pend (ss : Stmts) (ok : ss.Ok H) : BoP ss := by
  match ss, ok with
  | .nil, _ =>
    intro Z T t bb t' bb' Y h he hZ hk hn p
    cases he
    exact p
  | .cons st ss, ok =>
    intro Z T t bb t' bb' Y h he hZ hk hn p
    simp only [lowerBody] at he
    obtain ⟨r, e1, he⟩ := Option.bind_eq_some_iff.mp he
    have p1 := lowerS_pend st ok.1 h e1 hZ hk (fun hc => hn (by simp [Stmts.conts, hc])) p
    have w := (lowerS_went ok.1 h e1).1
    exact lowerBody_pend ss ok.2 w.rdy he (fun x hx => by have := hZ x hx; have := w.n; omega) (by rw [w.brk]; exact hk)
      (fun hc => by rw [w.cont]; exact hn (by simp [Stmts.conts, hc])) p1
theorem lowerCases_pend (cs : Cases) {k : Nat} (ok : cs.Ok H k) : CaP cs := by
  match cs, ok with
  | .nil, _ =>
    intro Z T t v y b tb t' tb' Y _ _ _ _ _ h
    exact absurd rfl h
  | .cons l body r, ok =>
    intro Z T t v y b tb t' tb' Y
    exact case_pend ok.2.1 (lowerBody_pend body ok.2.1) (lowerCases_pend r ok.2.2)
end

/-- Every block that is entered, other than the exit, has a way on. -/
theorem lowerFn_ways {body : Stmts} (hb : body.Ok H) {P : PS} (hP : lowerFn body = some P) :
    ∀ b, (b = 0 ∨ (P.block b).prev ≠ []) → b ≠ 1 → Ways P b := by
  obtain ⟨s0, hs0⟩ : ∃ s0 : PS, s0 = { n := 2, block := fun _ => {}, code := fun _ => [], brk := [], cont := [], se := [], exit := 1 } :=
    ⟨_, rfl⟩
  unfold lowerFn at hP
  simp only [← hs0, Option.map_eq_some_iff] at hP
  obtain ⟨⟨s1, q⟩, h1, h2⟩ := hP
  have i0 : In s0 := by
    rw [hs0]
    refine ⟨Nat.le_refl _, rfl, ?_, fun b _ => ⟨rfl, rfl⟩, fun y hy => (by cases hy), fun y hy => (by cases hy)⟩
    intro b k q hq
    cases k <;> cases hq
  have r0 : Rdy s0 (some 0) := ⟨i0, fun b hb => by cases hb; rw [hs0]; show 0 < 2; omega⟩
  have p0 : Pend (fun _ => False) (fun _ => False) s0 ((some 0).toList ++ []) := by
    refine ⟨fun b hb _ => ?_, fun b h => h.elim⟩
    rcases hb with rfl | hb | hb
    · exact .inr (by simp)
    · exact hb.elim
    · rw [hs0] at hb
      exact absurd rfl hb
  have p1 := lowerSs_pend body hb r0 h1 (fun _ h => h.elim) (by rw [hs0]; exact fun z hz => by cases hz) (fun _ => by rw [hs0]; exact fun z hz => by cases hz) p0
  have key : Pend (fun _ => False) (fun _ => False) P [] := by
    cases q with
    | none =>
      simp only at h2
      rw [← h2]
      exact p1
    | some z =>
      simp only at h2
      rw [← h2]
      exact to_pend p1 (.inl rfl)
  intro b hb h1
  rcases key.ways b (hb.imp_right .inr) h1 with k | k
  · exact k
  · cases k

end Shecc.Stmt
