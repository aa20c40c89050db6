import Verif.Lemmas.StmtFor

/-! # Translation of `switch` -/

namespace Shecc.Stmt
open Shecc.Cfg
open CRename (Ins Mach Home run)
open CStmt

variable {M : Mach} {H : Home Nat}

theorem label_ok (B : Basic M) {l : Label} {v : Nat} (hl : l.Ok H v) {σ σ' : S M} (h : run M H (l.code v) σ = some σ') :
    truth M H σ' l.t = decide (BitVec.ofNat 32 l.val = CRename.rd M H σ v) ∧ CRename.rd M H σ' v = CRename.rd M H σ v := by
  obtain ⟨h1, h2, h3, h4⟩ := hl
  have h3' := Ne.symm h3
  have h4' := Ne.symm h4
  simp [Label.code, run, CRename.step, constIns, CRename.Ins.tag, CRename.arg1, B.const, B.eq, CRename.wr, h1, h2] at h
  subst h
  refine ⟨?_, ?_⟩
  · by_cases hv : H.mem v = true
    · simp [truth, CRename.rd, h2, h1, hv]
    · simp only [Bool.not_eq_true] at hv
      simp [truth, CRename.rd, h1, h2, hv, h3']
  · by_cases hv : H.mem v = true
    · simp [CRename.rd, hv]
    · simp only [Bool.not_eq_true] at hv
      simp [CRename.rd, hv, h3', h4']

theorem label_noBranch (l : Label) (v : Nat) : ∀ i ∈ l.code v, i.op ≠ .branch := by
  simp [Label.code, constIns]

/-! ### The groups -/

/-- The block for the statements of the next group. -/
inductive AfterBody (body : Stmts) (sB : PS) (q : Option Nat) : PS → Option Nat → Prop
  | nil (h : body = .nil) : AfterBody body sB q sB q
  | none (h : body ≠ .nil) (hq : q = none) : AfterBody body sB q sB none
  | some {z : Nat} (h : body ≠ .nil) (hq : q = some z) : AfterBody body sB q (sB.create.link z sB.n .next) (some sB.n)

theorem afterBody_ok {body : Stmts} (hb : BodyOk M H body) {sA sB sC : PS} {t : Nat} {q qC : Option Nat} (hr : Ready sA t)
    (hs : sA.se = []) (hc : sA.code t = []) (h : lowerBody body sA (some t) = some (sB, q)) (ha : AfterBody body sB q sC qC) :
    Post [t] sA sC ∧ (∀ z, qC = some z → z < sC.n ∧ (z = t ∨ sA.n ≤ z) ∧ Open sC z ∧ sC.code z = []) ∧
      (body.completes = true → qC ≠ none) ∧
      ∀ n F, Le sC F → ∀ σ : S M, Reach F n ⟨t, 0, σ⟩ sC qC H (execs M H n body σ) := by
  obtain ⟨p, c, e⟩ := hb sA t sB q hr hs h
  rw [hc] at e
  cases ha with
  | nil hn =>
    subst hn
    simp only [lowerBody, Option.some.injEq, Prod.mk.injEq] at h
    obtain ⟨rfl, rfl⟩ := h
    refine ⟨p.post, ?_, c, e⟩
    intro z hz
    cases hz
    exact ⟨hr.lt, .inl rfl, hr.opn, hc⟩
  | none hn hq =>
    subst hq
    exact ⟨p.post, (fun z hz => by cases hz), c, e⟩
  | @some z hn hq =>
    subst hq
    obtain ⟨lz, nz, oz⟩ := p.end_ z rfl
    have nB := p.post.n
    have fB := p.post.fresh hr.fresh
    have pl : Post [z] sB (sB.create.link z sB.n .next) :=
      ((Post.nil sB).create).link (by simp; omega) (oz.create.ptr _) (by simp) (fun _ => oz.clean)
    refine ⟨p.post.trans pl (by simpa using nz), ?_, (fun _ => by simp), ?_⟩
    · intro z' hz'
      cases hz'
      exact ⟨by simp, .inr nB, (fB _ (Nat.le_refl _)).2.create.link (by omega), (fB _ (Nat.le_refl _)).1⟩
    · intro n F hF σ
      refine (e n F (pl.le.trans hF) σ).join pl ?_
      intro b σ1 hb
      cases hb
      refine ⟨sB.n, rfl, ?_⟩
      have : (sB.create.link z sB.n .next).code sB.n = [] := (fB _ (Nat.le_refl _)).1
      rw [this]
      exact hF.jump (link_next _ _ _) σ1

/-- The start of a group. -/
def caseHead (l : Option Label) (v : Nat) (s : PS) (b t : Nat) : PS :=
  match l with
  | some l => (lowerLabel l v s b).link b t .then_
  | none => s.link b t .next

/-- The block for the comparison and the one for the statements of the next group. -/
inductive NextCase (sC : PS) (b : Nat) (qC : Option Nat) : PS → Nat → Prop
  | none (h : qC = none) : NextCase sC b qC (sC.create.link b sC.n .else_).create (sC.n + 1)
  | some {t : Nat} (h : qC = some t) : NextCase sC b qC (sC.create.link b sC.n .else_) t

theorem lowerCases_inv {l : Option Label} {body : Stmts} {r : Cases} {v y : Nat} {s : PS} {b t : Nat} {s' : PS} {tb' : Option Nat}
    (h : lowerCases (.cons l body r) v y s b (some t) = some (s', tb')) :
    ∃ sB q sC qC, lowerBody body (caseHead l v s b t) (some t) = some (sB, q) ∧ AfterBody body sB q sC qC ∧
      ((r = .nil ∧ tb' = qC ∧ ((∃ k, l = some k ∧ s' = sC.link b y .else_) ∨ (l = none ∧ s' = sC))) ∨
       (r ≠ .nil ∧ ∃ k, l = some k ∧ ∃ sE tE, NextCase sC b qC sE tE ∧ lowerCases r v y sE sC.n (some tE) = some (s', tb'))) := by
  obtain ⟨sA, hA⟩ : ∃ sA, sA = caseHead l v s b t := ⟨_, rfl⟩
  rw [← hA]
  cases r with
  | nil =>
    cases l with
    | none =>
      have hA' : sA = s.link b t .next := hA
      cases body with
      | nil =>
        simp only [lowerCases, Option.bind_some, Option.bind_eq_some_iff, ← hA', Option.some.injEq, Prod.mk.injEq] at h
        obtain ⟨q, h1, rfl, rfl⟩ := h
        exact ⟨q.1, q.2, q.1, q.2, h1, .nil rfl, .inl ⟨rfl, rfl, .inr ⟨rfl, rfl⟩⟩⟩
      | cons st ss =>
        simp only [lowerCases, Option.bind_some, Option.bind_eq_some_iff, ← hA', Option.some.injEq, Prod.mk.injEq] at h
        obtain ⟨⟨sB, q⟩, h1, h2, h3⟩ := h
        cases q with
        | none => exact ⟨sB, none, sB, none, h1, .none (by simp) rfl, .inl ⟨rfl, h3.symm, .inr ⟨rfl, h2.symm⟩⟩⟩
        | some z => exact ⟨sB, some z, _, _, h1, .some (by simp) rfl, .inl ⟨rfl, h3.symm, .inr ⟨rfl, h2.symm⟩⟩⟩
    | some k =>
      have hA' : sA = (lowerLabel k v s b).link b t .then_ := hA
      cases body with
      | nil =>
        simp only [lowerCases, Option.bind_some, Option.bind_eq_some_iff, ← hA', Option.some.injEq, Prod.mk.injEq] at h
        obtain ⟨q, h1, rfl, rfl⟩ := h
        exact ⟨q.1, q.2, q.1, q.2, h1, .nil rfl, .inl ⟨rfl, rfl, .inl ⟨k, rfl, rfl⟩⟩⟩
      | cons st ss =>
        simp only [lowerCases, Option.bind_some, Option.bind_eq_some_iff, ← hA', Option.some.injEq, Prod.mk.injEq] at h
        obtain ⟨⟨sB, q⟩, h1, h2, h3⟩ := h
        cases q with
        | none => exact ⟨sB, none, sB, none, h1, .none (by simp) rfl, .inl ⟨rfl, h3.symm, .inl ⟨k, rfl, h2.symm⟩⟩⟩
        | some z => exact ⟨sB, some z, _, _, h1, .some (by simp) rfl, .inl ⟨rfl, h3.symm, .inl ⟨k, rfl, h2.symm⟩⟩⟩
  | cons l' b' r' =>
    cases l with
    | none =>
      exfalso
      have hA' : sA = s.link b t .next := hA
      unfold lowerCases at h
      simp only [Option.bind_some, Option.bind_eq_some_iff] at h
      obtain ⟨q, h1, h2⟩ := h
      cases h2
    | some k =>
      have hA' : sA = (lowerLabel k v s b).link b t .then_ := hA
      unfold lowerCases at h
      simp only [Option.bind_some, Option.bind_eq_some_iff, ← hA'] at h
      obtain ⟨⟨sB, q⟩, h1, h2⟩ := h
      cases body with
      | nil =>
        cases q with
        | none => exact ⟨sB, none, sB, none, h1, .nil rfl, .inr ⟨by simp, k, rfl, _, _, .none rfl, h2⟩⟩
        | some z => exact ⟨sB, some z, sB, some z, h1, .nil rfl, .inr ⟨by simp, k, rfl, _, _, .some rfl, h2⟩⟩
      | cons st ss =>
        cases q with
        | none => exact ⟨sB, none, sB, none, h1, .none (by simp) rfl, .inr ⟨by simp, k, rfl, _, _, .none rfl, h2⟩⟩
        | some z => exact ⟨sB, some z, _, _, h1, .some (by simp) rfl, .inr ⟨by simp, k, rfl, _, _, .some rfl, h2⟩⟩

/-- The blocks before a group. -/
structure CaseReady (s : PS) (b t y : Nat) : Prop where
  fresh : Fresh s
  lb : b < s.n
  lt : t < s.n
  ly : y < s.n
  bt : b ≠ t
  yb : y ≠ b
  yt : y ≠ t
  ob : Open s b
  ot : Open s t
  ct : s.code t = []
  se : s.se = []

structure CPost (s : PS) (b t y : Nat) (s' : PS) (tb' : Option Nat) : Prop where
  post : Post [b, t] s s'
  end_ : ∀ z, tb' = some z → z < s'.n ∧ (z = t ∨ s.n ≤ z) ∧ Open s' z

def CasesOk (M : Mach) (H : Home Nat) (cs : Cases) (v : Nat) : Prop := cs ≠ .nil → ∀ s b t y s' tb', CaseReady s b t y →
  lowerCases cs v y s b (some t) = some (s', tb') → CPost s b t y s' tb' ∧
    (cs.completes = true → tb' ≠ none ∨ (s'.block y).prev ≠ []) ∧
    ∀ n F, Le s' F →
      (∀ σ : S M, Reach F n ⟨t, 0, σ⟩ s' tb' H (execFrom M H n cs 0 σ)) ∧
      ∀ σ σ' : S M, compares M H v (CRename.rd M H σ v) cs σ = some σ' →
        (pick (CRename.rd M H σ v) cs = none → (s'.block y).prev ≠ [] ∧ Go M H F ⟨b, (s.code b).length, σ⟩ ⟨y, 0, σ'⟩) ∧
        ∀ i, pick (CRename.rd M H σ v) cs = some i → Reach F n ⟨b, (s.code b).length, σ⟩ s' tb' H (execFrom M H n cs i σ')

/-- The head of a group. -/
theorem caseHead_ok {l : Option Label} {v : Nat} {s : PS} {b t y : Nat} (hr : CaseReady s b t y) {sA : PS}
    (hA : sA = caseHead l v s b t) :
    Post [b] s sA ∧ sA.n = s.n ∧ Ready sA t ∧ sA.code t = [] ∧ (∀ k, l = some k → (sA.block b).then_ = some t ∧
      (sA.block b).else_ = none ∧ (sA.block b).next = none ∧ sA.code b = s.code b ++ k.code v ++ [branchIns k.t]) ∧
      (l = none → (sA.block b).next = some t ∧ sA.code b = s.code b) := by
  have lb := hr.lb
  have bt := hr.bt
  cases l with
  | none =>
    have hA : sA = s.link b t .next := hA
    subst hA
    have p := post_link s b t .next lb (hr.ob.ptr _) (fun _ => hr.ob.clean)
    refine ⟨p, rfl, ⟨p.fresh hr.fresh, hr.lt, hr.ot.link (Ne.symm bt)⟩, hr.ct, (fun _ h => by cases h), fun _ => ⟨by simp, rfl⟩⟩
  | some k =>
    have hA : sA = (s.emit (some b) (k.code v ++ [branchIns k.t])).link b t .then_ := hA
    subst hA
    have p : Post [b] s ((s.emit (some b) (k.code v ++ [branchIns k.t])).link b t .then_) :=
      ((Post.nil s).emit lb hr.ob.notFrozen hr.ob.clean
        (Clean.appendTail (by simp [Clean, Label.code, constIns]; exact ⟨rfl, rfl⟩) (Tail.single _)) (by simp)).link (by simpa using lb) (hr.ob.ptr .then_)
        (by simp) (hx := nonext hr.ob.next)
    refine ⟨p, rfl, ⟨p.fresh hr.fresh, hr.lt, (hr.ot.emit _ _ (.inl (by simpa using bt))).link (Ne.symm bt)⟩, ?_, ?_, (fun h => by cases h)⟩
    · show (s.emit (some b) _).code t = []
      rw [emit_code_ne _ _ (Ne.symm bt)]
      exact hr.ct
    · intro k' hk
      cases hk
      refine ⟨by simp, ?_, ?_, ?_⟩
      · rw [link_else_ne _ _ _ (.inr (by simp))]; exact hr.ob.else_
      · rw [link_next_ne _ _ _ (.inr (by simp))]; exact hr.ob.next
      · show (s.emit (some b) _).code b = _
        simp

theorem Post.exitEq {V : List Nat} {s t : PS} (h : Post V s t) : t.exit = s.exit := h.exit

/-- A comparison and the branch after it. -/
theorem compare_go (B : Basic M) {k : Label} {v : Nat} (hk : k.Ok H v) {sA sX F : PS} {b t e : Nat} {pre : List (Ins Nat)}
    (hcode : sX.code b = pre ++ k.code v ++ [branchIns k.t]) (hth : (sX.block b).then_ = some t) (hel : (sX.block b).else_ = some e)
    (hF : Le sX F) {σ σ1 : S M} (h : run M H (k.code v) σ = some σ1) :
    Go M H F ⟨b, pre.length, σ⟩ ⟨if BitVec.ofNat 32 k.val = CRename.rd M H σ v then t else e, 0, σ1⟩ := by
  obtain ⟨h1, h2⟩ := label_ok B hk h
  obtain ⟨post, hp⟩ := hF.code b
  have g1 : Go M H F ⟨b, pre.length, σ⟩ ⟨b, (pre ++ k.code v).length, σ1⟩ := by
    refine ⟨(k.code v).length, ?_⟩
    rw [List.length_append]
    refine steps_code (k.code v) pre ([branchIns k.t] ++ post) σ σ1 ?_ (label_noBranch k v) h
    rw [← hp, hcode]; simp
  refine g1.trans ?_
  have := hF.branch (M := M) (H := H) hcode hth hel σ1
  rw [h1] at this
  simpa using this

theorem cases_cons (B : Basic M) {l : Option Label} {body : Stmts} {r : Cases} {v : Nat} (hl : ∀ k, l = some k → k.Ok H v)
    (hb : BodyOk M H body) (ih : CasesOk M H r v) : CasesOk M H (.cons l body r) v := by
  intro _ s b t y s' tb' hr h
  obtain ⟨sB, q, sC, qC, h1, ha, h2⟩ := lowerCases_inv h
  obtain ⟨sA, hA⟩ : ∃ sA, sA = caseHead l v s b t := ⟨_, rfl⟩
  rw [← hA] at h1
  obtain ⟨pA, nA, rA, cA, lA, dA⟩ := caseHead_ok hr hA
  have seA : sA.se = [] := pA.se.trans hr.se
  obtain ⟨pC, endC, compC, eC⟩ := afterBody_ok hb rA seA cA h1 ha
  have nC := pC.n
  have lb := hr.lb
  have ly := hr.ly
  have bC := pC.same b (by omega) (by simpa using hr.bt)
  rcases h2 with ⟨rfl, htb, h2⟩ | ⟨hne, k, rfl, sE, tE, hE, h3⟩
  · -- the last group
    have exec0 : ∀ n (σ : S M), execFrom M H n (.cons l body .nil) 0 σ = execs M H n body σ := by
      intro n σ
      simp only [execFrom]
      cases execs M H n body σ with
      | timeout => rfl
      | undef => rfl
      | ok o σ1 => cases o <;> rfl
    subst htb
    rcases h2 with ⟨k, rfl, rfl⟩ | ⟨rfl, hs'⟩
    · obtain ⟨th, el, nx, cd⟩ := lA k rfl
      have pl : Post [b] sC (sC.link b y .else_) := post_link sC b y .else_ (by omega) (by
        show Block.else_ _ = none
        rw [bC.else_]; exact el) (hx := fun _ => bC.next.trans nx)
      have pf : Post [b, t] s (sC.link b y .else_) := ((pA.mono (by simp)).trans pC (by simp)).trans pl (by simp)
      refine ⟨⟨pf, ?_⟩, (fun _ => .inr (link_prev_ne _ _ _ _)), ?_⟩
      · intro z hz
        obtain ⟨z1, z2, z3, _⟩ := endC z hz
        refine ⟨z1, by omega, z3.link ?_⟩
        rcases z2 with z2 | z2
        · rw [z2]; exact Ne.symm hr.bt
        · omega
      · intro n F hF
        have hFC := pl.le.trans hF
        have hA0 : ∀ σ : S M, Reach F n ⟨t, 0, σ⟩ (sC.link b y .else_) tb' H (execs M H n body σ) := by
          intro σ
          refine (eC n F hFC σ).join pl ?_
          intro z σ1 hz
          exact ⟨z, hz, Go.refl _ _⟩
        refine ⟨fun σ => by rw [exec0]; exact hA0 σ, ?_⟩
        intro σ σ' hcmp
        simp only [compares, Option.bind_eq_some_iff] at hcmp
        obtain ⟨σ1, hrun, hcmp⟩ := hcmp
        have hσ : σ1 = σ' := by
          split at hcmp <;> exact Option.some.inj hcmp
        subst hσ
        have g := compare_go B (sA := sA) (hl k rfl) (sX := sC.link b y .else_) (b := b) (t := t) (e := y) (pre := s.code b)
          (by show sC.code b = _; rw [bC.code, cd]) (by
            rw [link_then_ne _ _ _ (.inr (by simp)), bC.then_]; exact th) (by simp) hF hrun
        refine ⟨?_, ?_⟩
        · intro hp
          simp only [pick] at hp
          split at hp
          · cases hp
          · rename_i hneq
            rw [if_neg hneq] at g
            exact ⟨link_prev_ne _ _ _ _, g⟩
        · intro i hp
          simp only [pick] at hp
          split at hp
          · rename_i heq
            cases hp
            rw [if_pos heq] at g
            rw [exec0]
            exact (hA0 σ1).before g
          · simp at hp
    · subst hs'
      obtain ⟨nx, cd⟩ := dA rfl
      have pf : Post [b, t] s s' := (pA.mono (by simp)).trans pC (by simp)
      refine ⟨⟨pf, ?_⟩, ?_, ?_⟩
      · intro z hz
        obtain ⟨z1, z2, z3, _⟩ := endC z hz
        exact ⟨z1, by omega, z3⟩
      · intro hc
        exact .inl (compC hc)
      · intro n F hF
        refine ⟨fun σ => by rw [exec0]; exact eC n F hF σ, ?_⟩
        intro σ σ' hcmp
        simp only [compares, Option.some.injEq] at hcmp
        subst hcmp
        refine ⟨(fun hp => by simp [pick] at hp), ?_⟩
        intro i hp
        simp only [pick, Option.some.injEq] at hp
        subst hp
        rw [exec0]
        refine (eC n F hF σ).before ?_
        have := hF.jump (M := M) (H := H) (b := b) (q := t) (by rw [bC.next]; exact nx) σ
        rw [bC.code, cd] at this
        exact this
  · obtain ⟨th, el, nx, cd⟩ := lA k rfl
    -- the next group
    have pl : Post [b] sC (sC.create.link b sC.n .else_) := ((Post.nil sC).create).link (by simp; omega) (by
        show Block.else_ (sC.block b) = none
        rw [bC.else_]; exact el) (by simp) (hx := fun _ => bC.next.trans nx)
    have fC := pC.fresh rA.fresh
    have pE : Post [b] sC sE ∧ CaseReady sE sC.n tE y ∧ sE.code b = sA.code b ∧ (sE.block b).then_ = some t ∧
        (sE.block b).else_ = some sC.n ∧ sE.code sC.n = [] ∧ (tE = t ∨ s.n ≤ tE) ∧ (∀ z, qC = some z → tE = z) := by
      have oN : Open (sC.create.link b sC.n .else_) sC.n := (fC _ (Nat.le_refl _)).2.create.link (by omega)
      have hthen : ((sC.create.link b sC.n .else_).block b).then_ = some t := by
        rw [link_then_ne _ _ _ (.inr (by simp))]
        exact bC.then_.trans th
      have hse : (sC.create.link b sC.n .else_).se = [] := by
        rw [pl.se, pC.se, seA]
      cases hE with
      | none hq =>
        refine ⟨pl.create, ⟨pl.create.fresh fC, by simp; omega, by simp, by simp; omega, by omega, by omega, by omega, oN.create, ?_, ?_,
          hse⟩, bC.code, hthen, link_else _ _ _, (fC _ (Nat.le_refl _)).1, .inr (by omega), (fun z hz => by rw [hq] at hz; cases hz)⟩
        · exact ((fC _ (by omega)).2.create.link (by omega)).create
        · exact (fC _ (by omega)).1
      | some hq =>
        obtain ⟨z1, z2, z3, z4⟩ := endC tE hq
        have := hr.yt
        refine ⟨pl, ⟨pl.fresh fC, by simp, by simp; omega, by simp; omega, by omega, by omega, by rcases z2 with h | h <;> omega, oN, ?_, z4,
          hse⟩, bC.code, hthen, link_else _ _ _, (fC _ (Nat.le_refl _)).1, by omega, (fun z hz => by rw [hq] at hz; exact Option.some.inj hz)⟩
        refine z3.create.link ?_
        rcases z2 with z2 | z2
        · rw [z2]; exact Ne.symm hr.bt
        · omega
    obtain ⟨pE, rE, cbE, thE, elE, cnE, tEE, qE⟩ := pE
    have nE := pE.n
    obtain ⟨pr, compr, er⟩ := ih hne sE sC.n tE y s' tb' rE h3
    have pf : Post [b, t] s s' := by
      refine (((pA.mono (by simp)).trans pC (by simp)).trans pE (by simp)).trans pr.post ?_
      intro x hx
      simp at hx
      rcases hx with hx | hx
      · right; omega
      · subst hx
        rcases tEE with h | h
        · left; simp [h]
        · right; exact h
    refine ⟨⟨pf, ?_⟩, ?_, ?_⟩
    · intro z hz
      obtain ⟨z1, z2, z3⟩ := pr.end_ z hz
      refine ⟨z1, ?_, z3⟩
      rcases z2 with z2 | z2
      · rw [z2]; exact tEE
      · right; omega
    · intro hc
      cases r with
      | nil => exact absurd rfl hne
      | cons l' b' r' => exact compr hc
    · intro n F hF
      have hFE := pr.post.le.trans hF
      have hFC := pE.le.trans hFE
      obtain ⟨eA, eB⟩ := er n F hF
      have pCs' : Post (b :: [sC.n, tE]) sC s' := (pE.mono (by simp)).trans pr.post (by simp)
      have hA0 : ∀ σ : S M, Reach F n ⟨t, 0, σ⟩ s' tb' H (execFrom M H n (.cons (some k) body r) 0 σ) := by
        intro σ
        have := eC n F hFC σ
        simp only [execFrom]
        cases hx : execs M H n body σ with
        | timeout => rw [hx] at this; exact this
        | undef => trivial
        | ok o σ1 =>
          rw [hx] at this
          cases o with
          | normal =>
            obtain ⟨z, hz, g⟩ := this
            have hz' := (endC z hz).2.2.2
            rw [hz'] at g
            rw [← qE z hz] at g
            exact (eA σ1).before g
          | brk => exact this.later pCs' (by simp)
          | cont => exact this.later pCs' (by simp)
          | ret => exact this.later pCs' (by simp)
      refine ⟨hA0, ?_⟩
      intro σ σ' hcmp
      simp only [compares, Option.bind_eq_some_iff] at hcmp
      obtain ⟨σ1, hrun, hcmp⟩ := hcmp
      have g := compare_go B (sA := sA) (hl k rfl) (sX := sE) (b := b) (t := t) (e := sC.n) (pre := s.code b) (by rw [cbE, cd]) thE elE hFE hrun
      obtain ⟨_, hrd⟩ := label_ok B (hl k rfl) hrun
      by_cases heq : BitVec.ofNat 32 k.val = CRename.rd M H σ v
      · rw [if_pos heq] at g hcmp
        cases hcmp
        refine ⟨(fun hp => by simp [pick, heq] at hp), ?_⟩
        intro i hp
        simp only [pick, if_pos heq, Option.some.injEq] at hp
        subst hp
        exact (hA0 _).before g
      · rw [if_neg heq] at g hcmp
        rw [← hrd] at hcmp
        obtain ⟨b1, b2⟩ := eB σ1 σ' hcmp
        rw [cnE] at b1 b2
        refine ⟨?_, ?_⟩
        · intro hp
          simp only [pick, if_neg heq, Option.map_eq_none_iff] at hp
          rw [← hrd] at hp
          obtain ⟨b3, b4⟩ := b1 hp
          exact ⟨b3, g.trans b4⟩
        · intro i hp
          simp only [pick, if_neg heq, Option.map_eq_some_iff] at hp
          obtain ⟨j, hj, rfl⟩ := hp
          rw [← hrd] at hj
          simp only [execFrom]
          exact (b2 j hj).before g

theorem switch_stmt (B : Basic M) {e : Expr} {cs : Cases} (he : e.Plain H) (hne : cs ≠ .nil) (hc : CasesOk M H cs e.res) :
    StmtOk M H (.switch_ e cs) := by
  intro s bb s' bb' hr hs h
  simp only [lowerS, PS.connect, Option.map_some, Option.bind_some, Option.bind_eq_some_iff] at h
  obtain ⟨r, h1, h2⟩ := h
  obtain ⟨s1, hs1⟩ : ∃ s1, s1 = s.create.link bb s.n .next := ⟨_, rfl⟩
  obtain ⟨p1, r1, n1, c1, _, g1⟩ := enter_ok (M := M) (H := H) hr hs1
  rw [← hs1] at h1
  obtain ⟨s2, b2, k2, p2, e2⟩ := expr_ok B e he.1 he.2 s1 s.n r1
  have hr2 : r = (s2, some b2, e.res) := by
    unfold lowerC at h1
    split at h1
    · cases h1
    · rw [k2, Option.some.injEq] at h1
      exact h1.symm
  subst hr2
  have r2 := p2.ready r1
  have lt2 := r2.lt
  simp only [Option.some.injEq, exists_eq_left', Option.map_eq_some_iff] at h2
  obtain ⟨⟨s4, q⟩, h3, h4⟩ := h2
  obtain ⟨s3, hs3⟩ : ∃ s3, s3 = s2.create.create.setBC (s2.n :: s2.brk) s2.cont := ⟨_, rfl⟩
  have h3 : lowerCases cs e.res s2.n s3 b2 (some (s2.n + 1)) = some (s4, q) := by rw [hs3]; exact h3
  have fcc : Fresh s2.create.create := (post_create _).fresh ((post_create s2).fresh r2.fresh)
  have n3 : s3.n = s2.n + 2 := by rw [hs3]; rfl
  have f3 : ∀ k, s2.n ≤ k → s3.code k = [] ∧ Open s3 k := by
    intro k hk
    rw [hs3]
    exact ⟨(r2.fresh k hk).1, (r2.fresh k hk).2.create.create.bc _ _⟩
  have r3 : CaseReady s3 b2 (s2.n + 1) s2.n := by
    refine ⟨?_, by omega, by omega, by omega, by omega, by omega, by omega, ?_, (f3 _ (by omega)).2, (f3 _ (by omega)).1, ?_⟩
    · rw [hs3]
      exact fun x hx => ⟨(fcc x hx).1, (fcc x hx).2.bc _ _⟩
    · rw [hs3]; exact r2.opn.create.create.bc _ _
    · rw [hs3]; simp [p2.post.se, p1.se, hs]
  obtain ⟨p4, k4, e4⟩ := hc hne s3 b2 (s2.n + 1) s2.n s4 q r3 h3
  have n4 := p4.post.n
  have y4 := p4.post.same s2.n (by omega) (by simp; omega)
  obtain ⟨s5, hs5⟩ : ∃ s5, s5 = (match q with
    | none => s4
    | some z => s4.link z s2.n .next) := ⟨_, rfl⟩
  have H5 : Post [b2, s2.n + 1] s3 s5 ∧ Post q.toList s4 s5 ∧ (q ≠ none → (s5.block s2.n).prev ≠ []) ∧
      Same s4 s5 s2.n ∧ (∀ z, q = some z → ∀ F, Le s5 F → ∀ σ : S M,
      Go M H F ⟨z, (s4.code z).length, σ⟩ ⟨s2.n, 0, σ⟩) := by
    cases q with
    | none =>
      simp only at hs5
      subst hs5
      exact ⟨p4.post, Post.nil _, (fun h => absurd rfl h), Same.refl _ _, fun z hz => by cases hz⟩
    | some z =>
      simp only at hs5
      subst hs5
      obtain ⟨lz, nz, oz⟩ := p4.end_ z rfl
      have pl := post_link s4 z s2.n .next lz (oz.ptr _) (fun _ => oz.clean)
      refine ⟨p4.post.trans pl (by simp; omega), pl, (fun _ => link_prev_ne _ _ _ _), link_same _ _ _ (by omega), ?_⟩
      intro z' hz' F hF σ
      cases hz'
      exact hF.jump (link_next _ _ _) σ
  obtain ⟨p35, p45, v5, y5, T5⟩ := H5
  have brk5 : s5.brk = s2.n :: s2.brk := by rw [p35.brk, hs3]; rfl
  have brk4 : s4.brk = s2.n :: s2.brk := by rw [p4.post.brk, hs3]; rfl
  have cont5 : s5.cont = s2.cont := by rw [p35.cont, hs3]; rfl
  have cont4 : s4.cont = s2.cont := by rw [p4.post.cont, hs3]; rfl
  have hs' : s' = s5.setBC s2.brk s2.cont ∧ bb' = if (s5.block s2.n).prev = [] then none else some s2.n := by
    have : ({ s5 with brk := s5.brk.tail } : PS) = s5.setBC s2.brk s2.cont := by
      rw [brk5, ← cont5]; rfl
    rw [← this, hs5]
    cases q <;> simp only [Prod.mk.injEq] at h4 <;> exact ⟨h4.1.symm, h4.2.symm⟩
  obtain ⟨rfl, hbb'⟩ := hs'
  have n5 := p35.n
  have cy5 : (s5.setBC s2.brk s2.cont).code s2.n = [] := (y5.code.trans y4.code).trans (f3 _ (Nat.le_refl _)).1
  have oy5 : Open s5 s2.n := ((f3 _ (Nat.le_refl _)).2.same y4).same y5
  have pfin : Post [bb] s (s5.setBC s2.brk s2.cont) := by
    have a1 : Post [b2, s2.n + 1] s2.create.create (s5.setBC s2.brk s2.cont) := by
      rw [hs3] at p35; exact p35.bc
    have a2 : Post [b2] s2 (s5.setBC s2.brk s2.cont) := ((Post.nil s2).create.create).trans a1 (by simp)
    have a3 : Post [s.n] s1 (s5.setBC s2.brk s2.cont) := p2.post.trans a2 (by simp; exact p2.new)
    exact p1.trans a3 (by simp)
  refine ⟨⟨pfin, ?_⟩, ?_, ?_⟩
  · intro k hk
    rw [hbb'] at hk
    split at hk
    · cases hk
    · cases hk
      have := p2.post.n
      exact ⟨by simp; omega, .inr (by omega), oy5.bc _ _⟩
  · intro hcm
    rw [hbb']
    have : (s5.block s2.n).prev ≠ [] := by
      rcases k4 hcm with h | h
      · exact v5 h
      · exact p45.le.prev _ h
    rw [if_neg this]
    simp
  · intro N F hF σ
    have hF5 : Le s5 F := hF.ofBC
    have hF4 : Le s4 F := p45.le.trans hF5
    have hF3 : Le s3 F := p4.post.le.trans hF4
    have hF2 : Le s2 F := by rw [hs3] at hF3; exact ((post_create s2).create).le.trans hF3.ofBC
    have hF1 : Le s1 F := p2.post.le.trans hF2
    simp only [exec]
    cases hev : eval M H e σ with
    | none => trivial
    | some x =>
      obtain ⟨σ1, p⟩ := x
      have hp := eval_noSe e he.2 σ σ1 p hev
      subst hp
      have g := e2 F hF2 σ σ1 [] hev
      rw [c1] at g
      have g := (g1 F hF1 σ).trans g
      have c3 : s3.code b2 = s2.code b2 := by rw [hs3]; rfl
      simp only [run, Option.bind_some]
      obtain ⟨_, eB⟩ := e4 N F hF4
      cases hcm : compares M H e.res (CRename.rd M H σ1 e.res) cs σ1 with
      | none => trivial
      | some σ2 =>
        obtain ⟨b1, b2'⟩ := eB σ1 σ2 hcm
        rw [c3] at b1 b2'
        simp only
        have toY : ∀ (σ3 : S M) (c : Conf M), Go M H F c ⟨s2.n, 0, σ3⟩ → (s5.block s2.n).prev ≠ [] →
            Reach F N c (s5.setBC s2.brk s2.cont) bb' H (.ok .normal σ3) := by
          intro σ3 c hc hv
          refine ⟨s2.n, by rw [hbb', if_neg hv], ?_⟩
          rw [cy5]
          exact hc
        cases hpk : pick (CRename.rd M H σ1 e.res) cs with
        | none =>
          obtain ⟨hv, hg⟩ := b1 hpk
          exact toY σ2 _ (g.trans hg) (p45.le.prev _ hv)
        | some i =>
          have hreach := b2' i hpk
          simp only
          cases hx : execFrom M H N cs i σ2 with
          | timeout => rw [hx] at hreach; exact g.thenN hreach
          | undef => trivial
          | ok o σ3 =>
            rw [hx] at hreach
            cases o with
            | normal =>
              obtain ⟨z, hz, hg⟩ := hreach
              exact toY σ3 _ ((g.trans hg).trans (T5 z hz F hF5 σ3)) (v5 (by simp [hz]))
            | brk =>
              obtain ⟨y, hy, hv, hg⟩ := hreach
              rw [brk4] at hy
              cases hy
              exact toY σ3 _ (g.trans hg) (p45.le.prev _ hv)
            | cont =>
              obtain ⟨y, hy, hv, hg⟩ := hreach
              refine ⟨y, ?_, p45.le.prev _ hv, g.trans hg⟩
              rw [cont4] at hy
              exact hy
            | ret =>
              show Go M H F _ ⟨s5.exit, 0, σ3⟩
              rw [p45.exit]
              exact g.trans hreach

/-! ### All statements -/

mutual
theorem stmt_ok (B : Basic M) (st : Stmt) (h : st.Ok H) : StmtOk M H st := by
  match st with
  | .expr e => exact expr_stmt B h.1 h.2
  | .empty => exact empty_stmt
  | .block ss =>
    obtain ⟨a, b⟩ := body_ok B ss h
    exact block_stmt a b
  | .ret e => exact ret_stmt B h
  | .ite c t => exact ite_stmt B h.1 (stmt_ok B t h.2)
  | .iteElse c t e => exact iteElse_stmt B h.1 (stmt_ok B t h.2.1) (stmt_ok B e h.2.2)
  | .while_ c b => exact while_stmt B h.1 (stmt_ok B b h.2)
  | .doWhile b c => exact do_stmt B h.1 (stmt_ok B b h.2)
  | .for_ init c one inc b =>
    obtain ⟨h1, h2, h3, h4, h5, h6⟩ := h
    exact for_stmt B h1 h2 h3 h4 h6 (stmt_ok B b h5)
  | .switch_ e cs =>
    obtain ⟨h1, h2, h3⟩ := h
    exact switch_stmt B h1 h2 (cases_ok B cs e.res h3)
  | .brk => exact brk_stmt
  | .cont => exact cont_stmt
theorem body_ok (B : Basic M) (ss : Stmts) (h : ss.Ok H) : BodyOk M H ss ∧ SsEq ss := by
  match ss with
  | .nil => exact ⟨body_nil, ssEq_nil⟩
  | .cons st ss =>
    have h1 := stmt_ok B st h.1
    obtain ⟨h2, h3⟩ := body_ok B ss h.2
    exact ⟨body_cons h1 h2, ssEq_cons h1 h3⟩
theorem cases_ok (B : Basic M) (cs : Cases) (v : Nat) (h : cs.Ok H v) : CasesOk M H cs v := by
  match cs with
  | .nil => exact fun h => absurd rfl h
  | .cons l b r =>
    obtain ⟨h1, h2, h3⟩ := h
    exact cases_cons B h1 (body_ok B b h2).1 (cases_ok B r v h3)
end

end Shecc.Stmt
