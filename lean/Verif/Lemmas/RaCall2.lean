import Verif.Lemmas.RaStep
import Verif.Lemmas.RaClean

/-! Register allocation simulates the source: a whole call. -/

namespace RaLink
open Shecc Shecc.Ssa Shecc.RegAlloc IrM SrcBlock

section
variable {A : Abi} {tcall : Nat → String → State → State → Prop} {C : Ctx} {V : Vars} {sp gp : Word} {fofs : Nat → Nat}

theorem step_push {i : Insn} {s s' : St} (ho : i.op = .push) (h : Step C i s s') :
    ∃ a, i.rs1 = some a ∧ s' = { s with args := s.args ++ [rd C s a] } := by
  cases h <;> first | exact ⟨_, ‹_›, rfl⟩ | (simp_all)

theorem step_call {i : Insn} {s s' : St} (ho : i.op = .call) (h : Step C i s s') :
    ∃ m r, C.call i.str s.args s.mem m r ∧ s' = { s with mem := m, args := [], ret := r } := by
  cases h <;> first | exact ⟨_, _, ‹_›, rfl⟩ | (simp_all)

theorem step_funcRet {i : Insn} {s s' : St} (ho : i.op = .func_ret) (h : Step C i s s') :
    ∃ d x, i.rd = some d ∧ s.ret = some x ∧ s' = wr C s d x := by
  cases h <;> first | exact ⟨_, _, ‹_›, ‹_›, rfl⟩ | (simp_all)

theorem PI.weaken {B : Block} {D : Nat → Prop} {idx idx' idxC : Int} {st : RA} {s : St} {t : State}
    (P : PI C V sp gp fofs B D idx idxC st s t) (h : idx ≤ idx') : PI C V sp gp fofs B D idx' idxC st s t :=
  ⟨P.sp, P.gp, P.mem, P.gofs, P.stk,
    fun v h1 h2 h3 => P.home v h1 (h2.imp id (fun g => Int.le_trans h g)) h3, P.free, P.occ, P.len, P.arg, P.pushing⟩

theorem mono_pushTail (V : Vars) (B : Block) (a : Nat) (st : RA) : Mono st (pushTail V B a st) := mono_operand V B a none st

theorem prepareOperand_args (V : Vars) (B : Block) (v : Nat) (o : Option Nat) (st : RA) :
    (prepareOperand V B v o st).1.args = st.args :=
  (Ctl.operand (K := fun _ => True) (p := st.pushing) (n := st.args) (c := st.consumed) ⟨fun _ _ _ _ _ => trivial, rfl, rfl, rfl⟩ V B v o).args

/-- Without declarations, slots once given stay. -/
theorem allocInsns_mono_push (V : Vars) (B : Block) (ps : List Insn) : ∀ (idx : Nat) (st st' : RA), (∀ p ∈ ps, p.op = .push) →
    allocInsns V B idx ps st = some st' → Mono st st' := by
  induction ps with
  | nil => intro _ st st' _ he; cases he; exact Mono.refl st
  | cons p ps ih =>
    intro idx st st' hp he
    unfold allocInsns at he
    split at he
    · cases he
    · rename_i st1 h1
      unfold allocInsn at h1
      have a1 : Mono st (RegAlloc.refresh B idx st) := (Mono.closed st).refresh B _ (Mono.refl st)
      have a2 := (Mono.closed st).allocOp V B _ p (fun h => by rw [hp p (List.mem_cons_self ..)] at h; cases h) a1 h1
      exact a2.trans (ih _ _ _ (fun q hq => hp q (List.mem_cons_of_mem _ hq)) he)

theorem allocInsns_append (V : Vars) (B : Block) (xs ys : List Insn) : ∀ (idx : Nat) (st : RA),
    allocInsns V B idx (xs ++ ys) st =
      match allocInsns V B idx xs st with
      | none => none
      | some st1 => allocInsns V B (idx + xs.length) ys st1 := by
  induction xs with
  | nil => intro idx st; rfl
  | cons x xs ih =>
    intro idx st
    rw [List.cons_append, allocInsns, allocInsns]
    cases allocInsn V B idx x st with
    | none => rfl
    | some st1 =>
      simp only
      rw [ih (idx + 1) st1]
      have : idx + 1 + xs.length = idx + (x :: xs).length := by simp only [List.length_cons]; omega
      rw [this]

theorem run_append {xs ys : List Insn} : ∀ {s u : St}, SrcBlock.Run C (xs ++ ys) s u →
    ∃ m, SrcBlock.Run C xs s m ∧ SrcBlock.Run C ys m u := by
  induction xs with
  | nil => intro s u h; exact ⟨s, .nil s, h⟩
  | cons x xs ih =>
    intro s u h
    cases h with
    | cons h1 h2 =>
      obtain ⟨m, h3, h4⟩ := ih h2
      exact ⟨m, .cons h1 h3, h4⟩

theorem uses_append (V : Vars) (B : Block) (use : Nat → Int) (xs ys : List Insn) : ∀ (D : Nat → Prop) (idx : Nat),
    Uses V B use D idx (xs ++ ys) ↔
      Uses V B use D idx xs ∧ Uses V B use (fun v => D v ∨ ∃ i ∈ xs, result V i = some v) (idx + xs.length) ys := by
  induction xs with
  | nil =>
    intro D idx
    have : (fun v => D v ∨ ∃ i ∈ ([] : List Insn), result V i = some v) = D := by funext v; simp
    rw [this]
    simp [Uses]
  | cons x xs ih =>
    intro D idx
    rw [List.cons_append, Uses, Uses, ih]
    have e1 : idx + 1 + xs.length = idx + (x :: xs).length := by simp only [List.length_cons]; omega
    have e2 : (fun v => (D v ∨ result V x = some v) ∨ ∃ i ∈ xs, result V i = some v) =
        (fun v => D v ∨ ∃ i ∈ x :: xs, result V i = some v) := by
      funext v
      simp only [List.mem_cons, exists_eq_or_imp, or_assoc]
    rw [e1, e2, and_assoc]

theorem noClash_append (V : Vars) (B : Block) (xs ys : List Insn) : ∀ (idx : Nat) (st : RA), NoClash V B idx (xs ++ ys) st →
    NoClash V B idx xs st ∧ ∀ st1, allocInsns V B idx xs st = some st1 → NoClash V B (idx + xs.length) ys st1 := by
  induction xs with
  | nil =>
    intro idx st h
    refine ⟨trivial, ?_⟩
    intro st1 h1
    cases h1
    exact h
  | cons x xs ih =>
    intro idx st h
    obtain ⟨h1, h2⟩ := h
    refine ⟨⟨h1, fun st' h' => (ih _ _ (h2 st' h')).1⟩, ?_⟩
    intro st1 he
    unfold allocInsns at he
    split at he
    · cases he
    · rename_i sm hm
      have := (ih _ _ (h2 sm hm)).2 st1 he
      have e1 : idx + 1 + xs.length = idx + (x :: xs).length := by simp only [List.length_cons]; omega
      rw [← e1]; exact this

/-- While arguments are passed nothing is dropped. -/
theorem PI.refresh {B : Block} {D : Nat → Prop} {idx idxC : Int} {st : RA} {s : St} {t : State} {k : Int}
    (P : PI C V sp gp fofs B D idx idxC st s t) (h : k ≤ idxC) : refresh B k st = st := by
  apply refresh_eq
  intro i hi v hv
  by_cases hia : i < st.args
  · obtain ⟨u, g1, _, g3⟩ := P.occ i hi hia
    rw [hv] at g1
    cases g1
    exact g3.imp id (fun g => Int.le_trans h g)
  · rw [P.free i hi (by omega)] at hv
    cases hv

variable (S : Setup A tcall C V sp gp fofs)
include S

/-- The call itself. -/
theorem call_core {B : Block} {D : Nat → Prop} {idx : Int} {st : RA} {s : St} {t : State} {f : String} {m : Mem} {r : Option Word}
    (hsp : t.sp = sp) (hgp : t.gp = gp) (hmem : ∀ a, ¬ C.hidden a → t.mem a = s.mem a)
    (hgofs : ∀ v, V.isGlobal v = true → st.offset v = fofs v) (hstk : st.stack ≠ 0)
    (home : ∀ v, D v → Pend B st idx v → V.isGlobal v = false → st.offset v ≠ 0 ∧ slot t (fofs v) = s.val v)
    (hto : To fofs st) (hlen : s.args.length ≤ 8) (harg : ∀ j, j < s.args.length → t.reg (r3 j) = s.args.getD j 0)
    (hc : C.call f s.args s.mem m r) :
    Sim A tcall st (clearAll { st.emit { op := .call, func_name := f } with pushing := false, args := 0 }) t
      (fun t' => Rel C V sp gp fofs B D idx (clearAll { st.emit { op := .call, func_name := f } with pushing := false, args := 0 })
        { s with mem := m, args := [], ret := r } t' ∧ ∀ x, r = some x → t'.reg (r3 0) = x) := by
  obtain ⟨t', h1, h2, h3, h4, h5, h6⟩ := S.call st.out.length f t s.args s.mem m r hsp hgp hmem hlen harg hc
  refine ⟨[{ op := .call, func_name := f }], t', rfl, .call rfl h1 (.nil t'), ?_, h4⟩
  have hvar : ∀ i, i < 8 → (clearAll { st.emit { op := .call, func_name := f } with pushing := false, args := 0 }).var i = none := by
    intro i hi
    simp [clearAll, regCnt, hi]
  refine ⟨h2, h3, h5, hgofs, ?_, ?_, ?_, ?_, hstk⟩
  · intro i hi v hv
    rw [hvar i hi] at hv; cases hv
  · intro i hi v hv
    rw [hvar i hi] at hv; cases hv
  · intro v hD hp hg _
    obtain ⟨c1, c2⟩ := home v hD hp hg
    exact ⟨c1, by rw [h6 v hg (by rw [← hto v c1]; exact c1), c2]⟩
  · intro i hi v hv
    rw [hvar i hi] at hv; cases hv

/-- The first argument. -/
theorem first_push {B : Block} {D : Nat → Prop} {use : Nat → Int} {idx : Nat} {st : RA} {s : St} {t : State} {a sz : Nat}
    (I : Inv C V sp gp fofs B use D idx st s t) (hD : D a) (hp : Pend B st idx a)
    (hempty : ∀ j, j < 8 → (spillAlive V B idx (extendLiveness B idx a sz st)).var j = none)
    (hto : To fofs (allocPush V B idx sz a st)) :
    Sim A tcall st (allocPush V B idx sz a st) t
      (PI C V sp gp fofs B D idx (idx + sz) (allocPush V B idx sz a st) { s with args := s.args ++ [rd C s a] }) := by
  rw [allocPush_first I.pushing] at hto ⊢
  obtain ⟨e0, e1, e2, e3, e4, e5, e6, e7, e8, e9⟩ := extendLiveness_consumed B idx a sz st
  have Re := I.rel.extend (sz := sz) hp
  have hpe : Pend B (extendLiveness B idx a sz st) idx a := hp.imp id (fun h => Int.le_trans h (e1 a))
  have ce : Ctl (· ∈ B.killed) false 0 (extendLiveness B idx a sz st).consumed (extendLiveness B idx a sz st) :=
    ⟨by rw [e4, e3]; exact I.pk, e9.trans I.pushing, e7.trans I.args, rfl⟩
  generalize extendLiveness B idx a sz st = sx at *
  have hk := (ce.spillAlive V B idx)
  have hcons := spillAlive_consumed (V := V) B idx sx
  have hto1 : To fofs (spillAlive V B idx sx) :=
    (mono_pushTail V B a { spillAlive V B idx sx with pushing := true }).to hto
  obtain ⟨c1, t1, o1, x1, R1, g1⟩ := spillAlive_sim S Re I.glob hto1
  generalize spillAlive V B idx sx = sy at *
  have o1' : ({ sy with pushing := true } : RA).out = st.out ++ c1 := by
    show sy.out = _
    rw [o1, e8]
  refine Sim.chain o1' (by rw [← e8]; exact x1) ?_
  have hargs : sy.args = 0 := hk.args
  have P : PI C V sp gp fofs B D idx (idx + sz) { sy with pushing := true } s t1 := by
    refine ⟨R1.sp, R1.gp, R1.mem, R1.gofs, R1.stk, ?_, ?_, ?_, ?_, ?_, rfl⟩
    · intro v h1 h2 h3
      exact R1.away v h1 h2 h3 (fun j hj h => by rw [hempty j hj] at h; cases h)
    · intro j hj _
      exact hempty j hj
    · intro j _ hj
      change j < sy.args at hj
      omega
    · rw [I.sargs]; exact hargs.symm
    · intro j hj
      change j < sy.args at hj
      omega
  refine pushTail_sim S P hD ?_ ?_ ?_ hto
  · exact hpe.of_consumed hcons
  · show _ ∨ _ ≤ sy.consumed a
    rw [hcons]; exact e2
  · show sy.args < 8
    omega

/-- The other arguments. -/
theorem more_pushes {B : Block} {D : Nat → Prop} {use : Nat → Int} {idxC : Nat} (ps : List Insn) : ∀ (idx : Nat) (st st' : RA) (s s' : St)
    (t : State), PI C V sp gp fofs B D idx idxC st s t → (∀ v, use v ≤ st.consumed v) → idxC = idx + 1 + ps.length →
    st.args + ps.length ≤ 8 → (∀ p ∈ ps, p.op = .push ∧ p.rd = none) → (∀ k, (h : k < ps.length) → ps[k].sz = ps.length - k) →
    Uses V B use D (idx + 1) ps → allocInsns V B (idx + 1) ps st = some st' → SrcBlock.Run C ps s s' → To fofs st' →
    (∀ v, use v ≤ st'.consumed v) ∧ st'.args = st.args + ps.length ∧
    Sim A tcall st st' t (PI C V sp gp fofs B D (idx + ps.length : Nat) idxC st' s') := by
  induction ps with
  | nil =>
    intro idx st st' s s' t P hu _ _ _ _ _ he hr _
    cases he
    cases hr
    exact ⟨hu, rfl, Sim.refl P⟩
  | cons p ps ih =>
    intro idx st st' s s' t P hu hidx hlen hps hsz hU he hr hto
    cases hr with
    | cons hstep hr =>
    rename_i s1
    obtain ⟨hop, hrd⟩ := hps p (List.mem_cons_self ..)
    obtain ⟨a, ha, rfl⟩ := step_push hop hstep
    obtain ⟨U, hU⟩ := hU
    simp only [List.length_cons] at hidx hlen
    have hres : (fun v => D v ∨ result V p = some v) = D := by
      funext v
      have : result V p = none := by unfold result; rw [hop, hrd]
      simp [this]
    rw [hres] at hU
    -- the allocator
    unfold allocInsns at he
    have href : RegAlloc.refresh B (idx + 1 : Nat) st = st := P.refresh (by omega)
    unfold allocInsn at he
    rw [href] at he
    have hao : allocOp V B (idx + 1 : Nat) p st = some (allocPush V B (idx + 1 : Nat) p.sz a st) := by
      unfold allocOp; rw [hop, ha]
    rw [hao] at he
    simp only at he
    have hszp : p.sz = ps.length + 1 := by
      have := hsz 0 (by simp)
      simpa using this
    have P1 : PI C V sp gp fofs B D (idx + 1 : Nat) idxC st s t := P.weaken (by omega)
    have hpa : D a ∧ Pend B st (idx + 1 : Nat) a := by
      obtain ⟨h1, h2⟩ := U.operand a (Or.inl ha)
      exact ⟨h1, h2.imp id (fun h => Int.le_trans h (hu a))⟩
    have P2 := P1.extend (sz := p.sz) hpa.2
    obtain ⟨e0, e1, e2, e3, e4, e5, e6, e7, e8, e9⟩ := extendLiveness_consumed B (idx + 1 : Nat) a p.sz st
    rw [allocPush_pushing P.pushing] at he
    have hpe : Pend B (extendLiveness B (idx + 1 : Nat) a p.sz st) (idx + 1 : Nat) a := hpa.2.imp id (fun h => Int.le_trans h (e1 a))
    have hto1 : To fofs (pushTail V B a (extendLiveness B (idx + 1 : Nat) a p.sz st)) := by
      have : Mono (pushTail V B a (extendLiveness B (idx + 1 : Nat) a p.sz st)) st' := by
        refine allocInsns_mono_push V B ps _ _ _ (fun q hq => (hps q (List.mem_cons_of_mem _ hq)).1) he
      exact this.to hto
    have hsim := pushTail_sim S P2 hpa.1 hpe (e2.imp id (fun h => Int.le_trans (by rw [hszp]; omega) h)) (by rw [e7]; omega) hto1
    have hargs1 : (pushTail V B a (extendLiveness B (idx + 1 : Nat) a p.sz st)).args = st.args + 1 := by
      show (prepareOperand V B a none _).1.args + 1 = _
      rw [prepareOperand_args, e7]
    have hcons1 : (pushTail V B a (extendLiveness B (idx + 1 : Nat) a p.sz st)).consumed =
        (extendLiveness B (idx + 1 : Nat) a p.sz st).consumed := by
      show (prepareOperand V B a none _).1.consumed = _
      rw [prepareOperand_consumed]
    have hrest := fun t1 P3 => ih (idx + 1) _ st' _ s' t1 P3
      (by intro v; rw [hcons1]; exact Int.le_trans (hu v) (e1 v)) (by omega) (by rw [hargs1]; omega)
      (fun q hq => hps q (List.mem_cons_of_mem _ hq))
      (by
        intro k hk
        have := hsz (k + 1) (by simp; omega)
        simpa using this)
      hU he hr hto
    obtain ⟨c, t1, g1, g2, P3⟩ := hsim
    obtain ⟨r1, r2, r3⟩ := hrest t1 P3
    refine ⟨r1, by rw [r2, hargs1]; simp only [List.length_cons]; omega, ?_⟩
    have hidx' : idx + (p :: ps).length = idx + 1 + ps.length := by simp only [List.length_cons]; omega
    rw [hidx']
    exact Sim.chain (by rw [g1, e8]) (by rw [← e8]; exact g2) r3

/-- A whole call. -/
theorem call_sim {B : Block} {D : Nat → Prop} {use : Nat → Int} {ps : List Insn} {c : Insn} {idx : Nat} {st st' : RA} {s s' : St}
    {t : State} (I : Inv C V sp gp fofs B use D idx st s t) (G : CallSeq V ps c) (hU : Uses V B use D idx (ps ++ [c]))
    (hF : NoClash V B idx (ps ++ [c]) st) (he : allocInsns V B idx (ps ++ [c]) st = some st') (hr : SrcBlock.Run C (ps ++ [c]) s s')
    (hto : To fofs st') :
    Sim A tcall st st' t
      (fun t' => Inv C V sp gp fofs B use D (idx + ps.length + 1 : Nat) st' s' t' ∧ ∀ x, s'.ret = some x → t'.reg (r3 0) = x) := by
  obtain ⟨np, hnp, hnp0⟩ := G.params
  cases ps with
  | nil =>
    have hn0 : np = 0 := hnp0 rfl
    subst hn0
    cases hr with
    | cons hstep hr =>
    cases hr
    obtain ⟨m, r, hc, rfl⟩ := step_call G.call hstep
    have I1 := refresh_inv S I
    have ho := refresh_out B idx st
    simp only [List.nil_append, allocInsns, allocInsn] at he
    generalize RegAlloc.refresh B idx st = st1 at *
    have hao : allocOp V B idx c st1 = some (clearAll { (spillAlive V B idx st1).emit { op := .call, func_name := c.str } with pushing := false, args := 0 }) := by
      unfold allocOp; rw [G.call]; simp only [allocCall, hnp, if_true]
    rw [hao] at he
    cases he
    have hto1 : To fofs (spillAlive V B idx st1) := hto
    obtain ⟨c1, t1, o1, x1, R1, g1⟩ := spillAlive_sim S I1.rel I1.glob hto1
    have hcons := spillAlive_consumed (V := V) B idx st1
    have hdead := spillAlive_dead (V := V) B idx st1
    generalize spillAlive V B idx st1 = sy at *
    refine Sim.chain (by rw [o1, ho]) (by rw [← ho]; exact x1) ?_
    have hcore := call_core S (B := B) (D := D) (idx := (idx + 1 : Int)) (st := sy) (s := s) (t := t1) (f := c.str) (m := m) (r := r)
      R1.sp R1.gp R1.mem R1.gofs R1.stk
      (by
        intro v h1 h2 h3
        have h2' : Pend B sy idx v := h2.imp id (fun h => Int.le_trans (by omega) h)
        refine R1.away v h1 h2' h3 ?_
        intro j hj hv
        exact hdead j hj v hv (h2.of_consumed hcons.symm))
      hto1 (by rw [I1.sargs]; simp) (by rw [I1.sargs]; intro j hj; simp at hj) hc
    obtain ⟨cc, t', q1, q2, q3, q4⟩ := hcore
    refine ⟨cc, t', q1, q2, ⟨q3, ?_, ?_, rfl, rfl, rfl, ?_, I1.glob⟩, q4⟩
    · intro i j v hi hj hv
      simp [clearAll, regCnt, hi] at hv
    · intro j hj hp v hv
      simp [clearAll, regCnt, hj] at hv
    · intro v
      show use v ≤ sy.consumed v
      rw [hcons]; exact I1.use_le v
  | cons p ps =>
    obtain ⟨U, hU⟩ := hU
    obtain ⟨F, hF⟩ := hF
    cases hr with
    | cons hstep hr =>
    have hop := G.push p (List.mem_cons_self ..)
    have hrd := G.noDest.2 p (List.mem_cons_self ..)
    obtain ⟨a, ha, rfl⟩ := step_push hop hstep
    have hres : ∀ q : Insn, q.op = .push ∨ q.op = .call → q.rd = none → (fun v => D v ∨ result V q = some v) = D := by
      intro q hq hqr
      funext v
      have : result V q = none := by
        unfold result; rw [hqr]
        rcases hq with h | h <;> rw [h]
      simp [this]
    rw [hres p (Or.inl hop) hrd] at hU
    have I1 := refresh_inv S I
    have ho := refresh_out B idx st
    simp only [List.cons_append, allocInsns, allocInsn] at he
    generalize RegAlloc.refresh B idx st = st1 at *
    have hao : allocOp V B idx p st1 = some (allocPush V B idx p.sz a st1) := by
      unfold allocOp; rw [hop, ha]
    rw [hao] at he
    simp only at he
    rw [allocInsns_append] at he
    cases hem : allocInsns V B (idx + 1) ps (allocPush V B idx p.sz a st1) with
    | none => rw [hem] at he; cases he
    | some st2 =>
    rw [hem] at he
    simp only at he
    obtain ⟨s2, hr1, hr2⟩ := run_append hr
    cases hr2 with
    | cons hstepc hr2 =>
    cases hr2
    obtain ⟨m, r, hc, rfl⟩ := step_call G.call hstepc
    obtain ⟨hU1, hU2⟩ := (uses_append ..).1 hU
    have hpend : D a ∧ Pend B st1 idx a := by
      obtain ⟨h1, h2⟩ := U.operand a (Or.inl ha)
      exact ⟨h1, h2.imp id (fun h => Int.le_trans h (I1.use_le a))⟩
    -- allocation of the call
    simp only [allocInsns, allocInsn] at he
    have hps : ∀ q ∈ ps, q.op = .push := fun q hq => G.push q (List.mem_cons_of_mem _ hq)
    have hszp : p.sz = ps.length + 1 := by
      have := G.size 0 (by simp)
      simpa using this
    have hto2 : To fofs st2 := by
      cases hcc : allocOp V B (idx + 1 + ps.length : Nat) c (RegAlloc.refresh B (idx + 1 + ps.length : Nat) st2) with
      | none => rw [hcc] at he; cases he
      | some st3 =>
        rw [hcc] at he
        cases he
        have h1 : Mono st2 (RegAlloc.refresh B (idx + 1 + ps.length : Nat) st2) := (Mono.closed st2).refresh B _ (Mono.refl st2)
        have h2 := (Mono.closed st2).allocOp V B _ c (fun h => by rw [G.call] at h; cases h) h1 hcc
        exact h2.to hto
    have hto1 : To fofs (allocPush V B idx p.sz a st1) := (allocInsns_mono_push V B ps _ _ _ hps hem).to hto2
    obtain ⟨c1, t1, o1, x1, P1⟩ := first_push S I1 hpend.1 hpend.2 (F.push a hop ha I1.pushing) hto1
    have hargs1 : (allocPush V B idx p.sz a st1).args = 1 := by
      rw [allocPush_first I1.pushing]
      obtain ⟨_, _, _, e3, e4, _, _, e7, _, e9⟩ := extendLiveness_consumed B idx a p.sz st1
      have ce : Ctl (· ∈ B.killed) false 0 (extendLiveness B idx a p.sz st1).consumed (extendLiveness B idx a p.sz st1) :=
        ⟨by rw [e4, e3]; exact I1.pk, e9.trans I1.pushing, e7.trans I1.args, rfl⟩
      show (prepareOperand V B a none _).1.args + 1 = _
      rw [prepareOperand_args]
      show (spillAlive V B idx _).args + 1 = 1
      rw [(ce.spillAlive V B idx).args]
    have hcons1 : ∀ v, use v ≤ (allocPush V B idx p.sz a st1).consumed v := by
      intro v
      rw [allocPush_first I1.pushing]
      show _ ≤ (prepareOperand V B a none _).1.consumed v
      rw [prepareOperand_consumed]
      show _ ≤ (spillAlive V B idx _).consumed v
      rw [spillAlive_consumed]
      exact Int.le_trans (I1.use_le v) ((extendLiveness_consumed B idx a p.sz st1).2.1 v)
    have hmax := G.max
    simp only [List.length_cons] at hmax
    have hP1 : PI C V sp gp fofs B D idx (idx + 1 + ps.length : Nat) (allocPush V B idx p.sz a st1)
        { s with args := s.args ++ [rd C s a] } t1 := by
      have e : ((idx + 1 + ps.length : Nat) : Int) = idx + p.sz := by rw [hszp]; omega
      rw [e]; exact P1
    obtain ⟨u2, a2, c2, t2, o2, x2, P2⟩ := more_pushes S ps idx _ st2 _ s2 t1 hP1 hcons1 rfl (by rw [hargs1]; omega)
      (fun q hq => ⟨hps q hq, G.noDest.2 q (List.mem_cons_of_mem _ hq)⟩)
      (by
        intro k hk
        have := G.size (k + 1) (by simp; omega)
        simpa using this)
      hU1 hem hr1 hto2
    have href : RegAlloc.refresh B (idx + 1 + ps.length : Nat) st2 = st2 := P2.refresh (Int.le_refl _)
    rw [href] at he
    have hao2 : allocOp V B (idx + 1 + ps.length : Nat) c st2 =
        some (clearAll { st2.emit { op := .call, func_name := c.str } with pushing := false, args := 0 }) := by
      have hclean : CleanRegs st2 := by
        have h0 : CleanRegs (allocPush V B idx p.sz a st1) := by
          rw [allocPush_first I1.pushing]
          refine CleanRegs.push (st := { RegAlloc.spillAlive V B idx (extendLiveness B idx a p.sz st1) with pushing := true }) ?_ B a
          intro j hj v hv
          have hv' : (RegAlloc.spillAlive V B idx (extendLiveness B idx a p.sz st1)).var j = some v := hv
          rw [F.push a hop ha I1.pushing j hj] at hv'
          cases hv'
        exact CleanRegs.pushes ps hps h0 hem
      unfold allocOp; rw [G.call]; simp only [allocCall, hnp]
      split
      · have hs := spillAlive_clean (V := V) (B := B) (idx := (idx + 1 + ps.length : Nat)) hclean
        congr 1
        generalize RegAlloc.spillAlive V B (idx + 1 + ps.length : Nat) st2 = u at *
        simp only [clearAll, RA.mk.injEq, RA.emit] at hs ⊢
        obtain ⟨k1, k2, k3, k4, k5, _, _, k6⟩ := hs
        rw [k2, k3, k4, k5, k6]
        simp only [k1, and_self]
      · rfl
    rw [hao2] at he
    cases he
    refine Sim.chain (by rw [o1, ho]) (by rw [← ho]; exact x1) (Sim.chain o2 x2 ?_)
    have hcore := call_core S (B := B) (D := D) (idx := (idx + ps.length + 2 : Nat)) (st := st2) (s := s2) (t := t2) (f := c.str) (m := m) (r := r)
      P2.sp P2.gp P2.mem P2.gofs P2.stk
      (fun v h1 h2 h3 => P2.home v h1 (h2.imp id (fun h => Int.le_trans (by omega) h)) h3)
      hto2 (by rw [P2.len, a2, hargs1]; omega) (fun j hj => P2.arg j (by rw [← P2.len]; exact hj)) hc
    obtain ⟨cc, t', q1, q2, q3, q4⟩ := hcore
    refine ⟨cc, t', q1, q2, ⟨?_, ?_, ?_, rfl, rfl, rfl, ?_, I1.glob⟩, q4⟩
    · have e : idx + (p :: ps).length + 1 = idx + ps.length + 2 := by simp only [List.length_cons]; omega
      rw [e]; exact q3
    · intro i j v hi hj hv
      simp [clearAll, regCnt, hi] at hv
    · intro j hj hp v hv
      simp [clearAll, regCnt, hj] at hv
    · exact u2

end

end RaLink
