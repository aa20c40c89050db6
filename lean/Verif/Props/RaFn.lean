import Verif.Lemmas.RaKept

/-!
# C82: register allocation of a function preserves its meaning
-/

namespace Shecc.Props
open Shecc Shecc.Ssa Shecc.RegAlloc IrM SrcBlock RaLink RaFn

section
variable {A : Abi} {P : Program} {os : Os} {sys : Word} {C : Ctx} {V : Vars} {sp gp stack start : Word} {F : RegAlloc.Fn} {params exitPrev : List Nat}
  {entry : Nat} {rest : List Nat} {use : Nat → Int} {live : Nat → Nat → Prop} {void : Bool} {st0 fin : RA}
  {codes codes' : List (Nat × List Ph2Ir)} {nargs : String → Nat}

theorem setParams_same (ps : List Nat) : ∀ (k : Nat) (st : RA), (setParams k ps st).offset = st.offset ∧
    (setParams k ps st).stack = st.stack ∧ (setParams k ps st).consumed = st.consumed := by
  induction ps with
  | nil => intro k st; exact ⟨rfl, rfl, rfl⟩
  | cons p ps ih => intro k st; exact ih (k + 1) _

theorem setParams_var (ps : List Nat) : ∀ (k : Nat) (st : RA) (i : Nat),
    (setParams k ps st).var i = (if i < k then st.var i else (ps[i - k]?).or (st.var i)) ∧
    (∀ p, k ≤ i → ps[i - k]? = some p → (setParams k ps st).pol i = true) ∧
    (i < k → (setParams k ps st).pol i = st.pol i) := by
  induction ps with
  | nil =>
    intro k st i
    refine ⟨?_, ?_, fun _ => rfl⟩
    · simp [setParams]
    · intro p _ h; simp at h
  | cons p ps ih =>
    intro k st i
    obtain ⟨h1, h2, h3⟩ := ih (k + 1) (st.setReg k (some p) true) i
    simp only [setParams]
    refine ⟨?_, ?_, ?_⟩
    · rw [h1]
      by_cases hi : i < k
      · rw [if_pos (by omega), if_pos hi]
        simp only [RA.setReg]
        rw [upd_ne _ _ (by omega)]
      · rw [if_neg hi]
        by_cases hk : i = k
        · subst hk
          rw [if_pos (by omega)]
          simp [RA.setReg]
        · rw [if_neg (by omega)]
          have : i - k = (i - (k + 1)) + 1 := by omega
          rw [this, List.getElem?_cons_succ]
          simp only [RA.setReg]
          rw [upd_ne _ _ hk]
    · intro q hki hq
      by_cases hk : i = k
      · subst hk
        rw [h3 (by omega)]
        simp [RA.setReg]
      · refine h2 q (by omega) ?_
        have : i - k = (i - (k + 1)) + 1 := by omega
        rw [this, List.getElem?_cons_succ] at hq
        exact hq
    · intro hi
      rw [h3 (by omega)]
      simp only [RA.setReg]
      rw [upd_ne _ _ (by omega)]

/-- The registers before the first block. -/
theorem fnStart_var (params : List Nat) (st : RA) {i : Nat} (hi : i < 8) :
    (fnStart params false st).var i = params[i]? ∧ (∀ p, params[i]? = some p → (fnStart params false st).pol i = true) := by
  obtain ⟨h1, h2, _⟩ := setParams_var params 0 (clearAll st) i
  have e : fnStart params false st = setParams 0 params (clearAll st) := rfl
  rw [e]
  refine ⟨?_, fun p hp => h2 p (Nat.zero_le _) hp⟩
  rw [h1, if_neg (by omega), clearAll_var st hi]
  simp

theorem nodup_split {l : List Nat} (h : l.Nodup) : ∀ {a c a' c' : List Nat} {b : Nat}, l = a ++ b :: c → l = a' ++ b :: c' → a = a' ∧ c = c' := by
  intro a
  induction a generalizing l with
  | nil =>
    intro c a' c' b h1 h2
    cases a' with
    | nil => rw [h1] at h2; simp at h2; exact ⟨rfl, h2⟩
    | cons x a' =>
      rw [h1] at h2 h
      simp only [List.nil_append, List.cons_append, List.cons.injEq] at h2
      obtain ⟨rfl, h2⟩ := h2
      rw [List.nil_append, h2] at h
      simp at h
  | cons y a ih =>
    intro c a' c' b h1 h2
    cases a' with
    | nil =>
      rw [h2] at h1 h
      simp only [List.nil_append, List.cons_append, List.cons.injEq] at h1
      obtain ⟨rfl, h1⟩ := h1
      rw [List.nil_append, h1] at h
      simp at h
    | cons x a' =>
      rw [h1] at h2 h
      simp only [List.cons_append, List.cons.injEq] at h2
      obtain ⟨rfl, h2⟩ := h2
      obtain ⟨e1, e2⟩ := ih (List.nodup_cons.1 h).2 rfl h2
      exact ⟨by rw [e1], e2⟩

theorem path_snoc {succ : Nat → List Nat} {a b n : Nat} {l : List Nat} (h : CGraph.Path succ a l b) (hn : n ∈ succ b) :
    CGraph.Path succ a (l ++ [n]) n := by
  induction h with
  | nil a => exact .cons hn (.nil n)
  | cons h _ ih => exact .cons h (ih hn)

theorem inner_ret {i : Insn} (h : inner i.op = true) : i.op ≠ .ret := fun e => by rw [e] at h; cases h

theorem no_step_ret {i : Insn} {s s' : St} (ho : i.op = .ret) (h : SrcBlock.Step C i s s') : False := by
  cases h <;> simp_all

/-- What is given. -/
structure FnGiven (A : Abi) (P : Program) (os : Os) (sys : Word) (C : Ctx) (V : Vars) (sp gp stack start : Word) (F : RegAlloc.Fn) (params exitPrev : List Nat)
    (entry : Nat) (rest : List Nat) (use : Nat → Int) (live : Nat → Nat → Prop) (void : Bool) (st0 fin : RA)
    (codes codes' : List (Nat × List Ph2Ir)) (nargs : String → Nat) : Prop where
  divLocal : A.DivLocal
  setup : Setup A (fun _ _ _ _ => True) C V sp gp fin.offset
  call : CallsDo A P os sys C V sp gp fin.offset
  arity : ∀ f args m m' r, C.call f args m m' r → args.length ≤ nargs f
  ok : FnOk V F params exitPrev entry rest use live
  stack4 : st0.stack = 4
  consumed : st0.consumed = use
  locals : ∀ v, V.isGlobal v = false → st0.offset v = 0
  globals : ∀ v, V.isGlobal v = true → st0.offset v ≠ 0
  alloc : allocBlocks V F [] (entry :: rest) (fnStart params false st0) = some (codes, fin)
  tidied : Tidied nargs (withReturns F void exitPrev codes) codes'
  laid : Laid A P stack start codes'

/-- Every variable with a value on entry to `c` has a slot when `c` is allocated. -/
def FrameGood (V : Vars) (F : RegAlloc.Fn) (params : List Nat) (entry : Nat) (rest : List Nat) (live : Nat → Nat → Prop) (st0 : RA) (c : Nat) : Prop :=
  ∀ pre post cpre sb, entry :: rest = pre ++ c :: post → allocBlocks V F [] pre (fnStart params false st0) = some (cpre, sb) → c ≠ entry →
    ∀ v, live c v → V.isGlobal v = false → sb.offset v ≠ 0

theorem fnStart_same (params : List Nat) (st0 : RA) : (fnStart params false st0).offset = st0.offset ∧
    (fnStart params false st0).stack = st0.stack ∧ (fnStart params false st0).consumed = st0.consumed :=
  setParams_same params 0 (clearAll st0)

theorem fn_begin (hc : st0.consumed = use) (hl : ∀ v, V.isGlobal v = false → st0.offset v = 0) (hp : params.Nodup) :
    Begin V F params use [] (fnStart params false st0) := by
  obtain ⟨e1, e2, e3⟩ := fnStart_same params st0
  refine ⟨by rw [e3]; exact hc, ?_, fun h => absurd rfl h, fun _ => ⟨?_, ?_⟩⟩
  · intro v hv
    rw [e1] at hv
    cases hg : V.isGlobal v with
    | true => exact Or.inl hg
    | false => exact absurd (hl v hg) hv
  · intro i hi v hv
    rw [(fnStart_var params st0 hi).1] at hv
    exact List.mem_of_getElem? hv
  · intro i j v hi hj hv hv'
    rw [(fnStart_var params st0 hi).1] at hv
    rw [(fnStart_var params st0 hj).1] at hv'
    have hil : i < params.length := (List.getElem?_eq_some_iff.1 hv).1
    exact (List.getElem?_inj hil hp).1 (hv.trans hv'.symm)

variable (G : FnGiven A P os sys C V sp gp stack start F params exitPrev entry rest use live void st0 fin codes codes' nargs)
include G

theorem FnGiven.begin : Begin V F params use [] (fnStart params false st0) := fn_begin G.consumed G.locals G.ok.param.2.1

/-- Around a block: the allocator's states. -/
theorem FnGiven.around {pre post : List Nat} {b : Nat} (ho : entry :: rest = pre ++ b :: post) :
    ∃ cpre sb sb' cpost, allocBlocks V F [] pre (fnStart params false st0) = some (cpre, sb) ∧
      allocBlock V (F.block b) (wantJump F (b :: pre.reverse) b) (F.insns b) sb = some sb' ∧
      allocBlocks V F (b :: pre.reverse) post sb' = some (cpost, fin) ∧ codes = cpre ++ (b, sb'.out) :: cpost ∧
      Begin V F params use pre sb ∧ Mono (fnStart params false st0) sb ∧ Mono sb' fin ∧ sb.stack ≠ 0 ∧
      (∀ v, V.isGlobal v = true → sb.offset v = fin.offset v) := by
  have ha := G.alloc
  rw [ho] at ha
  obtain ⟨cpre, sb, sb', cpost, h1, h2, h3, h4⟩ := blocks_split pre ha
  rw [List.append_nil] at h2 h3
  obtain ⟨B1, m1⟩ := blocks_static G.ok pre (pre := []) (post := b :: post) (by rw [ho]; rfl) G.begin h1
  rw [List.nil_append] at B1
  have mfin : Mono (fnStart params false st0) fin :=
    (blocks_static G.ok (entry :: rest) (pre := []) (post := []) (by simp) G.begin G.alloc).2
  obtain ⟨e1, e2, e3⟩ := fnStart_same params st0
  have B2 : Begin V F params use (pre ++ [b]) sb' := by
    by_cases hb : b = F.fnExit
    · subst hb
      refine (exit_static B1 ?_ G.ok.exit.1 G.ok.exit.2 h2).1
      rintro rfl
      simp only [List.nil_append, List.cons.injEq] at ho
      exact G.ok.entryExit ho.1
    · obtain ⟨body, phis, last, K⟩ := G.ok.block pre b _ ho hb
      exact (block_static B1 K h2).2.1
  have m2 : Mono sb' fin := (blocks_static G.ok post (pre := pre ++ [b]) (post := []) (by rw [ho]; simp) B2 h3).2
  refine ⟨cpre, sb, sb', cpost, h1, h2, h3, h4, B1, m1, m2, ?_, ?_⟩
  · have hF := C58_frame_start V (fun v => V.isGlobal v = false) params false st0 G.stack4 G.locals
    obtain ⟨_, _, hf⟩ := C58_frame_areas_disjoint V (fun v => V.isGlobal v = false) F pre [] [] _ _ _ hF h1
    have := hf.2.1
    omega
  · intro v hv
    have hz : (fnStart params false st0).offset v ≠ 0 := by rw [e1]; exact G.globals v hv
    rw [m1 v hz, mfin v hz]

/-- The variables with a value on entry to a block are kept when it is allocated; registers hold variables the block defines. -/
theorem FnGiven.kept {pre post : List Nat} {b : Nat} {cpre : List (Nat × List Ph2Ir)} {sb : RA} (ho : entry :: rest = pre ++ b :: post)
    (h1 : allocBlocks V F [] pre (fnStart params false st0) = some (cpre, sb)) (hg : FrameGood V F params entry rest live st0 b)
    (B1 : Begin V F params use pre sb) :
    (∀ v, live b v → V.isGlobal v = false → Kept sb v) ∧ ∀ j, j < 8 → ∀ v, sb.var j = some v → v ∈ (F.block b).killed := by
  by_cases hp : pre = []
  · subst hp
    simp only [List.nil_append, List.cons.injEq] at ho
    obtain ⟨rfl, rfl⟩ := ho
    cases h1
    refine ⟨fun v hv _ => ?_, fun j hj v hv => (G.ok.param.2.2 v ((B1.first rfl).1 j hj v hv)).2⟩
    obtain ⟨k, hk⟩ := List.mem_iff_getElem?.1 ((G.ok.start v).1 hv)
    have hk8 : k < 8 := by
      have := (List.getElem?_eq_some_iff.1 hk).1
      have := G.ok.param.1
      omega
    obtain ⟨e1, e2⟩ := fnStart_var params st0 hk8
    exact Or.inr ⟨k, hk8, e1.trans hk, e2 v hk⟩
  · have hne : b ≠ entry := by
      rintro rfl
      cases pre with
      | nil => exact hp rfl
      | cons x xs =>
        simp only [List.cons_append, List.cons.injEq] at ho
        have := G.ok.nodup
        rw [ho.2] at this
        simp at this
    refine ⟨fun v hv hgl => Or.inl (hg pre post cpre sb ho h1 hne v hv hgl), fun j hj v hv => ?_⟩
    rw [B1.var hp j hj] at hv; cases hv

/-- Every variable with a value on entry to a block has a frame word when the block is allocated. -/
theorem FnGiven.good : ∀ (k : Nat) (pre post : List Nat) (n : Nat), pre.length = k → entry :: rest = pre ++ n :: post → n ≠ F.fnExit →
    FrameGood V F params entry rest live st0 n := by
  intro k
  induction k using Nat.strongRecOn with
  | ind k ih =>
    intro pre0 post0 n hk ho0 hne pre' post' cpre' sn ho' hb' hnent v hv hg
    obtain ⟨rfl, rfl⟩ := nodup_split G.ok.nodup ho0 ho'
    have hnr : n ∈ rest := by
      have : n ∈ entry :: rest := by rw [ho0]; simp
      exact (List.mem_cons.1 this).resolve_left hnent
    obtain ⟨b, hn, a, c, e1, e2⟩ := G.ok.reached n hnr hne
    obtain ⟨c1, c2, rfl⟩ := List.append_of_mem e2
    have ho2 : entry :: rest = (a ++ b :: c1) ++ n :: c2 := by rw [e1]; simp
    obtain ⟨rfl, rfl⟩ := nodup_split G.ok.nodup ho0 ho2
    have hbx : b ≠ F.fnExit := by
      rintro rfl
      simp [succs] at hn
    have hgb := ih a.length (by rw [← hk]; simp) a (c1 ++ n :: post0) b rfl e1 hbx
    obtain ⟨cpre, sb, sb', cpost, g1, g2, g3, g4⟩ := blocks_split a hb'
    rw [List.append_nil] at g2 g3
    obtain ⟨_, _, _, _, f1, f2, f3, f4, B1, _, _, hstk, _⟩ := G.around e1
    rw [g1] at f1
    cases f1
    obtain ⟨body, phis, last, K⟩ := G.ok.block a b _ e1 hbx
    obtain ⟨hkept, hpk⟩ := G.kept e1 g1 hgb B1
    have h0 := block_kept B1 K hstk hkept hpk g2 v ⟨hg, n, hn, hne, hv⟩ hg
    have B2 := (block_static B1 K g2).2.1
    exact (blocks_static G.ok c1 (pre := a ++ [b]) (post := n :: post0) (by rw [e1]; simp) B2 g3).2.ne h0

/-- Following an edge. -/
theorem FnGiven.edge {pre post : List Nat} {b n : Nat} {sb' : RA} {s' : St} {t' t0 : State} {out : Nat → Prop}
    (ho : entry :: rest = pre ++ b :: post) (E : Exit C V sp gp fin.offset out sb' s' t') (hout : ∀ v, liveNext V F live b v → out v)
    (hn : n ∈ succs F b) (hne : n ≠ F.fnExit) (hs : Same t' t0) :
    n ∈ rest ∧ n ≠ entry ∧
    ∀ pre' post' cpre' sn, entry :: rest = pre' ++ n :: post' →
      allocBlocks V F [] pre' (fnStart params false st0) = some (cpre', sn) → Entry C V sp gp fin.offset (live n) sn s' t0 := by
  have hb : b ∈ entry :: rest := by rw [ho]; simp
  have hnr := G.ok.closed b hb n hn
  have hne' : n ≠ entry := by
    rintro rfl
    exact (List.nodup_cons.1 G.ok.nodup).1 hnr
  refine ⟨hnr, hne', ?_⟩
  intro pre' post' cpre' sn ho' hb'
  have hgn := G.good pre'.length pre' post' n rfl ho' hne
  obtain ⟨_, _, _, _, f1, _, _, _, B1, _, _, hstk, hgl⟩ := G.around ho'
  rw [hb'] at f1
  cases f1
  have hp' : pre' ≠ [] := by
    rintro rfl
    simp only [List.nil_append, List.cons.injEq] at ho'
    exact hne' ho'.1.symm
  have hvar := B1.var hp'
  refine ⟨hs.sp.trans E.between.sp, hs.gp.trans E.between.gp, ?_, hgl, hstk, E.args, ?_, ?_, ?_⟩
  · intro a ha
    rw [hs.mem]; exact E.between.mem a ha
  · intro i hi v hv
    rw [hvar i hi] at hv; cases hv
  · intro i j v hi _ hv
    rw [hvar i hi] at hv; cases hv
  · intro v hv hg _
    refine ⟨hgn pre' post' cpre' sn ho' hb' hne' v hv hg, ?_⟩
    have := (E.between.val v (hout v ⟨hg, n, hn, hne, hv⟩) hg).2
    unfold slot at this ⊢
    rw [hs.mem, hs.sp]; exact this

/-- The conditions on a block, in the state in which it is allocated. -/
theorem FnGiven.blockOk {pre post : List Nat} {b : Nat} {sb sb' : RA} {body phis last : List Insn} (ho : entry :: rest = pre ++ b :: post)
    (B1 : Begin V F params use pre sb) (K : BlockFine V F params pre use (live b) (liveNext V F live b) b body phis last)
    (h2 : allocBlock V (F.block b) (wantJump F (b :: pre.reverse) b) (F.insns b) sb = some sb') :
    BlockOk V (F.block b) use (live b) body phis (reset sb) := by
  refine ⟨K.grouped, K.uses, (block_static B1 K h2).1, K.phi, ?_, ?_, rfl, rfl, rfl⟩
  · intro i hi v hv
    change sb.var i = some v at hv
    by_cases hp : pre = []
    · subst hp
      simp only [List.nil_append, List.cons.injEq] at ho
      rw [← ho.1]
      exact (G.ok.param.2.2 v ((B1.first rfl).1 i hi v hv)).2
    · rw [B1.var hp i hi] at hv; cases hv
  · intro v
    show use v ≤ sb.consumed v
    rw [B1.con]; exact conAt_le F pre use v

/-- The code of a block in the program. -/
theorem FnGiven.located {pre post : List Nat} {b : Nat} {sb sb' : RA} {cpre cpost : List (Nat × List Ph2Ir)}
    (h1 : allocBlocks V F [] pre (fnStart params false st0) = some (cpre, sb))
    (h3 : allocBlocks V F (b :: pre.reverse) post sb' = some (cpost, fin)) (h4 : codes = cpre ++ (b, sb'.out) :: cpost) :
    ∃ e, ((At P stack (if pre = [] then start else A.blockAddr b) (sb'.out ++ implicitReturns F void exitPrev b) e) ∨
        (PeepOk nargs (sb'.out ++ implicitReturns F void exitPrev b) ∧
          At P stack (if pre = [] then start else A.blockAddr b) (Peep.block (sb'.out ++ implicitReturns F void exitPrev b)) e)) ∧
      ∀ n, post.head? = some n → A.blockAddr n = e := by
  have hl := G.laid
  have i1 := blocks_ids pre h1
  have i2 := blocks_ids post h3
  rcases G.tidied with ht | ⟨hok, ht⟩
  · rw [ht, h4] at hl
    simp only [withReturns, List.map_append, List.map_cons] at hl
    obtain ⟨e, g1, g2⟩ := laid_split _ hl
    refine ⟨e, .inl ?_, ?_⟩
    · have : (cpre.map fun p => (p.1, p.2 ++ implicitReturns F void exitPrev p.1)) = [] ↔ pre = [] := by
        rw [← i1]; simp
      simp only [this] at g1
      exact g1
    · intro n hn
      cases cpost with
      | nil => simp only [List.map_nil] at i2; rw [← i2] at hn; cases hn
      | cons c cs =>
        rw [← i2] at hn
        simp only [List.map_cons, List.head?_cons, Option.some.injEq] at hn
        subst hn
        exact g2 (c.1, c.2 ++ implicitReturns F void exitPrev c.1) (by simp)
  · rw [ht, h4] at hl
    simp only [withReturns, List.map_append, List.map_cons] at hl
    obtain ⟨e, g1, g2⟩ := laid_split _ hl
    refine ⟨e, .inr ⟨?_, ?_⟩, ?_⟩
    · exact hok (b, sb'.out ++ implicitReturns F void exitPrev b) (by rw [h4]; simp [withReturns])
    · have : ((cpre.map fun p => (p.1, p.2 ++ implicitReturns F void exitPrev p.1)).map fun p => (p.1, Peep.block p.2)) = [] ↔
          pre = [] := by
        rw [← i1]; simp
      simp only [this] at g1
      exact g1
    · intro n hn
      cases cpost with
      | nil => simp only [List.map_nil] at i2; rw [← i2] at hn; cases hn
      | cons c cs =>
        rw [← i2] at hn
        simp only [List.map_cons, List.head?_cons, Option.some.injEq] at hn
        subst hn
        exact g2 (c.1, Peep.block (c.2 ++ implicitReturns F void exitPrev c.1)) (by simp)

omit G in
theorem exit_same {out : Nat → Prop} {st : RA} {s : St} {u u' : State} (h : Exit C V sp gp fin.offset out st s u) (h1 : u.sp = u'.sp)
    (h2 : u.gp = u'.gp) (h3 : u.mem = u'.mem) : Exit C V sp gp fin.offset out st s u' := by
  refine ⟨⟨h1 ▸ h.between.sp, h2 ▸ h.between.gp, h3 ▸ h.between.mem, ?_⟩, h.args, h.slots, h.gofs, h.stack⟩
  intro v hv hg
  have := h.between.val v hv hg
  unfold slot at this ⊢
  rw [← h3, ← h1]; exact this

/-- A block in the program does what its code, as produced by the allocator, does. -/
theorem FnGiven.does {pre post : List Nat} {b : Nat} {sb sb' : RA} {cpre cpost : List (Nat × List Ph2Ir)}
    (h1 : allocBlocks V F [] pre (fnStart params false st0) = some (cpre, sb))
    (h3 : allocBlocks V F (b :: pre.reverse) post sb' = some (cpost, fin)) (h4 : codes = cpre ++ (b, sb'.out) :: cpost)
    {Q : Option Ph2Ir → State → Prop} (hQ : QInv Q) {t : State} (hpc : t.pc = (if pre = [] then start else A.blockAddr b))
    (hw : ∀ full, full = sb'.out ++ implicitReturns F void exitPrev b → Wp A C V sp gp fin.offset Q full t) :
    ∃ o u t2, XRun A P os sys t t2 ∧ Same u t2 ∧ Q o u ∧ (o = none → ∀ n, post.head? = some n → t2.pc = A.blockAddr n) ∧
      ∀ ir, o = some ir → ∃ ir' nxt, Final stack ir ir' ∧ P t2.pc ir' nxt := by
  obtain ⟨e, hat, hnext⟩ := G.located h1 h3 h4
  have hw := hw _ rfl
  have key : ∀ code, At P stack (if pre = [] then start else A.blockAddr b) code e → Wp A C V sp gp fin.offset Q code t →
      ∃ o u t2, XRun A P os sys t t2 ∧ Same u t2 ∧ Q o u ∧ (o = none → ∀ n, post.head? = some n → t2.pc = A.blockAddr n) ∧
      ∀ ir, o = some ir → ∃ ir' nxt, Final stack ir ir' ∧ P t2.pc ir' nxt := by
    intro code hat hw
    obtain ⟨o, u, t2, r1, r2, r3, r4, r5⟩ := run_wp G.divLocal G.call hat hw (Same.refl t) hpc
    exact ⟨o, u, t2, r1, r2, r3, fun ho n hn => (r4 ho).trans (hnext n hn).symm, r5⟩
  rcases hat with hat | ⟨hok, hat⟩
  · exact key _ hat hw
  · exact key _ hat (Wp.peep G.divLocal hQ G.arity _ hw hok)

/-- **C82**, from any block on. -/
theorem FnGiven.exec {b : Nat} {s : St} {r : Option Word} {m : Mem} (hx : Exec C F void b s r m) : ∀ {pre post : List Nat} {cpre : List (Nat × List Ph2Ir)} {sb : RA} {t : State},
    entry :: rest = pre ++ b :: post → b ≠ F.fnExit →
    allocBlocks V F [] pre (fnStart params false st0) = some (cpre, sb) → Entry C V sp gp fin.offset (live b) sb s t →
    t.pc = (if pre = [] then start else A.blockAddr b) →
    ∃ t', XRun A P os sys t t' ∧ Returns C P sp gp stack r m t' := by
  induction hx with
  | @next b n s s' r m hr hn hne hx ih =>
    intro pre post cpre sb t ho hbx h1 E hpc
    obtain ⟨cpre', sb0, sb', cpost, f1, h2, h3, h4, B1, m1, m2, hstk, hgl⟩ := G.around ho
    rw [h1] at f1
    cases f1
    obtain ⟨body, phis, last, K⟩ := G.ok.block pre b _ ho hbx
    have KB := G.blockOk ho B1 K h2
    have hins := K.insns
    have hsucc : succs F b = [n] := by simp [succs, hbx, hn]
    have hto : ∀ v, sb'.offset v ≠ 0 → sb'.offset v = fin.offset v := fun v hv => (m2 v hv).symm
    have hback : ∀ n', n' ∈ succs F b → n' = n := by intro n' h; rw [hsucc] at h; simpa using h
    have himp : implicitReturns F void exitPrev b = [] := by
      unfold implicitReturns
      split
      · have : exitPrev.filter (· == b) = [] := by
          rw [List.filter_eq_nil_iff]
          intro x hx
          simp only [beq_iff_eq]
          rintro rfl
          exact hne (hback _ ((G.ok.prev x).1 hx)).symm
        rw [this]; rfl
      · rfl
    cases K.ends with
    | branch hn' => rw [hn] at hn'; cases hn'
    | ret hn' => rw [hn] at hn'; cases hn'; exact absurd rfl hne
    | retVoid hn' => rw [hn] at hn'; cases hn'; exact absurd rfl hne
    | next hn' =>
      rw [List.append_nil] at hins
      rw [hins] at hr h2
      have hw : ∃ t2, XRun A P os sys t t2 ∧ ∃ u, Same u t2 ∧ Exit C V sp gp fin.offset (fun v => v ∈ (F.block b).liveOut ∧ Valued V (live b) body phis v) sb' s' u ∧
          ((wantJump F (b :: pre.reverse) b = true ∧ ∃ ir' nxt, Final stack { op := .jump, next_bb := n } ir' ∧ P t2.pc ir' nxt) ∨
            (wantJump F (b :: pre.reverse) b = false ∧ ∀ n, post.head? = some n → t2.pc = A.blockAddr n)) := by
        let Q : Option Ph2Ir → State → Prop := fun o u =>
          o = (if wantJump F (b :: pre.reverse) b then some { op := .jump, next_bb := n } else none) ∧
            Exit C V sp gp fin.offset (fun v => v ∈ (F.block b).liveOut ∧ Valued V (live b) body phis v) sb' s' u
        have hQ : QInv Q := fun o D u u' h hs _ => ⟨h.1, exit_same h.2 hs.2.1 hs.2.2.1 hs.2.2.2.2.1⟩
        obtain ⟨o, u, t2, r1, r2, ⟨q1, q2⟩, r4, r5⟩ := G.does h1 h3 h4 hQ hpc (by
          intro full hfull
          obtain ⟨code, t1, g1, g2, g3⟩ := C57_block_partial (st := reset sb) (setup_worst (Q := Q) G.setup full) KB
            ⟨E.sp, E.gp, E.mem, E.gofs, E.stack, E.args, E.regs, E.once, E.slots⟩ hn hr h2 hto
          rw [g1, himp, List.append_nil] at hfull
          rw [hfull]
          refine wp_of_run g2 hfull ?_ ⟨?_, g3⟩
          · split
            · intro ir h; cases h; exact ⟨rfl, by simp⟩
            · intro ir h; cases h
          · split <;> rfl)
        refine ⟨t2, r1, u, r2, q2, ?_⟩
        split at q1
        · rename_i hj
          exact .inl ⟨hj, r5 _ q1⟩
        · rename_i hj
          exact .inr ⟨by simpa using hj, r4 q1⟩
      obtain ⟨t2, r1, t1, q1, g3, hend⟩ := hw
      -- the end of the block
      have goal : ∃ t3, XRun A P os sys t2 t3 ∧ Same t1 t3 ∧ t3.pc = A.blockAddr n := by
        rcases hend with ⟨_, ir', nxt', hf, hp⟩ | ⟨hj, hnext⟩
        · obtain ⟨d, rfl⟩ := final_straight hf (by simp)
          exact ⟨_, run_one hp (.jump rfl), ⟨q1.reg, q1.sp, q1.gp, q1.mem⟩, rfl⟩
        · refine ⟨t2, .refl _, q1, ?_⟩
          refine hnext n ?_
          unfold wantJump at hj
          rw [hn] at hj
          simp only [Bool.and_eq_false_iff, bne_eq_false_iff_eq, Bool.or_eq_false_iff, decide_eq_false_iff_not] at hj
          have hrpo : F.rpo n = F.rpo b + 1 := by
            rcases hj with (h | h) | h
            · exact absurd h hbx
            · exact absurd h hne
            · exact h.2
          have hb1 : F.rpo b = F.rpo entry + pre.length := G.ok.numbered pre.length b (by rw [ho]; simp)
          have hnr := G.ok.closed b (by rw [ho]; simp) n (by rw [hsucc]; simp)
          obtain ⟨k, hk⟩ := List.mem_iff_getElem?.1 hnr
          have hn1 : F.rpo n = F.rpo entry + (k + 1) := G.ok.numbered (k + 1) n (by simpa using hk)
          have hk1 : k = pre.length := by omega
          have : (entry :: rest)[pre.length + 1]? = some n := by rw [← hk1]; simpa using hk
          rw [ho, List.getElem?_append_right (by omega), show pre.length + 1 - pre.length = 1 by omega, List.getElem?_cons_succ,
            ← List.head?_eq_getElem?] at this
          exact this
      obtain ⟨t3, r2, q3, q4⟩ := goal
      rw [← hins] at h2
      obtain ⟨k1, k2, k5⟩ := G.edge ho g3 K.valued (by rw [hsucc]; simp) hne q3
      obtain ⟨pre', post', ho'⟩ := List.append_of_mem (List.mem_cons_of_mem entry k1)
      obtain ⟨cpre', sn, _, _, f1, _⟩ := G.around ho'
      have hp' : pre' ≠ [] := by
        rintro rfl
        simp only [List.nil_append, List.cons.injEq] at ho'
        exact k2 ho'.1.symm
      obtain ⟨t', r3, q5⟩ := ih ho' hne f1 (k5 _ _ _ _ ho' f1) (by rw [if_neg hp', q4])
      exact ⟨t', run_trans r1 (run_trans r2 r3), q5⟩
  | @branch b is br a s s' r m hi hop ha hr hn hne hx ih =>
    intro pre post cpre sb t ho hbx h1 E hpc
    obtain ⟨cpre', sb0, sb', cpost, f1, h2, h3, h4, B1, m1, m2, hstk, hgl⟩ := G.around ho
    rw [h1] at f1
    cases f1
    obtain ⟨body, phis, last, K⟩ := G.ok.block pre b _ ho hbx
    have KB := G.blockOk ho B1 K h2
    have hins := K.insns
    have hto : ∀ v, sb'.offset v ≠ 0 → sb'.offset v = fin.offset v := fun v hv => (m2 v hv).symm
    cases K.ends with
    | next hn' => rw [hn] at hn'; cases hn'
    | ret hn' => rw [hn] at hn'; cases hn'
    | retVoid hn' => rw [hn] at hn'; cases hn'
    | @branch br' a' hn' ho' ha' hl =>
      obtain ⟨rfl, hbr⟩ := List.append_inj' (hi.symm.trans hins) rfl
      simp only [List.cons.injEq, and_true] at hbr
      subst hbr
      rw [ha] at ha'
      cases ha'
      rw [hins] at h2
      let Q : Option Ph2Ir → State → Prop := fun o u => ∃ ir, o = some ir ∧ ir.op = .branch ∧ ir.then_bb = (F.block b).then_ ∧
        ir.else_bb = (F.block b).else_ ∧ (∃ k : BitVec 3, isReg ir.src0 k ∧ u.reg k = rd C s' a) ∧
        Exit C V sp gp fin.offset (fun v => v ∈ (F.block b).liveOut ∧ Valued V (live b) body phis v) sb' s' u
      have hQ : QInv Q := by
        rintro o D u u' ⟨ir, rfl, c1, c2, c3, ⟨k, c4, c5⟩, c6⟩ hs hD
        refine ⟨ir, rfl, c1, c2, c3, ⟨k, c4, ?_⟩, exit_same c6 hs.2.1 hs.2.2.1 hs.2.2.2.2.1⟩
        rw [← c5]
        refine (hs.1 k (fun hd => ?_)).symm
        rcases hD ir rfl k hd with h | h
        · rw [c1] at h; cases h
        · exact h c4
      obtain ⟨o, t1, t2, r1, q1, ⟨ir, rfl, g4, g5, g6, ⟨kk, g7, g8⟩, g3⟩, r4, r5⟩ := G.does h1 h3 h4 hQ hpc (by
        intro full hfull
        obtain ⟨code, ir, t1, g1, g2, g3, g4, g5, g6, kk, g7, g8⟩ := C57_block_branch_partial (st := reset sb) (setup_worst (Q := Q) G.setup full) KB
          ⟨E.sp, E.gp, E.mem, E.gofs, E.stack, E.args, E.regs, E.once, E.slots⟩ hn hop ha hl hr h2 hto
        rw [g1, List.append_assoc] at hfull
        rw [hfull]
        refine wp_of_run g2 hfull ?_ ⟨ir, rfl, g4, g5, g6, ⟨kk, g7, g8⟩, g3⟩
        intro ir' h
        simp only [List.cons_append, List.head?_cons, Option.mem_def, Option.some.injEq] at h
        subst h
        rw [g4]; exact ⟨rfl, by simp⟩)
      obtain ⟨ir', nxt', hf, hp⟩ := r5 ir rfl
      · 
        obtain ⟨d, rfl⟩ := final_straight hf (by rw [g4]; simp)
        have st3 := IrM.Step.branch (A := A) (ir := { ir with is_branch_detached := d }) (nxt := nxt') (s := t2) g4 g7
        generalize ht3 : ({ t2 with callee := none, pc := if t2.reg kk ≠ 0#32 then A.blockAddr ir.then_bb else A.blockAddr ir.else_bb } : State) = t3 at st3
        have q3 : Same t1 t3 := by rw [← ht3]; exact ⟨q1.reg, q1.sp, q1.gp, q1.mem⟩
        have q4 : t3.pc = A.blockAddr (if rd C s' a ≠ 0#32 then (F.block b).then_ else (F.block b).else_) := by
          rw [← ht3]
          simp only
          rw [q1.reg, g8, g5, g6]
          split <;> rfl
        have hmem : (if rd C s' a ≠ 0#32 then (F.block b).then_ else (F.block b).else_) ∈ succs F b := by
          simp only [succs, hbx, hn, if_false]
          split <;> simp
        rw [← hins] at h2
        obtain ⟨k1, k2, k5⟩ := G.edge ho g3 K.valued hmem hne q3
        obtain ⟨pre', post', ho'⟩ := List.append_of_mem (List.mem_cons_of_mem entry k1)
        obtain ⟨cpre', sn, _, _, f1, _⟩ := G.around ho'
        have hp' : pre' ≠ [] := by
          rintro rfl
          simp only [List.nil_append, List.cons.injEq] at ho'
          exact k2 ho'.1.symm
        obtain ⟨t', r3, q5⟩ := ih ho' hne f1 (k5 _ _ _ _ ho' f1) (by rw [if_neg hp', q4])
        exact ⟨t', run_trans r1 (run_trans (run_one hp st3) r3), q5⟩
  | @ret b is re a s s' hi hop ha hr =>
    intro pre post cpre sb t ho hbx h1 E hpc
    obtain ⟨cpre', sb0, sb', cpost, f1, h2, h3, h4, B1, m1, m2, hstk, hgl⟩ := G.around ho
    rw [h1] at f1
    cases f1
    obtain ⟨body, phis, last, K⟩ := G.ok.block pre b _ ho hbx
    have KB := G.blockOk ho B1 K h2
    have hins := K.insns
    have hto : ∀ v, sb'.offset v ≠ 0 → sb'.offset v = fin.offset v := fun v hv => (m2 v hv).symm
    cases K.ends with
    | next hn' =>
      rw [List.append_nil] at hins
      have : re ∈ body ++ phis := by rw [← hins, hi]; simp
      refine absurd hop (inner_ret ?_)
      rcases List.mem_append.1 this with h | h
      · exact grouped_inner K.grouped re h
      · exact phis_inner phis K.phi re h
    | branch hn' ho' =>
      obtain ⟨_, hbr⟩ := List.append_inj' (hi.symm.trans hins) rfl
      simp only [List.cons.injEq, and_true] at hbr
      subst hbr
      rw [ho'] at hop; cases hop
    | retVoid hn' ho' ha' =>
      obtain ⟨_, hbr⟩ := List.append_inj' (hi.symm.trans hins) rfl
      simp only [List.cons.injEq, and_true] at hbr
      subst hbr
      rw [ha'] at ha; cases ha
    | @ret re' a' hn' ho' ha' hl =>
      obtain ⟨rfl, hbr⟩ := List.append_inj' (hi.symm.trans hins) rfl
      simp only [List.cons.injEq, and_true] at hbr
      subst hbr
      rw [ha] at ha'
      cases ha'
      rw [hins] at h2
      let Q : Option Ph2Ir → State → Prop := fun o u => ∃ ir, o = some ir ∧ ir.op = .ret ∧
        (∃ k : BitVec 3, isReg ir.src0 k ∧ u.reg k = rd C s' a) ∧ u.sp = sp ∧ u.gp = gp ∧ ∀ x, ¬ C.hidden x → u.mem x = s'.mem x
      have hQ : QInv Q := by
        rintro o D u u' ⟨ir, rfl, c1, ⟨k, c2, c3⟩, c4, c5, c6⟩ hs hD
        refine ⟨ir, rfl, c1, ⟨k, c2, ?_⟩, hs.2.1 ▸ c4, hs.2.2.1 ▸ c5, hs.2.2.2.2.1 ▸ c6⟩
        rw [← c3]
        refine (hs.1 k (fun hd => ?_)).symm
        rcases hD ir rfl k hd with h | h
        · rw [c1] at h; cases h
        · exact h c2
      obtain ⟨o, t1, t2, r1, q1, ⟨ir, rfl, g6, ⟨kk, g7, g8⟩, g3, g4, g5⟩, r4, r5⟩ := G.does h1 h3 h4 hQ hpc (by
        intro full hfull
        obtain ⟨code, ir, more, t1, g1, g2, g3, g4, g5, g6, kk, g7, g8⟩ := C57_block_return_partial (st := reset sb) (setup_worst (Q := Q) G.setup full) KB
          ⟨E.sp, E.gp, E.mem, E.gofs, E.stack, E.args, E.regs, E.once, E.slots⟩ hop ha hl hr h2 hto
        rw [g1, List.append_assoc] at hfull
        rw [hfull]
        refine wp_of_run g2 hfull ?_ ⟨ir, rfl, g6, ⟨kk, g7, g8⟩, g3, g4, g5⟩
        intro ir' h
        simp only [List.cons_append, List.head?_cons, Option.mem_def, Option.some.injEq] at h
        subst h
        rw [g6]; exact ⟨rfl, by simp⟩)
      obtain ⟨ir', nxt', ⟨d, hir⟩, hp⟩ := r5 ir rfl
      rw [if_pos g6] at hir
      subst hir
      exact ⟨t2, r1, ⟨q1.sp.trans g3, q1.gp.trans g4, fun x hx => by rw [q1.mem]; exact g5 x hx, _, nxt', hp, g6, rfl, kk, g7,
        by rw [q1.reg]; exact g8⟩⟩
  | @retVoid b is re s s' hi hop ha hr =>
    intro pre post cpre sb t ho hbx h1 E hpc
    obtain ⟨cpre', sb0, sb', cpost, f1, h2, h3, h4, B1, m1, m2, hstk, hgl⟩ := G.around ho
    rw [h1] at f1
    cases f1
    obtain ⟨body, phis, last, K⟩ := G.ok.block pre b _ ho hbx
    have KB := G.blockOk ho B1 K h2
    have hins := K.insns
    have hto : ∀ v, sb'.offset v ≠ 0 → sb'.offset v = fin.offset v := fun v hv => (m2 v hv).symm
    cases K.ends with
    | next hn' =>
      rw [List.append_nil] at hins
      have : re ∈ body ++ phis := by rw [← hins, hi]; simp
      refine absurd hop (inner_ret ?_)
      rcases List.mem_append.1 this with h | h
      · exact grouped_inner K.grouped re h
      · exact phis_inner phis K.phi re h
    | branch hn' ho' =>
      obtain ⟨_, hbr⟩ := List.append_inj' (hi.symm.trans hins) rfl
      simp only [List.cons.injEq, and_true] at hbr
      subst hbr
      rw [ho'] at hop; cases hop
    | ret hn' ho' ha' =>
      obtain ⟨_, hbr⟩ := List.append_inj' (hi.symm.trans hins) rfl
      simp only [List.cons.injEq, and_true] at hbr
      subst hbr
      rw [ha'] at ha; cases ha
    | @retVoid re' hn' ho' ha' =>
      obtain ⟨rfl, hbr⟩ := List.append_inj' (hi.symm.trans hins) rfl
      simp only [List.cons.injEq, and_true] at hbr
      subst hbr
      rw [hins] at h2
      let Q : Option Ph2Ir → State → Prop := fun o u => ∃ ir, o = some ir ∧ ir.op = .ret ∧ ir.src0 = -1#32 ∧
        u.sp = sp ∧ u.gp = gp ∧ ∀ x, ¬ C.hidden x → u.mem x = s'.mem x
      have hQ : QInv Q := by
        rintro o D u u' ⟨ir, rfl, c1, c2, c4, c5, c6⟩ hs hD
        exact ⟨ir, rfl, c1, c2, hs.2.1 ▸ c4, hs.2.2.1 ▸ c5, hs.2.2.2.2.1 ▸ c6⟩
      obtain ⟨o, t1, t2, r1, q1, ⟨ir, rfl, g6, g7, g3, g4, g5⟩, r4, r5⟩ := G.does h1 h3 h4 hQ hpc (by
        intro full hfull
        obtain ⟨code, ir, more, t1, g1, g2, g3, g4, g5, g6, g7⟩ := C57_block_return_void_partial (st := reset sb) (setup_worst (Q := Q) G.setup full) KB
          ⟨E.sp, E.gp, E.mem, E.gofs, E.stack, E.args, E.regs, E.once, E.slots⟩ hop ha hr h2 hto
        rw [g1, List.append_assoc] at hfull
        rw [hfull]
        refine wp_of_run g2 hfull ?_ ⟨ir, rfl, g6, g7, g3, g4, g5⟩
        intro ir' h
        simp only [List.cons_append, List.head?_cons, Option.mem_def, Option.some.injEq] at h
        subst h
        rw [g6]; exact ⟨rfl, by simp⟩)
      obtain ⟨ir', nxt', ⟨d, hir⟩, hp⟩ := r5 ir rfl
      rw [if_pos g6] at hir
      subst hir
      exact ⟨t2, r1, ⟨q1.sp.trans g3, q1.gp.trans g4, fun x hx => by rw [q1.mem]; exact g5 x hx, _, nxt', hp, g6, rfl, g7⟩⟩
  | @fall b s s' hr hn hv =>
    intro pre post cpre sb t ho hbx h1 E hpc
    obtain ⟨cpre', sb0, sb', cpost, f1, h2, h3, h4, B1, m1, m2, hstk, hgl⟩ := G.around ho
    rw [h1] at f1
    cases f1
    obtain ⟨body, phis, last, K⟩ := G.ok.block pre b _ ho hbx
    have KB := G.blockOk ho B1 K h2
    have hins := K.insns
    have hto : ∀ v, sb'.offset v ≠ 0 → sb'.offset v = fin.offset v := fun v hv => (m2 v hv).symm
    have hnoret : ∀ re, F.insns b = body ++ phis ++ [re] → re.op = .ret → False := by
      intro re h1 h2
      rw [h1] at hr
      obtain ⟨_, _, hr⟩ := run_append hr
      cases hr with
      | cons h _ => exact no_step_ret h2 h
    cases K.ends with
    | branch hn' => rw [hn] at hn'; cases hn'
    | ret hn' ho' => exact (hnoret _ hins ho').elim
    | retVoid hn' ho' => exact (hnoret _ hins ho').elim
    | next hn' =>
      rw [List.append_nil] at hins
      have himp : ∃ more, implicitReturns F void exitPrev b = { op := .ret, src0 := -1#32 } :: more := by
        unfold implicitReturns
        have hlast : ((F.insns b).getLast?.any fun i => i.op == .ret) = false := by
          cases hgl : (F.insns b).getLast? with
          | none => rfl
          | some x =>
            have : x ∈ body ++ phis := by rw [← hins]; exact List.mem_of_getLast? hgl
            have hx : x.op ≠ .ret := by
              rcases List.mem_append.1 this with h | h
              · exact inner_ret (grouped_inner K.grouped x h)
              · exact inner_ret (phis_inner phis K.phi x h)
            simpa using hx
        rw [hv, hlast]
        simp only [Bool.not_false, Bool.and_self, if_true]
        have hb : b ∈ exitPrev := (G.ok.prev b).2 (by simp [succs, hbx, hn])
        have hb' : b ∈ exitPrev.filter (· == b) := List.mem_filter.2 ⟨hb, by simp⟩
        cases hfl : exitPrev.filter (· == b) with
        | nil => rw [hfl] at hb'; cases hb'
        | cons x xs => exact ⟨_, rfl⟩
      obtain ⟨more, himp⟩ := himp
      rw [hins] at hr h2
      have hj : wantJump F (b :: pre.reverse) b = false := by
        unfold wantJump; rw [hn]; simp
      let Q : Option Ph2Ir → State → Prop := fun o u => ∃ ir, o = some ir ∧ ir.op = .ret ∧ ir.src0 = -1#32 ∧
        u.sp = sp ∧ u.gp = gp ∧ ∀ x, ¬ C.hidden x → u.mem x = s'.mem x
      have hQ : QInv Q := by
        rintro o D u u' ⟨ir, rfl, c1, c2, c4, c5, c6⟩ hs hD
        exact ⟨ir, rfl, c1, c2, hs.2.1 ▸ c4, hs.2.2.1 ▸ c5, hs.2.2.2.2.1 ▸ c6⟩
      obtain ⟨o, t1, t2, r1, q1, ⟨ir, rfl, g6, g7, g3, g4, g5⟩, r4, r5⟩ := G.does h1 h3 h4 hQ hpc (by
        intro full hfull
        obtain ⟨code, t1, g1, g2, g3⟩ := C57_block_partial (st := reset sb) (setup_worst (Q := Q) G.setup full) KB
          ⟨E.sp, E.gp, E.mem, E.gofs, E.stack, E.args, E.regs, E.once, E.slots⟩ hn hr h2 hto
        rw [hj] at g1
        simp only [Bool.false_eq_true, if_false, List.append_nil] at g1
        rw [g1, himp] at hfull
        rw [hfull]
        refine wp_of_run g2 hfull ?_ ⟨_, rfl, rfl, rfl, g3.between.sp, g3.between.gp, g3.between.mem⟩
        intro ir' h
        simp only [List.head?_cons, Option.mem_def, Option.some.injEq] at h
        subst h
        exact ⟨rfl, by simp⟩)
      obtain ⟨ir', nxt', ⟨d, hir⟩, hp⟩ := r5 ir rfl
      rw [if_pos g6] at hir
      subst hir
      exact ⟨t2, r1, ⟨q1.sp.trans g3, q1.gp.trans g4, fun x hx => by rw [q1.mem]; exact g5 x hx, _, nxt', hp, g6, rfl, g7⟩⟩

end

/-- **C82.** A function whose code was produced by the allocator, possibly shortened by the peephole pass, and placed in the program: every execution of the function in
SSA form is followed by the machine, up to a return with the value the source returns, with visible memory as the source leaves it and
with the frame in place. -/
theorem C82_function_partial {A : Abi} {P : Program} {os : Os} {sys : Word} {C : Ctx} {V : Vars} {sp gp stack start : Word} {F : RegAlloc.Fn}
    {params exitPrev : List Nat} {entry : Nat} {rest : List Nat} {use : Nat → Int} {live : Nat → Nat → Prop} {void : Bool}
    {st0 fin : RA} {codes codes' : List (Nat × List Ph2Ir)} {nargs : String → Nat} {s : St} {r : Option Word} {m : Mem} {t : State}
    -- the machine and the surroundings
    (hd : A.DivLocal) (S : Setup A (fun _ _ _ _ => True) C V sp gp fin.offset)
    -- calls do what the source says
    (hcalls : CallsDo A P os sys C V sp gp fin.offset) (har : ∀ f args m m' r, C.call f args m m' r → args.length ≤ nargs f)
    -- the function
    (W : FnOk V F params exitPrev entry rest use live)
    -- the allocator's state before it
    (h4 : st0.stack = 4) (hu : st0.consumed = use) (hl0 : ∀ v, V.isGlobal v = false → st0.offset v = 0)
    (hg0 : ∀ v, V.isGlobal v = true → st0.offset v ≠ 0)
    -- its code
    (he : allocBlocks V F [] (entry :: rest) (fnStart params false st0) = some (codes, fin))
    (htidy : Tidied nargs (withReturns F void exitPrev codes) codes') (hl : Laid A P stack start codes')
    -- an execution
    (hx : Exec C F void entry s r m) (ht : Enters C sp gp params s t) (hpc : t.pc = start) :
    ∃ t', XRun A P os sys t t' ∧ Returns C P sp gp stack r m t' := by
  have G : FnGiven A P os sys C V sp gp stack start F params exitPrev entry rest use live void st0 fin codes codes' nargs :=
    ⟨hd, S, hcalls, har, W, h4, hu, hl0, hg0, he, htidy, hl⟩
  refine G.exec hx (pre := []) (post := rest) rfl W.entryExit rfl ?_ (by rw [if_pos rfl]; exact hpc)
  · obtain ⟨_, _, _, _, f1, _, _, _, B1, _, _, hstk, hgl⟩ := G.around (pre := []) (b := entry) (post := rest) rfl
    cases f1
    refine ⟨ht.sp, ht.gp, ht.mem, hgl, hstk, ht.args, ?_, (B1.first rfl).2, ?_⟩
    · intro i hi v hv
      obtain ⟨e1, e2⟩ := fnStart_var params st0 hi
      rw [e1] at hv
      have hm := List.mem_of_getElem? hv
      exact ⟨(W.param.2.2 v hm).1, (W.start v).2 hm, ht.param i v hv, e2 v hv⟩
    · intro v hv hg hab
      obtain ⟨k, hk⟩ := List.mem_iff_getElem?.1 ((W.start v).1 hv)
      have hk8 : k < 8 := by
        have := (List.getElem?_eq_some_iff.1 hk).1
        have := W.param.1
        omega
      exact absurd ((fnStart_var params st0 hk8).1.trans hk) (hab k hk8)

end Shecc.Props
