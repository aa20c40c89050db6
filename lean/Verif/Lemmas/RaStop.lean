import Verif.Spec.SsaReach
import Verif.Props.RaFn

/-! Register allocation: code up to a call. -/

namespace RaLink
open Shecc Shecc.Ssa Shecc.RegAlloc IrM SrcBlock

/-- The allocator's output only grows. -/
def Grows (st st' : RA) : Prop := ∃ c, st'.out = st.out ++ c

theorem Grows.refl (st : RA) : Grows st st := ⟨[], by simp⟩
theorem Grows.trans {a b c : RA} (h : Grows a b) (h' : Grows b c) : Grows a c := by
  obtain ⟨x, hx⟩ := h
  obtain ⟨y, hy⟩ := h'
  exact ⟨x ++ y, by rw [hy, hx, List.append_assoc]⟩
theorem Grows.of {st a b : RA} (h : Grows st a) (e : b.out = a.out) : Grows st b := by
  obtain ⟨x, hx⟩ := h
  exact ⟨x, by rw [e, hx]⟩
theorem Grows.emit {st a : RA} (h : Grows st a) (ir : Ph2Ir) : Grows st (a.emit ir) := by
  obtain ⟨x, hx⟩ := h
  exact ⟨x ++ [ir], by simp [RA.emit, hx]⟩

theorem ensureSlot_out (st : RA) (v : Nat) : (st.ensureSlot v).out = st.out := by
  unfold RA.ensureSlot; split <;> rfl

variable {V : Vars} {B : RegAlloc.Block}

theorem Grows.spillVar {st a : RA} (h : Grows st a) (v i : Nat) : Grows st (spillVar V v i a) := by
  unfold RegAlloc.spillVar
  split
  · exact ((h.of (ensureSlot_out a v)).emit _).of rfl
  · exact h.of rfl

theorem Grows.spillReg {st a : RA} (h : Grows st a) (i : Nat) : Grows st (spillReg V i a) := by
  unfold RegAlloc.spillReg
  split
  · exact h
  · exact h.spillVar _ _

theorem Grows.operand {st a : RA} (h : Grows st a) (v : Nat) (o : Option Nat) : Grows st (prepareOperand V B v o a).1 := by
  unfold RegAlloc.prepareOperand
  repeat' split
  all_goals first
    | exact h
    | (unfold RegAlloc.loadVar; exact ((h.spillReg _).emit _).of rfl)
    | (unfold RegAlloc.loadVar; exact (h.emit _).of rfl)

theorem Grows.dest {st a : RA} (h : Grows st a) (v : Nat) (o p : Option Nat) : Grows st (prepareDest V B v o p a).1 := by
  unfold RegAlloc.prepareDest
  repeat' split
  all_goals first
    | exact h.of rfl
    | exact (h.spillReg _).of rfl

theorem Grows.fold {f : RA → Nat → RA} (hf : ∀ st a i, Grows st a → Grows st (f a i)) (l : List Nat) : ∀ {st a : RA}, Grows st a →
    Grows st (l.foldl f a) := by
  induction l with
  | nil => intro st a h; exact h
  | cons i l ih => intro st a h; exact ih (hf _ _ _ h)

theorem Grows.refresh {st a : RA} (h : Grows st a) (idx : Int) : Grows st (refresh B idx a) := by
  unfold RegAlloc.refresh
  refine Grows.fold (fun st a i h => ?_) _ h
  unfold refresh1
  repeat' split
  all_goals exact h.of rfl

theorem Grows.spillAlive {st a : RA} (h : Grows st a) (idx : Int) : Grows st (spillAlive V B idx a) := by
  unfold RegAlloc.spillAlive
  refine Grows.fold (fun st a i h => ?_) _ h
  unfold spillAlive1
  repeat' split
  all_goals first | exact h | exact h.spillVar _ _

theorem Grows.spillLiveOut {st a : RA} (h : Grows st a) : Grows st (spillLiveOut V B a) := by
  unfold RegAlloc.spillLiveOut
  refine Grows.fold (fun st a i h => ?_) _ h
  unfold spillLiveOut1
  repeat' split
  all_goals first | exact h | exact h.spillVar _ _ | exact h.of rfl

theorem Grows.storeGlobal {st a : RA} (h : Grows st a) (v d : Nat) : Grows st (storeGlobal V v d a) := by
  unfold RegAlloc.storeGlobal
  split
  · exact (h.emit _).of rfl
  · exact h

theorem Grows.storeEach (s : RA) (v : Nat) (l : List Nat) : ∀ {st a : RA}, Grows st a → Grows st (storeEach s v l a) := by
  induction l with
  | nil => intro st a h; exact h
  | cons i l ih =>
    intro st a h
    unfold RegAlloc.storeEach
    refine ih ?_
    split
    · exact h.emit _
    · exact h

theorem extendLiveness_out (idx : Int) (v n : Nat) (st : RA) : (extendLiveness B idx v n st).out = st.out := by
  unfold extendLiveness
  repeat' split
  all_goals rfl

theorem Grows.push {st a : RA} (h : Grows st a) (idx : Int) (sz v : Nat) : Grows st (allocPush V B idx sz v a) := by
  have h1 : Grows st (extendLiveness B idx v sz a) := h.of (extendLiveness_out ..)
  unfold allocPush
  generalize extendLiveness B idx v sz a = a1 at h1
  have h2 : Grows st (if a1.pushing then a1 else { RegAlloc.spillAlive V B idx a1 with pushing := true }) := by
    split
    · exact h1
    · exact (h1.spillAlive idx).of rfl
  exact ((h2.operand v none).emit _).of rfl

theorem Grows.indirect {st a : RA} (h : Grows st a) (idx : Int) (v : Nat) : Grows st (allocIndirect V B idx v a) := by
  unfold allocIndirect
  have h2 : Grows st (if a.args = 0 then RegAlloc.spillAlive V B idx a else a) := by
    split
    · exact h.spillAlive idx
    · exact h
  exact (((h2.operand v none).emit _).emit _).of rfl

theorem Grows.assign {st a : RA} (h : Grows st a) (d v : Nat) : Grows st (allocAssign V B d v a) := by
  unfold allocAssign
  split
  · exact h
  · have h2 := (((h.operand (V := V) (B := B) v none).dest (V := V) (B := B) d (some (RegAlloc.prepareOperand V B v none a).2) none).emit
      { op := .assign, src0 := num (RegAlloc.prepareOperand V B v none a).2, dest := num (RegAlloc.prepareDest V B d (some (RegAlloc.prepareOperand V B v none a).2) none (RegAlloc.prepareOperand V B v none a).1).2 }).storeGlobal
      (V := V) d (RegAlloc.prepareDest V B d (some (RegAlloc.prepareOperand V B v none a).2) none (RegAlloc.prepareOperand V B v none a).1).2
    simp only
    split
    · exact h2.of rfl
    · exact h2

theorem Grows.addressOf {st a : RA} (h : Grows st a) (d v : Nat) : Grows st (allocAddressOf V B d v a) := by
  unfold allocAddressOf
  have h2 : Grows st (if a.offset v = 0 then RegAlloc.storeEach (a.ensureSlot v) v (List.range regCnt) (a.ensureSlot v) else a) := by
    split
    · exact Grows.storeEach _ _ _ (h.of (ensureSlot_out a v))
    · exact h
  exact (h2.dest d none none).emit _

theorem Grows.allocOp {st a b : RA} (h : Grows st a) {idx : Int} {i : Insn} (he : allocOp V B idx i a = some b) : Grows st b := by
  unfold RegAlloc.allocOp at he
  split at he
  · cases he; unfold allocPhi; exact ((h.operand _ _).of (ensureSlot_out _ _)).emit _
  · cases he
    unfold allocAllocat
    split
    · exact h
    · refine Grows.emit (Grows.dest ?_ _ _ _) _
      exact h.of rfl
  · cases he
    unfold allocConst
    split
    · exact h
    · exact ((h.dest _ _ _).emit _).storeGlobal _ _
  · cases he
    unfold allocConst
    split
    · exact h
    · exact ((h.dest _ _ _).emit _).storeGlobal _ _
  · cases he; exact h.addressOf _ _
  · cases he; exact h.assign _ _
  · cases he; unfold allocRead; exact ((h.operand _ _).dest _ _ _).emit _
  · cases he
    unfold allocWrite
    split
    · exact (h.operand _ _).emit _
    · exact (((h.spillAlive _).operand _ _).operand _ _).emit _
  · cases he; unfold allocBranch; exact ((h.operand _ _).spillLiveOut).emit _
  · cases he; exact h.push _ _ _
  · unfold allocCall at he
    split at he
    · cases he
    · cases he
      split
      · exact ((h.spillAlive _).emit _).of rfl
      · exact (h.emit _).of rfl
  · cases he; exact h.indirect _ _
  · cases he; unfold allocFuncRet; exact (h.dest _ _ _).emit _
  · cases he
    unfold allocRet
    split
    · exact h.emit _
    · exact (h.operand _ _).emit _
  · split at he
    · cases he; unfold allocBin; exact (((h.operand _ _).operand _ _).dest _ _ _).emit _
    · split at he
      · cases he; unfold allocUn; exact ((h.operand _ _).dest _ _ _).emit _
      · cases he
  · split at he
    · cases he; unfold allocUn; exact ((h.operand _ _).dest _ _ _).emit _
    · cases he
  · cases he

theorem grows_insns (is : List Insn) : ∀ {idx : Nat} {st st' : RA}, allocInsns V B idx is st = some st' → Grows st st' := by
  induction is with
  | nil => intro idx st st' he; cases he; exact Grows.refl st
  | cons i is ih =>
    intro idx st st' he
    unfold allocInsns at he
    split at he
    · cases he
    · rename_i st1 h1
      unfold allocInsn at h1
      exact (((Grows.refl st).refresh _).allocOp h1).trans (ih he)

end RaLink

namespace RaFn
open Shecc Shecc.Ssa Shecc.RegAlloc IrM SrcBlock RaLink Shecc.Props

section
variable {A : Abi} {P : Program} {os : Os} {sys : Word} {C : Ctx} {V : Vars} {sp gp stack : Word} {fofs : Nat → Nat}
  {nargs : String → Nat} {T : String → List Word → Mem → Prop}

/-- What has to hold in front of code so that it gets to a call that `T` describes, whatever the calls before that do within what
the source says. -/
def WpS (A : Abi) (C : Ctx) (V : Vars) (sp gp : Word) (fofs : Nat → Nat) (T : String → List Word → Mem → Prop) : List Ph2Ir → State → Prop
  | [], _ => False
  | ir :: rest, t =>
    if ir.op = .call then (∃ args m, CallPre C sp gp args m t ∧ T ir.func_name args m) ∨
      ∃ args m m' r, CallPre C sp gp args m t ∧ C.call ir.func_name args m m' r ∧
        ∀ u, CallPost C V sp gp fofs m' r t u → WpS A C V sp gp fofs T rest u
    else if straight ir.op = true then ∃ nxt u, IrM.Step A ir nxt t u ∧ WpS A C V sp gp fofs T rest u
    else False

theorem WpS.tail {a : Ph2Ir} {x y : List Ph2Ir} (h : ∀ u, WpS A C V sp gp fofs T x u → WpS A C V sp gp fofs T y u) {t : State}
    (hw : WpS A C V sp gp fofs T (a :: x) t) : WpS A C V sp gp fofs T (a :: y) t := by
  unfold WpS at hw ⊢
  split
  · rename_i hc
    rw [if_pos hc] at hw
    rcases hw with hw | ⟨args, m, m', r, h1, h2, h3⟩
    · exact .inl hw
    · exact .inr ⟨args, m, m', r, h1, h2, fun u hu => h u (h3 u hu)⟩
  · rename_i hc
    rw [if_neg hc] at hw
    split
    · rename_i hs
      rw [if_pos hs] at hw
      obtain ⟨nxt, u, h1, h2⟩ := hw
      exact ⟨nxt, u, h1, h u h2⟩
    · rename_i hs
      rw [if_neg hs] at hw
      exact hw

/-- Registers that are not used do not matter. -/
theorem WpS.frame (hA : A.DivLocal) (har : ∀ f args m m' r, C.call f args m m' r → args.length ≤ nargs f)
    (haT : ∀ f args m, T f args m → args.length ≤ nargs f) :
    ∀ {code : List Ph2Ir} {t t' : State} {D : BitVec 3 → Prop}, WpS A C V sp gp fofs T code t → SameBut D t t' →
      (∀ q, D q → NotUsed nargs q code) → WpS A C V sp gp fofs T code t' := by
  intro code
  induction code with
  | nil =>
    intro t t' D hw hs _
    exact hw
  | cons ir rest ih =>
    intro t t' D hw hs hd
    unfold WpS at hw ⊢
    by_cases hc : ir.op = .call
    · rw [if_pos hc] at hw ⊢
      have pre : ∀ args m, CallPre C sp gp args m t → args.length ≤ nargs ir.func_name → CallPre C sp gp args m t' := by
        intro args m h1 hl
        obtain ⟨a1, a2, a3, a4, a5, a6⟩ := hs
        refine ⟨a2 ▸ h1.sp, a3 ▸ h1.gp, a5 ▸ h1.mem, h1.len, ?_⟩
        intro k hk
        rw [← h1.reg k hk]
        refine (a1 _ (fun hq => ?_)).symm
        have := hd _ hq
        unfold NotUsed at this
        rw [if_pos hc, r3_lt (Nat.lt_of_lt_of_le hk h1.len)] at this
        omega
      rcases hw with ⟨args, m, h1, h2⟩ | ⟨args, m, m', r, h1, h2, h3⟩
      · exact .inl ⟨args, m, pre args m h1 (haT _ _ _ h2), h2⟩
      · refine .inr ⟨args, m, m', r, pre args m h1 (har _ _ _ _ _ h2), h2, ?_⟩
        obtain ⟨a1, a2, a3, a4, a5, a6⟩ := hs
        intro u hu
        refine h3 u ⟨hu.sp, hu.gp, hu.result, hu.mem, fun v hg hv => ?_⟩
        rw [hu.slot v hg hv]
        unfold slot
        rw [a5, a2]
    · rw [if_neg hc] at hw ⊢
      by_cases hst : straight ir.op = true
      · rw [if_pos hst] at hw ⊢
        obtain ⟨nxt, u, h1, h2⟩ := hw
        have hd' : ∀ q, D q → ¬ Reads ir q ∧ (Writes ir q ∨ NotUsed nargs q rest) := by
          intro q hq
          have := hd q hq
          unfold NotUsed at this
          rw [if_neg hc, if_pos hst] at this
          exact this
        obtain ⟨u', g1, g2⟩ := step_frame hA (straight_plain hst) h1 (fun q hr hq => (hd' q hq).1 hr) hs
        exact ⟨nxt, u', g1, ih h2 g2 (fun q hq => (hd' q hq.1).2.resolve_left hq.2)⟩
      · rw [if_neg hst] at hw
        exact hw.elim

/-- The peephole pass. -/
theorem WpS.peep (hA : A.DivLocal) (har : ∀ f args m m' r, C.call f args m m' r → args.length ≤ nargs f)
    (haT : ∀ f args m, T f args m → args.length ≤ nargs f) (code : List Ph2Ir) :
    ∀ {t : State}, WpS A C V sp gp fofs T code t → PeepOk nargs code → WpS A C V sp gp fofs T (Peep.block code) t := by
  induction code using Peep.block.induct with
  | case1 => intro t hw _; rw [Peep.block]; exact hw
  | case2 a => intro t hw _; rw [Peep.block]; exact hw
  | case3 a b rest hb ih =>
    intro t hw hp
    rw [Peep.block, if_pos hb]
    have hp2 : PeepOk nargs rest := by
      have := hp.2
      cases rest with
      | nil => trivial
      | cons => exact this.2
    refine WpS.tail (fun u hu => ih ?_ hp2) hw
    obtain ⟨hop, hds⟩ := hb
    unfold WpS at hu
    rw [if_neg (by rw [hop]; simp), if_pos (by rw [hop]; rfl)] at hu
    obtain ⟨nxt, u1, hs, h2⟩ := hu
    refine WpS.frame (nargs := nargs) hA har haT (D := fun _ => False) h2 ?_ (fun _ h => h.elim)
    cases hs with
    | @assign d x hop hd hx =>
      have : d = x := isReg_inj hd (hds ▸ hx)
      subst this
      refine ⟨?_, rfl, rfl, rfl, rfl, .inl rfl⟩
      intro q _
      simp only [setReg]
      split
      · simp_all
      · rfl
    | _ => simp_all [binOf, unOf]
  | case4 a b rest hb c hc ih =>
    intro t hw hp
    have e : Peep.block (a :: b :: rest) = c :: Peep.block rest := by
      rw [Peep.block, if_neg hb]
      simp only [hc]
    rw [e]
    obtain ⟨h1, h2⟩ := hp.1 (by rw [hc]; rfl)
    have hp2 : PeepOk nargs rest := by
      have := hp.2
      cases rest with
      | nil => trivial
      | cons => exact this.2
    obtain ⟨s1, s2, s3, c1, c2, c3⟩ := fuse_straight hc
    unfold WpS at hw
    rw [if_neg c1, if_pos s1] at hw
    obtain ⟨n1, u1, g1, hw⟩ := hw
    unfold WpS at hw
    rw [if_neg c2, if_pos s2] at hw
    obtain ⟨n2, u2, g2, hw⟩ := hw
    obtain ⟨u', sc, hsame⟩ := Props.C22_fusion_partial A a b c hc h1 n1 n2 _ _ _ g1 g2
    unfold WpS
    rw [if_neg c3, if_pos s3]
    refine ⟨n2, u', sc, ih ?_ hp2⟩
    refine WpS.frame hA har haT hw hsame ?_
    intro q hq
    exact h2 (fun e => hq.2 (e ▸ hq.1)) q hq.1
  | case5 a b rest hb hc ih =>
    intro t hw hp
    have e : Peep.block (a :: b :: rest) = a :: Peep.block (b :: rest) := by
      rw [Peep.block, if_neg hb]
      simp only [hc]
    rw [e]
    exact WpS.tail (fun u hu => ih hu hp.2) hw

/-- A call of the source, with the worst outcome for the code after it. -/
def worstS (A : Abi) (C : Ctx) (V : Vars) (sp gp : Word) (fofs : Nat → Nat) (T : String → List Word → Mem → Prop) (full : List Ph2Ir)
    (n : Nat) (f : String) (t u : State) : Prop :=
  ∃ args m m' r, CallPre C sp gp args m t ∧ C.call f args m m' r ∧ CallPost C V sp gp fofs m' r t u ∧
    (WpS A C V sp gp fofs T (full.drop (n + 1)) u → ∀ u, CallPost C V sp gp fofs m' r t u → WpS A C V sp gp fofs T (full.drop (n + 1)) u)

theorem setup_worstS (S : Setup A (fun _ _ _ _ => True) C V sp gp fofs) (full : List Ph2Ir) :
    Setup A (worstS A C V sp gp fofs T full) C V sp gp fofs :=
  { S with
    call := by
      intro i f t args m m' r h1 h2 h3 h4 h5 h6
      obtain ⟨t', _, g1, g2, g3, g4, g5⟩ := S.call i f t args m m' r h1 h2 h3 h4 h5 h6
      have hp : CallPost C V sp gp fofs m' r t t' := ⟨g1, g2, g3, g4, g5⟩
      by_cases hall : ∀ u, CallPost C V sp gp fofs m' r t u → WpS A C V sp gp fofs T (full.drop (i + 1)) u
      · exact ⟨t', ⟨args, m, m', r, ⟨h1, h2, h3, h4, h5⟩, h6, hp, fun _ => hall⟩, g1, g2, g3, g4, g5⟩
      · obtain ⟨u, hu⟩ := Classical.not_forall.1 hall
        obtain ⟨hu, hn⟩ := Classical.not_imp.1 hu
        exact ⟨u, ⟨args, m, m', r, ⟨h1, h2, h3, h4, h5⟩, h6, hu, fun h => absurd h hn⟩, hu.sp, hu.gp, hu.result, hu.mem, hu.slot⟩ }

theorem wps_of_run {full : List Ph2Ir} {n : Nat} {code : List Ph2Ir} {t t' : State}
    (h : TRun A (worstS A C V sp gp fofs T full) n code t t') : ∀ {tail : List Ph2Ir}, full.drop n = code ++ tail →
    WpS A C V sp gp fofs T tail t' → WpS A C V sp gp fofs T (code ++ tail) t := by
  induction h with
  | nil t =>
    intro tail _ hq
    exact hq
  | @step n ir irs nxt t u v hc hst _ ih =>
    intro tail hf hq
    have hf2 : full.drop (n + 1) = irs ++ tail := by rw [← List.tail_drop, hf]; rfl
    have hcall : ir.op ≠ .call := fun e => by rw [e] at hc; cases hc
    unfold WpS
    simp only [List.cons_append, if_neg hcall, if_pos hc]
    exact ⟨nxt, u, hst, ih hf2 hq⟩
  | @call n ir irs t u v hc hst _ ih =>
    intro tail hf hq
    have hf2 : full.drop (n + 1) = irs ++ tail := by rw [← List.tail_drop, hf]; rfl
    obtain ⟨args, m, m', r, h1, h2, h3, h4⟩ := hst
    rw [hf2] at h4
    unfold WpS
    simp only [List.cons_append, if_pos hc]
    exact .inr ⟨args, m, m', r, h1, h2, h4 (ih hf2 hq)⟩

/-- The surroundings when the only call is the one to be reached. -/
abbrev only (C : Ctx) (T : String → List Word → Mem → Prop) : Ctx := { C with call := fun f args m m' r => T f args m ∧ m' = m ∧ r = none }

def here (C : Ctx) (sp gp : Word) (T : String → List Word → Mem → Prop) (_ : Nat) (f : String) (t _ : State) : Prop :=
  ∃ args m, CallPre C sp gp args m t ∧ T f args m

theorem setup_only {tc : Nat → String → State → State → Prop} (S : Setup A tc C V sp gp fofs) :
    Setup A (here C sp gp T) (only C T) V sp gp fofs :=
  { S with
    call := by
      rintro i f t args m m' r h1 h2 h3 h4 h5 ⟨h6, rfl, rfl⟩
      exact ⟨t, ⟨args, m', ⟨h1, h2, h3, h4, h5⟩, h6⟩, h1, h2, (fun x h => by cases h), h3, fun _ _ _ => rfl⟩ }

theorem wps_of_here {n : Nat} {code : List Ph2Ir} {t t' : State} (h : TRun A (here C sp gp T) n code t t') :
    ∀ {tail : List Ph2Ir}, (∃ ir ∈ code, ir.op = .call) → WpS A C V sp gp fofs T (code ++ tail) t := by
  induction h with
  | nil t =>
    rintro tail ⟨ir, h, _⟩
    cases h
  | @step n ir irs nxt t u v hc hst _ ih =>
    rintro tail ⟨ir', hm, hi⟩
    have hcall : ir.op ≠ .call := fun e => by rw [e] at hc; cases hc
    unfold WpS
    simp only [List.cons_append, if_neg hcall, if_pos hc]
    refine ⟨nxt, u, hst, ih ⟨ir', ?_, hi⟩⟩
    rcases List.mem_cons.1 hm with rfl | h
    · exact absurd hi hcall
    · exact h
  | @call n ir irs t u v hc hst _ ih =>
    intro tail _
    obtain ⟨args, m, h1, h2⟩ := hst
    unfold WpS
    simp only [List.cons_append, if_pos hc]
    exact .inl ⟨args, m, h1, h2⟩

/-- Code in the program. -/
theorem run_wps (hA : A.DivLocal) (hcd : CallsDo A P os sys C V sp gp fofs) {a e : Word} {code : List Ph2Ir} (hat : At P stack a code e) :
    ∀ {t t0 : State}, WpS A C V sp gp fofs T code t → Same t t0 → t0.pc = a →
    ∃ t2 ir nxt args m, XRun A P os sys t0 t2 ∧ P t2.pc ir nxt ∧ ir.op = .call ∧ CallPre C sp gp args m t2 ∧ T ir.func_name args m := by
  induction hat with
  | nil a =>
    intro t t0 hw hs hpc
    exact hw.elim
  | @cons a ir ir' nxt irs e hf hp _ ih =>
    intro t t0 hw hs hpc
    unfold WpS at hw
    by_cases hc : ir.op = .call
    · rw [if_pos hc] at hw
      obtain ⟨d, rfl⟩ := final_straight hf (by rw [hc]; simp)
      obtain ⟨b1, b2, b3, b4⟩ := hs
      have pre : ∀ args m, CallPre C sp gp args m t → CallPre C sp gp args m t0 := fun args m h1 =>
        ⟨b2.trans h1.sp, b3.trans h1.gp, fun x hx => by rw [b4]; exact h1.mem x hx, h1.len, fun k hk => by rw [b1]; exact h1.reg k hk⟩
      rcases hw with ⟨args, m, h1, h2⟩ | ⟨args, m, m', r, h1, h2, h3⟩
      · exact ⟨t0, { ir with is_branch_detached := d }, nxt, args, m, .refl _, by rw [hpc]; exact hp, hc, pre args m h1, h2⟩
      · obtain ⟨u0, g1, g2, g3⟩ := hcd { ir with is_branch_detached := d } nxt t0 args m m' r (by rw [hpc]; exact hp) hc (pre args m h1) h2
        obtain ⟨t2, ir2, nxt2, args2, m2, q1, q2⟩ := ih (h3 u0 ⟨g3.sp, g3.gp, g3.result, g3.mem, fun v hg hv => by
          rw [g3.slot v hg hv]
          unfold slot
          rw [b4, b2]⟩) (Same.refl u0) g2
        exact ⟨t2, ir2, nxt2, args2, m2, run_trans g1 q1, q2⟩
    · rw [if_neg hc] at hw
      by_cases hst : straight ir.op = true
      · rw [if_pos hst] at hw
        obtain ⟨nx, u, h1, h2⟩ := hw
        obtain ⟨d, rfl⟩ := final_straight hf (straight_ret hst)
        obtain ⟨u0, g1, g2, g3⟩ := step_same hA hst h1 d nxt hs
        obtain ⟨t2, ir2, nxt2, args2, m2, q1, q2⟩ := ih h2 g2 g3
        exact ⟨t2, ir2, nxt2, args2, m2, run_trans (run_one (by rw [hpc]; exact hp) g1) q1, q2⟩
      · rw [if_neg hst] at hw
        exact hw.elim

end

/-- A call in the middle of a block, with its arguments. -/
theorem grouped_split {V : Vars} {is : List Insn} (G : Grouped V is) : ∀ {xs ys : List Insn} {c : Insn}, is = xs ++ c :: ys → c.op = .call →
    ∃ pre ps, xs = pre ++ ps ∧ Grouped V pre ∧ CallSeq V ps c := by
  have split2 : ∀ {ps zs xs ys : List Insn} {d c : Insn}, (∀ p ∈ ps, p.op = .push) → c.op = .call → ps ++ d :: zs = xs ++ c :: ys →
      (xs = ps ∧ c = d ∧ ys = zs) ∨ ∃ xs', xs = ps ++ d :: xs' ∧ zs = xs' ++ c :: ys := by
    intro ps
    induction ps with
    | nil =>
      intro zs xs ys d c _ _ h
      cases xs with
      | nil => simp only [List.nil_append, List.cons.injEq] at h; exact .inl ⟨rfl, h.1.symm, h.2.symm⟩
      | cons x xs => simp only [List.nil_append, List.cons_append, List.cons.injEq] at h; exact .inr ⟨xs, by rw [h.1]; rfl, h.2⟩
    | cons p ps ih =>
      intro zs xs ys d c hp hc h
      cases xs with
      | nil =>
        simp only [List.nil_append, List.cons_append, List.cons.injEq] at h
        have := hp p (by simp)
        rw [h.1, hc] at this
        cases this
      | cons x xs =>
        simp only [List.cons_append, List.cons.injEq] at h
        rcases ih (fun q hq => hp q (by simp [hq])) hc h.2 with ⟨rfl, r⟩ | ⟨xs', rfl, r⟩
        · exact .inl ⟨by rw [h.1], r⟩
        · exact .inr ⟨xs', by rw [h.1]; rfl, r⟩
  induction G with
  | nil => intro xs ys c h _; simp at h
  | @one i is hs G ih =>
    intro xs ys c h hc
    cases xs with
    | nil =>
      simp only [List.nil_append, List.cons.injEq] at h
      rw [h.1, hc] at hs
      cases hs
    | cons x xs =>
      simp only [List.cons_append, List.cons.injEq] at h
      obtain ⟨pre, ps, e, g1, g2⟩ := ih h.2 hc
      exact ⟨x :: pre, ps, by rw [e]; rfl, .one (by rw [← h.1]; exact hs) g1, g2⟩
  | @call ps d is hcs G ih =>
    intro xs ys c h hc
    rcases split2 hcs.push hc h with ⟨rfl, rfl, _⟩ | ⟨xs', rfl, h'⟩
    · exact ⟨[], xs, rfl, .nil, hcs⟩
    · obtain ⟨pre, ps', e, g1, g2⟩ := ih h' hc
      exact ⟨ps ++ d :: pre, ps', by rw [e]; simp, .call hcs g1, g2⟩
  | @callRet ps d f is hcs hf G ih =>
    intro xs ys c h hc
    rcases split2 hcs.push hc h with ⟨rfl, rfl, _⟩ | ⟨xs', rfl, h'⟩
    · exact ⟨[], xs, rfl, .nil, hcs⟩
    · cases xs' with
      | nil =>
        simp only [List.nil_append, List.cons.injEq] at h'
        rw [h'.1, hc] at hf
        cases hf
      | cons x xs' =>
        simp only [List.cons_append, List.cons.injEq] at h'
        obtain ⟨pre, ps', e, g1, g2⟩ := ih h'.2 hc
        exact ⟨ps ++ d :: f :: pre, ps', by rw [e, h'.1]; simp, .callRet hcs hf g1, g2⟩

end RaFn
