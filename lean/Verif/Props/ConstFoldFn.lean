import Verif.Spec.CFoldFn
import Verif.Props.ConstFold
import Verif.Lemmas.Graph

/-!
# C94: constant folding preserves what a function does
-/

namespace Shecc.Props
open Shecc Shecc.Ssa Shecc.ConstFold SsaSem SrcBlock RaFn

/-- The context with other constants. -/
def withConsts (C : Ctx) (cv : Nat → CArith.Word) : Ctx := { C with initVal := cv }

theorem binOf_unOf {o : Op2} {bo : CArith.BinOp} (h : IrM.binOf o = some bo) : IrM.unOf o = none := by
  cases o <;> first | rfl | (simp [IrM.binOf] at h)

/-- The same instruction with other constants. -/
theorem Step.consts {C : Ctx} {cv : Nat → CArith.Word} {i : Insn} {s s' : SrcBlock.St}
    (h : ∀ d, i.rd = some d → i.op = .load_constant ∨ i.op = .load_data_address → cv d = C.initVal d) (hs : SrcBlock.Step C i s s') :
    SrcBlock.Step (withConsts C cv) i s s' := by
  cases hs with
  | const ho hd => rw [← h _ hd (Or.inl ho)]; exact .const ho hd
  | data ho hd => rw [← h _ hd (Or.inr ho)]; exact .data ho hd
  | assign ho hd ha => exact .assign ho hd ha
  | phi ho hd ha => exact .phi ho hd ha
  | bin ho hop hd ha hb hv => exact .bin ho hop hd ha hb hv
  | un ho hop hd ha => exact .un ho hop hd ha
  | read4 ho hs hd ha hv => exact .read4 ho hs hd ha hv
  | read1 ho hs hd ha hv => exact .read1 ho hs hd ha hv
  | write4 ho hs ha hb hv hm h1 h2 => exact .write4 ho hs ha hb hv hm h1 h2
  | write1 ho hs ha hb hv hm h1 h2 => exact .write1 ho hs ha hb hv hm h1 h2
  | gaddr ho hd ha hg => exact .gaddr ho hd ha hg
  | declare ho hd hb => exact .declare ho hd hb
  | object ho hd hb => exact .object ho hd hb
  | push ho ha => exact .push ho ha
  | call ho hc => exact .call ho hc
  | funcRet ho hd hx => exact .funcRet ho hd hx

theorem wr_other {C : Ctx} {s : SrcBlock.St} {v u : Nat} {x : CArith.Word} (h : u ≠ v) : (wr C s v x).val u = s.val u := by
  unfold wr
  split
  · rfl
  · simp [h]

theorem Step.other {C : Ctx} {i : Insn} {s s' : SrcBlock.St} (hs : SrcBlock.Step C i s s') {u : Nat} (hu : i.rd ≠ some u) :
    s'.val u = s.val u := by
  have hw : ∀ {d x}, i.rd = some d → (wr C s d x).val u = s.val u := fun {d x} hd =>
    wr_other (by rintro rfl; exact hu hd)
  cases hs <;> first | rfl | exact hw (by assumption)

/-- What is known of the folded function: pairs of instructions before and after, block by block. -/
structure FoldRel (C : Ctx) (F F' : RegAlloc.Fn) (entry : Nat) (order : List Nat) (Z : Nat → List (Insn × Insn)) (st : CF) : Prop where
  fst_ : ∀ b ∈ order, (Z b).map Prod.fst = F.insns b
  snd_ : ∀ b ∈ order, (Z b).map Prod.snd = F'.insns b
  inv : FInv C.isGlobal C.initVal (order.flatMap Z) st
  input : CFold.Input F C.isGlobal entry order
  block : F'.block = F.block
  exit : F'.fnExit = F.fnExit

section
variable {C : Ctx} {F F' : RegAlloc.Fn} {entry : Nat} {order : List Nat} {Z : Nat → List (Insn × Insn)} {st : CF}

theorem FoldRel.fsts (R : FoldRel C F F' entry order Z st) : (order.flatMap Z).map Prod.fst = order.flatMap F.insns := by
  have : ∀ l : List Nat, (∀ b ∈ l, b ∈ order) → (l.flatMap Z).map Prod.fst = l.flatMap F.insns := by
    intro l
    induction l with
    | nil => intro _; rfl
    | cons b l ih =>
      intro h
      rw [List.flatMap_cons, List.flatMap_cons, List.map_append, R.fst_ b (h b (by simp)), ih fun c hc => h c (by simp [hc])]
  exact this order fun _ h => h

theorem FoldRel.ssa (R : FoldRel C F F' entry order Z st) : IsSsa C.isGlobal ((order.flatMap Z).map Prod.fst) := by
  rw [R.fsts]
  exact R.input.ssa

/-- Constants assigned in `P` have their value. -/
def Known (st : CF) (P : List Insn) (s : SrcBlock.St) : Prop :=
  ∀ v, st.isConst v = true → (∃ i ∈ P, i.rd = some v) → s.val v = st.initVal v

theorem Img.plain {cv0 : Nat → CArith.Word} {st : CF} {i i' : Insn} (H : Img cv0 st i i') (h1 : i.op ≠ .assign) (h2 : ∀ o, i.op ≠ .alu o) : i' = i := by
  cases H with
  | same => rfl
  | assign hop => exact absurd hop h1
  | alu hop => exact absurd hop (h2 _)

/-- Constants assigned in `P` have their value, but for the variables `D`. -/
def KnownX (D : Nat → Prop) (st : CF) (P : List Insn) (s : SrcBlock.St) : Prop :=
  ∀ v, ¬ D v → st.isConst v = true → (∃ i ∈ P, i.rd = some v) → s.val v = st.initVal v

/-- One instruction. -/
theorem fold_step {C : Ctx} {PZ : List (Insn × Insn)} {st : CF} (H : FInv C.isGlobal C.initVal PZ st) (hs : IsSsa C.isGlobal (PZ.map Prod.fst))
    {prog : List Insn} (hsub : ∀ q ∈ PZ, q.1 ∈ prog) {D : Nat → Prop} {p : Insn × Insn} (hp : p ∈ PZ) {P : List Insn} {s s' : SrcBlock.St}
    (hk : KnownX D st P s) (hD : ∀ v, Operand p.1 v → ¬ D v)
    (hu : ∀ v, Operand p.1 v → C.isGlobal v = false → (∃ j ∈ prog, j.rd = some v) → ∃ j ∈ P, j.rd = some v)
    (h : SrcBlock.Step C p.1 s s') : SrcBlock.Step (withConsts C st.initVal) p.2 s s' ∧ KnownX D st (P ++ [p.1]) s' := by
  have hop : ∀ a, Operand p.1 a → st.isConst a = true → SrcBlock.rd C s a = st.initVal a := by
    intro a ha hca
    obtain ⟨q, hq, hqr, _⟩ := H.isc a hca
    have hg := (img_const H hs hq hqr hca).1
    obtain ⟨j, hj, hjr⟩ := hu a ha hg ⟨q.1, hsub q hq, hqr⟩
    unfold SrcBlock.rd
    rw [hg]
    exact hk a (hD a ha) hca ⟨j, hj, hjr⟩
  have hstep : SrcBlock.Step (withConsts C st.initVal) p.2 s s' := by
    have himg := H.img p hp
    generalize hp2 : p.2 = i' at himg
    cases himg with
    | same hsm =>
      apply Step.consts _ h
      intro d hd ho
      rcases ho with ho | ho
      · exact (hsm d hd ho).2
      · refine val_same H hs hp hd ?_
        rintro (hf | ⟨o, hf⟩ | ⟨hf, _⟩) <;> rw [ho] at hf <;> cases hf
    | @assign d a _ hop' hd ha hc hcd hv ho' hd' =>
      have hx : s' = wr C s d (SrcBlock.rd C s a) := by
        cases h <;> simp_all
      rw [hx, hop a (Or.inl ha) hc, ← hv]
      exact .const ho' hd'
    | @alu d a b o bo _ hop' hd ha hb hca hcb hcd ho hv ho' hd' =>
      have hx : ∃ v, CArith.bin bo (SrcBlock.rd C s a) (SrcBlock.rd C s b) = some v ∧ s' = wr C s d v := by
        cases h with
        | bin ho1 hop1 hd1 ha1 hb1 hv1 =>
          rw [hop'] at ho1
          injection ho1 with ho1
          subst ho1
          rw [ho] at hop1; injection hop1 with hop1; subst hop1
          rw [hd] at hd1; injection hd1 with hd1; subst hd1
          rw [ha] at ha1; injection ha1 with ha1; subst ha1
          rw [hb] at hb1; injection hb1 with hb1; subst hb1
          exact ⟨_, hv1, rfl⟩
        | un ho1 hop1 hd1 ha1 =>
          rw [hop'] at ho1
          injection ho1 with ho1
          subst ho1
          rw [binOf_unOf ho] at hop1
          cases hop1
        | _ => simp_all
      obtain ⟨v, hv1, rfl⟩ := hx
      rw [hop a (Or.inl ha) hca, hop b (Or.inr hb) hcb, hv] at hv1
      injection hv1 with hv1
      rw [← hv1]
      exact .const ho' hd'
  refine ⟨hstep, ?_⟩
  intro v hvD hv hdef
  by_cases hpv : p.1.rd = some v
  · obtain ⟨hg, ho, _⟩ := img_const H hs hp hpv hv
    have hd' : p.2.rd = some v := by
      have himg := H.img p hp
      generalize p.2 = i' at himg ⊢
      cases himg with
      | same => exact hpv
      | assign _ hd _ _ _ _ _ hd' => rw [hpv] at hd; cases hd; exact hd'
      | alu _ hd _ _ _ _ _ _ _ _ hd' => rw [hpv] at hd; cases hd; exact hd'
    have hx : s' = wr (withConsts C st.initVal) s v (st.initVal v) := by
      cases hstep <;> simp_all [withConsts]
    rw [hx]
    unfold wr
    simp [withConsts, hg]
  · rw [Step.other h hpv]
    apply hk v hvD hv
    obtain ⟨j, hj, hjr⟩ := hdef
    rcases List.mem_append.1 hj with hj | hj
    · exact ⟨j, hj, hjr⟩
    · simp only [List.mem_singleton] at hj
      subst hj
      exact absurd hjr hpv

theorem FoldRel.step (R : FoldRel C F F' entry order Z st) {p : Insn × Insn} (hp : p ∈ order.flatMap Z) {P : List Insn} {s s' : SrcBlock.St}
    (hk : Known st P s)
    (hu : ∀ v, Operand p.1 v → C.isGlobal v = false → (∃ j ∈ order.flatMap F.insns, j.rd = some v) → ∃ j ∈ P, j.rd = some v)
    (h : SrcBlock.Step C p.1 s s') : SrcBlock.Step (withConsts C st.initVal) p.2 s s' ∧ Known st (P ++ [p.1]) s' := by
  obtain ⟨h1, h2⟩ := fold_step (D := fun _ => False) R.inv R.ssa (prog := order.flatMap F.insns)
    (fun q hq => by rw [← R.fsts]; exact List.mem_map_of_mem hq) hp (fun v _ => hk v) (fun _ _ h => h) hu h
  exact ⟨h1, fun v => h2 v (fun h => h)⟩

/-- Part of a block. -/
theorem FoldRel.run (R : FoldRel C F F' entry order Z st) : ∀ (zs : List (Insn × Insn)) (P : List Insn) (s s' : SrcBlock.St),
    (∀ p ∈ zs, p ∈ order.flatMap Z) → Known st P s → DefinedBeforeUse C.isGlobal (order.flatMap F.insns) (P ++ zs.map Prod.fst) →
    SrcBlock.Run C (zs.map Prod.fst) s s' →
    SrcBlock.Run (withConsts C st.initVal) (zs.map Prod.snd) s s' ∧ Known st (P ++ zs.map Prod.fst) s' := by
  intro zs
  induction zs with
  | nil =>
    intro P s s' _ hk _ h
    cases h
    exact ⟨.nil _, by simpa using hk⟩
  | cons p zs ih =>
    intro P s s' hz hk hu h
    cases h with
    | cons h hr =>
      obtain ⟨h1, h2⟩ := R.step (hz p (by simp)) hk (fun v hv hg hd => hu P p.1 (zs.map Prod.fst) v (by simp) hv hg hd) h
      obtain ⟨h3, h4⟩ := ih (P ++ [p.1]) _ _ (fun q hq => hz q (by simp [hq])) h2 (by simpa using hu) hr
      exact ⟨.cons h1 h3, by simpa using h4⟩

theorem FoldRel.dbu (R : FoldRel C F F' entry order Z st) {l : List Nat} {b : Nat} (hp : CGraph.Path (succs F) entry (l ++ [b]) b) :
    DefinedBeforeUse C.isGlobal (order.flatMap F.insns) (traceF F.insns l ++ F.insns b) := by
  have := R.input.strict l b hp
  unfold traceF at *
  simpa using this

theorem dbu_prefix {g : Nat → Bool} {prog xs ys : List Insn} (h : DefinedBeforeUse g prog (xs ++ ys)) : DefinedBeforeUse g prog xs := by
  intro us i vs v he ho hg hd
  exact h us i (vs ++ ys) v (by rw [he]; simp) ho hg hd

theorem FoldRel.whole (R : FoldRel C F F' entry order Z st) {l : List Nat} {b : Nat} (hp : CGraph.Path (succs F) entry (l ++ [b]) b)
    (hb : b ∈ order) {s s' : SrcBlock.St} (hk : Known st (traceF F.insns l) s) (h : SrcBlock.Run C (F.insns b) s s') :
    SrcBlock.Run (withConsts C st.initVal) (F'.insns b) s s' ∧ Known st (traceF F.insns (l ++ [b])) s' := by
  rw [← R.fst_ b hb] at h
  have := R.run (Z b) _ s s' (fun p hp => List.mem_flatMap.2 ⟨b, hb, hp⟩) hk (by rw [R.fst_ b hb]; exact R.dbu hp) h
  rw [R.snd_ b hb, R.fst_ b hb] at this
  refine ⟨this.1, ?_⟩
  unfold traceF at *
  simpa using this.2

/-- A block up to an instruction that folding leaves alone. -/
theorem FoldRel.part (R : FoldRel C F F' entry order Z st) {l : List Nat} {b : Nat} (hp : CGraph.Path (succs F) entry (l ++ [b]) b)
    (hb : b ∈ order) {xs ys : List Insn} {i : Insn} (hi : F.insns b = xs ++ i :: ys) (h1 : i.op ≠ .assign) (h2 : ∀ o, i.op ≠ .alu o)
    {s s' : SrcBlock.St} (hk : Known st (traceF F.insns l) s) (h : SrcBlock.Run C xs s s') :
    ∃ xs' ys', F'.insns b = xs' ++ i :: ys' ∧ ys'.length = ys.length ∧ SrcBlock.Run (withConsts C st.initVal) xs' s s' ∧
      (i.rd = none → ys = [] → Known st (traceF F.insns (l ++ [b])) s') := by
  have hf := R.fst_ b hb
  rw [hi] at hf
  obtain ⟨zx, zy, he, e1, e2⟩ := List.map_eq_append_iff.1 hf
  cases zy with
  | nil => simp at e2
  | cons z zy =>
    simp only [List.map_cons, List.cons.injEq] at e2
    obtain ⟨e2, e3⟩ := e2
    have hzz : ∀ p ∈ Z b, p ∈ order.flatMap Z := fun p hp => List.mem_flatMap.2 ⟨b, hb, hp⟩
    have hz2 : z.2 = i := by
      rw [← e2]
      exact Img.plain (st := st) (cv0 := C.initVal) (R.inv.img z (hzz z (by rw [he]; simp))) (by rw [e2]; exact h1) (by rw [e2]; exact h2)
    subst e1
    have := R.run zx _ s s' (fun p hp => hzz p (by rw [he]; simp [hp])) hk (by
      have := R.dbu hp
      rw [hi, ← List.append_assoc] at this
      exact dbu_prefix this) h
    refine ⟨zx.map Prod.snd, zy.map Prod.snd, ?_, by rw [← e3]; simp, this.1, ?_⟩
    · rw [← R.snd_ b hb, he]
      simp [hz2]
    · intro hrd hy v hv hdef
      apply this.2 v hv
      obtain ⟨j, hj, hjr⟩ := hdef
      refine ⟨j, ?_, hjr⟩
      unfold traceF at hj ⊢
      rw [List.flatMap_append] at hj
      rcases List.mem_append.1 hj with hj | hj
      · exact List.mem_append.2 (Or.inl hj)
      · simp only [List.flatMap_cons, List.flatMap_nil, List.append_nil, hi, hy] at hj
        rcases List.mem_append.1 hj with hj | hj
        · exact List.mem_append.2 (Or.inr hj)
        · simp only [List.mem_singleton] at hj
          subst hj
          rw [hrd] at hjr
          cases hjr

theorem FoldRel.next (R : FoldRel C F F' entry order Z st) {b c : Nat} (hb : b ∈ order) (hbe : b ≠ F.fnExit)
    (hn : (F.block b).next = some c) : c ∈ order := by
  exact R.input.closed b hb c (by simp [succs, hbe, hn])

theorem succs_ite {F : RegAlloc.Fn} {b : Nat} {p : Prop} [Decidable p] (hbe : b ≠ F.fnExit) (hn : (F.block b).next = none) :
    (if p then (F.block b).then_ else (F.block b).else_) ∈ succs F b := by
  simp only [succs, hbe, if_false, hn]
  split <;> simp

theorem FoldRel.exec (R : FoldRel C F F' entry order Z st) {void : Bool} {b : Nat} {s : SrcBlock.St} {r : Option IrM.Word} {m : IrM.Mem}
    (hx : Exec C F void b s r m) : ∀ l, CGraph.Path (succs F) entry (l ++ [b]) b → b ∈ order → b ≠ F.fnExit →
      Known st (traceF F.insns l) s → Exec (withConsts C st.initVal) F' void b s r m := by
  induction hx with
  | @next b c s s' r m hr hn hne hx ih =>
    intro l hp hb hbe hk
    obtain ⟨h1, h2⟩ := R.whole hp hb hk hr
    have hc : c ∈ succs F b := by simp [succs, hbe, hn]
    exact .next h1 (by rw [R.block]; exact hn) (by rw [R.exit]; exact hne)
      (ih (l ++ [b]) (Cfg.Path.snoc hp hc) (R.input.closed b hb c hc) hne h2)
  | @branch b is br a s s' r m hi ho ha hr hn hne hx ih =>
    intro l hp hb hbe hk
    obtain ⟨xs', ys', e1, e2, e3, e4⟩ := R.part hp hb (ys := []) hi (by rw [ho]; simp) (by rw [ho]; simp) hk hr
    have hy : ys' = [] := List.length_eq_zero_iff.1 (by simpa using e2)
    subst hy
    have hc := succs_ite (p := SrcBlock.rd C s' a ≠ 0#32) hbe hn
    have hkn := e4 (R.input.branch br (List.mem_flatMap.2 ⟨b, hb, by rw [hi]; simp⟩) ho) rfl
    exact .branch e1 ho ha e3 (by rw [R.block]; exact hn) (by rw [R.block, R.exit]; exact hne)
      (by rw [R.block]; exact ih (l ++ [b]) (Cfg.Path.snoc hp hc) (R.input.closed b hb _ hc) hne hkn)
  | @ret b is re a s s' hi ho ha hr =>
    intro l hp hb hbe hk
    obtain ⟨xs', ys', e1, e2, e3, e4⟩ := R.part hp hb (ys := []) hi (by rw [ho]; simp) (by rw [ho]; simp) hk hr
    have hy : ys' = [] := List.length_eq_zero_iff.1 (by simpa using e2)
    subst hy
    exact .ret (C := withConsts C st.initVal) e1 ho ha e3
  | @retVoid b is re s s' hi ho ha hr =>
    intro l hp hb hbe hk
    obtain ⟨xs', ys', e1, e2, e3, e4⟩ := R.part hp hb (ys := []) hi (by rw [ho]; simp) (by rw [ho]; simp) hk hr
    have hy : ys' = [] := List.length_eq_zero_iff.1 (by simpa using e2)
    subst hy
    exact .retVoid e1 ho ha e3
  | @fall b s s' hr hn hv =>
    intro l hp hb hbe hk
    obtain ⟨h1, h2⟩ := R.whole hp hb hk hr
    exact .fall h1 (by rw [R.block, R.exit]; exact hn) hv

theorem FoldRel.reach (R : FoldRel C F F' entry order Z st) {T : String → List IrM.Word → IrM.Mem → Prop} {b : Nat} {s : SrcBlock.St}
    (hx : RaFn.Reach C F T b s) : ∀ l, CGraph.Path (succs F) entry (l ++ [b]) b → b ∈ order → b ≠ F.fnExit →
      Known st (traceF F.insns l) s → RaFn.Reach (withConsts C st.initVal) F' T b s := by
  induction hx with
  | @next b c s s' hr hn hne hx ih =>
    intro l hp hb hbe hk
    obtain ⟨h1, h2⟩ := R.whole hp hb hk hr
    have hc : c ∈ succs F b := by simp [succs, hbe, hn]
    exact .next h1 (by rw [R.block]; exact hn) (by rw [R.exit]; exact hne)
      (ih (l ++ [b]) (Cfg.Path.snoc hp hc) (R.input.closed b hb c hc) hne h2)
  | @branch b is br a s s' hi ho ha hr hn hne hx ih =>
    intro l hp hb hbe hk
    obtain ⟨xs', ys', e1, e2, e3, e4⟩ := R.part hp hb (ys := []) hi (by rw [ho]; simp) (by rw [ho]; simp) hk hr
    have hy : ys' = [] := List.length_eq_zero_iff.1 (by simpa using e2)
    subst hy
    have hc := succs_ite (p := SrcBlock.rd C s' a ≠ 0#32) hbe hn
    have hkn := e4 (R.input.branch br (List.mem_flatMap.2 ⟨b, hb, by rw [hi]; simp⟩) ho) rfl
    exact .branch e1 ho ha e3 (by rw [R.block]; exact hn) (by rw [R.block, R.exit]; exact hne)
      (by rw [R.block]; exact ih (l ++ [b]) (Cfg.Path.snoc hp hc) (R.input.closed b hb _ hc) hne hkn)
  | @call b xs c ys s s' hi ho hr ht =>
    intro l hp hb hbe hk
    obtain ⟨xs', ys', e1, _, e3, _⟩ := R.part hp hb hi (by rw [ho]; simp) (by rw [ho]; simp) hk hr
    exact .call e1 ho e3 ht

/-- **C94**. After constant folding a function returns the same value and leaves the same memory, and it makes every call it made
before, in the same memory and with the same arguments: for every meaning of calls, every initial state and every number of
iterations of its loops. `C.initVal` are the constants attached to variables before, `st'.initVal` those after. (partial: provided the
pass itself does not divide by zero, `C50_dead_division_crashes`; addresses of locals other than arrays and structures are not taken,
`C50_address_taken_wrong`.) -/
theorem C94_fold_partial (C : Ctx) (F F' : RegAlloc.Fn) (entry : Nat) (order : List Nat) (blocks' : List (List Insn)) (st st' : CF)
    (I : CFold.Input F C.isGlobal entry order) (h0 : ∀ v, st.isConst v = false) (hv : st.initVal = C.initVal)
    (hf : foldBlocks C.isGlobal (order.map F.insns) st = .ok (blocks', st')) (O : CFold.Output F F' order blocks')
    (he : entry ≠ F.fnExit) (s : SrcBlock.St) :
    (∀ void r m, Exec C F void entry s r m → Exec { C with initVal := st'.initVal } F' void entry s r m) ∧
    ∀ T, RaFn.Reach C F T entry s → RaFn.Reach { C with initVal := st'.initVal } F' T entry s := by
  have H0 : FInv C.isGlobal C.initVal [] st :=
    ⟨fun v hv => (by rw [h0 v] at hv; cases hv), fun _ _ => by rw [hv], fun p hp => (by cases hp)⟩
  have hfl : (order.map F.insns).flatten = order.flatMap F.insns := by rw [List.flatMap_def]
  obtain ⟨zb, h1, h2, H⟩ := foldBlocks_inv (order.map F.insns) st [] _ H0 (by simpa [hfl] using I.ssa) hf
  simp only [List.nil_append] at H h2
  have hget : ∀ (k b : Nat), order[k]? = some b → order.idxOf b = k := by
    intro k b hk
    obtain ⟨hlt, hkb⟩ := List.getElem?_eq_some_iff.1 hk
    subst hkb
    exact I.nodup.idxOf_getElem k hlt
  have hlen : zb.length = order.length := by
    have := congrArg List.length h1
    simpa using this
  have hZ : ∀ b ∈ order, ∃ z, zb[order.idxOf b]? = some z ∧ z.map Prod.fst = F.insns b ∧ z.map Prod.snd = F'.insns b := by
    intro b hb
    have hlt : order.idxOf b < order.length := List.idxOf_lt_length_iff.2 hb
    have hob : order[order.idxOf b]? = some b := by
      rw [List.getElem?_eq_getElem hlt, List.getElem_idxOf]
    have hz : zb[order.idxOf b]? = some (zb[order.idxOf b]'(by omega)) := List.getElem?_eq_getElem _
    refine ⟨_, hz, ?_, ?_⟩
    · have := congrArg (·[order.idxOf b]?) h1
      simp only [List.getElem?_map, hz, hob, Option.map_some, Option.some.injEq] at this
      exact this
    · have := congrArg (·[order.idxOf b]?) (h2.trans O.insns.symm)
      simp only [List.getElem?_map, hz, hob, Option.map_some, Option.some.injEq] at this
      exact this
  have hfz : order.flatMap (fun b => zb.getD (order.idxOf b) []) = zb.flatten := by
    rw [List.flatMap_def]
    congr 1
    apply List.ext_getElem?
    intro k
    rw [List.getElem?_map]
    by_cases hk : k < order.length
    · rw [List.getElem?_eq_getElem hk, Option.map_some, hget k _ (List.getElem?_eq_getElem hk), List.getElem?_eq_getElem (by omega),
        List.getD_eq_getElem?_getD, List.getElem?_eq_getElem (by omega)]
      rfl
    · rw [List.getElem?_eq_none (by omega), List.getElem?_eq_none (by omega)]
      rfl
  have R : FoldRel C F F' entry order (fun b => zb.getD (order.idxOf b) []) st' := by
    refine ⟨?_, ?_, by rw [hfz]; exact H, I, O.block, O.exit⟩
    · intro b hb
      obtain ⟨z, hz, e1, _⟩ := hZ b hb
      simp only [List.getD_eq_getElem?_getD, hz, Option.getD_some]
      exact e1
    · intro b hb
      obtain ⟨z, hz, _, e2⟩ := hZ b hb
      simp only [List.getD_eq_getElem?_getD, hz, Option.getD_some]
      exact e2
  have hk : Known st' (traceF F.insns []) s := by
    rintro v _ ⟨i, hi, _⟩
    cases hi
  exact ⟨fun void r m hx => R.exec hx [] (.nil _) I.start he hk, fun T hx => R.reach hx [] (.nil _) I.start he hk⟩

end

end Shecc.Props

/-! ### An example -/

namespace Shecc.Props
open Shecc Shecc.Ssa Shecc.ConstFold SsaSem RaFn

/-- `int f() { int x = 6 * 7; g(); return x; }` -/
def foldFnDemo : RegAlloc.Fn where
  block := fun b => { next := some (b + 1) }
  insns := fun b => match b with
    | 0 => [{ op := .load_constant, rd := some 0 }, { op := .load_constant, rd := some 1 },
            { op := .alu .mul, rd := some 2, rs1 := some 0, rs2 := some 1 }, { op := .assign, rd := some 3, rs1 := some 2 }]
    | 1 => [{ op := .call, str := "g" }, { op := .ret, rs1 := some 3 }]
    | _ => []
  rpo := fun b => b
  fnExit := 2

def foldFnDemo' : RegAlloc.Fn :=
  { foldFnDemo with
    insns := fun b => match b with
      | 0 => [{ op := .load_constant, rd := some 0 }, { op := .load_constant, rd := some 1 },
              { op := .load_constant, rd := some 2 }, { op := .load_constant, rd := some 3 }]
      | 1 => [{ op := .call, str := "g" }, { op := .ret, rs1 := some 3 }]
      | _ => [] }

def foldFnCf : CF := ⟨fun _ => false, fun | 0 => 6 | 1 => 7 | _ => 0⟩

theorem foldFn_path {l : List Nat} {b : Nat} (h : CGraph.Path (succs foldFnDemo) 0 l b) : l = [0] ∨ l = [0, 1] ∨ l = [0, 1, 2] := by
  cases h with
  | nil => exact Or.inl rfl
  | cons h p =>
    simp only [succs, foldFnDemo, show ¬ (0 = 2) by decide, if_false, List.mem_singleton] at h
    subst h
    cases p with
    | nil => exact Or.inr (Or.inl rfl)
    | cons h p =>
      simp only [succs, foldFnDemo, show ¬ (0 + 1 = 2) by decide, if_false, List.mem_singleton] at h
      subst h
      cases p with
      | nil => exact Or.inr (Or.inr rfl)
      | cons h p => simp [succs, foldFnDemo] at h

/-- The example meets the hypotheses of `C94_fold_partial`, and 42 is loaded directly. -/
theorem C94_example (g : Nat → Bool) (hg : ∀ v, g v = false) : CFold.Input foldFnDemo g 0 [0, 1, 2] ∧
    ∃ st', foldBlocks g ([0, 1, 2].map foldFnDemo.insns) foldFnCf = .ok ([0, 1, 2].map foldFnDemo'.insns, st') ∧
      st'.initVal 3 = 42#32 ∧ CFold.Output foldFnDemo foldFnDemo' [0, 1, 2] ([0, 1, 2].map foldFnDemo'.insns) := by
  obtain rfl : g = fun _ => false := funext hg
  refine ⟨⟨by decide, by decide, by decide, ?_, by decide, ?_⟩, _, rfl, by decide, rfl, rfl, rfl⟩
  · apply IsSsa.of_pairwise
    all_goals decide
  · intro l b hp
    rcases foldFn_path hp with h | h | h <;> rw [h] <;> exact DefinedBeforeUse.of_check (by decide)

end Shecc.Props
