import Verif.Lemmas.LinkExec
import Verif.Lemmas.SsaShape
import Verif.Lemmas.DceInput
import Verif.Props.SsaExec
import Verif.Props.Graph
import Verif.Props.CseFn
import Verif.Props.Cfg
import Verif.Props.Live
import Verif.Lemmas.RaSource
import Verif.Props.DceFn
import Verif.Props.SsaImage

/-!
# C95: from the statements of a program to its executable
-/

namespace Shecc.Props
open Shecc Shecc.Ssa IrM SrcBlock RaFn CProg
open CRename (Mach Home Ins)
open SsaProg (SrcProg SrcFn)

/-! ### Executions in a different setting -/

section
variable {C : Ctx} {c : String → List Word → Mem → Mem → Option Word → Prop}

theorem rd_call (s : SrcBlock.St) (v : Nat) : SrcBlock.rd { C with call := c } s v = SrcBlock.rd C s v := rfl
theorem wr_call (s : SrcBlock.St) (v : Nat) (x : Word) : SrcBlock.wr { C with call := c } s v x = SrcBlock.wr C s v x := rfl

theorem step_call (h : ∀ g a m m' r, C.call g a m m' r → c g a m m' r) {i : Insn} {s t : SrcBlock.St} (hs : SrcBlock.Step C i s t) :
    SrcBlock.Step { C with call := c } i s t := by
  cases hs with
  | const ho hd => exact SrcBlock.Step.const (C := { C with call := c }) ho hd
  | data ho hd => exact SrcBlock.Step.data (C := { C with call := c }) ho hd
  | assign ho hd ha => exact SrcBlock.Step.assign (C := { C with call := c }) ho hd ha
  | phi ho hd ha => exact SrcBlock.Step.phi (C := { C with call := c }) ho hd ha
  | bin ho hop hd ha hb hv => exact SrcBlock.Step.bin (C := { C with call := c }) ho hop hd ha hb hv
  | un ho hop hd ha => exact SrcBlock.Step.un (C := { C with call := c }) ho hop hd ha
  | read4 ho hsz hd ha hv => exact SrcBlock.Step.read4 (C := { C with call := c }) ho hsz hd ha hv
  | read1 ho hsz hd ha hv => exact SrcBlock.Step.read1 (C := { C with call := c }) ho hsz hd ha hv
  | write4 ho hsz ha hb hv hm h1 h2 => exact SrcBlock.Step.write4 (C := { C with call := c }) ho hsz ha hb hv hm h1 h2
  | write1 ho hsz ha hb hv hm h1 h2 => exact SrcBlock.Step.write1 (C := { C with call := c }) ho hsz ha hb hv hm h1 h2
  | gaddr ho hd ha hg => exact SrcBlock.Step.gaddr (C := { C with call := c }) ho hd ha hg
  | declare ho hd hb => exact SrcBlock.Step.declare (C := { C with call := c }) ho hd hb
  | object ho hd hb => exact SrcBlock.Step.object (C := { C with call := c }) ho hd hb
  | push ho ha => exact SrcBlock.Step.push (C := { C with call := c }) ho ha
  | call ho hc => exact SrcBlock.Step.call (C := { C with call := c }) ho (h _ _ _ _ _ hc)
  | funcRet ho hd hx => exact SrcBlock.Step.funcRet (C := { C with call := c }) ho hd hx

theorem run_call (h : ∀ g a m m' r, C.call g a m m' r → c g a m m' r) {l : List Insn} {s t : SrcBlock.St} (hs : SrcBlock.Run C l s t) :
    SrcBlock.Run { C with call := c } l s t := by
  induction hs with
  | nil s => exact .nil s
  | cons h1 _ ih => exact .cons (step_call h h1) ih

/-- More calls have an answer. -/
theorem exec_call (h : ∀ g a m m' r, C.call g a m m' r → c g a m m' r) {F : RegAlloc.Fn} {void : Bool} {b : Nat} {s : SrcBlock.St}
    {r : Option Word} {m : Mem} (hx : Exec C F void b s r m) : Exec { C with call := c } F void b s r m := by
  induction hx with
  | next hr hn hne _ ih => exact .next (run_call h hr) hn hne ih
  | branch hi ho ha hr hn hne _ ih => exact .branch hi ho ha (run_call h hr) hn hne ih
  | ret hi ho ha hr => exact .ret (C := { C with call := c }) hi ho ha (run_call h hr)
  | retVoid hi ho ha hr => exact .retVoid (C := { C with call := c }) hi ho ha (run_call h hr)
  | fall hr hn hv => exact .fall (run_call h hr) hn hv

/-- Executions depend only on the code and the graph. -/
theorem exec_same {place : Nat → Nat} {F F' : RegAlloc.Fn} (S : SameCode place F F') {void : Bool} {b : Nat} {s : SrcBlock.St}
    {r : Option Word} {m : Mem} (hx : Exec C F void b s r m) : Exec C F' void (place b) s r m := by
  have hex : ∀ {c}, c ≠ F.fnExit → place c ≠ F'.fnExit := by
    intro c hc h
    rw [S.exit] at h
    exact hc (S.inj _ _ h)
  induction hx with
  | @next b n _ _ _ _ hr hn hne _ ih =>
    exact .next (b := place b) (n := place n) (by rw [S.insns]; exact hr) (by rw [S.next, hn]; rfl) (hex hne) ih
  | @branch b is br a s s' r m hi ho ha hr hn hne _ ih =>
    obtain ⟨h1, h2⟩ := S.branch b br (by rw [hi]; simp) ho
    refine .branch (b := place b) (is := is) (br := br) (a := a) (by rw [S.insns]; exact hi) ho ha hr (by rw [S.next, hn]; rfl) ?_ ?_
    · rw [h1, h2]
      split
      · rename_i h; rw [if_pos h] at hne; exact hex hne
      · rename_i h; rw [if_neg h] at hne; exact hex hne
    · rw [h1, h2]
      split
      · rename_i h; rw [if_pos h] at ih; exact ih
      · rename_i h; rw [if_neg h] at ih; exact ih
  | ret hi ho ha hr => exact .ret (by rw [S.insns]; exact hi) ho ha hr
  | retVoid hi ho ha hr => exact .retVoid (by rw [S.insns]; exact hi) ho ha hr
  | fall hr hn hv => exact .fall (by rw [S.insns]; exact hr) (by rw [S.next, S.exit, hn]; rfl) hv

end

/-! ### One function -/

theorem mach_basic (C : Ctx) (alloc : Nat → String → Word) (keep : Word → Prop) : CStmt.Basic (mach C alloc keep) where
  const := fun _ _ _ _ _ => rfl
  move := fun _ _ _ _ _ => rfl
  eq := fun _ _ x y w => by
    simp only [mach, act, binOf, CArith.bin, Option.bind_some, Option.map_some, Option.some.injEq, Prod.mk.injEq, true_and]
    unfold CArith.ofBool
    by_cases h : x = y
    · subst h; simp
    · have : ¬ x.toInt = y.toInt := fun h' => h (BitVec.eq_of_toInt_eq h')
      simp [h, this]

theorem compiled_sound {Pr : SrcProg} {sf : SFn} {f : SrcFn} {st : Stages} (K : Compiled Pr sf f st) :
    Sound st.fn.g st.out st.enc Pr.isGlobal f.vars.basic st.cf.initVal Pr.gaddr sf := by
  obtain ⟨u1, u2, u3, _⟩ := blocksOf_ok calc_basic K.body K.lowered K.holds
  have Sh := SsaBuild.ssaBuild_shape (C103_linked_partial K.body K.flows K.lowered K.holds) u1 u2 (Nat.le_trans u3 K.steps)
    (by rw [K.params.1, K.isGlobal]; exact K.params.2.2) K.ssa
  obtain ⟨_, _, _, g4, g5, g6⟩ := C103_graph_partial K.body K.lowered K.holds.block
  have hexit : st.fn.g.exit = 1 := K.holds.exit
  have hcode : st.fn.code = st.P.code := K.holds.code
  -- an instruction comes from the source, or is a copy
  have from_ : ∀ b, ∀ j ∈ st.out b, SsaBuild.strip j ∈ st.fn.code b ∨ (j.op = .unwound_phi ∧ j.rd ≠ none) := by
    intro b j hj
    obtain ⟨ren, cs, h1, h2, h3⟩ := Sh.code b
    rw [h1] at hj
    rcases SsaBuild.weave_mem.1 hj with hj | hj
    · rcases h2 with h2 | h2
      · left
        rw [← h2]
        exact List.mem_map_of_mem hj
      · rw [h2] at hj; cases hj
    · exact .inr ⟨(h3 j hj).1, (h3 j hj).2.1⟩
  have src : ∀ b, ∀ j ∈ st.out b, j.op ≠ .unwound_phi → SsaBuild.strip j ∈ st.fn.code b := fun b j hj hn =>
    (from_ b j hj).resolve_right fun h => hn h.1
  have rdOf : ∀ {o : Option SsaBuild.Name} {v : SsaBuild.Name}, o = some v → o.map (·.1) = some v.1 := by
    intro o v h; rw [h]; rfl
  have declares : ∀ b, ∀ i ∈ st.out b, i.op = .allocat → ∀ d, i.rd = some d → sf.isGlobal d.1 = false := by
    intro b i hi ho d hd
    exact K.locals b _ (src b i hi (by rw [ho]; simp)) ho d.1 (rdOf hd)
  refine ⟨?_, ⟨?_, ?_⟩, ?_, ?_, K.attached.const, K.attached.global_, ?_, declares, ?_, ?_⟩
  · intro b j hj
    rcases from_ b j hj with h | h
    · obtain ⟨_, _, ⟨⟨he, _⟩, _⟩, _⟩ := lowerFn_ok calc_basic K.body K.lowered
      rw [hcode] at h
      obtain ⟨xs, ys, e⟩ := List.append_of_mem h
      have hrd : j.rd.isSome = (SsaBuild.strip j).rd.isSome := by simp [SsaBuild.strip]
      have hnone : (SsaBuild.strip j).rd = none → j.rd = none := by simp [SsaBuild.strip]
      rcases he b xs _ ys e with k | ⟨_, k, k'⟩
      · unfold CStmt.Simple at k
        rw [← hrd] at k
        unfold Shaped
        have ho : (SsaBuild.strip j).op = j.op := rfl
        rw [ho] at k
        cases hop : j.op <;> rw [hop] at k <;> cases hr : j.rd <;> rw [hr] at k <;> simp_all [CStmt.simple]
      · unfold Shaped
        have ho : (SsaBuild.strip j).op = j.op := rfl
        rcases k' with ⟨k', _⟩ | ⟨k', _⟩ <;> (rw [ho] at k'; rw [k']; exact hnone k)
    · unfold Shaped
      rw [h.1]
      exact h.2
  · obtain ⟨ren, cs, h1, h2, h3⟩ := Sh.code st.fn.g.exit
    have hr : ren = [] := by
      rcases h2 with h2 | h2
      · rw [hexit, hcode, g5] at h2
        exact List.map_eq_nil_iff.1 h2
      · exact h2
    have hcs : cs = [] := by
      refine List.eq_nil_iff_forall_not_mem.2 fun c hc => ?_
      obtain ⟨_, _, x, hx, _⟩ := h3 c hc
      rw [hexit, g4] at hx
      cases hx
    rw [h1, hr, hcs, SsaBuild.weave_nil]
  · rw [hexit]
    unfold Cfg.Graph.succs at g4
    simp only [List.append_eq_nil_iff, Option.toList_eq_nil_iff] at g4
    exact g4.1.1
  · intro b xs i ys h
    obtain ⟨ren, cs, h1, h2, h3⟩ := Sh.code b
    rw [h1] at h
    -- the renamed code ends as the source does
    have back : ∀ us k vs, ren = us ++ k :: vs → k.op = .branch ∨ k.op = .ret → vs = [] ∧ (k.op = .branch ∧ (st.P.block b).next = none ∨
        k.op = .ret ∧ (st.P.block b).next = some 1 ∧ (st.P.block b).then_ = none ∧ (st.P.block b).else_ = none) := by
      intro us k vs hr ho
      rcases h2 with h2 | h2
      · rw [hr, List.map_append, List.map_cons, hcode] at h2
        obtain ⟨e1, _, e2⟩ := C103_ends_partial K.body K.lowered h2.symm ho
        exact ⟨List.map_eq_nil_iff.1 e1, e2⟩
      · rw [h2] at hr
        simp at hr
    have hret : (∃ k ∈ ren, k.op = .ret) → cs = [] := by
      rintro ⟨k, hk, ho⟩
      obtain ⟨us, vs, e⟩ := List.append_of_mem hk
      refine List.eq_nil_iff_forall_not_mem.2 fun c hc => ?_
      obtain ⟨_, _, x, hx, hne⟩ := h3 c hc
      rcases (back us k vs e (.inr ho)).2 with ⟨h, _⟩ | ⟨_, n1, n2, n3⟩
      · rw [ho] at h; cases h
      · unfold Cfg.Graph.succs at hx
        rw [K.holds.block, n1, n2, n3] at hx
        simp only [Option.toList_some, Option.toList_none, List.append_nil, List.mem_singleton] at hx
        exact hne (by rw [hx, hexit])
    have key : ∀ ho : i.op = .branch ∨ i.op = .ret, ys = [] ∧ ∃ zs, ren = zs ++ [i] := fun ho =>
      SsaBuild.weave_ends (fun us k vs e ho => (back us k vs e ho).1) (fun c hc => (h3 c hc).1) hret h ho
    constructor
    · intro ho
      obtain ⟨k1, zs, k2⟩ := key (.inl ho)
      refine ⟨k1, ?_⟩
      rcases (back zs i [] k2 (.inl ho)).2 with ⟨_, h⟩ | ⟨h, _⟩
      · rw [K.holds.block]; exact h
      · rw [ho] at h; cases h
    · intro ho
      obtain ⟨k1, zs, k2⟩ := key (.inr ho)
      refine ⟨k1, ?_⟩
      rcases (back zs i [] k2 (.inr ho)).2 with ⟨h, _⟩ | ⟨_, h, _⟩
      · rw [ho] at h; cases h
      · rw [K.holds.block, hexit]; exact h
  · intro b
    rw [hexit]
    exact g6 b
  · intro b i hi ho v hv
    exact K.taken b _ (src b i hi (by rw [ho]; simp)) ho v.1 (rdOf hv)
  · rintro ⟨v, k⟩ ⟨_, b, i, hi, ho, hd⟩
    obtain ⟨s1, s2, s3⟩ := Sh.declared b i hi ho v k hd (by rw [K.isGlobal]; exact declares b i hi ho _ hd)
    exact ⟨⟨s1, fun p hp => s2 p (by rw [K.params.1]; exact hp)⟩, s3⟩
  · intro b i hi ho v hv hg
    refine K.keeps b _ (src b i hi (by rw [ho]; simp)) ho v.1 ?_ hg
    rcases hv with hv | hv
    · exact .inl (rdOf hv)
    · exact .inr (rdOf hv)

/-- An instruction in SSA form comes from the parser's, or is a copy made for a phi. -/
theorem compiled_from {Pr : SrcProg} {sf : SFn} {f : SrcFn} {st : Stages} (K : Compiled Pr sf f st) (b : Nat) (j : Ins SsaBuild.Name)
    (hj : j ∈ st.out b) : SsaBuild.strip j ∈ st.fn.code b ∨ (j.op = .unwound_phi ∧ j.rd ≠ none) := by
  obtain ⟨u1, u2, u3, _⟩ := blocksOf_ok calc_basic K.body K.lowered K.holds
  have Sh := SsaBuild.ssaBuild_shape (C103_linked_partial K.body K.flows K.lowered K.holds) u1 u2 (Nat.le_trans u3 K.steps)
    (by rw [K.params.1, K.isGlobal]; exact K.params.2.2) K.ssa
  obtain ⟨ren, cs, h1, h2, h3⟩ := Sh.code b
  rw [h1] at hj
  rcases SsaBuild.weave_mem.1 hj with hj | hj
  · rcases h2 with h2 | h2
    · left
      rw [← h2]
      exact List.mem_map_of_mem hj
    · rw [h2] at hj; cases hj
  · exact .inr ⟨(h3 j hj).1, (h3 j hj).2.1⟩

theorem path_reach {succ : Nat → List Nat} {a b : Nat} {l : List Nat} (p : CGraph.Path succ a l b) {c : Nat} (hc : c ∈ l) :
    CGraph.Reach succ a c := by
  obtain ⟨p1, p2, e⟩ := List.append_of_mem hc
  exact ⟨_, SsaBuild.path_at p e⟩

/-- The blocks are those that can be reached. -/
theorem compiled_order {Pr : SrcProg} {sf : SFn} {f : SrcFn} {st : Stages} (K : Compiled Pr sf f st) :
    (∀ b, b ∈ st.order ↔ CGraph.Reach (succs st.F0) 0 b) ∧ st.order.Nodup := by
  have hs : succs st.F1 = succs st.F0 := by
    unfold succs
    rw [K.graph.2.1, K.graph.2.2]
  obtain ⟨n, rpo, h⟩ := K.prepared.layout
  rw [funext fun b => cfgOf_succs st.F1 0 st.prev b] at h
  obtain ⟨o, _⟩ := Cfg.order_of_buildRpo K.prepared.edges h
  rw [← hs]
  exact ⟨o.mem, o.nodup⟩

/-- Paths in the numbered function are paths in the parser's graph. -/
theorem compiled_path {Pr : SrcProg} {sf : SFn} {f : SrcFn} {st : Stages} (K : Compiled Pr sf f st) {l : List Nat} {a b : Nat}
    (p : CGraph.Path (succs st.F0) a l b) (ho : a ∈ st.order) (hr : CGraph.Reach st.fn.g.succs 0 a) : CGraph.Path st.fn.g.succs a l b := by
  induction p with
  | nil => exact .nil _
  | @cons a c b l h p ih =>
    have hstep : c ∈ st.fn.g.succs a := by
      unfold succs at h
      split at h
      · cases h
      · rename_i hne
        rw [K.numbered.exit, K.holds.exit] at hne
        rcases C103_ways_partial K.body K.lowered K.holds.block hr hne with ⟨d, hd⟩ | ⟨hd, ⟨d, h1⟩, ⟨d', h2⟩, _⟩
        · rw [K.numbered.next a ho, hd] at h
          simp only [List.mem_singleton] at h
          subst h
          exact (mem_succs K.holds.block _ _).2 ⟨.next, by rw [← K.holds.block]; exact hd⟩
        · rw [K.numbered.next a ho, hd] at h
          simp only [K.numbered.then_ a ho d h1, K.numbered.else_ a ho d' h2] at h
          simp only [List.mem_cons, List.not_mem_nil, or_false] at h
          rcases h with rfl | rfl
          · exact (mem_succs K.holds.block _ _).2 ⟨.then_, by rw [← K.holds.block]; exact h1⟩
          · exact (mem_succs K.holds.block _ _).2 ⟨.else_, by rw [← K.holds.block]; exact h2⟩
    have hoc : c ∈ st.order := ((compiled_order K).1 c).2 (Cfg.Reach.trans (((compiled_order K).1 a).1 ho) (Cfg.Reach.one h))
    exact .cons hstep (ih hoc (Cfg.Reach.trans hr (Cfg.Reach.one hstep)))

theorem map_split {α β : Type} {g : α → β} : ∀ {l : List α} {xs ys : List β} {i : β}, l.map g = xs ++ i :: ys →
    ∃ us k vs, l = us ++ k :: vs ∧ us.map g = xs ∧ g k = i ∧ vs.map g = ys := by
  intro l xs ys i h
  obtain ⟨us, vs', rfl, h1, h2⟩ := List.map_eq_append_iff.1 h
  obtain ⟨k, vs, rfl, h3, h4⟩ := List.map_eq_cons_iff.1 h2
  exact ⟨us, k, vs, rfl, h1, h3, h4⟩

theorem mem_enc {enc : SsaBuild.Name → Nat} (inj : ∀ x y, enc x = enc y → x = y) {o : Option SsaBuild.Name} {x : SsaBuild.Name}
    (h : o.map enc = some (enc x)) : o = some x := by
  cases o with
  | none => cases h
  | some y => exact congrArg some (inj _ _ (Option.some.inj h))

/-- The function in SSA form is as constant folding needs it. -/
theorem compiled_foldable {Pr : SrcProg} {sf : SFn} {f : SrcFn} {st : Stages} (K : Compiled Pr sf f st) :
    CFold.Input st.F0 Pr.isGlobal 0 st.order := by
  obtain ⟨u1, u2, u3, _⟩ := blocksOf_ok calc_basic K.body K.lowered K.holds
  have St := SsaBuild.ssaBuild_strict (C103_linked_partial K.body K.flows K.lowered K.holds)
    (holds_plain K.body K.lowered K.holds K.funcs) u1 u2 (Nat.le_trans u3 K.steps) (by rw [K.params.1]; exact K.params.2.1)
    (by rw [K.params.1, K.isGlobal]; exact K.params.2.2) K.ssa
  obtain ⟨om, ond⟩ := compiled_order K
  have hs := compiled_sound K
  have inj := K.numbered.inj
  -- the code is the renamed code, numbered
  have code : ∀ l : List Nat, (∀ b ∈ l, b ∈ st.order) → l.flatMap st.F0.insns = (l.flatMap st.out).map (encode st.enc) := by
    intro l
    induction l with
    | nil => intro _; rfl
    | cons b l ih =>
      intro h
      rw [List.flatMap_cons, List.flatMap_cons, List.map_append, ih fun c hc => h c (List.mem_cons_of_mem _ hc),
        K.numbered.insns b (h b (List.mem_cons_self ..))]
  have start : 0 ∈ st.order := (om 0).2 (Cfg.Reach.refl 0)
  have glob : ∀ {b i}, i ∈ st.out b → ∀ {x : SsaBuild.Name}, i.rd = some x ∨ i.rs1 = some x ∨ i.rs2 = some x →
      Pr.isGlobal (st.enc x) = st.fn.isGlobal x.1 := by
    intro b i hi x hx
    rw [K.isGlobal]
    exact (K.attached.global_ x ⟨b, i, hi, hx⟩).1
  have oo : ∀ b ∈ st.order, b ∈ st.order := fun _ h => h
  refine ⟨start, ond, ?_, ⟨?_, ?_⟩, ?_, ?_⟩
  · intro b hb c hc
    exact (om c).2 (Cfg.Reach.trans ((om b).1 hb) (Cfg.Reach.one hc))
  · intro xs i ys v e hv hg ho j hj hjv
    rw [code _ oo] at e
    obtain ⟨us, k, vs, e1, rfl, rfl, rfl⟩ := map_split e
    rw [← List.map_append] at hj
    obtain ⟨j', hj', rfl⟩ := List.mem_map.1 hj
    obtain ⟨x, hx, rfl⟩ := Option.map_eq_some_iff.1 (show k.rd.map st.enc = some v from hv)
    have hk : k ∈ st.order.flatMap st.out := by rw [e1]; simp
    obtain ⟨b, _, hkb⟩ := List.mem_flatMap.1 hk
    rw [glob hkb (.inl hx)] at hg
    exact St.single ond e1 hx hg ho j' hj' (mem_enc inj hjv)
  · intro i hi v hv ho
    rw [code _ oo] at hi
    obtain ⟨k, hk, rfl⟩ := List.mem_map.1 hi
    obtain ⟨b, _, hkb⟩ := List.mem_flatMap.1 hk
    obtain ⟨x, hx, rfl⟩ := Option.map_eq_some_iff.1 (show k.rd.map st.enc = some v from hv)
    have ho' : k.op = .load_constant ∨ (∃ o, k.op = .alu o) := ho
    have hn : k.op ≠ .unwound_phi := by
      rcases ho' with h | ⟨o, h⟩ <;> (rw [h]; simp)
    rw [glob hkb (.inl hx), K.isGlobal]
    exact K.temps b _ ((compiled_from K b k hkb).resolve_right fun h => hn h.1) ho' x.1 (by rw [show (SsaBuild.strip k).rd = k.rd.map (·.1) from rfl, hx]; rfl)
  · intro i hi ho
    rw [code _ oo] at hi
    obtain ⟨k, hk, rfl⟩ := List.mem_map.1 hi
    obtain ⟨b, _, hkb⟩ := List.mem_flatMap.1 hk
    have ho' : k.op = .branch := ho
    have := (compiled_from K b k hkb).resolve_right fun h => by rw [ho'] at h; cases h.1
    have h2 : (SsaBuild.strip k).rd = none := (holds_plain K.body K.lowered K.holds K.funcs).branch b _ this ho'
    show k.rd.map st.enc = none
    cases hr : k.rd with
    | none => rfl
    | some x =>
      rw [show (SsaBuild.strip k).rd = k.rd.map (·.1) from rfl, hr] at h2
      cases h2
  · intro l b p xs i ys v e hu hg hex
    have hl : ∀ c ∈ l ++ [b], c ∈ st.order := by
      intro c hc
      exact (om c).2 (path_reach p hc)
    rw [show SsaSem.traceF st.F0.insns (l ++ [b]) = (l ++ [b]).flatMap st.F0.insns from rfl, code _ hl] at e
    obtain ⟨us, k, vs, e1, rfl, rfl, rfl⟩ := map_split e
    have hk : k ∈ (l ++ [b]).flatMap st.out := by rw [e1]; simp
    obtain ⟨c, _, hkc⟩ := List.mem_flatMap.1 hk
    obtain ⟨x, hx, rfl⟩ : ∃ x, (k.rs1 = some x ∨ k.rs2 = some x) ∧ st.enc x = v := by
      rcases hu with h | h
      · obtain ⟨x, hx, rfl⟩ := Option.map_eq_some_iff.1 (show k.rs1.map st.enc = some v from h)
        exact ⟨x, .inl hx, rfl⟩
      · obtain ⟨x, hx, rfl⟩ := Option.map_eq_some_iff.1 (show k.rs2.map st.enc = some v from h)
        exact ⟨x, .inr hx, rfl⟩
    rw [glob hkc (.inr hx)] at hg
    obtain ⟨j, hj, hjv⟩ := hex
    rw [code _ oo] at hj
    obtain ⟨j', hj', rfl⟩ := List.mem_map.1 hj
    obtain ⟨d, _, hjd⟩ := List.mem_flatMap.1 hj'
    obtain ⟨y, hy, hyx⟩ := St.defined (by rw [K.holds.entry]; exact compiled_path K p start (Cfg.Reach.refl 0)) e1 hx hg
      ⟨d, j', hjd, mem_enc inj hjv⟩
    exact ⟨encode st.enc y, List.mem_map_of_mem hy, by show y.rd.map st.enc = _; rw [hyx]; rfl⟩

/-- Paths in the parser's graph are paths in the numbered function. -/
theorem compiled_forth {Pr : SrcProg} {sf : SFn} {f : SrcFn} {st : Stages} (K : Compiled Pr sf f st) {l : List Nat} {a b : Nat}
    (p : CGraph.Path st.fn.g.succs a l b) (ho : a ∈ st.order) : CGraph.Reach (succs st.F0) a b := by
  obtain ⟨u1, u2, u3, _⟩ := blocksOf_ok calc_basic K.body K.lowered K.holds
  obtain ⟨_, _, _, h1, _⟩ := C103_graph_partial K.body K.lowered K.holds.block
  induction p with
  | nil => exact Cfg.Reach.refl _
  | @cons a c b l h p ih =>
    have hne : a ≠ st.F0.fnExit := by
      rw [K.numbered.exit, K.holds.exit]
      rintro rfl
      rw [h1] at h
      cases h
    have hstep : c ∈ succs st.F0 a := by
      unfold succs
      rw [if_neg hne, K.numbered.next a ho]
      obtain ⟨k, hk⟩ := (mem_succs K.holds.block _ _).1 h
      rw [← K.holds.block] at hk
      cases k with
      | next =>
        rw [show (st.fn.g.block a).next = some c from hk]
        exact List.mem_singleton.2 rfl
      | then_ =>
        have hk' : (st.fn.g.block a).then_ = some c := hk
        rw [(C103_forks_partial K.body K.lowered K.holds.block (.inl (by rw [hk']; simp))).1, K.numbered.then_ a ho c hk']
        simp
      | else_ =>
        have hk' : (st.fn.g.block a).else_ = some c := hk
        rw [(C103_forks_partial K.body K.lowered K.holds.block (.inr (by rw [hk']; simp))).1, K.numbered.else_ a ho c hk']
        simp
    have hoc : c ∈ st.order := ((compiled_order K).1 c).2 (Cfg.Reach.trans (((compiled_order K).1 a).1 ho) (Cfg.Reach.one hstep))
    exact Cfg.Reach.trans (Cfg.Reach.one hstep) (ih hoc)

/-- No loop of the compiled function is without a way out. -/
theorem compiled_reaches {Pr : SrcProg} {sf : SFn} {f : SrcFn} {st : Stages} (K : Compiled Pr sf f st) :
    CGraph.Reach (succs st.F1) 0 st.F1.fnExit ∧
      ∀ b, CGraph.Reach (succs st.F1) b st.F1.fnExit → ∀ q ∈ succs st.F1 b, CGraph.Reach (succs st.F1) q st.F1.fnExit := by
  have hs : succs st.F1 = succs st.F0 := by
    unfold succs
    rw [K.graph.2.1, K.graph.2.2]
  have hexit : st.F1.fnExit = 1 := by rw [K.graph.2.2, K.numbered.exit]; exact K.holds.exit
  obtain ⟨om, _⟩ := compiled_order K
  have h0 : 0 ∈ st.order := (om 0).2 (Cfg.Reach.refl 0)
  have reach : ∀ b ∈ st.order, CGraph.Reach st.fn.g.succs 0 b := by
    intro b hb
    obtain ⟨l, p⟩ := (om b).1 hb
    exact ⟨l, compiled_path K p h0 (Cfg.Reach.refl 0)⟩
  have out : ∀ b ∈ st.order, CGraph.Reach (succs st.F0) b 1 := by
    intro b hb
    obtain ⟨l, p⟩ := C103_exit_reachable_partial K.body K.lowered K.holds.block (reach b hb)
    exact compiled_forth K p hb
  have into : ∀ q ∈ st.order, ∀ b, q ∈ succs st.F1 b → b ∈ st.order := by
    intro q hq b hb
    have := K.preds q hq b ((K.prepared.edges b q).1 hb)
    obtain ⟨_, hsp, _⟩ := C103_graph_partial K.body K.lowered K.holds.block
    obtain ⟨l, p⟩ := C103_reachable_partial K.body K.flows K.lowered K.holds.block ((hsp b q).2 this)
    exact (om b).2 (compiled_forth K p h0)
  have back : ∀ b c l, CGraph.Path (succs st.F1) b l c → c ∈ st.order → b ∈ st.order := by
    intro b c l p
    induction p with
    | nil => exact id
    | cons h _ ih => exact fun hc => into _ (ih hc) _ h
  rw [hexit]
  refine ⟨by rw [hs]; exact out 0 h0, fun b ⟨l, p⟩ q hq => ?_⟩
  have hb : b ∈ st.order := back b 1 l p ((om 1).2 (out 0 h0))
  rw [hs] at hq ⊢
  exact out q ((om q).2 (Cfg.Reach.trans ((om b).1 hb) (Cfg.Reach.one hq)))

/-- The function before dead code elimination is as that pass needs it. -/
theorem compiled_input {Pr : SrcProg} {sf : SFn} {f : SrcFn} {st : Stages} (K : Compiled Pr sf f st) :
    CDce.Input st.F1 Pr.isGlobal 0 st.d st.order := by
  obtain ⟨u1, u2, u3, _⟩ := blocksOf_ok calc_basic K.body K.lowered K.holds
  have Sh := SsaBuild.ssaBuild_shape (C103_linked_partial K.body K.flows K.lowered K.holds) u1 u2 (Nat.le_trans u3 K.steps)
    (by rw [K.params.1, K.isGlobal]; exact K.params.2.2) K.ssa
  have I := compiled_foldable K
  have L := K.listed
  obtain ⟨om, ond⟩ := compiled_order K
  have U := K.repeats (SsaProg.ctx Pr f 0 (fun _ => False) (fun _ _ _ _ _ => False)) ⟨fun _ => 0, fun _ => 0, [], none⟩ rfl
  obtain ⟨A, PZ, H, hP, _⟩ := Optimize.optFn_al (cv0 := st.cf.initVal) I.ssa U.same ond K.fresh rfl K.optimized
  have hw : ∀ b ∈ st.order, ∀ a ∈ A b, DceIn.Was a := fun b hb => DceIn.was H hP hb
  have haft : ∀ b ∈ st.order, (A b).map Optimize.Al.aft = (st.d.blocks b).map st.d.insn := fun b hb => by
    rw [← L.insns b, K.graph.1 b hb]; exact (H.al b).after
  have hexit : st.F1.fnExit = 1 := by rw [K.graph.2.2, K.numbered.exit]; exact K.holds.exit
  have reach : ∀ b ∈ st.order, CGraph.Reach st.fn.g.succs 0 b := by
    intro b hb
    obtain ⟨l, p⟩ := (om b).1 hb
    exact ⟨l, compiled_path K p I.start (Cfg.Reach.refl 0)⟩
  -- one list for all blocks
  have AAb : ∀ l : List Nat, (∀ b ∈ l, b ∈ st.order) → Optimize.bef (l.flatMap A) = l.flatMap st.F0.insns := by
    intro l
    induction l with
    | nil => intro _; rfl
    | cons b l ih =>
      intro h
      have := ih fun c hc => h c (List.mem_cons_of_mem _ hc)
      rw [List.flatMap_cons, List.flatMap_cons, ← this, ← (H.al b).before]
      simp [Optimize.bef]
  have AAa : ∀ l : List Nat, (∀ b ∈ l, b ∈ st.order) → (l.flatMap A).map Optimize.Al.aft = (l.flatMap st.d.blocks).map st.d.insn := by
    intro l
    induction l with
    | nil => intro _; rfl
    | cons b l ih =>
      intro h
      rw [List.flatMap_cons, List.flatMap_cons, List.map_append, List.map_append, ih fun c hc => h c (List.mem_cons_of_mem _ hc),
        haft b (h b (List.mem_cons_self ..))]
  have parts : ∀ b ∈ st.order, ∀ xs i ys, st.d.blocks b = xs ++ i :: ys → (st.d.insn i).op = .push ∨ (st.d.insn i).op = .func_ret →
      Part (fun i => (st.d.insn i).op) xs i ys := by
    intro b hb xs i ys e hi
    obtain ⟨ren, cs, h1, h2, h3⟩ := Sh.reached b (by rw [K.holds.entry]; exact reach b hb)
    have p1 : ∀ xs i ys, st.out b = xs ++ i :: ys → i.op = .push ∨ i.op = .func_ret → Part (·.op) xs i ys := by
      intro xs i ys e hi
      rw [h1] at e
      refine DceIn.part_weave h3 ?_ e hi
      intro xs i ys e hi
      have e2 := congrArg (List.map SsaBuild.strip) e
      rw [h2, List.map_append, List.map_cons] at e2
      exact DceIn.Part.unmap (h := SsaBuild.strip) (op := fun i : Ins Nat => i.op) (K.calls b _ _ _ e2 hi)
    have p2 : ∀ xs i ys, Optimize.bef (A b) = xs ++ i :: ys → i.op = .push ∨ i.op = .func_ret → Part (·.op) xs i ys := by
      intro xs i ys e hi
      rw [(H.al b).before, K.numbered.insns b hb] at e
      obtain ⟨us, k, vs, e1, rfl, rfl, rfl⟩ := map_split e
      exact DceIn.Part.map (h := encode st.enc) (op := fun i : Insn => i.op) (p1 us k vs e1 hi)
    have e2 : (A b).map Optimize.Al.aft = xs.map st.d.insn ++ st.d.insn i :: ys.map st.d.insn := by
      rw [haft b hb, e, List.map_append, List.map_cons]
    exact DceIn.Part.unmap (h := st.d.insn) (op := fun i : Insn => i.op) (DceIn.part_al (hw b hb) p2 e2 hi)
  refine ⟨by rw [hexit]; decide, L.insns, L.own, ?_, L.last, L.global_, ?_, ?_, ?_, compiled_reaches K⟩
  · intro i hi
    by_cases h : ∃ b ∈ st.order, i ∈ st.d.blocks b
    · obtain ⟨b, hb, hib⟩ := h
      obtain ⟨xs, ys, e⟩ := List.append_of_mem hib
      have e2 : (A b).map Optimize.Al.aft = xs.map st.d.insn ++ st.d.insn i :: ys.map st.d.insn := by
        rw [haft b hb, e, List.map_append, List.map_cons]
      have hm : st.d.insn i ∈ (A b).map Optimize.Al.aft := by rw [e2]; simp
      obtain ⟨a, ha, hai⟩ := List.mem_map.1 hm
      have hk := DceIn.was_kept (hw b hb a ha) (by rw [hai, hi]; simp) (by rw [hai, hi]; simp)
      have hb0 : st.d.insn i ∈ st.F0.insns b := by
        rw [← (H.al b).before]
        exact List.mem_flatMap.2 ⟨a, ha, by rw [hk, hai]; simp⟩
      rw [K.numbered.insns b hb] at hb0
      obtain ⟨k, hkm, hke⟩ := List.mem_map.1 hb0
      have hko : k.op = .func_ret := by rw [← hke] at hi; exact hi
      have hsrc := (compiled_from K b k hkm).resolve_right fun h => by rw [hko] at h; cases h.1
      obtain ⟨f1, f2⟩ := K.fetches b _ hsrc hko
      rw [← hke]
      constructor
      · show k.rs1.map st.enc = none
        cases hr : k.rs1 with
        | none => rfl
        | some x => rw [show (SsaBuild.strip k).rs1 = k.rs1.map (·.1) from rfl, hr] at f1; cases f1
      · show k.rs2.map st.enc = none
        cases hr : k.rs2 with
        | none => rfl
        | some x => rw [show (SsaBuild.strip k).rs2 = k.rs2.map (·.1) from rfl, hr] at f2; cases f2
    · exact absurd hi (L.rest i fun b hb hm => h ⟨b, hb, hm⟩)
  · intro i hi j hj v hiv hjv hg ho
    apply Classical.byContradiction
    intro hne
    obtain ⟨xs, ys, e⟩ := List.append_of_mem hi
    have e2 := AAa st.order fun _ h => h
    rw [e, List.map_append, List.map_cons] at e2
    rw [L.global_] at hg
    refine DceIn.single_al (g := Pr.isGlobal) (fun a ha => ?_) (fun us k vs w hk => ?_) e2 hiv hg ho (st.d.insn j) ?_ hjv
    · obtain ⟨b, hb, hab⟩ := List.mem_flatMap.1 ha
      exact hw b hb a hab
    · rw [AAb st.order fun _ h => h] at hk
      exact I.ssa.1 us k vs w hk
    · rw [e] at hj
      rw [← List.map_append]
      refine List.mem_map_of_mem ?_
      simp only [List.mem_append, List.mem_cons] at hj ⊢
      rcases hj with h | h | h
      · exact .inl h
      · exact absurd h.symm hne
      · exact .inr h
  · intro b hb i hi ho
    obtain ⟨xs, ys, e⟩ := List.append_of_mem hi
    rcases parts b hb xs i ys e ho with ⟨h1, xs', c, rfl, hc⟩ | ⟨h1, ps, c, ys', rfl, hc, hp⟩
    · exact .inl ⟨xs', c, ys, by rw [e]; simp, hc, h1⟩
    · refine .inr ⟨xs, ps, c, ys', e, hc, ?_⟩
      intro p hm
      rcases List.mem_cons.1 hm with rfl | hm
      · exact h1
      · exact hp p hm
  · intro b hb hne hn
    rw [hexit] at hne
    rw [K.graph.2.1, K.numbered.next b hb] at hn
    rcases C103_ways_partial K.body K.lowered K.holds.block (reach b hb) hne with ⟨c, hc⟩ | ⟨_, _, _, xs, i, e, ho⟩
    · rw [hc] at hn; cases hn
    · obtain ⟨ren, cs, h1, h2, _⟩ := Sh.reached b (by rw [K.holds.entry]; exact reach b hb)
      rw [K.holds.code, e] at h2
      obtain ⟨us, k, vs, e1, h3, h4, h5⟩ := map_split h2
      have hvs : vs = [] := List.map_eq_nil_iff.1 h5
      subst hvs
      have hko : k.op = .branch := by rw [← h4] at ho; exact ho
      have hout := DceIn.weave_branch (cs := cs) e1 hko
      have hb0 : Optimize.bef (A b) = (us ++ cs).map (encode st.enc) ++ [encode st.enc k] := by
        rw [(H.al b).before, K.numbered.insns b hb, h1, hout]
        simp
      obtain ⟨zs, hz⟩ := DceIn.branch_al (hw b hb) hb0 hko
      rw [haft b hb] at hz
      obtain ⟨us', t, vs', e2, _, e4, e5⟩ := map_split hz
      have : vs' = [] := List.map_eq_nil_iff.1 e5
      subst this
      refine ⟨t, by rw [e2]; simp, ?_⟩
      rw [e4]
      exact hko

/-- The dominator tree is right. -/
theorem Compiled.idoms {Pr : SrcProg} {sf : SFn} {f : SrcFn} {st : Stages} (K : Compiled Pr sf f st) : st.idom 0 = 0 ∧
    ∀ c, CGraph.Reach (succs st.F0) 0 c → c ≠ 0 → CGraph.IsIdom (succs st.F0) 0 (st.idom c) c := by
  have hs : succs st.F1 = succs st.F0 := by
    unfold succs
    rw [K.graph.2.1, K.graph.2.2]
  obtain ⟨rpo, ord, di, h1, h2, h3⟩ := K.dominators
  obtain ⟨rpo', ord', di', k1, k2, k3, k4, _⟩ := C52_idom (succs st.F0) st.prev 0 st.order (compiled_foldable K).start (compiled_foldable K).closed
    (by rw [← hs]; exact K.prepared.edges)
  rw [h1] at k1
  simp only [Option.some.injEq, Prod.mk.injEq, List.cons.injEq, true_and] at k1
  obtain ⟨rfl, rfl⟩ := k1
  rw [h2] at k2
  cases k2
  refine ⟨?_, ?_⟩
  · have := h3 0 (compiled_foldable K).start
    rw [k3] at this
    exact (Option.some.inj this).symm
  · intro c hc hne
    obtain ⟨d, e1, e2⟩ := k4 c hc hne
    have hmem : c ∈ st.order := by
      obtain ⟨l, hl⟩ := hc
      have : ∀ {a l c}, CGraph.Path (succs st.F0) a l c → a ∈ st.order → c ∈ st.order := by
        intro a l c hp
        induction hp with
        | nil => exact id
        | cons h _ ih => exact fun ha => ih ((compiled_foldable K).closed _ ha _ h)
      exact this hl (compiled_foldable K).start
    have := h3 c hmem
    rw [e1] at this
    cases this
    exact e2

open Classical in
/-- **C95, one function** (partial: the conditions of C73, C87, C93, C98 on the function). If the body of
a function, executed as C prescribes, ends, then the function that register allocation is given, called with the same arguments in the same memory, returns
the same value and leaves the same memory. -/
theorem C95_function_partial {Pr : SrcProg} {sf : SFn} {f : SrcFn} {st : Stages} (K : Compiled Pr sf f st) (sp : Word) (hid : Word → Prop)
    (call : String → List Word → Mem → Mem → Option Word → Prop) {μ : Mem} {e e' : Nat → Word} {script : List (Mem × Option Word)}
    {k : Nat} {o : CStmt.Out} {w : World} {r : Option Word}
    (hx : CStmt.execs (mach (SsaProg.ctx Pr f sp hid call) (sf.alloc sp) sf.keep) sf.home k sf.body (⟨μ, [], none, none, script⟩, e) = .ok o (w, e'))
    (hr : Ended sf.void w r) :
    ∃ s, s.mem = μ ∧ s.args = [] ∧ f.params.map s.val = sf.params.map e ∧
      Exec (SsaProg.ctx Pr f sp hid call) f.F f.void f.entry s r w.mem := by
  let C := SsaProg.ctx Pr f sp hid call
  let C0 : Ctx := { C with initVal := st.cf.initVal }
  let H' : Home SsaBuild.Name := ⟨fun x => sf.isGlobal x.1, fun x => sf.gaddr x.1⟩
  let e0 : SsaBuild.Name → Word := fun x => if Scalar f.vars.basic st.enc st.out x then 0 else e x.1
  have hH : st.fn.Homes (fun _ => 0) sf.home H' := by
    refine ⟨fun _ _ => rfl, fun _ => rfl, ?_, fun b i hi ho v hv => K.taken b i hi ho v hv, ?_⟩
    · intro v h1 h2
      rw [K.isGlobal] at h1
      have : sf.isGlobal v = true := h2
      rw [h1] at this; cases this
    · intro v h
      rw [K.isGlobal] at h
      exact h
  have hT : st.fn.Tame (fun _ => 0) sf.home := by
    constructor
    · intro v h1 h2
      rw [K.isGlobal] at h1
      have : sf.isGlobal v = true := h2
      rw [h1] at this; cases this
    · intro v q b h1 h2
      rw [K.isGlobal] at h1
      have : sf.isGlobal v = true := h2
      rw [h1] at this; cases this
  have he0 : ∀ p ∈ sf.params, e0 (p, some 0) = e p := by
    intro p hp
    exact if_neg fun hs => ((compiled_sound K).scalar _ hs).1.2 p hp rfl
  obtain ⟨m, e2, hst⟩ := C88_body_to_ssa_partial (mach_basic C (sf.alloc sp) sf.keep) K.body K.lowered K.holds K.steps (C103_linked_partial K.body K.flows K.lowered K.holds)
    (holds_plain K.body K.lowered K.holds K.funcs) K.scopes
    hH hT (by rw [K.params.1]; exact K.params.2.1) (by rw [K.params.1, K.isGlobal]; exact K.params.2.2) K.ssa
    (e' := e0) (fun v _ => if_neg fun hs => ((compiled_sound K).scalar (v, none) hs).1.1 rfl) (by rw [K.params.1]; exact he0) hx
  obtain ⟨n, hn⟩ := CExec.blks_of_steps _ _ _ _ _ _ hst
  -- numbered variables
  let dec : Nat → Word := fun v => if h : ∃ x, st.enc x = v then e0 h.choose else 0
  have hdec : ∀ x, dec (st.enc x) = e0 x := by
    intro x
    have hex : ∃ y, st.enc y = st.enc x := ⟨x, rfl⟩
    show (if h : ∃ y, st.enc y = st.enc x then e0 h.choose else 0) = e0 x
    rw [dif_pos hex]
    exact congrArg e0 (K.numbered.inj _ _ hex.choose_spec)
  let s : SrcBlock.St := ⟨μ, dec, [], none⟩
  have hrel : Rel C0 st.enc st.out (⟨μ, [], none, none, script⟩ : World) e0 s := by
    refine ⟨rfl, rfl, rfl, fun x _ => hdec x, ?_⟩
    intro x hs
    exact if_pos hs
  have hHome : HomeOk C0 st.out st.enc H' := by
    constructor
    · intro x hx
      exact (((compiled_sound K).global_ x hx).1).symm
    · intro x hx hg
      obtain ⟨g1, g2⟩ := (compiled_sound K).global_ x hx
      have hg' : Pr.isGlobal (st.enc x) = true := hg
      rw [g1] at hg'
      exact (g2 hg').symm
  have hsound : Sound st.fn.g st.out st.enc C0.isGlobal C0.basic C0.initVal C0.gaddr sf := compiled_sound K
  have hallocs : Allocs st.out st.enc C0.basic C0.objAddr (sf.alloc sp) := K.allocs sp
  replace hn : CExec.blks (mach C0 (sf.alloc sp) sf.keep) H' (st.fn.prog st.out) n 0
      (((⟨μ, [], none, none, script⟩ : World), e0) : World × (SsaBuild.Name → Word)) = some (1, w, e2) := hn
  have hexit : st.fn.g.exit = 1 := K.holds.exit
  have hx0 := exec_link (void := sf.void) (r := r) K.numbered (compiled_foldable K).closed hsound hallocs hHome n 0 hrel rfl (compiled_foldable K).start (by rw [hexit]; decide) (by rw [hexit]; exact hn) hr
  -- constant folding and common subexpression elimination
  have hne : (0 : Nat) ≠ st.F0.fnExit := by rw [K.numbered.exit, hexit]; decide
  have hid := Compiled.idoms K
  have hx1 := (C98_optimize_partial C0 st.F0 st.F1 0 st.order st.idom st.depth st.code1 st.cf st.cf' (compiled_foldable K) hne hid.1 hid.2 K.fresh rfl K.optimized
    K.graph.1 K.graph.2.1 K.graph.2.2 s (K.repeats C0 s rfl)).1 _ _ _ hx0
  have hCC : ({ C0 with initVal := st.cf'.initVal } : Ctx) = C := by
    show ({ C with initVal := st.cf'.initVal } : Ctx) = C
    rw [← K.consts]
    rfl
  rw [hCC] at hx1
  -- dead code elimination
  have hx2 := (C93_dce_partial (C := C) (n := st.far) K.prepared (compiled_input K) K.unmarked K.marked K.joined rfl s).1 _ _ _ hx1
  refine ⟨s, rfl, rfl, ?_, ?_⟩
  · rw [K.numbers, List.map_map]
    apply List.map_congr_left
    intro p hp
    show dec (st.enc (p, some 0)) = e p
    rw [hdec, he0 p hp]
  · rw [K.entry, K.void]
    exact exec_same K.swept hx2

/-- **C53, compiled functions** (partial: the conditions of C95 on the function).  In the code handed to register allocation, the exit
can be reached from every block that can be reached. -/
theorem C53_compiled_way_out_partial {Pr : SrcProg} {sf : SFn} {f : SrcFn} {st : Stages} (K : Compiled Pr sf f st) {b : Nat}
    (hb : CGraph.Reach (succs f.F) f.entry b) : CGraph.Reach (succs f.F) b f.F.fnExit := by
  obtain ⟨G, hG⟩ : ∃ G, G = Dce.sweepFn st.d st.st (fun b => (st.rIdom b).getD 0) st.far st.F1 := ⟨_, rfl⟩
  have W := fun {b} => C55_way_out_partial (n := st.far) (b := b) K.prepared (compiled_input K) K.unmarked K.marked K.joined
  have Sw := K.swept
  rw [← hG] at Sw
  rw [← hG] at W
  have I := compiled_input K
  have hGe : G.fnExit = st.F1.fnExit := by rw [hG]; rfl
  -- the edges are the same up to the numbers of the blocks
  have hedge : ∀ b ∈ st.order, succs f.F (st.place b) = (succs G b).map st.place := by
    intro b hb
    unfold succs
    by_cases hbe : b = G.fnExit
    · rw [if_pos hbe, if_pos (by rw [hbe, Sw.exit])]; rfl
    · rw [if_neg hbe, if_neg (by rw [Sw.exit]; exact fun h => hbe (Sw.inj _ _ h)), Sw.next]
      cases hn : (G.block b).next with
      | some c => rfl
      | none =>
        have hbe1 : b ≠ st.F1.fnExit := by rw [← hGe]; exact hbe
        have hnr : Dce.branchRemoved st.d st.st b = false := by
          cases hr : Dce.branchRemoved st.d st.st b with
          | false => rfl
          | true =>
            obtain ⟨j, hj⟩ := K.joined b hb hr
            rw [hG, sweepFn_next hr hj] at hn
            cases hn
        have hn1 : (st.F1.block b).next = none := by rw [hG, sweepFn_same hnr] at hn; exact hn
        obtain ⟨t, ht, hop⟩ := I.branches b hb hbe1 hn1
        have hu : st.st.useful t = true := by
          unfold Dce.branchRemoved at hnr
          rw [ht] at hnr
          simpa [hop] using hnr
        have hm : st.d.insn t ∈ G.insns b := by
          rw [hG]
          exact List.mem_map_of_mem (List.mem_filter.2 ⟨List.mem_of_getLast? ht, hu⟩)
        obtain ⟨h1, h2⟩ := Sw.branch b _ hm hop
        simp only [Option.map_none, h1, h2, List.map_cons, List.map_nil]
  have hord : ∀ b, CGraph.Reach (succs G) 0 b → b ∈ st.order := by
    intro b hb
    rw [(Prepared.mem_order K.prepared b)]
    exact (W hb).1
  have hto : ∀ {a l c}, CGraph.Path (succs G) a l c → CGraph.Reach (succs G) 0 a → CGraph.Reach (succs f.F) (st.place a) (st.place c) := by
    intro a l c p
    induction p with
    | nil => exact fun _ => Cfg.Reach.refl _
    | cons h _ ih =>
      intro ha
      exact Cfg.Reach.trans (Cfg.Reach.one (by rw [hedge _ (hord _ ha)]; exact List.mem_map_of_mem h)) (ih (Cfg.Reach.trans ha (Cfg.Reach.one h)))
  have hfrom : ∀ {a l c}, CGraph.Path (succs f.F) a l c → ∀ x, a = st.place x → CGraph.Reach (succs G) 0 x →
      ∃ y, c = st.place y ∧ CGraph.Reach (succs G) 0 y := by
    intro a l c p
    induction p with
    | nil => exact fun x hx hr => ⟨x, hx, hr⟩
    | cons h _ ih =>
      intro x hx hr
      rw [hx, hedge _ (hord _ hr)] at h
      obtain ⟨y, hy, hyc⟩ := List.mem_map.1 h
      exact ih y hyc.symm (Cfg.Reach.trans hr (Cfg.Reach.one hy))
  obtain ⟨l, p⟩ := hb
  obtain ⟨y, rfl, hy⟩ := hfrom p 0 K.entry (Cfg.Reach.refl _)
  obtain ⟨l', p'⟩ := (W hy).2
  rw [Sw.exit, hGe]
  exact hto p' hy

/-- **C53, compiled functions** (partial as above).  Liveness analysis of such a function, over the blocks found backwards from the exit,
ends and reports at the end of every block that can be reached exactly the local variables that are live there. -/
theorem C53_compiled_exact_partial {Pr : SrcProg} {sf : SFn} {f : SrcFn} {st : Stages} (K : Compiled Pr sf f st) {prev : Nat → List Nat}
    (hp : ∀ a, ∀ b, CGraph.Reach (succs f.F) f.entry b → (b ∈ prev a ↔ a ∈ succs f.F b)) {rpo : Nat → Nat} {order vars : List Nat} {n : Nat}
    (hord : Cfg.buildRpo (RaSource.cfgOf f.F f.entry prev).preds f.F.fnExit n = some (rpo, order))
    (hv : ∀ b x, CLive.LiveAtEnd (RaSource.liveFn f.vars f.F f.params f.entry prev) b x → x ∈ vars) :
    ∃ L, Live.liveness (RaSource.liveFn f.vars f.F f.params f.entry prev) order (order.length * vars.length + 1) = some L ∧
      ∀ b, CGraph.Reach (succs f.F) f.entry b → ∀ x, x ∈ L b ↔
        f.vars.isGlobal x = false ∧ CLive.LiveAtEnd (RaSource.liveFn f.vars f.F f.params f.entry prev) b x := by
  refine C53_liveness_exact_on_partial (RaSource.liveFn f.vars f.F f.params f.entry prev) order vars hv
    (fun b => CGraph.Reach (succs f.F) f.entry b) ?_ ?_
  · intro b hb
    rw [RaSource.rpo_mem hord]
    obtain ⟨l, p⟩ := C53_compiled_way_out_partial K hb
    obtain ⟨e, he⟩ : ∃ e, e = f.F.fnExit := ⟨_, rfl⟩
    rw [← he] at p ⊢
    clear he
    induction p with
    | nil => exact Cfg.Reach.refl _
    | cons h _ ih =>
      exact Cfg.Reach.trans (ih (Cfg.Reach.trans hb (Cfg.Reach.one h))) (Cfg.Reach.one (by rw [cfgOf_preds]; exact (hp _ _ hb).2 h))
  · intro b hb c hc
    have hc' : c ∈ succs f.F b := by rw [← cfgOf_succs f.F f.entry prev b]; exact hc
    exact Cfg.Reach.trans hb (Cfg.Reach.one hc')

/-! ### Programs -/

/-- **C95, calls** (partial as above). -/
theorem C95_calls_partial {Pr : SrcProg} {src : String → Option SFn}
    (hc : ∀ g f sf, g ≠ "__syscall" → Pr.fn g = some f → src g = some sf → ∃ st, Compiled Pr sf f st) :
    ∀ (n : Nat) (hid : Word → Prop) (sp : Word) (g : String) (args : List Word) (m m' : Mem) (r : Option Word),
      CProg.Call Pr src n hid sp g args m m' r → SsaProg.Call Pr n hid sp g args m m' r := by
  intro n
  induction n with
  | zero => intro hid sp g args m m' r h; exact h
  | succ n ih =>
    intro hid sp g args m m' r h
    rw [CProg.Call] at h
    rw [SsaProg.Call]
    obtain ⟨h1, h2⟩ := h
    refine ⟨h1, ?_⟩
    by_cases hg : g = "__syscall"
    · rw [if_pos hg] at h2 ⊢
      exact h2
    · rw [if_neg hg] at h2 ⊢
      obtain ⟨f, sf, hf, hsf, hlen, hroom, h2⟩ := h2
      obtain ⟨st, K⟩ := hc g f sf hg hf hsf
      refine ⟨f, hf, by rw [hlen, K.numbers, List.length_map], hroom, ?_⟩
      intro μ hμ
      obtain ⟨e, script, k, o, w, e', hp, hx, hr, hm⟩ := h2 μ hμ
      obtain ⟨s, s1, s2, s3, s4⟩ := C95_function_partial K _ _ _ hx hr
      exact ⟨s, w.mem, s1, s2, by rw [s3, hp], exec_call (fun g a m m' r h => ih _ _ g a m m' r h) s4, hm⟩

theorem C95_exits_partial {Pr : SrcProg} {src : String → Option SFn}
    (hc : ∀ g f sf, g ≠ "__syscall" → Pr.fn g = some f → src g = some sf → ∃ st, Compiled Pr sf f st)
    {V : RegAlloc.Vars} {K : Nat → GlobalInit.Kind} {ds : List GlobalInit.Decl} {fin : RegAlloc.RA} {sp0 : Word} {m m' : Mem} {r : Option Word}
    (h : CProg.Exits V K ds fin sp0 Pr src m m' r) : SsaProg.Exits V K ds fin sp0 Pr m m' r := by
  obtain ⟨m1, n, sf, h1, h2, h3⟩ := h
  cases n with
  | zero => exact absurd h3 (by rw [CProg.Call]; exact id)
  | succ n =>
    have h4 := h3
    rw [CProg.Call] at h4
    obtain ⟨_, h4⟩ := h4
    rw [if_neg (by decide)] at h4
    obtain ⟨f, sf', hf, hsf, hlen, _⟩ := h4
    rw [h2] at hsf
    cases hsf
    obtain ⟨st, K'⟩ := hc "main" f sf (by decide) hf h2
    refine ⟨m1, n + 1, f, h1, hf, ?_⟩
    have : f.params.length = sf.params.length := by rw [K'.numbers, List.length_map]
    rw [this]
    exact C95_calls_partial hc _ _ _ _ _ _ _ _ h3

open Shecc.RegAlloc Shecc.GlobalInit CGlobals in
/-- **C95 (RISC-V).** From statements to the executable. A program is loaded at the code base and started. If its global variables
are initialised and `main`, executed statement by statement as C prescribes, returns `r` and leaves memory `m'`, then the machine
reaches `exit(r)`, with that memory outside the stack. Partial: only executions that end; the conditions of the passes on the functions
(`Compiled`, `Whole`), among them that a repeated `p[i]` would read the same value again and that only addresses of global variables are taken. -/
theorem C95_rv_partial (hard : Bool) (Q : Shecc.Prog) (F : Flat) (img : List CInt)
    (h : compile Riscv.target hard (Peep.prog Q) = some (F, img)) (hd : Q.DistinctBlocks) (c : RV32.Code) (hc : RV32.CodeAt c codeBase img)
    (t : RV32.State) (hpc : t.pc = codeBase)
    (V : Vars) (K : Nat → Kind) (ds : List Decl) (fin : RA) (Pr : SrcProg) (W : SsaProg.Whole Q V K ds fin (t.get 2#5) Pr)
    (hv : Pr.byteVal = fun b => b.signExtend 32) (hda : Pr.dataAddr = codeBase + BitVec.ofNat 32 (4 * img.length))
    (src : String → Option SFn) (hs : ∀ g f sf, g ≠ "__syscall" → Pr.fn g = some f → src g = some sf → ∃ st, Compiled Pr sf f st)
    (m' : Mem) (r : Option Word) (hx : CProg.Exits V K ds fin (t.get 2#5) Pr src t.mem m' r) :
    ∃ u, RV32.SysReaches c Pr.os t u ∧ RV32.step c u = .ecall u ∧ u.get 17#5 = 93#32 ∧ (∀ x, r = some x → u.get 10#5 = x) ∧
      SsaProg.Agree (SsaProg.stackBelow Pr (t.get 2#5 - num fin.stack)) m' u.mem :=
  C85_rv_partial hard Q F img h hd c hc t hpc V K ds fin Pr W hv hda m' r (C95_exits_partial hs hx)

open Shecc.RegAlloc Shecc.GlobalInit CGlobals in
/-- **C95 (ARM).** The same for ARM. -/
theorem C95_arm_partial (hard : Bool) (Q : Shecc.Prog) (F : Flat) (img : List CInt)
    (h : compile Arm.target hard (Peep.prog Q) = some (F, img)) (hd : Q.DistinctBlocks) (hP : (Peep.prog Q).ArmOk) (c : ARM.Code) (hc : ARM.CodeAt c codeBase img)
    (t : ARM.State) (hpc : t.pc = codeBase)
    (V : Vars) (K : Nat → Kind) (ds : List Decl) (fin : RA) (Pr : SrcProg) (W : SsaProg.Whole Q V K ds fin (t.get 13#4) Pr)
    (hv : Pr.byteVal = fun b => b.setWidth 32) (hda : Pr.dataAddr = codeBase + BitVec.ofNat 32 (4 * img.length))
    (src : String → Option SFn) (hs : ∀ g f sf, g ≠ "__syscall" → Pr.fn g = some f → src g = some sf → ∃ st, Compiled Pr sf f st)
    (m' : Mem) (r : Option Word) (hx : CProg.Exits V K ds fin (t.get 13#4) Pr src t.mem m' r) :
    ∃ u, ARM.SysReaches c Pr.os t u ∧ ARM.step c u = .svc u ∧ u.get 7#4 = 1#32 ∧ (∀ x, r = some x → u.get 0#4 = x) ∧
      SsaProg.Agree (SsaProg.stackBelow Pr (t.get 13#4 - num fin.stack)) m' u.mem :=
  C85_arm_partial hard Q F img h hd hP c hc t hpc V K ds fin Pr W hv hda m' r (C95_exits_partial hs hx)

end Shecc.Props
