import Verif.Lemmas.RaStop2
import Verif.Spec.SsaReach

/-!
# C92: a function gets to the calls the source makes, whether or not they return
-/

namespace Shecc.Props
open Shecc Shecc.Ssa Shecc.RegAlloc IrM SrcBlock RaFn RaLink

section
variable {A : Abi} {P : Program} {os : Os} {sys : Word} {C : Ctx} {V : Vars} {sp gp stack start : Word} {F : RegAlloc.Fn}
  {params exitPrev : List Nat} {entry : Nat} {rest : List Nat} {use : Nat → Int} {live : Nat → Nat → Prop} {void : Bool}
  {st0 fin : RA} {codes codes' : List (Nat × List Ph2Ir)} {nargs : String → Nat}

/-- The machine is at a call that `T` describes. -/
def AtCall (C : Ctx) (P : Program) (sp gp : Word) (T : String → List Word → Mem → Prop) (t : State) : Prop :=
  ∃ ir nxt args m, P t.pc ir nxt ∧ ir.op = .call ∧ CallPre C sp gp args m t ∧ T ir.func_name args m

variable (G : FnGiven A P os sys C V sp gp stack start F params exitPrev entry rest use live void st0 fin codes codes' nargs)
include G

theorem FnGiven.reach {T : String → List Word → Mem → Prop} (haT : ∀ f args m, T f args m → args.length ≤ nargs f) {b : Nat} {s : St}
    (hx : Reach C F T b s) : ∀ {pre post : List Nat} {cpre : List (Nat × List Ph2Ir)} {sb : RA} {t : State},
    entry :: rest = pre ++ b :: post → b ≠ F.fnExit →
    allocBlocks V F [] pre (fnStart params false st0) = some (cpre, sb) → Entry C V sp gp fin.offset (live b) sb s t →
    t.pc = (if pre = [] then start else A.blockAddr b) →
    ∃ t', XRun A P os sys t t' ∧ AtCall C P sp gp T t' := by
  induction hx with
  | @next b n s s' hr hn hne hx ih =>
    intro pre post cpre sb t ho hbx h1 E hpc
    obtain ⟨cpre', sb0, sb', cpost, f1, h2, h3, h4, B1, m1, m2, hstk, hgl⟩ := G.around ho
    rw [h1] at f1
    cases f1
    obtain ⟨body, phis, last, K⟩ := G.ok.block pre b _ ho hbx
    have KB := G.blockOk ho B1 K h2
    have hins := K.insns
    have hsucc : succs F b = [n] := by simp [succs, hbx, hn]
    have hto : ∀ v, sb'.offset v ≠ 0 → sb'.offset v = fin.offset v := fun v hv => (m2 v hv).symm
    have hback : ∀ n', n' ∈ succs F b → n' = n := by intro n' h; rw [hsucc] at h; simpa using h
    have himp : implicitReturns F void exitPrev b = [] := by
      unfold implicitReturns
      split
      · have : exitPrev.filter (· == b) = [] := by
          rw [List.filter_eq_nil_iff]
          intro x hx
          simp only [beq_iff_eq]
          rintro rfl
          exact hne (hback _ ((G.ok.prev x).1 hx)).symm
        rw [this]; rfl
      · rfl
    cases K.ends with
    | branch hn' => rw [hn] at hn'; cases hn'
    | ret hn' => rw [hn] at hn'; cases hn'; exact absurd rfl hne
    | retVoid hn' => rw [hn] at hn'; cases hn'; exact absurd rfl hne
    | next hn' =>
      rw [List.append_nil] at hins
      rw [hins] at hr h2
      have hw : ∃ t2, XRun A P os sys t t2 ∧ ∃ u, Same u t2 ∧ Exit C V sp gp fin.offset (fun v => v ∈ (F.block b).liveOut ∧ Valued V (live b) body phis v) sb' s' u ∧
          ((wantJump F (b :: pre.reverse) b = true ∧ ∃ ir' nxt, Final stack { op := .jump, next_bb := n } ir' ∧ P t2.pc ir' nxt) ∨
            (wantJump F (b :: pre.reverse) b = false ∧ ∀ n, post.head? = some n → t2.pc = A.blockAddr n)) := by
        let Q : Option Ph2Ir → State → Prop := fun o u =>
          o = (if wantJump F (b :: pre.reverse) b then some { op := .jump, next_bb := n } else none) ∧
            Exit C V sp gp fin.offset (fun v => v ∈ (F.block b).liveOut ∧ Valued V (live b) body phis v) sb' s' u
        have hQ : QInv Q := fun o D u u' h hs _ => ⟨h.1, exit_same h.2 hs.2.1 hs.2.2.1 hs.2.2.2.2.1⟩
        obtain ⟨o, u, t2, r1, r2, ⟨q1, q2⟩, r4, r5⟩ := G.does h1 h3 h4 hQ hpc (by
          intro full hfull
          obtain ⟨code, t1, g1, g2, g3⟩ := C57_block_partial (st := reset sb) (setup_worst (Q := Q) G.setup full) KB
            ⟨E.sp, E.gp, E.mem, E.gofs, E.stack, E.args, E.regs, E.once, E.slots⟩ hn hr h2 hto
          rw [g1, himp, List.append_nil] at hfull
          rw [hfull]
          refine wp_of_run g2 hfull ?_ ⟨?_, g3⟩
          · split
            · intro ir h; cases h; exact ⟨rfl, by simp⟩
            · intro ir h; cases h
          · split <;> rfl)
        refine ⟨t2, r1, u, r2, q2, ?_⟩
        split at q1
        · rename_i hj
          exact .inl ⟨hj, r5 _ q1⟩
        · rename_i hj
          exact .inr ⟨by simpa using hj, r4 q1⟩
      obtain ⟨t2, r1, t1, q1, g3, hend⟩ := hw
      -- the end of the block
      have goal : ∃ t3, XRun A P os sys t2 t3 ∧ Same t1 t3 ∧ t3.pc = A.blockAddr n := by
        rcases hend with ⟨_, ir', nxt', hf, hp⟩ | ⟨hj, hnext⟩
        · obtain ⟨d, rfl⟩ := final_straight hf (by simp)
          exact ⟨_, run_one hp (.jump rfl), ⟨q1.reg, q1.sp, q1.gp, q1.mem⟩, rfl⟩
        · refine ⟨t2, .refl _, q1, ?_⟩
          refine hnext n ?_
          unfold wantJump at hj
          rw [hn] at hj
          simp only [Bool.and_eq_false_iff, bne_eq_false_iff_eq, Bool.or_eq_false_iff, decide_eq_false_iff_not] at hj
          have hrpo : F.rpo n = F.rpo b + 1 := by
            rcases hj with (h | h) | h
            · exact absurd h hbx
            · exact absurd h hne
            · exact h.2
          have hb1 : F.rpo b = F.rpo entry + pre.length := G.ok.numbered pre.length b (by rw [ho]; simp)
          have hnr := G.ok.closed b (by rw [ho]; simp) n (by rw [hsucc]; simp)
          obtain ⟨k, hk⟩ := List.mem_iff_getElem?.1 hnr
          have hn1 : F.rpo n = F.rpo entry + (k + 1) := G.ok.numbered (k + 1) n (by simpa using hk)
          have hk1 : k = pre.length := by omega
          have : (entry :: rest)[pre.length + 1]? = some n := by rw [← hk1]; simpa using hk
          rw [ho, List.getElem?_append_right (by omega), show pre.length + 1 - pre.length = 1 by omega, List.getElem?_cons_succ,
            ← List.head?_eq_getElem?] at this
          exact this
      obtain ⟨t3, r2, q3, q4⟩ := goal
      rw [← hins] at h2
      obtain ⟨k1, k2, k5⟩ := G.edge ho g3 K.valued (by rw [hsucc]; simp) hne q3
      obtain ⟨pre', post', ho'⟩ := List.append_of_mem (List.mem_cons_of_mem entry k1)
      obtain ⟨cpre', sn, _, _, f1, _⟩ := G.around ho'
      have hp' : pre' ≠ [] := by
        rintro rfl
        simp only [List.nil_append, List.cons.injEq] at ho'
        exact k2 ho'.1.symm
      obtain ⟨t', r3, q5⟩ := ih ho' hne f1 (k5 _ _ _ _ ho' f1) (by rw [if_neg hp', q4])
      exact ⟨t', run_trans r1 (run_trans r2 r3), q5⟩
  | @branch b is br a s s' hi hop ha hr hn hne hx ih =>
    intro pre post cpre sb t ho hbx h1 E hpc
    obtain ⟨cpre', sb0, sb', cpost, f1, h2, h3, h4, B1, m1, m2, hstk, hgl⟩ := G.around ho
    rw [h1] at f1
    cases f1
    obtain ⟨body, phis, last, K⟩ := G.ok.block pre b _ ho hbx
    have KB := G.blockOk ho B1 K h2
    have hins := K.insns
    have hto : ∀ v, sb'.offset v ≠ 0 → sb'.offset v = fin.offset v := fun v hv => (m2 v hv).symm
    cases K.ends with
    | next hn' => rw [hn] at hn'; cases hn'
    | ret hn' => rw [hn] at hn'; cases hn'
    | retVoid hn' => rw [hn] at hn'; cases hn'
    | @branch br' a' hn' ho' ha' hl =>
      obtain ⟨rfl, hbr⟩ := List.append_inj' (hi.symm.trans hins) rfl
      simp only [List.cons.injEq, and_true] at hbr
      subst hbr
      rw [ha] at ha'
      cases ha'
      rw [hins] at h2
      let Q : Option Ph2Ir → State → Prop := fun o u => ∃ ir, o = some ir ∧ ir.op = .branch ∧ ir.then_bb = (F.block b).then_ ∧
        ir.else_bb = (F.block b).else_ ∧ (∃ k : BitVec 3, isReg ir.src0 k ∧ u.reg k = rd C s' a) ∧
        Exit C V sp gp fin.offset (fun v => v ∈ (F.block b).liveOut ∧ Valued V (live b) body phis v) sb' s' u
      have hQ : QInv Q := by
        rintro o D u u' ⟨ir, rfl, c1, c2, c3, ⟨k, c4, c5⟩, c6⟩ hs hD
        refine ⟨ir, rfl, c1, c2, c3, ⟨k, c4, ?_⟩, exit_same c6 hs.2.1 hs.2.2.1 hs.2.2.2.2.1⟩
        rw [← c5]
        refine (hs.1 k (fun hd => ?_)).symm
        rcases hD ir rfl k hd with h | h
        · rw [c1] at h; cases h
        · exact h c4
      obtain ⟨o, t1, t2, r1, q1, ⟨ir, rfl, g4, g5, g6, ⟨kk, g7, g8⟩, g3⟩, r4, r5⟩ := G.does h1 h3 h4 hQ hpc (by
        intro full hfull
        obtain ⟨code, ir, t1, g1, g2, g3, g4, g5, g6, kk, g7, g8⟩ := C57_block_branch_partial (st := reset sb) (setup_worst (Q := Q) G.setup full) KB
          ⟨E.sp, E.gp, E.mem, E.gofs, E.stack, E.args, E.regs, E.once, E.slots⟩ hn hop ha hl hr h2 hto
        rw [g1, List.append_assoc] at hfull
        rw [hfull]
        refine wp_of_run g2 hfull ?_ ⟨ir, rfl, g4, g5, g6, ⟨kk, g7, g8⟩, g3⟩
        intro ir' h
        simp only [List.cons_append, List.head?_cons, Option.mem_def, Option.some.injEq] at h
        subst h
        rw [g4]; exact ⟨rfl, by simp⟩)
      obtain ⟨ir', nxt', hf, hp⟩ := r5 ir rfl
      · 
        obtain ⟨d, rfl⟩ := final_straight hf (by rw [g4]; simp)
        have st3 := IrM.Step.branch (A := A) (ir := { ir with is_branch_detached := d }) (nxt := nxt') (s := t2) g4 g7
        generalize ht3 : ({ t2 with callee := none, pc := if t2.reg kk ≠ 0#32 then A.blockAddr ir.then_bb else A.blockAddr ir.else_bb } : State) = t3 at st3
        have q3 : Same t1 t3 := by rw [← ht3]; exact ⟨q1.reg, q1.sp, q1.gp, q1.mem⟩
        have q4 : t3.pc = A.blockAddr (if rd C s' a ≠ 0#32 then (F.block b).then_ else (F.block b).else_) := by
          rw [← ht3]
          simp only
          rw [q1.reg, g8, g5, g6]
          split <;> rfl
        have hmem : (if rd C s' a ≠ 0#32 then (F.block b).then_ else (F.block b).else_) ∈ succs F b := by
          simp only [succs, hbx, hn, if_false]
          split <;> simp
        rw [← hins] at h2
        obtain ⟨k1, k2, k5⟩ := G.edge ho g3 K.valued hmem hne q3
        obtain ⟨pre', post', ho'⟩ := List.append_of_mem (List.mem_cons_of_mem entry k1)
        obtain ⟨cpre', sn, _, _, f1, _⟩ := G.around ho'
        have hp' : pre' ≠ [] := by
          rintro rfl
          simp only [List.nil_append, List.cons.injEq] at ho'
          exact k2 ho'.1.symm
        obtain ⟨t', r3, q5⟩ := ih ho' hne f1 (k5 _ _ _ _ ho' f1) (by rw [if_neg hp', q4])
        exact ⟨t', run_trans r1 (run_trans (run_one hp st3) r3), q5⟩
  | @call b xs c ys s s' hi hop hr hT =>
    intro pre post cpre sb t ho hbx h1 E hpc
    obtain ⟨cpre', sb0, sb', cpost, f1, h2, h3, h4, B1, m1, m2, hstk, hgl⟩ := G.around ho
    rw [h1] at f1
    cases f1
    obtain ⟨body, phis, last, K⟩ := G.ok.block pre b _ ho hbx
    have KB := G.blockOk ho B1 K h2
    have hins := K.insns
    have hto : ∀ v, sb'.offset v ≠ 0 → sb'.offset v = fin.offset v := fun v hv => (m2 v hv).symm
    have hlast : ∀ i ∈ last, i.op ≠ .call ∧ i.op ≠ .allocat := by
      have one : ∀ {x : Insn} {o : Op1}, x.op = o → o ≠ .call ∧ o ≠ .allocat → ∀ i ∈ [x], i.op ≠ .call ∧ i.op ≠ .allocat := by
        intro x o h1 h2 i hi
        rw [List.mem_singleton] at hi
        subst hi
        rw [h1]; exact h2
      cases K.ends with
      | next _ => intro i hi; cases hi
      | branch _ ho' => exact one ho' (by simp)
      | ret _ ho' => exact one ho' (by simp)
      | retVoid _ ho' => exact one ho' (by simp)
    rw [hins] at h2 hi
    have hw := block_stop (T := T) (st := reset sb) G.setup KB
      ⟨E.sp, E.gp, E.mem, E.gofs, E.stack, E.args, E.regs, E.once, E.slots⟩ hi hlast hop hr hT h2 hto (implicitReturns F void exitPrev b)
    obtain ⟨e, hat, _⟩ := G.located h1 h3 h4
    have key : ∀ code, At P stack (if pre = [] then start else A.blockAddr b) code e → WpS A C V sp gp fin.offset T code t →
        ∃ t', XRun A P os sys t t' ∧ AtCall C P sp gp T t' := by
      intro code hat hw
      obtain ⟨t2, ir, nxt, args, m, r1, r2, r3, r4, r5⟩ := run_wps G.divLocal G.call hat hw (Same.refl t) hpc
      exact ⟨t2, r1, ir, nxt, args, m, r2, r3, r4, r5⟩
    rcases hat with hat | ⟨hok, hat⟩
    · exact key _ hat hw
    · exact key _ hat (WpS.peep G.divLocal G.arity haT _ hw hok)

end

/-- A function whose code was produced by the allocator, possibly shortened by the peephole pass, and placed in the program: when the function in
SSA form gets to a call, so does the machine, with the same arguments and visible memory. -/
theorem C92_function_partial {A : Abi} {P : Program} {os : Os} {sys : Word} {C : Ctx} {V : Vars} {sp gp stack start : Word} {F : RegAlloc.Fn}
    {params exitPrev : List Nat} {entry : Nat} {rest : List Nat} {use : Nat → Int} {live : Nat → Nat → Prop} {void : Bool}
    {st0 fin : RA} {codes codes' : List (Nat × List Ph2Ir)} {nargs : String → Nat} {s : St} {T : String → List Word → Mem → Prop} {t : State}
    (hd : A.DivLocal) (S : Setup A (fun _ _ _ _ => True) C V sp gp fin.offset)
    (hcalls : CallsDo A P os sys C V sp gp fin.offset) (har : ∀ f args m m' r, C.call f args m m' r → args.length ≤ nargs f)
    (haT : ∀ f args m, T f args m → args.length ≤ nargs f)
    (W : FnOk V F params exitPrev entry rest use live)
    (h4 : st0.stack = 4) (hu : st0.consumed = use) (hl0 : ∀ v, V.isGlobal v = false → st0.offset v = 0)
    (hg0 : ∀ v, V.isGlobal v = true → st0.offset v ≠ 0)
    (he : allocBlocks V F [] (entry :: rest) (fnStart params false st0) = some (codes, fin))
    (htidy : Tidied nargs (withReturns F void exitPrev codes) codes') (hl : Laid A P stack start codes')
    (hx : Reach C F T entry s) (ht : Enters C sp gp params s t) (hpc : t.pc = start) :
    ∃ t', XRun A P os sys t t' ∧ AtCall C P sp gp T t' := by
  have G : FnGiven A P os sys C V sp gp stack start F params exitPrev entry rest use live void st0 fin codes codes' nargs :=
    ⟨hd, S, hcalls, har, W, h4, hu, hl0, hg0, he, htidy, hl⟩
  refine G.reach haT hx (pre := []) (post := rest) rfl W.entryExit rfl ?_ (by rw [if_pos rfl]; exact hpc)
  · obtain ⟨_, _, _, _, f1, _, _, _, B1, _, _, hstk, hgl⟩ := G.around (pre := []) (b := entry) (post := rest) rfl
    cases f1
    refine ⟨ht.sp, ht.gp, ht.mem, hgl, hstk, ht.args, ?_, (B1.first rfl).2, ?_⟩
    · intro i hi v hv
      obtain ⟨e1, e2⟩ := fnStart_var params st0 hi
      rw [e1] at hv
      have hm := List.mem_of_getElem? hv
      exact ⟨(W.param.2.2 v hm).1, (W.start v).2 hm, ht.param i v hv, e2 v hv⟩
    · intro v hv hg hab
      obtain ⟨k, hk⟩ := List.mem_iff_getElem?.1 ((W.start v).1 hv)
      have hk8 : k < 8 := by
        have := (List.getElem?_eq_some_iff.1 hk).1
        have := W.param.1
        omega
      exact absurd ((fnStart_var params st0 hk8).1.trans hk) (hab k hk8)

end Shecc.Props
