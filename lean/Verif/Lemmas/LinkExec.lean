import Verif.Lemmas.Link

/-!
# From executions over names to executions over numbered variables: whole functions
-/

namespace CProg
open Shecc Shecc.Ssa IrM SrcBlock RaFn
open CRename (Tag Mach Home Ins)
open SsaBuild (Name)
open CExec (body branch? leave blk blks)

theorem blks_first {M : Mach} {X : Type} [DecidableEq X] {H : Home X} {F : CExec.Prog X} : ∀ n b s,
    blks M H F (n + 1) b s = (blk M H F b (F.code b) s).bind fun r => blks M H F n r.1 r.2 := by
  intro n
  induction n with
  | zero =>
    intro b s
    simp only [blks, Option.bind_some]
    cases blk M H F b (F.code b) s <;> rfl
  | succ n ih =>
    intro b s
    rw [blks, ih]
    cases blk M H F b (F.code b) s <;> rfl

section
variable {C : Ctx} {alloc : Nat → String → Word} {keep : Word → Prop} {out : Nat → List (Ins Name)} {enc : Name → Nat} {H : Home Name}

theorem run_split {M : Mach} {X : Type} [DecidableEq X] {H : Home X} : ∀ (xs ys : List (Ins X)) {s u : CRename.State M X},
    CRename.run M H (xs ++ ys) s = some u → ∃ t, CRename.run M H xs s = some t ∧ CRename.run M H ys t = some u := by
  intro xs
  induction xs with
  | nil => intro ys s u h; exact ⟨s, rfl, h⟩
  | cons i xs ih =>
    intro ys s u h
    obtain ⟨t, h1, h2⟩ := Option.bind_eq_some_iff.1 (show (CRename.step M H i s).bind (CRename.run M H (xs ++ ys)) = some u from h)
    obtain ⟨v, h3, h4⟩ := ih ys h2
    exact ⟨v, Option.bind_eq_some_iff.2 ⟨t, h1, h3⟩, h4⟩

theorem run_link (hi : ∀ x y, enc x = enc y → x = y) (hH : HomeOk C out enc H) : ∀ {l : List (Ins Name)}, (∀ i ∈ l, Fine C out enc alloc keep i) →
    (∀ i ∈ l, i.op ≠ .branch ∧ i.op ≠ .ret) → ∀ {w w1 : World} {e e1 : Name → Word} {s : SrcBlock.St}, Rel C enc out w e s →
    CRename.run (mach C alloc keep) H l (w, e) = some (w1, e1) →
    ∃ s1, SrcBlock.Run C (l.map (encode enc)) s s1 ∧ Rel C enc out w1 e1 s1 ∧ w1.result = w.result := by
  intro l
  induction l with
  | nil =>
    intro _ _ w w1 e e1 s h hr
    cases Option.some.inj hr
    exact ⟨s, .nil s, h, rfl⟩
  | cons i l ih =>
    intro hf hb w w1 e e1 s h hr
    obtain ⟨⟨w2, e2⟩, h1, h2⟩ := Option.bind_eq_some_iff.1
      (show (CRename.step (mach C alloc keep) H i (w, e)).bind (CRename.run (mach C alloc keep) H l) = some (w1, e1) from hr)
    obtain ⟨s2, g1, g2, g3⟩ := step_link hi hH (hf i (by simp)) (hb i (by simp)).1 (hb i (by simp)).2 h h1
    obtain ⟨s3, g4, g5, g6⟩ := ih (fun j hj => hf j (by simp [hj])) (fun j hj => hb j (by simp [hj])) g2 h2
    exact ⟨s3, .cons g1 g4, g5, g6.trans g3⟩

end

/-- How a block ends. -/
theorem ends_cases {l : List (Ins Name)} (h : ∀ xs i ys, l = xs ++ i :: ys → i.op = .branch ∨ i.op = .ret → ys = []) :
    (∀ i ∈ l, i.op ≠ .branch ∧ i.op ≠ .ret) ∨
      ∃ xs i, l = xs ++ [i] ∧ (i.op = .branch ∨ i.op = .ret) ∧ ∀ j ∈ xs, j.op ≠ .branch ∧ j.op ≠ .ret := by
  by_cases hc : ∀ i ∈ l, i.op ≠ .branch ∧ i.op ≠ .ret
  · exact Or.inl hc
  · right
    have : ∃ i ∈ l, i.op = .branch ∨ i.op = .ret := by
      apply Classical.byContradiction
      intro hn
      apply hc
      intro i hi
      exact ⟨fun h => hn ⟨i, hi, Or.inl h⟩, fun h => hn ⟨i, hi, Or.inr h⟩⟩
    obtain ⟨i, hi, ho⟩ := this
    obtain ⟨xs, ys, rfl⟩ := List.append_of_mem hi
    have := h xs i ys rfl ho
    subst this
    refine ⟨xs, i, rfl, ho, ?_⟩
    intro j hj
    obtain ⟨us, vs, rfl⟩ := List.append_of_mem hj
    constructor
    · intro hb
      have := h us j (vs ++ [i]) (by simp) (Or.inl hb)
      simp at this
    · intro hb
      have := h us j (vs ++ [i]) (by simp) (Or.inr hb)
      simp at this

section
variable {C : Ctx} {sf : SFn} {al : Nat → String → Word} {f : SsaBuild.Fn} {out : Nat → List (Ins Name)} {enc : Name → Nat}
  {F : RegAlloc.Fn} {H : Home Name}

theorem fine_of (S : Sound f.g out enc C.isGlobal C.basic C.initVal C.gaddr sf) (A : Allocs out enc C.basic C.objAddr al)
    {b : Nat} {i : Ins Name} (hi : i ∈ out b) : Fine C out enc al sf.keep i where
  occurs := ⟨b, hi⟩
  shaped := S.shaped b i hi
  const := S.const b i hi
  address := fun ho v hv => by
    rw [(S.global_ v ⟨b, i, hi, Or.inr (Or.inl hv)⟩).1]
    exact S.address b i hi ho v hv
  declared := fun ho d hd => by
    rw [(S.global_ d ⟨b, i, hi, Or.inl hd⟩).1]
    exact S.declared b i hi ho d hd
  scalar := fun d hd hs => (S.scalar d hs).2 b i hi hd
  isScalar := fun ho d hd hb => ⟨hb, b, i, hi, ho, hd⟩
  keep := fun ho v hv hg => by
    have hoc : Occurs out v := ⟨b, i, hi, Or.inr hv⟩
    rw [(S.global_ v hoc).1] at hg
    rw [(S.global_ v hoc).2 hg]
    exact S.keep b i hi ho v hv hg
  alloc := A b i hi

set_option maxHeartbeats 1000000 in
theorem exec_link {order : List Nat} (N : Numbered order f.g out enc F) (hcl : ∀ b ∈ order, ∀ c ∈ succs F b, c ∈ order) (S : Sound f.g out enc C.isGlobal C.basic C.initVal C.gaddr sf)
    (A : Allocs out enc C.basic C.objAddr al) (hH : HomeOk C out enc H) {void : Bool} {r : Option Word} : ∀ (n b : Nat) {w w1 : World}
    {e e1 : Name → Word} {s : SrcBlock.St}, Rel C enc out w e s → w.result = none → b ∈ order → b ≠ f.g.exit →
    blks (mach C al sf.keep) H (f.prog out) n b (w, e) = some (f.g.exit, (w1, e1)) → Ended void w1 r → Exec C F void b s r w1.mem := by
  intro n
  induction n with
  | zero =>
    intro b w w1 e e1 s _ _ _ hb h _
    exact absurd (congrArg Prod.fst (Option.some.inj h)) hb
  | succ n ih =>
    intro b w w1 e e1 s hrel hres hin hb h hend
    have hbF : b ≠ F.fnExit := by rw [N.exit]; exact hb
    rw [blks_first] at h
    obtain ⟨⟨c, w2, e2⟩, h1, h2⟩ := Option.bind_eq_some_iff.1 h
    obtain ⟨⟨w3, e3⟩, h3, h4⟩ := Option.bind_eq_some_iff.1 (show (CRename.run (mach C al sf.keep) H (body (out b)) (w, e)).bind _ = some _ from h1)
    obtain ⟨c', h5, h6⟩ := Option.map_eq_some_iff.1 h4
    cases h6
    have fine : ∀ i ∈ out b, Fine C out enc al sf.keep i := fun i hi => fine_of S A hi
    -- the exit has no way on
    have stop : c = f.g.exit → w2 = w1 := by
      intro hc
      subst hc
      cases n with
      | zero => exact congrArg (·.2.1) (Option.some.inj h2)
      | succ n =>
        exfalso
        rw [blks_first] at h2
        obtain ⟨⟨c, w4, e4⟩, h6, _⟩ := Option.bind_eq_some_iff.1 h2
        have : blk (mach C al sf.keep) H (f.prog out) f.g.exit (out f.g.exit) (w2, e2) = some (c, w4, e4) := h6
        rw [S.exit.1] at this
        obtain ⟨_, _, h7⟩ := Option.bind_eq_some_iff.1 this
        obtain ⟨_, h8, _⟩ := Option.map_eq_some_iff.1 h7
        have h9 : (f.g.block f.g.exit).next = some _ := h8
        rw [S.exit.2] at h9
        cases h9
    rcases ends_cases (l := out b) (fun xs i ys hl ho => ho.elim (fun h => ((S.ends b xs i ys hl).1 h).1) (fun h => ((S.ends b xs i ys hl).2 h).1)) with
      hc | ⟨xs, i, hl, ho, hc⟩
    · obtain ⟨q1, q2⟩ := CExec.body_clean (out b) (fun i hi => (hc i hi).1)
      rw [q1] at h3
      rw [show (f.prog out).code b = out b from rfl, q2] at h5
      obtain ⟨s1, g1, g2, g3⟩ := run_link N.inj hH fine hc hrel h3
      rw [← N.insns b hin] at g1
      have hn : (F.block b).next = some c := (N.next b hin).trans h5
      by_cases hce : c = f.g.exit
      · have hw := stop hce
        subst hw
        rw [hce, ← N.exit] at hn
        rw [hres] at g3
        rcases hend with he | ⟨_, rfl, hv⟩
        · rw [g3] at he; cases he
        · rw [← g2.mem]
          exact .fall g1 hn hv
      · exact .next g1 hn (by rw [N.exit]; exact hce) (ih c g2 (g3.trans hres) (hcl b hin c (by unfold succs; rw [if_neg hbF, hn]; simp)) hce h2 hend)
    · by_cases hbr : i.op = .branch
      · obtain ⟨q1, q2⟩ := CExec.body_branch i hbr xs (fun j hj => (hc j hj).1)
        rw [hl, q1] at h3
        rw [show (f.prog out).code b = out b from rfl, hl, q2] at h5
        obtain ⟨s1, g1, g2, g3⟩ := run_link N.inj hH (fun j hj => fine j (by rw [hl]; simp [hj])) hc hrel h3
        have hn : (F.block b).next = none := (N.next b hin).trans ((S.ends b xs i [] hl).1 hbr).2
        cases hr1 : i.rs1 with
        | none => simp [leave, hr1] at h5
        | some v =>
          simp only [leave, hr1] at h5
          have hv : Occurs out v := ⟨b, i, by rw [hl]; simp, Or.inr (Or.inl hr1)⟩
          rw [rd_link hH g2 v hv] at h5
          change (if SrcBlock.rd C s1 (enc v) ≠ 0#32 then (f.prog out).then_ b else (f.prog out).else_ b) = some c at h5
          have hc' : c = (if SrcBlock.rd C s1 (enc v) ≠ 0#32 then (F.block b).then_ else (F.block b).else_) ∧ c ≠ f.g.exit := by
            by_cases hz : SrcBlock.rd C s1 (enc v) ≠ 0#32
            · rw [if_pos hz] at h5
              rw [if_pos hz]
              have h5' : (f.g.block b).then_ = some c := h5
              exact ⟨(N.then_ b hin c h5').symm, fun hx => (S.inner b).1 (by rw [h5', hx])⟩
            · rw [if_neg hz] at h5
              rw [if_neg hz]
              have h5' : (f.g.block b).else_ = some c := h5
              exact ⟨(N.else_ b hin c h5').symm, fun hx => (S.inner b).2 (by rw [h5', hx])⟩
          have hx := ih c g2 (g3.trans hres) (hcl b hin c (by
            unfold succs
            rw [if_neg hbF, hn, hc'.1]
            by_cases hz : SrcBlock.rd C s1 (enc v) ≠ 0#32
            · rw [if_pos hz]; simp
            · rw [if_neg hz]; simp)) hc'.2 h2 hend
          refine .branch (is := xs.map (encode enc)) (br := encode enc i) (a := enc v) (by rw [N.insns b hin, hl]; simp) hbr (by simp [encode, hr1]) g1 hn ?_ ?_
          · rw [← hc'.1, N.exit]; exact hc'.2
          · rw [← hc'.1]; exact hx
      · have hre : i.op = .ret := ho.resolve_left hbr
        have hnb : ∀ j ∈ out b, j.op ≠ .branch := by
          intro j hj
          rw [hl] at hj
          rcases List.mem_append.1 hj with hj | hj
          · exact (hc j hj).1
          · rw [List.mem_singleton.1 hj]; exact hbr
        obtain ⟨q1, q2⟩ := CExec.body_clean (out b) hnb
        rw [q1, hl] at h3
        rw [show (f.prog out).code b = out b from rfl, q2] at h5
        have hce : c = f.g.exit := by
          have : (f.g.block b).next = some c := h5
          rw [((S.ends b xs i [] hl).2 hre).2] at this
          exact (Option.some.inj this).symm
        have hw := stop hce
        subst hw
        obtain ⟨⟨w4, e4⟩, k1, k2⟩ := run_split xs [i] h3
        obtain ⟨⟨w5, e5⟩, k3, k4⟩ := Option.bind_eq_some_iff.1
          (show (CRename.step (mach C al sf.keep) H i (w4, e4)).bind (CRename.run (mach C al sf.keep) H []) = _ from k2)
        cases Option.some.inj k4
        obtain ⟨s1, g1, g2, g3⟩ := run_link N.inj hH (fun j hj => fine j (by rw [hl]; simp [hj])) hc hrel k1
        have hrd : i.rd = none := by
          have := S.shaped b i (by rw [hl]; simp)
          simpa only [Shaped, hre] using this
        obtain ⟨_, v, k5⟩ := step_effect (by rw [hre]; simp) hrd k3
        rw [arg1_link hH g2 (fun x hx => ⟨b, i, by rw [hl]; simp, Or.inr (Or.inl hx)⟩) (by rw [hre]; simp)] at k5
        simp only [act, CRename.Ins.tag, hre, Option.some.injEq, Prod.mk.injEq] at k5
        obtain ⟨rfl, _⟩ := k5
        simp only at hend ⊢
        rcases hend with he | ⟨he, _⟩
        · rw [← g2.mem]
          cases hr1 : i.rs1 with
          | none =>
            simp only [hr1, Option.map_none, Option.some.injEq] at he
            subst he
            exact .retVoid (is := xs.map (encode enc)) (re := encode enc i) (by rw [N.insns b hin, hl]; simp) hre (by simp [encode, hr1]) g1
          | some a =>
            simp only [hr1, Option.map_some, Option.some.injEq] at he
            subst he
            exact .ret (is := xs.map (encode enc)) (re := encode enc i) (a := enc a) (by rw [N.insns b hin, hl]; simp) hre (by simp [encode, hr1]) g1
        · cases he

end

end CProg
