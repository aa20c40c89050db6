import Verif.Lemmas.RaStop

/-! A block up to a call in the middle of it. -/

namespace RaFn
open Shecc Shecc.Ssa Shecc.RegAlloc IrM SrcBlock RaLink Shecc.Props

section
variable {A : Abi} {C : Ctx} {V : Vars} {sp gp : Word} {fofs : Nat → Nat} {T : String → List Word → Mem → Prop}

theorem mono_plain {B : RegAlloc.Block} (is : List Insn) : ∀ {idx : Nat} {st st' : RA}, (∀ i ∈ is, i.op ≠ .allocat) →
    allocInsns V B idx is st = some st' → Mono st st' := by
  induction is with
  | nil => intro _ st st' _ he; cases he; exact Mono.refl st
  | cons p ps ih =>
    intro idx st st' hp he
    unfold allocInsns at he
    split at he
    · cases he
    · rename_i st1 h1
      unfold allocInsn at h1
      have a1 : Mono st (RegAlloc.refresh B idx st) := (Mono.closed st).refresh B _ (Mono.refl st)
      have a2 := (Mono.closed st).allocOp V B _ p (fun h => absurd h (hp p (List.mem_cons_self ..))) a1 h1
      exact a2.trans (ih (fun q hq => hp q (List.mem_cons_of_mem _ hq)) he)

theorem run_push {C C' : Ctx} (h1 : C'.isGlobal = C.isGlobal) (h2 : C'.gaddr = C.gaddr) (ps : List Insn) : ∀ {s s' : St}, (∀ p ∈ ps, p.op = .push) →
    SrcBlock.Run C ps s s' → SrcBlock.Run C' ps s s' := by
  induction ps with
  | nil => intro s s' _ hr; cases hr; exact .nil _
  | cons p ps ih =>
    intro s s' hp hr
    cases hr with
    | cons hs hr =>
      refine .cons ?_ (ih (fun q hq => hp q (List.mem_cons_of_mem _ hq)) hr)
      have ho := hp p (List.mem_cons_self ..)
      cases hs with
      | push ho ha =>
        have := SrcBlock.Step.push (C := C') (i := p) (s := s) ho ha
        unfold rd at this ⊢
        rw [h1, h2] at this
        exact this
      | _ => simp_all

theorem run_snoc {C : Ctx} (xs : List Insn) {c : Insn} : ∀ {s s' s'' : St}, SrcBlock.Run C xs s s' → SrcBlock.Step C c s' s'' →
    SrcBlock.Run C (xs ++ [c]) s s'' := by
  induction xs with
  | nil => intro s s' s'' hr h; cases hr; exact .cons h (.nil _)
  | cons x xs ih => intro s s' s'' hr h; cases hr with | cons h1 h2 => exact .cons h1 (ih h2 h)

/-- The code of a call contains a call. -/
theorem call_emitted {B : RegAlloc.Block} {idx : Nat} {ps : List Insn} {c : Insn} {st st' : RA} (ho : c.op = .call)
    (he : allocInsns V B idx (ps ++ [c]) st = some st') {code : List Ph2Ir} (hc : st'.out = st.out ++ code) : ∃ ir ∈ code, ir.op = .call := by
  rw [allocInsns_append] at he
  split at he
  · cases he
  · rename_i stm hm
    obtain ⟨c1, g1⟩ := grows_insns ps hm
    simp only [allocInsns, allocInsn] at he
    split at he
    · cases he
    · rename_i st2 h2
      cases he
      unfold allocOp at h2
      rw [ho] at h2
      simp only [allocCall] at h2
      split at h2
      · cases h2
      · simp only [Option.some.injEq] at h2
        obtain ⟨c2, g2⟩ : Grows stm (if ‹Nat› = 0 then spillAlive V B (idx + ps.length : Nat) (RegAlloc.refresh B (idx + ps.length : Nat) stm) else RegAlloc.refresh B (idx + ps.length : Nat) stm) := by
          split
          · exact ((Grows.refl stm).refresh _).spillAlive _
          · exact (Grows.refl stm).refresh _
        have : st'.out = stm.out ++ c2 ++ [{ op := .call, func_name := c.str }] := by
          rw [← h2, ← g2]; rfl
        rw [g1, hc] at this
        have e : code = c1 ++ c2 ++ [{ op := .call, func_name := c.str }] := by
          simpa [List.append_assoc] using this
        exact ⟨{ op := .call, func_name := c.str }, by rw [e]; simp, rfl⟩

theorem block_stop {B : RegAlloc.Block} {use : Nat → Int} {live : Nat → Prop} {body phis last xs ys : List Insn} {c : Insn} {st st' : RA}
    {s s' : St} {t : State} {jump : Bool} (S : Setup A (fun _ _ _ _ => True) C V sp gp fofs) (K : BlockOk V B use live body phis st)
    (E : Entry C V sp gp fofs live st s t) (hi : body ++ phis ++ last = xs ++ c :: ys)
    (hlast : ∀ i ∈ last, i.op ≠ .call ∧ i.op ≠ .allocat) (ho : c.op = .call) (hr : SrcBlock.Run C xs s s') (ht : T c.str s'.args s'.mem)
    (he : allocBlock V B jump (body ++ phis ++ last) st = some st') (hto : ∀ v, st'.offset v ≠ 0 → st'.offset v = fofs v) (more : List Ph2Ir) :
    WpS A C V sp gp fofs T (st'.out ++ more) t := by
  -- the call is in the body
  have hin : ∀ i ∈ phis ++ last, i.op ≠ .call := by
    intro i hi
    rcases List.mem_append.1 hi with h | h
    · have := phis_inner phis K.phi i h
      intro e
      obtain ⟨x, y, e'⟩ := List.append_of_mem h
      have : i.op = .unwound_phi := by
        have key : ∀ (l : List Insn) (D : Nat → Prop) (idx : Nat) (T : Nat → Prop), Phis V B use D T idx l → ∀ i ∈ l, i.op = .unwound_phi := by
          intro l D
          induction l with
          | nil => intro _ _ _ i hi; cases hi
          | cons j l ih =>
            intro idx T hP i hi
            obtain ⟨⟨_, _, h1, _⟩, h2⟩ := hP
            rcases List.mem_cons.1 hi with rfl | h
            · exact h1
            · exact ih _ _ h2 i h
        exact key phis _ _ _ K.phi i h
      rw [e] at this; cases this
    · exact (hlast i h).1
  obtain ⟨ys', hbody, hys⟩ : ∃ ys', body = xs ++ c :: ys' ∧ ys = ys' ++ (phis ++ last) := by
    rw [List.append_assoc] at hi
    rcases List.append_eq_append_iff.1 hi with ⟨a', h1, h2⟩ | ⟨c', h1, h2⟩
    · exact absurd ho (hin c (by rw [h2]; simp))
    · cases c' with
      | nil => exact absurd ho (hin c (by rw [List.nil_append] at h2; rw [← h2]; simp))
      | cons d c' =>
        simp only [List.cons_append, List.cons.injEq] at h2
        exact ⟨c', by rw [h1, h2.1], h2.2⟩
  obtain ⟨pre, ps, rfl, hg, hcs⟩ := grouped_split K.grouped hbody ho
  rw [allocBlock_start V B jump _ K.start] at he
  split at he
  · cases he
  rename_i st4 h4
  cases he
  -- the parts of the block
  have eb : body = pre ++ ((ps ++ [c]) ++ ys') := by rw [hbody]; simp
  have hU := K.uses
  have hF := K.fine
  rw [eb] at hU hF
  obtain ⟨hU1, hU2⟩ := (uses_append V B use pre _ _ _).1 hU
  obtain ⟨hU2, _⟩ := (uses_append V B use (ps ++ [c]) ys' _ _).1 hU2
  obtain ⟨hF1, hF2⟩ := noClash_append V B pre _ _ _ hF
  rw [List.append_assoc, eb, List.append_assoc, allocInsns_append] at h4
  split at h4
  · cases h4
  rename_i st1 h1
  rw [List.append_assoc, allocInsns_append] at h4
  split at h4
  · cases h4
  rename_i st2 h2
  obtain ⟨hF3, hF4⟩ := noClash_append V B (ps ++ [c]) ys' _ _ (hF2 st1 h1)
  rw [allocInsns_append] at h4
  split at h4
  · cases h4
  rename_i st3 h3
  have m3 : Mono st2 st3 := allocInsns_mono ys' (hF4 st2 h2) h3
  have m4 : Mono st3 st4 := by
    refine mono_plain (phis ++ last) ?_ h4
    intro i hi
    rcases List.mem_append.1 hi with h | h
    · have := phis_inner phis K.phi i h
      intro e
      rw [e] at this
      have key : ∀ (l : List Insn) (D : Nat → Prop) (idx : Nat) (T : Nat → Prop), Phis V B use D T idx l → ∀ i ∈ l, i.op = .unwound_phi := by
        intro l D
        induction l with
        | nil => intro _ _ _ i hi; cases hi
        | cons j l ih =>
          intro idx T hP i hi
          obtain ⟨⟨_, _, h1, _⟩, h2⟩ := hP
          rcases List.mem_cons.1 hi with rfl | h
          · exact h1
          · exact ih _ _ h2 i h
      rw [key phis _ _ _ K.phi i h] at e; cases e
    · exact (hlast i h).2
  have m5 : Mono st2 (allocEnd V B jump st4) := (m3.trans m4).trans (allocEnd_mono V B jump st4)
  have to2 : To fofs st2 := m5.to hto
  have m2 : Mono st1 st2 := allocInsns_mono (ps ++ [c]) hF3 h2
  obtain ⟨sm, r1, r2⟩ := run_append hr
  have I := E.inv S.isGlobal K.regs K.start.1 K.start.2.1 K.used
  obtain ⟨more1, e1⟩ := grows_insns ys' h3
  obtain ⟨more2, e2⟩ := grows_insns (phis ++ last) h4
  obtain ⟨more3, e3⟩ := allocEnd_out V B jump st4
  have hout : (allocEnd V B jump st4).out ++ more = st2.out ++ (more1 ++ (more2 ++ (more3 ++ more))) := by
    rw [e3, e2, e1]; simp
  rw [hout]
  generalize more1 ++ (more2 ++ (more3 ++ more)) = rest
  obtain ⟨c1, t1, g1, g2, I1⟩ := body_sim (setup_worstS (T := T) S (st2.out ++ rest)) hg I hU1 hF1 r1 h1 (m2.to to2)
  have hrc : SrcBlock.Run (only C T) (ps ++ [c]) sm { s' with mem := s'.mem, args := [], ret := none } := by
    refine run_snoc ps (run_push (C := C) (C' := only C T) rfl rfl ps hcs.push r2) ?_
    exact .call ho ⟨ht, rfl, rfl⟩
  obtain ⟨c2, t2, k1, k2, _⟩ := call_sim (setup_only (T := T) S) (D := fun v => (V.isGlobal v = true ∨ live v) ∨ ∃ i ∈ pre, result V i = some v) (use := use) (B := B) (C := only C T) (st := st1) (s := sm) (t := t1) (idx := 0 + pre.length)
    ⟨⟨I1.rel.sp, I1.rel.gp, I1.rel.mem, I1.rel.gofs, I1.rel.reg, I1.rel.clean, I1.rel.away, I1.rel.gclean, I1.rel.stk⟩, I1.inj, I1.pk, I1.pushing, I1.args, I1.sargs, I1.use_le, I1.glob⟩ hcs hU2 hF3 h2 hrc to2
  have hem := call_emitted ho h2 k1
  have hw := wps_of_here (V := V) (fofs := fofs) k2 (tail := rest) hem
  rw [K.start.2.2, List.nil_append] at g1
  rw [K.start.2.2] at g2
  rw [k1, g1, List.append_assoc]
  exact wps_of_run g2 (by rw [k1, g1]; simp) hw

end
end RaFn
