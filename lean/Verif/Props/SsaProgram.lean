import Verif.Lemmas.SsaProgram

/-!
# C83: programs of several functions, with recursion and system calls
-/

namespace Shecc.Props
open Shecc Shecc.Ssa Shecc.RegAlloc IrM SrcBlock RaFn RaLink SsaProg

/-- A call does not change what is hidden. -/
theorem call_keeps {Pr : SrcProg} {n : Nat} {hid : Word → Prop} {sp : Word} {g : String} {args : List Word} {m m' : Mem} {r : Option Word}
    (h : Call Pr n hid sp g args m m' r) : ∀ a, hid a → m' a = m a := by
  cases n with
  | zero => exact h.elim
  | succ n => exact h.1

/-- The functions that can be called have an address. -/
theorem call_addr {A : Abi} {P : Program} {sys gp : Word} {gofs : Nat → Nat} {Pr : SrcProg} (L : Linked A P sys gp gofs Pr)
    {n : Nat} {hid : Word → Prop} {sp : Word} {g : String} {args : List Word} {m m' : Mem} {r : Option Word}
    (h : Call Pr n hid sp g args m m' r) : ∃ a, A.funcAddr g = some a := by
  cases n with
  | zero => exact h.elim
  | succ n =>
    obtain ⟨_, h⟩ := h
    by_cases hg : g = "__syscall"
    · subst hg; exact ⟨sys, L.sys⟩
    · rw [if_neg hg] at h
      obtain ⟨f, hf, _⟩ := h
      obtain ⟨_, _, _, _, _, _, _, _, a, _, _, _, ha, _⟩ := L.fn g f hf hg
      exact ⟨a, ha⟩

/-- A call has no more arguments than that. -/
theorem call_arity {Pr : SrcProg} {n : Nat} {hid : Word → Prop} {sp : Word} {g : String} {args : List Word} {m m' : Mem} {r : Option Word}
    (h : Call Pr n hid sp g args m m' r) : args.length ≤ arity Pr g := by
  cases n with
  | zero => exact h.elim
  | succ n =>
    obtain ⟨_, h⟩ := h
    unfold arity
    by_cases hg : g = "__syscall"
    · rw [if_pos hg] at h ⊢
      obtain ⟨_, rest, rfl, h, _⟩ := h
      simp only [List.length_cons]
      omega
    · rw [if_neg hg] at h ⊢
      obtain ⟨f, hf, hl, _⟩ := h
      rw [hf, hl]
      exact Nat.le_refl _

/-- The claim for calls of depth `n`. -/
def CallOk (A : Abi) (P : Program) (sys gp : Word) (Pr : SrcProg) (n : Nat) : Prop :=
  ∀ {hid sp g args m m' r}, Call Pr n hid sp g args m m' r → StackAt Pr hid sp → ∀ {a t ra}, A.funcAddr g = some a →
    ra.toNat % 4 = 0 → Called Pr hid sp gp a ra args m t → ∃ u, XRun A P Pr.os sys t u ∧ Back Pr hid sp gp ra m' r t u

/-- The surroundings of a function's code. -/
theorem setup_of {A : Abi} {P : Program} {sys gp : Word} {gofs : Nat → Nat} {Pr : SrcProg} (L : Linked A P sys gp gofs Pr) {n : Nat}
    {f : SrcFn} (H : Frame f) (hgl : f.vars.isGlobal = Pr.isGlobal)
    (hofs : ∀ v, f.vars.isGlobal v = true → f.ofs v = gofs v) {hid : Word → Prop} {sp : Word}
    (S : StackAt Pr hid sp) (hr : Pr.lo + f.size + 12 ≤ sp.toNat) :
    Setup A (fun _ _ _ _ => True)
      (rehide (ctx Pr f (inside f sp) (hiddenIn f (inside f sp) hid) (Call Pr n (hiddenIn f (inside f sp) hid) (inside f sp)))
        (ownHidden Pr f (inside f sp))) f.vars (inside f sp) gp f.ofs := by
  have hi := inside_toNat (f := f) (sp := sp) (by omega)
  have hlt := sp.isLt
  have S' := stack_in H hr S
  refine
    { isGlobal := hgl.symm
      initVal := rfl
      basic := rfl
      byteVal := L.byteVal
      dataAddr := L.dataAddr
      slotHidden := fun v hg hv k hk => Or.inr ⟨v, k, hg, hv, hk, rfl⟩
      slotFits := ?_
      slotDiff := ?_
      globalAt := ?_
      globalVis := ?_
      globalDiff := ?_
      objAt := fun v _ => rfl
      divOk := ?_
      divMem := ?_
      call := ?_ }
  · intro v hg hv
    have := H.word v hg hv
    omega
  · intro u v huv hu hv hu' hv' e
    have := H.words u v huv hu hv hu' hv'
    omega
  · intro v hv
    rw [hofs v hv]
    exact L.gaddr v (by rw [← hgl]; exact hv)
  · intro v hv k hk h
    exact S.globals v (by rw [← hgl]; exact hv) k hk (own_sub H hr S h).1
  · intro u v huv hu hv
    exact L.gdiff u v huv (by rw [← hgl]; exact hu) (by rw [← hgl]; exact hv)
  · intro o t k l ht hkl
    exact L.abi.divOk o t k l (by rw [ht]; exact S'.aligned) hkl
  · intro t k l a ht hne
    obtain ⟨h1, h2⟩ := L.abi.divMem t k l a (by rw [ht]; omega) hne
    rw [ht] at h1 h2
    refine ⟨Or.inl ⟨by omega, h2⟩, ?_⟩
    intro v hg hv j hj e
    have hw := H.word v hg hv
    have := slotByte_toNat (sp := inside f sp) (o := f.ofs v) (k := j) (by omega)
    rw [← e] at this
    omega
  · intro i g t args m m' r hsp hgp hm hl ha hc
    classical
    refine ⟨{ t with reg := fun k => if k = 0 then r.getD 0 else t.reg k
                     mem := fun b => if ownHidden Pr f (inside f sp) b then t.mem b else m' b }, trivial, hsp, hgp, ?_, ?_, ?_⟩
    · rintro x rfl; simp
    · intro b hb
      exact if_neg hb
    · intro v hg hv
      unfold slot
      refine load32_congr (fun k hk => ?_)
      show (if ownHidden Pr f (inside f sp) _ then t.mem _ else m' _) = t.mem _
      rw [hsp]
      exact if_pos (Or.inr ⟨v, k, hg, hv, hk, rfl⟩)

/-- The calls a function makes. -/
theorem calls_of {A : Abi} {P : Program} {sys gp : Word} {gofs : Nat → Nat} {Pr : SrcProg} (L : Linked A P sys gp gofs Pr) {n : Nat}
    (ih : CallOk A P sys gp Pr n) {f : SrcFn} (H : Frame f) {hid : Word → Prop} {sp : Word}
    (S : StackAt Pr hid sp) (hr : Pr.lo + f.size + 12 ≤ sp.toNat) :
    CallsDo A P Pr.os sys
      (rehide (ctx Pr f (inside f sp) (hiddenIn f (inside f sp) hid) (Call Pr n (hiddenIn f (inside f sp) hid) (inside f sp)))
        (ownHidden Pr f (inside f sp))) f.vars (inside f sp) gp f.ofs := by
  have hi := inside_toNat (f := f) (sp := sp) (by omega)
  have hlt := sp.isLt
  have S' := stack_in H hr S
  intro ir nxt t args m m' r hp hop hpre hc
  obtain ⟨hsp, hgp, hm, hl, ha⟩ := hpre
  have hc' : Call Pr n (hiddenIn f (inside f sp) hid) (inside f sp) ir.func_name args m m' r := hc
  have hm' : ∀ a, ¬ ownHidden Pr f (inside f sp) a → t.mem a = m a := hm
  obtain ⟨a, hga⟩ := call_addr L hc'
  have hkeep := call_keeps hc'
  obtain ⟨u, hrun, hb⟩ := ih hc' S' (t := { t with callee := none, ra := nxt, pc := a }) hga (L.aligned _ _ _ hp)
    ⟨rfl, rfl, hsp, hgp, ha, fun b hb => hm' b (fun h => hb (own_sub H hr S h))⟩
  refine ⟨u, run_trans (run_one hp (.call hop hga)) hrun, hb.pc, hb.sp, hb.gp, hb.result, ?_, ?_⟩
  · intro b hb'
    by_cases hh : hiddenIn f (inside f sp) hid b
    · rw [hb.hidden b hh (fun h => hb' (Or.inl h)), hkeep b hh]
      exact hm' b hb'
    · exact hb.mem b hh
  · intro v hg hv
    unfold slot
    rw [hb.sp, hsp]
    refine load32_congr (fun k hk => ?_)
    have hw := H.word v hg hv
    have e := slotByte_toNat (sp := inside f sp) (o := f.ofs v) (k := k) (by omega)
    exact hb.hidden _ (own_sub H hr S (Or.inr ⟨v, k, hg, hv, hk, rfl⟩)) (fun h => by
      have h2 := h.2
      unfold slotByte at e
      omega)

/-- System calls. -/
theorem sys_ok {A : Abi} {P : Program} {sys gp : Word} {Pr : SrcProg} {hid : Word → Prop} {sp : Word} {args : List Word} {m m' : Mem}
    {r : Option Word} (h : SysCall Pr hid args m m' r) {ra : Word} {t : State} (hal : ra.toNat % 4 = 0)
    (ht : Called Pr hid sp gp sys ra args m t) : ∃ u, XRun A P Pr.os sys t u ∧ Back Pr hid sp gp ra m' r t u := by
  obtain ⟨n, rest, rfl, hl, h⟩ := h
  obtain ⟨x, μ', h1, h2, h3, h4⟩ := h t.mem (fun i => t.reg (BitVec.ofNat 3 (i.val + 1))) ht.mem (by
    intro i hi
    have := ht.args (i.val + 1) (by simp; omega)
    simpa [r3] using this)
  have h0 : t.reg 0 = n := ht.args 0 (by simp)
  refine ⟨_, .sys (.refl t) ⟨ht.pc, by rw [ht.ra]; exact hal, x, μ', by rw [h0]; exact h1, rfl⟩, ?_⟩
  exact
    { pc := ht.ra
      sp := ht.sp
      gp := ht.gp
      result := by intro y hy; rw [h2] at hy; cases hy; rfl
      mem := h3
      hidden := fun a ha _ => h4 a ha }

theorem fin_globals {gofs : Nat → Nat} {f : SrcFn} {exitPrev : List Nat} {use : Nat → Int}
    {live : Nat → Nat → Prop} {st0 fin : RA} {codes : List (Nat × List Ph2Ir)}
    (H : Allocated gofs f exitPrev use live st0 fin codes) : ∀ v, f.vars.isGlobal v = true → f.ofs v = gofs v := by
  intro v hv
  rw [← H.ofs, ← (H.globals v hv).1]
  have mfin := (blocks_static H.ok (f.entry :: f.rest) (pre := []) (post := []) (by simp)
    (fn_begin H.consumed H.locals H.ok.param.2.1) H.alloc).2
  have e1 := (fnStart_same f.params st0).1
  have h0 : (fnStart f.params false st0).offset v ≠ 0 := by rw [e1, (H.globals v hv).1]; exact (H.globals v hv).2
  rw [mfin v h0, e1]

/-- Calls of depth `n + 1`, given calls of depth `n`. -/
theorem call_step {A : Abi} {P : Program} {sys gp : Word} {gofs : Nat → Nat} {Pr : SrcProg} (L : Linked A P sys gp gofs Pr) {n : Nat}
    (ih : CallOk A P sys gp Pr n) : CallOk A P sys gp Pr (n + 1) := by
  intro hid sp g args m m' r hc S a t ra hga hal ht
  obtain ⟨hkeep, hc⟩ := hc
  by_cases hg : g = "__syscall"
  · rw [if_pos hg] at hc
    subst hg
    rw [L.sys] at hga
    cases hga
    exact sys_ok hc hal ht
  · rw [if_neg hg] at hc
    obtain ⟨f, hf, hlen, hr, hex⟩ := hc
    obtain ⟨hgl, exitPrev, use, live, st0, fin, codes, codes', a', start, H, htidy, ha', hdef, hlaid⟩ := L.fn g f hf hg
    rw [hga] at ha'
    cases ha'
    have hF := H.frame
    have hofs := fin_globals H
    have hi := inside_toNat (f := f) (sp := sp) (by omega)
    have hlt := sp.isLt
    -- the frame is allocated
    have hra : A.raSlot (num f.size) = 0 ∨ A.raSlot (num f.size) = num f.size :=
      L.abi.raSlot.imp (fun h => h _) (fun h => h _)
    let μ : Mem := store32 t.mem (inside f sp + A.raSlot (num f.size)) ra
    have hμ : ∀ b, (¬ (Pr.lo ≤ b.toNat ∧ b.toNat < sp.toNat)) → μ b = t.mem b := by
      intro b hb
      refine store32_ne _ _ (fun k hk e => hb ?_)
      have := ra_byte hF hr S hra hk
      rw [e]
      exact ⟨this.1, this.2.1⟩
    have hagree : Agree hid m μ := by
      intro b hb
      rw [hμ b (fun h => hb (S.below b h.1 h.2))]
      exact ht.mem b hb
    obtain ⟨s, μ', hs, hsa, hsp, hx, hm'⟩ := hex μ hagree
    let t1 : State := { t with
      callee := none
      ra := ra
      sp := inside f sp
      mem := μ
      pc := start }
    have hstep : IrM.Step A { op := .define, src0 := num f.size } start t t1 := by
      have := IrM.Step.define (A := A) (ir := { op := .define, src0 := num f.size }) (nxt := start) (s := t) rfl
      rw [ht.sp, ht.ra] at this
      exact this
    have hrun1 : XRun A P Pr.os sys t t1 := run_one (by rw [ht.pc]; exact hdef) hstep
    -- the body
    have hx2 := exec_mono (h := ownHidden Pr f (inside f sp)) (fun b hb => own_sub hF hr S hb) hx
    obtain ⟨t2, hrun2, hret⟩ := C82_function_partial (t := t1) L.abi.divLocal
      (by rw [H.ofs]; exact setup_of L hF hgl hofs S hr) (by rw [H.ofs]; exact calls_of L ih hF S hr)
      (fun _ _ _ _ _ h => call_arity h) H.ok H.stack4 H.consumed H.locals
      (fun v hv => by rw [(H.globals v hv).1]; exact (H.globals v hv).2) H.alloc htidy hlaid hx2
      ⟨rfl, ht.gp, fun b _ => by rw [hs], hsa, by
        intro k p hp
        have hk := (List.getElem?_eq_some_iff.1 hp).1
        rw [ht.args k (by omega), ← hsp]
        simp [hp]⟩ rfl
    -- the return
    have hkeeps : ∀ b, hiddenIn f (inside f sp) hid b → μ' b = μ b := by
      intro b hb
      rw [← hs]
      exact exec_keeps (C := ctx Pr f (inside f sp) (hiddenIn f (inside f sp) hid)
        (Call Pr n (hiddenIn f (inside f sp) hid) (inside f sp)))
        ⟨fun v hv k hk h => S.globals v hv k hk h.1, fun _ _ _ _ _ h => call_keeps h⟩ hx hb
    have hload : load32 t2.mem (inside f sp + A.raSlot (num f.size)) = ra := by
      rw [← load32_same t.mem (inside f sp + A.raSlot (num f.size)) ra]
      refine load32_congr (fun k hk => ?_)
      obtain ⟨_, _, h3, h4⟩ := ra_byte hF hr S hra hk
      rw [hret.mem _ h4]
      exact hkeeps _ h3
    obtain ⟨ir, nxt, hp, hop, hs1, hv⟩ := hret.ret
    have hval : ∃ v, ((ir.src0 = -1#32 ∧ v = t2.reg 0) ∨ ∃ k, isReg ir.src0 k ∧ v = t2.reg k) ∧ ∀ x, r = some x → v = x := by
      cases r with
      | none => exact ⟨_, Or.inl ⟨hv, rfl⟩, fun x h => by cases h⟩
      | some x =>
        obtain ⟨k, h1, h2⟩ := hv
        exact ⟨_, Or.inr ⟨k, h1, rfl⟩, fun y h => by cases h; exact h2⟩
    obtain ⟨v, hv1, hv2⟩ := hval
    refine ⟨_, run_trans hrun1 (run_trans hrun2 (run_one hp (.ret hop hv1 (t := ra)
      (by rw [hs1, hret.sp]; exact hload.symm) hal))), ?_⟩
    refine
      { pc := rfl
        sp := ?_
        gp := hret.gp
        result := ?_
        mem := ?_
        hidden := ?_ }
    · intro b hb hb'
      have hno : ¬ Object f (inside f sp) b := by
        intro ho
        obtain ⟨v, k, _, _, _, e, _⟩ := object_toNat hF hr ho
        omega
      have : ¬ ownHidden Pr f (inside f sp) b := by
        rintro (⟨h1, h2⟩ | ⟨v, k, hg, hv, hk, e⟩)
        · omega
        · have hw := hF.word v hg hv
          have e' := slotByte_toNat (sp := inside f sp) (o := f.ofs v) (k := k) (by omega)
          rw [← e] at e'
          omega
      show t2.mem b = t.mem b
      rw [hret.mem b this, hkeeps b ⟨hb, hno⟩]
      exact hμ b hb'
    · show t2.sp + (ir.src1 + 4) = sp
      rw [hret.sp, hs1]
      exact BitVec.sub_add_cancel _ _
    · intro x hx
      exact hv2 x hx
    · intro b hb
      have : ¬ ownHidden Pr f (inside f sp) b := fun h => hb (own_sub hF hr S h).1
      show t2.mem b = m' b
      rw [hret.mem b this]
      exact hm' b hb

/-- **C83.** For every program whose functions were allocated and placed, every function, all arguments and every depth of calls: if
the call returns `r` and leaves memory `m'` according to the source, then the machine, at the first instruction of the
function with the arguments in registers, gets back to the return address with `r` in register 0, the stack pointer where it was, and memory `m'`
as far as it is visible. -/
theorem C83_program_partial {A : Abi} {P : Program} {sys gp : Word} {gofs : Nat → Nat} {Pr : SrcProg} (L : Linked A P sys gp gofs Pr)
    {n : Nat} {hid : Word → Prop} {sp : Word} {g : String} {args : List Word} {m m' : Mem} {r : Option Word}
    (hc : Call Pr n hid sp g args m m' r) (S : StackAt Pr hid sp) {a ra : Word} {t : State} (ha : A.funcAddr g = some a)
    (hal : ra.toNat % 4 = 0) (ht : Called Pr hid sp gp a ra args m t) :
    ∃ u, XRun A P Pr.os sys t u ∧ Back Pr hid sp gp ra m' r t u := by
  have : ∀ n, CallOk A P sys gp Pr n := by
    intro n
    induction n with
    | zero => intro hid sp g args m m' r h; exact h.elim
    | succ n ih => exact call_step L ih
  exact this n hc S ha hal ht

end Shecc.Props
