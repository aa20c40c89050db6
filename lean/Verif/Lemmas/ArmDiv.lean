import Verif.Lemmas.ArmDiv0

namespace ARM
open Shecc Shecc.Arm DivMath

variable {c : Code} {base : Word} {m : Bool} {d a b : BitVec 3}

theorem Frame.flags (a b : BitVec 3) (base : Word) (k : Nat) (u : State) (f : Flags) :
    Frame a b u (goto base k { u with flags := f }) := ⟨fun _ _ _ _ _ => rfl, rfl⟩

/-- The quotient or remainder delivered. -/
def divRes (m : Bool) (x y : Word) : Word := BitVec.ofInt 32 (if m then x.toInt.tmod y.toInt else x.toInt.tdiv y.toInt)

/-- the tail of the sequence: restore, move, negate -/
theorem ev_divTail (h : InstrAt c base (divI m d a b)) (s u : State) (hsp : (s.regs 13#4).toNat % 4 = 0)
    (u13 : u.regs 13#4 = s.regs 13#4 - spillSize a b)
    (um : u.mem = spill s.mem (s.regs 13#4) a b (s.regs (irReg a)) (s.regs (irReg b)))
    (uq : ∀ q, q ≠ irReg a → q ≠ irReg b → q ≠ 8#4 → q ≠ 9#4 → q ≠ 10#4 → q ≠ 13#4 → u.regs q = s.regs q) (v : Word)
    (hv : (if u.regs 10#4 = 0#32 then u.regs (if m then irReg a else 8#4)
      else 0#32 - u.regs (if m then irReg a else 8#4)) = v) :
    Ev c (goto base 24 u) fun t => t.pc = atk base 29 ∧ t.regs (irReg d) = v ∧
      (∀ q, q ≠ irReg d → q ≠ 8#4 → q ≠ 9#4 → q ≠ 10#4 → t.regs q = s.regs q) ∧
      t.mem = spill s.mem (s.regs 13#4) a b (s.regs (irReg a)) (s.regs (irReg b)) := by
  obtain ⟨fa8, fa9, fa10, _, fa13, _, fa15⟩ := irReg_facts a
  obtain ⟨fb8, fb9, fb10, _, fb13, _, fb15⟩ := irReg_facts b
  obtain ⟨fd8, fd9, fd10, _, fd13, _, fd15⟩ := irReg_facts d
  refine Ev.act h 24 rfl ⟨by decide, by decide, fa15⟩ ?_
  rw [sv_mov]
  refine Ev.ldm h 25 rfl s.mem (s.regs 13#4) (s.regs (irReg a)) (s.regs (irReg b)) hsp (by simpa [set_regs] using u13)
    (by simpa using um) (by rintro rfl; rfl) ?_
  refine Ev.act h 26 rfl ⟨fd15, by decide, by cases m <;> decide⟩ ?_
  rw [sv_mov]
  refine Ev.act h 27 rfl ⟨by decide, by decide, trivial⟩ ?_
  rw [sv_cmpi, immVal_0]
  have hval : ∀ w : State, w.regs = u.regs → True := fun _ _ => trivial
  have qs : ∀ q, q ≠ irReg d → q ≠ 8#4 → q ≠ 9#4 → q ≠ 10#4 →
      (if q = 13#4 then s.regs 13#4 else if q = irReg a then s.regs (irReg a) else if q = irReg b then
        s.regs (irReg b) else if q = 9#4 then u.regs (irReg a) else u.regs q) = s.regs q := by
    intro q q1 q2 q3 q4
    by_cases h1 : q = 13#4
    · simp [h1]
    by_cases h2 : q = irReg a
    · simp [h2, fa13]
    by_cases h3 : q = irReg b
    · rw [if_neg h1, if_neg h2, if_pos h3, h3]
    · rw [if_neg h1, if_neg h2, if_neg h3, if_neg q3]; exact uq q h2 h3 q2 q3 q4 h1
  refine Ev.actc h 28 rfl ⟨fd15, fd15, trivial⟩ (fun hc => ?_) (fun hc => ?_)
  · rw [sv_rsbi]
    simp only [set_regs] at hc
    rw [cond_ne] at hc
    simp [Ne.symm fa10, Ne.symm fb10, Ne.symm fd10] at hc
    refine Ev.now ⟨rfl, ?_, ?_, ?_⟩
    · rw [← hv, if_neg hc]
      cases m <;> simp [set_regs, Ne.symm fa8, Ne.symm fb8, Ne.symm fa9, Ne.symm fb9]
    · intro q q1 q2 q3 q4
      rw [← qs q q1 q2 q3 q4]
      simp [set_regs, q1]
    · simpa using um
  · simp only [set_regs] at hc
    rw [cond_ne] at hc
    simp [Ne.symm fa10, Ne.symm fb10, Ne.symm fd10] at hc
    refine Ev.now ⟨rfl, ?_, ?_, ?_⟩
    · rw [← hv, if_pos hc]
      cases m <;> simp [set_regs, Ne.symm fa8, Ne.symm fb8, Ne.symm fa9, Ne.symm fb9]
    · intro q q1 q2 q3 q4
      rw [← qs q q1 q2 q3 q4]
      simp [set_regs, q1]
    · simpa using um

theorem ev_divCore (hab : a ≠ b) (h : InstrAt c base (divI m d a b)) (u : State) (X Y : Word)
    (ua : u.regs (irReg a) = absw X) (ub : u.regs (irReg b) = absw Y) (u8 : (u.regs 8#4).toNat = 0)
    (u9 : (u.regs 9#4).toNat = 1) :
    Ev c (goto base 10 u) fun t => t.pc = atk base 24 ∧
      (t.regs 8#4).toNat = (absw X).toNat / (absw Y).toNat ∧
      (t.regs (irReg a)).toNat = (absw X).toNat % (absw Y).toNat ∧ Frame a b u t := by
  obtain ⟨fa8, fa9, fa10, _, fa13, _, fa15⟩ := irReg_facts a
  obtain ⟨fb8, fb9, fb10, _, fb13, _, fb15⟩ := irReg_facts b
  refine Ev.act h 10 rfl ⟨by decide, fb15, trivial⟩ ?_
  rw [sv_cmpi, immVal_0]
  refine Ev.bc h 11 24 rfl (by decide) (fun hc => ?_) (fun hc => ?_)
  · rw [cond_eq, ub] at hc
    simp at hc
    refine Ev.now ⟨rfl, ?_, ?_, Frame.flags ..⟩
    · simp [u8, hc]
    · simp [ua, hc]
  rw [cond_eq, ub] at hc
  simp at hc
  refine Ev.act h 12 rfl ⟨by decide, fa15, trivial⟩ ?_
  rw [sv_cmpi, immVal_0]
  refine Ev.bc h 13 24 rfl (by decide) (fun hc => ?_) (fun _ => ?_)
  · rw [cond_eq, ua] at hc
    simp at hc
    refine Ev.now ⟨rfl, ?_, ?_, Frame.flags ..⟩
    · simp [u8, hc]
    · simp [ua, hc]
  have hpos : 0 < (absw Y).toNat := by
    rcases Nat.eq_zero_or_pos (absw Y).toNat with h0 | h0
    · exact absurd (BitVec.eq_of_toNat_eq (by rw [h0]; rfl)) hc
    · exact h0
  have u9' : (u.regs 9#4).toNat = 2 ^ 0 := by rw [u9]
  have ub' : (u.regs (irReg b)).toNat = (absw Y).toNat * 2 ^ 0 := by rw [ub, Nat.pow_zero, Nat.mul_one]
  have ua' : (u.regs (irReg a)).toNat = (absw X).toNat := by rw [ua]
  have L : ∀ fl : Flags, Ev c (goto base 14 { u with flags := fl }) fun t => t.pc = atk base 24 ∧
      (t.regs 8#4).toNat = (absw X).toNat / (absw Y).toNat ∧
      (t.regs (irReg a)).toNat = (absw X).toNat % (absw Y).toNat ∧ Frame a b u t := by
    intro fl
    have hAle : (absw X).toNat ≤ 2 ^ 31 := absw_le _
    generalize (absw X).toNat = A at *
    generalize (absw Y).toNat = B at *
    have f0 : Frame a b u { u with flags := fl } := ⟨fun _ _ _ _ _ => rfl, rfl⟩
    generalize hw : ({ u with flags := fl } : State) = w at *
    have wr : w.regs = u.regs := by rw [← hw]
    rw [← wr] at u9' ub' ua' u8
    refine Ev.bind (ev_divLoop1 hab h A B hAle hpos _ 0 w rfl u9' ub' ua' u8) ?_
    rintro t ⟨p1, p2, p3, p4⟩
    exact Ev.now ⟨p1, p2, p3, f0.trans p4⟩
  exact L _

theorem ev_div (hab : a ≠ b) (h : InstrAt c base (divI m d a b)) (s : State) (hsp : (s.regs 13#4).toNat % 4 = 0) :
    Ev c (goto base 0 s) fun t => t.pc = atk base 29 ∧
      t.regs (irReg d) = divRes m (s.regs (irReg a)) (s.regs (irReg b)) ∧
      (∀ q, q ≠ irReg d → q ≠ 8#4 → q ≠ 9#4 → q ≠ 10#4 → t.regs q = s.regs q) ∧
      t.mem = spill s.mem (s.regs 13#4) a b (s.regs (irReg a)) (s.regs (irReg b)) := by
  obtain ⟨fa8, fa9, fa10, _, fa13, _, fa15⟩ := irReg_facts a
  obtain ⟨fb8, fb9, fb10, _, fb13, _, fb15⟩ := irReg_facts b
  have hab' : irReg a ≠ irReg b := by rw [Ne, irReg_inj]; exact hab
  refine Ev.stm h 0 rfl hsp ?_
  refine Ev.act h 1 rfl ⟨by decide, by decide, fa15⟩ ?_
  rw [sv_asr31]
  refine Ev.act h 2 rfl ⟨fa15, fa15, by decide⟩ ?_
  rw [sv_add]
  refine Ev.act h 3 rfl ⟨fa15, fa15, by decide⟩ ?_
  rw [sv_eor]
  refine Ev.act h 4 rfl ⟨by decide, by decide, fb15⟩ ?_
  rw [sv_asr31]
  refine Ev.act h 5 rfl ⟨fb15, fb15, by decide⟩ ?_
  rw [sv_add]
  refine Ev.act h 6 rfl ⟨fb15, fb15, by decide⟩ ?_
  rw [sv_eor]
  refine Ev.act h 7 (a := if m then .dp .mov false 10#4 0#4 (.shImm 8#4 0#2 0#5)
      else .dp .eor false 10#4 8#4 (.shImm 9#4 0#2 0#5)) (by cases m <;> rfl)
    (by cases m <;> exact ⟨by decide, by decide, by decide⟩) ?_
  refine Ev.act h 8 rfl ⟨by decide, by decide, trivial⟩ ?_
  rw [sv_movi, immVal_0]
  refine Ev.act h 9 rfl ⟨by decide, by decide, trivial⟩ ?_
  rw [sv_movi, immVal_1]
  generalize hu : State.set _ 9#4 1#32 = u
  have ua : u.regs (irReg a) = absw (s.regs (irReg a)) := by
    rw [← hu]; cases m <;> simp [set_regs, fa8, fa9, fa10, fa13, hab', absw, mask, Ne.symm fa8]
  have ub : u.regs (irReg b) = absw (s.regs (irReg b)) := by
    rw [← hu]; cases m <;> simp [set_regs, fb8, fb9, fb10, fb13, Ne.symm hab', absw, mask, Ne.symm fb9]
  have u8 : (u.regs 8#4).toNat = 0 := by rw [← hu, set_regs, if_neg (by decide), set_regs, if_pos rfl]; rfl
  have u9 : (u.regs 9#4).toNat = 1 := by rw [← hu, set_regs, if_pos rfl]; rfl
  have u10 : u.regs 10#4 = if m then mask (s.regs (irReg a)) else mask (s.regs (irReg a)) ^^^ mask (s.regs (irReg b)) := by
    rw [← hu]
    cases m <;> simp [set_regs, mask, Ne.symm fa8, Ne.symm fb8, Ne.symm fb9, fa13, fb13, Ne.symm hab', fb8]
  have u13 : u.regs 13#4 = s.regs 13#4 - spillSize a b := by
    rw [← hu]; cases m <;> simp [set_regs, Ne.symm fa13, Ne.symm fb13]
  have uq : ∀ q, q ≠ irReg a → q ≠ irReg b → q ≠ 8#4 → q ≠ 9#4 → q ≠ 10#4 → q ≠ 13#4 → u.regs q = s.regs q := by
    intro q q1 q2 q3 q4 q5 q6
    rw [← hu]; cases m <;> simp [set_regs, q1, q2, q3, q4, q5, q6]
  have um : u.mem = spill s.mem (s.regs 13#4) a b (s.regs (irReg a)) (s.regs (irReg b)) := by
    rw [← hu]; cases m <;> simp
  clear hu
  refine Ev.bind (ev_divCore hab h u _ _ ua ub u8 u9) ?_
  rintro t ⟨p1, p2, p3, p4, p5⟩
  rw [← goto_of p1]
  have t10 : t.regs 10#4 = u.regs 10#4 := p4 _ (Ne.symm fa10) (Ne.symm fb10) (by decide) (by decide)
  refine ev_divTail h s t hsp ?_ (by rw [p5, um]) ?_ _ ?_
  · rw [p4 _ (Ne.symm fa13) (Ne.symm fb13) (by decide) (by decide), u13]
  · intro q q1 q2 q3 q4 q5 q6
    rw [p4 q q1 q2 q3 q4, uq q q1 q2 q3 q4 q5 q6]
  · rw [t10, u10]
    cases m
    · exact div_result _ _ _ p2
    · exact mod_result _ _ _ p3

/-- The same sequence when both operands are the same register: the second sign is taken from the absolute value
already computed, so the quotient gets the wrong sign for negative operands. -/
theorem ev_divSame (h : InstrAt c base (divI m d a a)) (s : State) (hsp : (s.regs 13#4).toNat % 4 = 0) :
    Ev c (goto base 0 s) fun t => t.pc = atk base 29 ∧
      t.regs (irReg d) = (if m then 0#32 else if absw (absw (s.regs (irReg a))) = 0#32 then 0#32 else
        if mask (s.regs (irReg a)) ^^^ mask (absw (s.regs (irReg a))) = 0#32 then 1#32 else -1#32) ∧
      (∀ q, q ≠ irReg d → q ≠ 8#4 → q ≠ 9#4 → q ≠ 10#4 → t.regs q = s.regs q) ∧
      t.mem = spill s.mem (s.regs 13#4) a a (s.regs (irReg a)) (s.regs (irReg a)) := by
  obtain ⟨fa8, fa9, fa10, _, fa13, _, fa15⟩ := irReg_facts a
  refine Ev.stm h 0 rfl hsp ?_
  refine Ev.act h 1 rfl ⟨by decide, by decide, fa15⟩ ?_
  rw [sv_asr31]
  refine Ev.act h 2 rfl ⟨fa15, fa15, by decide⟩ ?_
  rw [sv_add]
  refine Ev.act h 3 rfl ⟨fa15, fa15, by decide⟩ ?_
  rw [sv_eor]
  refine Ev.act h 4 rfl ⟨by decide, by decide, fa15⟩ ?_
  rw [sv_asr31]
  refine Ev.act h 5 rfl ⟨fa15, fa15, by decide⟩ ?_
  rw [sv_add]
  refine Ev.act h 6 rfl ⟨fa15, fa15, by decide⟩ ?_
  rw [sv_eor]
  refine Ev.act h 7 (a := if m then .dp .mov false 10#4 0#4 (.shImm 8#4 0#2 0#5)
      else .dp .eor false 10#4 8#4 (.shImm 9#4 0#2 0#5)) (by cases m <;> rfl)
    (by cases m <;> exact ⟨by decide, by decide, by decide⟩) ?_
  refine Ev.act h 8 rfl ⟨by decide, by decide, trivial⟩ ?_
  rw [sv_movi, immVal_0]
  refine Ev.act h 9 rfl ⟨by decide, by decide, trivial⟩ ?_
  rw [sv_movi, immVal_1]
  generalize hu : State.set _ 9#4 1#32 = u
  have ua : u.regs (irReg a) = absw (absw (s.regs (irReg a))) := by
    rw [← hu]; cases m <;> simp [set_regs, fa8, fa9, fa10, fa13, absw, mask, Ne.symm fa8, Ne.symm fa9]
  have u8 : u.regs 8#4 = 0#32 := by rw [← hu, set_regs, if_neg (by decide), set_regs, if_pos rfl]
  have u9 : u.regs 9#4 = 1#32 := by rw [← hu, set_regs, if_pos rfl]
  have u10 : u.regs 10#4 = if m then mask (s.regs (irReg a)) else
      mask (s.regs (irReg a)) ^^^ mask (absw (s.regs (irReg a))) := by
    rw [← hu]
    cases m <;> simp [set_regs, absw, mask, Ne.symm fa8, Ne.symm fa9, fa13, fa8]
  have u13 : u.regs 13#4 = s.regs 13#4 - spillSize a a := by
    rw [← hu]; cases m <;> simp [set_regs, Ne.symm fa13]
  have uq : ∀ q, q ≠ irReg a → q ≠ 8#4 → q ≠ 9#4 → q ≠ 10#4 → q ≠ 13#4 → u.regs q = s.regs q := by
    intro q q1 q3 q4 q5 q6
    rw [← hu]; cases m <;> simp [set_regs, q1, q3, q4, q5, q6]
  have um : u.mem = spill s.mem (s.regs 13#4) a a (s.regs (irReg a)) (s.regs (irReg a)) := by
    rw [← hu]; cases m <;> simp
  clear hu
  generalize absw (absw (s.regs (irReg a))) = z at *
  have core : Ev c (goto base 10 u) fun t => t.pc = atk base 24 ∧
      t.regs 8#4 = (if z = 0#32 then 0#32 else 1#32) ∧ t.regs (irReg a) = 0#32 ∧ Frame a a u t := by
    refine Ev.act h 10 rfl ⟨by decide, fa15, trivial⟩ ?_
    rw [sv_cmpi, immVal_0]
    refine Ev.bc h 11 24 rfl (by decide) (fun hc => ?_) (fun hc => ?_)
    · rw [cond_eq, ua] at hc
      simp at hc
      refine Ev.now ⟨rfl, ?_, ?_, Frame.flags ..⟩
      · simp [u8, hc]
      · simp [ua, hc]
    rw [cond_eq, ua] at hc
    simp at hc
    rw [if_neg hc]
    refine Ev.act h 12 rfl ⟨by decide, fa15, trivial⟩ ?_
    rw [sv_cmpi, immVal_0]
    refine Ev.bc h 13 24 rfl (by decide) (fun hc2 => ?_) (fun _ => ?_)
    · rw [cond_eq, ua] at hc2
      simp at hc2
      exact absurd hc2 hc
    have L : ∀ w : State, w.regs = u.regs → w.mem = u.mem → Ev c (goto base 14 w) fun t => t.pc = atk base 24 ∧
      t.regs 8#4 = 1#32 ∧ t.regs (irReg a) = 0#32 ∧ Frame a a u t := by
      intro w wr wm
      refine Ev.act h 14 rfl ⟨by decide, fa15, fa15⟩ ?_
      rw [sv_cmp]
      have hcc : condHolds 3#4 (cmpFlags (w.regs (irReg a)) (w.regs (irReg a))) = false := by
        rw [cond_cc]; simp
      have hcs : condHolds 2#4 (cmpFlags (w.regs (irReg a)) (w.regs (irReg a))) = true := by
        rw [cond_cs]; simp
      refine Ev.actc h 15 rfl ⟨fa15, by decide, fa15⟩ (fun e => ?_) (fun _ => ?_)
      · rw [hcc] at e; cases e
      refine Ev.actc h 16 rfl ⟨by decide, by decide, by decide⟩ (fun e => ?_) (fun _ => ?_)
      · rw [hcc] at e; cases e
      refine Ev.bc h 17 14 rfl (by decide) (fun e => ?_) (fun _ => ?_)
      · rw [hcc] at e; cases e
      refine Ev.act h 18 rfl ⟨by decide, fa15, fa15⟩ ?_
      rw [sv_cmp]
      refine Ev.actc h 19 rfl ⟨fa15, fa15, fa15⟩ (fun _ => ?_) (fun e => by
        rw [hcs] at e; cases e)
      rw [sv_sub]
      refine Ev.actc h 20 rfl ⟨by decide, by decide, by decide⟩ (fun _ => ?_) (fun e => by
        simp only [set_flags] at e; rw [hcs] at e; cases e)
      rw [sv_add]
      refine Ev.act h 21 rfl ⟨by decide, by decide, by decide⟩ ?_
      rw [sv_lsrs1]
      have hl : ∀ f : Flags, condHolds 3#4 (lsrFlags (1#32) f) = false := by
        intro f; rw [lsr_cc]; decide
      refine Ev.actc h 22 rfl ⟨fa15, by decide, fa15⟩ (fun e => ?_) (fun _ => ?_)
      · simp [set_regs, Ne.symm fa9, wr, u9, hl] at e
      refine Ev.bc h 23 18 rfl (by decide) (fun e => ?_) (fun _ => ?_)
      · simp [set_regs, Ne.symm fa9, wr, u9, hl] at e
      refine Ev.now ⟨rfl, ?_, ?_, ?_, ?_⟩
      · simp [set_regs, Ne.symm fa9, Ne.symm fa8, wr, u9, u8]
      · simp [set_regs, fa9, fa8]
      · intro q q1 _ q3 q4; simp [set_regs, q1, q3, q4, wr]
      · simp [wm]
    exact L _ rfl rfl
  refine Ev.bind core ?_
  rintro t ⟨p1, p2, p3, p4, p5⟩
  rw [← goto_of p1]
  have t10 : t.regs 10#4 = u.regs 10#4 := p4 _ (Ne.symm fa10) (Ne.symm fa10) (by decide) (by decide)
  refine ev_divTail h s t hsp ?_ (by rw [p5, um]) ?_ _ ?_
  · rw [p4 _ (Ne.symm fa13) (Ne.symm fa13) (by decide) (by decide), u13]
  · intro q q1 q2 q3 q4 q5 q6
    rw [p4 q q1 q2 q3 q4, uq q q1 q3 q4 q5 q6]
  · rw [t10, u10]
    cases m
    · simp only [Bool.false_eq_true, if_false, p2]
      by_cases hz : z = 0#32
      · simp [hz]
      · simp only [hz, if_false]
        split <;> rfl
    · simp [p3]

end ARM
