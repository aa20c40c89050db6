import Verif.Lemmas.ArmDiv
import Verif.Spec.ArmAbi

namespace ARM
open Shecc Shecc.Arm

theorem ir_u32 (k : BitVec 3) : (k.setWidth 32 : CInt) = u32 (irReg k) := by revert k; decide
theorem scratch_irReg (k : BitVec 3) : scratch (irReg k) = false := by revert k; decide
theorem scratch_8 : scratch 8#4 = true := rfl
theorem not_scratch {q : Reg} (h : scratch q = false) : q ≠ 8#4 ∧ q ≠ 9#4 ∧ q ≠ 10#4 := by
  revert q; decide

theorem AL_u : AL = u32 14#4 := rfl
theorem r8_u : r8 = u32 8#4 := rfl
theorem r12_u : r12 = u32 12#4 := rfl
theorem sp_u : Arm.sp = u32 13#4 := rfl
theorem lr_u : lr = u32 14#4 := rfl
theorem r0_u : r0 = u32 (irReg 0) := rfl

theorem get_ir (s : State) (k : BitVec 3) : s.get (irReg k) = s.regs (irReg k) := get_regs s (irReg_facts k).2.2.2.2.2.2
theorem get_13 (s : State) : s.get 13#4 = s.regs 13#4 := rfl
theorem get_12 (s : State) : s.get 12#4 = s.regs 12#4 := rfl
theorem get_14 (s : State) : s.get 14#4 = s.regs 14#4 := rfl
theorem get_8 (s : State) : s.get 8#4 = s.regs 8#4 := rfl

/-- From a decoding and an execution of the decoded instructions to `ComputesMem`. -/
theorem computes_of {o : Option (List CInt)} {is : List Instr} (hd : Decodes o is) {rd : Reg} (hrd : rd ≠ 15#4)
    {f : State → Option Word} {g : State → IrM.Mem}
    (H : ∀ c s v, InstrAt c s.pc is → f s = some v → Ev c (goto s.pc 0 s) fun t => t.pc = atk s.pc is.length ∧
      t.regs rd = v ∧ (∀ q, q ≠ rd → q ≠ 8#4 → q ≠ 9#4 → q ≠ 10#4 → t.regs q = s.regs q) ∧ t.mem = g s) :
    ∃ ws, o = some ws ∧ ComputesMem ws rd f g := by
  obtain ⟨ws, h1, h2⟩ := hd
  refine ⟨ws, h1, fun c s v hc hv => ?_⟩
  obtain ⟨t, r, p1, p2, p3, p4⟩ := H c s v (.of_code hc h2) hv
  rw [goto_self] at r
  have hl : ws.length = is.length := by simpa using congrArg List.length h2
  refine ⟨t, r, by rw [p1, hl]; rfl, by rw [get_regs _ hrd]; exact p2, fun q q1 q2 q3 => ?_, p4⟩
  obtain ⟨n1, n2, n3⟩ := not_scratch q3
  rw [get_regs _ q2, get_regs _ q2]
  exact p3 q q1 n1 n2 n3

/-- one unconditional instruction that sets one register -/
theorem one_set {o : Option CInt} {a : Act} {d : Reg} (hw : ∃ w, o = some w ∧ decode w = some ⟨14#4, a⟩) (hp : a.plain)
    (hd : d ≠ 15#4) {val : State → Word} (hs : ∀ s, stepv a s = s.set d (val s))
    {f : State → Option Word} (hf : ∀ s v, f s = some v → val s = v) :
    ∃ ws, emits [o] = some ws ∧ Computes ws d f := by
  refine computes_of (.cons' hw .nil) hd fun c s v h hv => ?_
  refine Ev.act h 0 rfl hp (Ev.now ⟨rfl, ?_, ?_, ?_⟩)
  · rw [hs]; simp [set_regs, hf s v hv]
  · intro q q1 _ _ _; rw [hs]; simp [set_regs, q1]
  · rw [hs]; rfl

theorem some_dec {w : CInt} {i : Instr} (h : decode w = some i) : ∃ w', some w = some w' ∧ decode w' = some i := ⟨w, rfl, h⟩

/-- `arm_get_cond` as a 4-bit condition -/
def condOf : Shecc.Op2 → BitVec 4
  | .eq => 0#4 | .neq => 1#4 | .lt => 11#4 | .geq => 10#4 | .gt => 12#4 | _ => 13#4

def cmpRes (op : Shecc.Op2) (x y : Word) : Bool :=
  match op with
  | .eq => decide (x.toInt = y.toInt) | .neq => decide (x.toInt ≠ y.toInt) | .lt => decide (x.toInt < y.toInt)
  | .geq => decide (y.toInt ≤ x.toInt) | .gt => decide (y.toInt < x.toInt) | _ => decide (x.toInt ≤ y.toInt)

theorem cond_cmp (op : Shecc.Op2) (h : op = .eq ∨ op = .neq ∨ op = .lt ∨ op = .geq ∨ op = .gt ∨ op = .leq) (x y : Word) :
    condHolds (condOf op) (cmpFlags x y) = cmpRes op x y := by
  rcases h with h | h | h | h | h | h <;> subst h <;> simp only [condOf, cmpRes]
  · rw [cond_eq]; simp [BitVec.toInt_inj]
  · rw [cond_ne]; simp [BitVec.toInt_inj]
  · exact cond_lt ..
  · exact cond_ge ..
  · exact cond_gt ..
  · exact cond_le ..

theorem ev_two_way {c : Code} {base : Word} {is : List Instr} {s : State} {P : State → Prop} (h : InstrAt c base is) (k : Nat)
    {cond : BitVec 4} {a : Act} (hk : is[k]? = some ⟨cond, a⟩) (hp : a.plain)
    (hn : Ev c (goto base (k + 1) (if condHolds cond s.flags then stepv a s else s)) P) : Ev c (goto base k s) P := by
  refine Ev.actc h k hk hp (fun e => ?_) (fun e => ?_)
  · rw [e] at hn; exact hn
  · rw [e] at hn; exact hn

theorem emit_cmp (op : Shecc.Op2) (h : op = .eq ∨ op = .neq ∨ op = .lt ∨ op = .geq ∨ op = .gt ∨ op = .leq) (d a b : BitVec 3) :
    ∃ ws, emitCmp op (u32 (irReg d)) (u32 (irReg a)) (u32 (irReg b)) = some ws ∧
      Computes ws (irReg d) (fun s => some (CArith.ofBool (cmpRes op (s.get (irReg a)) (s.get (irReg b))))) := by
  obtain ⟨_, _, _, _, _, _, hd⟩ := irReg_facts d
  obtain ⟨_, _, _, _, _, _, ha⟩ := irReg_facts a
  obtain ⟨_, _, _, _, _, _, hb⟩ := irReg_facts b
  have hc : arm_get_cond op = some (u32 (condOf op)) := by
    rcases h with h | h | h | h | h | h <;> subst h <;> rfl
  have hn : condOf op ≠ 15#4 := by
    rcases h with h | h | h | h | h | h <;> subst h <;> decide
  unfold emitCmp
  rw [hc]
  refine computes_of (.cons' (dr_cmp 14#4 (by decide) (irReg a) (irReg b)) (.cons' (dl_zero (irReg d))
    (.cons' (di_mov _ hn (irReg d) 1 (by decide)) .nil))) hd fun c s v hi hv => ?_
  refine Ev.act hi 0 rfl ⟨by decide, ha, hb⟩ ?_
  refine Ev.act hi 1 rfl ⟨hd, by decide, trivial⟩ ?_
  refine ev_two_way hi 2 rfl ⟨hd, by decide, trivial⟩ (Ev.now ?_)
  simp only [sv_movi, sv_cmp, set_flags, cond_cmp op h]
  simp only [Option.some.injEq, get_ir] at hv
  rw [← hv]
  refine ⟨rfl, ?_, ?_, ?_⟩
  · cases cmpRes op (s.regs (irReg a)) (s.regs (irReg b)) <;> simp [set_regs, CArith.ofBool]
  · intro q q1 _ _ _
    cases cmpRes op (s.regs (irReg a)) (s.regs (irReg b)) <;> simp [set_regs, q1]
  · cases cmpRes op (s.regs (irReg a)) (s.regs (irReg b)) <;> simp

/-- the software division spills only below the stack pointer -/
theorem spill_same (m : IrM.Mem) (sp : Word) (a b : BitVec 3) (x y : Word) : IrM.SameAbove 8 sp m (spill m sp a b x y) := by
  have st : ∀ (m' : IrM.Mem) (k v : Word) (p : Word), IrM.store32 m' k v p ≠ m' p →
      p = k ∨ p = k + 1#32 ∨ p = k + 2#32 ∨ p = k + 3#32 := by
    intro m' k v p h
    by_cases h0 : p = k
    · exact .inl h0
    by_cases h1 : p = k + 1#32
    · exact .inr (.inl h1)
    by_cases h2 : p = k + 2#32
    · exact .inr (.inr (.inl h2))
    by_cases h3 : p = k + 3#32
    · exact .inr (.inr (.inr h3))
    exfalso; apply h
    simp [IrM.store32, IrM.store8, h0, h1, h2, h3]
  have num : ∀ (p : Word), (p = sp - 8#32 ∨ p = sp - 8#32 + 1#32 ∨ p = sp - 8#32 + 2#32 ∨ p = sp - 8#32 + 3#32) ∨
      (p = sp - 4#32 ∨ p = sp - 4#32 + 1#32 ∨ p = sp - 4#32 + 2#32 ∨ p = sp - 4#32 + 3#32) → (sp - 1 - p).toNat < 8 := by
    intro p h
    change (sp - 1#32 - p).toNat < 8
    rcases h with (h | h | h | h) | (h | h | h | h) <;> subst h <;>
      simp only [BitVec.toNat_sub, BitVec.toNat_add, BitVec.toNat_ofNat] <;> omega
  have two : ∀ (u v : Word) (p : Word), IrM.store32 (IrM.store32 m (sp - 8#32) u) (sp - 4#32) v p ≠ m p →
      (sp - 1 - p).toNat < 8 := by
    intro u v p h
    by_cases e : IrM.store32 (IrM.store32 m (sp - 8#32) u) (sp - 4#32) v p = IrM.store32 m (sp - 8#32) u p
    · rw [e] at h; exact num p (.inl (st _ _ _ _ h))
    · exact num p (.inr (st _ _ _ _ e))
  intro p h
  unfold spill at h
  split at h
  · exact two _ _ p h
  · split at h
    · exact two _ _ p h
    · exact num p (.inr (st _ _ _ _ h))

end ARM
