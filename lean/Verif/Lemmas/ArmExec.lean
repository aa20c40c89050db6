import Verif.Lemmas.ArmEnc
import Verif.Spec.ArmAbi

/-! Executing decoded ARM code. -/

namespace ARM
open Shecc.Arm

theorem set_regs (s : State) (r q : Reg) (v : Word) : (s.set r v).regs q = if q = r then v else s.regs q := rfl
@[simp] theorem set_pc (s : State) (r : Reg) (v : Word) : (s.set r v).pc = s.pc := rfl
@[simp] theorem set_mem (s : State) (r : Reg) (v : Word) : (s.set r v).mem = s.mem := rfl
@[simp] theorem set_flags (s : State) (r : Reg) (v : Word) : (s.set r v).flags = s.flags := rfl
theorem get_regs (s : State) {r : Reg} (h : r ≠ 15#4) : s.get r = s.regs r := by simp [State.get, h]

theorem step_of {c : Code} {s : State} {w : Word} {i : Instr} (h1 : c s.pc = some w) (h2 : decode w = some i) :
    step c s = exec i s := by
  simp [step, h1, h2]

theorem Reaches.trans {c : Code} {s t u : State} (h1 : Reaches c s t) (h2 : Reaches c t u) : Reaches c s u := by
  induction h1 with
  | refl => exact h2
  | head hs _ ih => exact .head hs (ih h2)

theorem Reaches.one {c : Code} {s t : State} (h : step c s = .next t) : Reaches c s t := .head h (.refl _)

/-- The optional word list exists and decodes to exactly these instructions. -/
def Decodes (o : Option (List Shecc.CInt)) (is : List Instr) : Prop :=
  ∃ ws, o = some ws ∧ ws.map decode = is.map some

theorem Decodes.nil : Decodes (emits []) [] := ⟨[], rfl, rfl⟩

theorem Decodes.cons {w : Shecc.CInt} {i : Instr} {l : List (Option Shecc.CInt)} {is : List Instr}
    (h1 : decode w = some i) (h2 : Decodes (emits l) is) : Decodes (emits (some w :: l)) (i :: is) := by
  obtain ⟨ws, h3, h4⟩ := h2
  exact ⟨w :: ws, by simp [emits, h3], by simp [h1, h4]⟩

theorem Decodes.cons' {o : Option Shecc.CInt} {i : Instr} {l : List (Option Shecc.CInt)} {is : List Instr}
    (h1 : ∃ w, o = some w ∧ decode w = some i) (h2 : Decodes (emits l) is) : Decodes (emits (o :: l)) (i :: is) := by
  obtain ⟨w, rfl, h⟩ := h1
  exact Decodes.cons h h2

/-- Decoded instructions in memory. -/
def InstrAt (c : Code) (base : Word) (is : List Instr) : Prop :=
  ∀ (k : Nat) (i : Instr), is[k]? = some i → ∃ w, c (base + BitVec.ofNat 32 (4 * k)) = some w ∧ decode w = some i

theorem InstrAt.of_code {c : Code} {base : Word} {ws : List Word} {is : List Instr} (h : CodeAt c base ws)
    (hd : ws.map decode = is.map some) : InstrAt c base is := by
  intro k i hk
  have h1 : (ws.map decode)[k]? = some (some i) := by rw [hd]; simp [hk]
  rw [List.getElem?_map] at h1
  cases hw : ws[k]? with
  | none => rw [hw] at h1; simp at h1
  | some w =>
    rw [hw] at h1
    exact ⟨w, h k w hw, by simpa using h1⟩

theorem InstrAt.step {c : Code} {base : Word} {is : List Instr} (h : InstrAt c base is) (k : Nat) {i : Instr}
    (hk : is[k]? = some i) {s : State} (hpc : s.pc = base + BitVec.ofNat 32 (4 * k)) :
    ARM.step c s = exec i s := by
  obtain ⟨w, h1, h2⟩ := h k i hk
  exact step_of (by rw [hpc]; exact h1) h2

/-! ### straight-line rules -/

/-- Some state satisfying `P` is reached from `s`. -/
def Ev (c : Code) (s : State) (P : State → Prop) : Prop := ∃ t, Reaches c s t ∧ P t

/-- address of the `k`-th word after `base` -/
def atk (base : Word) (k : Nat) : Word := base + BitVec.ofNat 32 (4 * k)

theorem atk_zero (base : Word) : atk base 0 = base := by simp [atk]
theorem atk_succ (base : Word) (k : Nat) : atk base k + 4#32 = atk base (k + 1) := by
  unfold atk
  rw [BitVec.add_assoc]; congr 1
  apply BitVec.eq_of_toNat_eq; simp; omega

def goto (base : Word) (k : Nat) (s : State) : State := { s with pc := atk base k }

@[simp] theorem goto_regs (base : Word) (k : Nat) (s : State) : (goto base k s).regs = s.regs := rfl
@[simp] theorem goto_flags (base : Word) (k : Nat) (s : State) : (goto base k s).flags = s.flags := rfl
@[simp] theorem goto_mem (base : Word) (k : Nat) (s : State) : (goto base k s).mem = s.mem := rfl
@[simp] theorem goto_pc (base : Word) (k : Nat) (s : State) : (goto base k s).pc = atk base k := rfl
theorem goto_self (s : State) : goto s.pc 0 s = s := by
  cases s; simp [goto, atk_zero]

theorem Ev.now {c : Code} {s : State} {P : State → Prop} (h : P s) : Ev c s P := ⟨s, .refl _, h⟩

theorem Ev.bind {c : Code} {s : State} {P Q : State → Prop} (h1 : Ev c s Q) (h2 : ∀ t, Q t → Ev c t P) : Ev c s P := by
  obtain ⟨t, r1, q⟩ := h1
  obtain ⟨u, r2, p⟩ := h2 t q
  exact ⟨u, r1.trans r2, p⟩

theorem Ev.step {c : Code} {s t : State} {P : State → Prop} (h1 : step c s = .next t) (h2 : Ev c t P) : Ev c s P := by
  obtain ⟨u, r, p⟩ := h2
  exact ⟨u, .head h1 r, p⟩

/-- `op2Val` when no operand register is the pc. -/
def opv (r : Reg → Word) (cin : Bool) : Op2 → Word × Bool
  | .imm i => shiftC 3 ((i.extractLsb' 0 8).setWidth 32) (2 * (i.extractLsb' 8 4).toNat) cin
  | .shImm rm t i =>
    if i = 0#5 then
      match t.toNat with
      | 0 => (r rm, cin)
      | 3 => rrx (r rm) cin
      | t => shiftC t (r rm) 32 cin
    else shiftC t.toNat (r rm) i.toNat cin
  | .shReg rm t rs => shiftC t.toNat (r rm) ((r rs).toNat % 256) cin

def Op2.noPc : Op2 → Prop
  | .imm _ => True
  | .shImm rm _ _ => rm ≠ 15#4
  | .shReg rm _ rs => rm ≠ 15#4 ∧ rs ≠ 15#4

instance (o : Op2) : Decidable o.noPc := by cases o <;> simp only [Op2.noPc] <;> infer_instance

theorem op2Val_eq (s : State) (o : Op2) (h : o.noPc) : op2Val s o = opv s.regs s.flags.c o := by
  cases o with
  | imm i => rfl
  | shImm rm t i =>
    simp only [op2Val, opv, get_regs s h]
    have ht : t.toNat = 0 ∨ t.toNat = 1 ∨ t.toNat = 2 ∨ t.toNat = 3 := by have := t.isLt; omega
    rcases ht with e | e | e | e <;> rw [e] <;> rfl
  | shReg rm t rs => simp only [op2Val, opv, get_regs s h.1, get_regs s h.2]

/-- Effect of a non-branching action that does not involve the pc. -/
def stepv (a : Act) (s : State) : State :=
  match a with
  | .dp op sf rd rn o =>
    let b := opv s.regs s.flags.c o
    let r := dpVal op s.flags (s.regs rn) b.1 b.2
    let s1 : State := if sf then { s with flags := ⟨r.1.msb, r.1 == 0#32, r.2.1, r.2.2⟩ } else s
    if op.test then s1 else s1.set rd r.1
  | .movw rd i => s.set rd (i.setWidth 32)
  | .movt rd i => s.set rd (i ++ (s.regs rd).extractLsb' 0 16)
  | .mul rd rn rm => s.set rd (s.regs rn * s.regs rm)
  | .sdiv rd rn rm =>
    s.set rd (if s.regs rm = 0#32 then 0#32 else BitVec.ofInt 32 ((s.regs rn).toInt.tdiv (s.regs rm).toInt))
  | .ldr byte rt rn ofs =>
    s.set rt (if byte then (s.mem (s.regs rn + ofs)).setWidth 32 else s.load32 (s.regs rn + ofs))
  | .str byte rt rn ofs =>
    if byte then s.store8 (s.regs rn + ofs) ((s.regs rt).setWidth 8) else s.store32 (s.regs rn + ofs) (s.regs rt)
  | _ => s

/-- A non-branching action that does not involve the pc. -/
def Act.plain : Act → Prop
  | .dp _ _ rd rn o => rd ≠ 15#4 ∧ rn ≠ 15#4 ∧ o.noPc
  | .movw rd _ => rd ≠ 15#4
  | .movt rd _ => rd ≠ 15#4
  | .mul rd rn rm => rd ≠ 15#4 ∧ rn ≠ 15#4 ∧ rm ≠ 15#4
  | .sdiv rd rn rm => rd ≠ 15#4 ∧ rn ≠ 15#4 ∧ rm ≠ 15#4
  | .ldr _ rt rn _ => rt ≠ 15#4 ∧ rn ≠ 15#4
  | .str _ rt rn _ => rt ≠ 15#4 ∧ rn ≠ 15#4
  | _ => False

theorem execAct_plain (a : Act) (h : a.plain) (s : State) :
    execAct a s = .next { stepv a s with pc := s.pc + 4#32 } := by
  cases a with
  | dp op sf rd rn o =>
    obtain ⟨h1, h2, h3⟩ := h
    simp only [execAct, stepv, op2Val_eq s o h3, get_regs s h2, if_neg h1]
    split <;> rfl
  | movw rd i => simp only [execAct, stepv, if_neg (show rd ≠ 15#4 from h)]
  | movt rd i => simp only [execAct, stepv, if_neg (show rd ≠ 15#4 from h), get_regs s (show rd ≠ 15#4 from h)]
  | mul rd rn rm =>
    obtain ⟨h1, h2, h3⟩ := h
    simp only [execAct, stepv, h1, h2, h3, get_regs s h2, get_regs s h3, or_false, if_false]
  | sdiv rd rn rm =>
    obtain ⟨h1, h2, h3⟩ := h
    simp only [execAct, stepv, h1, h2, h3, get_regs s h2, get_regs s h3, or_false, if_false]
  | ldr byte rt rn ofs =>
    obtain ⟨h1, h2⟩ := h
    simp only [execAct, stepv, if_neg h1, get_regs s h2]
  | str byte rt rn ofs =>
    obtain ⟨h1, h2⟩ := h
    simp only [execAct, stepv, if_neg h1, get_regs s h1, get_regs s h2]
  | stmdb => exact h.elim
  | ldmia => exact h.elim
  | b => exact h.elim
  | blx => exact h.elim
  | svc => exact h.elim

theorem stepv_goto (a : Act) (base : Word) (k : Nat) (s : State) (p : Word) :
    ({ stepv a (goto base k s) with pc := p } : State) = { stepv a s with pc := p } := by
  cases a with
  | dp op sf rd rn o =>
    simp only [stepv, goto_regs, goto_flags]
    cases sf <;> cases op.test <;> rfl
  | str byte rt rn ofs => cases byte <;> rfl
  | ldr byte rt rn ofs => cases byte <;> rfl
  | _ => rfl

variable {c : Code} {base : Word} {is : List Instr} {P : State → Prop} {s : State}

theorem Ev.act (h : InstrAt c base is) (k : Nat) {a : Act} (hk : is[k]? = some ⟨14#4, a⟩) (hp : a.plain)
    (hn : Ev c (goto base (k + 1) (stepv a s)) P) : Ev c (goto base k s) P := by
  refine Ev.step ((h.step k hk rfl).trans (by
    unfold exec; rw [if_pos (by simp [condHolds])]; exact execAct_plain a hp _)) ?_
  rw [stepv_goto, goto_pc, atk_succ]
  exact hn

theorem Ev.actc (h : InstrAt c base is) (k : Nat) {cond : BitVec 4} {a : Act} (hk : is[k]? = some ⟨cond, a⟩)
    (hp : a.plain)
    (h1 : condHolds cond s.flags = true → Ev c (goto base (k + 1) (stepv a s)) P)
    (h2 : condHolds cond s.flags = false → Ev c (goto base (k + 1) s) P) : Ev c (goto base k s) P := by
  cases hc : condHolds cond s.flags with
  | true =>
    refine Ev.step ((h.step k hk rfl).trans (by
      unfold exec; rw [if_pos (by simpa using hc)]; exact execAct_plain a hp _)) ?_
    rw [stepv_goto, goto_pc, atk_succ]
    exact h1 hc
  | false =>
    refine Ev.step ((h.step k hk rfl).trans (by
      unfold exec; rw [if_neg (by simp [hc])])) ?_
    rw [show ({ goto base k s with pc := (goto base k s).pc + 4#32 } : State) = goto base (k + 1) s by
      simp only [goto_pc, atk_succ]; rfl]
    exact h2 hc

/-- `ofs` (relative to pc + 8) leads from word `k` to word `j` of the sequence -/
def Rel (k j : Nat) (ofs : Word) : Prop := BitVec.ofNat 32 (4 * k) + (8#32 + ofs) = BitVec.ofNat 32 (4 * j)

instance (k j : Nat) (ofs : Word) : Decidable (Rel k j ofs) := by unfold Rel; infer_instance

theorem Ev.bc (h : InstrAt c base is) (k j : Nat) {cond : BitVec 4} {ofs : Word}
    (hk : is[k]? = some ⟨cond, .b false ofs⟩) (hj : Rel k j ofs)
    (h1 : condHolds cond s.flags = true → Ev c (goto base j s) P)
    (h2 : condHolds cond s.flags = false → Ev c (goto base (k + 1) s) P) : Ev c (goto base k s) P := by
  cases hc : condHolds cond s.flags with
  | true =>
    have e : atk base k + 8#32 + ofs = atk base j := by
      unfold atk; rw [BitVec.add_assoc, BitVec.add_assoc, hj]
    refine Ev.step (t := goto base j s) ((h.step k hk rfl).trans ?_) (h1 hc)
    unfold exec
    rw [if_pos (by simpa using hc)]
    show Outcome.next ({ (goto base k s) with pc := atk base k + 8#32 + ofs } : State) = _
    rw [e]; rfl
  | false =>
    refine Ev.step ((h.step k hk rfl).trans (by
      unfold exec; rw [if_neg (by simp [hc])])) ?_
    rw [show ({ goto base k s with pc := (goto base k s).pc + 4#32 } : State) = goto base (k + 1) s by
      simp only [goto_pc, atk_succ]; rfl]
    exact h2 hc

def jumpTo (p : Word) (s : State) : State := { s with pc := p }
@[simp] theorem jumpTo_regs (p : Word) (s : State) : (jumpTo p s).regs = s.regs := rfl
@[simp] theorem jumpTo_mem (p : Word) (s : State) : (jumpTo p s).mem = s.mem := rfl
@[simp] theorem jumpTo_pc (p : Word) (s : State) : (jumpTo p s).pc = p := rfl

/-- Branch out of the sequence. -/
theorem Ev.bout (h : InstrAt c base is) (k : Nat) {cond : BitVec 4} {ofs : Word}
    (hk : is[k]? = some ⟨cond, .b false ofs⟩)
    (h1 : condHolds cond s.flags = true → Ev c (jumpTo (atk base k + 8#32 + ofs) s) P)
    (h2 : condHolds cond s.flags = false → Ev c (goto base (k + 1) s) P) : Ev c (goto base k s) P := by
  cases hc : condHolds cond s.flags with
  | true =>
    refine Ev.step ((h.step k hk rfl).trans (by
      unfold exec; rw [if_pos (by simpa using hc)]; rfl)) ?_
    exact h1 hc
  | false =>
    refine Ev.step ((h.step k hk rfl).trans (by
      unfold exec; rw [if_neg (by simp [hc])])) ?_
    rw [show ({ goto base k s with pc := (goto base k s).pc + 4#32 } : State) = goto base (k + 1) s by
      simp only [goto_pc, atk_succ]; rfl]
    exact h2 hc

theorem Ev.bl (h : InstrAt c base is) (k : Nat) {ofs : Word}
    (hk : is[k]? = some ⟨14#4, .b true ofs⟩)
    (hn : Ev c (jumpTo (atk base k + 8#32 + ofs) (s.set 14#4 (atk base (k + 1)))) P) : Ev c (goto base k s) P := by
  refine Ev.step (t := jumpTo (atk base k + 8#32 + ofs) (s.set 14#4 (atk base (k + 1)))) ((h.step k hk rfl).trans ?_) hn
  unfold exec
  rw [if_pos (by simp [condHolds])]
  show Outcome.next ({ ((goto base k s).set 14#4 (atk base k + 4#32)) with pc := atk base k + 8#32 + ofs } : State) = _
  rw [atk_succ]; rfl

theorem Ev.blx (h : InstrAt c base is) (k : Nat) {rm : Reg} (hk : is[k]? = some ⟨14#4, .blx rm⟩) (hr : rm ≠ 15#4)
    (hal : (s.regs rm).toNat % 4 = 0)
    (hn : Ev c (jumpTo (s.regs rm) (s.set 14#4 (atk base (k + 1)))) P) : Ev c (goto base k s) P := by
  refine Ev.step (t := jumpTo (s.regs rm) (s.set 14#4 (atk base (k + 1)))) ((h.step k hk rfl).trans ?_) hn
  unfold exec
  rw [if_pos (by simp [condHolds])]
  simp only [execAct, if_neg hr, get_regs _ hr, goto_regs, branchTo, if_pos hal, goto_pc, atk_succ]
  rfl

/-! ### comparison flags -/

/-- flags left by `cmp a, b` -/
def cmpFlags (a b : Word) : Flags :=
  let r := addWithCarry a (~~~b) true
  ⟨r.1.msb, r.1 == 0#32, r.2.1, r.2.2⟩

theorem awc_sub (a b : Word) : (addWithCarry a (~~~b) true).1 = a - b := by
  show a + ~~~b + BitVec.setWidth 32 (BitVec.ofBool true) = a - b
  rw [show (BitVec.setWidth 32 (BitVec.ofBool true) : Word) = 1#32 from rfl, BitVec.sub_eq_add_neg, BitVec.neg_eq_not_add]
  rw [BitVec.add_assoc]

theorem awc_rsb (a b : Word) : (addWithCarry (~~~a) b true).1 = b - a := by
  show ~~~a + b + BitVec.setWidth 32 (BitVec.ofBool true) = b - a
  rw [show (BitVec.setWidth 32 (BitVec.ofBool true) : Word) = 1#32 from rfl, BitVec.sub_eq_add_neg, BitVec.neg_eq_not_add]
  rw [BitVec.add_comm (~~~a) b, BitVec.add_assoc]

theorem awc_add (a b : Word) : (addWithCarry a b false).1 = a + b := by
  show a + b + BitVec.setWidth 32 (BitVec.ofBool false) = a + b
  rw [show (BitVec.setWidth 32 (BitVec.ofBool false) : Word) = 0#32 from rfl, BitVec.add_zero]

theorem cmp_z (a b : Word) : (cmpFlags a b).z = decide (a = b) := by
  show ((addWithCarry a (~~~b) true).1 == 0#32) = _
  rw [awc_sub]
  by_cases h : a = b
  · subst h; simp
  · have : a - b ≠ 0#32 := fun e => h (by have := BitVec.sub_eq_iff_eq_add.mp e; simpa using this)
    simp [h, this]

theorem cmp_c (a b : Word) : (cmpFlags a b).c = decide (b.toNat ≤ a.toNat) := by
  show decide (2 ^ 32 ≤ a.toNat + (~~~b).toNat + 1) = _
  have := b.isLt
  rw [BitVec.toNat_not]
  congr 1
  rw [eq_iff_iff]
  constructor <;> intro h <;> omega

theorem cmp_nv (a b : Word) : ((cmpFlags a b).n == (cmpFlags a b).v) = decide (b.toInt ≤ a.toInt) := by
  have hn : (cmpFlags a b).n = decide ((a - b).toInt < 0) := by
    show (addWithCarry a (~~~b) true).1.msb = _
    rw [awc_sub, BitVec.msb_eq_toInt]
  have hnot : (~~~b).toInt = - b.toInt - 1 := by
    rw [BitVec.toInt_not]
    have h1 := @BitVec.toInt_lt 32 b
    have h2 := @BitVec.le_toInt 32 b
    have := toInt_cases b
    have := b.isLt
    rcases this with h
    have e : (2 ^ 32 - 1 - (b.toNat : Int)).bmod (2 ^ 32) = -b.toInt - 1 := by
      rw [Int.bmod_def]
      split <;> omega
    exact e
  have hv : (cmpFlags a b).v = decide (a.toInt - b.toInt ≠ (a - b).toInt) := by
    show decide (a.toInt + (~~~b).toInt + ((true.toNat : Nat) : Int) ≠ (addWithCarry a (~~~b) true).1.toInt) = _
    rw [awc_sub, hnot]
    congr 1
    show (a.toInt + (-b.toInt - 1) + 1 ≠ _) = _
    rw [show a.toInt + (-b.toInt - 1) + 1 = a.toInt - b.toInt by omega]
  rw [hn, hv]
  have h1 := @BitVec.toInt_lt 32 a
  have h2 := @BitVec.le_toInt 32 a
  have h3 := @BitVec.toInt_lt 32 b
  have h4 := @BitVec.le_toInt 32 b
  have hb : (a - b).toInt = (a.toInt - b.toInt).bmod (2 ^ 32) := BitVec.toInt_sub
  rw [Int.bmod_def] at hb
  simp only [Nat.reducePow, Nat.reduceSub] at *
  generalize a.toInt = x at *
  generalize b.toInt = y at *
  generalize (a - b).toInt = z at *
  by_cases hle : y ≤ x <;> by_cases hz : z < 0 <;> by_cases he : x - y = z <;> simp [hle, hz, he] <;> split at hb <;> omega

theorem cond_eq (a b : Word) : condHolds 0#4 (cmpFlags a b) = decide (a = b) := cmp_z a b
theorem cond_ne (a b : Word) : condHolds 1#4 (cmpFlags a b) = !decide (a = b) := by
  show (!(cmpFlags a b).z) = _; rw [cmp_z]
theorem cond_cs (a b : Word) : condHolds 2#4 (cmpFlags a b) = decide (b.toNat ≤ a.toNat) := cmp_c a b
theorem cond_cc (a b : Word) : condHolds 3#4 (cmpFlags a b) = !decide (b.toNat ≤ a.toNat) := by
  show (!(cmpFlags a b).c) = _; rw [cmp_c]
theorem cond_ge (a b : Word) : condHolds 10#4 (cmpFlags a b) = decide (b.toInt ≤ a.toInt) := cmp_nv a b
theorem cond_lt (a b : Word) : condHolds 11#4 (cmpFlags a b) = decide (a.toInt < b.toInt) := by
  show (!((cmpFlags a b).n == (cmpFlags a b).v)) = _
  rw [cmp_nv, ← decide_not]; congr 1; simp
theorem cond_gt (a b : Word) : condHolds 12#4 (cmpFlags a b) = decide (b.toInt < a.toInt) := by
  show ((cmpFlags a b).n == (cmpFlags a b).v && !(cmpFlags a b).z) = _
  rw [cmp_nv, cmp_z]
  rw [show decide (a = b) = decide (a.toInt = b.toInt) by simp [BitVec.toInt_inj]]
  by_cases h1 : b.toInt ≤ a.toInt <;> by_cases h2 : a.toInt = b.toInt <;> simp [h1, h2] <;> omega
theorem cond_le (a b : Word) : condHolds 13#4 (cmpFlags a b) = decide (a.toInt ≤ b.toInt) := by
  show (!((cmpFlags a b).n == (cmpFlags a b).v && !(cmpFlags a b).z)) = _
  have := cond_gt a b
  simp only [condHolds] at this
  rw [show ((cmpFlags a b).n == (cmpFlags a b).v && !(cmpFlags a b).z) = decide (b.toInt < a.toInt) from cond_gt a b,
    ← decide_not]
  congr 1; simp

attribute [irreducible] cmpFlags

end ARM
