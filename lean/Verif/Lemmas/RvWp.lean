import Verif.Lemmas.RvExec

/-! Weakest-precondition style rules for executing decoded RV32 code. -/

namespace RV32
open Shecc.Riscv

/-- Some state satisfying `P` is reached from `s`. -/
def Ev (c : Code) (s : State) (P : State → Prop) : Prop := ∃ t, Reaches c s t ∧ P t

/-- address of the `k`-th word after `base` -/
def atk (base : Word) (k : Nat) : Word := base + BitVec.ofNat 32 (4 * k)

theorem atk_zero (base : Word) : atk base 0 = base := by simp [atk]
theorem atk_succ (base : Word) (k : Nat) : atk base k + 4 = atk base (k + 1) := by
  unfold atk
  rw [BitVec.add_assoc]; congr 1
  apply BitVec.eq_of_toNat_eq; simp; omega

def goto (base : Word) (k : Nat) (s : State) : State := { s with pc := atk base k }

@[simp] theorem goto_get (base : Word) (k : Nat) (s : State) (q : Reg) : (goto base k s).get q = s.get q := rfl
@[simp] theorem goto_mem (base : Word) (k : Nat) (s : State) : (goto base k s).mem = s.mem := rfl
@[simp] theorem goto_pc (base : Word) (k : Nat) (s : State) : (goto base k s).pc = atk base k := rfl
@[simp] theorem goto_goto (b b' : Word) (k k' : Nat) (s : State) : goto b k (goto b' k' s) = goto b k s := rfl
theorem goto_self (s : State) : goto s.pc 0 s = s := by
  cases s; simp [goto, atk_zero]
theorem goto_of {s : State} {base : Word} {k : Nat} (h : s.pc = atk base k) : goto base k s = s := by
  cases s; simp only [goto] at *; rw [h]

theorem Ev.now {c : Code} {s : State} {P : State → Prop} (h : P s) : Ev c s P := ⟨s, .refl _, h⟩

theorem Ev.bind {c : Code} {s : State} {P Q : State → Prop} (h1 : Ev c s Q) (h2 : ∀ t, Q t → Ev c t P) : Ev c s P := by
  obtain ⟨t, r1, q⟩ := h1
  obtain ⟨u, r2, p⟩ := h2 t q
  exact ⟨u, r1.trans r2, p⟩

theorem Ev.step {c : Code} {s t : State} {P : State → Prop} (h1 : step c s = .next t) (h2 : Ev c t P) : Ev c s P := by
  obtain ⟨u, r, p⟩ := h2
  exact ⟨u, .head h1 r, p⟩

variable {c : Code} {base : Word} {is : List Instr} {P : State → Prop} {s : State}

theorem set_goto (k : Nat) (r : Reg) (v : Word) :
    (goto base k s).set r v = goto base k (s.set r v) := by
  unfold State.set goto; split <;> rfl

theorem Ev.r (h : InstrAt c base is) (k : Nat) {op : RKind} {rd a b : Reg} (hk : is[k]? = some (.r op rd a b))
    (hn : Ev c (goto base (k + 1) (s.set rd (aluR op (s.get a) (s.get b)))) P) : Ev c (goto base k s) P := by
  refine Ev.step (h.step k hk rfl) ?_
  have : ({ (goto base k s).set rd (aluR op ((goto base k s).get a) ((goto base k s).get b)) with
      pc := (goto base k s).pc + 4 } : State) = goto base (k + 1) (s.set rd (aluR op (s.get a) (s.get b))) := by
    simp only [set_goto, goto_get, goto_pc, atk_succ]; rfl
  rw [this]; exact hn

theorem Ev.i (h : InstrAt c base is) (k : Nat) {op : IKind} {rd a : Reg} {imm : Word}
    (hk : is[k]? = some (.i op rd a imm))
    (hn : Ev c (goto base (k + 1) (s.set rd (aluI op (s.get a) imm))) P) : Ev c (goto base k s) P := by
  refine Ev.step (h.step k hk rfl) ?_
  have : ({ (goto base k s).set rd (aluI op ((goto base k s).get a) imm) with
      pc := (goto base k s).pc + 4 } : State) = goto base (k + 1) (s.set rd (aluI op (s.get a) imm)) := by
    simp only [set_goto, goto_get, goto_pc, atk_succ]; rfl
  rw [this]; exact hn

theorem Ev.sh (h : InstrAt c base is) (k : Nat) {op : ShKind} {rd a : Reg} {n : BitVec 5}
    (hk : is[k]? = some (.sh op rd a n))
    (hn : Ev c (goto base (k + 1) (s.set rd (aluSh op (s.get a) n))) P) : Ev c (goto base k s) P := by
  refine Ev.step (h.step k hk rfl) ?_
  have : ({ (goto base k s).set rd (aluSh op ((goto base k s).get a) n) with
      pc := (goto base k s).pc + 4 } : State) = goto base (k + 1) (s.set rd (aluSh op (s.get a) n)) := by
    simp only [set_goto, goto_get, goto_pc, atk_succ]; rfl
  rw [this]; exact hn

theorem Ev.lui (h : InstrAt c base is) (k : Nat) {rd : Reg} {imm : Word}
    (hk : is[k]? = some (.lui rd imm))
    (hn : Ev c (goto base (k + 1) (s.set rd imm)) P) : Ev c (goto base k s) P := by
  refine Ev.step (h.step k hk rfl) ?_
  have : ({ (goto base k s).set rd imm with
      pc := (goto base k s).pc + 4 } : State) = goto base (k + 1) (s.set rd imm) := by
    simp only [set_goto, goto_pc, atk_succ]; rfl
  rw [this]; exact hn

theorem Ev.lw (h : InstrAt c base is) (k : Nat) {rd b : Reg} {ofs : Word}
    (hk : is[k]? = some (.load .lw rd b ofs))
    (hn : Ev c (goto base (k + 1) (s.set rd (s.load32 (s.get b + ofs)))) P) : Ev c (goto base k s) P := by
  refine Ev.step (h.step k hk rfl) ?_
  have : ({ (goto base k s).set rd ((goto base k s).load32 ((goto base k s).get b + ofs)) with
      pc := (goto base k s).pc + 4 } : State) = goto base (k + 1) (s.set rd (s.load32 (s.get b + ofs))) := by
    simp only [set_goto, goto_get, goto_pc, atk_succ]; rfl
  rw [this]; exact hn

theorem Ev.lb (h : InstrAt c base is) (k : Nat) {rd b : Reg} {ofs : Word}
    (hk : is[k]? = some (.load .lb rd b ofs))
    (hn : Ev c (goto base (k + 1) (s.set rd ((s.load8 (s.get b + ofs)).signExtend 32))) P) :
    Ev c (goto base k s) P := by
  refine Ev.step (h.step k hk rfl) ?_
  have : ({ (goto base k s).set rd (((goto base k s).load8 ((goto base k s).get b + ofs)).signExtend 32) with
      pc := (goto base k s).pc + 4 } : State) =
        goto base (k + 1) (s.set rd ((s.load8 (s.get b + ofs)).signExtend 32)) := by
    simp only [set_goto, goto_get, goto_pc, atk_succ]; rfl
  rw [this]; exact hn

theorem Ev.sw (h : InstrAt c base is) (k : Nat) {src b : Reg} {ofs : Word}
    (hk : is[k]? = some (.store .sw src b ofs))
    (hn : Ev c (goto base (k + 1) (s.store32 (s.get b + ofs) (s.get src))) P) : Ev c (goto base k s) P := by
  refine Ev.step (h.step k hk rfl) ?_
  have : ({ (goto base k s).store32 ((goto base k s).get b + ofs) ((goto base k s).get src) with
      pc := (goto base k s).pc + 4 } : State) = goto base (k + 1) (s.store32 (s.get b + ofs) (s.get src)) := by
    simp only [goto_get, goto_pc, atk_succ]; rfl
  rw [this]; exact hn

theorem Ev.sb (h : InstrAt c base is) (k : Nat) {src b : Reg} {ofs : Word}
    (hk : is[k]? = some (.store .sb src b ofs))
    (hn : Ev c (goto base (k + 1) (s.store8 (s.get b + ofs) ((s.get src).setWidth 8))) P) :
    Ev c (goto base k s) P := by
  refine Ev.step (h.step k hk rfl) ?_
  have : ({ (goto base k s).store8 ((goto base k s).get b + ofs) (((goto base k s).get src).setWidth 8) with
      pc := (goto base k s).pc + 4 } : State) =
        goto base (k + 1) (s.store8 (s.get b + ofs) ((s.get src).setWidth 8)) := by
    simp only [goto_get, goto_pc, atk_succ]; rfl
  rw [this]; exact hn

/-- `ofs` leads from word `k` to word `j` of the sequence -/
def Rel (k j : Nat) (ofs : Word) : Prop := BitVec.ofNat 32 (4 * k) + ofs = BitVec.ofNat 32 (4 * j)

instance (k j : Nat) (ofs : Word) : Decidable (Rel k j ofs) := by unfold Rel; infer_instance

theorem Ev.br (h : InstrAt c base is) (k j : Nat) {op : BrKind} {a b : Reg} {ofs : Word}
    (hk : is[k]? = some (.branch op a b ofs)) (hj : Rel k j ofs)
    (h1 : brCond op (s.get a) (s.get b) = true → Ev c (goto base j s) P)
    (h2 : brCond op (s.get a) (s.get b) = false → Ev c (goto base (k + 1) s) P) : Ev c (goto base k s) P := by
  refine Ev.step (h.step k hk rfl) ?_
  have e : atk base k + ofs = atk base j := by
    unfold atk; rw [BitVec.add_assoc, hj]
  by_cases hc : brCond op (s.get a) (s.get b) = true
  · have e2 : ({ goto base k s with pc := if brCond op ((goto base k s).get a) ((goto base k s).get b) = true then
        (goto base k s).pc + ofs else (goto base k s).pc + 4 } : State) = goto base j s := by
      rw [if_pos (show brCond op ((goto base k s).get a) ((goto base k s).get b) = true from hc), goto_pc, e]; rfl
    rw [e2]; exact h1 hc
  · have e2 : ({ goto base k s with pc := if brCond op ((goto base k s).get a) ((goto base k s).get b) = true then
        (goto base k s).pc + ofs else (goto base k s).pc + 4 } : State) = goto base (k + 1) s := by
      rw [if_neg (show ¬ brCond op ((goto base k s).get a) ((goto base k s).get b) = true from hc), goto_pc, atk_succ]
      rfl
    rw [e2]; exact h2 (by simpa using hc)

theorem Ev.j (h : InstrAt c base is) (k j : Nat) {ofs : Word} (hk : is[k]? = some (.jal 0 ofs)) (hj : Rel k j ofs)
    (hn : Ev c (goto base j s) P) : Ev c (goto base k s) P := by
  refine Ev.step (h.step k hk rfl) ?_
  have e : atk base k + ofs = atk base j := by
    unfold atk; rw [BitVec.add_assoc, hj]
  have : ({ (goto base k s).set 0 ((goto base k s).pc + 4) with pc := (goto base k s).pc + ofs } : State) =
      goto base j s := by
    simp only [goto_pc, e]; rfl
  rw [this]; exact hn

end RV32
