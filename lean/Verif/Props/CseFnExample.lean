import Verif.Props.CseFn

/-! ### An example for C98 -/

namespace Shecc.Props
open Shecc Shecc.Ssa Shecc.ConstFold Shecc.Optimize SsaSem RaFn CCse

namespace CseEx

/-- `int f(char *p, int i, int x) { if (p[i]) return x + p[i]; return x; }` -/
def F : RegAlloc.Fn where
  block := fun b => match b with
    | 0 => { then_ := 1, else_ := 2 }
    | 1 | 2 => { next := some 3 }
    | b => { next := some (b + 1) }
  insns := fun b => match b with
    | 0 => [{ op := .alu .add, rd := some 10, rs1 := some 0, rs2 := some 1 }, { op := .read, rd := some 11, rs1 := some 10, sz := 1 },
            { op := .branch, rs1 := some 11 }]
    | 1 => [{ op := .alu .add, rd := some 12, rs1 := some 0, rs2 := some 1 }, { op := .read, rd := some 13, rs1 := some 12, sz := 1 },
            { op := .alu .add, rd := some 14, rs1 := some 2, rs2 := some 13 }, { op := .ret, rs1 := some 14 }]
    | 2 => [{ op := .ret, rs1 := some 2 }]
    | _ => []
  rpo := fun b => b
  fnExit := 3

def after : Nat → List Insn := fun b => match b with
  | 1 => [{ op := .assign, rd := some 13, rs1 := some 11, sz := 1 }, { op := .alu .add, rd := some 14, rs1 := some 2, rs2 := some 13 },
          { op := .ret, rs1 := some 14 }]
  | b => F.insns b

def F' : RegAlloc.Fn := { F with insns := after }

def noConst : CF := ⟨fun _ => false, fun _ => 0⟩

theorem path {l : List Nat} {b : Nat} (h : CGraph.Path (succs F) 0 l b) :
    (l, b) = ([0], 0) ∨ (l, b) = ([0, 1], 1) ∨ (l, b) = ([0, 2], 2) ∨ (l, b) = ([0, 1, 3], 3) ∨ (l, b) = ([0, 2, 3], 3) := by
  have h3 : ∀ {l b}, CGraph.Path (succs F) 3 l b → l = [3] ∧ b = 3 := by
    intro l b h
    cases h with
    | nil => exact ⟨rfl, rfl⟩
    | cons h p => simp [succs, F] at h
  have h1 : ∀ {l b}, CGraph.Path (succs F) 1 l b → (l, b) = ([1], 1) ∨ (l, b) = ([1, 3], 3) := by
    intro l b h
    cases h with
    | nil => simp
    | cons h p =>
      simp [succs, F] at h
      subst h
      obtain ⟨rfl, rfl⟩ := h3 p
      simp
  have h2 : ∀ {l b}, CGraph.Path (succs F) 2 l b → (l, b) = ([2], 2) ∨ (l, b) = ([2, 3], 3) := by
    intro l b h
    cases h with
    | nil => simp
    | cons h p =>
      simp [succs, F] at h
      subst h
      obtain ⟨rfl, rfl⟩ := h3 p
      simp
  cases h with
  | nil => simp
  | cons h p =>
    simp [succs, F] at h
    rcases h with rfl | rfl
    · rcases h1 p with h | h <;> cases h <;> simp
    · rcases h2 p with h | h <;> cases h <;> simp

theorem input : CFold.Input F (fun _ => false) 0 [0, 1, 2, 3] := by
  refine ⟨by decide, by decide, by decide, ?_, by decide, ?_⟩
  · apply IsSsa.of_pairwise
    all_goals decide
  · intro l b hp
    rcases path hp with h | h | h | h | h <;> (have := congrArg Prod.fst h; simp only at this; rw [this]; exact DefinedBeforeUse.of_check (by decide))

theorem idoms : ∀ c, CGraph.Reach (succs F) 0 c → c ≠ 0 → CGraph.IsIdom (succs F) 0 0 c := by
  rintro c ⟨lc, hlc⟩ hc
  refine ⟨⟨?_, Ne.symm hc⟩, ?_⟩
  · intro l hp
    rcases path hp with h | h | h | h | h <;> cases h <;> decide
  · rintro e ⟨he, hne⟩ l hp
    have h3 : CGraph.Path (succs F) 0 [0, 1, 3] 3 := .cons (by decide) (.cons (by decide) (.nil 3))
    have h3' : CGraph.Path (succs F) 0 [0, 2, 3] 3 := .cons (by decide) (.cons (by decide) (.nil 3))
    have h1 : CGraph.Path (succs F) 0 [0, 1] 1 := .cons (by decide) (.nil 1)
    have h2 : CGraph.Path (succs F) 0 [0, 2] 2 := .cons (by decide) (.nil 2)
    rcases path hp with h | h | h | h | h <;> cases h
    clear hp
    match c with
    | 0 => exact absurd rfl hc
    | 1 => have := he _ h1; simp at this ⊢; omega
    | 2 => have := he _ h2; simp at this ⊢; omega
    | 3 => have := he _ h3; have := he _ h3'; simp at *; omega
    | c + 4 =>
      rcases path hlc with h | h | h | h | h <;> (have := congrArg Prod.snd h; simp at this)

/-- Where a sum is read. -/
theorem sums {b : Nat} {pre : List Insn} {i n : Insn} {base idx : Nat} (h : SumRead F b pre i n base idx) :
    pre = [] ∧ base = 0 ∧ idx = 1 ∧
      ((b = 0 ∧ i = ⟨.alu .add, some 10, some 0, some 1, 0, ""⟩ ∧ n = ⟨.read, some 11, some 10, none, 1, ""⟩) ∨
       (b = 1 ∧ i = ⟨.alu .add, some 12, some 0, some 1, 0, ""⟩ ∧ n = ⟨.read, some 13, some 12, none, 1, ""⟩)) := by
  obtain ⟨post, hc⟩ := h.code
  have ha := h.add
  have hr := h.read
  have hb := h.base
  have hi := h.idx
  match b, hc with
  | 0, hc =>
    match pre, hc with
    | [], hc => cases hc; cases hb; cases hi; simp
    | [_], hc => cases hc; cases ha
    | [_, _], hc => simp [F] at hc
    | _ :: _ :: _ :: _, hc => simp [F] at hc
  | 1, hc =>
    match pre, hc with
    | [], hc => cases hc; cases hb; cases hi; simp
    | [_], hc => cases hc; cases ha
    | [_, _], hc => cases hc; cases hr
    | [_, _, _], hc => simp [F] at hc
    | _ :: _ :: _ :: _ :: _, hc => simp [F] at hc
  | 2, hc =>
    match pre, hc with
    | [], hc => simp [F] at hc
    | _ :: _, hc => simp [F] at hc
  | b + 3, hc => simp [F] at hc

/-- Where a variable is used. -/
theorem uses {b : Nat} {xs ys : List Insn} {j : Insn} (h : F.insns b = xs ++ j :: ys) :
    (Operand j 10 → b = 0 ∧ xs.length = 1) ∧ (Operand j 12 → b = 1 ∧ xs.length = 1) := by
  have hj : (F.insns b)[xs.length]? = some j := by rw [h]; simp
  have hlt : xs.length < (F.insns b).length := by rw [h]; simp
  unfold Operand
  match b with
  | 0 =>
    generalize xs.length = k at hj hlt
    match k with
    | 0 | 1 | 2 => cases hj; simp
    | k + 3 => simp [F] at hlt; omega
  | 1 =>
    generalize xs.length = k at hj hlt
    match k with
    | 0 | 1 | 2 | 3 => cases hj; simp
    | k + 4 => simp [F] at hlt; omega
  | 2 =>
    generalize xs.length = k at hj hlt
    match k with
    | 0 => cases hj; simp
    | k + 1 => simp [F] at hlt
  | b + 3 => simp [F] at hlt

theorem unchanged (C : SrcBlock.Ctx) (hg : C.isGlobal = fun _ => false) (s : SrcBlock.St) : Unchanged C F 0 s := by
  have hx : ∀ {b xs ys} {j i : Insn}, F.insns b = xs ++ j :: ys → (F.insns b).head? = some i → xs.length = 1 → xs = [i] := by
    intro b xs ys j i h hh hl
    match xs, hl with
    | [x], _ => rw [h] at hh; cases hh; rfl
  refine C98_no_store C F 0 (by decide) ?_ ?_ s
  · intro b pre i n base idx d hF c pre' i' n' hS hne
    obtain ⟨rfl, rfl, rfl, h⟩ := sums hF.here
    obtain ⟨rfl, _, _, h'⟩ := sums hS
    have hd := hF.into
    rcases h with ⟨rfl, rfl, rfl⟩ | ⟨rfl, rfl, rfl⟩ <;> rcases h' with ⟨rfl, rfl, rfl⟩ | ⟨rfl, rfl, rfl⟩ <;> cases hd
    · exact absurd rfl hne
    · refine ⟨12, 13, rfl, rfl, rfl, rfl, by rw [hg], by rw [hg], ?_⟩
      intro b xs j ys he ho
      obtain ⟨rfl, h2⟩ := (uses he).2 ho
      exact ⟨rfl, hx he rfl h2⟩
    · refine ⟨10, 11, rfl, rfl, rfl, rfl, by rw [hg], by rw [hg], ?_⟩
      intro b xs j ys he ho
      obtain ⟨rfl, h2⟩ := (uses he).1 ho
      exact ⟨rfl, hx he rfl h2⟩
    · exact absurd rfl hne
  · intro b pre i n base idx d hF c pre' i' n' hS haft l hp
    obtain ⟨rfl, rfl, rfl, h⟩ := sums hF.here
    obtain ⟨rfl, _, _, h'⟩ := sums hS
    have hd := hF.into
    have hc : c = 1 ∧ b = 0 := by
      rcases haft with ⟨_, h⟩ | ⟨hne, hdom⟩
      · simp at h
      · rcases h with ⟨rfl, _, _⟩ | ⟨rfl, _, _⟩ <;> rcases h' with ⟨rfl, _, _⟩ | ⟨rfl, _, _⟩
        · exact absurd rfl hne
        · exact ⟨rfl, rfl⟩
        · exact absurd (hdom [0] (.nil 0)) (by decide)
        · exact absurd rfl hne
    obtain ⟨rfl, rfl⟩ := hc
    rcases h with ⟨_, rfl, rfl⟩ | ⟨h, _⟩
    · cases hd
      have hl : l = [0] := by
        rcases path hp with h | h | h | h | h <;> have h2 := congrArg Prod.snd h <;> simp at h2 <;> have h1 := congrArg Prod.fst h <;>
          simp only at h1 <;> exact (List.append_inj' (h1.trans (show _ = [0] ++ [1] from rfl)) rfl).1
      subst hl
      refine ⟨[], [{ op := .branch, rs1 := some 11 }], rfl, ?_, by decide, by decide, ?_⟩
      · refine ⟨by decide, by decide, ?_⟩
        rintro v hv
        cases hv
        rw [hg]
        decide
      · intro w hw
        simp only [List.mem_singleton] at hw
        subst hw
        refine ⟨by decide, by decide, ?_⟩
        rintro v hv
        cases hv
    · exact absurd h (by decide)

/-- The example meets the hypotheses of `C98_optimize_partial`, and the second `p[i]` is replaced by the value of the first. -/
theorem C98_example (C : SrcBlock.Ctx) (hg : C.isGlobal = fun _ => false) (s : SrcBlock.St) :
    CFold.Input F C.isGlobal 0 [0, 1, 2, 3] ∧ (∀ c, CGraph.Reach (succs F) 0 c → c ≠ 0 → CGraph.IsIdom (succs F) 0 0 c) ∧ Unchanged C F 0 s ∧
    ∃ cur' st', optFn C.isGlobal (fun _ => 0) 10 [0, 1, 2, 3] F.insns noConst = .ok (cur', st') ∧ ∀ b ∈ [0, 1, 2, 3], F'.insns b = cur' b := by
  refine ⟨by rw [hg]; exact input, idoms, unchanged C hg s, ?_⟩
  rw [hg]
  exact ⟨_, _, rfl, by decide⟩

end CseEx
end Shecc.Props
