import Verif.Props.RaSource

/-!
# C86: a function that meets the hypotheses

`int f(int n) { int s = 0; while (n) { s = s + n; n = n - 1; } return s; }`: variable 1 is the parameter, variables 3 and 4 hold `s` and
`n` in the loop. Blocks: 0 entry, 1 condition, 2 body, 3 `return s`, 4 exit.
-/

namespace Shecc.Props.RaSourceExample
open Shecc Shecc.Ssa Shecc.RegAlloc SrcBlock RaLink RaFn RaSource CGraph

def vars : Vars :=
  { isGlobal := fun v => v == 0
    initVal := fun v => if v = 6 then 1#32 else 0#32 }

/-- Before the analyses. -/
def fn0 : RegAlloc.Fn :=
  { block := fun b =>
      [{ next := some 1 }, { then_ := 2, else_ := 3 }, { next := some 1 }, { next := some 4 }].getD b {}
    insns := fun b =>
      [[{ op := .load_constant, rd := some 2 }, { op := .unwound_phi, rd := some 3, rs1 := some 2 },
        { op := .unwound_phi, rd := some 4, rs1 := some 1 }],
       [{ op := .branch, rs1 := some 4 }],
       [{ op := .alu .add, rd := some 5, rs1 := some 3, rs2 := some 4 }, { op := .load_constant, rd := some 6 },
        { op := .alu .sub, rd := some 7, rs1 := some 4, rs2 := some 6 }, { op := .unwound_phi, rd := some 3, rs1 := some 5 },
        { op := .unwound_phi, rd := some 4, rs1 := some 7 }],
       [{ op := .ret, rs1 := some 3 }]].getD b []
    rpo := fun _ => 0
    fnExit := 4 }

def prev (b : Nat) : List Nat := [[], [0, 2], [1], [1], [3]].getD b []

/-- The variables live at the end of each block. -/
def liveOut (b : Nat) : List Nat := ((Live.liveness (liveFn vars fn0 [1] 0 prev) [4, 3, 1, 2, 0] 5).getD fun _ => []) b

/-- After the analyses. -/
def fn : RegAlloc.Fn :=
  { fn0 with
    rpo := Cfg.rpoNumber [2, 4, 3, 1, 0]
    block := fun b => { fn0.block b with
      liveOut := liveOut b
      killed := (Live.genKill (liveFn vars fn0 [1] 0 fun _ => []) b).2 } }

def use : Nat → Int := Live.consumed (liveFn vars fn0 [1] 0 fun _ => []) [0, 1, 3, 4, 2] fun _ => -1

/-- Layout, live variables and last uses. -/
example : (Cfg.buildRpo (succs fn) 0 5).map (·.2) = some [0, 1, 3, 4, 2] ∧ [0, 1, 2, 3, 4].map liveOut = [[3, 4], [3, 4], [3, 4], [], []] ∧
    [0, 1, 2, 3, 4, 5, 6, 7].map use = [-1, 2, 1, 0, 2, 3, 2, 4] := by decide +kernel

theorem split {L xs ys : List Insn} {i : Insn} (h : L = xs ++ i :: ys) : ∃ k, k < L.length ∧ L[k]? = some i ∧ xs = L.take k := by
  refine ⟨xs.length, ?_, ?_, ?_⟩
  · rw [h]; simp
  · rw [h]; simp
  · rw [h, List.take_left' rfl]

theorem path_head {succ : Nat → List Nat} {a b : Nat} {l : List Nat} (h : Path succ a l b) : l.head? = some a := by
  cases h <;> rfl

/-- The loop variables have a value in every block but the first. -/
theorem assigned {b v : Nat} (hb : b ≠ 0) (hv : v = 3 ∨ v = 4) : Assigned vars fn [1] 0 b v := by
  right
  intro l hp
  have hh := path_head hp
  cases l with
  | nil => simp at hh; exact absurd hh hb
  | cons x l =>
    simp at hh
    subst hh
    refine ⟨0, by simp, ?_⟩
    rcases hv with rfl | rfl
    · exact ⟨{ op := .unwound_phi, rd := some 3, rs1 := some 2 }, by decide, rfl⟩
    · exact ⟨{ op := .unwound_phi, rd := some 4, rs1 := some 1 }, by decide, rfl⟩

theorem reach_lt {b : Nat} (h : Reach (succs fn) 0 b) : b < 5 := by
  obtain ⟨l, hp⟩ := h
  have : ∀ a l b, Path (succs fn) a l b → a < 5 → b < 5 := by
    intro a l b hp
    induction hp with
    | nil => exact id
    | @cons a c b l h _ ih =>
      intro ha
      apply ih
      have hall : ∀ a < 5, ∀ c ∈ succs fn a, c < 5 := by decide +kernel
      exact hall a ha c h
  exact this _ _ _ hp (by decide)

theorem toExit {b : Nat} (h : b < 5) : Reach (succs fn) b fn.fnExit := by
  have h4 : Reach (succs fn) 4 4 := Cfg.Reach.refl 4
  have h3 : Reach (succs fn) 3 4 := Cfg.Reach.step (by decide) h4
  have h1 : Reach (succs fn) 1 4 := Cfg.Reach.step (by decide) h3
  have h2 : Reach (succs fn) 2 4 := Cfg.Reach.step (by decide) h1
  have h0 : Reach (succs fn) 0 4 := Cfg.Reach.step (by decide) h1
  rcases (by omega : b = 0 ∨ b = 1 ∨ b = 2 ∨ b = 3 ∨ b = 4) with rfl | rfl | rfl | rfl | rfl <;> assumption

def body (b : Nat) : List Insn :=
  [[{ op := .load_constant, rd := some 2 }], [],
   [{ op := .alu .add, rd := some 5, rs1 := some 3, rs2 := some 4 }, { op := .load_constant, rd := some 6 },
    { op := .alu .sub, rd := some 7, rs1 := some 4, rs2 := some 6 }]].getD b []

def phis (b : Nat) : List Insn :=
  [[{ op := .unwound_phi, rd := some 3, rs1 := some 2 }, { op := .unwound_phi, rd := some 4, rs1 := some 1 }], [],
   [{ op := .unwound_phi, rd := some 3, rs1 := some 5 }, { op := .unwound_phi, rd := some 4, rs1 := some 7 }]].getD b []

def last (b : Nat) : List Insn :=
  [[], [{ op := .branch, rs1 := some 4 }], [], [{ op := .ret, rs1 := some 3 }]].getD b []

theorem strict : ∀ b < 4, ∀ xs i ys, fn.insns b = xs ++ i :: ys → ∀ v, i.rs1 = some v ∨ i.rs2 = some v → vars.isGlobal v = false →
    Readable vars fn [1] 0 b xs v := by
  intro b hb xs i ys h v hv _
  obtain ⟨k, hk, hi, rfl⟩ := split h
  rcases (by omega : b = 0 ∨ b = 1 ∨ b = 2 ∨ b = 3) with rfl | rfl | rfl | rfl
  · have hk' : k < 3 := hk
    rcases (by omega : k = 0 ∨ k = 1 ∨ k = 2) with rfl | rfl | rfl <;> simp [fn, fn0] at hi <;> subst hi <;> simp at hv <;> subst hv
    · exact Or.inl ⟨{ op := .load_constant, rd := some 2 }, by decide, by decide, rfl⟩
    · exact Or.inr ⟨Or.inl (by decide), by decide⟩
  · have hk' : k < 1 := hk
    obtain rfl : k = 0 := by omega
    simp [fn, fn0] at hi
    subst hi
    simp at hv
    subst hv
    exact Or.inr ⟨assigned (by decide) (Or.inr rfl), by decide⟩
  · have hk' : k < 5 := hk
    rcases (by omega : k = 0 ∨ k = 1 ∨ k = 2 ∨ k = 3 ∨ k = 4) with rfl | rfl | rfl | rfl | rfl <;> simp [fn, fn0] at hi <;>
      subst hi <;> simp at hv
    · rcases hv with rfl | rfl
      · exact Or.inr ⟨assigned (by decide) (Or.inl rfl), by decide⟩
      · exact Or.inr ⟨assigned (by decide) (Or.inr rfl), by decide⟩
    · rcases hv with rfl | rfl
      · exact Or.inr ⟨assigned (by decide) (Or.inr rfl), by decide⟩
      · exact Or.inl ⟨{ op := .load_constant, rd := some 6 }, by decide, by decide, rfl⟩
    · subst hv
      exact Or.inl ⟨{ op := .alu .add, rd := some 5, rs1 := some 3, rs2 := some 4 }, by decide, by decide, rfl⟩
    · subst hv
      exact Or.inl ⟨{ op := .alu .sub, rd := some 7, rs1 := some 4, rs2 := some 6 }, by decide, by decide, rfl⟩
  · have hk' : k < 1 := hk
    obtain rfl : k = 0 := by omega
    simp [fn, fn0] at hi
    subst hi
    simp at hv
    subst hv
    exact Or.inr ⟨assigned (by decide) (Or.inl rfl), by decide⟩

theorem ssaBlock {b : Nat} (hb : b < 4) : SsaBlock vars fn [1] 0 use b (body b) (phis b) (last b) := by
  have hs := strict b hb
  rcases (by omega : b = 0 ∨ b = 1 ∨ b = 2 ∨ b = 3) with rfl | rfl | rfl | rfl
  · refine ⟨rfl, .next rfl, .one rfl .nil, hs, by simp [body, vars], by simp [body], ?_⟩
    intro xs i ys h
    obtain ⟨k, hk, hi, rfl⟩ := split h
    have hk' : k < 2 := hk
    rcases (by omega : k = 0 ∨ k = 1) with rfl | rfl <;> simp [phis] at hi <;> subst hi
    · exact ⟨3, 2, rfl, rfl, rfl, rfl, by simp, by decide, by decide⟩
    · exact ⟨4, 1, rfl, rfl, rfl, rfl, by decide, by decide, by decide⟩
  · exact ⟨rfl, .branch rfl rfl rfl rfl (by simp [phis]), .nil, hs, by simp [body], by simp [body], by simp [phis]⟩
  · refine ⟨rfl, .next rfl, .one rfl (.one rfl (.one rfl .nil)), hs, by simp [body, vars], by simp [body], ?_⟩
    intro xs i ys h
    obtain ⟨k, hk, hi, rfl⟩ := split h
    have hk' : k < 2 := hk
    rcases (by omega : k = 0 ∨ k = 1) with rfl | rfl <;> simp [phis] at hi <;> subst hi
    · exact ⟨3, 5, rfl, rfl, rfl, rfl, by simp, by decide, by decide⟩
    · exact ⟨4, 7, rfl, rfl, rfl, rfl, by decide, by decide, by decide⟩
  · exact ⟨rfl, .ret rfl rfl rfl rfl (by simp [phis]), .nil, hs, by simp [body], by simp [body], by simp [phis]⟩

theorem no_allocat : ∀ b, ∀ i ∈ fn.insns b, i.op ≠ .allocat := by
  intro b
  rcases b with _ | _ | _ | _ | b
  · decide
  · decide
  · decide
  · decide
  · intro i hi
    have : fn.insns (b + 1 + 1 + 1 + 1) = [] := rfl
    rw [this] at hi
    simp at hi

theorem ssa : SsaFn vars fn [1] [3] 0 [1, 3, 4, 2] use where
  entryExit := by decide
  exit := ⟨rfl, rfl⟩
  prev := by
    intro b
    rcases b with _ | _ | _ | _ | _ | b
    · decide
    · decide
    · decide
    · decide
    · decide
    · have e : succs fn (b + 1 + 1 + 1 + 1 + 1) = [0, 0] := by
        unfold succs
        rw [if_neg (by show ¬ (b + 1 + 1 + 1 + 1 + 1 = 4); omega)]
        rfl
      rw [e]
      simp [fn, fn0]
  noEntry := by decide +kernel
  toExit := fun b hb => toExit (reach_lt hb)
  param := ⟨by decide, by decide, by decide⟩
  single := fun b i hi d ho _ _ => absurd ho (no_allocat b i hi)
  block := by
    intro b hb hx
    refine ⟨_, _, _, ssaBlock (b := b) ?_⟩
    have hx' : b ≠ 4 := hx
    simp at hb
    omega

theorem moderate : Moderate vars fn [1] 0 [1, 3, 4, 2] use := by
  intro pre b post h
  rcases pre with _ | ⟨p0, _ | ⟨p1, _ | ⟨p2, _ | ⟨p3, _ | ⟨p4, pre⟩⟩⟩⟩⟩
  · simp only [List.nil_append, List.cons.injEq] at h
    obtain ⟨rfl, rfl⟩ := h
    refine ⟨⟨⟨[1], by decide, ?_⟩, ?_, ?_, ?_, ?_, ?_⟩, trivial⟩
    all_goals intros
    all_goals simp_all [fn, fn0]
  · simp only [List.cons_append, List.nil_append, List.cons.injEq] at h
    obtain ⟨rfl, rfl, rfl⟩ := h
    exact trivial
  · simp only [List.cons_append, List.nil_append, List.cons.injEq] at h
    obtain ⟨rfl, rfl, rfl, rfl⟩ := h
    exact trivial
  · simp only [List.cons_append, List.nil_append, List.cons.injEq] at h
    obtain ⟨rfl, rfl, rfl, rfl, rfl⟩ := h
    exact trivial
  · simp only [List.cons_append, List.nil_append, List.cons.injEq] at h
    obtain ⟨rfl, rfl, rfl, rfl, rfl, rfl⟩ := h
    refine ⟨⟨⟨[], by decide, ?_⟩, ?_, ?_, ?_, ?_, ?_⟩, ⟨⟨[3, 4, 5], by decide, ?_⟩, ?_, ?_, ?_, ?_, ?_⟩,
      ⟨⟨[3, 4, 5, 6], by decide, ?_⟩, ?_, ?_, ?_, ?_, ?_⟩, trivial⟩
    all_goals intros
    all_goals simp_all [mentions, fn, fn0]
    all_goals omega
  · have := congrArg List.length h
    simp at this

theorem analysed : Analysed vars fn [1] 0 [1, 3, 4, 2] use where
  layout := ⟨5, rfl⟩
  live := by
    refine ⟨prev, Cfg.rpoNumber [0, 2, 1, 3, 4], [4, 3, 1, 2, 0], 5, 5, liveOut, ?_, rfl, rfl, fun _ => rfl⟩
    intro a b hb
    rcases a with _ | _ | _ | _ | _ | a
    · revert b; decide +kernel
    · revert b; decide +kernel
    · revert b; decide +kernel
    · revert b; decide +kernel
    · revert b; decide +kernel
    · have h1 : prev (a + 1 + 1 + 1 + 1 + 1) = [] := rfl
      have h2 : ∀ b ∈ [0, 1, 3, 4, 2], ∀ c ∈ succs fn b, c < 5 := by decide +kernel
      rw [h1]
      refine ⟨fun h => by simp at h, fun h => ?_⟩
      have := h2 b hb _ h
      omega
  killed := fun _ _ => rfl
  use_ := ⟨fun _ => -1, fun _ _ => rfl, fun _ => ⟨Int.le_refl _, fun _ => rfl⟩⟩

/-- The hypotheses of C86 hold. -/
example : ∃ live, FnOk vars fn [1] [3] 0 [1, 3, 4, 2] use live := C86_analyses_partial ssa moderate analysed

/-- And those of `C86_analyses_terminate`, for the same function with no blocks but its own. -/
example : ∀ b ∈ [0, 1, 2, 3, 4], ∀ n ∈ succs fn0 b, n ∈ [0, 1, 2, 3, 4] := by decide +kernel

end Shecc.Props.RaSourceExample
