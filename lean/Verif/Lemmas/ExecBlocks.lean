import Verif.Spec.SsaExec
import Verif.Lemmas.RenameMain

/-!
# Executions block by block, and the record of branch conditions
-/

namespace CExec
open CRename
open Shecc.Ssa (Op1)

variable {M : Mach} {X : Type} [DecidableEq X] {H : Home X}

/-! ### Executions are determined by their start -/

theorem Prog.Steps.trans {F : Prog X} {j k : Nat} {a b c : Conf M X} (h : F.Steps M H j a b) (h' : F.Steps M H k b c) :
    F.Steps M H (j + k) a c := by
  induction h with
  | refl _ => rwa [Nat.zero_add]
  | @step n _ _ _ hs _ ih => rw [show n + 1 + k = n + k + 1 by omega]; exact .step hs (ih h')

theorem Prog.Steps.rest {F : Prog X} {j : Nat} {c d : Conf M X} (h : F.Steps M H j c d) : ∀ {k e}, F.Steps M H k c e → j ≤ k →
    F.Steps M H (k - j) d e := by
  induction h with
  | refl c => intro k e h' _; exact h'
  | @step n c d e hs _ ih =>
    intro k e' h' hk
    cases h' with
    | refl => omega
    | @step m _ d' _ hs' t' =>
      rw [hs] at hs'
      cases hs'
      have := ih t' (by omega)
      rwa [show m + 1 - (n + 1) = m - n by omega]

theorem Prog.Steps.cut {F : Prog X} : ∀ {k n : Nat} {c d : Conf M X}, n ≤ k → F.Steps M H k c d → ∃ e, F.Steps M H n c e := by
  intro k n
  induction n generalizing k with
  | zero => intro c d _ _; exact ⟨c, .refl c⟩
  | succ n ih =>
    intro c d hk hst
    cases hst with
    | refl => omega
    | @step m _ e _ hs t =>
      obtain ⟨e', he'⟩ := ih (k := m) (c := e) (d := d) (by omega) t
      exact ⟨e', .step hs he'⟩

/-! ### Blocks -/

/-- The instructions before the branch. -/
def body (l : List (Ins X)) : List (Ins X) := l.takeWhile fun i => i.op != .branch

/-- The branch. -/
def branch? (l : List (Ins X)) : Option (Ins X) := l.find? fun i => i.op == .branch

/-- The block to go on with. -/
def leave (F : Prog X) (b : Nat) (br : Option (Ins X)) (s : State M X) : Option Nat :=
  match br with
  | none => F.next b
  | some i =>
    match i.rs1 with
    | none => none
    | some v => if rd M H s v ≠ 0 then F.then_ b else F.else_ b

/-- A whole block from some instruction on. -/
def blk (M : Mach) (H : Home X) (F : Prog X) (b : Nat) (l : List (Ins X)) (s : State M X) : Option (Nat × State M X) :=
  (run M H (body l) s).bind fun s' => (leave (H := H) F b (branch? l) s').map fun d => (d, s')

/-- Many blocks. -/
def blks (M : Mach) (H : Home X) (F : Prog X) : Nat → Nat → State M X → Option (Nat × State M X)
  | 0, b, s => some (b, s)
  | n + 1, b, s => (blks M H F n b s).bind fun r => blk M H F r.1 (F.code r.1) r.2

theorem body_cons (i : Ins X) (l : List (Ins X)) : body (i :: l) = if i.op = .branch then [] else i :: body l := by
  unfold body
  rw [List.takeWhile_cons]
  by_cases h : i.op = .branch <;> simp [h]

theorem branch?_cons (i : Ins X) (l : List (Ins X)) : branch? (i :: l) = if i.op = .branch then some i else branch? l := by
  unfold branch?
  rw [List.find?_cons]
  by_cases h : i.op = .branch
  · simp [h]
  · rw [if_neg h, show (i.op == Op1.branch) = false from by simpa using h]

theorem drop_cases {α : Type} (l : List α) (i : Nat) : (l[i]? = none ∧ l.drop i = []) ∨ ∃ x, l[i]? = some x ∧ l.drop i = x :: l.drop (i + 1) := by
  by_cases h : i < l.length
  · right; exact ⟨l[i], List.getElem?_eq_getElem h, List.drop_eq_getElem_cons h⟩
  · left; exact ⟨List.getElem?_eq_none (by omega), List.drop_eq_nil_of_le (by omega)⟩

/-- From the middle of a block to the next: the steps needed and no more than the instructions left. -/
theorem blk_steps (F : Prog X) (b : Nat) : ∀ (m i : Nat), (F.code b).length - i ≤ m → ∀ s : State M X,
    match blk M H F b ((F.code b).drop i) s with
    | some r => ∃ k, F.Steps M H (k + 1) ⟨b, i, s⟩ ⟨r.1, 0, r.2⟩ ∧ k ≤ m ∧
        ∀ j e, j ≤ k → F.Steps M H j ⟨b, i, s⟩ e → e.i = 0 → j = 0
    | none => ¬ ∃ e, F.Steps M H (m + 1) ⟨b, i, s⟩ e := by
  intro m
  induction m with
  | zero =>
    intro i hi s
    have hd : (F.code b).drop i = [] := List.drop_eq_nil_of_le (by omega)
    have hg : (F.code b)[i]? = none := List.getElem?_eq_none (by omega)
    rw [hd]
    have hst : F.step M H ⟨b, i, s⟩ = (F.next b).map fun c => ⟨c, 0, s⟩ := by unfold Prog.step; simp only [hg]
    simp only [blk, body, branch?, List.takeWhile_nil, List.find?_nil, run, Option.bind_some, leave]
    cases hn : F.next b with
    | none =>
      simp only [Option.map_none]
      rintro ⟨e, h⟩
      cases h with
      | step hs _ => rw [hst, hn] at hs; cases hs
    | some c =>
      simp only [Option.map_some]
      refine ⟨0, .step (by rw [hst, hn]; rfl) (.refl _), Nat.le_refl _, fun j e hj _ _ => by omega⟩
  | succ m ih =>
    intro i hi s
    rcases drop_cases (F.code b) i with ⟨hg, hd⟩ | ⟨x, hg, hd⟩
    · rw [hd]
      have hst : F.step M H ⟨b, i, s⟩ = (F.next b).map fun c => ⟨c, 0, s⟩ := by unfold Prog.step; simp only [hg]
      simp only [blk, body, branch?, List.takeWhile_nil, List.find?_nil, run, Option.bind_some, leave]
      cases hn : F.next b with
      | none =>
        simp only [Option.map_none]
        rintro ⟨e, h⟩
        cases h with
        | step hs _ => rw [hst, hn] at hs; cases hs
      | some c =>
        simp only [Option.map_some]
        refine ⟨0, .step (by rw [hst, hn]; rfl) (.refl _), by omega, fun j e hj _ _ => by omega⟩
    · rw [hd]
      by_cases hx : x.op = .branch
      · have hst : F.step M H ⟨b, i, s⟩ = (leave (H := H) F b (some x) s).map fun c => ⟨c, 0, s⟩ := by
          unfold Prog.step
          simp only [hg, if_pos hx, leave]
          cases x.rs1 <;> rfl
        have hb : blk M H F b (x :: (F.code b).drop (i + 1)) s = (leave (H := H) F b (some x) s).map fun d => (d, s) := by
          unfold blk
          rw [body_cons, branch?_cons, if_pos hx, if_pos hx]
          rfl
        rw [hb]
        cases hn : leave (H := H) F b (some x) s with
        | none =>
          simp only [Option.map_none]
          rintro ⟨e, h⟩
          cases h with
          | step hs _ => rw [hst, hn] at hs; cases hs
        | some c =>
          simp only [Option.map_some]
          refine ⟨0, .step (by rw [hst, hn]; rfl) (.refl _), by omega, fun j e hj _ _ => by omega⟩
      · have hst : F.step M H ⟨b, i, s⟩ = (step M H x s).map fun s' => ⟨b, i + 1, s'⟩ := by
          unfold Prog.step
          simp only [hg, if_neg hx]
        have hb : blk M H F b (x :: (F.code b).drop (i + 1)) s = (step M H x s).bind (blk M H F b ((F.code b).drop (i + 1))) := by
          unfold blk
          rw [body_cons, branch?_cons, if_neg hx, if_neg hx]
          show ((step M H x s).bind _).bind _ = _
          cases step M H x s <;> rfl
        rw [hb]
        cases hn : step M H x s with
        | none =>
          simp only [Option.bind_none]
          rintro ⟨e, h⟩
          cases h with
          | step hs _ => rw [hst, hn] at hs; cases hs
        | some s' =>
          have := ih (i + 1) (by omega) s'
          simp only [Option.bind_some]
          have hs1 : F.step M H ⟨b, i, s⟩ = some ⟨b, i + 1, s'⟩ := by rw [hst, hn]; rfl
          cases hr : blk M H F b ((F.code b).drop (i + 1)) s' with
          | none =>
            rw [hr] at this
            simp only at this ⊢
            rintro ⟨e, h⟩
            cases h with
            | step hs t => rw [hs1] at hs; cases hs; exact this ⟨e, t⟩
          | some r =>
            rw [hr] at this
            obtain ⟨k, h1, h2, h3⟩ := this
            refine ⟨k + 1, .step hs1 h1, by omega, ?_⟩
            intro j e hj h he
            cases h with
            | refl => rfl
            | @step j' _ _ _ hs t =>
              rw [hs1] at hs
              cases hs
              have := h3 j' e (by omega) t he
              subst this
              cases t
              simp at he

/-- Executions that end at the start of a block. -/
theorem blks_of_steps (F : Prog X) : ∀ (k : Nat) (b d : Nat) (s s' : State M X), F.Steps M H k ⟨b, 0, s⟩ ⟨d, 0, s'⟩ →
    ∃ n, blks M H F n b s = some (d, s') := by
  have first : ∀ n b s, blks M H F (n + 1) b s = (blk M H F b (F.code b) s).bind fun r => blks M H F n r.1 r.2 := by
    intro n
    induction n with
    | zero =>
      intro b s
      simp only [blks, Option.bind_some]
      cases blk M H F b (F.code b) s <;> rfl
    | succ n ih =>
      intro b s
      rw [blks, ih]
      cases blk M H F b (F.code b) s <;> rfl
  intro k
  induction k using Nat.strongRecOn with
  | _ k ih =>
    intro b d s s' h
    by_cases hk : k = 0
    · subst hk
      cases h
      exact ⟨0, rfl⟩
    · have := blk_steps (M := M) (H := H) F b _ 0 (Nat.le_refl _) s
      rw [List.drop_zero] at this
      cases hr : blk M H F b (F.code b) s with
      | none =>
        rw [hr] at this
        simp only [Nat.sub_zero] at this
        -- the execution is shorter than the block: it never comes back to position 0
        exfalso
        have pos : ∀ (m i : Nat) (s : State M X), blk M H F b ((F.code b).drop i) s = none → ∀ k e, F.Steps M H k ⟨b, i, s⟩ e → (F.code b).length - i ≤ m → e.b = b ∧ e.i = i + k := by
          intro m
          induction m with
          | zero =>
            intro i s hn k e h hm
            have hd : (F.code b).drop i = [] := List.drop_eq_nil_of_le (by omega)
            have hg : (F.code b)[i]? = none := List.getElem?_eq_none (by omega)
            rw [hd] at hn
            simp only [blk, body, branch?, List.takeWhile_nil, List.find?_nil, run, Option.bind_some, leave, Option.map_eq_none_iff] at hn
            cases h with
            | refl => exact ⟨rfl, rfl⟩
            | step hs _ =>
              unfold Prog.step at hs
              simp only [hg, hn] at hs
              cases hs
          | succ m ih =>
            intro i s hn k e h hm
            rcases drop_cases (F.code b) i with ⟨hg, hd⟩ | ⟨x, hg, hd⟩
            · rw [hd] at hn
              simp only [blk, body, branch?, List.takeWhile_nil, List.find?_nil, run, Option.bind_some, leave, Option.map_eq_none_iff] at hn
              cases h with
              | refl => exact ⟨rfl, rfl⟩
              | step hs _ =>
                unfold Prog.step at hs
                simp only [hg, hn] at hs
                cases hs
            · rw [hd] at hn
              cases h with
              | refl => exact ⟨rfl, rfl⟩
              | @step k' _ c' _ hs t =>
                by_cases hx : x.op = .branch
                · unfold blk at hn
                  rw [body_cons, branch?_cons, if_pos hx, if_pos hx] at hn
                  simp only [run, Option.bind_some, Option.map_eq_none_iff, leave] at hn
                  unfold Prog.step at hs
                  simp only [hg, if_pos hx] at hs
                  cases hv : x.rs1 with
                  | none => rw [hv] at hs; cases hs
                  | some v =>
                    rw [hv] at hs hn
                    simp only at hs hn
                    rw [hn] at hs
                    cases hs
                · unfold Prog.step at hs
                  simp only [hg, if_neg hx] at hs
                  cases hq : step M H x s with
                  | none => rw [hq] at hs; cases hs
                  | some s1 =>
                    rw [hq] at hs
                    simp only [Option.map_some, Option.some.injEq] at hs
                    subst hs
                    have hn' : blk M H F b ((F.code b).drop (i + 1)) s1 = none := by
                      unfold blk at hn ⊢
                      rw [body_cons, branch?_cons, if_neg hx, if_neg hx] at hn
                      simpa only [run, hq, Option.bind_some] using hn
                    have := ih (i + 1) s1 hn' k' e t (by omega)
                    exact ⟨this.1, by rw [this.2]; omega⟩
        have := pos _ 0 s (by rw [List.drop_zero]; exact hr) k _ h (Nat.le_refl _)
        simp only [Nat.zero_add] at this
        omega
      | some r =>
        rw [hr] at this
        obtain ⟨j, h1, _, h3⟩ := this
        by_cases hj : k ≤ j
        · exact absurd (h3 k _ hj h rfl) hk
        · obtain ⟨n, hn⟩ := ih (k - (j + 1)) (by omega) r.1 d r.2 s' (h1.rest h (by omega))
          exact ⟨n + 1, by rw [first, hr]; exact hn⟩

theorem steps_of_blks (F : Prog X) (b : Nat) (s : State M X) : ∀ (n : Nat) (d : Nat) (s' : State M X),
    blks M H F n b s = some (d, s') → ∃ k, n ≤ k ∧ F.Steps M H k ⟨b, 0, s⟩ ⟨d, 0, s'⟩ := by
  intro n
  induction n with
  | zero =>
    intro d s' h
    cases h
    exact ⟨0, Nat.le_refl _, .refl _⟩
  | succ n ih =>
    intro d s' h
    rw [blks] at h
    obtain ⟨r, h1, h2⟩ := Option.bind_eq_some_iff.mp h
    obtain ⟨k, hk, hst⟩ := ih r.1 r.2 h1
    have := blk_steps (M := M) (H := H) F r.1 _ 0 (Nat.le_refl _) r.2
    rw [List.drop_zero, h2] at this
    obtain ⟨j, h3, _⟩ := this
    exact ⟨k + (j + 1), by omega, hst.trans h3⟩

/-- An execution goes on for ever exactly if it completes any number of blocks. -/
theorem forever_iff (F : Prog X) (b : Nat) (s : State M X) :
    (∀ n, ∃ d, F.Steps M H n ⟨b, 0, s⟩ d) ↔ ∀ n, blks M H F n b s ≠ none := by
  constructor
  · intro h n
    induction n with
    | zero => intro hn; cases hn
    | succ n ih =>
      intro hn
      obtain ⟨r, hr⟩ := Option.ne_none_iff_exists'.mp ih
      rw [blks, hr, Option.bind_some] at hn
      obtain ⟨k, _, hst⟩ := steps_of_blks F b s n r.1 r.2 hr
      have stop := blk_steps (M := M) (H := H) F r.1 _ 0 (Nat.le_refl _) r.2
      rw [List.drop_zero, hn] at stop
      simp only [Nat.sub_zero] at stop
      obtain ⟨e, he⟩ := h (k + ((F.code r.1).length + 1))
      have := hst.rest he (by omega)
      rw [Nat.add_sub_cancel_left] at this
      exact stop ⟨e, this⟩
  · intro h n
    obtain ⟨r, hr⟩ := Option.ne_none_iff_exists'.mp (h n)
    obtain ⟨k, hk, hst⟩ := steps_of_blks F b s n r.1 r.2 hr
    exact hst.cut hk

/-! ### The record of branch conditions -/

/-- The machine that also records the operands of branches. -/
def logged (M : Mach) : Mach where
  World := M.World × List (Option Word)
  get := fun w a => M.get w.1 a
  set := fun w a x => (M.set w.1 a x, w.2)
  act := fun t a b w => if t.op = .branch then some ((w.1, w.2 ++ [a]), 0) else (M.act t a b w.1).map fun r => ((r.1, w.2), r.2)

def addLog (lg : List (Option Word)) (s : State M X) : State (logged M) X := ((s.1, lg), s.2)

theorem logged_rd (lg : List (Option Word)) (s : State M X) (v : X) : rd (logged M) H (addLog lg s) v = rd M H s v := rfl

theorem logged_wr (lg : List (Option Word)) (s : State M X) (v : X) (x : Word) :
    wr (logged M) H (addLog lg s) v x = addLog lg (wr M H s v x) := by
  unfold wr
  split <;> rfl

theorem logged_act (t : Tag) (a b : Option Word) (lg : List (Option Word)) (s : State M X) (h : t.op ≠ .branch) :
    (logged M).act t a b (addLog lg s).1 = (M.act t a b s.1).map fun r => ((r.1, lg), r.2) := if_neg h

theorem logged_act_branch (t : Tag) (a b : Option Word) (lg : List (Option Word)) (s : State M X) (h : t.op = .branch) :
    (logged M).act t a b (addLog lg s).1 = some ((s.1, lg ++ [a]), 0) := if_pos h

theorem logged_step (lg : List (Option Word)) (s : State M X) (i : Ins X) (hi : i.op ≠ .branch) :
    step (logged M) H i (addLog lg s) = (step M H i s).map (addLog lg) := by
  have ha : arg1 (logged M) H i (addLog lg s) = arg1 M H i s := rfl
  have hb : i.rs2.map (rd (logged M) H (addLog lg s)) = i.rs2.map (rd M H s) := rfl
  have gen : ((logged M).act i.tag (arg1 (logged M) H i (addLog lg s)) (i.rs2.map (rd (logged M) H (addLog lg s))) (addLog lg s).1).map
      (fun r => match i.rd with
        | none => (r.1, (addLog lg s).2)
        | some d => if i.op = .allocat ∧ H.mem d = true then (r.1, (addLog lg s).2) else wr (logged M) H (r.1, (addLog lg s).2) d r.2) =
      ((M.act i.tag (arg1 M H i s) (i.rs2.map (rd M H s)) s.1).map (fun r => match i.rd with
        | none => (r.1, s.2)
        | some d => if i.op = .allocat ∧ H.mem d = true then (r.1, s.2) else wr M H (r.1, s.2) d r.2)).map (addLog lg) := by
    rw [ha, hb, logged_act i.tag _ _ lg s hi]
    cases M.act i.tag (arg1 M H i s) (i.rs2.map (rd M H s)) s.1 with
    | none => rfl
    | some r =>
      simp only [Option.map_some, Option.some.injEq]
      cases i.rd with
      | none => rfl
      | some d =>
        simp only
        split
        · rfl
        · exact congrArg some (logged_wr lg (r.1, s.2) d r.2)
  unfold step
  split
  · rename_i d a _ _ _
    simp only [Option.map_some, Option.some.injEq]
    rw [logged_rd]
    exact logged_wr lg s d _
  · exact gen

theorem logged_run (lg : List (Option Word)) : ∀ (l : List (Ins X)) (s : State M X), (∀ i ∈ l, i.op ≠ .branch) →
    run (logged M) H l (addLog lg s) = (run M H l s).map (addLog lg) := by
  intro l
  induction l with
  | nil => intro s _; rfl
  | cons i l ih =>
    intro s h
    simp only [run]
    rw [logged_step lg s i (h i (by simp))]
    cases step M H i s with
    | none => rfl
    | some s' => exact ih s' (fun j hj => h j (by simp [hj]))

theorem logged_branch (lg : List (Option Word)) (s : State M X) (i : Ins X) (hi : i.op = .branch) (hr : i.rd = none) :
    step (logged M) H i (addLog lg s) = some (addLog (lg ++ [i.rs1.map (rd M H s)]) s) := by
  unfold step
  rw [hi, hr]
  simp only
  have : (logged M).act i.tag (arg1 (logged M) H i (addLog lg s)) (i.rs2.map (rd (logged M) H (addLog lg s))) (addLog lg s).1 =
      some ((s.1, lg ++ [i.rs1.map (rd M H s)]), 0) := by
    rw [logged_act_branch i.tag _ _ lg s hi]
    have ha : arg1 (logged M) H i (addLog lg s) = i.rs1.map (rd M H s) := by
      unfold arg1
      rw [hi]
      cases i.rs1 <;> rfl
    rw [ha]
  rw [this]
  rfl

/-- A block whose only branch is its last instruction. -/
def OneBranch (l : List (Ins X)) : Prop :=
  (∀ i ∈ l, i.op ≠ .branch) ∨ ∃ xs i, l = xs ++ [i] ∧ i.op = .branch ∧ i.rd = none ∧ ∀ x ∈ xs, x.op ≠ .branch

theorem body_clean : ∀ (l : List (Ins X)), (∀ i ∈ l, i.op ≠ .branch) → body l = l ∧ branch? l = none := by
  intro l
  induction l with
  | nil => intro _; exact ⟨rfl, rfl⟩
  | cons i l ih =>
    intro h
    have hi := h i (by simp)
    obtain ⟨h1, h2⟩ := ih (fun j hj => h j (by simp [hj]))
    rw [body_cons, branch?_cons, if_neg hi, if_neg hi, h1, h2]
    exact ⟨rfl, rfl⟩

theorem body_branch (i : Ins X) (hi : i.op = .branch) : ∀ (l : List (Ins X)), (∀ i ∈ l, i.op ≠ .branch) →
    body (l ++ [i]) = l ∧ branch? (l ++ [i]) = some i := by
  intro l
  induction l with
  | nil => intro _; rw [List.nil_append, body_cons, branch?_cons, if_pos hi, if_pos hi]; exact ⟨rfl, rfl⟩
  | cons x l ih =>
    intro h
    have hx := h x (by simp)
    obtain ⟨h1, h2⟩ := ih (fun j hj => h j (by simp [hj]))
    rw [List.cons_append, body_cons, branch?_cons, if_neg hx, if_neg hx, h1, h2]
    exact ⟨rfl, rfl⟩

/-- What the record says about a block. -/
theorem logged_block {l : List (Ins X)} (h : OneBranch l) (lg : List (Option Word)) (s : State M X) :
    run (logged M) H l (addLog lg s) =
      (run M H (body l) s).map fun s' => addLog (lg ++ ((branch? l).map fun i => i.rs1.map (rd M H s')).toList) s' := by
  rcases h with h | ⟨xs, i, rfl, hi, hr, hx⟩
  · obtain ⟨h1, h2⟩ := body_clean l h
    rw [h1, h2, logged_run lg l s h]
    simp only [Option.map_none, Option.toList_none, List.append_nil]
  · obtain ⟨h1, h2⟩ := body_branch i hi xs hx
    rw [h1, h2]
    have app : ∀ (a b : List (Ins X)) (t : State (logged M) X), run (logged M) H (a ++ b) t = (run (logged M) H a t).bind (run (logged M) H b) := by
      intro a b
      induction a with
      | nil => intro t; rfl
      | cons x a ih =>
        intro t
        simp only [List.cons_append, run]
        cases step (logged M) H x t with
        | none => rfl
        | some t' => exact ih t'
    rw [app, logged_run lg xs s hx]
    cases run M H xs s with
    | none => rfl
    | some s' =>
      simp only [Option.map_some, Option.bind_some, Option.toList_some]
      simp only [run]
      rw [logged_branch lg s' i hi hr]
      rfl

/-- The next block as a function of the record. -/
def leaveLog (F : Prog X) (b : Nat) (o : Option (Option Word)) : Option Nat :=
  match o with
  | none => F.next b
  | some none => none
  | some (some x) => if x ≠ 0 then F.then_ b else F.else_ b

theorem leave_log (F : Prog X) (b : Nat) (br : Option (Ins X)) (s : State M X) :
    leave (H := H) F b br s = leaveLog F b (br.map fun i => i.rs1.map (rd M H s)) := by
  cases br with
  | none => rfl
  | some i =>
    unfold leave leaveLog
    simp only [Option.map_some]
    cases i.rs1 <;> rfl

end CExec
