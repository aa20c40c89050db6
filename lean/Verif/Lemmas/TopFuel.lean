import Verif.Model.Top
import Verif.Lemmas.Fuel

/-!
# The bound on the depth of recursion only bounds: outside function bodies
-/

namespace Shecc.TopFuel
open Shecc.Parser (T)
open Shecc.Fuel (Le)
open Shecc.Top

theorem decl (n : Nat) : (∀ anon sp ts, Le (inner n anon sp ts) (inner (n + 1) anon sp ts)) ∧
    ∀ anon ts, Le (params n anon ts) (params (n + 1) anon ts) := by
  induction n with
  | zero => constructor <;> intros <;> intro r h <;> cases h
  | succ n ih =>
    obtain ⟨i1, i2⟩ := ih
    constructor
    · intro anon sp ts
      rw [inner.eq_def, inner.eq_def (n + 1 + 1)]
      dsimp only
      split <;> repeat' first | with_reducible exact Le.refl _ | apply i2 | refine Le.map _ ?_ | split
    · intro anon ts
      rw [params.eq_def, params.eq_def (n + 1 + 1)]
      dsimp only
      split <;> repeat' first | with_reducible exact Le.refl _ | apply i1 | apply i2 | (refine Le.bind ?_ fun _ => ?_) | refine Le.map _ ?_ | split

theorem inner (n : Nat) (anon : Bool) (sp : CTypes.TSpec) (ts : List T) : Le (inner n anon sp ts) (Top.inner (n + 1) anon sp ts) := (decl n).1 _ _ _
theorem params (n : Nat) (anon : Bool) (ts : List T) : Le (params n anon ts) (Top.params (n + 1) anon ts) := (decl n).2 _ _

theorem fullDecl (n : Nat) (ts : List T) : Le (fullDecl n ts) (Top.fullDecl (n + 1) ts) := by
  unfold Top.fullDecl
  split <;> first | apply inner | exact Le.refl _

theorem members (n : Nat) : ∀ ts, Le (members n ts) (Top.members (n + 1) ts) := by
  induction n with
  | zero => intro ts r h; cases h
  | succ n ih =>
    intro ts
    rw [Top.members.eq_def, Top.members.eq_def (n + 1 + 1)]
    dsimp only
    refine Le.bind (fullDecl n ts) fun _ => Fuel.expect _ _ fun _ => ?_
    split
    · exact Le.refl _
    · exact Le.map _ (ih _)

theorem enumItems (n : Nat) : ∀ ts, Le (enumItems n ts) (Top.enumItems (n + 1) ts) := by
  induction n with
  | zero => intro ts r h; cases h
  | succ n ih =>
    intro ts
    rw [Top.enumItems.eq_def, Top.enumItems.eq_def (n + 1 + 1)]
    dsimp only
    split <;> repeat' first | with_reducible exact Le.refl _ | apply ih | refine Le.map _ ?_ | split

theorem typeDecl (n : Nat) (ts : List T) : Le (typeDecl n ts) (Top.typeDecl (n + 1) ts) := by
  unfold Top.typeDecl
  split <;> repeat' first | with_reducible exact Le.refl _ | apply members | apply enumItems | (refine Le.bind ?_ fun _ => ?_)

theorem primary (n : Nat) : ∀ ts, Le (primary n ts) (Top.primary (n + 1) ts) := by
  induction n with
  | zero => intro ts r h; cases h
  | succ n ih =>
    intro ts
    rw [Top.primary.eq_def, Top.primary.eq_def (n + 1 + 1)]
    dsimp only
    split <;> repeat' first | with_reducible exact Le.refl _ | apply ih | (refine Le.bind ?_ fun _ => ?_) | refine Le.map _ ?_ | split

theorem operands (n : Nat) : ∀ ts, Le (operands n ts) (Top.operands (n + 1) ts) := by
  induction n with
  | zero => intro ts r h; cases h
  | succ n ih =>
    intro ts
    rw [Top.operands.eq_def, Top.operands.eq_def (n + 1 + 1)]
    dsimp only
    split <;> repeat' first | with_reducible exact Le.refl _ | apply ih | apply primary | (refine Le.bind ?_ fun _ => ?_) | refine Le.map _ ?_

theorem initializer (n : Nat) : ∀ ts, Le (initializer n ts) (Top.initializer (n + 1) ts) := by
  induction n with
  | zero => intro ts r h; cases h
  | succ n ih =>
    intro ts
    rw [Top.initializer.eq_def, Top.initializer.eq_def (n + 1 + 1)]
    dsimp only
    refine Le.bind (primary n _) fun _ => Le.bind (operands n _) fun _ => Le.bind (Le.refl _) fun _ => ?_
    split <;> repeat' first | with_reducible exact Le.refl _ | apply ih | (refine Le.bind ?_ fun _ => ?_) | split

variable (base : Nat)

theorem globalDecl (n : Nat) (ty : List Char) (ts : List T) (t : Tab) : Le (globalDecl base n ty ts t) (Top.globalDecl base (n + 1) ty ts t) := by
  unfold Top.globalDecl
  refine Le.bind (inner n _ _ _) fun _ => ?_
  split
  · refine Le.bind (params n _ _) fun _ => ?_
    dsimp only
    split
    · exact Le.refl _
    · exact Le.map _ (Fuel.funcBody _ (Nat.le_succ n) _ _ _ _)
  · dsimp only
    split
    · exact Le.bind (initializer n _) fun _ => Le.refl _
    · exact Le.refl _
  · exact Le.refl _
  · exact Le.refl _

theorem global_ (n : Nat) (ts : List T) (t : Tab) : Le (global_ base n ts t) (Top.global_ base (n + 1) ts t) := by
  unfold Top.global_
  split
  · exact globalDecl base n _ _ _
  · exact Le.bind (typeDecl n _) fun _ => Le.refl _

theorem loop (n : Nat) : ∀ ts t, Le (loop base n ts t) (Top.loop base (n + 1) ts t) := by
  induction n with
  | zero => intro ts t r h; cases h
  | succ n ih =>
    intro ts t
    rw [Top.loop.eq_def, Top.loop.eq_def base (n + 1 + 1)]
    dsimp only
    refine Le.bind (global_ base n _ _) fun _ => ?_
    split
    · exact Le.refl _
    · exact ih _ _

theorem program {n m : Nat} (h : n ≤ m) (ts : List T) : Le (program base n ts) (Top.program base m ts) := by
  induction h with
  | refl => exact Le.refl _
  | step _ ih => exact ih.trans (loop base _ _ _)

end Shecc.TopFuel
