import Verif.Spec.CExpr

namespace Shecc.Parser
open Shecc.Lex (isDigit isHex) 
open CExpr

/-! ### Literals -/

theorem dec_digit : ∀ c ∈ "0123456789".toList, c.toNat = 48 + digitVal c ∧ isDigit c = true ∧ c ≠ 'x' ∧ digitVal c < 10 := by
  decide

theorem oct_digit : ∀ c ∈ "01234567".toList, c.toNat = 48 + digitVal c ∧ isDigit c = true ∧ c ≠ 'x' ∧ c.toNat ≤ 55 := by
  decide

theorem hex_digit : ∀ c ∈ "0123456789abcdefABCDEF".toList, isHex c = true ∧
    ((isDigit c = true ∧ c.toNat = 48 + digitVal c ∧ ¬ (97 ≤ c.toNat ||| 32 ∧ c.toNat ||| 32 ≤ 102)) ∨
     (isDigit c = false ∧ 97 ≤ c.toNat ||| 32 ∧ c.toNat ||| 32 ≤ 102 ∧ (c.toNat ||| 32) - 97 + 10 = digitVal c)) := by
  decide

theorem step_dec (b n d k : Nat) (hk : k = 48 + d) :
    BitVec.ofNat 32 n * BitVec.ofNat 32 b + BitVec.ofNat 32 k - 48#32 = BitVec.ofNat 32 (n * b + d) := by
  subst hk
  rw [BitVec.ofNat_add, BitVec.ofNat_add, BitVec.ofNat_mul]
  generalize BitVec.ofNat 32 n * BitVec.ofNat 32 b = x
  generalize BitVec.ofNat 32 d = y
  rw [BitVec.sub_eq_add_neg, BitVec.add_assoc, BitVec.add_comm 48#32 y, BitVec.add_assoc y]
  rw [← BitVec.sub_eq_add_neg, BitVec.sub_self, BitVec.add_zero]

theorem numLoop_dec (ds : List Char) : ∀ (i n : Nat), (∀ c ∈ ds, c ∈ "0123456789".toList) →
    numLoop false i (BitVec.ofNat 32 n) ds = BitVec.ofNat 32 (ds.foldl (fun v c => v * 10 + digitVal c) n) := by
  induction ds with
  | nil => intro i n _; rfl
  | cons c ds ih =>
    intro i n h
    obtain ⟨h1, h2, h3, _⟩ := dec_digit c (h c (by simp))
    rw [numLoop, if_neg (fun k => h3 k.2), if_neg (by simp)]
    rw [show (10 : Int32) = BitVec.ofNat 32 10 from rfl, show (48 : Int32) = 48#32 from rfl, step_dec 10 n _ _ h1]
    rw [ih _ _ (fun x hx => h x (by simp [hx])), List.foldl_cons]

theorem numLoop_oct (ds : List Char) : ∀ (i n : Nat), (∀ c ∈ ds, c ∈ "01234567".toList) →
    numLoop true i (BitVec.ofNat 32 n) ds = BitVec.ofNat 32 (ds.foldl (fun v c => v * 8 + digitVal c) n) := by
  induction ds with
  | nil => intro i n _; rfl
  | cons c ds ih =>
    intro i n h
    obtain ⟨h1, h2, h3, _⟩ := oct_digit c (h c (by simp))
    rw [numLoop, if_neg (fun k => h3 k.2), if_pos rfl]
    rw [show (8 : Int32) = BitVec.ofNat 32 8 from rfl, show (48 : Int32) = 48#32 from rfl, step_dec 8 n _ _ h1]
    rw [ih _ _ (fun x hx => h x (by simp [hx])), List.foldl_cons]

theorem shl4 (n d : Nat) : BitVec.ofNat 32 n <<< 4 + BitVec.ofNat 32 d = BitVec.ofNat 32 (n * 16 + d) := by
  apply BitVec.eq_of_toNat_eq
  simp [Nat.shiftLeft_eq]

theorem mul16 (n d : Nat) : BitVec.ofNat 32 n * 16 + BitVec.ofNat 32 d = BitVec.ofNat 32 (n * 16 + d) := by
  rw [show (16 : Int32) = BitVec.ofNat 32 16 from rfl, BitVec.ofNat_add, BitVec.ofNat_mul]

theorem hexLoop_val (ds : List Char) : ∀ (n : Nat), (∀ c ∈ ds, c ∈ "0123456789abcdefABCDEF".toList) →
    hexLoop (BitVec.ofNat 32 n) ds = BitVec.ofNat 32 (ds.foldl (fun v c => v * 16 + digitVal c) n) := by
  induction ds with
  | nil => intro n _; rfl
  | cons c ds ih =>
    intro n h
    have ih' := fun n => ih n (fun x hx => h x (by simp [hx]))
    obtain ⟨_, (⟨h1, h2, h3⟩ | ⟨h1, h2, h3, h4⟩)⟩ := hex_digit c (h c (by simp))
    · have e : c.toNat - 48 = digitVal c := by omega
      simp only [hexLoop, h1, if_true, if_neg h3, e, shl4, ih', List.foldl_cons]
    · simp only [hexLoop, h1, Bool.false_eq_true, if_false, if_pos (And.intro h2 h3), h4, shl4, ih', List.foldl_cons]

theorem paramHex_val (ds : List Char) : ∀ (n : Nat), ds ≠ [] → (∀ c ∈ ds, c ∈ "0123456789abcdefABCDEF".toList) →
    paramHex (BitVec.ofNat 32 n) ds = some (BitVec.ofNat 32 (ds.foldl (fun v c => v * 16 + digitVal c) n)) := by
  induction ds with
  | nil => intro n h; exact absurd rfl h
  | cons c ds ih =>
    intro n _ h
    have d : (if isDigit c then some (c.toNat - 48)
      else if 97 ≤ c.toNat ||| 32 ∧ c.toNat ||| 32 ≤ 102 then some ((c.toNat ||| 32) - 97 + 10) else none) =
        some (digitVal c) := by
      obtain ⟨_, (⟨h1, h2, h3⟩ | ⟨h1, h2, h3, h4⟩)⟩ := hex_digit c (h c (by simp))
      · rw [if_pos h1, show c.toNat - 48 = digitVal c by omega]
      · rw [if_neg (by simp [h1]), if_pos ⟨h2, h3⟩, h4]
    cases ds with
    | nil => simp only [paramHex, d, mul16, List.foldl_cons, List.foldl_nil]
    | cons c' ds =>
      have hx := (hex_digit c' (h c' (by simp))).1
      rw [paramHex]
      simp only [d, mul16, hx, if_true]
      rw [ih _ (by simp) (fun x hx => h x (by simp [hx]))]
      rfl

theorem stepInt (b n d k : Nat) (hk : k = 48 + d) :
    BitVec.ofNat 32 n * BitVec.ofNat 32 b + BitVec.ofInt 32 ((k : Int) - 48) = BitVec.ofNat 32 (n * b + d) := by
  subst hk
  rw [show ((48 + d : Nat) : Int) - 48 = (d : Int) by omega, BitVec.ofInt_natCast, BitVec.ofNat_add, BitVec.ofNat_mul]

theorem paramOct_val (ds : List Char) : ∀ (n : Nat), ds ≠ [] → (∀ c ∈ ds, c ∈ "01234567".toList) →
    paramOct (BitVec.ofNat 32 n) ds = some (BitVec.ofNat 32 (ds.foldl (fun v c => v * 8 + digitVal c) n)) := by
  induction ds with
  | nil => intro n h; exact absurd rfl h
  | cons c ds ih =>
    intro n _ h
    obtain ⟨h1, h2, h3, h4⟩ := oct_digit c (h c (by simp))
    cases ds with
    | nil =>
      simp only [paramOct, if_neg (show ¬ c.toNat > 55 by omega)]
      rw [show (8 : Int32) = BitVec.ofNat 32 8 from rfl, stepInt 8 n _ _ h1]
      rfl
    | cons c' ds =>
      have hx := (oct_digit c' (h c' (by simp))).2.1
      rw [paramOct, if_neg (show ¬ c.toNat > 55 by omega)]
      simp only [hx, if_true]
      rw [show (8 : Int32) = BitVec.ofNat 32 8 from rfl, stepInt 8 n _ _ h1]
      rw [ih _ (by simp) (fun x hx => h x (by simp [hx]))]
      rfl

theorem paramDec_val (ds : List Char) : ∀ (n : Nat), ds ≠ [] → (∀ c ∈ ds, c ∈ "0123456789".toList) →
    paramDec (BitVec.ofNat 32 n) ds = some (BitVec.ofNat 32 (ds.foldl (fun v c => v * 10 + digitVal c) n)) := by
  induction ds with
  | nil => intro n h; exact absurd rfl h
  | cons c ds ih =>
    intro n _ h
    obtain ⟨h1, h2, h3, h4⟩ := dec_digit c (h c (by simp))
    cases ds with
    | nil =>
      simp only [paramDec]
      rw [show (10 : Int32) = BitVec.ofNat 32 10 from rfl, stepInt 10 n _ _ h1]
      rfl
    | cons c' ds =>
      have hx := (dec_digit c' (h c' (by simp))).2.1
      rw [paramDec]
      simp only [hx, if_true]
      rw [show (10 : Int32) = BitVec.ofNat 32 10 from rfl, stepInt 10 n _ _ h1]
      rw [ih _ (by simp) (fun x hx => h x (by simp [hx]))]
      rfl

/-! ### Grouping -/

variable {α : Type}

theorem grouped_mem_ge (p : POp → Nat) (t : Tree α) (hg : t.Grouped p) (k : Nat) (hk : ∀ o, t.root? = some o → k ≤ p o) :
    ∀ x ∈ t.rest, k ≤ p x.1 := by
  induction t with
  | leaf a => intro x hx; simp [Tree.rest] at hx
  | node op l r ihl ihr =>
    obtain ⟨g1, g2, g3, g4⟩ := hg
    have h0 := hk op rfl
    intro x hx
    simp only [Tree.rest, List.mem_append, List.mem_cons] at hx
    rcases hx with hx | rfl | hx
    · exact ihl g1 (fun o ho => Nat.le_trans h0 (g3 o ho)) x hx
    · exact h0
    · exact ihr g2 (fun o ho => Nat.le_trans h0 (Nat.le_of_lt (g4 o ho))) x hx

/-- There is at most one grouping. -/
theorem grouped_unique (p : POp → Nat) : ∀ (t t' : Tree α), t.Grouped p → t'.Grouped p → t.first = t'.first →
    t.rest = t'.rest → t = t' := by
  intro t
  induction t with
  | leaf a =>
    intro t' _ _ h1 h2
    cases t' with
    | leaf b => simp only [Tree.first] at h1; rw [h1]
    | node op l r => simp [Tree.rest] at h2
  | node op l r ihl ihr =>
    intro t' hg hg' h1 h2
    cases t' with
    | leaf b => simp [Tree.rest] at h2
    | node op' l' r' =>
      obtain ⟨g1, g2, g3, g4⟩ := hg
      obtain ⟨g1', g2', g3', g4'⟩ := hg'
      simp only [Tree.first, Tree.rest] at h1 h2
      have lle : ∀ x ∈ l.rest, p op ≤ p x.1 := grouped_mem_ge p l g1 _ g3
      have rlt : ∀ x ∈ r.rest, p op + 1 ≤ p x.1 := grouped_mem_ge p r g2 _ g4
      have lle' : ∀ x ∈ l'.rest, p op' ≤ p x.1 := grouped_mem_ge p l' g1' _ g3'
      have rlt' : ∀ x ∈ r'.rest, p op' + 1 ≤ p x.1 := grouped_mem_ge p r' g2' _ g4'
      have key : l.rest = l'.rest ∧ (op, r.first) :: r.rest = (op', r'.first) :: r'.rest := by
        rcases List.append_eq_append_iff.1 h2 with ⟨m, e1, e2⟩ | ⟨m, e1, e2⟩
        · cases m with
          | nil => exact ⟨by simpa using e1.symm, by simpa using e2⟩
          | cons x m =>
            exfalso
            simp only [List.cons_append, List.cons.injEq] at e2
            have a1 := lle' x (by rw [e1]; simp)
            rw [← e2.1] at a1
            have a2 := rlt (op', r'.first) (by rw [e2.2]; simp)
            simp only at a1 a2
            omega
        · cases m with
          | nil => exact ⟨by simpa using e1, by simpa using e2.symm⟩
          | cons x m =>
            exfalso
            simp only [List.cons_append, List.cons.injEq] at e2
            have a1 := lle x (by rw [e1]; simp)
            rw [← e2.1] at a1
            have a2 := rlt' (op, r.first) (by rw [e2.2]; simp)
            simp only at a1 a2
            omega
      obtain ⟨k1, k2⟩ := key
      simp only [List.cons.injEq, Prod.mk.injEq] at k2
      obtain ⟨⟨k3, k4⟩, k5⟩ := k2
      rw [k3, ihl l' g1 g1' h1 k1, ihr r' g2 g2' k4 k5]

/-! The two-stack algorithm on trees. -/

def mkTree (op : POp) (a b : Tree α) : Option (Tree α) := some (.node op a b)

/-- The expression the stacks stand for. -/
def stackFirst : List (Tree α) → Option α
  | [] => none
  | [v] => some v.first
  | _ :: vs => stackFirst vs

/-- Invariant of the stacks; the operands read so far are those of `vs`, with the operators `os` in between. -/
inductive SInv (p : POp → Nat) : List POp → List (Tree α) → α → List (POp × α) → Prop
  | one (t : Tree α) (hg : t.Grouped p) : SInv p [] [t] t.first t.rest
  | push (o : POp) (os : List POp) (t w : Tree α) (vs : List (Tree α)) (a : α) (l : List (POp × α))
      (h : SInv p os (w :: vs) a l) (hg : t.Grouped p) (hr : ∀ x, t.root? = some x → p o < p x)
      (hl : ∀ x, w.root? = some x → p o ≤ p x) (hs : ∀ x, os.head? = some x → p x < p o) :
      SInv p (o :: os) (t :: w :: vs) a (l ++ (o, t.first) :: t.rest)

theorem SInv.vals {os : List POp} {vs : List (Tree α)} {a l} (h : SInv prio os vs a l) : ∃ t vs', vs = t :: vs' ∧ t.Grouped prio := by
  cases h with
  | one t hg => exact ⟨t, _, rfl, hg⟩
  | push o os t w vs a l h hg hr hl hs => exact ⟨t, _, rfl, hg⟩

/-- Replacing the top two by the combined tree. -/
theorem SInv.combine {o : POp} {os : List POp} {t w : Tree α} {vs : List (Tree α)} {a : α} {l : List (POp × α)}
    (h : SInv prio (o :: os) (t :: w :: vs) a l) :
    SInv prio os (.node o w t :: vs) a l := by
  cases h with
  | push _ _ _ _ _ _ l h hg hr hl hs =>
    cases h with
    | one _ hgw =>
      have := SInv.one (p := prio) (Tree.node o w t) ⟨hgw, hg, hl, hr⟩
      simpa [Tree.first, Tree.rest] using this
    | push o' os' _ w' vs' _ l' h' hgw hrw hlw hsw =>
      have e : (l' ++ (o', w.first) :: w.rest) ++ (o, t.first) :: t.rest =
          l' ++ (o', (Tree.node o w t).first) :: (Tree.node o w t).rest := by
        simp [Tree.first, Tree.rest]
      rw [e]
      refine SInv.push o' os' (.node o w t) w' vs' a l' h' ⟨hgw, hg, hl, hr⟩ ?_ hlw hsw
      intro x hx
      simp only [Tree.root?, Option.some.injEq] at hx
      subst hx
      exact hs o' rfl

theorem popWhile_inv (pr : Nat) : ∀ (os : List POp) (vs : List (Tree α)) (a : α) (l : List (POp × α)),
    SInv prio os vs a l → (∀ t vs', vs = t :: vs' → ∀ x, t.root? = some x → pr ≤ prio x) →
    ∃ os' vs', popWhile mkTree pr os vs = some (os', vs') ∧ SInv prio os' vs' a l ∧
      (∀ t vs'', vs' = t :: vs'' → ∀ x, t.root? = some x → pr ≤ prio x) ∧
      (∀ x, os'.head? = some x → prio x < pr) := by
  intro os
  induction os with
  | nil =>
    intro vs a l h ht
    exact ⟨[], vs, rfl, h, ht, by simp⟩
  | cons o os ih =>
    intro vs a l h ht
    by_cases hp : prio o ≥ pr
    · cases h with
      | push _ _ t w vs a l h' hg hr hl hs =>
        obtain ⟨os', vs', e, i1, i2, i3⟩ := ih _ _ _ (SInv.push o os t w vs a l h' hg hr hl hs).combine (by
          intro t' vs'' e x hx
          simp only [List.cons.injEq] at e
          obtain ⟨rfl, rfl⟩ := e
          simp only [Tree.root?, Option.some.injEq] at hx
          subst hx
          exact hp)
        exact ⟨os', vs', by rw [popWhile, if_pos hp]; simpa [mkTree] using e, i1, i2, i3⟩
    · refine ⟨o :: os, vs, by unfold popWhile; simp only [if_neg hp], h, ht, ?_⟩
      intro x hx
      simp only [List.head?_cons, Option.some.injEq] at hx
      subst hx; omega

theorem unwind_inv : ∀ (os : List POp) (vs : List (Tree α)) (a : α) (l : List (POp × α)), SInv prio os vs a l →
    ∃ t, unwind mkTree os vs = some t ∧ t.first = a ∧ t.rest = l ∧ t.Grouped prio := by
  intro os
  induction os with
  | nil =>
    intro vs a l h
    cases h with
    | one t hg => exact ⟨t, rfl, rfl, rfl, hg⟩
  | cons o os ih =>
    intro vs a l h
    cases h with
    | push _ _ t w vs a l h' hg hr hl hs =>
      obtain ⟨t', e, r⟩ := ih _ _ _ (SInv.push o os t w vs a l h' hg hr hl hs).combine
      exact ⟨t', by rw [unwind]; simpa [mkTree] using e, r⟩

/-- The stacks of the loop always satisfy the invariant, with a leaf on top. -/
theorem infixLoop_inv : ∀ (rest : List (POp × α)) (os : List POp) (vs : List (Tree α)) (v a : α) (l : List (POp × α)),
    SInv prio os (.leaf v :: vs) a l →
    ∃ t, infixLoop mkTree os (.leaf v :: vs) (rest.map fun x => (x.1, Tree.leaf x.2)) = some t ∧ t.first = a ∧
      t.rest = l ++ rest ∧ t.Grouped prio := by
  intro rest
  induction rest with
  | nil =>
    intro os vs v a l h
    obtain ⟨t, e, h1, h2, h3⟩ := unwind_inv _ _ _ _ h
    exact ⟨t, by simpa [infixLoop] using e, h1, by simpa using h2, h3⟩
  | cons x rest ih =>
    intro os vs v a l h
    obtain ⟨op, b⟩ := x
    obtain ⟨os', vs', e, i1, i2, i3⟩ := popWhile_inv (prio op) os _ a l h (by
      intro t vs' e x hx
      simp only [List.cons.injEq] at e
      obtain ⟨rfl, rfl⟩ := e
      simp [Tree.root?] at hx)
    obtain ⟨w, vs'', rfl, hgw⟩ := i1.vals
    have i4 := SInv.push op os' (.leaf b) w vs'' a l i1 trivial (by simp [Tree.root?]) (i2 w vs'' rfl) i3
    obtain ⟨t, e', h1, h2, h3⟩ := ih _ _ _ _ _ i4
    refine ⟨t, ?_, h1, ?_, h3⟩
    · simp only [List.map_cons, infixLoop, e, Option.bind_some]
      exact e'
    · rw [h2]; simp [Tree.first, Tree.rest]

theorem infixExpr_grouped (a : α) (rest : List (POp × α)) :
    ∃ t, infixExpr mkTree (.leaf a) (rest.map fun x => (x.1, Tree.leaf x.2)) = some t ∧ t.first = a ∧ t.rest = rest ∧
      t.Grouped prio := by
  cases rest with
  | nil => exact ⟨.leaf a, rfl, rfl, rfl, trivial⟩
  | cons x rest =>
    obtain ⟨op, b⟩ := x
    have i0 := SInv.one (p := prio) (Tree.leaf a) trivial
    have i1 := SInv.push op [] (.leaf b) (.leaf a) [] a [] i0 trivial (by simp [Tree.root?]) (by simp [Tree.root?]) (by simp)
    obtain ⟨t, e, h1, h2, h3⟩ := infixLoop_inv rest _ _ _ _ _ i1
    exact ⟨t, by simpa [infixExpr] using e, h1, by simpa [Tree.first, Tree.rest] using h2, h3⟩

/-! ### Evaluating while parsing -/

/-- Evaluate a tree with `mk`. -/
def evalWith (mk : POp → α → α → Option α) : Tree α → Option α
  | .leaf a => some a
  | .node op l r => (evalWith mk l).bind fun a => (evalWith mk r).bind fun b => mk op a b

/-- The values on a stack of trees, `none` if one of them has no value. -/
def stackVals (mk : POp → α → α → Option α) : List (Tree α) → Option (List α)
  | [] => some []
  | t :: ts => (evalWith mk t).bind fun v => (stackVals mk ts).bind fun vs => some (v :: vs)

theorem stackVals_cons {mk : POp → α → α → Option α} {t : Tree α} {ts : List (Tree α)} {v : α} {vs : List α} :
    stackVals mk (t :: ts) = some (v :: vs) ↔ evalWith mk t = some v ∧ stackVals mk ts = some vs := by
  simp only [stackVals]
  cases evalWith mk t <;> cases stackVals mk ts <;> simp

theorem popWhile_eval (mk : POp → α → α → Option α) (pr : Nat) : ∀ (os : List POp) (ts : List (Tree α)),
    (stackVals mk ts).bind (popWhile mk pr os) =
      (popWhile mkTree pr os ts).bind fun (os', ts') => (stackVals mk ts').bind fun vs => some (os', vs) := by
  intro os
  induction os with
  | nil => intro ts; simp [popWhile]
  | cons o os ih =>
    intro ts
    by_cases hp : prio o ≥ pr
    · match ts with
      | [] => simp [popWhile, hp, stackVals]
      | [t] =>
        simp only [popWhile, if_pos hp, stackVals]
        cases evalWith mk t <;> simp [hp]
      | t :: w :: ts =>
        have e : popWhile mkTree pr (o :: os) (t :: w :: ts) = popWhile mkTree pr os (.node o w t :: ts) := by
          rw [popWhile, if_pos hp]; rfl
        rw [e, ← ih]
        simp only [stackVals, evalWith]
        cases ht : evalWith mk t with
        | none => cases evalWith mk w <;> simp
        | some b =>
          cases hw : evalWith mk w with
          | none => simp
          | some a =>
            cases hs : stackVals mk ts with
            | none => simp
            | some vs =>
              simp only [Option.bind_some, popWhile, if_pos hp]
              cases mk o a b <;> simp
    · have e : ∀ {β : Type} (m : POp → β → β → Option β) (vs : List β),
          popWhile m pr (o :: os) vs = some (o :: os, vs) := by
        intro β m vs; unfold popWhile; simp only [if_neg hp]
      rw [e]
      cases hs : stackVals mk ts with
      | none => simp [hs]
      | some vs => simp [hs, e]

theorem unwind_eval (mk : POp → α → α → Option α) : ∀ (os : List POp) (ts : List (Tree α)),
    (stackVals mk ts).bind (unwind mk os) = (unwind mkTree os ts).bind (evalWith mk) := by
  intro os
  induction os with
  | nil =>
    intro ts
    match ts with
    | [] => rfl
    | [t] => simp only [stackVals, unwind]; cases h : evalWith mk t <;> simp [unwind, h]
    | t :: w :: ts =>
      simp only [stackVals, unwind]
      cases evalWith mk t <;> cases evalWith mk w <;> cases stackVals mk ts <;> simp [unwind]
  | cons o os ih =>
    intro ts
    match ts with
    | [] => rfl
    | [t] => simp only [stackVals, unwind]; cases evalWith mk t <;> simp [unwind]
    | t :: w :: ts =>
      have e : unwind mkTree (o :: os) (t :: w :: ts) = unwind mkTree os (.node o w t :: ts) := rfl
      rw [e, ← ih]
      simp only [stackVals, evalWith]
      cases ht : evalWith mk t with
      | none => cases evalWith mk w <;> simp
      | some b =>
        cases hw : evalWith mk w with
        | none => simp
        | some a =>
          cases hs : stackVals mk ts with
          | none => simp
          | some vs =>
            simp only [Option.bind_some, unwind]
            cases mk o a b <;> simp

theorem infixLoop_eval (mk : POp → α → α → Option α) : ∀ (rest : List (POp × α)) (os : List POp) (ts : List (Tree α)),
    (stackVals mk ts).bind (fun vs => infixLoop mk os vs rest) =
      (infixLoop mkTree os ts (rest.map fun x => (x.1, Tree.leaf x.2))).bind (evalWith mk) := by
  intro rest
  induction rest with
  | nil => intro os ts; exact unwind_eval mk os ts
  | cons x rest ih =>
    intro os ts
    obtain ⟨op, b⟩ := x
    simp only [List.map_cons, infixLoop]
    have h := popWhile_eval mk (prio op) os ts
    cases hT : popWhile mkTree (prio op) os ts with
    | none =>
      rw [hT] at h
      simp only [Option.bind_none] at h
      cases hs : stackVals mk ts with
      | none => rfl
      | some vs => rw [hs] at h; simp only [Option.bind_some] at h; simp [h]
    | some r =>
      obtain ⟨os', ts'⟩ := r
      rw [hT] at h
      simp only [Option.bind_some] at h
      have ih' := ih (op :: os') (.leaf b :: ts')
      simp only [Option.bind_some]
      rw [← ih']
      simp only [stackVals, evalWith, Option.bind_some]
      cases hs : stackVals mk ts with
      | none =>
        rw [hs] at h
        simp only [Option.bind_none] at h
        cases hs' : stackVals mk ts' with
        | none => rfl
        | some vs' => rw [hs'] at h; simp at h
      | some vs =>
        rw [hs] at h
        simp only [Option.bind_some] at h
        simp only [Option.bind_some, h]
        cases stackVals mk ts' <;> simp

/-- Evaluating while parsing gives the value of the tree that parsing gives. -/
theorem infixExpr_eval (mk : POp → α → α → Option α) (a : α) (rest : List (POp × α)) :
    infixExpr mk a rest = (infixExpr mkTree (.leaf a) (rest.map fun x => (x.1, Tree.leaf x.2))).bind (evalWith mk) := by
  cases rest with
  | nil => rfl
  | cons x rest =>
    obtain ⟨op, b⟩ := x
    have := infixLoop_eval mk rest [op] [.leaf b, .leaf a]
    simpa [stackVals, evalWith, infixExpr] using this

end Shecc.Parser
