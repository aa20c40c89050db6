import Verif.Spec.CMacro

/-! # Reading expressions with macros -/

namespace CMacro
open Shecc.Parser (POp infixExpr infixLoop popWhile unwind prio)
open Shecc.Macro

/-! ### The tree of an expression without calls; `σ`: what parameters stand for -/

mutual
def Opd.ex (σ : String → Option Ex) : Opd → Option Ex
  | .num v => some (.num v)
  | .id s => some ((σ s).getD (.id s))
  | .un u o => (o.ex σ).map (.un u)
  | .par p => (p.items σ).bind fun x => infixExpr mk x.1 x.2
  | .call _ _ => none

def Phr.items (σ : String → Option Ex) : Phr → Option (Ex × List (POp × Ex))
  | .one o => (o.ex σ).map fun a => (a, [])
  | .more o op p => (o.ex σ).bind fun a => (p.items σ).map fun x => (a, (op, x.1) :: x.2)
end

def Phr.ex (σ : String → Option Ex) (p : Phr) : Option Ex := (p.items σ).bind fun x => infixExpr mk x.1 x.2

mutual
def Opd.Plain : Opd → Prop
  | .un _ o => o.Plain
  | .par p => p.Plain
  | .call _ _ => False
  | _ => True

def Phr.Plain : Phr → Prop
  | .one o => o.Plain
  | .more o _ p => o.Plain ∧ p.Plain
end

mutual
def Opd.ids : Opd → List String
  | .id s => [s]
  | .un _ o => o.ids
  | .par p => p.ids
  | _ => []

def Phr.ids : Phr → List String
  | .one o => o.ids
  | .more o _ p => o.ids ++ p.ids
end

/-! ### The two-stack algorithm does not fail -/

theorem popWhile_total (p : Nat) : ∀ (os : List POp) (vs : List Ex), vs.length = os.length + 1 →
    ∃ os' vs', popWhile mk p os vs = some (os', vs') ∧ vs'.length = os'.length + 1
  | [], vs, h => ⟨[], vs, rfl, h⟩
  | o :: os, vs, h => by
    unfold popWhile
    split
    · match vs, h with
      | b :: a :: vs, h =>
        simp only [mk, Option.bind_some]
        exact popWhile_total p os (.bin o a b :: vs) (by simpa using h)
    · exact ⟨_, _, rfl, h⟩

theorem unwind_total : ∀ (os : List POp) (vs : List Ex), vs.length = os.length + 1 → ∃ e, unwind mk os vs = some e
  | [], [v], _ => ⟨v, rfl⟩
  | o :: os, b :: a :: vs, h => by
    simp only [unwind, mk, Option.bind_some]
    exact unwind_total os (.bin o a b :: vs) (by simpa using h)

theorem infixLoop_total : ∀ (l : List (POp × Ex)) (os : List POp) (vs : List Ex), vs.length = os.length + 1 →
    ∃ e, infixLoop mk os vs l = some e
  | [], os, vs, h => unwind_total os vs h
  | (op, v) :: l, os, vs, h => by
    obtain ⟨os', vs', h1, h2⟩ := popWhile_total (prio op) os vs h
    simp only [infixLoop, h1, Option.bind_some]
    exact infixLoop_total l (op :: os') (v :: vs') (by simp [h2])

theorem infix_total (a : Ex) (l : List (POp × Ex)) : ∃ e, infixExpr mk a l = some e := by
  cases l with
  | nil => exact ⟨a, rfl⟩
  | cons x l => exact infixLoop_total l [x.1] [x.2, a] rfl

mutual
theorem Opd.ex_some (σ : String → Option Ex) : ∀ (o : Opd), o.Plain → ∃ e, o.ex σ = some e
  | .num v, _ => ⟨_, by rw [Opd.ex]⟩
  | .id s, _ => ⟨_, by rw [Opd.ex]⟩
  | .un u o, h => by
    obtain ⟨e, he⟩ := Opd.ex_some σ o (by simpa [Opd.Plain] using h)
    exact ⟨_, by rw [Opd.ex, he]; rfl⟩
  | .par p, h => by
    obtain ⟨x, hx⟩ := Phr.items_some σ p (by simpa [Opd.Plain] using h)
    obtain ⟨e, he⟩ := infix_total x.1 x.2
    exact ⟨e, by rw [Opd.ex, hx]; exact he⟩
  | .call _ _, h => by simp [Opd.Plain] at h

theorem Phr.items_some (σ : String → Option Ex) : ∀ (p : Phr), p.Plain → ∃ x, p.items σ = some x
  | .one o, h => by
    obtain ⟨e, he⟩ := Opd.ex_some σ o (by simpa [Phr.Plain] using h)
    exact ⟨_, by rw [Phr.items, he]; rfl⟩
  | .more o op p, h => by
    have h' : o.Plain ∧ p.Plain := by simpa [Phr.Plain] using h
    obtain ⟨e, he⟩ := Opd.ex_some σ o h'.1
    obtain ⟨x, hx⟩ := Phr.items_some σ p h'.2
    exact ⟨_, by rw [Phr.items, he, hx]; rfl⟩
end

/-! ### Lexing -/

variable {src : List MT} {defs : List Def}

theorem lex_ret {s s' : S} (h : lex src s = some s') : s'.ret = s.ret ∧ s'.cur = s.cur := by
  unfold lex at h
  split at h
  · split at h
    · split at h
      · cases h
      · cases h; exact ⟨rfl, rfl⟩
    · cases h; exact ⟨rfl, rfl⟩
  · cases h; exact ⟨rfl, rfl⟩

/-- Lexing does not depend on the token read ahead. -/
theorem lex_next (s : S) (t : MT) : lex src { s with next := t } = lex src s := rfl

/-- The tokens read from `s` on are `l`; afterwards the state is `s'`. -/
inductive Spells (src : List MT) : S → List MT → S → Prop
  | nil (s) : Spells src s [] s
  | cons {s s1 s' t l} (ht : s.next = t) (hl : lex src s = some s1) (h : Spells src s1 l s') : Spells src s (t :: l) s'

theorem Spells.append {s s' : S} {l r : List MT} (h : Spells src s (l ++ r) s') : ∃ s1, Spells src s l s1 ∧ Spells src s1 r s' := by
  induction l generalizing s with
  | nil => exact ⟨s, .nil s, h⟩
  | cons t l ih =>
    cases h with
    | cons ht hl h =>
      obtain ⟨s1, a, b⟩ := ih h
      exact ⟨s1, .cons ht hl a, b⟩

theorem Spells.trans {s s1 s' : S} {l r : List MT} (h : Spells src s l s1) (h' : Spells src s1 r s') : Spells src s (l ++ r) s' := by
  induction h with
  | nil => exact h'
  | cons ht hl _ ih => exact .cons ht hl (ih h')

theorem Spells.ret {s s' : S} {l : List MT} (h : Spells src s l s') : s'.ret = s.ret ∧ s'.cur = s.cur := by
  induction h with
  | nil => exact ⟨rfl, rfl⟩
  | cons ht hl _ ih =>
    obtain ⟨a, b⟩ := lex_ret hl
    exact ⟨ih.1.trans a, ih.2.trans b⟩

/-! ### Expressions without calls -/

/-- What the identifiers `vs` stand for inside and outside a macro body. -/
def IdsOk (src : List MT) (defs : List Def) (r : Option Nat) (c : Option (Def × List Nat)) (σ : String → Option Ex)
    (vs : List String) : Prop :=
  ∀ v ∈ vs, findMacro defs v = none ∧
    ((paramIdx v c = none ∧ σ v = none) ∨ ∃ q e s1 s2 N, paramIdx v c = some q ∧ σ v = some e ∧
      (∀ s : S, s.ret = r → s.cur = c → lex src { s with pos := q } = some s1) ∧
      ∀ n, N ≤ n → readExpr src defs n s1 = some (e, s2))

theorem IdsOk.left {r : Option Nat} {c : Option (Def × List Nat)} {σ : String → Option Ex} {a b : List String}
    (h : IdsOk src defs r c σ (a ++ b)) : IdsOk src defs r c σ a := fun v hv => h v (by simp [hv])

theorem IdsOk.right {r : Option Nat} {c : Option (Def × List Nat)} {σ : String → Option Ex} {a b : List String}
    (h : IdsOk src defs r c σ (a ++ b)) : IdsOk src defs r c σ b := fun v hv => h v (by simp [hv])

def notOp : MT → Prop
  | .op _ => False
  | _ => True

theorem readRest_stop {s : S} (h : notOp s.next) {n : Nat} (hn : 1 ≤ n) : readRest src defs n s = some ([], s) := by
  obtain ⟨n, rfl⟩ : ∃ k, n = k + 1 := ⟨n - 1, by omega⟩
  unfold readRest
  split
  · rename_i o e; rw [e] at h; exact h.elim
  · rfl

theorem signed_toks {o : Opd} {s s' : S} (h : Spells src s o.toks s') (hs : ∀ u x, o ≠ .un u x) : signed s.next = true := by
  cases o with
  | num v => simp only [Opd.toks] at h; cases h with | cons ht _ _ => rw [ht]; rfl
  | id v => simp only [Opd.toks] at h; cases h with | cons ht _ _ => rw [ht]; rfl
  | un u x => exact (hs u x rfl).elim
  | par p => simp only [Opd.toks] at h; cases h with | cons ht _ _ => rw [ht]; rfl
  | call m a => simp only [Opd.toks] at h; cases h with | cons ht _ _ => rw [ht]; rfl

theorem signed_neg {o : Opd} (h : Opd.Signed (.un .neg o)) : o.Signed ∧ ∀ u x, o ≠ .un u x := by
  cases o with
  | un u x => simp [Opd.Signed] at h
  | _ => exact ⟨by simpa [Opd.Signed] using h, fun _ _ e => by cases e⟩

theorem signed_un {u : UOp} {o : Opd} (h : Opd.Signed (.un u o)) : o.Signed := by
  cases u with
  | neg => exact (signed_neg h).1
  | lnot => simpa [Opd.Signed] using h
  | bnot => simpa [Opd.Signed] using h

mutual
theorem read_opd {r : Option Nat} {c : Option (Def × List Nat)} {σ : String → Option Ex} : ∀ (o : Opd) {s s' : S}, o.Plain → o.Signed →
    s.ret = r → s.cur = c → Spells src s o.toks s' → IdsOk src defs r c σ o.ids →
    ∃ N, ∀ n, N ≤ n → ∀ e, o.ex σ = some e → readOperand src defs n s = some (e, s')
  | .num v, s, s', _, _, hr, hc, hs, _ => by
    simp only [Opd.toks] at hs
    cases hs with
    | cons ht hl h =>
      cases h
      refine ⟨1, fun n hn e he => ?_⟩
      obtain ⟨n, rfl⟩ : ∃ k, n = k + 1 := ⟨n - 1, by omega⟩
      rw [Opd.ex] at he
      cases he
      simp only [readOperand, ht, hl, Option.map_some]
  | .id v, s, s', _, _, hr, hc, hs, hi => by
    simp only [Opd.toks] at hs
    cases hs with
    | cons ht hl h =>
      cases h
      obtain ⟨hm, hp⟩ := hi v (by simp [Opd.ids])
      rcases hp with ⟨hp, hσ⟩ | ⟨q, e0, s1, s2, N, hp, hσ, h1, h2⟩
      · refine ⟨1, fun n hn e he => ?_⟩
        obtain ⟨n, rfl⟩ : ∃ k, n = k + 1 := ⟨n - 1, by omega⟩
        rw [Opd.ex, hσ] at he
        cases he
        simp only [readOperand, ht, hm, hc, hp, hl, Option.map_some, Option.getD_none]
      · refine ⟨N + 1, fun n hn e he => ?_⟩
        obtain ⟨n, rfl⟩ : ∃ k, n = k + 1 := ⟨n - 1, by omega⟩
        rw [Opd.ex, hσ] at he
        cases he
        have g1 := h1 s hr hc
        have g2 := h2 n (by omega)
        rw [hc, ht] at g1
        simp only [readOperand, ht, hm, hc, hp, hl, g1, g2, Option.bind_some, Option.map_some, Option.getD_some]
  | .un u o, s, s', hpl, hsg, hr, hc, hs, hi => by
    simp only [Opd.toks] at hs
    cases hs with
    | cons ht hl h =>
      obtain ⟨a, b⟩ := lex_ret hl
      obtain ⟨N, hN⟩ := read_opd o (by simpa [Opd.Plain] using hpl) (signed_un hsg) (a.trans hr) (b.trans hc) h (by simpa [Opd.ids] using hi)
      refine ⟨N + 1, fun n hn e he => ?_⟩
      obtain ⟨n, rfl⟩ : ∃ k, n = k + 1 := ⟨n - 1, by omega⟩
      rw [Opd.ex] at he
      cases ho : o.ex σ with
      | none => rw [ho] at he; cases he
      | some e0 =>
        rw [ho] at he
        cases he
        have g := hN n (by omega) e0 ho
        cases u with
        | neg =>
          have hsn := signed_toks h (signed_neg hsg).2
          simp only [unTok] at ht
          simp only [readOperand, ht, hl, g, Option.bind_some, Option.map_some, hsn, if_true]
        | lnot => simp only [unTok] at ht; simp only [readOperand, ht, hl, g, Option.bind_some, Option.map_some]
        | bnot => simp only [unTok] at ht; simp only [readOperand, ht, hl, g, Option.bind_some, Option.map_some]
  | .par p, s, s', hpl, hsg, hr, hc, hs, hi => by
    simp only [Opd.toks] at hs
    cases hs with
    | cons ht hl h =>
      obtain ⟨a, b⟩ := lex_ret hl
      obtain ⟨s2, h1, h2⟩ := h.append
      cases h2 with
      | cons ht2 hl2 h3 =>
      cases h3
      obtain ⟨N, hN⟩ := read_phr p (by simpa [Opd.Plain] using hpl) (by simpa [Opd.Signed] using hsg) (a.trans hr) (b.trans hc) h1 (by rw [ht2]; trivial)
        (by simpa [Opd.ids] using hi)
      refine ⟨N + 2, fun n hn e he => ?_⟩
      obtain ⟨n, rfl⟩ : ∃ k, n = k + 2 := ⟨n - 2, by omega⟩
      rw [Opd.ex] at he
      cases hx : p.items σ with
      | none => rw [hx] at he; cases he
      | some x =>
        rw [hx] at he
        obtain ⟨s3, g1, g2⟩ := hN n (by omega) x.1 x.2 (by rw [hx])
        simp only [Option.bind_some] at he
        simp only [readOperand, ht, hl, readExpr, g1, g2, Option.bind_some, Option.map_some, he, ht2, if_true, hl2]
  | .call _ _, _, _, hpl, _, _, _, _, _ => by simp [Opd.Plain] at hpl

theorem read_phr {r : Option Nat} {c : Option (Def × List Nat)} {σ : String → Option Ex} : ∀ (p : Phr) {s s' : S}, p.Plain → p.Signed →
    s.ret = r → s.cur = c → Spells src s p.toks s' → notOp s'.next → IdsOk src defs r c σ p.ids →
    ∃ N, ∀ n, N ≤ n → ∀ a l, p.items σ = some (a, l) → ∃ s1, readOperand src defs n s = some (a, s1) ∧
      readRest src defs n s1 = some (l, s')
  | .one o, s, s', hpl, hsg, hr, hc, hs, hno, hi => by
    obtain ⟨N, hN⟩ := read_opd o (by simpa [Phr.Plain] using hpl) (by simpa [Phr.Signed] using hsg) hr hc (by simpa [Phr.toks] using hs) (by simpa [Phr.ids] using hi)
    refine ⟨N + 1, fun n hn a l he => ?_⟩
    rw [Phr.items] at he
    cases ho : o.ex σ with
    | none => rw [ho] at he; cases he
    | some e0 =>
      rw [ho] at he
      cases he
      exact ⟨s', hN n (by omega) _ ho, readRest_stop hno (by omega)⟩
  | .more o op p, s, s', hpl, hsg, hr, hc, hs, hno, hi => by
    rw [Phr.toks] at hs
    obtain ⟨s1, h1, h2⟩ := hs.append
    cases h2 with
    | cons ht hl h3 =>
    have hp' : o.Plain ∧ p.Plain := by simpa [Phr.Plain] using hpl
    have hsg' : o.Signed ∧ p.Signed := by simpa [Phr.Signed] using hsg
    have hi' : IdsOk src defs r c σ (o.ids ++ p.ids) := by simpa [Phr.ids] using hi
    obtain ⟨N1, hN1⟩ := read_opd o hp'.1 hsg'.1 hr hc h1 hi'.left
    obtain ⟨a, b⟩ := lex_ret hl
    obtain ⟨a1, b1⟩ := h1.ret
    obtain ⟨N2, hN2⟩ := read_phr p hp'.2 hsg'.2 (a.trans (a1.trans hr)) (b.trans (b1.trans hc)) h3 hno hi'.right
    refine ⟨N1 + N2 + 1, fun n hn x l he => ?_⟩
    rw [Phr.items] at he
    cases ho : o.ex σ with
    | none => rw [ho] at he; cases he
    | some e0 =>
      rw [ho] at he
      cases hx : p.items σ with
      | none => rw [hx] at he; cases he
      | some y =>
        rw [hx] at he
        cases he
        refine ⟨s1, hN1 n (by omega) _ ho, ?_⟩
        obtain ⟨n, rfl⟩ : ∃ k, n = k + 1 := ⟨n - 1, by omega⟩
        obtain ⟨s3, g1, g2⟩ := hN2 n (by omega) y.1 y.2 (by rw [hx])
        simp only [readRest, ht, hl, g1, g2, Option.bind_some, Option.map_some]
end

theorem read_expr {r : Option Nat} {c : Option (Def × List Nat)} {σ : String → Option Ex} (p : Phr) {s s' : S} (hp : p.Plain) (hsg : p.Signed)
    (hr : s.ret = r) (hc : s.cur = c) (hs : Spells src s p.toks s') (hno : notOp s'.next) (hi : IdsOk src defs r c σ p.ids) :
    ∃ N e, p.ex σ = some e ∧ ∀ n, N ≤ n → readExpr src defs n s = some (e, s') := by
  obtain ⟨N, hN⟩ := read_phr p hp hsg hr hc hs hno hi
  obtain ⟨x, hx⟩ := Phr.items_some σ p hp
  obtain ⟨e, he⟩ := infix_total x.1 x.2
  refine ⟨N + 1, e, by rw [Phr.ex, hx]; exact he, fun n hn => ?_⟩
  obtain ⟨n, rfl⟩ : ∃ k, n = k + 1 := ⟨n - 1, by omega⟩
  obtain ⟨s1, g1, g2⟩ := hN n (by omega) x.1 x.2 (by rw [hx])
  simp only [readExpr, g1, g2, Option.bind_some, he, Option.map_some]

/-! ### Positions -/

abbrev dropE (l : List MT) : List MT := l.dropWhile (· = .eol)

theorem skipEols_drop (p : Nat) : src.drop (skipEols src p) = dropE (src.drop p) := by
  unfold skipEols
  rw [← List.drop_drop]
  generalize src.drop p = l
  induction l with
  | nil => rfl
  | cons t l ih =>
    by_cases h : t = .eol
    · subst h; simpa [List.takeWhile, List.dropWhile] using ih
    · simp [List.takeWhile, List.dropWhile, h]

theorem getD_drop {p : Nat} {u : MT} {l : List MT} (h : src.drop p = u :: l) : src.getD p .eof = u := by
  have h1 : src[p]? = some u := by
    have : (src.drop p)[0]? = some u := by rw [h]; rfl
    rwa [List.getElem?_drop, Nat.add_zero] at this
  rw [List.getD_eq_getElem?_getD, h1]
  rfl

theorem drop_succ {p : Nat} {u : MT} {l : List MT} (h : src.drop p = u :: l) : src.drop (p + 1) = l := by
  rw [← List.drop_drop, h]; rfl

theorem dropE_cons {u : MT} {r : List MT} (h : u ≠ .eol) : dropE (u :: r) = u :: r := by simp [dropE, List.dropWhile, h]

/-- Outside a macro body. -/
theorem lex_none {s : S} (hr : s.ret = none) {u : MT} {l : List MT} (h : dropE (src.drop s.pos) = u :: l) :
    ∃ s1, lex src s = some s1 ∧ s1.next = u ∧ src.drop s1.pos = dropE l ∧ s1.ret = none ∧ s1.cur = s.cur ∧ s1.pos ≠ 0 := by
  have key : ∃ q, lex src s = some (tokenAt src q s) ∧ src.drop q = u :: l := by
    unfold lex
    split
    · rw [hr]
      exact ⟨_, rfl, by rw [skipEols_drop, h]⟩
    · rename_i hne
      refine ⟨_, rfl, ?_⟩
      cases hd : src.drop s.pos with
      | nil => rw [hd] at h; cases h
      | cons x xs =>
        rw [getD_drop hd] at hne
        rw [hd, dropE_cons hne] at h
        exact h
  obtain ⟨q, h1, h2⟩ := key
  refine ⟨_, h1, getD_drop h2, ?_, hr, rfl, ?_⟩
  · simp only [tokenAt, hr, Option.isSome_none, Bool.false_eq_true, if_false]
    rw [skipEols_drop, drop_succ h2]
  · simp only [tokenAt, hr, Option.isSome_none, Bool.false_eq_true, if_false, skipEols]
    omega

/-- Inside a macro body. -/
theorem lex_some {s : S} {r : Nat} (hr : s.ret = some r) {u : MT} {l : List MT} (h : src.drop s.pos = u :: l) (hu : u ≠ .eol) :
    ∃ s1, lex src s = some s1 ∧ s1.next = u ∧ src.drop s1.pos = l := by
  refine ⟨tokenAt src s.pos s, ?_, getD_drop h, ?_⟩
  · unfold lex
    rw [getD_drop h, if_neg hu]
  · simp only [tokenAt, hr, Option.isSome_some, if_true]
    exact drop_succ h

/-- At the end of the line. -/
theorem lex_jump {s : S} {r : Nat} (hr : s.ret = some r) {l0 : List MT} (h : src.drop s.pos = .eol :: l0) {u : MT} {l : List MT}
    (h' : src.drop r = u :: l) (hu : u ≠ .eol) : ∃ s1, lex src s = some s1 ∧ s1.next = u ∧ src.drop s1.pos = l := by
  refine ⟨tokenAt src r s, ?_, getD_drop h', ?_⟩
  · unfold lex
    rw [getD_drop h, if_pos rfl, hr]
    simp only [getD_drop h']
    exact if_neg hu
  · simp only [tokenAt, hr, Option.isSome_some, if_true]
    exact drop_succ h'

def Clean (l : List MT) : Prop := .eol ∉ l

theorem spells_none : ∀ (l : List MT) {s : S} {t u : MT} {post : List MT}, s.ret = none → s.next = t → Clean l → u ≠ .eol →
    dropE (src.drop s.pos) = l ++ u :: post → ∃ s', Spells src s (t :: l) s' ∧ s'.next = u ∧ src.drop s'.pos = dropE post ∧ s'.pos ≠ 0
  | [], s, t, u, post, hr, ht, _, hu, h => by
    obtain ⟨s1, h1, h2, h3, h4, h5, h6⟩ := lex_none hr h
    exact ⟨s1, .cons ht h1 (.nil _), h2, h3, h6⟩
  | x :: l, s, t, u, post, hr, ht, hc, hu, h => by
    obtain ⟨s1, h1, h2, h3, h4, h5, h6⟩ := lex_none (u := x) (l := l ++ u :: post) hr h
    have hl : Clean l := fun h => hc (List.mem_cons_of_mem _ h)
    have hne : ∀ y ys, l ++ u :: post = y :: ys → y ≠ .eol := by
      intro y ys e
      cases l with
      | nil => cases e; exact hu
      | cons z zs => cases e; exact fun h => hl (by simp [h])
    have h3' : dropE (src.drop s1.pos) = l ++ u :: post := by
      rw [h3]
      cases hd : l ++ u :: post with
      | nil => simp at hd
      | cons y ys => rw [dropE_cons (hne y ys hd), dropE_cons (hne y ys hd)]
    obtain ⟨s', a, b⟩ := spells_none l h4 h2 hl hu h3'
    exact ⟨s', .cons ht h1 a, b⟩

theorem spells_some : ∀ (l : List MT) {s : S} {r : Nat} {t u : MT} {post : List MT}, s.ret = some r → s.next = t → Clean l →
    (u ≠ .eol) → src.drop s.pos = l ++ u :: post → ∃ s', Spells src s (t :: l) s' ∧ s'.next = u ∧ src.drop s'.pos = post
  | [], s, r, t, u, post, hr, ht, _, hu, h => by
    obtain ⟨s1, h1, h2, h3⟩ := lex_some hr h hu
    exact ⟨s1, .cons ht h1 (.nil _), h2, h3⟩
  | x :: l, s, r, t, u, post, hr, ht, hc, hu, h => by
    obtain ⟨s1, h1, h2, h3⟩ := lex_some hr h (fun e => hc (by simp [e]))
    obtain ⟨s', a, b⟩ := spells_some l ((lex_ret h1).1.trans hr) h2 (fun h => hc (List.mem_cons_of_mem _ h)) hu h3
    exact ⟨s', .cons ht h1 a, b⟩

/-- The text goes on after the call. -/
theorem spells_jump : ∀ (l : List MT) {s : S} {r : Nat} {t u : MT} {l0 post : List MT}, s.ret = some r → s.next = t → Clean l →
    src.drop s.pos = l ++ .eol :: l0 → src.drop r = u :: post → u ≠ .eol →
    ∃ s', Spells src s (t :: l) s' ∧ s'.next = u ∧ src.drop s'.pos = post
  | [], s, r, t, u, l0, post, hr, ht, _, h, h', hu => by
    obtain ⟨s1, h1, h2, h3⟩ := lex_jump hr h h' hu
    exact ⟨s1, .cons ht h1 (.nil _), h2, h3⟩
  | x :: l, s, r, t, u, l0, post, hr, ht, hc, h, h', hu => by
    obtain ⟨s1, h1, h2, h3⟩ := lex_some hr h (fun e => hc (by simp [e]))
    obtain ⟨s', a, b⟩ := spells_jump l ((lex_ret h1).1.trans hr) h2 (fun h => hc (List.mem_cons_of_mem _ h)) h3 h' hu
    exact ⟨s', .cons ht h1 a, b⟩

/-! ### Scanning the arguments -/

/-- A token of an argument. -/
def argTok (t : MT) : Prop := t ≠ .comma ∧ t ≠ .rpar ∧ t ≠ .eol

theorem scanTok_run : ∀ (l : List MT) {s : S} {x : MT} {post : List MT} (acc : List Nat), s.ret = none → (∀ t ∈ l, argTok t) →
    (x = .comma ∨ x = .rpar) → src.drop s.pos = l ++ x :: post →
    ∃ s', s'.next = x ∧ src.drop s'.pos = dropE post ∧ s'.ret = none ∧ s'.cur = s.cur ∧ s'.pos ≠ 0 ∧
      ∀ n, scanTok src (n + l.length + 1) s acc = scan src n s' acc
  | [], s, x, post, acc, hr, _, hx, h => by
    have hne : x ≠ .eol := by rcases hx with rfl | rfl <;> simp
    obtain ⟨s1, h1, h2, h3, h4, h5, h6⟩ := lex_none (s := s) hr (u := x) (l := post) (by rw [h]; exact dropE_cons hne)
    refine ⟨s1, h2, h3, h4, h5, h6, fun n => ?_⟩
    simp only [List.length_nil, Nat.add_zero, scanTok, h1, h2, if_pos hx]
  | t :: l, s, x, post, acc, hr, hl, hx, h => by
    obtain ⟨a1, a2, a3⟩ := hl t (by simp)
    obtain ⟨s1, h1, h2, h3, h4, h5, h6⟩ := lex_none (s := s) hr (u := t) (l := l ++ x :: post) (by rw [h]; exact dropE_cons a3)
    have h3' : src.drop s1.pos = l ++ x :: post := by
      rw [h3]
      cases l with
      | nil => exact dropE_cons (by rcases hx with rfl | rfl <;> simp)
      | cons y l => exact dropE_cons (hl y (by simp)).2.2
    obtain ⟨s', b1, b2, b3, b4, b5, b6⟩ := scanTok_run l acc h4 (fun t ht => hl t (by simp [ht])) hx h3'
    refine ⟨s', b1, b2, b3, b4.trans h5, b5, fun n => ?_⟩
    have := b6 n
    rw [List.length_cons, show n + (l.length + 1) + 1 = (n + l.length + 1) + 1 by omega, scanTok]
    simp only [h1, h2]
    rw [if_neg (fun h => h.elim a1 a2)]
    exact this

theorem scan_args : ∀ (as : List (List MT)) {a : List MT} {s : S} {post : List MT} (acc : List Nat), s.ret = none → s.next ≠ .rpar →
    s.pos ≠ 0 → (∀ b ∈ a :: as, b ≠ [] ∧ ∀ t ∈ b, argTok t) → src.drop s.pos = commas (a :: as) ++ .rpar :: post →
    ∃ (s' : S) (ps : List Nat) (N : Nat), s'.next = .rpar ∧ src.drop s'.pos = dropE post ∧ s'.ret = none ∧ s'.cur = s.cur ∧ ps.length = as.length + 1 ∧
      (∀ (k : Nat) (b : List MT), (a :: as)[k]? = some b → ∃ (q : Nat) (x : MT) (p' : List MT), ps[k]? = some q ∧ q ≠ 0 ∧ (x = .comma ∨ x = .rpar) ∧ src.drop q = b ++ x :: p') ∧
      ∀ n, N ≤ n → scan src n s acc = some (s', acc ++ ps)
  | [], a, s, post, acc, hr, hn, hp, hb, h => by
    obtain ⟨s', b1, b2, b3, b4, b5, b6⟩ := scanTok_run a (acc ++ [s.pos]) hr (hb a (by simp)).2 (.inr rfl) h
    refine ⟨s', [s.pos], a.length + 3, b1, b2, b3, b4, rfl, ?_, ?_⟩
    · intro k b hk
      cases k with
      | zero => cases hk; exact ⟨s.pos, .rpar, post, rfl, hp, .inr rfl, h⟩
      | succ k => simp at hk
    · intro n hN
      obtain ⟨m, rfl⟩ : ∃ m, n = (m + 1 + a.length + 1) + 1 := ⟨n - a.length - 3, by omega⟩
      rw [scan, if_neg hn, b6, scan, if_pos b1]
  | a' :: as, a, s, post, acc, hr, hn, hp, hb, h => by
    have h0 : src.drop s.pos = a ++ .comma :: (commas (a' :: as) ++ .rpar :: post) := by
      rw [h]; simp [commas]
    obtain ⟨s', b1, b2, b3, b4, b5, b6⟩ := scanTok_run a (acc ++ [s.pos]) hr (hb a (by simp)).2 (.inl rfl) h0
    have h3 : src.drop s'.pos = commas (a' :: as) ++ .rpar :: post := by
      rw [b2]
      obtain ⟨g1, g2⟩ := hb a' (by simp)
      cases a' with
      | nil => exact (g1 rfl).elim
      | cons t a' =>
        have ht := (g2 t (by simp)).2.2
        cases as with
        | nil => exact dropE_cons ht
        | cons c as => exact dropE_cons ht
    obtain ⟨s2, ps, N, c1, c2, c3, c4, c5, c6, c7⟩ := scan_args as (a := a') (acc ++ [s.pos]) b3 (by rw [b1]; simp) b5
      (fun b hb' => hb b (by simp at hb' ⊢; exact .inr hb')) h3
    refine ⟨s2, s.pos :: ps, N + a.length + 2, c1, c2, c3, c4.trans b4, by simp [c5], ?_, ?_⟩
    · intro k b hk
      cases k with
      | zero => cases hk; exact ⟨s.pos, .comma, _, rfl, hp, .inl rfl, h0⟩
      | succ k => exact c6 k b (by simpa using hk)
    · intro n hN
      obtain ⟨m, rfl⟩ : ∃ m, n = (m + a.length + 1) + 1 := ⟨n - a.length - 2, by omega⟩
      rw [scan, if_neg hn, b6, c7 m (by omega)]
      simp

/-- No arguments. -/
theorem scan_none {s : S} {post : List MT} (hr : s.ret = none) (hn : s.next ≠ .rpar) (h : src.drop s.pos = .rpar :: post) :
    ∃ (s' : S) (ps : List Nat) (N : Nat), s'.next = .rpar ∧ src.drop s'.pos = dropE post ∧ s'.ret = none ∧ s'.cur = s.cur ∧
      ∀ n, N ≤ n → scan src n s [] = some (s', ps) := by
  obtain ⟨s', b1, b2, b3, b4, b5, b6⟩ := scanTok_run [] [s.pos] hr (by simp) (.inr rfl) h
  refine ⟨s', [s.pos], 3, b1, b2, b3, b4, ?_⟩
  intro n hN
  obtain ⟨m, rfl⟩ : ∃ m, n = (m + 1 + 0 + 1) + 1 := ⟨n - 3, by omega⟩
  have := b6 (m + 1)
  simp only [List.length_nil] at this
  rw [scan, if_neg hn]
  simp only [List.nil_append]
  rw [this, scan, if_pos b1]

/-! ### Arguments as expressions -/

def Simple.opd : Simple → Opd
  | .num v => .num v
  | .id s => .id s
  | .un u o => .un u o.opd

def phrOf (o : Opd) : List (POp × Simple) → Phr
  | [] => .one o
  | x :: l => .more o x.1 (phrOf x.2.opd l)

def Arg.phr (a : Arg) : Phr := phrOf a.first.opd a.rest

theorem Simple.opd_facts : ∀ (x : Simple), x.opd.toks = x.toks ∧ x.opd.Plain ∧ (x.Signed → x.opd.Signed) ∧ x.opd.ids = x.ids ∧
    ∀ t ∈ x.toks, argTok t
  | .num v => by simp [Simple.opd, Opd.toks, Simple.toks, Opd.Plain, Opd.Signed, Opd.ids, Simple.ids, argTok]
  | .id v => by simp [Simple.opd, Opd.toks, Simple.toks, Opd.Plain, Opd.Signed, Opd.ids, Simple.ids, argTok]
  | .un u o => by
    obtain ⟨a, b, c, d, e⟩ := Simple.opd_facts o
    refine ⟨by simp [Simple.opd, Opd.toks, Simple.toks, a], by simpa [Simple.opd, Opd.Plain] using b, ?_,
      by simp [Simple.opd, Opd.ids, Simple.ids, d], ?_⟩
    · intro h
      cases u with
      | neg =>
        cases o with
        | un u' o' => simp [Simple.Signed] at h
        | num v => simp [Simple.opd, Opd.Signed]
        | id v => simp [Simple.opd, Opd.Signed]
      | lnot => simpa [Simple.opd, Opd.Signed] using c (by simpa [Simple.Signed] using h)
      | bnot => simpa [Simple.opd, Opd.Signed] using c (by simpa [Simple.Signed] using h)
    · intro t ht
      rw [Simple.toks, List.mem_cons] at ht
      rcases ht with rfl | ht
      · cases u <;> simp [unTok, argTok]
      · exact e t ht

theorem phrOf_facts : ∀ (l : List (POp × Simple)) (o : Opd), (phrOf o l).toks = o.toks ++ (l.flatMap fun x => .op x.1 :: x.2.toks) ∧
    (o.Plain → (phrOf o l).Plain) ∧ (o.Signed → (∀ x ∈ l, x.2.Signed) → (phrOf o l).Signed) ∧
    (phrOf o l).ids = o.ids ++ l.flatMap fun x => x.2.ids
  | [], o => by simp [phrOf, Phr.toks, Phr.Plain, Phr.Signed, Phr.ids]
  | x :: l, o => by
    obtain ⟨a, b, c, d⟩ := phrOf_facts l x.2.opd
    obtain ⟨a', b', c', d', e'⟩ := x.2.opd_facts
    refine ⟨by simp [phrOf, Phr.toks, a, a'], ?_, ?_, by simp [phrOf, Phr.ids, d, d']⟩
    · intro h; simp only [phrOf, Phr.Plain]; exact ⟨h, b b'⟩
    · intro h h2; simp only [phrOf, Phr.Signed]
      exact ⟨h, c (c' (h2 x (by simp))) (fun y hy => h2 y (by simp [hy]))⟩

theorem Simple.toks_ne : ∀ (x : Simple), x.toks ≠ []
  | .num _ => by simp [Simple.toks]
  | .id _ => by simp [Simple.toks]
  | .un _ _ => by simp [Simple.toks]

theorem Arg.facts (a : Arg) : a.phr.toks = a.toks ∧ a.phr.Plain ∧ (a.Signed → a.phr.Signed) ∧ a.phr.ids = a.ids ∧ a.toks ≠ [] ∧
    ∀ t ∈ a.toks, argTok t := by
  obtain ⟨h1, h2, h3, h4, h5⟩ := a.first.opd_facts
  obtain ⟨g1, g2, g3, g4⟩ := phrOf_facts a.rest a.first.opd
  refine ⟨by rw [Arg.phr, g1, h1]; rfl, g2 h2, fun h => g3 (h3 h.1) h.2, by rw [Arg.phr, g4, h4]; rfl, ?_, ?_⟩
  · rw [Arg.toks]; simp [Simple.toks_ne]
  · intro t ht
    rw [Arg.toks, List.mem_append, List.mem_flatMap] at ht
    rcases ht with ht | ⟨x, hx, ht⟩
    · exact h5 t ht
    · rw [List.mem_cons] at ht
      rcases ht with rfl | ht
      · simp [argTok]
      · exact x.2.opd_facts.2.2.2.2 t ht

/-! ### Spelling has no line ends -/

theorem commas_clean : ∀ (l : List (List MT)), (∀ a ∈ l, Clean a) → Clean (commas l)
  | [], _ => by simp [commas, Clean]
  | [a], h => by simpa [commas] using h
  | a :: b :: r, h => by
    have := commas_clean (b :: r) (fun x hx => h x (List.mem_cons_of_mem _ hx))
    have ha := h a (by simp)
    simp only [commas, Clean, List.mem_append, List.mem_cons, not_or] at *
    exact ⟨ha, by simp, this⟩

mutual
theorem Opd.clean : ∀ (o : Opd), Clean o.toks
  | .num _ => by simp [Opd.toks, Clean]
  | .id _ => by simp [Opd.toks, Clean]
  | .un u o => by
    have := Opd.clean o
    cases u <;> simpa [Opd.toks, Clean, unTok] using this
  | .par p => by
    have := Phr.clean p
    simpa [Opd.toks, Clean] using this
  | .call m args => by
    have := commas_clean (args.map Arg.toks) (by
      intro a ha
      obtain ⟨x, _, rfl⟩ := List.mem_map.1 ha
      intro h
      exact (x.facts.2.2.2.2.2 _ h).2.2 rfl)
    simpa [Opd.toks, Clean] using this

theorem Phr.clean : ∀ (p : Phr), Clean p.toks
  | .one o => by simpa [Phr.toks] using Opd.clean o
  | .more o op p => by
    have h1 := Opd.clean o
    have h2 := Phr.clean p
    simpa [Phr.toks, Clean] using ⟨h1, h2⟩
end

theorem Opd.toks_ne (o : Opd) : o.toks ≠ [] := by cases o <;> simp [Opd.toks]

theorem Phr.toks_ne (p : Phr) : p.toks ≠ [] := by
  cases p with
  | one o => simpa [Phr.toks] using o.toks_ne
  | more o op p => simp [Phr.toks, o.toks_ne]

/-! ### A call -/

/-- What parameters stand for. -/
def argOf (d : Def) (args : List Arg) (v : String) : Option Phr := if v ∈ d.params then (args[d.params.idxOf v]?).map Arg.phr else none

def sig (d : Def) (args : List Arg) (v : String) : Option Ex := (argOf d args v).bind fun p => p.ex fun _ => none

theorem lex_at {s : S} {r : Option Nat} {c : Option (Def × List Nat)} (hr : s.ret = r) (hc : s.cur = c) (q : Nat) :
    lex src { s with pos := q } = lex src { pos := q, next := .eof, ret := r, cur := c } := by
  subst hr hc
  rfl

/-- Identifiers in the body and in the text behind the call. -/
theorem call_ids {d : Def} {args : List Arg} {ps : List Nat} {r : Nat} {vs : List String}
    (hlen : args.length = d.params.length)
    (hps : ∀ (k : Nat) (b : Arg), args[k]? = some b → ∃ (q : Nat) (x : MT) (p' : List MT), ps[k]? = some q ∧ q ≠ 0 ∧
      (x = .comma ∨ x = .rpar) ∧ src.drop q = b.toks ++ x :: p')
    (hsg : ∀ a ∈ args, a.Signed) (hid : ∀ a ∈ args, ∀ v ∈ a.ids, findMacro defs v = none ∧ v ∉ d.params)
    (hvs : ∀ v ∈ vs, findMacro defs v = none) :
    IdsOk src defs (some r) (some (d, ps)) (sig d args) vs := by
  have hnp : ∀ v, v ∉ d.params → paramIdx v (some (d, ps)) = none := fun v hv => by
    simp only [paramIdx]; rw [if_neg (fun h => hv h.1)]
  intro v hv
  refine ⟨hvs v hv, ?_⟩
  by_cases hp : v ∈ d.params
  · right
    have hk : d.params.idxOf v < args.length := by rw [hlen]; exact List.idxOf_lt_length_iff.2 hp
    have hb := List.getElem?_eq_getElem hk
    generalize args[d.params.idxOf v] = b at hb
    have hbm : b ∈ args := List.mem_of_getElem? hb
    obtain ⟨q, x, p', h1, h2, h3, h4⟩ := hps _ b hb
    obtain ⟨f1, f2, f3, f4, f5, f6⟩ := b.facts
    obtain ⟨t0, ts, ht⟩ : ∃ t0 ts, b.toks = t0 :: ts := by
      cases h : b.toks with
      | nil => exact (f5 h).elim
      | cons a l => exact ⟨a, l, rfl⟩
    have hq : paramIdx v (some (d, ps)) = some q := by
      have : ps.getD (d.params.idxOf v) 0 = q := by rw [List.getD_eq_getElem?_getD, h1]; rfl
      simp only [paramIdx, this]
      rw [if_pos ⟨hp, h2⟩]
    rw [ht] at h4 f6
    obtain ⟨s1, g1, g2, g3⟩ := lex_some (src := src) (s := { pos := q, next := .eof, ret := some r, cur := some (d, ps) }) rfl h4
      (f6 t0 (by simp)).2.2
    have hxe : x ≠ .eol := by rcases h3 with rfl | rfl <;> simp
    obtain ⟨s2, k1, k2, k3⟩ := spells_some ts ((lex_ret g1).1) g2 (fun h => (f6 _ (List.mem_cons_of_mem _ h)).2.2 rfl) hxe g3
    rw [← ht, ← f1] at k1
    obtain ⟨N, e, he, hN⟩ := read_expr (defs := defs) (σ := fun _ => none) b.phr f2 (f3 (hsg b hbm)) ((lex_ret g1).1) ((lex_ret g1).2) k1
      (by rw [k2]; rcases h3 with rfl | rfl <;> trivial)
      (fun w hw => by
        rw [f4] at hw
        obtain ⟨y1, y2⟩ := hid b hbm w hw
        exact ⟨y1, .inl ⟨hnp w y2, rfl⟩⟩)
    refine ⟨q, e, s1, s2, N, hq, ?_, fun s a b => by rw [lex_at a b]; exact g1, hN⟩
    simp only [sig, argOf, if_pos hp, hb, Option.map_some, Option.bind_some, he]
  · left
    refine ⟨hnp v hp, ?_⟩
    simp only [sig, argOf, if_neg hp, Option.bind_none]

theorem dropE_clean {l : List MT} {u : MT} {post : List MT} (hl : Clean l) (hu : u ≠ .eol) : dropE (l ++ u :: post) = l ++ u :: post := by
  cases l with
  | nil => exact dropE_cons hu
  | cons x l => exact dropE_cons (fun h => hl (by simp [h]))

/-- A call reads the body and all that follows the call up to the end of the expression. -/
theorem call_reads {d : Def} {m : String} {args : List Arg} {s : S} {body rest : List MT} {u : MT} {post l0 : List MT} {F : Phr}
    (hr : s.ret = none) (hc : s.cur = none) (hn : s.next = .id m) (hm : findMacro defs m = some d)
    (ht : dropE (src.drop s.pos) = .lpar :: (commas (args.map Arg.toks) ++ .rpar :: (rest ++ u :: post)))
    (hrest : Clean rest) (hu : u ≠ .eol) (hno : notOp u) (hb : src.drop d.start = body ++ .eol :: l0) (hbne : body ≠ []) (hbc : Clean body)
    (hF : F.toks = body ++ rest) (hpl : F.Plain) (hsgF : F.Signed)
    (hlen : args.length = d.params.length)
    (hsg : ∀ a ∈ args, a.Signed) (hid : ∀ a ∈ args, ∀ v ∈ a.ids, findMacro defs v = none ∧ v ∉ d.params)
    (hvs : ∀ v ∈ F.ids, findMacro defs v = none) :
    ∃ (s' : S) (N : Nat) (e : Ex), F.ex (sig d args) = some e ∧ s'.ret = none ∧ s'.cur = none ∧ s'.next = u ∧ src.drop s'.pos = post ∧
      ∀ n, N ≤ n → readOperand src defs n s = some (e, s') := by
  obtain ⟨s1, a1, a2, a3, a4, a5, a6⟩ := lex_none hr ht
  have hcl : Clean (commas (args.map Arg.toks)) := commas_clean _ (by
      intro a ha
      obtain ⟨x, _, rfl⟩ := List.mem_map.1 ha
      intro h
      exact (x.facts.2.2.2.2.2 _ h).2.2 rfl)
  rw [dropE_clean hcl (by simp)] at a3
  have key : ∃ (s2 : S) (ps : List Nat) (N : Nat), s2.next = .rpar ∧ src.drop s2.pos = rest ++ u :: post ∧ s2.ret = none ∧
      (∀ (k : Nat) (b : Arg), args[k]? = some b → ∃ (q : Nat) (x : MT) (p' : List MT), ps[k]? = some q ∧ q ≠ 0 ∧
      (x = .comma ∨ x = .rpar) ∧ src.drop q = b.toks ++ x :: p') ∧ ∀ n, N ≤ n → scan src n s1 [] = some (s2, ps) := by
    cases args with
    | nil =>
      obtain ⟨s2, ps, N, b1, b2, b3, b4, b5⟩ := scan_none a4 (by rw [a2]; simp) (by simpa [commas] using a3)
      exact ⟨s2, ps, N, b1, by rw [b2, dropE_clean hrest hu], b3, by simp, b5⟩
    | cons a as =>
      obtain ⟨s2, ps, N, b1, b2, b3, b4, b5, b6, b7⟩ := scan_args (as.map Arg.toks) (a := a.toks) [] a4 (by rw [a2]; simp) a6
        (by
          intro b hb
          rw [← List.map_cons (f := Arg.toks)] at hb
          obtain ⟨x, _, rfl⟩ := List.mem_map.1 hb
          exact ⟨x.facts.2.2.2.2.1, x.facts.2.2.2.2.2⟩) (by simpa using a3)
      refine ⟨s2, ps, N, b1, by rw [b2, dropE_clean hrest hu], b3, ?_, by simpa using b7⟩
      intro k b hk
      exact b6 k b.toks (by rw [← List.map_cons (f := Arg.toks), List.getElem?_map, hk]; rfl)
  obtain ⟨s2, ps, N1, b1, b2, b3, b4, b5⟩ := key
  obtain ⟨t0, ts, hbt⟩ : ∃ t0 ts, body = t0 :: ts := by
    cases h : body with
    | nil => exact (hbne h).elim
    | cons a l => exact ⟨a, l, rfl⟩
  subst hbt
  have hts : Clean ts := fun h => hbc (List.mem_cons_of_mem _ h)
  obtain ⟨s3, c1, c2, c3⟩ := lex_some (src := src) (s := { s2 with pos := d.start, ret := some s2.pos, cur := some (d, ps) }) rfl hb
    (fun h => hbc (by simp [h]))
  have hsp : ∃ s4, Spells src s3 (t0 :: ts ++ rest) s4 ∧ s4.next = u ∧ src.drop s4.pos = post := by
    cases rest with
    | nil =>
      obtain ⟨s4, e1, e2, e3⟩ := spells_jump ts ((lex_ret c1).1) c2 hts c3 b2 hu
      exact ⟨s4, by simpa using e1, e2, e3⟩
    | cons x xs =>
      obtain ⟨s4, e1, e2, e3⟩ := spells_jump ts ((lex_ret c1).1) c2 hts c3 b2 (fun h => hrest (by simp [h]))
      obtain ⟨s5, f1, f2, f3⟩ := spells_some xs (e1.ret.1.trans (lex_ret c1).1) e2 (fun h => hrest (List.mem_cons_of_mem _ h)) hu e3
      exact ⟨s5, e1.trans f1, f2, f3⟩
  obtain ⟨s4, g1, g2, g3⟩ := hsp
  rw [← hF] at g1
  obtain ⟨N2, e, he, hN2⟩ := read_expr (defs := defs) (σ := sig d args) F hpl hsgF ((lex_ret c1).1) ((lex_ret c1).2) g1 (by rw [g2]; exact hno)
    (call_ids hlen b4 hsg hid hvs)
  refine ⟨{ s4 with ret := none, cur := none }, N1 + N2 + 1, e, he, rfl, rfl, g2, g3, fun n hge => ?_⟩
  obtain ⟨n, rfl⟩ : ∃ k, n = k + 1 := ⟨n - 1, by omega⟩
  have q1 := b5 n (by omega)
  have q2 := hN2 n (by omega)
  simp only [readOperand, hn, hm, hc, Option.isSome_none, Bool.false_eq_true, if_false, a1, Option.bind_some, q1, c1, q2, Option.map_some]

/-! ### Arguments put into the body -/

mutual
def Opd.inst (τ : String → Option Phr) : Opd → Opd
  | .num v => .num v
  | .id s => .id s
  | .un u o => .un u (o.inst τ)
  | .par p => .par (p.inst τ)
  | .call m a => .call m a

def Phr.inst (τ : String → Option Phr) : Phr → Phr
  | .one (.id s) => (τ s).getD (.one (.id s))
  | .one o => .one (o.inst τ)
  | .more o op p => .more (o.inst τ) op (p.inst τ)
end

section
variable {d : Def} {args : List Arg}

theorem argOf_some (hlen : args.length = d.params.length) {v : String} (h : v ∈ d.params) :
    ∃ a ∈ args, argOf d args v = some a.phr ∧ (args.map Arg.toks).getD (d.params.idxOf v) [] = a.toks := by
  have hk : d.params.idxOf v < args.length := by rw [hlen]; exact List.idxOf_lt_length_iff.2 h
  have hb := List.getElem?_eq_getElem hk
  refine ⟨args[d.params.idxOf v], List.getElem_mem hk, by simp only [argOf, if_pos h, hb, Option.map_some], ?_⟩
  rw [List.getD_eq_getElem?_getD, List.getElem?_map, hb]
  rfl

theorem argOf_none {v : String} (h : v ∉ d.params) : argOf d args v = none := by simp only [argOf, if_neg h]

/-- The bracket around a parameter, or around something else. -/
theorem wrapped_par {p : Phr} (h : Opd.Wrapped defs d.params (.par p)) :
    (∃ v, p = .one (.id v) ∧ findMacro defs v = none) ∨ (Phr.Wrapped defs d.params p ∧ ∀ v, p = .one (.id v) → v ∉ d.params) := by
  cases p with
  | one o =>
    cases o with
    | id v => left; exact ⟨v, rfl, by simpa [Opd.Wrapped] using h⟩
    | num v => right; exact ⟨by simp [Phr.Wrapped, Opd.Wrapped], fun v e => by cases e⟩
    | un u o => right; exact ⟨by simpa [Opd.Wrapped] using h, fun v e => by cases e⟩
    | par o => right; exact ⟨by simpa [Opd.Wrapped] using h, fun v e => by cases e⟩
    | call o => right; exact ⟨by simpa [Opd.Wrapped] using h, fun v e => by cases e⟩
  | more o op p => right; exact ⟨by simpa [Opd.Wrapped] using h, fun v e => by cases e⟩

theorem inst_one {τ : String → Option Phr} {o : Opd} (h : ∀ v, o ≠ .id v) : (Phr.one o).inst τ = .one (o.inst τ) := by
  cases o with
  | id v => exact (h v rfl).elim
  | _ => simp [Phr.inst]

mutual
theorem opd_inst (hlen : args.length = d.params.length) : ∀ (o : Opd), o.Wrapped defs d.params →
    (o.inst (argOf d args)).ex (fun _ => none) = o.ex (sig d args) ∧
    (o.inst (argOf d args)).toks = o.toks.flatMap (place d.params (args.map Arg.toks)) ∧ (o.inst (argOf d args)).Plain ∧
    o.Plain ∧ (∀ v ∈ o.ids, findMacro defs v = none) ∧
    ((∀ a ∈ args, a.Signed) → o.Signed → (o.inst (argOf d args)).Signed) ∧ (∀ u x, o ≠ .un u x → True)
  | .num v, _ => by simp [Opd.inst, Opd.ex, Opd.toks, place, Opd.Plain, Opd.ids, Opd.Signed]
  | .id v, h => by
    have h' : v ∉ d.params ∧ findMacro defs v = none := by simpa [Opd.Wrapped] using h
    refine ⟨?_, ?_, by simp [Opd.inst, Opd.Plain], by simp [Opd.Plain], by simpa [Opd.ids] using h'.2, by simp [Opd.inst, Opd.Signed], fun _ _ _ => trivial⟩
    · simp [Opd.inst, Opd.ex, sig, argOf_none h'.1]
    · simp [Opd.inst, Opd.toks, place, h'.1]
  | .un u o, h => by
    obtain ⟨a, b, c, c2, e, f, _⟩ := opd_inst hlen o (by simpa [Opd.Wrapped] using h)
    refine ⟨?_, ?_, by simpa [Opd.inst, Opd.Plain] using c, by simpa [Opd.Plain] using c2, by simpa [Opd.ids] using e, ?_, fun _ _ _ => trivial⟩
    · simp only [Opd.inst, Opd.ex, a]
    · simp only [Opd.inst, Opd.toks, b, List.flatMap_cons]
      cases u <;> rfl
    · intro h1 h2
      have := f h1 (signed_un h2)
      cases u with
      | neg =>
        have h3 := (signed_neg h2).2
        cases o with
        | un u' x => exact (h3 _ _ rfl).elim
        | num v => simpa [Opd.inst, Opd.Signed] using this
        | id v => simpa [Opd.inst, Opd.Signed] using this
        | par v => simpa [Opd.inst, Opd.Signed] using this
        | call v w => simpa [Opd.inst, Opd.Signed] using this
      | lnot => simpa [Opd.inst, Opd.Signed] using this
      | bnot => simpa [Opd.inst, Opd.Signed] using this
  | .par p, h => by
    rcases wrapped_par h with ⟨v, rfl, hv⟩ | ⟨hw, _⟩
    · by_cases hp : v ∈ d.params
      · obtain ⟨a, ha, h1, h2⟩ := argOf_some hlen hp
        obtain ⟨f1, f2, f3, f4, f5, f6⟩ := a.facts
        obtain ⟨x, hx⟩ := Phr.items_some (fun _ => none) a.phr f2
        obtain ⟨e, he⟩ := infix_total x.1 x.2
        have hi : (Phr.one (.id v)).inst (argOf d args) = a.phr := by simp [Phr.inst, h1]
        refine ⟨?_, ?_, ?_, by simp [Opd.Plain, Phr.Plain], by simpa [Opd.ids, Phr.ids] using hv, ?_, fun _ _ _ => trivial⟩
        · rw [Opd.inst, hi, Opd.ex, Opd.ex, Phr.items, Opd.ex, hx, sig, h1]
          simp only [Option.bind_some, Phr.ex, hx, he, Option.map_some, Option.getD_some]
          rfl
        · rw [Opd.inst, hi, Opd.toks, f1, Opd.toks]
          simp [Phr.toks, Opd.toks, place, hp, h2]
          simpa using h2.symm
        · rw [Opd.inst, hi, Opd.Plain]; exact f2
        · intro hs _
          rw [Opd.inst, hi, Opd.Signed]; exact f3 (hs a ha)
      · refine ⟨?_, ?_, ?_, by simp [Opd.Plain, Phr.Plain], by simpa [Opd.ids, Phr.ids] using hv, ?_, fun _ _ _ => trivial⟩ <;>
          simp [Opd.inst, Phr.inst, argOf_none hp, Opd.ex, Phr.items, sig, Opd.toks, Phr.toks, place, hp, Opd.Plain, Phr.Plain, Opd.Signed, Phr.Signed]
    · obtain ⟨a, b, c, c2, e, f⟩ := phr_inst hlen p hw
      refine ⟨?_, ?_, by simpa [Opd.inst, Opd.Plain] using c, by simpa [Opd.Plain] using c2, by simpa [Opd.ids] using e, ?_, fun _ _ _ => trivial⟩
      · simp only [Opd.inst, Opd.ex, a]
      · simp [Opd.inst, Opd.toks, b, place]
      · intro h1 h2
        simpa [Opd.inst, Opd.Signed] using f h1 (by simpa [Opd.Signed] using h2)
  | .call _ _, h => by simp [Opd.Wrapped] at h

theorem phr_inst (hlen : args.length = d.params.length) : ∀ (p : Phr), p.Wrapped defs d.params →
    (p.inst (argOf d args)).items (fun _ => none) = p.items (sig d args) ∧
    (p.inst (argOf d args)).toks = p.toks.flatMap (place d.params (args.map Arg.toks)) ∧ (p.inst (argOf d args)).Plain ∧
    p.Plain ∧ (∀ v ∈ p.ids, findMacro defs v = none) ∧
    ((∀ a ∈ args, a.Signed) → p.Signed → (p.inst (argOf d args)).Signed)
  | .one o, h => by
    have hw : o.Wrapped defs d.params := by simpa [Phr.Wrapped] using h
    obtain ⟨a, b, c, c2, e, f, _⟩ := opd_inst hlen o hw
    have hi : (Phr.one o).inst (argOf d args) = .one (o.inst (argOf d args)) := by
      cases o with
      | id v =>
        have : v ∉ d.params ∧ findMacro defs v = none := by simpa [Opd.Wrapped] using hw
        simp [Phr.inst, argOf_none this.1, Opd.inst]
      | _ => exact inst_one (fun v e => by cases e)
    rw [hi]
    refine ⟨by simp only [Phr.items, a], by simp only [Phr.toks, b], by simpa [Phr.Plain] using c, by simpa [Phr.Plain] using c2,
      by simpa [Phr.ids] using e, fun h1 h2 => ?_⟩
    simpa [Phr.Signed] using f h1 (by simpa [Phr.Signed] using h2)
  | .more o op p, h => by
    have hw : o.Wrapped defs d.params ∧ p.Wrapped defs d.params := by simpa [Phr.Wrapped] using h
    obtain ⟨a, b, c, c2, e, f, _⟩ := opd_inst hlen o hw.1
    obtain ⟨a', b', c', c2', e', f'⟩ := phr_inst hlen p hw.2
    refine ⟨by simp only [Phr.inst, Phr.items, a, a'], by simp [Phr.inst, Phr.toks, b, b', place], by simpa [Phr.inst, Phr.Plain] using ⟨c, c'⟩,
      by simpa [Phr.Plain] using ⟨c2, c2'⟩, ?_, fun h1 h2 => ?_⟩
    · intro v hv
      rw [Phr.ids, List.mem_append] at hv
      exact hv.elim (e v) (e' v)
    · have h3 : o.Signed ∧ p.Signed := by simpa [Phr.Signed] using h2
      simpa [Phr.inst, Phr.Signed] using ⟨f h1 h3.1, f' h1 h3.2⟩
end

end

/-! ### Expressions with calls -/

/-- The text from the token read ahead on is `l`. -/
def At (src : List MT) (s : S) (l : List MT) : Prop :=
  s.ret = none ∧ s.cur = none ∧ ∃ l', l = s.next :: l' ∧ dropE (src.drop s.pos) = dropE l'

theorem dropE_idem (l : List MT) : dropE (dropE l) = dropE l := by
  induction l with
  | nil => rfl
  | cons t l ih =>
    by_cases h : t = .eol
    · subst h; simpa [dropE, List.dropWhile] using ih
    · rw [dropE_cons h, dropE_cons h]

theorem At.lex {s : S} {t u : MT} {l : List MT} (h : At src s (t :: u :: l)) (hu : u ≠ .eol) : s.next = t ∧ ∃ s1, lex src s = some s1 ∧ At src s1 (u :: l) := by
  obtain ⟨hr, hc, l', h1, h2⟩ := h
  injection h1 with h1 h3
  subst h3
  rw [dropE_cons hu] at h2
  obtain ⟨s1, a1, a2, a3, a4, a5, a6⟩ := lex_none hr h2
  refine ⟨h1.symm, s1, a1, a4, a5.trans hc, l, by rw [a2], ?_⟩
  rw [a3]; exact dropE_idem l

theorem toks_cons {o : List MT} (hne : o ≠ []) (hc : Clean o) {u : MT} (post : List MT) :
    ∃ t l, o ++ u :: post = t :: l ∧ t ≠ .eol := by
  cases o with
  | nil => exact (hne rfl).elim
  | cons t l => exact ⟨t, _, rfl, fun h => hc (by simp [h])⟩

theorem At.lexs {s : S} {t u : MT} {o post : List MT} (h : At src s (t :: (o ++ u :: post))) (hne : o ≠ []) (hc : Clean o) :
    s.next = t ∧ ∃ s1, Shecc.Macro.lex src s = some s1 ∧ At src s1 (o ++ u :: post) := by
  obtain ⟨x, l, e, hx⟩ := toks_cons hne hc (u := u) post
  rw [e] at h ⊢
  exact h.lex hx

theorem signed_head {s : S} {o : Opd} {l : List MT} (h : At src s (o.toks ++ l)) (hs : ∀ u x, o ≠ .un u x) : signed s.next = true := by
  obtain ⟨_, _, l', h1, _⟩ := h
  cases o with
  | un u x => exact (hs u x rfl).elim
  | num v => simp [Opd.toks] at h1; rw [← h1.1]; rfl
  | id v => simp [Opd.toks] at h1; rw [← h1.1]; rfl
  | par v => simp [Opd.toks] at h1; rw [← h1.1]; rfl
  | call v w => simp [Opd.toks] at h1; rw [← h1.1]; rfl

mutual
theorem read_opd2 : ∀ (o : Opd) {s : S} {u : MT} {post : List MT}, o.Ok src defs → o.Signed → At src s (o.toks ++ u :: post) → u ≠ .eol →
    (o.endsInCall = true → notOp u) →
    ∃ (o' : Opd) (e : Ex) (s' : S) (N : Nat), o'.toks = o.expand src defs ∧ o'.Plain ∧ o'.Signed ∧ ((∀ u x, o ≠ .un u x) → ∀ u x, o' ≠ .un u x) ∧
      o'.ex (fun _ => none) = some e ∧ At src s' (u :: post) ∧ ∀ n, N ≤ n → readOperand src defs n s = some (e, s')
  | .num v, s, u, post, hok, hsg, hat, hu, _ => by
    simp only [Opd.toks, List.cons_append, List.nil_append] at hat
    obtain ⟨a1, s1, a2, a3⟩ := hat.lex hu
    refine ⟨.num v, .num v, s1, 1, by simp [Opd.toks, Opd.expand], by simp [Opd.Plain], by simp [Opd.Signed], (fun _ u x e => by cases e), by simp [Opd.ex], a3, fun n hn => ?_⟩
    obtain ⟨n, rfl⟩ : ∃ k, n = k + 1 := ⟨n - 1, by omega⟩
    simp only [readOperand, a1, a2, Option.map_some]
  | .id v, s, u, post, hok, hsg, hat, hu, _ => by
    have hm : findMacro defs v = none := by simpa [Opd.Ok] using hok
    simp only [Opd.toks, List.cons_append, List.nil_append] at hat
    have hc := hat.2.1
    obtain ⟨a1, s1, a2, a3⟩ := hat.lex hu
    refine ⟨.id v, .id v, s1, 1, by simp [Opd.toks, Opd.expand], by simp [Opd.Plain], by simp [Opd.Signed], (fun _ u x e => by cases e), by simp [Opd.ex], a3, fun n hn => ?_⟩
    obtain ⟨n, rfl⟩ : ∃ k, n = k + 1 := ⟨n - 1, by omega⟩
    simp only [readOperand, a1, a2, hm, hc, paramIdx, Option.map_some]
  | .un k o, s, u, post, hok, hsg, hat, hu, hno => by
    rw [Opd.toks, List.cons_append] at hat
    obtain ⟨a1, s1, a2, a3⟩ := hat.lexs o.toks_ne o.clean
    obtain ⟨o', e, s', N, b1, b2, b3, b4, b5, b6, b7⟩ := read_opd2 o (by simpa [Opd.Ok] using hok) (signed_un hsg) a3 hu (by simpa [Opd.endsInCall] using hno)
    refine ⟨.un k o', .un k e, s', N + 1, by simp [Opd.toks, Opd.expand, b1], by simpa [Opd.Plain] using b2, ?_, fun h => (h k o rfl).elim, by simp [Opd.ex, b5], b6, fun n hn => ?_⟩
    · cases k with
      | neg =>
        have h4 := b4 (signed_neg hsg).2
        cases o' with
        | un k x => exact (h4 _ _ rfl).elim
        | num v => simpa [Opd.Signed] using b3
        | id v => simpa [Opd.Signed] using b3
        | par v => simpa [Opd.Signed] using b3
        | call v w => simpa [Opd.Signed] using b3
      | lnot => simpa [Opd.Signed] using b3
      | bnot => simpa [Opd.Signed] using b3
    · obtain ⟨n, rfl⟩ : ∃ k, n = k + 1 := ⟨n - 1, by omega⟩
      have g := b7 n (by omega)
      cases k with
      | neg =>
        have hsn := signed_head a3 (signed_neg hsg).2
        simp only [unTok] at a1
        simp only [readOperand, a1, a2, g, Option.bind_some, Option.map_some, hsn, if_true]
      | lnot => simp only [unTok] at a1; simp only [readOperand, a1, a2, g, Option.bind_some, Option.map_some]
      | bnot => simp only [unTok] at a1; simp only [readOperand, a1, a2, g, Option.bind_some, Option.map_some]
  | .par p, s, u, post, hok, hsg, hat, hu, _ => by
    simp only [Opd.toks, List.cons_append, List.append_assoc, List.nil_append] at hat
    obtain ⟨a1, s1, a2, a3⟩ := hat.lexs p.toks_ne p.clean
    obtain ⟨p', x, s', N, b1, b2, b3, b5, b6, b7⟩ := read_phr2 p (by simpa [Opd.Ok] using hok) (by simpa [Opd.Signed] using hsg) a3 (by simp) trivial
    obtain ⟨c1, s2, c2, c3⟩ := b6.lex hu
    obtain ⟨e, he⟩ := infix_total x.1 x.2
    refine ⟨.par p', e, s2, N + 2, by simp [Opd.toks, Opd.expand, b1], by simpa [Opd.Plain] using b2, by simpa [Opd.Signed] using b3,
      (fun _ u x e => by cases e), ?_, c3, fun n hn => ?_⟩
    · rw [Opd.ex, b5]; exact he
    · obtain ⟨n, rfl⟩ : ∃ k, n = k + 2 := ⟨n - 2, by omega⟩
      obtain ⟨s3, g1, g2⟩ := b7 n (by omega)
      simp only [readOperand, a1, a2, readExpr, g1, g2, he, Option.bind_some, Option.map_some, c1, if_true, c2]
  | .call m args, s, u, post, hok, hsg, hat, hu, hno => by
    have hok' : CallOk src defs m args := by simpa [Opd.Ok] using hok
    obtain ⟨⟨d, b, h1, h2, ⟨l0, h3⟩, h4, h5, h6, h7⟩, hid, hsa⟩ := hok'
    obtain ⟨hr, hc, l', hl1, hl2⟩ := hat
    simp only [Opd.toks, List.cons_append, List.append_assoc, List.nil_append] at hl1
    injection hl1 with hl1 hl3
    subst hl3
    rw [dropE_cons (by simp)] at hl2
    obtain ⟨i1, i2, i3, i4, i5, i6, _⟩ := opd_inst (args := args) h6 (.par b) h4
    obtain ⟨s', N, e, c1, c2, c3, c4, c5, c6⟩ := call_reads (src := src) (defs := defs) (rest := []) (F := .one (.par b)) (u := u) (post := post)
      hr hc hl1.symm h1 (by simpa using hl2) (by simp [Clean]) hu (hno (by simp [Opd.endsInCall])) h3 (Opd.toks_ne _) (Opd.clean _)
      (by simp [Phr.toks]) (by simpa [Phr.Plain] using i4) (by simpa [Phr.Signed, Opd.Signed] using h5) h6 hsa
      (fun a ha v hv => ⟨hid a ha v hv, h7 a ha v hv⟩) (by simpa [Phr.ids] using i5)
    obtain ⟨y, hy⟩ := Opd.ex_some (sig d args) (.par b) i4
    have hee : e = y := by
      rw [Phr.ex, Phr.items, hy] at c1
      simpa [infixExpr] using c1.symm
    subst hee
    refine ⟨(Opd.par b).inst (argOf d args), e, s', N, ?_, i3, i6 hsa (by simpa [Opd.Signed] using h5), fun _ u x e => by simp [Opd.inst] at e, i1.trans hy, ⟨c2, c3, post, by rw [c4], by rw [c5]⟩, c6⟩
    rw [i2, Opd.expand, h1]
    have : bodyToks src d = (Opd.par b).toks := by
      rw [bodyToks, h3]
      have hcl := Opd.clean (.par b)
      generalize (Opd.par b).toks = l at hcl
      clear h3 i2
      induction l with
      | nil => simp
      | cons t l ih =>
        have : t ≠ .eol := fun h => hcl (by simp [h])
        simp only [List.cons_append, List.takeWhile_cons, this, ne_eq, not_false_eq_true, decide_true, if_true]
        rw [ih (fun h => hcl (List.mem_cons_of_mem _ h))]
    simp only [Option.elim_some, this]

theorem read_phr2 : ∀ (p : Phr) {s : S} {u : MT} {post : List MT}, p.Ok src defs → p.Signed → At src s (p.toks ++ u :: post) → u ≠ .eol → notOp u →
    ∃ (p' : Phr) (x : Ex × List (POp × Ex)) (s' : S) (N : Nat), p'.toks = p.expand src defs ∧ p'.Plain ∧ p'.Signed ∧
      p'.items (fun _ => none) = some x ∧ At src s' (u :: post) ∧
      ∀ n, N ≤ n → ∃ s1, readOperand src defs n s = some (x.1, s1) ∧ readRest src defs n s1 = some (x.2, s')
  | .one o, s, u, post, hok, hsg, hat, hu, hno => by
    obtain ⟨o', e, s', N, b1, b2, b3, b4, b5, b6, b7⟩ := read_opd2 o (by simpa [Phr.Ok] using hok) (by simpa [Phr.Signed] using hsg) (by simpa [Phr.toks] using hat) hu (fun _ => hno)
    refine ⟨.one o', (e, []), s', N + 1, by simp [Phr.toks, Phr.expand, b1], by simpa [Phr.Plain] using b2, by simpa [Phr.Signed] using b3,
      by simp [Phr.items, b5], b6, fun n hn => ⟨s', b7 n (by omega), ?_⟩⟩
    obtain ⟨_, _, l', h, _⟩ := b6
    injection h with h _
    exact readRest_stop (by rw [← h]; exact hno) (by omega)
  | .more o op p, s, u, post, hok, hsg, hat, hu, hno => by
    have hok' : o.endsInCall = false ∧ o.Ok src defs ∧ p.Ok src defs := by simpa [Phr.Ok] using hok
    have hsg' : o.Signed ∧ p.Signed := by simpa [Phr.Signed] using hsg
    simp only [Phr.toks, List.append_assoc, List.cons_append] at hat
    obtain ⟨o', e, s1, N1, b1, b2, b3, b4, b5, b6, b7⟩ := read_opd2 o hok'.2.1 hsg'.1 hat (by simp) (by rw [hok'.1]; simp)
    obtain ⟨a1, s2, a2, a3⟩ := b6.lexs p.toks_ne p.clean
    obtain ⟨p', x, s', N2, c1, c2, c3, c5, c6, c7⟩ := read_phr2 p hok'.2.2 hsg'.2 a3 hu hno
    refine ⟨.more o' op p', (e, (op, x.1) :: x.2), s', N1 + N2 + 1, by simp [Phr.toks, Phr.expand, b1, c1], by simpa [Phr.Plain] using ⟨b2, c2⟩,
      by simpa [Phr.Signed] using ⟨b3, c3⟩, by simp [Phr.items, b5, c5], c6, fun n hn => ⟨s1, b7 n (by omega), ?_⟩⟩
    obtain ⟨n, rfl⟩ : ∃ k, n = k + 1 := ⟨n - 1, by omega⟩
    obtain ⟨s3, g1, g2⟩ := c7 n (by omega)
    simp only [readRest, a1, a2, g1, g2, Option.bind_some, Option.map_some]
end

theorem read_expr2 (p : Phr) {s : S} {u : MT} {post : List MT} (hok : p.Ok src defs) (hsg : p.Signed) (hat : At src s (p.toks ++ u :: post))
    (hu : u ≠ .eol) (hno : notOp u) :
    ∃ (p' : Phr) (e : Ex) (s' : S) (N : Nat), p'.toks = p.expand src defs ∧ p'.Plain ∧ p'.Signed ∧
      p'.ex (fun _ => none) = some e ∧ At src s' (u :: post) ∧ ∀ n, N ≤ n → readExpr src defs n s = some (e, s') := by
  obtain ⟨p', x, s', N, b1, b2, b3, b5, b6, b7⟩ := read_phr2 p hok hsg hat hu hno
  obtain ⟨e, he⟩ := infix_total x.1 x.2
  refine ⟨p', e, s', N + 1, b1, b2, b3, by rw [Phr.ex, b5]; exact he, b6, fun n hn => ?_⟩
  obtain ⟨n, rfl⟩ : ∃ k, n = k + 1 := ⟨n - 1, by omega⟩
  obtain ⟨s1, g1, g2⟩ := b7 n (by omega)
  simp only [readExpr, g1, g2, Option.bind_some, he, Option.map_some]

/-- Text without macros. -/
theorem read_plain (p : Phr) {s : S} {u : MT} {post : List MT} (hp : p.Plain) (hsg : p.Signed) (hat : At src s (p.toks ++ u :: post))
    (hu : u ≠ .eol) (hno : notOp u) :
    ∃ (e : Ex) (s' : S) (N : Nat), p.ex (fun _ => none) = some e ∧ s'.next = u ∧ ∀ n, N ≤ n → readExpr src [] n s = some (e, s') := by
  obtain ⟨hr, hc, l', h1, h2⟩ := hat
  obtain ⟨t, ts, ht⟩ : ∃ t ts, p.toks = t :: ts := by
    cases h : p.toks with
    | nil => exact (p.toks_ne h).elim
    | cons a l => exact ⟨a, l, rfl⟩
  have hcl := p.clean
  rw [ht] at hcl
  have hts : Clean ts := fun h => hcl (List.mem_cons_of_mem _ h)
  rw [ht, List.cons_append] at h1
  injection h1 with h1 h3
  subst h3
  rw [dropE_clean hts hu] at h2
  obtain ⟨s', a1, a2, a3, a4⟩ := spells_none ts hr h1.symm hts hu h2
  rw [← ht] at a1
  obtain ⟨N, e, he, hN⟩ := read_expr (defs := []) (σ := fun _ => none) p hp hsg hr hc a1 (by rw [a2]; exact hno)
    (fun v _ => ⟨rfl, .inl ⟨rfl, rfl⟩⟩)
  exact ⟨e, s', N, he, a2, hN⟩

/-! ### Calls that are not the last operand -/

mutual
def Opd.pinst (τ : String → Option Phr) : Opd → Opd
  | .num v => .num v
  | .id s => (τ s).elim (.id s) .par
  | .un u o => .un u (o.pinst τ)
  | .par p => .par (p.pinst τ)
  | .call m a => .call m a

def Phr.pinst (τ : String → Option Phr) : Phr → Phr
  | .one o => .one (o.pinst τ)
  | .more o op p => .more (o.pinst τ) op (p.pinst τ)
end

section
variable {d : Def} {args : List Arg}

mutual
theorem opd_pinst (hlen : args.length = d.params.length) (hs : ∀ a ∈ args, a.Signed) : ∀ (o : Opd), o.Plain → o.Signed →
    (o.pinst (argOf d args)).ex (fun _ => none) = o.ex (sig d args) ∧
    (o.pinst (argOf d args)).toks = o.toks.flatMap (placeP d.params (args.map Arg.toks)) ∧ (o.pinst (argOf d args)).Plain ∧
    (o.pinst (argOf d args)).Signed ∧ ((∀ u x, o ≠ .un u x) → ∀ u x, o.pinst (argOf d args) ≠ .un u x)
  | .num v, _, _ => by simp [Opd.pinst, Opd.ex, Opd.toks, placeP, Opd.Plain, Opd.Signed]
  | .id v, _, _ => by
    by_cases hp : v ∈ d.params
    · obtain ⟨a, ha, h1, h2⟩ := argOf_some hlen hp
      obtain ⟨f1, f2, f3, f4, f5, f6⟩ := a.facts
      obtain ⟨x, hx⟩ := Phr.items_some (fun _ => none) a.phr f2
      obtain ⟨e, he⟩ := infix_total x.1 x.2
      have hi : (Opd.id v).pinst (argOf d args) = .par a.phr := by simp [Opd.pinst, h1]
      rw [hi]
      refine ⟨?_, ?_, by rw [Opd.Plain]; exact f2, by rw [Opd.Signed]; exact f3 (hs a ha), fun _ u x e => by cases e⟩
      · rw [Opd.ex, Opd.ex, hx, sig, h1]
        simp only [Option.bind_some, Phr.ex, hx, he, Option.getD_some]
      · simp only [Opd.toks, f1, List.flatMap_cons, List.flatMap_nil, List.append_nil, placeP, if_pos hp, h2]
    · have hi : (Opd.id v).pinst (argOf d args) = .id v := by simp [Opd.pinst, argOf_none hp]
      rw [hi]
      exact ⟨by simp [Opd.ex, sig, argOf_none hp], by simp [Opd.toks, placeP, hp], by simp [Opd.Plain], by simp [Opd.Signed], fun _ u x e => by cases e⟩
  | .un u o, hp, hsg => by
    obtain ⟨a, b, c, e, f⟩ := opd_pinst hlen hs o (by simpa [Opd.Plain] using hp) (signed_un hsg)
    refine ⟨by simp only [Opd.pinst, Opd.ex, a], ?_, by simpa [Opd.pinst, Opd.Plain] using c, ?_, fun h => (h u o rfl).elim⟩
    · simp only [Opd.pinst, Opd.toks, b, List.flatMap_cons]
      cases u <;> rfl
    · rw [Opd.pinst]
      cases u with
      | neg =>
        have h4 := f (signed_neg hsg).2
        cases h : o.pinst (argOf d args) with
        | un k x => exact (h4 _ _ h).elim
        | _ => rw [h] at e; simpa [Opd.Signed] using e
      | lnot => simpa [Opd.Signed] using e
      | bnot => simpa [Opd.Signed] using e
  | .par p, hp, hsg => by
    obtain ⟨a, b, c, e⟩ := phr_pinst hlen hs p (by simpa [Opd.Plain] using hp) (by simpa [Opd.Signed] using hsg)
    exact ⟨by simp only [Opd.pinst, Opd.ex, a], by simp [Opd.pinst, Opd.toks, b, placeP], by simpa [Opd.pinst, Opd.Plain] using c,
      by simpa [Opd.pinst, Opd.Signed] using e, fun _ u x e => by simp [Opd.pinst] at e⟩
  | .call _ _, h, _ => by simp [Opd.Plain] at h

theorem phr_pinst (hlen : args.length = d.params.length) (hs : ∀ a ∈ args, a.Signed) : ∀ (p : Phr), p.Plain → p.Signed →
    (p.pinst (argOf d args)).items (fun _ => none) = p.items (sig d args) ∧
    (p.pinst (argOf d args)).toks = p.toks.flatMap (placeP d.params (args.map Arg.toks)) ∧ (p.pinst (argOf d args)).Plain ∧
    (p.pinst (argOf d args)).Signed
  | .one o, hp, hsg => by
    obtain ⟨a, b, c, e, _⟩ := opd_pinst hlen hs o (by simpa [Phr.Plain] using hp) (by simpa [Phr.Signed] using hsg)
    exact ⟨by simp only [Phr.pinst, Phr.items, a], by simp only [Phr.pinst, Phr.toks, b], by simpa [Phr.pinst, Phr.Plain] using c,
      by simpa [Phr.pinst, Phr.Signed] using e⟩
  | .more o op p, hp, hsg => by
    have hp' : o.Plain ∧ p.Plain := by simpa [Phr.Plain] using hp
    have hs' : o.Signed ∧ p.Signed := by simpa [Phr.Signed] using hsg
    obtain ⟨a, b, c, e, _⟩ := opd_pinst hlen hs o hp'.1 hs'.1
    obtain ⟨a', b', c', e'⟩ := phr_pinst hlen hs p hp'.2 hs'.2
    exact ⟨by simp only [Phr.pinst, Phr.items, a, a'], by simp [Phr.pinst, Phr.toks, b, b', placeP], by simpa [Phr.pinst, Phr.Plain] using ⟨c, c'⟩,
      by simpa [Phr.pinst, Phr.Signed] using ⟨e, e'⟩⟩
end
end

mutual
theorem Opd.ids_toks : ∀ (o : Opd) v, v ∈ o.ids → MT.id v ∈ o.toks
  | .num _, v, h => by simp [Opd.ids] at h
  | .id _, v, h => by simpa [Opd.ids, Opd.toks] using h
  | .un u o, v, h => by
    have := Opd.ids_toks o v (by simpa [Opd.ids] using h)
    simp [Opd.toks, this]
  | .par p, v, h => by
    have := Phr.ids_toks p v (by simpa [Opd.ids] using h)
    simp [Opd.toks, this]
  | .call _ _, v, h => by simp [Opd.ids] at h

theorem Phr.ids_toks : ∀ (p : Phr) v, v ∈ p.ids → MT.id v ∈ p.toks
  | .one o, v, h => by
    have := Opd.ids_toks o v (by simpa [Phr.ids] using h)
    simpa [Phr.toks] using this
  | .more o op p, v, h => by
    rw [Phr.ids, List.mem_append] at h
    rcases h with h | h
    · simp [Phr.toks, Opd.ids_toks o v h]
    · simp [Phr.toks, Phr.ids_toks p v h]
end

mutual
theorem opd_expand_plain : ∀ (o : Opd), o.Plain → o.expand src defs = o.toks
  | .num _, _ => by simp [Opd.expand, Opd.toks]
  | .id _, _ => by simp [Opd.expand, Opd.toks]
  | .un u o, h => by simp [Opd.expand, Opd.toks, opd_expand_plain o (by simpa [Opd.Plain] using h)]
  | .par p, h => by simp [Opd.expand, Opd.toks, phr_expand_plain p (by simpa [Opd.Plain] using h)]
  | .call _ _, h => by simp [Opd.Plain] at h

theorem phr_expand_plain : ∀ (p : Phr), p.Plain → p.expand src defs = p.toks
  | .one o, h => by simp [Phr.expand, Phr.toks, opd_expand_plain o (by simpa [Phr.Plain] using h)]
  | .more o op p, h => by
    have hp' : o.Plain ∧ p.Plain := by simpa [Phr.Plain] using h
    simp [Phr.expand, Phr.toks, opd_expand_plain o hp'.1, phr_expand_plain p hp'.2]
end

def preExp (src : List MT) (defs : List Def) (P : List (Opd × POp)) : List MT := P.flatMap fun x => x.1.expand src defs ++ [.op x.2]

theorem read_pre {K : Opd} {e : Ex} {T : List MT} {u : MT} {post : List MT} (hTne : T ≠ []) (hTc : Clean T) (hno : notOp u)
    (hK : K.Plain ∧ K.Signed ∧ K.ex (fun _ => none) = some e)
    (hT : ∀ s, At src s (T ++ u :: post) → ∃ (s' : S) (N : Nat), s'.next = u ∧ ∀ n, N ≤ n → readOperand src defs n s = some (e, s')) :
    ∀ (P : List (Opd × POp)) {s : S}, (∀ x ∈ P, x.1.endsInCall = false ∧ x.1.Ok src defs ∧ x.1.Signed) →
    At src s (preToks P ++ (T ++ u :: post)) →
    ∃ (p' : Phr) (x : Ex × List (POp × Ex)) (s' : S) (N : Nat), p'.toks = preExp src defs P ++ K.toks ∧ p'.Plain ∧ p'.Signed ∧
      p'.items (fun _ => none) = some x ∧ s'.next = u ∧
      ∀ n, N ≤ n → ∃ s1, readOperand src defs n s = some (x.1, s1) ∧ readRest src defs n s1 = some (x.2, s')
  | [], s, _, hat => by
    obtain ⟨s', N, h1, h2⟩ := hT s (by simpa [preToks] using hat)
    exact ⟨.one K, (e, []), s', N + 1, by simp [Phr.toks, preExp], by simpa [Phr.Plain] using hK.1, by simpa [Phr.Signed] using hK.2.1,
      by simp [Phr.items, hK.2.2], h1, fun n hn => ⟨s', h2 n (by omega), readRest_stop (by rw [h1]; exact hno) (by omega)⟩⟩
  | (o, op) :: P, s, hP, hat => by
    obtain ⟨g1, g2, g3⟩ := hP (o, op) (by simp)
    have hat' : At src s (o.toks ++ .op op :: (preToks P ++ (T ++ u :: post))) := by simpa [preToks] using hat
    obtain ⟨o', e', s1, N1, b1, b2, b3, b4, b5, b6, b7⟩ := read_opd2 o g2 g3 hat' (by simp) (by rw [g1]; simp)
    have hcl : preToks P ++ T ≠ [] ∧ Clean (preToks P ++ T) := by
      refine ⟨by simp [hTne], ?_⟩
      intro h
      rcases List.mem_append.1 h with h | h
      · obtain ⟨x, _, h⟩ := List.mem_flatMap.1 h
        rcases List.mem_append.1 h with h | h
        · exact x.1.clean h
        · simp at h
      · exact hTc h
    rw [← List.append_assoc] at b6
    obtain ⟨a1, s2, a2, a3⟩ := b6.lexs hcl.1 hcl.2
    rw [List.append_assoc] at a3
    obtain ⟨p', x, s', N2, c1, c2, c3, c5, c6, c7⟩ := read_pre hTne hTc hno hK hT P (fun x hx => hP x (by simp [hx])) a3
    refine ⟨.more o' op p', (e', (op, x.1) :: x.2), s', N1 + N2 + 1, by simp [Phr.toks, preExp, b1, c1], by simpa [Phr.Plain] using ⟨b2, c2⟩,
      by simpa [Phr.Signed] using ⟨b3, c3⟩, by simp [Phr.items, b5, c5], c6, fun n hn => ⟨s1, b7 n (by omega), ?_⟩⟩
    obtain ⟨n, rfl⟩ : ∃ k, n = k + 1 := ⟨n - 1, by omega⟩
    obtain ⟨s3, g1, g2⟩ := c7 n (by omega)
    simp only [readRest, a1, a2, g1, g2, Option.bind_some, Option.map_some]

end CMacro
