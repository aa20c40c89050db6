import Verif.Lemmas.Top1

/-!
# Reading the initial values of global variables
-/

namespace Shecc.Top
open CTypes CSyntax CBody CUnit
open CExpr (Tree Parses binOp)
open Shecc.Parser (POp getOperator operator infixExpr evalImm)
open Shecc.ExprGen (Conv)
open CArith (Word)

theorem neg_one_mul32 (v : BitVec 32) : -1 * v = -v := by
  have : (1 : BitVec 32) * v = v := BitVec.one_mul v
  rw [BitVec.neg_mul, this]

theorem mod_pow {a b : BitVec 32} (h0 : b ≠ 0#32) (ht : b &&& (b - 1#32) = 0#32) (ha : 0 ≤ a.toInt) :
    a &&& (b - 1#32) = BitVec.ofInt 32 (a.toInt.tmod b.toInt) := by
  have hb0 : b.toNat ≠ 0 := fun h => h0 (BitVec.eq_of_toNat_eq (by simpa using h))
  have hlt := b.isLt
  have e1 : (b - 1#32).toNat = b.toNat - 1 := by
    rw [BitVec.toNat_sub]; simp; omega
  have h1 : b.toNat &&& (b.toNat - 1) = 0 := by
    have := congrArg BitVec.toNat ht
    rwa [BitVec.toNat_and, e1] at this
  obtain ⟨k, hk⟩ := (Nat.and_sub_one_eq_zero_iff_isPowerOfTwo hb0).1 h1
  have ea : a.toInt = a.toNat := by
    rw [BitVec.toInt_eq_toNat_cond] at ha ⊢
    split at ha
    · next h => rw [if_pos h]
    · have := a.isLt; omega
  have ha2 : a.toNat < 2 ^ 31 := by
    rw [BitVec.toInt_eq_toNat_cond] at ea
    have := a.isLt
    split at ea <;> omega
  have key : a.toInt.tmod b.toInt = ((a.toNat % b.toNat : Nat) : Int) := by
    rw [ea]
    by_cases hb : b.toNat < 2 ^ 31
    · have : b.toInt = b.toNat := by rw [BitVec.toInt_eq_toNat_cond, if_pos (by omega)]
      rw [this]; rfl
    · have hb' : b.toNat = 2 ^ 31 := by
        rw [hk] at hb hlt ⊢
        have h3 : k < 32 := (Nat.pow_lt_pow_iff_right (by decide)).1 hlt
        have h4 : ¬ k < 31 := fun h => hb ((Nat.pow_lt_pow_iff_right (by decide)).2 h)
        have : k = 31 := by omega
        rw [this]
      have : b.toInt = -(2 ^ 31 : Nat) := by rw [BitVec.toInt_eq_toNat_cond, if_neg (by omega), hb']; rfl
      rw [this, Int.tmod_neg, hb']; rfl
  rw [key, BitVec.ofInt_natCast]
  apply BitVec.eq_of_toNat_eq
  rw [BitVec.toNat_and, e1, BitVec.toNat_ofNat, hk, Nat.and_two_pow_sub_one_eq_mod]
  have := Nat.mod_le a.toNat (2 ^ k)
  exact (Nat.mod_eq_of_lt (by omega)).symm

mutual
theorem wUnsigned_ok : ∀ {v : Word} {ts : List Tk}, WUnsigned v ts → ∀ r, Conv (fun n => primary n (ts ++ r)) (v, r) ∧
    Conv (fun n => primary n (p .minus :: ts ++ r)) (-v, r)
  | _, _, .num (l := l) hl hn, r => by
    have h1 := (Props.C47_literal l hl false).1
    constructor
    · refine Conv.const fun n => ?_
      rw [List.singleton_append, primary]
      · simp only [if_pos hn, h1]
      · simp
    · refine Conv.const fun n => ?_
      rw [List.cons_append, List.singleton_append, p, primary]
      simp only [if_pos hn, h1, Option.map_some]
      rw [neg_one_mul32]
  | _, _, .chr hc, r => by
    constructor
    · exact Conv.const fun n => rfl
    · refine Conv.const fun n => ?_
      rw [List.cons_append, List.singleton_append, p, primary]
      simp only [Option.map_some]
      rw [neg_one_mul32]
      rfl
  | _, _, .paren (v := v) (ts := ts) h, r => by
    have h1 := wSigned_ok h (p .close_bracket :: r)
    constructor
    · refine Conv.succ (h := fun n => (primary n (ts ++ p .close_bracket :: r)).bind fun q => Body.expect .close_bracket q.2 fun ts => some (q.1, ts)) (fun n => ?_)
        (Conv.bind h1 ⟨0, fun n _ => expect_ok _ _ _ _⟩)
      simp only [List.cons_append, List.append_assoc, List.nil_append]
      rw [p, primary]
      simp
    · refine Conv.succ (h := fun n => ((primary n (ts ++ p .close_bracket :: r)).bind fun q => Body.expect .close_bracket q.2 fun ts => some (q.1, ts)).map
          fun r => (-1 * r.1, r.2)) (fun n => ?_) ?_
      · simp only [List.cons_append, List.append_assoc, List.nil_append]
        rw [p, p, primary]
      · have := Conv.map (Conv.bind (k := fun _ (q : BitVec 32 × List Tk) => Body.expect .close_bracket q.2 fun ts => some (q.1, ts)) (x := (v, r)) h1
          ⟨0, fun n _ => expect_ok _ _ _ _⟩) (fun (r : BitVec 32 × List Tk) => (-1 * r.1, r.2))
        rw [neg_one_mul32] at this
        exact this
theorem wSigned_ok : ∀ {v : Word} {ts : List Tk}, WSigned v ts → ∀ r, Conv (fun n => primary n (ts ++ r)) (v, r)
  | _, _, .pos h, r => (wUnsigned_ok h r).1
  | _, _, .neg h, r => (wUnsigned_ok h r).2
end

theorem operator_popTok (op : POp) : operator (popTok op) = some op := by cases op <;> rfl

theorem wChain_ok {v : Word} {l : List (POp × Word)} {ts : List Tk} (h : WChain v l ts) : ∀ r, getOperator r = (none, r) →
    ∃ mid, Conv (fun n => primary n (ts ++ r)) (v, mid) ∧ Conv (fun n => operands n mid) (l, r) := by
  induction h with
  | one h =>
    intro r hr
    exact ⟨r, wSigned_ok h r, Conv.const fun n => by rw [operands, hr]⟩
  | @more v w op l ts tr h hr' ih =>
    intro r hr
    obtain ⟨mid, h1, h2⟩ := ih r hr
    refine ⟨p (popTok op) :: (tr ++ r), by simpa using wSigned_ok h (p (popTok op) :: (tr ++ r)), ?_⟩
    refine Conv.succ (h := fun n => (primary n (tr ++ r)).bind fun x => (operands n x.2).map fun q => ((op, x.1) :: q.1, q.2)) (fun n => ?_)
      (Conv.bind h1 (Conv.map h2 _))
    rw [operands]
    simp only [getOperator, p, operator_popTok]

theorem evalImm_bin {op : POp} {o : CArith.BinOp} {a b v : Word} (ho : binOp op = some o) (hb : op ≠ .bit_and ∧ op ≠ .bit_or ∧ op ≠ .bit_xor)
    (hm : op = .mod → 0 ≤ a.toInt) (hd : op = .div → ¬ (a = BitVec.intMin 32 ∧ b = -1#32)) (hv : CArith.bin o a b = some v) : evalImm op a b = some v := by
  have key : op ≠ .mod → ∀ v', evalImm op a b = some v' → evalImm op a b = some v := by
    intro hm' v' h
    have := Props.evalImm_sound op a b v' h hm' o ho
    rw [hv] at this
    rw [h, this]
  cases op <;> simp only [binOp, Option.some.injEq, reduceCtorEq] at ho <;> subst ho
  case bit_and => exact absurd rfl hb.1
  case bit_or => exact absurd rfl hb.2.1
  case bit_xor => exact absurd rfl hb.2.2
  case div =>
    simp only [CArith.bin] at hv
    by_cases h0 : b = 0#32
    · rw [if_pos h0] at hv; cases hv
    · exact key (by simp) _ (by simp only [evalImm]; exact if_neg (fun h => h.elim h0 (hd rfl)))
  case mod =>
    simp only [CArith.bin] at hv
    by_cases h0 : b = 0#32
    · rw [if_pos h0] at hv; cases hv
    · rw [if_neg h0] at hv
      have ha := hm rfl
      cases hv
      by_cases ht : b &&& (b - 1#32) = 0#32
      · simp only [evalImm]
        rw [if_pos ⟨h0, ht⟩, mod_pow h0 ht ha]
      · simp only [evalImm]
        have hn : ¬ (b = 0#32 ∨ a = BitVec.intMin 32 ∧ b = -1#32) := by
          rintro (h | ⟨h, -⟩)
          · exact h0 h
          · rw [h] at ha; exact absurd ha (by decide)
        rw [if_neg fun h => ht h.2, if_neg hn, ← BitVec.toInt_srem, BitVec.ofInt_toInt]
  case lshift =>
    simp only [CArith.bin] at hv
    by_cases h0 : b.toNat < 32
    · exact key (by simp) _ (by simp only [evalImm]; exact if_pos h0)
    · rw [if_neg h0] at hv; cases hv
  case rshift =>
    simp only [CArith.bin] at hv
    by_cases h0 : b.toNat < 32
    · exact key (by simp) _ (by simp only [evalImm]; exact if_pos h0)
    · rw [if_neg h0] at hv; cases hv
  all_goals exact key (by simp) _ rfl

theorem evalWith_value {t : Tree Word} {v : Word} (h : Value t v) : Parser.evalWith evalImm t = some v := by
  induction h with
  | leaf v => rfl
  | node ho hb hm hd hl hr hv ihl ihr =>
    simp only [Parser.evalWith, ihl, ihr, Option.bind_some]
    exact evalImm_bin ho hb hm hd hv
  | and hl hr ihl ihr =>
    simp only [Parser.evalWith, ihl, ihr, Option.bind_some, evalImm]
    simp
  | or hl hr ihl ihr =>
    simp only [Parser.evalWith, ihl, ihr, Option.bind_some, evalImm]
    simp

theorem infix_value {a v : Word} {l : List (POp × Word)} {t : Tree Word} (hs : ShiftsApart (l.map (·.1))) (ht : Parses t a l) (hv : Value t v) :
    infixExpr evalImm a l = some v := by
  obtain ⟨t', e, hp, hu⟩ := Props.C48_grouping_partial a l hs
  obtain rfl := hu t ht
  rw [Parser.infixExpr_eval, e]
  exact evalWith_value hv

/-! ### Tokens that do not occur -/

mutual
theorem wUnsigned_toks : ∀ {v : Word} {ts : List Tk}, WUnsigned v ts → ∀ t ∈ ts, t.1 ≠ .colon ∧ t.1 ≠ .semicolon
  | _, _, .num hl hn => by simp
  | _, _, .chr hc => by simp
  | _, _, .paren h => by
    have := wSigned_toks h
    intro t ht
    simp only [List.cons_append, List.mem_cons, List.mem_append, List.not_mem_nil, or_false] at ht
    rcases ht with rfl | ht | rfl
    · simp [p]
    · exact this t ht
    · simp [p]
theorem wSigned_toks : ∀ {v : Word} {ts : List Tk}, WSigned v ts → ∀ t ∈ ts, t.1 ≠ .colon ∧ t.1 ≠ .semicolon
  | _, _, .pos h => wUnsigned_toks h
  | _, _, .neg h => by
    have := wUnsigned_toks h
    intro t ht
    simp only [List.mem_cons] at ht
    rcases ht with rfl | ht
    · simp [p]
    · exact this t ht
end

theorem wChain_toks {v : Word} {l : List (POp × Word)} {ts : List Tk} (h : WChain v l ts) : ∀ t ∈ ts, t.1 ≠ .colon ∧ t.1 ≠ .semicolon := by
  induction h with
  | one h => exact wSigned_toks h
  | @more v w op l ts tr h hr ih =>
    intro t ht
    simp only [List.mem_append, List.mem_cons] at ht
    rcases ht with ht | rfl | ht
    · exact wSigned_toks h t ht
    · cases op <;> simp [p, popTok]
    · exact ih t ht

theorem wConst_toks {v : Word} {ts : List Tk} (h : WConst v ts) : ∀ t ∈ ts, t.1 ≠ .colon ∧ t.1 ≠ .semicolon := by
  cases h with
  | expr h _ _ _ => exact wChain_toks h

theorem wValue_toks {v : Word} {ts : List Tk} (h : WValue v ts) : ∀ t ∈ ts, t.1 ≠ .semicolon := by
  induction h with
  | expr h => exact fun t ht => (wConst_toks h t ht).2
  | then_ hc hn hv hu ih =>
    intro t ht
    simp only [List.mem_append, List.mem_cons] at ht
    rcases ht with ht | rfl | ht | rfl | ht
    · exact (wConst_toks hc t ht).2
    · simp [p]
    · exact (wConst_toks hv t ht).2
    · simp [p]
    · exact ih t ht
  | else_ hc hn hv hu ih =>
    intro t ht
    simp only [List.mem_append, List.mem_cons] at ht
    rcases ht with ht | rfl | ht | rfl | ht
    · exact (wConst_toks hc t ht).2
    · simp [p]
    · exact (wConst_toks hv t ht).2
    · simp [p]
    · exact ih t ht

theorem dropWhile_to {k : Lex.Tok} {ts : List Tk} (h : ∀ t ∈ ts, t.1 ≠ k) (x : List Char) (r : List Tk) :
    (ts ++ (k, x) :: r).dropWhile (fun t => decide (t.1 ≠ k)) = (k, x) :: r := by
  induction ts with
  | nil => simp
  | cons t ts ih =>
    rw [List.cons_append, List.dropWhile_cons_of_pos (by simpa using h t (by simp))]
    exact ih fun t ht => h t (by simp [ht])

theorem wConst_ok {v : Word} {ts : List Tk} (h : WConst v ts) {r : List Tk} (hr : Head (fun t => t = .semicolon ∨ t = .colon) r) :
    Conv (fun n => initializer n (ts ++ r)) (v, r) := by
  cases h with
  | expr h hs ht hv =>
    obtain ⟨⟨t, x⟩, r, rfl, hh⟩ := hr
    obtain ⟨mid, h1, h2⟩ := wChain_ok h ((t, x) :: r) (by rcases hh with rfl | rfl <;> rfl)
    refine Conv.succ (fun n => by rw [initializer]) (Conv.bind h1 (Conv.bind h2 ⟨0, fun n _ => ?_⟩))
    simp only [infix_value hs ht hv, Option.bind_some]
    rcases hh with rfl | rfl <;> rfl

theorem wCond_ok {c : Word} {tc r : List Tk} (h : WConst c tc) : ∃ mid l, Conv (fun n => primary n (tc ++ p .question :: r)) mid ∧
    Conv (fun n => operands n mid.2) (l, p .question :: r) ∧ infixExpr evalImm mid.1 l = some c := by
  cases h with
  | @expr a v l t ts h hs ht hv =>
    obtain ⟨mid, h1, h2⟩ := wChain_ok h (p .question :: r) rfl
    exact ⟨(a, mid), l, h1, h2, infix_value hs ht hv⟩

theorem wValue_ok {v : Word} {ts : List Tk} (h : WValue v ts) : ∀ r, Conv (fun n => initializer n (ts ++ p .semicolon :: r)) (v, p .semicolon :: r) := by
  induction h with
  | expr h => exact fun r => wConst_ok h ⟨_, _, rfl, .inl rfl⟩
  | @then_ c v u tc tv tu hc hn hv hu ih =>
    intro r
    obtain ⟨⟨a, mid⟩, l, h1, h2, h3⟩ := wCond_ok (r := tv ++ p .colon :: (tu ++ p .semicolon :: r)) hc
    have h4 := wConst_ok hv (r := p .colon :: (tu ++ p .semicolon :: r)) ⟨_, _, rfl, .inr rfl⟩
    simp only [List.append_assoc, List.cons_append]
    refine Conv.succ (fun n => by rw [initializer]) (Conv.bind h1 (Conv.bind h2 ?_))
    simp only [h3, Option.bind_some]
    refine Conv.eq (h := fun n => (initializer n (tv ++ p .colon :: (tu ++ p .semicolon :: r))).bind fun q => Body.expect .colon q.2 fun ts =>
      some (q.1, ts.dropWhile fun t => t.1 ≠ .semicolon)) (fun n => by simp only [p]; rw [if_neg hn]) (Conv.bind h4 ⟨0, fun n _ => ?_⟩)
    refine (expect_ok _ _ _ _).trans ?_
    have := dropWhile_to (wValue_toks hu) [] r
    simp only [p]
    rw [this]
  | @else_ c v u tc tv tu hc hn hv hu ih =>
    intro r
    obtain ⟨⟨a, mid⟩, l, h1, h2, h3⟩ := wCond_ok (r := tv ++ p .colon :: (tu ++ p .semicolon :: r)) hc
    simp only [List.append_assoc, List.cons_append]
    refine Conv.succ (fun n => by rw [initializer]) (Conv.bind h1 (Conv.bind h2 ?_))
    simp only [h3, Option.bind_some]
    refine Conv.eq (h := fun n => initializer n (tu ++ p .semicolon :: r)) (fun n => ?_) (ih r)
    refine (if_pos hn).trans ?_
    have := dropWhile_to (k := .colon) (fun t ht => (wConst_toks hv t ht).1) [] (tu ++ p .semicolon :: r)
    simp only [p] at this ⊢
    rw [this]

end Shecc.Top
