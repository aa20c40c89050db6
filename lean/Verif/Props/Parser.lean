import Verif.Lemmas.Expr

/-!
# Literals, grouping of expressions, constant expressions (C47-C49, C67)
-/

namespace Shecc.Props
open Shecc.Parser Shecc.Lex CExpr

/-! ### C47 -/

/-- **C47.** Every decimal, octal and hexadecimal literal is read as its mathematical value modulo 2^32, by the function used
for declarations and preprocessor conditions and by the one used in expressions (with a sign). -/
theorem C47_literal (l : Literal) (hl : l.Valid) (neg : Bool) :
    readNumericConstant l.spelling = BitVec.ofNat 32 l.val ∧
    readNumericParam l.spelling neg = some (if neg then -BitVec.ofNat 32 l.val else BitVec.ofNat 32 l.val) := by
  cases l with
  | dec ds =>
    obtain ⟨h1, h2, h3⟩ := hl
    constructor
    · unfold readNumericConstant Literal.spelling
      simp only [decide_eq_false h2]
      exact numLoop_dec ds 0 0 h3
    · have : ∀ r, ds ≠ '0' :: r := fun r e => h2 (by rw [e]; rfl)
      have e : readNumericParam ds neg = (paramDec 0 ds).map fun v => if neg then -v else v := by
        unfold readNumericParam
        split <;> first | rfl | (rename_i r; exact absurd rfl (this _))
      show readNumericParam ds neg = _
      rw [e, show (0 : BitVec 32) = BitVec.ofNat 32 0 from rfl, paramDec_val ds 0 h1 h3]
      rfl
  | oct ds =>
    have hv : ∀ c ∈ '0' :: ds, c ∈ "01234567".toList := by
      intro c hc
      rcases List.mem_cons.1 hc with rfl | hc
      · decide
      · exact hl c hc
    have hval : ('0' :: ds).foldl (fun v c => v * 8 + digitVal c) 0 = digitsVal 8 ds := by
      rw [List.foldl_cons, show 0 * 8 + digitVal '0' = 0 by decide]; rfl
    constructor
    · unfold readNumericConstant Literal.spelling
      simp only [List.head?_cons]
      have := numLoop_oct ('0' :: ds) 0 0 hv
      rw [hval] at this
      exact this
    · have : ∀ r, ds ≠ 'x' :: r := fun r e => by
        have := hl 'x' (by rw [e]; simp)
        exact absurd this (by decide)
      have e : readNumericParam ('0' :: ds) neg = (paramOct 0 ('0' :: ds)).map fun v => if neg then -v else v := by
        unfold readNumericParam
        split
        · rename_i heq
          simp only [List.cons.injEq, true_and] at heq
          exact absurd heq (this _)
        · rename_i b heq
          rfl
        · rename_i hh h1 h2
          exact absurd rfl (h2 ds)
      show readNumericParam ('0' :: ds) neg = _
      rw [e, show (0 : BitVec 32) = BitVec.ofNat 32 0 from rfl, paramOct_val ('0' :: ds) 0 (by simp) hv, hval]
      rfl
  | hex ds =>
    obtain ⟨h1, h2⟩ := hl
    constructor
    · show numLoop _ 0 0 ('0' :: 'x' :: ds) = _
      rw [numLoop, if_neg (by decide)]
      rw [if_pos (by simp [Literal.spelling]), numLoop, if_pos ⟨rfl, rfl⟩]
      exact hexLoop_val ds 0 h2
    · show readNumericParam ('0' :: 'x' :: ds) neg = _
      simp only [readNumericParam]
      rw [show (0 : BitVec 32) = BitVec.ofNat 32 0 from rfl, paramHex_val ds 0 h1 h2]
      rfl

example : (Literal.hex "1Fa".toList).Valid ∧ (Literal.hex "1Fa".toList).val = 506 ∧ (Literal.oct "17".toList).Valid ∧
    (Literal.oct "17".toList).val = 15 ∧ (Literal.dec "90".toList).Valid ∧ (Literal.dec "90".toList).val = 90 := by
  refine ⟨⟨by decide, by decide⟩, by decide, ?_, by decide, ⟨by decide, by decide, by decide⟩, by decide⟩
  show ∀ c ∈ _, _
  decide

/-- `char buffer[10]` in `read_primary_constant` (src/parser.c:2083), filled by an unchecked `strcpy`. -/
def primaryBufferSize : Nat := 10

/-- Literals that fit an `int` need not fit the buffer used for global initialisers: `0xFFFFFFFF` and `1234567890` do not. -/
theorem C47_buffer_too_small :
    (Literal.hex "FFFFFFFF".toList).Valid ∧ (Literal.hex "FFFFFFFF".toList).val < 2 ^ 32 ∧
    (Literal.dec "1234567890".toList).Valid ∧ (Literal.dec "1234567890".toList).val < 2 ^ 31 ∧
    primaryBufferSize < (Literal.hex "FFFFFFFF".toList).spelling.length + 1 ∧
    primaryBufferSize < (Literal.dec "1234567890".toList).spelling.length + 1 := by
  refine ⟨⟨by decide, by decide⟩, by decide, ⟨by decide, by decide, by decide⟩, by decide, by decide, by decide⟩

/-! ### C48 -/

variable {α : Type}

/-- Grouping depends only on how the operators that occur compare. -/
theorem grouped_congr (p q : POp → Nat) (S : POp → Prop) (h : ∀ a b, S a → S b → (p a ≤ p b ↔ q a ≤ q b)) :
    ∀ t : Tree α, (∀ x ∈ t.rest, S x.1) → t.Grouped p → t.Grouped q := by
  intro t
  induction t with
  | leaf a => intro _ _; trivial
  | node op l r ihl ihr =>
    intro hs hg
    obtain ⟨g1, g2, g3, g4⟩ := hg
    have so : S op := hs (op, r.first) (by simp [Tree.rest])
    have root : ∀ (t : Tree α) (o : POp), t.root? = some o → ∃ v, (o, v) ∈ t.rest := by
      intro t o ho
      cases t with
      | leaf a => simp [Tree.root?] at ho
      | node op' l' r' =>
        simp only [Tree.root?, Option.some.injEq] at ho
        subst ho
        exact ⟨r'.first, by simp [Tree.rest]⟩
    have sl : ∀ x ∈ l.rest, S x.1 := fun x hx => hs x (by simp [Tree.rest, hx])
    have sr : ∀ x ∈ r.rest, S x.1 := fun x hx => hs x (by simp [Tree.rest, hx])
    refine ⟨ihl sl g1, ihr sr g2, ?_, ?_⟩
    · intro o ho
      obtain ⟨v, hv⟩ := root l o ho
      exact (h _ _ so (sl _ hv)).1 (g3 o ho)
    · intro o ho
      obtain ⟨v, hv⟩ := root r o ho
      have := g4 o ho
      have := h _ _ (sr _ hv) so
      simp only at this
      omega

/-- C and the compiler order these operators alike: no shift at all, or only shifts and arithmetic. -/
def ShiftSafe (ops : List POp) : Prop :=
  (∀ o ∈ ops, o ≠ .lshift ∧ o ≠ .rshift) ∨ (∀ o ∈ ops, o ∈ [POp.lshift, .rshift, .add, .sub, .mul, .div, .mod])

/-- **C48 (partial).** The two-stack algorithm builds exactly the tree C prescribes, for every sequence of operands and binary
operators in which shifts are mixed with arithmetic operators only.  Missing: shifts next to comparisons, equality and bit
operators, for which the property is false (`C48_shift_wrong`).  `&&` and `||` take other code paths in `read_expr`; for
global initialisers they are ordinary operators (C67). -/
theorem C48_grouping_partial (a : α) (rest : List (POp × α)) (h : ShiftSafe (rest.map (·.1))) :
    ∃ t, infixExpr mkTree (.leaf a) (rest.map fun x => (x.1, Tree.leaf x.2)) = some t ∧ Parses t a rest ∧
      ∀ t', Parses t' a rest → t' = t := by
  obtain ⟨t, e, h1, h2, h3⟩ := infixExpr_grouped a rest
  have hg : t.Grouped prec := by
    rcases h with h | h
    · refine grouped_congr prio prec (fun o => o ≠ .lshift ∧ o ≠ .rshift) ?_ t ?_ h3
      · intro x y ⟨hx1, hx2⟩ ⟨hy1, hy2⟩
        cases x <;> cases y <;> first | decide | contradiction
      · intro x hx; exact h x.1 (by rw [← h2]; exact List.mem_map_of_mem hx)
    · refine grouped_congr prio prec (fun o => o ∈ [POp.lshift, .rshift, .add, .sub, .mul, .div, .mod]) ?_ t ?_ h3
      · intro x y hx hy
        simp only [List.mem_cons, List.not_mem_nil, or_false] at hx hy
        rcases hx with rfl | rfl | rfl | rfl | rfl | rfl | rfl <;>
          rcases hy with rfl | rfl | rfl | rfl | rfl | rfl | rfl <;> decide
      · intro x hx; exact h x.1 (by rw [← h2]; exact List.mem_map_of_mem hx)
  refine ⟨t, e, ⟨h1, h2, hg⟩, ?_⟩
  intro t' ⟨k1, k2, k3⟩
  exact grouped_unique prec t' t k3 hg (k1.trans h1.symm) (k2.trans h2.symm)

/-- `1 - 2 - 3 * 4 == 5 & 6`: every hypothesis holds, and the tree is `((1 - 2) - (3 * 4) == 5) & 6`. -/
example : ShiftSafe [.sub, .sub, .mul, .eq, .bit_and] ∧
    infixExpr mkTree (.leaf 1) ([(.sub, 2), (.sub, 3), (.mul, 4), (.eq, 5), (.bit_and, 6)].map
      fun (x : POp × Nat) => (x.1, Tree.leaf x.2)) =
    some (.node .bit_and (.node .eq (.node .sub (.node .sub (.leaf 1) (.leaf 2)) (.node .mul (.leaf 3) (.leaf 4))) (.leaf 5))
      (.leaf 6)) := ⟨Or.inl (by decide), by decide⟩

/-- C48 fails: `1 << 2 & 3` is grouped as `1 << (2 & 3)`, and `1 << 2 < 3` as `1 << (2 < 3)`; C has the shift first. -/
theorem C48_shift_wrong :
    infixExpr mkTree (.leaf 1) [(.lshift, .leaf 2), (.bit_and, .leaf 3)] =
      some (.node .lshift (.leaf 1) (.node .bit_and (.leaf 2) (.leaf 3))) ∧
    Parses (.node .bit_and (.node .lshift (.leaf 1) (.leaf 2)) (.leaf 3)) 1 [(.lshift, 2), (.bit_and, 3)] ∧
    infixExpr mkTree (.leaf 1) [(.lshift, .leaf 2), (.lt, .leaf 3)] =
      some (.node .lshift (.leaf 1) (.node .lt (.leaf 2) (.leaf 3))) ∧
    Parses (.node .lt (.node .lshift (.leaf 1) (.leaf 2)) (.leaf 3)) 1 [(.lshift, 2), (.lt, 3)] := by
  refine ⟨by decide, ⟨rfl, rfl, ?_⟩, by decide, ⟨rfl, rfl, ?_⟩⟩
  · simp [Tree.Grouped, Tree.root?, prec]
  · simp [Tree.Grouped, Tree.root?, prec]

/-- The operator stacks and operand counts after each push of the loop. -/
def stackSizes (mk : POp → α → α → Option α) (os : List POp) (vs : List α) : List (POp × α) → List (Nat × Nat)
  | [] => []
  | (op, v) :: rest =>
    match popWhile mk (prio op) os vs with
    | none => []
    | some (os, vs) => ((op :: os).length, (v :: vs).length) :: stackSizes mk (op :: os) (v :: vs) rest

/-- Rank of a priority among the ten that occur. -/
def rank (o : POp) : Nat :=
  match o with
  | .lshift | .rshift => 0
  | .log_or => 1
  | .log_and => 2
  | .bit_or => 3
  | .bit_xor => 4
  | .bit_and => 5
  | .eq | .neq => 6
  | .lt | .leq | .gt | .geq => 7
  | .add | .sub => 8
  | .mul | .div | .mod => 9

theorem rank_mono (a b : POp) (h : prio a < prio b) : rank a < rank b := by
  revert h; cases a <;> cases b <;> decide

theorem SInv_len {os : List POp} {vs : List (Tree α)} {a : α} {l : List (POp × α)} (h : SInv prio os vs a l) :
    vs.length = os.length + 1 ∧ ∀ o, os.head? = some o → os.length ≤ rank o + 1 := by
  induction h with
  | one t hg => exact ⟨rfl, by simp⟩
  | push o os t w vs a l h hg hr hl hs ih =>
    refine ⟨by have := ih.1; simp only [List.length_cons] at *; omega, ?_⟩
    intro x hx
    simp only [List.head?_cons, Option.some.injEq] at hx
    subst hx
    cases os with
    | nil => simp
    | cons o' os =>
      have h1 := ih.2 o' rfl
      have h2 := rank_mono _ _ (hs o' rfl)
      simp only [List.length_cons] at *
      omega

theorem stackSizes_bound : ∀ (rest : List (POp × α)) (os : List POp) (vs : List (Tree α)) (v a : α) (l : List (POp × α)),
    SInv prio os (.leaf v :: vs) a l →
    ∀ x ∈ stackSizes mkTree os (.leaf v :: vs) (rest.map fun x => (x.1, Tree.leaf x.2)), x.1 ≤ 10 ∧ x.2 ≤ 11 := by
  intro rest
  induction rest with
  | nil => intro os vs v a l _ x hx; simp [stackSizes] at hx
  | cons y rest ih =>
    intro os vs v a l h x hx
    obtain ⟨op, b⟩ := y
    obtain ⟨os', vs', e, i1, i2, i3⟩ := popWhile_inv (prio op) os _ a l h (by
      intro t vs' e x hx
      simp only [List.cons.injEq] at e
      obtain ⟨rfl, rfl⟩ := e
      simp [Tree.root?] at hx)
    obtain ⟨w, vs'', rfl, hgw⟩ := i1.vals
    have i4 := SInv.push op os' (.leaf b) w vs'' a l i1 trivial (by simp [Tree.root?]) (i2 w vs'' rfl) i3
    simp only [List.map_cons, stackSizes, e, List.mem_cons] at hx
    rcases hx with rfl | hx
    · obtain ⟨k1, k2⟩ := SInv_len i4
      have := k2 op rfl
      have hr : rank op ≤ 9 := by cases op <;> decide
      simp only [List.length_cons] at *
      omega
    · exact ih _ _ _ _ _ i4 x hx

/-- The operator stack never holds more than 10 operators, the size of the array, and the operand stack never more than 11
operands: one more than `val_stack[10]` in `read_global_assignment` (src/parser.c:2195). -/
theorem C48_stack_bound (a b : α) (op : POp) (rest : List (POp × α)) :
    ∀ x ∈ stackSizes mkTree [op] [.leaf b, .leaf a] (rest.map fun x => (x.1, Tree.leaf x.2)), x.1 ≤ 10 ∧ x.2 ≤ 11 := by
  have i0 := SInv.one (p := prio) (Tree.leaf a) trivial
  have i1 := SInv.push op [] (.leaf b) (.leaf a) [] a [] i0 trivial (by simp [Tree.root?]) (by simp [Tree.root?]) (by simp)
  exact stackSizes_bound rest _ _ _ _ _ i1

/-- … and the bound of 11 operands is reached, so an initialiser with operators of all ten priorities writes past the end of
`val_stack`. -/
theorem C48_value_stack_overflow :
    (10, 11) ∈ stackSizes mkTree [.lshift] [.leaf 1, .leaf 0]
      ([(.log_or, 2), (.log_and, 3), (.bit_or, 4), (.bit_xor, 5), (.bit_and, 6), (.eq, 7), (.lt, 8), (.add, 9), (.mul, 10)].map
        fun (x : POp × Nat) => (x.1, Tree.leaf x.2)) := by decide

/-! ### C67: global initialisers -/

theorem shl_val' (a b : BitVec 32) : a <<< b.toNat = BitVec.ofInt 32 (a.toInt * 2 ^ b.toNat) := by
  rw [BitVec.shiftLeft_eq_mul_twoPow]
  apply BitVec.eq_of_toInt_eq
  rw [BitVec.toInt_mul, BitVec.toInt_ofInt]
  have : (BitVec.twoPow 32 b.toNat).toInt = ((2 ^ b.toNat : Int)).bmod (2 ^ 32) := by
    rw [BitVec.toInt_eq_toNat_bmod, BitVec.toNat_twoPow]
    rw [show ((2 ^ b.toNat % 2 ^ 32 : Nat) : Int) = (2 ^ b.toNat : Int) % ((2 ^ 32 : Nat) : Int) by simp, Int.emod_bmod]
  rw [this]
  simp

theorem sshr_val' (a b : BitVec 32) : a.sshiftRight b.toNat = BitVec.ofInt 32 (a.toInt / 2 ^ b.toNat) := by
  rw [← BitVec.ofInt_toInt (x := a.sshiftRight b.toNat), BitVec.toInt_sshiftRight, Int.shiftRight_eq_div_pow]
  simp

theorem boolEq (a b : BitVec 32) : decide (a = b) = decide (a.toInt = b.toInt) := by
  simp [BitVec.toInt_inj]

/-- Each operator of an initialiser other than `%`, `&&`, `||` computes the C value. -/
theorem evalImm_sound (op : POp) (a b v : BitVec 32) (h : evalImm op a b = some v) (hm : op ≠ .mod)
    (o : CArith.BinOp) (ho : binOp op = some o) : CArith.bin o a b = some v := by
  cases op <;> simp only [binOp, Option.some.injEq, reduceCtorEq] at ho <;> subst ho <;>
    simp only [evalImm, Option.some.injEq, reduceCtorEq] at h
  case mod => exact absurd rfl hm
  case add => simp [CArith.bin, h]
  case sub => simp [CArith.bin, h]
  case mul => simp [CArith.bin, h]
  case div =>
    split at h
    · cases h
    · rename_i hn
      simp only [Option.some.injEq] at h
      have h0 : b ≠ 0#32 := fun e => hn (Or.inl e)
      simp only [CArith.bin, if_neg h0, Option.some.injEq]
      rw [← h, ← BitVec.ofInt_toInt (x := a.sdiv b), BitVec.toInt_sdiv_of_ne_or_ne]
      by_cases ha : a = BitVec.intMin 32
      · exact Or.inr (fun e => hn (Or.inr ⟨ha, e⟩))
      · exact Or.inl ha
  case lshift =>
    split at h
    · rename_i hl
      simp only [Option.some.injEq] at h
      simp only [CArith.bin, if_pos hl, ← h, shl_val']
    · cases h
  case rshift =>
    split at h
    · rename_i hl
      simp only [Option.some.injEq] at h
      simp only [CArith.bin, if_pos hl, ← h, sshr_val']
    · cases h
  case eq => rw [← h]; simp only [CArith.bin, CArith.ofBool, boolEq]; rfl
  case neq => rw [← h]; simp only [CArith.bin, CArith.ofBool, ne_eq, BitVec.toInt_inj]; rfl
  case lt => rw [← h]; simp only [CArith.bin, CArith.ofBool, BitVec.slt_eq_decide]; rfl
  case leq => rw [← h]; simp only [CArith.bin, CArith.ofBool, BitVec.sle_eq_decide]; rfl
  case gt => rw [← h]; simp only [CArith.bin, CArith.ofBool, BitVec.slt_eq_decide]; rfl
  case geq => rw [← h]; simp only [CArith.bin, CArith.ofBool, BitVec.sle_eq_decide]; rfl

theorem evalWith_sound (t : Tree (BitVec 32)) (hm : ∀ x ∈ t.rest, x.1 ≠ .mod) (v : BitVec 32)
    (h : evalWith evalImm t = some v) : t.eval = some v := by
  induction t generalizing v with
  | leaf a => exact h
  | node op l r ihl ihr =>
    simp only [evalWith] at h
    cases hl : evalWith evalImm l with
    | none => rw [hl] at h; simp at h
    | some a =>
      cases hr : evalWith evalImm r with
      | none => rw [hl, hr] at h; simp at h
      | some b =>
        rw [hl, hr] at h
        simp only [Option.bind_some] at h
        have el := ihl (fun x hx => hm x (by simp [Tree.rest, hx])) a hl
        have er := ihr (fun x hx => hm x (by simp [Tree.rest, hx])) b hr
        have hop : op ≠ .mod := hm (op, r.first) (by simp [Tree.rest])
        cases ho : binOp op with
        | some o =>
          have := evalImm_sound op a b v h hop o ho
          cases op <;> simp only [binOp, reduceCtorEq] at ho <;>
            simp only [Tree.eval, el, er, Option.bind_some, binOp] <;> (cases ho; exact this)
        | none =>
          cases op <;> simp only [binOp, reduceCtorEq] at ho
          · simp only [evalImm, Option.some.injEq] at h
            simp only [Tree.eval, el, er, Option.bind_some]
            by_cases ha : a = 0#32
            · simp [ha] at h ⊢; exact h
            · simp [ha, CArith.ofBool] at h ⊢; exact h
          · simp only [evalImm, Option.some.injEq] at h
            simp only [Tree.eval, el, er, Option.bind_some]
            by_cases ha : a = 0#32
            · simp [ha, CArith.ofBool] at h ⊢; exact h
            · simp [ha] at h ⊢; exact h

/-- **C67 (partial).** Whenever the compiler accepts a constant initialiser of operands and binary operators, the value it
stores is the value C gives the expression.  Missing: `%` with a negative operand (`C67_mod_wrong`), shifts mixed with looser
operators (C48), the ternary, and `&`, `|`, `^`, which the compiler refuses. -/
theorem C67_initializer_partial (a v : BitVec 32) (rest : List (POp × BitVec 32)) (hs : ShiftSafe (rest.map (·.1)))
    (hm : ∀ x ∈ rest, x.1 ≠ .mod) (h : infixExpr evalImm a rest = some v) :
    ∃ t, Parses t a rest ∧ t.eval = some v := by
  obtain ⟨t, e, hp, _⟩ := C48_grouping_partial a rest hs
  rw [infixExpr_eval, e, Option.bind_some] at h
  refine ⟨t, hp, evalWith_sound t ?_ v h⟩
  rw [hp.2.1]; exact hm

example : infixExpr evalImm 2#32 [(.add, 3#32), (.mul, 4#32), (.log_and, 1#32)] = some 1#32 := by decide
example : infixExpr evalImm 20#32 [(.sub, 3#32), (.sub, 4#32), (.lshift, 1#32)] = some 26#32 := by decide

/-- The initialiser `-5 % 4` is stored as 3; C has -1. -/
theorem C67_mod_wrong : infixExpr evalImm (-5#32) [(.mod, 4#32)] = some 3#32 ∧
    (Tree.node .mod (.leaf (-5#32)) (.leaf 4#32)).eval = some (-1#32) := by decide

/-- `1 & 1` is refused. -/
theorem C67_bit_ops_refused (op : POp) (h : op ∈ [POp.bit_and, .bit_or, .bit_xor]) (a b : BitVec 32) :
    infixExpr evalImm a [(op, b)] = none := by
  simp only [List.mem_cons, List.not_mem_nil, or_false] at h
  rcases h with rfl | rfl | rfl <;> rfl

/-! ### C49: preprocessor conditions -/

/-- An operand of a condition: a number, `defined(name)`, or an operand in parentheses. -/
inductive Operand
  | num (s : List Char)
  | defined (w : List Char)
  | paren (o : Operand)

def Operand.tokens : Operand → List T
  | .num s => [(.numeric, s)]
  | .defined w => [(.identifier, "defined".toList), (.open_bracket, []), (.identifier, w), (.close_bracket, [])]
  | .paren o => (.open_bracket, []) :: o.tokens ++ [(.close_bracket, [])]

/-- `isDef` tells which names are defined macros; numbers are read as in C47. -/
def Operand.val (isDef : List Char → Bool) : Operand → BitVec 32
  | .num s => readNumericConstant s
  | .defined w => if isDef w then 1 else 0
  | .paren o => o.val isDef

def Operand.depth : Operand → Nat
  | .num _ => 1
  | .defined _ => 1
  | .paren o => o.depth + 1

/-- Tokens and spelling of operators. -/
def opTokens : List (POp × Tok) :=
  [(.add, .plus), (.sub, .minus), (.mul, .asterisk), (.div, .divide), (.mod, .mod), (.lshift, .lshift), (.rshift, .rshift),
   (.log_and, .log_and), (.log_or, .log_or), (.eq, .eq), (.neq, .noteq), (.lt, .lt), (.leq, .le), (.gt, .gt), (.geq, .ge),
   (.bit_and, .ampersand), (.bit_or, .bit_or), (.bit_xor, .bit_xor)]

/-- A chain `o op o op … o`. -/
def chainTokens (o : Operand) : List ((POp × Tok) × Operand) → List T
  | [] => o.tokens
  | ((_, t), o') :: rest => o.tokens ++ (t, []) :: chainTokens o' rest

/-- The operators bind tighter and tighter from left to right. -/
def Tightening (p : Nat) : List ((POp × Tok) × Operand) → Prop
  | [] => True
  | ((op, _), _) :: rest => p < prec op ∧ Tightening (prec op) rest

/-- The tree of such a chain nests to the right. -/
def rightTree (isDef : List Char → Bool) (o : Operand) : List ((POp × Tok) × Operand) → Tree (BitVec 32)
  | [] => .leaf (o.val isDef)
  | ((op, _), o') :: rest => .node op (.leaf (o.val isDef)) (rightTree isDef o' rest)

def chainRest (isDef : List Char → Bool) (l : List ((POp × Tok) × Operand)) : List (POp × BitVec 32) :=
  l.map fun x => (x.1.1, x.2.val isDef)

/-- C groups a tightening chain to the right. -/
theorem rightTree_parses (isDef : List Char → Bool) : ∀ (l : List ((POp × Tok) × Operand)) (o : Operand) (p : Nat),
    Tightening p l → Parses (rightTree isDef o l) (o.val isDef) (chainRest isDef l) ∧
      ∀ x, (rightTree isDef o l).root? = some x → p < prec x := by
  intro l
  induction l with
  | nil => intro o p _; exact ⟨⟨rfl, rfl, trivial⟩, by simp [rightTree, Tree.root?]⟩
  | cons x l ih =>
    intro o p ht
    obtain ⟨⟨op, t⟩, o'⟩ := x
    obtain ⟨h1, h2⟩ := ht
    obtain ⟨⟨i1, i2, i3⟩, i4⟩ := ih o' _ h2
    refine ⟨⟨rfl, ?_, ⟨trivial, i3, by simp [Tree.root?], i4⟩⟩, ?_⟩
    · simp only [rightTree, Tree.rest, i1, i2, List.nil_append, chainRest, List.map_cons]
    · intro x hx
      simp only [rightTree, Tree.root?, Option.some.injEq] at hx
      subst hx; exact h1

theorem constOperand_tokens (isDef : List Char → Bool) : ∀ (o : Operand) (n : Nat) (rest : List T), o.depth ≤ n →
    constOperand isDef n (o.tokens ++ rest) = some (o.val isDef, rest) := by
  intro o
  induction o with
  | num s =>
    intro n rest hn
    obtain ⟨n, rfl⟩ : ∃ k, n = k + 1 := ⟨n - 1, by simp [Operand.depth] at hn; omega⟩
    simp [Operand.tokens, constOperand, Operand.val]
  | defined w =>
    intro n rest hn
    obtain ⟨n, rfl⟩ : ∃ k, n = k + 1 := ⟨n - 1, by simp [Operand.depth] at hn; omega⟩
    simp [Operand.tokens, constOperand, Operand.val]
  | paren o ih =>
    intro n rest hn
    obtain ⟨n, rfl⟩ : ∃ k, n = k + 1 := ⟨n - 1, by simp [Operand.depth] at hn; omega⟩
    have := ih n ((.close_bracket, []) :: rest) (by simp [Operand.depth] at hn; omega)
    simp only [Operand.tokens, List.cons_append, List.append_assoc, List.nil_append, constOperand]
    rw [this]
    rfl

theorem operand_head (o : Operand) (rest : List T) : getOperator (o.tokens ++ rest) = (none, o.tokens ++ rest) := by
  cases o <;> simp [Operand.tokens, getOperator, operator]

/-- Reading stops here: no operator, or an operator that is not tighter than the last one (it is read and forgotten). -/
def Stops (last : Nat) (tail rest : List T) : Prop :=
  (getOperator tail = (none, tail) ∧ rest = tail) ∨
  ∃ op, getOperator tail = (some op, rest) ∧ (prio op = 0 ∨ prio op ≤ last) ∧ getOperator rest = (none, rest)

/-- Priority of the last operator of a chain. -/
def lastPrio (p : Nat) : List ((POp × Tok) × Operand) → Nat
  | [] => p
  | ((op, _), _) :: rest => lastPrio (prio op) rest

def chainFuel (o : Operand) : List ((POp × Tok) × Operand) → Nat
  | [] => o.depth + 2
  | (_, o') :: rest => o.depth + chainFuel o' rest + 3

theorem Stops.rest_none {last : Nat} {tail rest : List T} (h : Stops last tail rest) : getOperator rest = (none, rest) := by
  rcases h with ⟨h, rfl⟩ | ⟨op, _, _, h⟩ <;> exact h

theorem constLoop_none (isDef : List Char → Bool) (n p : Nat) (v : BitVec 32) (rest : List T)
    (h : getOperator rest = (none, rest)) : constLoop isDef (n + 1) p v rest = some (v, rest) := by
  simp only [constLoop, h]

theorem constInfix_operand (isDef : List Char → Bool) (n p : Nat) (o : Operand) (rest : List T) (hn : o.depth ≤ n) :
    constInfix isDef (n + 1) p (o.tokens ++ rest) = constLoop isDef n p (o.val isDef) rest := by
  simp only [constInfix, operand_head, constOperand_tokens isDef o n rest hn]

theorem mem_opTokens {op : POp} {t : Tok} (h : (op, t) ∈ opTokens) : operator t = some op := by
  have : ∀ x ∈ opTokens, operator x.2 = some x.1 := by decide
  exact this _ h

theorem constInfix_chain (isDef : List Char → Bool) : ∀ (l : List ((POp × Tok) × Operand)) (o : Operand) (p n : Nat)
    (tail rest : List T) (v : BitVec 32),
    (∀ x ∈ l, x.1 ∈ opTokens ∧ prio x.1.1 = prec x.1.1) → Tightening p l → chainFuel o l ≤ n →
    Stops (lastPrio p l) tail rest → evalWith constApply (rightTree isDef o l) = some v →
    constInfix isDef n p (chainTokens o l ++ tail) = some (v, rest) := by
  intro l
  induction l with
  | nil =>
    intro o p n tail rest v _ _ hn hs hv
    simp only [chainFuel] at hn
    obtain ⟨n, rfl⟩ : ∃ k, n = k + 2 := ⟨n - 2, by omega⟩
    simp only [rightTree, evalWith, Option.some.injEq] at hv
    rw [chainTokens, constInfix_operand isDef (n + 1) p o tail (by omega), hv]
    rcases hs with ⟨h, rfl⟩ | ⟨op, h1, h2, h3⟩
    · exact constLoop_none isDef n p v _ h
    · simp only [constLoop, h1, lastPrio] at *
      rw [if_pos h2]
  | cons x l ih =>
    intro o p n tail rest v hx ht hn hs hv
    obtain ⟨⟨op, t⟩, o'⟩ := x
    obtain ⟨hop, hpr⟩ := hx _ (List.mem_cons_self ..)
    simp only at hop hpr
    obtain ⟨h1, h2⟩ := ht
    simp only [chainFuel] at hn
    obtain ⟨n, rfl⟩ : ∃ k, n = k + 2 := ⟨n - 2, by omega⟩
    simp only [rightTree, evalWith, Option.bind_some] at hv
    cases hr : evalWith constApply (rightTree isDef o' l) with
    | none => rw [hr] at hv; simp at hv
    | some r =>
      rw [hr] at hv
      simp only [Option.bind_some] at hv
      have ih' := ih o' (prio op) n tail rest r (fun x h => hx x (List.mem_cons_of_mem _ h)) (by rw [hpr]; exact h2)
        (by omega) hs hr
      simp only [chainTokens, List.append_assoc, List.cons_append]
      rw [constInfix_operand isDef (n + 1) p o _ (by omega)]
      have hg : getOperator ((t, []) :: (chainTokens o' l ++ tail)) = (some op, chainTokens o' l ++ tail) := by
        simp only [getOperator, mem_opTokens hop]
      simp only [constLoop, hg]
      rw [if_neg (by omega)]
      simp only [ih', hv, hs.rest_none]
      obtain ⟨n, rfl⟩ : ∃ k, n = k + 1 := ⟨n - 1, by omega⟩
      exact constLoop_none isDef n p v _ hs.rest_none

theorem constApply_sound (op : POp) (a b v : BitVec 32) (h : constApply op a b = some v)
    (o : CArith.BinOp) (ho : binOp op = some o) : CArith.bin o a b = some v := by
  by_cases hb : op ∈ [POp.bit_and, .bit_or, .bit_xor]
  · simp only [List.mem_cons, List.not_mem_nil, or_false] at hb
    rcases hb with rfl | rfl | rfl <;> simp only [binOp, Option.some.injEq] at ho <;> subst ho <;>
      simpa [CArith.bin, constApply] using h
  · refine evalImm_sound op a b v ?_ ?_ o ho
    · cases op <;> first | exact h | (exact absurd (by decide) hb) | (simp [constApply] at h)
    · rintro rfl; simp [constApply] at h

theorem constTree_sound (t : Tree (BitVec 32)) (v : BitVec 32) (h : evalWith constApply t = some v) : t.eval = some v := by
  induction t generalizing v with
  | leaf a => exact h
  | node op l r ihl ihr =>
    simp only [evalWith] at h
    cases hl : evalWith constApply l with
    | none => rw [hl] at h; simp at h
    | some a =>
      cases hr : evalWith constApply r with
      | none => rw [hl, hr] at h; simp at h
      | some b =>
        rw [hl, hr] at h
        simp only [Option.bind_some] at h
        have el := ihl a hl
        have er := ihr b hr
        cases ho : binOp op with
        | some o =>
          have := constApply_sound op a b v h o ho
          cases op <;> simp only [binOp, reduceCtorEq] at ho <;>
            simp only [Tree.eval, el, er, Option.bind_some, binOp] <;> (cases ho; exact this)
        | none =>
          cases op <;> simp only [binOp, reduceCtorEq] at ho
          · simp only [constApply, Option.some.injEq] at h
            simp only [Tree.eval, el, er, Option.bind_some]
            by_cases ha : a = 0#32
            · simp [ha] at h ⊢; exact h
            · simp [ha, CArith.ofBool] at h ⊢; exact h
          · simp only [constApply, Option.some.injEq] at h
            simp only [Tree.eval, el, er, Option.bind_some]
            by_cases ha : a = 0#32
            · simp [ha, CArith.ofBool] at h ⊢; exact h
            · simp [ha] at h ⊢; exact h

/-- The condition operators the reader supports: no shifts (priority 0) and no `%` (refused). -/
def condOps : List (POp × Tok) := opTokens.filter fun x => x.1 ≠ .lshift ∧ x.1 ≠ .rshift ∧ x.1 ≠ .mod

/-- **C49 (partial).** A condition whose operators bind tighter and tighter from left to right (in particular: one operand,
or two operands and one operator), followed by a token that is not an operator, evaluates to the value C assigns to it (on
32-bit `int`s), whenever that value is computable without division by zero.  Missing: all other conditions, for which the
property is false (`C49_drops`), shifts, `%`, `!`, `~`, parenthesised sub-expressions. -/
theorem C49_condition_partial (isDef : List Char → Bool) (o : Operand) (l : List ((POp × Tok) × Operand)) (tail : List T)
    (hl : ∀ x ∈ l, x.1 ∈ condOps) (ht : Tightening 0 l) (htail : ∀ t ∈ tail.head?, operator t.1 = none)
    (v : BitVec 32) (hv : evalWith constApply (rightTree isDef o l) = some v) :
    Parses (rightTree isDef o l) (o.val isDef) (chainRest isDef l) ∧ (rightTree isDef o l).eval = some v ∧
    ∀ n, chainFuel o l ≤ n → constExpr isDef n (chainTokens o l ++ tail) = some (v, tail) := by
  refine ⟨(rightTree_parses isDef l o 0 ht).1, constTree_sound _ v hv, ?_⟩
  intro n hn
  have hh : ∀ x ∈ condOps, x ∈ opTokens ∧ prio x.1 = prec x.1 := by decide
  refine constInfix_chain isDef l o 0 n tail tail v (fun x hx => hh _ (hl x hx)) ht hn (Or.inl ⟨?_, rfl⟩) hv
  cases tail with
  | nil => rfl
  | cons t tail =>
    obtain ⟨t, s⟩ := t
    simp only [getOperator, htail (t, s) (by simp)]

/-- `1 + 2 * defined(X)` satisfies the hypotheses and is 3 if `X` is defined. -/
example : (∀ x ∈ [((POp.add, Tok.plus), Operand.num ['2']), ((.mul, .asterisk), .defined ['X'])], x.1 ∈ condOps) ∧
    Tightening 0 [((POp.add, Tok.plus), Operand.num ['2']), ((.mul, .asterisk), .defined ['X'])] ∧
    evalWith constApply (rightTree (fun _ => true) (.num ['1'])
      [((.add, .plus), .num ['2']), ((.mul, .asterisk), .defined ['X'])]) = some 3#32 :=
  ⟨by decide, ⟨by decide, by decide, trivial⟩, by decide⟩

/-- What happens otherwise: at the first operator that does not bind tighter than the one before it, the rest of the
condition is dropped, and the value is that of the part before it. -/
theorem C49_drops (isDef : List Char → Bool) (o o' : Operand) (l : List ((POp × Tok) × Operand)) (op : POp) (t : Tok)
    (tail : List T) (hl : ∀ x ∈ l, x.1 ∈ condOps) (ht : Tightening 0 l) (hop : (op, t) ∈ opTokens)
    (hp : prio op = 0 ∨ prio op ≤ lastPrio 0 l)
    (v : BitVec 32) (hv : evalWith constApply (rightTree isDef o l) = some v) :
    ∀ n, chainFuel o l ≤ n →
      constExpr isDef n (chainTokens o l ++ (t, []) :: (o'.tokens ++ tail)) = some (v, o'.tokens ++ tail) := by
  intro n hn
  have hh : ∀ x ∈ condOps, x ∈ opTokens ∧ prio x.1 = prec x.1 := by decide
  refine constInfix_chain isDef l o 0 n _ _ v (fun x hx => hh _ (hl x hx)) ht hn (Or.inr ⟨op, ?_, hp, operand_head o' tail⟩) hv
  simp only [getOperator, mem_opTokens hop]

/-- C49 fails: `#if 1 - 1 + 1` is false, C has 1. -/
theorem C49_minus_plus_wrong :
    constExpr (fun _ => false) 20 [(.numeric, ['1']), (.minus, []), (.numeric, ['1']), (.plus, []), (.numeric, ['1'])] =
      some (0#32, [(.numeric, ['1'])]) ∧
    Parses (.node .add (.node .sub (.leaf 1#32) (.leaf 1#32)) (.leaf 1#32)) 1#32 [(.sub, 1#32), (.add, 1#32)] ∧
    (Tree.node .add (.node .sub (.leaf 1#32) (.leaf 1#32)) (.leaf 1#32)).eval = some 1#32 := by
  refine ⟨by decide, ⟨rfl, rfl, ?_⟩, by decide⟩
  simp [Tree.Grouped, Tree.root?, prec]

/-- C49 fails: `#if 0 << 1 == 0` … a shift ends the condition; `#if !defined(X)` and `#if (1 + 2)` stop the compiler;
`#if -1 + 2` is -1. -/
theorem C49_unsupported :
    constExpr (fun _ => false) 20 [(.numeric, ['4']), (.lshift, []), (.numeric, ['1'])] = some (4#32, [(.numeric, ['1'])]) ∧
    constExpr (fun _ => false) 20 ((.log_not, []) :: (Operand.defined ['X']).tokens) = none ∧
    constExpr (fun _ => false) 20 [(.open_bracket, []), (.numeric, ['1']), (.plus, []), (.numeric, ['2']),
      (.close_bracket, [])] = none ∧
    constExpr (fun _ => false) 20 [(.minus, []), (.numeric, ['1']), (.plus, []), (.numeric, ['2'])] =
      some (-1#32, [(.numeric, ['2'])]) := by decide

/-- C49 fails: the end of the line does not end the condition.  With `#if 0` followed by a line that begins with `-1 …`, the
condition is `0 - 1`, true. -/
theorem C49_line_end : constExpr (fun _ => false) 20 [(.numeric, ['0']), (.minus, []), (.numeric, ['1']), (.semicolon, [])] =
    some (-1#32, [(.semicolon, [])]) := by decide

end Shecc.Props
