import Verif.Lemmas.Ends

/-!
# The parser ends: outside function bodies
-/

namespace Shecc.TopEnds
open Shecc.Parser (T getOperator infixExpr evalImm)
open Shecc.Ends (Q l2 s2 l3 s3 Q.bind Q.bindR Q.map Q.mapR Q.none Q.some Q.mono Q.conv)
open Shecc.Top Shecc.Calls

variable (S S' : Calls)

set_option hygiene false in
/-- Lengths. -/
macro "lent" : tactic => `(tactic| (
  try clear i1 i2
  try simp only [l2, l3, s2, s3, List.length_cons, List.length_nil, List.length_tail] at *
  omega))

theorem suffix (ts : List T) : Q l2 ts.length (suffix ts) (suffix ts) := by
  unfold Top.suffix
  split
  · exact Q.mapR _ fun x => by lent
  · exact Q.some (by lent)
  · exact Q.none
  · exact Q.some (by lent)

/-- The tokens of a name. -/
def w : Bool → Nat
  | true => 0
  | false => 1

theorem w_le (b : Bool) : w b ≤ 1 := by cases b <;> decide

/-- Without `anon`, a name is read. -/
theorem decl (n : Nat) : (∀ anon sp ts, 10 * ts.length + 1 ≤ n → Q (fun r => r.2.length + w anon) ts.length ((runs n S).inner anon sp ts) ((runs n S').inner anon sp ts)) ∧
    ∀ anon ts, 10 * ts.length + 1 ≤ n → Q s2 ts.length ((runs n S).params anon ts) ((runs n S').params anon ts) := by
  induction n with
  | zero => constructor <;> intros <;> omega
  | succ n ih =>
    obtain ⟨i1, i2⟩ := ih
    constructor
    · intro anon sp ts hn
      dsimp only [runs, step, innerF]
      have h : (ts.drop (ts.takeWhile fun t => t.1 = .asterisk).length).length ≤ ts.length := by rw [List.length_drop]; omega
      generalize ts.drop (ts.takeWhile fun t => t.1 = .asterisk).length = t1 at h
      split
      · refine Q.map (i2 _ _ (by lent)) ?_
        rintro ⟨ps, t2⟩ hx
        have := w_le anon
        lent
      · exact Q.none
      · have := w_le anon
        split
        · exact Q.none
        · refine Q.map (suffix _) ?_
          rintro ⟨f, t2⟩ hx
          lent
      · split
        · rename_i ha
          refine Q.map (suffix _) ?_
          rintro ⟨f, t2⟩ hx
          subst ha
          simp only [w]
          lent
        · exact Q.none
    · intro anon ts hn
      dsimp only [runs, step, paramsF]
      split
      · refine Q.bind (i1 _ _ _ (by lent)) ?_
        rintro ⟨e, t1⟩ hx
        have hx : t1.length ≤ _ := Nat.le_trans (Nat.le_add_right _ _) hx
        dsimp only
        split
        all_goals
          refine Q.map (i2 _ _ ?_) ?_
          · lent
          · rintro ⟨q, t2⟩ hx2
            lent
      · exact Q.some (by lent)
      · exact Q.some (by lent)
      · exact Q.none

theorem inner (n : Nat) (sp : CTypes.TSpec) (ts : List T) (hn : 10 * ts.length + 1 ≤ n) : Q s2 ts.length ((runs n S).inner false sp ts) ((runs n S').inner false sp ts) := (decl S S' n).1 false _ _ hn
theorem params (n : Nat) (anon : Bool) (ts : List T) (hn : 10 * ts.length + 1 ≤ n) : Q s2 ts.length ((runs n S).params anon ts) ((runs n S').params anon ts) := (decl S S' n).2 _ _ hn

theorem fullDecl (n : Nat) (ts : List T) (hn : 10 * ts.length + 1 ≤ n) : Q s2 ts.length (fullDeclF (runs n S) ts) (fullDeclF (runs n S') ts) := by
  unfold fullDeclF
  split
  · exact (inner S S' n _ _ (by lent)).mono (by lent)
  · exact (inner S S' n _ _ (by lent)).mono (by lent)
  · exact Q.none

theorem members (n : Nat) : ∀ ts, 10 * ts.length + 2 ≤ n → Q s2 ts.length ((runs n S).members ts) ((runs n S').members ts) := by
  induction n with
  | zero => intros; omega
  | succ n ih =>
    intro ts hn
    dsimp only [runs, step, membersF]
    refine Q.bind (fullDecl S S' n ts (by omega)) ?_
    rintro ⟨e, t1⟩ hx
    refine Ends.expect _ _ fun t2 h2 => ?_
    split
    · exact Q.some (by lent)
    · refine Q.map (ih _ (by lent)) ?_
      rintro ⟨e, t1⟩ hx
      lent

theorem enumItems (n : Nat) : ∀ ts, 10 * ts.length + 1 ≤ n → Q s2 ts.length ((runs n S).enumItems ts) ((runs n S').enumItems ts) := by
  induction n with
  | zero => intros; omega
  | succ n ih =>
    intro ts hn
    dsimp only [runs, step, enumItemsF]
    repeat' first
      | exact Q.none
      | exact Q.some (by lent)
      | (refine Q.map (ih _ (by lent)) ?_; rintro ⟨e, t1⟩ hx; lent)
      | split

theorem typedefEnd (ts : List T) (k : String → CTypes.Decl) : Q s2 ts.length (typedefEnd ts k) (Top.typedefEnd ts k) := by
  unfold Top.typedefEnd
  split
  · exact Q.some (by lent)
  · exact Q.none

theorem typeDecl (n : Nat) (ts : List T) (hn : 10 * ts.length + 1 ≤ n) : Q s2 ts.length (typeDeclF (runs n S) ts) (typeDeclF (runs n S') ts) := by
  unfold typeDeclF
  split
  · refine Q.bind (members S S' n _ (by lent)) ?_
    rintro ⟨e, t1⟩ hx
    exact Ends.expect _ _ fun t2 h2 => Q.some (by lent)
  · refine Q.bind (enumItems S S' n _ (by lent)) ?_
    rintro ⟨e, t1⟩ hx
    exact (typedefEnd _ _).mono (by lent)
  · refine Q.bind (members S S' n _ (by lent)) ?_
    rintro ⟨e, t1⟩ hx
    exact (typedefEnd _ _).mono (by lent)
  · exact (typedefEnd _ _).mono (by lent)
  · refine Q.bind (members S S' n _ (by lent)) ?_
    rintro ⟨e, t1⟩ hx
    exact (typedefEnd _ _).mono (by lent)
  · exact (typedefEnd _ _).mono (by lent)
  · exact Q.none

theorem primary (n : Nat) : ∀ ts, 10 * ts.length + 1 ≤ n → Q s2 ts.length ((runs n S).primary ts) ((runs n S').primary ts) := by
  induction n with
  | zero => intros; omega
  | succ n ih =>
    intro ts hn
    dsimp only [runs, step, primaryF]
    have key : ∀ ts : List T, 10 * ts.length + 1 ≤ n + 1 → Q s2 ts.length
        (match ts with
          | (.open_bracket, _) :: ts => ((runs n S).primary ts).bind fun r => Body.expect .close_bracket r.2 fun ts => some (r.1, ts)
          | (.numeric, s) :: ts => if s.length < 10 then some (Parser.readNumericConstant s, ts) else none
          | (.char, s) :: ts => some (BitVec.ofNat 32 (s.headD '\x00').toNat, ts)
          | _ => none)
        (match ts with
          | (.open_bracket, _) :: ts => ((runs n S').primary ts).bind fun r => Body.expect .close_bracket r.2 fun ts => some (r.1, ts)
          | (.numeric, s) :: ts => if s.length < 10 then some (Parser.readNumericConstant s, ts) else none
          | (.char, s) :: ts => some (BitVec.ofNat 32 (s.headD '\x00').toNat, ts)
          | _ => none) := by
      intro ts hn
      split
      · refine Q.bind (ih _ (by lent)) ?_
        rintro ⟨e, t1⟩ hx
        exact Ends.expect _ _ fun t2 h2 => Q.some (by lent)
      · split
        · exact Q.some (by lent)
        · exact Q.none
      · exact Q.some (by lent)
      · exact Q.none
    split
    · refine Q.map (key _ (by lent)) ?_
      rintro ⟨e, t1⟩ hx
      lent
    · exact key _ hn

theorem operands (n : Nat) : ∀ ts, 10 * ts.length + 1 ≤ n → Q l2 ts.length ((runs n S).operands ts) ((runs n S').operands ts) := by
  induction n with
  | zero => intros; omega
  | succ n ih =>
    intro ts hn
    dsimp only [runs, step, operandsF]
    rcases Ends.getOperator_le ts with h | ⟨o, ts', h, hl⟩ <;> rw [h] <;> dsimp only
    · exact Q.some (Nat.le_refl _)
    · refine Q.bind (primary S S' n _ (by lent)) ?_
      rintro ⟨e, t1⟩ hx
      refine Q.map (ih _ (by lent)) ?_
      rintro ⟨e, t1⟩ hx
      lent

theorem dropWhile_length_le {α : Type} (p : α → Bool) (l : List α) : (l.dropWhile p).length ≤ l.length := (List.dropWhile_suffix p).length_le

theorem initializer (n : Nat) : ∀ ts, 10 * ts.length + 2 ≤ n → Q s2 ts.length ((runs n S).initializer ts) ((runs n S').initializer ts) := by
  induction n with
  | zero => intros; omega
  | succ n ih =>
    intro ts hn
    dsimp only [runs, step, initializerF]
    refine Q.bind (primary S S' n _ (by omega)) ?_
    rintro ⟨v, t1⟩ hx
    refine Q.bind (operands S S' n _ (by lent)) ?_
    rintro ⟨os, t2⟩ hx2
    refine Q.bindR _ fun v => ?_
    dsimp only
    split
    · rename_i s t3
      split
      · have hd := dropWhile_length_le (fun t : T => t.1 ≠ .colon) t3
        split
        · rename_i x t4 e
          rw [e] at hd
          exact (ih _ (by lent)).mono (by lent)
        · exact Q.none
      · refine Q.bind (ih _ (by lent)) ?_
        rintro ⟨e, t4⟩ hx3
        refine Ends.expect _ _ fun t5 h5 => Q.some ?_
        have hd := dropWhile_length_le (fun t : T => t.1 ≠ .semicolon) t5
        lent
    · exact Q.some (by lent)

variable (base : Nat)

theorem globalDecl (n : Nat) (ty : List Char) (ts : List T) (t : Tab) (hn : 10 * ts.length + 3 ≤ n) :
    Q s2 ts.length (globalDeclF base (runs n S) ty ts t) (globalDeclF base (runs n S') ty ts t) := by
  unfold globalDeclF
  refine Q.bind (inner S S' n _ _ (by omega)) ?_
  rintro ⟨d, t1⟩ hx
  dsimp only
  split
  · refine Q.bind (params S S' n _ _ (by lent)) ?_
    rintro ⟨ps, t2⟩ hx2
    dsimp only
    split
    · exact Q.some (by lent)
    · refine Q.map (Ends.funcBody S S' _ n _ _ _ _ (by lent)) ?_
      rintro ⟨b, st, t3⟩ hx3
      lent
  · split
    · refine Q.bind (initializer S S' n _ (by lent)) ?_
      rintro ⟨v, t2⟩ hx2
      exact Ends.expect _ _ fun t5 h5 => Q.some (by lent)
    · exact Q.none
  · split
    · exact Q.none
    · exact Q.some (by lent)
  · exact Q.none

theorem global_ (n : Nat) (ts : List T) (t : Tab) (hn : 10 * ts.length + 3 ≤ n) : Q s2 ts.length (global_F base (runs n S) ts t) (global_F base (runs n S') ts t) := by
  unfold global_F
  split
  · exact (globalDecl S S' base n _ _ _ (by lent)).mono (by lent)
  · refine Q.bind (typeDecl S S' n _ (by omega)) ?_
    rintro ⟨d, t1⟩ hx
    exact Q.mapR _ fun t => hx

theorem loop (n : Nat) : ∀ ts t, 10 * ts.length + 4 ≤ n → Q (fun _ => 0) 0 ((runs n S).loop base ts t) ((runs n S').loop base ts t) := by
  induction n with
  | zero => intros; omega
  | succ n ih =>
    intro ts t hn
    dsimp only [runs, step, loopF]
    refine Q.bind (global_ S S' base n _ _ (by omega)) ?_
    rintro ⟨d, t1⟩ hx
    dsimp only
    split
    · exact Q.some (Nat.le_refl _)
    · exact ih _ _ (by lent)

end Shecc.TopEnds
