import Verif.Model.Calls

/-!
# The parser ends: expressions and function bodies

If the bound on the depth of calls is large enough for the number of tokens, it makes no difference what the calls at the bound answer, and the
functions leave fewer tokens than they were given.
-/

namespace Shecc.Ends
open Shecc.Parser (T getOperator)
open Shecc.ExprGen Shecc.Body Shecc.Calls

/-- The same result, and at most `k` tokens are left. -/
structure Q {α : Type} (f : α → Nat) (k : Nat) (a b : Option α) : Prop where
  eq : a = b
  le : ∀ r, a = some r → f r ≤ k

theorem Q.bind {α β : Type} {f : α → Nat} {f' : β → Nat} {k k' : Nat} {a b : Option α} {g h : α → Option β} (H : Q f k a b)
    (K : ∀ x, f x ≤ k → Q f' k' (g x) (h x)) : Q f' k' (a.bind g) (b.bind h) := by
  obtain ⟨rfl, hl⟩ := H
  cases a with
  | none => exact ⟨rfl, fun r h => by cases h⟩
  | some x => exact K x (hl x rfl)

theorem Q.bindR {α β : Type} {f' : β → Nat} {k' : Nat} (a : Option α) {g h : α → Option β} (K : ∀ x, Q f' k' (g x) (h x)) :
    Q f' k' (a.bind g) (a.bind h) := by
  cases a with
  | none => exact ⟨rfl, fun r h => by cases h⟩
  | some x => exact K x

theorem Q.map {α β : Type} {f : α → Nat} {f' : β → Nat} {k k' : Nat} {a b : Option α} {g : α → β} (H : Q f k a b)
    (K : ∀ x, f x ≤ k → f' (g x) ≤ k') : Q f' k' (a.map g) (b.map g) := by
  obtain ⟨rfl, hl⟩ := H
  cases a with
  | none => exact ⟨rfl, fun r h => by cases h⟩
  | some x => exact ⟨rfl, fun r h => by cases h; exact K x (hl x rfl)⟩

theorem Q.mapR {α β : Type} {f' : β → Nat} {k' : Nat} (a : Option α) {g : α → β} (K : ∀ x, f' (g x) ≤ k') : Q f' k' (a.map g) (a.map g) := by
  cases a with
  | none => exact ⟨rfl, fun r h => by cases h⟩
  | some x => exact ⟨rfl, fun r h => by cases h; exact K x⟩

theorem Q.none {α : Type} {f : α → Nat} {k : Nat} : Q f k (none : Option α) none := ⟨rfl, fun r h => by cases h⟩
theorem Q.some {α : Type} {f : α → Nat} {k : Nat} {x : α} (h : f x ≤ k) : Q f k (some x) (some x) := ⟨rfl, fun r e => by cases e; exact h⟩
theorem Q.mono {α : Type} {f : α → Nat} {k k' : Nat} {a b : Option α} (h : Q f k a b) (hk : k ≤ k') : Q f k' a b := ⟨h.eq, fun r e => Nat.le_trans (h.le r e) hk⟩

theorem Q.conv {α : Type} {f f' : α → Nat} {k k' : Nat} {a b : Option α} (h : Q f k a b) (hk : ∀ x, f x ≤ k → f' x ≤ k') : Q f' k' a b :=
  ⟨h.eq, fun r e => hk r (h.le r e)⟩

/-- Tokens left. -/
@[reducible] def l2 {α : Type} (r : α × List T) : Nat := r.2.length
@[reducible] def l3 {α β : Type} (r : α × β × List T) : Nat := r.2.2.length
/-- One more. -/
@[reducible] def s2 {α : Type} (r : α × List T) : Nat := r.2.length + 1
@[reducible] def s3 {α β : Type} (r : α × β × List T) : Nat := r.2.2.length + 1

set_option hygiene false in
/-- Lengths. -/
macro "len" : tactic => `(tactic| (
  try clear i1 i2 i3 i4 i5 i6 i7 i8 i9 i10
  try simp only [l2, l3, s2, s3, List.length_cons, List.length_nil, List.length_tail] at *
  omega))

section
variable (S S' : Calls) (N : Names)

/-- For the bound `n`. -/
structure Exprs (n : Nat) : Prop where
  operand : ∀ ts g, 10 * ts.length + 2 ≤ n → Q s2 ts.length ((runs n S).operand N ts g) ((runs n S').operand N ts g)
  operandBody : ∀ b ts g, 10 * ts.length + 1 ≤ n → Q s2 ts.length ((runs n S).operandBody N b ts g) ((runs n S').operandBody N b ts g)
  named : ∀ s ts g, 10 * ts.length + 6 ≤ n → Q l2 ts.length ((runs n S).xnamed N s ts g) ((runs n S').xnamed N s ts g)
  args : ∀ ts g k, 10 * ts.length + 4 ≤ n → Q s3 ts.length ((runs n S).args N ts g k) ((runs n S').args N ts g k)
  expr : ∀ ts g, 10 * ts.length + 3 ≤ n → Q s2 ts.length ((runs n S).expr N ts g) ((runs n S').expr N ts g)
  exprLoop : ∀ lg os ts g, 10 * ts.length + 1 ≤ n → Q l2 ts.length ((runs n S).exprLoop N lg os ts g) ((runs n S').exprLoop N lg os ts g)
  lvalue : ∀ e x v ts g, 10 * ts.length + 4 ≤ n → Q l3 ts.length ((runs n S).lvalue N e x v ts g) ((runs n S').lvalue N e x v ts g)
  access : ∀ st g ts, 10 * ts.length + 1 ≤ n → Q l3 ts.length ((runs n S).access N st g ts) ((runs n S').access N st g ts)
  lvEnd : ∀ st g ts, 10 * ts.length + 2 ≤ n → Q l3 ts.length ((runs n S).lvEnd N st g ts) ((runs n S').lvEnd N st g ts)
  sums : ∀ st g ts, 10 * ts.length + 1 ≤ n → Q l3 ts.length ((runs n S).sums N st g ts) ((runs n S').sums N st g ts)

theorem tagTail (b : Bool) (ts : List T) : (if b = true then ts.tail else ts).length ≤ ts.length := by
  cases b
  · exact Nat.le_refl _
  · show ts.tail.length ≤ _
    rw [List.length_tail]; omega

theorem sizeofToks_le (Tb : Types.Table) (ts : List T) : Q s2 ts.length (sizeofToks Tb ts) (sizeofToks Tb ts) := by
  rw [sizeofToks.eq_def]
  dsimp only
  split
  · rename_i s ts' e
    have h1 : ts'.length + 1 ≤ ts.length := Nat.le_trans (Nat.le_of_eq (congrArg List.length e).symm) (tagTail _ ts)
    split
    · rename_i x ts2 e2
      have h2 := congrArg List.length e2
      simp only [List.length_drop, List.length_cons] at h2
      refine Q.mapR _ fun k => ?_
      show ts2.length + 1 ≤ _
      omega
    · exact Q.none
  · exact Q.none

theorem getOperator_le (ts : List T) : getOperator ts = (none, ts) ∨ ∃ o ts', getOperator ts = (some o, ts') ∧ ts'.length + 1 = ts.length := by
  match ts with
  | [] => exact .inl rfl
  | (t, s) :: r =>
    rw [getOperator]
    split
    · exact .inr ⟨_, _, rfl, rfl⟩
    · exact .inl rfl

set_option hygiene false in
macro "exs" : tactic => `(tactic| repeat' first
  | (show _ ≤ _; len)
  | with_reducible exact Q.none
  | with_reducible refine Q.some ?_
  | (with_reducible refine Q.bind (i1 _ _ ?_) ?_; rotate_left; rintro ⟨g1, t1⟩ hx)
  | (with_reducible refine Q.bind (i2 _ _ _ ?_) ?_; rotate_left; rintro ⟨g1, t1⟩ hx)
  | (with_reducible refine Q.bind (i3 _ _ _ ?_) ?_; rotate_left; rintro ⟨g1, t1⟩ hx)
  | (with_reducible refine Q.bind (i4 _ _ _ ?_) ?_; rotate_left; rintro ⟨g1, k1, t1⟩ hx)
  | (with_reducible refine Q.bind (i5 _ _ ?_) ?_; rotate_left; rintro ⟨g1, t1⟩ hx)
  | (with_reducible refine Q.bind (i6 _ _ _ _ ?_) ?_; rotate_left; rintro ⟨g1, t1⟩ hx)
  | (with_reducible refine Q.bind (i7 _ _ _ _ _ ?_) ?_; rotate_left; rintro ⟨st1, g1, t1⟩ hx)
  | (with_reducible refine Q.bind (i8 _ _ _ ?_) ?_; rotate_left; rintro ⟨st1, g1, t1⟩ hx)
  | (with_reducible refine Q.bind (i9 _ _ _ ?_) ?_; rotate_left; rintro ⟨st1, g1, t1⟩ hx)
  | (with_reducible refine Q.bind (i10 _ _ _ ?_) ?_; rotate_left; rintro ⟨st1, g1, t1⟩ hx)
  | (with_reducible refine Q.map (sizeofToks_le _ _) ?_; rintro ⟨g1, t1⟩ hx)
  | (with_reducible refine Q.bindR _ fun x => ?_)
  | (with_reducible refine Q.mapR _ fun x => ?_)
  | (with_reducible refine Q.conv (i1 _ _ ?_) ?_; rotate_left; rintro ⟨g1, t1⟩ hx)
  | (with_reducible refine Q.conv (i2 _ _ _ ?_) ?_; rotate_left; rintro ⟨g1, t1⟩ hx)
  | (with_reducible refine Q.conv (i3 _ _ _ ?_) ?_; rotate_left; rintro ⟨g1, t1⟩ hx)
  | (with_reducible refine Q.conv (i4 _ _ _ ?_) ?_; rotate_left; rintro ⟨st1, g1, t1⟩ hx)
  | (with_reducible refine Q.conv (i6 _ _ _ _ ?_) ?_; rotate_left; rintro ⟨g1, t1⟩ hx)
  | (with_reducible refine Q.conv (i7 _ _ _ _ _ ?_) ?_; rotate_left; rintro ⟨st1, g1, t1⟩ hx)
  | (with_reducible refine Q.conv (i8 _ _ _ ?_) ?_; rotate_left; rintro ⟨st1, g1, t1⟩ hx)
  | (with_reducible refine Q.conv (i9 _ _ _ ?_) ?_; rotate_left; rintro ⟨st1, g1, t1⟩ hx)
  | (with_reducible refine Q.conv (i10 _ _ _ ?_) ?_; rotate_left; rintro ⟨st1, g1, t1⟩ hx)
  | ((try dsimp only); split)
  | unfold derefEnd)

theorem exprs (n : Nat) : Exprs S S' N n := by
  induction n with
  | zero => constructor <;> intros <;> omega
  | succ n ih =>
    obtain ⟨i1, i2, i3, i4, i5, i6, i7, i8, i9, i10⟩ := ih
    constructor
    · intro ts g hn
      match ts with
      | [] => exact i2 _ _ _ (by len)
      | (t, s) :: ts =>
        cases t
        case minus =>
          match ts with
          | [] => exact Q.none
          | (t, s) :: ts => cases t <;> first | exact Q.none | exact (i2 _ _ _ (by len)).mono (by len)
        all_goals exact i2 _ _ _ (by len)
    · intro b ts g hn
      dsimp only [runs, step, operandBodyF]
      exs
    · intro s ts g hn
      dsimp only [runs, step, xnamedF]
      exs
    · intro ts g k hn
      dsimp only [runs, step, argsF]
      exs
    · intro ts g hn
      dsimp only [runs, step, exprF]
      exs
    · intro lg os ts g hn
      dsimp only [runs, step, exprLoopF]
      rcases getOperator_le ts with h | ⟨o, ts', h, hl⟩ <;> rw [h] <;> dsimp only
      all_goals exs
    · intro e x v ts g hn
      dsimp only [runs, step, lvalueF]
      exs
    · intro st g ts hn
      dsimp only [runs, step, accessF]
      exs
    · intro st g ts hn
      dsimp only [runs, step, lvEndF]
      exs
    · intro st g ts hn
      dsimp only [runs, step, sumsF]
      exs

theorem assignment (n : Nat) (s : List Char) (ts : List T) (g : G) (hn : 10 * ts.length + 4 ≤ n) :
    Q l2 ts.length (assignmentF N (runs n S) s ts g) (assignmentF N (runs n S') s ts g) := by
  obtain ⟨i1, i2, i3, i4, i5, i6, i7, i8, i9, i10⟩ := exprs S S' N n
  unfold assignmentF
  exs

theorem prefixed (o : Op2) (n : Nat) (s : List Char) (ts : List T) (g : G) (hn : 10 * ts.length + 4 ≤ n) :
    Q l2 ts.length (prefixedF N (runs n S) o s ts g) (prefixedF N (runs n S') o s ts g) := by
  obtain ⟨i1, i2, i3, i4, i5, i6, i7, i8, i9, i10⟩ := exprs S S' N n
  have j := assignment S S' N n s ts g hn
  unfold prefixedF
  repeat' first
    | (with_reducible exact j)
    | exs

end

section
variable (S S' : Calls) (G : Glob)

theorem segment (n : Nat) (lg : Bool) (ts : List T) (st : St) (hn : 10 * ts.length + 2 ≤ n) :
    Q s3 ts.length (segmentF G (runs n S) lg ts st) (segmentF G (runs n S') lg ts st) := by
  obtain ⟨i1, i2, i3, i4, i5, i6, i7, i8, i9, i10⟩ := exprs S S' (names G st) n
  unfold segmentF
  exs

theorem ands (n : Nat) : ∀ (lg : Bool) (ts : List T) (st : St), 10 * ts.length + 3 ≤ n →
    Q s3 ts.length ((runs n S).ands G lg ts st) ((runs n S').ands G lg ts st) := by
  induction n with
  | zero => intros; omega
  | succ n ih =>
    intro lg ts st hn
    dsimp only [runs, step, andsF]
    refine Q.bind (segment S S' G n lg ts st (by omega)) ?_
    rintro ⟨e, st1, t1⟩ hx
    dsimp only
    rcases getOperator_le t1 with h | ⟨o, ts', h, hl⟩ <;> rw [h] <;> try dsimp only
    · exact Q.some hx
    · split
      · rename_i h'
        cases h'
        refine Q.map (ih _ _ _ (by len)) ?_
        rintro ⟨e, st1, t1⟩ hx
        len
      · exact Q.some hx

theorem ors (n : Nat) : ∀ (lg : Bool) (ts : List T) (st : St), 10 * ts.length + 4 ≤ n →
    Q s3 ts.length ((runs n S).ors G lg ts st) ((runs n S').ors G lg ts st) := by
  induction n with
  | zero => intros; omega
  | succ n ih =>
    intro lg ts st hn
    dsimp only [runs, step, orsF]
    refine Q.bind (ands S S' G n lg ts st (by omega)) ?_
    rintro ⟨e, st1, t1⟩ hx
    dsimp only
    rcases getOperator_le t1 with h | ⟨o, ts', h, hl⟩ <;> rw [h] <;> try dsimp only
    · exact Q.some hx
    · split
      · rename_i h'
        cases h'
        refine Q.map (ih _ _ _ (by len)) ?_
        rintro ⟨e, st1, t1⟩ hx
        len
      · exact Q.some hx

theorem rexpr (n : Nat) (ts : List T) (st : St) (hn : 10 * ts.length + 4 ≤ n) : Q s3 ts.length (rexprF G (runs n S) ts st) (rexprF G (runs n S') ts st) := by
  unfold rexprF
  exact Q.map (ors S S' G n _ _ _ hn) fun x h => h

theorem expect {α : Type} {f : α → Nat} {k : Nat} (t : Lex.Tok) (ts : List T) {c c' : List T → Option α}
    (h : ∀ ts', ts'.length + 1 = ts.length → Q f k (c ts') (c' ts')) : Q f k (Body.expect t ts c) (Body.expect t ts c') := by
  unfold Body.expect
  split
  · exact Q.none
  · split
    · exact h _ rfl
    · exact Q.none

theorem value (n : Nat) (ts : List T) (st : St) (hn : 10 * ts.length + 4 ≤ n) : Q s3 ts.length (valueF G (runs n S) ts st) (valueF G (runs n S') ts st) := by
  unfold valueF
  refine Q.bind (rexpr S S' G n _ _ hn) ?_
  rintro ⟨e, st1, t1⟩ hx
  dsimp only
  split
  · refine Q.bind (rexpr S S' G n _ _ (by len)) ?_
    rintro ⟨e, st2, t2⟩ hx2
    refine expect _ _ fun t3 h3 => ?_
    refine Q.map (rexpr S S' G n _ _ (by len)) ?_
    rintro ⟨e, st3, t4⟩ hx3
    len
  · exact Q.some hx

@[reducible] def s4 {α β γ : Type} (r : α × β × γ × List T) : Nat := r.2.2.2.length + 1

theorem declarator (ty : List Char) (ts : List T) : Q s3 ts.length (Body.declarator ty ts) (Body.declarator ty ts) := by
  unfold Body.declarator
  dsimp only
  have h : (ts.drop (ts.takeWhile fun t => t.1 = .asterisk).length).length ≤ ts.length := by rw [List.length_drop]; omega
  generalize ts.drop (ts.takeWhile fun t => t.1 = .asterisk).length = t1 at h
  split
  all_goals first
    | exact Q.none
    | (refine Q.some ?_; len)
    | (refine Q.mapR _ fun x => ?_; len)

theorem initDecl (n : Nat) (first : Bool) (ty : List Char) (ts : List T) (st : St) (hn : 10 * ts.length + 4 ≤ n) :
    Q s4 ts.length (initDeclF G (runs n S) first ty ts st) (initDeclF G (runs n S') first ty ts st) := by
  unfold initDeclF
  refine Q.bind (declarator ty ts) ?_
  rintro ⟨s, d, t1⟩ hx
  dsimp only
  split
  · have key : ∀ (b : Bool) (ts : List T) (st : St), 10 * ts.length + 4 ≤ n →
        Q s3 ts.length (if b = true then valueF G (runs n S) ts st else rexprF G (runs n S) ts st) (if b = true then valueF G (runs n S') ts st else rexprF G (runs n S') ts st) := by
      intro b ts st h
      split
      · exact value S S' G n _ _ h
      · exact rexpr S S' G n _ _ h
    refine Q.map (key _ _ _ (by len)) ?_
    rintro ⟨e, st1, t1⟩ hx
    simp only [s4]
    len
  · exact Q.some hx

theorem decls (n : Nat) : ∀ (first : Bool) (ty : List Char) (ts : List T) (st : St), 10 * ts.length + 5 ≤ n →
    Q s3 ts.length ((runs n S).decls G first ty ts st) ((runs n S').decls G first ty ts st) := by
  induction n with
  | zero => intros; omega
  | succ n ih =>
    intro first ty ts st hn
    dsimp only [runs, step, declsF]
    refine Q.bind (initDecl S S' G n first ty ts st (by omega)) ?_
    rintro ⟨x, e, st1, t1⟩ hx
    simp only [s4] at hx
    dsimp only
    split
    · refine Q.map (ih _ _ _ _ (by len)) ?_
      rintro ⟨e, st1, t1⟩ hx
      len
    · exact Q.some hx

theorem finish (st : St) (r : ExprGen.G × List T) : Q l3 r.2.length (Body.finish st r) (Body.finish st r) := by
  unfold Body.finish
  split
  · exact Q.some (Nat.le_refl _)
  · exact Q.none

theorem assign (n : Nat) (pre : Option Op2) (s : List Char) (ts : List T) (st : St) (hn : 10 * ts.length + 4 ≤ n) :
    Q l3 ts.length (assignF G (runs n S) pre s ts st) (assignF G (runs n S') pre s ts st) := by
  unfold assignF
  split
  · refine Q.bind (prefixed S S' _ _ n s ts _ hn) fun r hr => (finish _ _).mono hr
  · refine Q.bindR _ fun x => Q.bind ((exprs S S' _ n).lvalue _ _ _ _ _ hn) ?_
    rintro ⟨lv, g1, t1⟩ hx
    dsimp only
    split
    · split
      · refine Q.map (value S S' G n _ _ (by len)) ?_
        rintro ⟨e, st1, t1⟩ hx
        len
      · exact Q.none
    · exact Q.bind (assignment S S' _ n s ts _ hn) fun r hr => (finish _ _).mono hr

theorem callStmt (n : Nat) (s : List Char) (ts : List T) (st : St) (hn : 10 * ts.length + 4 ≤ n) :
    Q l3 ts.length (callStmtF G (runs n S) s ts st) (callStmtF G (runs n S') s ts st) := by
  unfold callStmtF
  split
  · refine Q.bind ((exprs S S' _ n).args _ _ _ (by len)) ?_
    rintro ⟨g1, k, t1⟩ hx
    refine Q.bindR _ fun a => ?_
    split
    · refine Q.some ?_
      len
    · exact Q.none
  · exact Q.none

theorem forInit (n : Nat) (ts : List T) (st : St) (hn : 10 * ts.length + 4 ≤ n) : Q s3 ts.length (forInitF G (runs n S) ts st) (forInitF G (runs n S') ts st) := by
  unfold forInitF
  split
  · exact Q.some (by len)
  · rename_i s ts
    have key : Q (α := CStmt.Expr × St × List T) l3 ts.length
        (if (Types.findType G.types (String.ofList s) .names).isSome then ((runs n S).decls G true s ts st).map fun r => (declExpr r.1, r.2) else assignF G (runs n S) none s ts st)
        (if (Types.findType G.types (String.ofList s) .names).isSome then ((runs n S').decls G true s ts st).map fun r => (declExpr r.1, r.2) else assignF G (runs n S') none s ts st) := by
      split
      · exact Q.map (decls S S' G n _ _ _ _ (by len)) fun r hr => by len
      · exact assign S S' G n _ _ _ _ (by len)
    refine Q.bind key ?_
    rintro ⟨e, st1, t1⟩ hx
    refine expect _ _ fun t2 h2 => Q.some ?_
    len
  · exact Q.none

theorem forCond (n : Nat) (ts : List T) (st : St) (hn : 10 * ts.length + 4 ≤ n) : Q s4 ts.length (forCondF G (runs n S) ts st) (forCondF G (runs n S') ts st) := by
  unfold forCondF
  split
  · exact Q.some (by simp only [s4]; len)
  · refine Q.bind (rexpr S S' G n _ _ hn) ?_
    rintro ⟨e, st1, t1⟩ hx
    refine expect _ _ fun t2 h2 => Q.some ?_
    simp only [s4]
    len

theorem forInc (n : Nat) (ts : List T) (st : St) (hn : 10 * ts.length + 4 ≤ n) : Q s3 ts.length (forIncF G (runs n S) ts st) (forIncF G (runs n S') ts st) := by
  unfold forIncF
  split
  · exact Q.some (by len)
  · refine Q.bind (assign S S' G n _ _ _ _ (by len)) ?_
    rintro ⟨e, st1, t1⟩ hx
    refine expect _ _ fun t2 h2 => Q.some ?_
    len
  · refine Q.bind (assign S S' G n _ _ _ _ (by len)) ?_
    rintro ⟨e, st1, t1⟩ hx
    refine expect _ _ fun t2 h2 => Q.some ?_
    len
  · refine Q.bind (assign S S' G n _ _ _ _ (by len)) ?_
    rintro ⟨e, st1, t1⟩ hx
    refine expect _ _ fun t2 h2 => Q.some ?_
    len
  · exact Q.none

theorem cond (n : Nat) (ts : List T) (st : St) (hn : 10 * ts.length + 4 ≤ n) : Q s3 ts.length (condF G (runs n S) ts st) (condF G (runs n S') ts st) := by
  unfold condF
  refine expect _ _ fun t2 h2 => ?_
  refine Q.bind (rexpr S S' G n _ _ (by len)) ?_
  rintro ⟨e, st1, t1⟩ hx
  refine expect _ _ fun t2 h2 => Q.some ?_
  len

theorem named (n : Nat) (pre : Option Op2) (s : List Char) (ts : List T) (st : St) (hn : 10 * ts.length + 5 ≤ n) :
    Q s3 ts.length (bnamedF G (runs n S) pre s ts st) (bnamedF G (runs n S') pre s ts st) := by
  have key : Q (α := CStmt.Expr × St × List T) l3 ts.length
      (if (Types.findType G.types (String.ofList s) .names).isSome then ((runs n S).decls G true s ts st).map fun r => (declExpr r.1, r.2)
        else if G.macro_ s then none else if G.fn s then callStmtF G (runs n S) s ts st else assignF G (runs n S) pre s ts st)
      (if (Types.findType G.types (String.ofList s) .names).isSome then ((runs n S').decls G true s ts st).map fun r => (declExpr r.1, r.2)
        else if G.macro_ s then none else if G.fn s then callStmtF G (runs n S') s ts st else assignF G (runs n S') pre s ts st) := by
    split
    · exact Q.map (decls S S' G n _ _ _ _ (by len)) fun r hr => by len
    · split
      · exact Q.none
      · split
        · exact callStmt S S' G n _ _ _ (by len)
        · exact assign S S' G n _ _ _ _ (by len)
  unfold bnamedF
  refine Q.bind key ?_
  rintro ⟨e, st1, t1⟩ hx
  refine expect _ _ fun t2 h2 => Q.some ?_
  len

structure Stmts (n : Nat) : Prop where
  stmt : ∀ ts st, 10 * ts.length + 1 ≤ n → Q s3 ts.length ((runs n S).stmt G ts st) ((runs n S').stmt G ts st)
  items : ∀ ts st, 10 * ts.length + 2 ≤ n → Q s3 ts.length ((runs n S).items G ts st) ((runs n S').items G ts st)
  cases : ∀ ts st, 10 * ts.length + 1 ≤ n → Q s3 ts.length ((runs n S).cases G ts st) ((runs n S').cases G ts st)
  group : ∀ ts st, 10 * ts.length + 2 ≤ n → Q l3 ts.length ((runs n S).group G ts st) ((runs n S').group G ts st)

set_option hygiene false in
/-- Lengths. -/
macro "lens" : tactic => `(tactic| (
  try clear i1 i2 i3 i4
  try simp only [l2, l3, s2, s3, s4, List.length_cons, List.length_nil, List.length_tail] at *
  omega))

set_option hygiene false in
macro "sts" : tactic => `(tactic| repeat' first
  | (show _ ≤ _; lens)
  | with_reducible exact Q.none
  | with_reducible refine Q.some ?_
  | (with_reducible refine Q.bind (i1 _ _ ?_) ?_; rotate_left; rintro ⟨g1, k1, t1⟩ hx)
  | (with_reducible refine Q.bind (i2 _ _ ?_) ?_; rotate_left; rintro ⟨g1, k1, t1⟩ hx)
  | (with_reducible refine Q.bind (i3 _ _ ?_) ?_; rotate_left; rintro ⟨g1, k1, t1⟩ hx)
  | (with_reducible refine Q.bind (i4 _ _ ?_) ?_; rotate_left; rintro ⟨g1, k1, t1⟩ hx)
  | (with_reducible refine Q.map (i1 _ _ ?_) ?_; rotate_left; rintro ⟨g1, k1, t1⟩ hx)
  | (with_reducible refine Q.map (i2 _ _ ?_) ?_; rotate_left; rintro ⟨g1, k1, t1⟩ hx)
  | (with_reducible refine Q.map (i3 _ _ ?_) ?_; rotate_left; rintro ⟨g1, k1, t1⟩ hx)
  | (with_reducible refine Q.map (i4 _ _ ?_) ?_; rotate_left; rintro ⟨g1, k1, t1⟩ hx)
  | (with_reducible refine Q.bind (cond S S' G n _ _ ?_) ?_; rotate_left; rintro ⟨g1, k1, t1⟩ hx)
  | (with_reducible refine Q.bind (value S S' G n _ _ ?_) ?_; rotate_left; rintro ⟨g1, k1, t1⟩ hx)
  | (with_reducible refine Q.bind (forInit S S' G n _ _ ?_) ?_; rotate_left; rintro ⟨g1, k1, t1⟩ hx)
  | (with_reducible refine Q.bind (forCond S S' G n _ _ ?_) ?_; rotate_left; rintro ⟨g1, x1, k1, t1⟩ hx)
  | (with_reducible refine Q.bind (forInc S S' G n _ _ ?_) ?_; rotate_left; rintro ⟨g1, k1, t1⟩ hx)
  | (with_reducible refine Q.conv (named S S' G n _ _ _ _ ?_) ?_; rotate_left; rintro ⟨g1, k1, t1⟩ hx)
  | (with_reducible refine Q.bindR _ fun x => ?_)
  | (with_reducible refine expect _ _ fun t2 h2 => ?_)
  | ((try dsimp only); split))

theorem stmts (n : Nat) : Stmts S S' G n := by
  induction n with
  | zero => constructor <;> intros <;> omega
  | succ n ih =>
    obtain ⟨i1, i2, i3, i4⟩ := ih
    constructor
    · intro ts st hn
      dsimp only [runs, step, stmtF]
      sts
    · intro ts st hn
      dsimp only [runs, step, itemsF]
      sts
    · intro ts st hn
      dsimp only [runs, step, casesF]
      sts
    · intro ts st hn
      dsimp only [runs, step, groupF]
      sts

theorem funcBody (n base nv : Nat) (d : List Char) (ts : List T) (hn : 10 * ts.length + 2 ≤ n) :
    Q s3 ts.length (funcBodyF G (runs n S) base nv d ts) (funcBodyF G (runs n S') base nv d ts) := by
  unfold funcBodyF
  refine expect _ _ fun t2 h2 => ((stmts S S' G n).items _ _ (by omega)).mono (by omega)

end

end Shecc.Ends
