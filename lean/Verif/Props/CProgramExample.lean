import Verif.Props.CProgramProg
import Verif.Model.Body
import Verif.Props.DceFnExample
import Mathlib.Data.Nat.Pairing

/-!
# C95: an example

`int g = 100; int f(int n) { if (n) return n + f(n - 1); return 0; } int main() { return f(g); }`, from its statements on.
-/

namespace Shecc.Props.CProgExample
open Shecc Shecc.Ssa IrM SrcBlock RaFn CStmt Shecc.Stmt Shecc.Dce CDce
open CRename (Mach Home Ins)
open CProg (World SFn Stages)

/-- An expression without logical operators, as the parser returns it (`Body.rexpr`): its code, and the variable with its value. -/
def leaf (l : List (Ins Nat)) (r : Nat) : Expr := .comp .nil l r []

/-- Variable 0 is `n`. -/
def fBody : Stmts := seqS [
  .ite (leaf [] 0) (.ret (some (leaf [{ op := .load_constant, rd := some 4, sz := 1 }, { op := .alu .sub, rd := some 5, rs1 := some 0, rs2 := some 4 },
    { op := .push, rs1 := some 5, sz := 1 }, { op := .call, str := "f" }, { op := .func_ret, rd := some 6 },
    { op := .alu .add, rd := some 7, rs1 := some 0, rs2 := some 6 }] 7))),
  .ret (some (leaf [{ op := .load_constant, rd := some 11, sz := 0 }] 11))]

/-- Variable 0 is `g`. -/
def mBody : Stmts := seqS [.ret (some (leaf [{ op := .push, rs1 := some 0, sz := 1 }, { op := .call, str := "f" }, { op := .func_ret, rd := some 1 }] 1))]

def noPS : PS := { n := 0, block := fun _ => {}, code := fun _ => [], brk := [], cont := [], se := [], exit := 0 }
def fPS : PS := (lowerFn fBody).getD noPS
def mPS : PS := (lowerFn mBody).getD noPS

def fFn : SsaBuild.Fn where
  g := ⟨fPS.block, 0, 1⟩
  code := fPS.code
  params := [0]
  isGlobal := fun _ => false
  isFunc := fun _ => false
  isJoin := fun _ => false
  inScope := fun _ _ => true
  isDecl := fun _ _ => false

def mFn : SsaBuild.Fn where
  g := ⟨mPS.block, 0, 1⟩
  code := mPS.code
  params := []
  isGlobal := fun v => v == 0
  isFunc := fun _ => false
  isJoin := fun _ => false
  inScope := fun _ _ => true
  isDecl := fun _ _ => false

/-- Both as functions of the source program; global variables are at 0xffffc. -/
def fSrc : SFn where
  body := fBody
  params := [0]
  void := false
  isGlobal := fun _ => false
  gaddr := fun _ => 0xffffc#32
  alloc := fun _ _ _ => 0
  keep := fun _ => False

def mSrc : SFn where
  body := mBody
  params := []
  void := false
  isGlobal := fun v => v == 0
  gaddr := fun _ => 0xffffc#32
  alloc := fun _ _ _ => 0
  keep := fun _ => False

theorem fOk : fBody.Ok fSrc.home := by
  simp [fBody, seqS, Stmts.Ok, Stmt.Ok, Cases.Ok, Label.Ok, Expr.Plain, Expr.Good, CStmt.Simple, CStmt.simple, Exprs.Good, Ors.Good, Ands.Good, Expr.noSe,
    Exprs.noSe, Ors.noSe, Ands.noSe, setE, leaf, constIns, moveIns, SFn.home, fSrc, Tmp.Ok, Expr.straight, Exprs.straight, optCode,
    Expr.code, Exprs.code, Expr.res]

theorem mOk : mBody.Ok mSrc.home := by
  simp [mBody, seqS, Stmts.Ok, Stmt.Ok, Cases.Ok, Label.Ok, Expr.Plain, Expr.Good, CStmt.Simple, CStmt.simple, Exprs.Good, Ors.Good, Ands.Good, Expr.noSe,
    Exprs.noSe, Ors.noSe, Ands.noSe, setE, leaf, constIns, moveIns, SFn.home, mSrc, Tmp.Ok, Expr.straight, Exprs.straight, optCode,
    Expr.code, Exprs.code, Expr.res]

theorem fLowered : lowerFn fBody = some fPS := some_getD (by decide +kernel)
theorem mLowered : lowerFn mBody = some mPS := some_getD (by decide +kernel)

theorem fCode (k : Nat) : fFn.code (k + 5) = [] := rfl
theorem mCode (k : Nat) : mFn.code (k + 2) = [] := rfl
theorem fNoNext (k : Nat) : fFn.g.block (k + 5) = {} := rfl
theorem mNoNext (k : Nat) : mFn.g.block (k + 2) = {} := rfl

/-- Checking calling sequences. -/
def callSeq (prev : Option Op1) : List (Ins Nat) → Bool
  | [] => true
  | i :: ys =>
    (i.op != .func_ret || prev == some .call) &&
      (i.op != .push || (match ys.dropWhile (·.op == .push) with | c :: _ => c.op == .call | [] => false)) && callSeq (some i.op) ys

theorem callSeq_part : ∀ (l : List (Ins Nat)) (zs : List (Ins Nat)), callSeq (zs.getLast?.map (·.op)) l = true → ∀ xs i ys, l = xs ++ i :: ys →
    i.op = .push ∨ i.op = .func_ret → CProg.Part (·.op) (zs ++ xs) i ys := by
  intro l
  induction l with
  | nil => intro zs _ xs i ys h; simp at h
  | cons a l ih =>
    intro zs h xs i ys e hi
    simp only [callSeq, Bool.and_eq_true] at h
    obtain ⟨⟨h1, h2⟩, h3⟩ := h
    cases xs with
    | cons x xs =>
      simp only [List.cons_append, List.cons.injEq] at e
      obtain ⟨rfl, e⟩ := e
      have := ih (zs ++ [a]) (by simpa using h3) xs i ys e hi
      simpa using this
    | nil =>
      simp only [List.nil_append, List.cons.injEq] at e
      obtain ⟨rfl, rfl⟩ := e
      rw [List.append_nil]
      rcases hi with hi | hi
      · right
        refine ⟨hi, ?_⟩
        have hb : (a.op != .push) = false := by rw [hi]; rfl
        rw [hb, Bool.false_or] at h2
        cases hd : l.dropWhile (·.op == .push) with
        | nil => rw [hd] at h2; cases h2
        | cons c cs =>
          rw [hd] at h2
          refine ⟨l.takeWhile (·.op == .push), c, cs, by rw [← hd, List.takeWhile_append_dropWhile], .inl (by simpa using h2), ?_⟩
          intro p hp
          have := List.all_eq_true.1 (List.all_takeWhile (l := l) (p := fun i : Ins Nat => i.op == .push)) p hp
          simpa using this
      · left
        refine ⟨hi, ?_⟩
        have hb : (a.op != .func_ret) = false := by rw [hi]; rfl
        rw [hb, Bool.false_or] at h1
        rcases List.eq_nil_or_concat zs with rfl | ⟨zs, c, rfl⟩
        · cases h1
        · rw [List.concat_eq_append] at h1 ⊢
          refine ⟨zs, c, rfl, .inl ?_⟩
          simpa using h1

theorem fFlows : fBody.Flows := ⟨trivial, trivial, trivial⟩
theorem mFlows : mBody.Flows := ⟨trivial, trivial⟩

theorem fLinked : fFn.Linked := C103_linked_partial fOk fFlows fLowered ⟨rfl, rfl, rfl, rfl⟩
theorem mLinked : mFn.Linked := C103_linked_partial mOk mFlows mLowered ⟨rfl, rfl, rfl, rfl⟩

theorem fAll {Q : Nat → Ins Nat → Prop} (h : ∀ b < 5, ∀ i ∈ fFn.code b, Q b i) : ∀ b, ∀ i ∈ fFn.code b, Q b i := by
  intro b i hi
  match b with
  | 0 | 1 | 2 | 3 | 4 => exact h _ (by decide) i hi
  | b + 5 => rw [fCode] at hi; cases hi

theorem mAll {Q : Nat → Ins Nat → Prop} (h : ∀ b < 2, ∀ i ∈ mFn.code b, Q b i) : ∀ b, ∀ i ∈ mFn.code b, Q b i := by
  intro b i hi
  match b with
  | 0 | 1 => exact h _ (by decide) i hi
  | b + 2 => rw [mCode] at hi; cases hi

/-- Nothing is needed at the exit. -/
theorem fDead (v : Nat) : ¬ CRename.LiveIn fFn.g.succs fFn.code v 1 := by
  intro h
  cases h with
  | here h =>
    obtain ⟨xs, i, ys, h, _⟩ := h
    rw [show fFn.code 1 = [] from rfl] at h
    simp at h
  | later hs _ _ =>
    rw [show fFn.g.succs 1 = [] from rfl] at hs
    cases hs

theorem mDead (v : Nat) : ¬ CRename.LiveIn mFn.g.succs mFn.code v 1 := by
  intro h
  cases h with
  | here h =>
    obtain ⟨xs, i, ys, h, _⟩ := h
    rw [show mFn.code 1 = [] from rfl] at h
    simp at h
  | later hs _ _ =>
    rw [show mFn.g.succs 1 = [] from rfl] at hs
    cases hs

theorem fScoped : fFn.Scoped := by
  refine ⟨?_, fun v _ _ _ h => by cases h⟩
  intro v q b _ hm hl
  have := frontiers_meets fLinked (univ := List.range 5) (n := 52) (by decide +kernel) (by decide +kernel) (by decide +kernel)
    (df := [(3, 1), (4, 1)]) (by decide +kernel) hm
  have hb : b = 1 := by
    simp only [List.mem_cons, List.not_mem_nil, or_false, Prod.mk.injEq] at this
    omega
  subst hb
  exact absurd hl (fDead v)

theorem mScoped : mFn.Scoped := by
  refine ⟨?_, fun v _ _ _ h => by cases h⟩
  intro v q b _ hm hl
  have := frontiers_meets mLinked (univ := List.range 2) (n := 52) (by decide +kernel) (by decide +kernel) (by decide +kernel)
    (df := []) (by decide +kernel) hm
  cases this

def fSsa : SsaBuild.St × (Nat → List (Ins SsaBuild.Name)) := (SsaBuild.ssaBuild fFn 60).get (by decide +kernel)
def mSsa : SsaBuild.St × (Nat → List (Ins SsaBuild.Name)) := (SsaBuild.ssaBuild mFn 60).get (by decide +kernel)

theorem fSsa_eq : SsaBuild.ssaBuild fFn 60 = some (fSsa.1, fSsa.2) := by
  have : SsaBuild.ssaBuild fFn 60 = some fSsa := (Option.some_get _).symm
  rw [this]

theorem mSsa_eq : SsaBuild.ssaBuild mFn 60 = some (mSsa.1, mSsa.2) := by
  have : SsaBuild.ssaBuild mFn 60 = some mSsa := (Option.some_get _).symm
  rw [this]

theorem fOut (k : Nat) : fSsa.2 (k + 5) = [] := rfl
theorem mOut (k : Nat) : mSsa.2 (k + 2) = [] := rfl

/-! ### Numbers for the names -/

def pairing (x : SsaBuild.Name) : Nat := Nat.pair x.1 (match x.2 with | none => 0 | some k => k + 1)

theorem pairing_inj {x y : SsaBuild.Name} (h : pairing x = pairing y) : x = y := by
  obtain ⟨a, b⟩ := x
  obtain ⟨c, d⟩ := y
  have := Nat.pair_eq_pair.1 h
  obtain ⟨h1, h2⟩ := this
  simp only at h1 h2
  subst h1
  cases b <;> cases d <;> simp_all

/-- Names of `l` get the numbers beside them, others numbers from 100 on. -/
def number (l : List (SsaBuild.Name × Nat)) (x : SsaBuild.Name) : Nat := (l.lookup x).getD (100 + pairing x)

theorem number_inj {l : List (SsaBuild.Name × Nat)} (h1 : ∀ p ∈ l, p.2 < 100) (h2 : ∀ p ∈ l, ∀ q ∈ l, p.2 = q.2 → p.1 = q.1) :
    ∀ x y, number l x = number l y → x = y := by
  have look : ∀ (l : List (SsaBuild.Name × Nat)) x n, l.lookup x = some n → (x, n) ∈ l := by
    intro l
    induction l with
    | nil => intro x n h; cases h
    | cons p l ih =>
      obtain ⟨a, b⟩ := p
      intro x n h
      rw [List.lookup_cons] at h
      split at h
      · rename_i he
        have := beq_iff_eq.1 he
        subst this
        cases h
        exact List.mem_cons_self ..
      · exact List.mem_cons_of_mem _ (ih x n h)
  intro x y h
  unfold number at h
  cases hx : l.lookup x with
  | none =>
    cases hy : l.lookup y with
    | none =>
      rw [hx, hy] at h
      simp only [Option.getD_none] at h
      exact pairing_inj (by omega)
    | some n =>
      rw [hx, hy] at h
      simp only [Option.getD_none, Option.getD_some] at h
      have := h1 _ (look l y n hy)
      simp only at this
      omega
  | some m =>
    cases hy : l.lookup y with
    | none =>
      rw [hx, hy] at h
      simp only [Option.getD_none, Option.getD_some] at h
      have := h1 _ (look l x m hx)
      simp only at this
      omega
    | some n =>
      rw [hx, hy] at h
      simp only [Option.getD_some] at h
      exact h2 _ (look l x m hx) _ (look l y n hy) h

def fEnc : SsaBuild.Name → Nat :=
  number [((0, some 0), 1), ((4, some 0), 2), ((5, some 0), 3), ((6, some 0), 4), ((7, some 0), 5), ((11, some 0), 6)]
def mEnc : SsaBuild.Name → Nat := number [((0, none), 0), ((1, some 0), 7)]

theorem fEnc_inj : ∀ x y, fEnc x = fEnc y → x = y := number_inj (by decide) (by decide)
theorem mEnc_inj : ∀ x y, mEnc x = mEnc y → x = y := number_inj (by decide) (by decide)

/-! ### The functions in SSA form, and after the passes -/

/-- The instructions of `f`, numbered. -/
def fInsn : Nat → Insn
  | 0 => { op := .branch, rs1 := some 1 }
  | 1 => { op := .load_constant, rd := some 2, sz := 1 }
  | 2 => { op := .alu .sub, rd := some 3, rs1 := some 1, rs2 := some 2 }
  | 3 => { op := .push, rs1 := some 3, sz := 1 }
  | 4 => { op := .call, str := "f" }
  | 5 => { op := .func_ret, rd := some 4 }
  | 6 => { op := .alu .add, rd := some 5, rs1 := some 1, rs2 := some 4 }
  | 7 => { op := .ret, rs1 := some 5 }
  | 8 => { op := .load_constant, rd := some 6 }
  | _ => { op := .ret, rs1 := some 6 }

def fBlocks : Nat → List Nat
  | 2 => [0]
  | 3 => [1, 2, 3, 4, 5, 6, 7]
  | 4 => [8, 9]
  | _ => []

def fPrev : Nat → List Nat
  | 0 => []
  | 1 => [3, 4]
  | 2 => [0]
  | 3 => [2]
  | 4 => [2]
  | 5 => []
  | b + 6 => [b + 5]

def fOrder : List Nat := [0, 2, 4, 3, 1]

def fF : RegAlloc.Fn where
  block := fun b => match b with
    | 0 => { next := some 2 }
    | 1 => {}
    | 2 => { then_ := 3, else_ := 4 }
    | 3 => { next := some 1 }
    | 4 => { next := some 1 }
    | b => { next := some (b + 1) }
  insns := fun b => (fBlocks b).map fInsn
  rpo := fun b => b
  fnExit := 1

def fDce : Dce.Fn where
  insn := fInsn
  blocks := fBlocks
  blk := fun i => match i with
    | 0 => 2
    | 1 | 2 | 3 | 4 | 5 | 6 | 7 => 3
    | _ => 4
  rdf := fun b => match b with
    | 3 => [2]
    | 4 => [2]
    | _ => []
  lastAssign := lastAssignOf fInsn (fOrder.flatMap fBlocks)
  isGlobal := vars.isGlobal

theorem fNumbered : CProg.Numbered fOrder fFn.g fSsa.2 fEnc fF where
  inj := fEnc_inj
  insns := by decide +kernel
  next := by decide +kernel
  then_ := by
    have : ∀ b ∈ fOrder, ((fFn.g.block b).then_ = none ∨ (fFn.g.block b).then_ = some (fF.block b).then_) := by decide +kernel
    intro b hb c hc
    rcases this b hb with h | h
    · rw [h] at hc; cases hc
    · rw [h] at hc; exact Option.some.inj hc
  else_ := by
    have : ∀ b ∈ fOrder, ((fFn.g.block b).else_ = none ∨ (fFn.g.block b).else_ = some (fF.block b).else_) := by decide +kernel
    intro b hb c hc
    rcases this b hb with h | h
    · rw [h] at hc; cases hc
    · rw [h] at hc; exact Option.some.inj hc
  exit := rfl

def cf : ConstFold.CF := ⟨fun _ => false, vars.initVal⟩
/-- Immediate dominators. -/
def fIdom : Nat → Nat := fun b => match b with
  | 0 => 0
  | 2 => 0
  | 1 => 2
  | 3 => 2
  | 4 => 2
  | b => b


theorem fAllOut {Q : Nat → Ins SsaBuild.Name → Prop} (h : ∀ b < 5, ∀ i ∈ fSsa.2 b, Q b i) : ∀ b, ∀ i ∈ fSsa.2 b, Q b i := by
  intro b i hi
  match b with
  | 0 | 1 | 2 | 3 | 4 => exact h _ (by decide) i hi
  | b + 5 => rw [fOut] at hi; cases hi

/-- The instructions of `f` under their names. -/
def fNamed : Nat → List (Ins SsaBuild.Name)
  | 2 => [{ op := .branch, rs1 := some (0, some 0) }]
  | 3 => [{ op := .load_constant, rd := some (4, some 0), sz := 1 },
      { op := .alu .sub, rd := some (5, some 0), rs1 := some (0, some 0), rs2 := some (4, some 0) },
      { op := .push, rs1 := some (5, some 0), sz := 1 }, { op := .call, str := "f" }, { op := .func_ret, rd := some (6, some 0) },
      { op := .alu .add, rd := some (7, some 0), rs1 := some (0, some 0), rs2 := some (6, some 0) }, { op := .ret, rs1 := some (7, some 0) }]
  | 4 => [{ op := .load_constant, rd := some (11, some 0) }, { op := .ret, rs1 := some (11, some 0) }]
  | _ => []

theorem fNamed_eq : fSsa.2 = fNamed := by
  funext b
  match b with
  | 0 | 1 | 2 | 3 | 4 => decide +kernel
  | b + 5 => exact fOut b

def mNamed : Nat → List (Ins SsaBuild.Name)
  | 0 => [{ op := .push, rs1 := some (0, none), sz := 1 }, { op := .call, str := "f" }, { op := .func_ret, rd := some (1, some 0) },
      { op := .ret, rs1 := some (1, some 0) }]
  | _ => []

theorem mNamed_eq : mSsa.2 = mNamed := by
  funext b
  match b with
  | 0 | 1 => decide +kernel
  | b + 2 => exact mOut b

theorem named_cases {Q : Nat → Ins SsaBuild.Name → Prop} (h2 : ∀ i ∈ fNamed 2, Q 2 i) (h3 : ∀ i ∈ fNamed 3, Q 3 i) (h4 : ∀ i ∈ fNamed 4, Q 4 i) :
    ∀ b, ∀ i ∈ fNamed b, Q b i := by
  intro b i hi
  match b with
  | 0 => cases hi
  | 1 => cases hi
  | 2 => exact h2 i hi
  | 3 => exact h3 i hi
  | 4 => exact h4 i hi
  | b + 5 => cases hi

theorem fAttached (da : Word) (bv : BitVec 8 → Word) (os : IrM.Os) :
    CProg.Attached fSsa.2 fEnc (src da bv os).isGlobal cf.initVal (src da bv os).gaddr fSrc := by
  rw [fNamed_eq]
  have occ : ∀ x, CProg.Occurs fNamed x → x ∈ [(0, some 0), (4, some 0), (5, some 0), (6, some 0), (7, some 0), (11, some 0)] := by
    rintro x ⟨b, i, hi, hx⟩
    have : ∀ b, ∀ i ∈ fNamed b, ∀ x ∈ i.rd.toList ++ i.rs1.toList ++ i.rs2.toList,
        x ∈ [(0, some 0), (4, some 0), (5, some 0), (6, some 0), (7, some 0), (11, some 0)] := by
      apply named_cases <;> decide
    refine this b i hi x ?_
    simp only [List.mem_append, Option.mem_toList]
    rcases hx with h | h | h <;> simp [h]
  refine ⟨?_, ?_⟩
  · apply named_cases
    all_goals simp [fNamed]
    all_goals decide
  · intro x hx
    have : ∀ x ∈ [(0, some 0), (4, some 0), (5, some 0), (6, some 0), (7, some 0), ((11, some 0) : SsaBuild.Name)], vars.isGlobal (fEnc x) = false := by decide
    exact ⟨this x (occ x hx), fun h => by cases h⟩

theorem fNoRead : ∀ b, ∀ i ∈ fF.insns b, i.op ≠ .read := by
  intro b i hi
  match b with
  | 0 | 1 => cases hi
  | 2 | 3 | 4 => revert i; decide
  | b + 5 => cases hi

theorem unchanged_noRead {F : RegAlloc.Fn} (h : ∀ b, ∀ i ∈ F.insns b, i.op ≠ .read) (C : SrcBlock.Ctx) (s : SrcBlock.St) :
    CCse.Unchanged C F 0 s := by
  have hno : ∀ {b pre i n base idx d}, ¬ CCse.First F C.isGlobal b pre i n base idx d := by
    intro b pre i n base idx d hF
    obtain ⟨post, hp⟩ := hF.here.code
    exact h b n (by rw [hp]; simp) hF.here.read
  exact ⟨fun _ _ _ _ _ _ _ hF => absurd hF hno, fun _ _ _ _ _ _ _ hF => absurd hF hno⟩

def fOpt : (Nat → List Insn) × ConstFold.CF :=
  match Optimize.optFn vars.isGlobal fIdom 10 fOrder fF.insns cf with
  | .ok r => r
  | .crash => (fun _ => [], cf)

theorem fOptimized : Optimize.optFn vars.isGlobal fIdom 10 fOrder fF.insns cf = .ok (fOpt.1, fOpt.2) := rfl

def fRpo : (Nat → Nat) × List Nat := ((Cfg.buildRpo (RaSource.cfgOf fF 0 fPrev).preds 1 5).getD (fun _ => 0, []))

def fRIdom : Nat → Option Nat :=
  (Cfg.buildIdom fRpo.1 (backSuccs (RaSource.cfgOf fF 0 fPrev)) 1 fRpo.2.tail 11 7).getD fun _ => none

def fSt : Dce.St := (dceMark fDce 2048 100 fOrder dceInit).getD dceInit

theorem fEdges (a b : Nat) : b ∈ succs fF a ↔ a ∈ fPrev b := by
  match a with
  | 0 | 1 | 2 | 3 | 4 =>
    match b with
    | 0 | 1 | 2 | 3 | 4 | 5 => decide
    | b + 6 => simp [succs, fF, fPrev]
  | a + 5 =>
    match b with
    | 0 | 1 | 2 | 3 | 4 | 5 => simp [succs, fF, fPrev]
    | b + 6 =>
      simp only [succs, fF, fPrev, List.mem_singleton]
      constructor
      · intro h; simp at h; omega
      · intro h; simp; omega

theorem fPrepared : Prepared fF 0 fPrev [0, 1, 2, 3, 4] fDce fRIdom fOrder where
  exit := by decide
  closed := by decide
  edges := fEdges
  layout := ⟨5, ((Cfg.buildRpo (RaSource.cfgOf fF 0 fPrev).succs 0 5).getD (fun _ => 0, [])).1, by
    have h := some_getD (d := (fun _ => 0, [])) (o := Cfg.buildRpo (RaSource.cfgOf fF 0 fPrev).succs 0 5) (by decide)
    have ho : ((Cfg.buildRpo (RaSource.cfgOf fF 0 fPrev).succs 0 5).getD (fun _ => 0, [])).2 = fOrder := by decide
    rw [h, Option.getD_some, ← ho]⟩
  post := by
    have e1 := some_getD (d := (fun _ => 0, [])) (o := Cfg.buildRpo (RaSource.cfgOf fF 0 fPrev).preds 1 5) (by decide)
    have e2 := some_getD (d := fun _ => none)
      (o := Cfg.buildIdom fRpo.1 (backSuccs (RaSource.cfgOf fF 0 fPrev)) 1 fRpo.2.tail 11 7) (by decide)
    have ho : fRpo.2 = [1, 4, 3, 2, 0] := by decide
    refine ⟨fRpo.1, [4, 3, 2, 0], [(4, 2), (3, 2)], ?_, ?_, by decide, ?_⟩
    · have : fRpo = (fRpo.1, [1, 4, 3, 2, 0]) := by rw [← ho]
      show _ = some (fRpo.1, [1, 4, 3, 2, 0])
      rw [← this]
      exact e1
    · rw [ho] at e2
      exact e2
    · intro b c
      match b with
      | 0 | 1 | 2 | 3 | 4 => simp [fDce]
      | b + 5 => simp [fDce]

theorem fListed : CProg.Listed fF vars.isGlobal fDce fOrder where
  insns := fun _ => rfl
  own := by
    have key : ∀ b < 5, ∀ i ∈ fDce.blocks b, fDce.blk i = b := by decide
    intro b i hi
    by_cases h : b < 5
    · exact key b h i hi
    · match b, h, hi with
      | 0, h, _ | 1, h, _ | 2, h, _ | 3, h, _ | 4, h, _ => exact absurd (by decide) h
      | _ + 5, _, hi => cases hi
  nodup := by decide
  rest := by
    intro i h hi
    match i, h, hi with
    | 0, _, hi | 1, _, hi | 2, _, hi | 3, _, hi | 4, _, hi | 6, _, hi | 7, _, hi | 8, _, hi => revert hi; decide
    | 5, h, _ => exact h 3 (by decide) (by decide)
    | _ + 9, _, hi => cases hi
  last := rfl
  global_ := rfl

theorem fMarked : dceMark fDce 2048 100 fOrder dceInit = some fSt := some_getD (by decide)

theorem fKept : ∀ b ∈ fOrder, branchRemoved fDce fSt b = false := by decide

theorem fJoined : Joined fF fDce fSt (fun b => (fRIdom b).getD 0) 6 fOrder := by
  intro b hb hr
  rw [fKept b hb] at hr
  cases hr

/-- The numbers of the blocks of `f` in the program. -/
def fPlace : Nat → Nat
  | 0 => 0
  | 1 => 4
  | 2 => 1
  | 3 => 3
  | 4 => 2
  | b + 5 => b + 5

theorem fSwept : CProg.SameCode fPlace (sweepFn fDce fSt (fun b => (fRIdom b).getD 0) 6 fF) fn where
  inj := by
    intro b c h
    match b, c with
    | 0, 0 | 0, 1 | 0, 2 | 0, 3 | 0, 4 => revert h; decide
    | 1, 0 | 1, 1 | 1, 2 | 1, 3 | 1, 4 => revert h; decide
    | 2, 0 | 2, 1 | 2, 2 | 2, 3 | 2, 4 => revert h; decide
    | 3, 0 | 3, 1 | 3, 2 | 3, 3 | 3, 4 => revert h; decide
    | 4, 0 | 4, 1 | 4, 2 | 4, 3 | 4, 4 => revert h; decide
    | b + 5, 0 | b + 5, 1 | b + 5, 2 | b + 5, 3 | b + 5, 4 => simp [fPlace] at h
    | 0, b + 5 | 1, b + 5 | 2, b + 5 | 3, b + 5 | 4, b + 5 => simp [fPlace] at h
    | b + 5, c + 5 => simpa [fPlace] using h
  insns := by
    intro b
    match b with
    | 0 | 1 | 2 | 3 | 4 => decide
    | b + 5 => rfl
  next := by
    intro b
    match b with
    | 0 | 1 | 2 | 3 | 4 => decide
    | b + 5 =>
      show (fn.block (b + 5)).next = some (b + 1 + 5)
      simp only [fn]
      rw [if_neg (by omega)]
  branch := by
    intro b i hi ho
    match b with
    | 0 => cases hi
    | 1 => cases hi
    | 2 => decide
    | 3 =>
      have : ∀ i ∈ (sweepFn fDce fSt (fun b => (fRIdom b).getD 0) 6 fF).insns 3, i.op ≠ .branch := by decide
      exact absurd ho (this i hi)
    | 4 =>
      have : ∀ i ∈ (sweepFn fDce fSt (fun b => (fRIdom b).getD 0) 6 fF).insns 4, i.op ≠ .branch := by decide
      exact absurd ho (this i hi)
    | b + 5 => cases hi
  exit := rfl

def fStages : Stages where
  P := fPS
  fn := fFn
  steps := 60
  S := fSsa.1
  out := fSsa.2
  enc := fEnc
  F0 := fF
  cf := cf
  idom := fIdom
  depth := 10
  order := fOrder
  code1 := fOpt.1
  F1 := fF
  cf' := fOpt.2
  prev := fPrev
  univ := [0, 1, 2, 3, 4]
  d := fDce
  rIdom := fRIdom
  cap := 2048
  rounds := 100
  st0 := dceInit
  st := fSt
  far := 6
  place := fPlace

def fRpo0 : (Nat → Nat) × List Nat := (Cfg.buildRpo (succs fF) 0 5).getD (fun _ => 0, [])

theorem fCompiled (da : Word) (bv : BitVec 8 → Word) (os : IrM.Os) : CProg.Compiled (src da bv os) fSrc srcF fStages where
  body := fOk
  lowered := fLowered
  holds := ⟨rfl, rfl, rfl, rfl⟩
  params := ⟨rfl, by decide, fun _ _ => rfl⟩
  isGlobal := rfl
  flows := fFlows
  funcs := fun _ _ _ _ _ => rfl
  scopes := fScoped
  taken := by
    have : ∀ b, ∀ i ∈ fFn.code b, i.op ≠ .address_of := fAll (by decide +kernel)
    intro b i hi ho
    exact absurd ho (this b i hi)
  locals := by
    have : ∀ b, ∀ i ∈ fFn.code b, i.op ≠ .allocat := fAll (by decide +kernel)
    intro b i hi ho
    exact absurd ho (this b i hi)
  keeps := by
    have : ∀ b, ∀ i ∈ fFn.code b, i.op ≠ .write := fAll (by decide +kernel)
    intro b i hi ho
    exact absurd ho (this b i hi)
  temps := fun _ _ _ _ _ _ => rfl
  calls := by
    intro b
    have : ∀ b < 5, callSeq none (fFn.code b) = true := by decide +kernel
    match b with
    | 0 | 1 | 2 | 3 | 4 => exact @callSeq_part _ [] (by first | exact this 0 (by decide) | exact this 1 (by decide) | exact this 2 (by decide) | exact this 3 (by decide) | exact this 4 (by decide))
    | b + 5 =>
      intro xs i ys h
      replace h : [] = xs ++ i :: ys := h
      simp at h
  fetches := by
    have : ∀ b, ∀ i ∈ fFn.code b, i.op = .func_ret → i.rs1 = none ∧ i.rs2 = none := fAll (by decide +kernel)
    exact this
  steps := by decide +kernel
  ssa := fSsa_eq
  numbered := fNumbered
  attached := fAttached da bv os
  allocs := by
    intro sp b i hi ho
    have : ∀ b, ∀ i ∈ fNamed b, i.op ≠ .allocat := by apply named_cases <;> decide
    rw [← fNamed_eq] at this
    exact absurd ho (this b i hi)
  dominators := by
    have e1 := some_getD (d := (fun _ => 0, [])) (o := Cfg.buildRpo (succs fF) 0 5) (by decide)
    have e2 := some_getD (d := fun _ => none) (o := Cfg.buildIdom fRpo0.1 fPrev 0 fRpo0.2.tail 11 7) (by decide)
    have ho : fRpo0.2 = [0, 2, 4, 3, 1] := by decide
    refine ⟨fRpo0.1, [2, 4, 3, 1], (Cfg.buildIdom fRpo0.1 fPrev 0 fRpo0.2.tail 11 7).getD fun _ => none, ?_, ?_, by decide⟩
    · have : fRpo0 = (fRpo0.1, [0, 2, 4, 3, 1]) := by rw [← ho]
      show _ = some (fRpo0.1, [0, 2, 4, 3, 1])
      rw [← this]
      exact e1
    · exact e2
  repeats := fun C s _ => unchanged_noRead fNoRead C s
  fresh := fun _ => rfl
  optimized := fOptimized
  graph := ⟨by decide, rfl, rfl⟩
  prepared := fPrepared
  listed := fListed
  preds := by decide +kernel
  unmarked := ⟨fun _ => rfl, fun _ => rfl, rfl⟩
  marked := fMarked
  joined := fJoined
  swept := fSwept
  consts := rfl
  entry := rfl
  numbers := rfl
  void := rfl

def fnPrev (a : Nat) : List Nat := [[], [0], [1], [1], [2, 3]].getD a []

/-- What is live at the ends of the blocks of `f`: its parameter at the ends of blocks 0 and 1, nothing at the others. -/
theorem fLiveness : ∃ rpo order L, Cfg.buildRpo (RaSource.cfgOf fn 0 fnPrev).preds 4 5 = some (rpo, order) ∧
    Live.liveness (RaSource.liveFn vars fn [1] 0 fnPrev) order (order.length * 8 + 1) = some L ∧
    (∀ b < 5, ∀ x, x ∈ L b ↔ vars.isGlobal x = false ∧ CLive.LiveAtEnd (RaSource.liveFn vars fn [1] 0 fnPrev) b x) := by
  have e1 := some_getD (d := (fun _ => 0, [])) (o := Cfg.buildRpo (RaSource.cfgOf fn 0 fnPrev).preds 4 5) (by decide)
  have h1 : CGraph.Reach (RaFn.succs fn) 0 1 := Cfg.Reach.one (by decide)
  have hr : ∀ b < 5, CGraph.Reach (RaFn.succs fn) 0 b := by
    intro b hb
    match b with
    | 0 => exact Cfg.Reach.refl _
    | 1 => exact h1
    | 2 => exact Cfg.Reach.trans h1 (Cfg.Reach.one (by decide))
    | 3 => exact Cfg.Reach.trans h1 (Cfg.Reach.one (by decide))
    | 4 => exact Cfg.Reach.trans (Cfg.Reach.trans h1 (Cfg.Reach.one (by decide : 3 ∈ RaFn.succs fn 1))) (Cfg.Reach.one (by decide))
  have hlt : ∀ b, CGraph.Reach (RaFn.succs fn) 0 b → b < 5 := by
    intro b h
    have : b ∈ [0, 1, 2, 3, 4] := reach_within (by decide) (by decide) h
    simp at this
    omega
  obtain ⟨L, h2, h3⟩ := C53_compiled_exact_partial (fCompiled 0 (fun _ => 0) (fun _ _ _ _ _ => False)) (prev := fnPrev)
    (vars := [0, 1, 2, 3, 4, 5, 6, 7]) (n := 5) (rpo := _) (order := _) (by
      intro a b hb
      have hb : b < 5 := hlt b hb
      show b ∈ fnPrev a ↔ a ∈ RaFn.succs fn b
      by_cases ha : a < 5
      · have : ∀ a < 5, ∀ b < 5, (b ∈ fnPrev a ↔ a ∈ RaFn.succs fn b) := by decide
        exact this a ha b hb
      · have h0 : fnPrev a = [] := by
          match a, ha with
          | a + 5, _ => rfl
        have : ∀ b < 5, ∀ a ∈ RaFn.succs fn b, a < 5 := by decide
        rw [h0]
        exact ⟨(fun h => by cases h), fun h => absurd (this b hb a h) ha⟩) e1 (by
      rintro b x ⟨_, _, _, d, _, ⟨⟨xs, i, ys, hi, hu, _⟩, _⟩, _⟩
      have hm : i ∈ (RaSource.liveFn vars fn [1] 0 fnPrev).insns d := by
        have : (RaSource.liveFn vars fn [1] 0 fnPrev).insns d = xs ++ i :: ys := hi
        rw [this]; simp
      have key : ∀ d < 5, ∀ i ∈ (RaSource.liveFn vars fn [1] 0 fnPrev).insns d, (∀ x ∈ i.rs1, x ∈ [0, 1, 2, 3, 4, 5, 6, 7]) ∧
          ∀ x ∈ i.rs2, x ∈ [0, 1, 2, 3, 4, 5, 6, 7] := by decide
      by_cases hd : d < 5
      · rcases hu with hu | hu
        · exact (key d hd i hm).1 x hu
        · exact (key d hd i hm).2 x hu
      · exfalso
        match d, hd with
        | d + 5, _ => exact absurd hm (by show i ∉ ([] : List _); simp))
  exact ⟨_, _, L, e1, h2, fun b hb => h3 b (hr b hb)⟩

/-! ### `main` -/

def mInsn : Nat → Insn
  | 0 => { op := .push, rs1 := some 0, sz := 1 }
  | 1 => { op := .call, str := "f" }
  | 2 => { op := .func_ret, rd := some 7 }
  | _ => { op := .ret, rs1 := some 7 }

def mBlocks : Nat → List Nat
  | 0 => [0, 1, 2, 3]
  | _ => []

def mPrev : Nat → List Nat
  | 0 => []
  | 1 => [0]
  | 2 => []
  | b + 3 => [b + 2]

def mOrder : List Nat := [0, 1]

def mF : RegAlloc.Fn where
  block := fun b => match b with
    | 0 => { next := some 1 }
    | 1 => {}
    | b => { next := some (b + 1) }
  insns := fun b => (mBlocks b).map mInsn
  rpo := fun b => b
  fnExit := 1

def mDce : Dce.Fn where
  insn := mInsn
  blocks := mBlocks
  blk := fun _ => 0
  rdf := fun _ => []
  lastAssign := lastAssignOf mInsn (mOrder.flatMap mBlocks)
  isGlobal := vars.isGlobal

theorem mNumbered : CProg.Numbered mOrder mFn.g mSsa.2 mEnc mF where
  inj := mEnc_inj
  insns := by decide +kernel
  next := by decide +kernel
  then_ := by
    have : ∀ b ∈ mOrder, (mFn.g.block b).then_ = none := by decide +kernel
    intro b hb c hc
    rw [this b hb] at hc; cases hc
  else_ := by
    have : ∀ b ∈ mOrder, (mFn.g.block b).else_ = none := by decide +kernel
    intro b hb c hc
    rw [this b hb] at hc; cases hc
  exit := rfl

theorem mNamed_cases {Q : Nat → Ins SsaBuild.Name → Prop} (h : ∀ i ∈ mNamed 0, Q 0 i) : ∀ b, ∀ i ∈ mNamed b, Q b i := by
  intro b i hi
  match b with
  | 0 => exact h i hi
  | b + 1 => cases hi

theorem mAttached (da : Word) (bv : BitVec 8 → Word) (os : IrM.Os) :
    CProg.Attached mSsa.2 mEnc (src da bv os).isGlobal cf.initVal (src da bv os).gaddr mSrc := by
  rw [mNamed_eq]
  have occ : ∀ x, CProg.Occurs mNamed x → x ∈ [(0, none), (1, some 0)] := by
    rintro x ⟨b, i, hi, hx⟩
    have : ∀ b, ∀ i ∈ mNamed b, ∀ x ∈ i.rd.toList ++ i.rs1.toList ++ i.rs2.toList, x ∈ [(0, none), (1, some 0)] := by
      apply mNamed_cases; decide
    refine this b i hi x ?_
    simp only [List.mem_append, Option.mem_toList]
    rcases hx with h | h | h <;> simp [h]
  have noconst : ∀ b, ∀ i ∈ mNamed b, i.op ≠ .load_constant ∧ i.op ≠ .load_data_address := by
    apply mNamed_cases; decide
  refine ⟨?_, ?_⟩
  · intro b i hi ho
    exact absurd ho (by simp [noconst b i hi])
  · intro x hx
    have : ∀ x ∈ [(0, none), ((1, some 0) : SsaBuild.Name)], vars.isGlobal (mEnc x) = mSrc.isGlobal x.1 := by decide
    exact ⟨this x (occ x hx), fun _ => rfl⟩

theorem mNoRead : ∀ b, ∀ i ∈ mF.insns b, i.op ≠ .read := by
  intro b i hi
  match b with
  | 0 => revert i; decide
  | b + 1 => cases hi

def mOpt : (Nat → List Insn) × ConstFold.CF :=
  match Optimize.optFn vars.isGlobal (fun _ => 0) 10 mOrder mF.insns cf with
  | .ok r => r
  | .crash => (fun _ => [], cf)

theorem mOptimized : Optimize.optFn vars.isGlobal (fun _ => 0) 10 mOrder mF.insns cf = .ok (mOpt.1, mOpt.2) := rfl

def mRpo : (Nat → Nat) × List Nat := ((Cfg.buildRpo (RaSource.cfgOf mF 0 mPrev).preds 1 2).getD (fun _ => 0, []))

def mRIdom : Nat → Option Nat :=
  (Cfg.buildIdom mRpo.1 (backSuccs (RaSource.cfgOf mF 0 mPrev)) 1 mRpo.2.tail 5 4).getD fun _ => none

def mSt : Dce.St := (dceMark mDce 2048 100 mOrder dceInit).getD dceInit

theorem mEdges (a b : Nat) : b ∈ succs mF a ↔ a ∈ mPrev b := by
  match a with
  | 0 | 1 =>
    match b with
    | 0 | 1 | 2 => decide
    | b + 3 => simp [succs, mF, mPrev]
  | a + 2 =>
    match b with
    | 0 | 1 | 2 => simp [succs, mF, mPrev]
    | b + 3 =>
      simp only [succs, mF, mPrev, List.mem_singleton]
      constructor
      · intro h; simp at h; omega
      · intro h; simp; omega

theorem mPrepared : Prepared mF 0 mPrev [0, 1] mDce mRIdom mOrder where
  exit := by decide
  closed := by decide
  edges := mEdges
  layout := ⟨2, ((Cfg.buildRpo (RaSource.cfgOf mF 0 mPrev).succs 0 2).getD (fun _ => 0, [])).1, by
    have h := some_getD (d := (fun _ => 0, [])) (o := Cfg.buildRpo (RaSource.cfgOf mF 0 mPrev).succs 0 2) (by decide)
    have ho : ((Cfg.buildRpo (RaSource.cfgOf mF 0 mPrev).succs 0 2).getD (fun _ => 0, [])).2 = mOrder := by decide
    rw [h, Option.getD_some, ← ho]⟩
  post := by
    have e1 := some_getD (d := (fun _ => 0, [])) (o := Cfg.buildRpo (RaSource.cfgOf mF 0 mPrev).preds 1 2) (by decide)
    have e2 := some_getD (d := fun _ => none)
      (o := Cfg.buildIdom mRpo.1 (backSuccs (RaSource.cfgOf mF 0 mPrev)) 1 mRpo.2.tail 5 4) (by decide)
    have ho : mRpo.2 = [1, 0] := by decide
    refine ⟨mRpo.1, [0], [], ?_, ?_, by decide, ?_⟩
    · have : mRpo = (mRpo.1, [1, 0]) := by rw [← ho]
      show _ = some (mRpo.1, [1, 0])
      rw [← this]
      exact e1
    · rw [ho] at e2
      exact e2
    · intro b c
      simp [mDce]

theorem mListed : CProg.Listed mF vars.isGlobal mDce mOrder where
  insns := fun _ => rfl
  own := by
    intro b i hi
    match b, hi with
    | 0, _ => rfl
    | b + 1, hi => cases hi
  nodup := by decide
  rest := by
    intro i h hi
    match i, h, hi with
    | 0, _, hi | 1, _, hi => revert hi; decide
    | 2, h, _ => exact h 0 (by decide) (by decide)
    | _ + 3, _, hi => cases hi
  last := rfl
  global_ := rfl

theorem mMarked : dceMark mDce 2048 100 mOrder dceInit = some mSt := some_getD (by decide)

theorem mJoined : Joined mF mDce mSt (fun b => (mRIdom b).getD 0) 6 mOrder := by
  have : ∀ b ∈ mOrder, branchRemoved mDce mSt b = false := by decide
  intro b hb hr
  rw [this b hb] at hr
  cases hr

theorem mSwept : CProg.SameCode (· + 10) (sweepFn mDce mSt (fun b => (mRIdom b).getD 0) 6 mF) mainFn where
  inj := fun b c h => by simpa using h
  insns := by
    intro b
    match b with
    | 0 | 1 => decide
    | b + 2 => rfl
  next := by
    intro b
    match b with
    | 0 | 1 => decide
    | b + 2 => rfl
  branch := by
    intro b i hi ho
    match b with
    | 0 =>
      have : ∀ i ∈ (sweepFn mDce mSt (fun b => (mRIdom b).getD 0) 6 mF).insns 0, i.op ≠ .branch := by decide
      exact absurd ho (this i hi)
    | b + 1 => cases hi
  exit := rfl

def mStages : Stages where
  P := mPS
  fn := mFn
  steps := 60
  S := mSsa.1
  out := mSsa.2
  enc := mEnc
  F0 := mF
  cf := cf
  idom := fun _ => 0
  depth := 10
  order := mOrder
  code1 := mOpt.1
  F1 := mF
  cf' := mOpt.2
  prev := mPrev
  univ := [0, 1]
  d := mDce
  rIdom := mRIdom
  cap := 2048
  rounds := 100
  st0 := dceInit
  st := mSt
  far := 6
  place := (· + 10)

def mRpo0 : (Nat → Nat) × List Nat := (Cfg.buildRpo (succs mF) 0 2).getD (fun _ => 0, [])

theorem mCompiled (da : Word) (bv : BitVec 8 → Word) (os : IrM.Os) : CProg.Compiled (src da bv os) mSrc srcMain mStages where
  body := mOk
  lowered := mLowered
  holds := ⟨rfl, rfl, rfl, rfl⟩
  params := ⟨rfl, by decide, fun _ h => by cases h⟩
  isGlobal := rfl
  flows := mFlows
  funcs := fun _ _ _ _ _ => rfl
  scopes := mScoped
  taken := by
    have : ∀ b, ∀ i ∈ mFn.code b, i.op ≠ .address_of := mAll (by decide +kernel)
    intro b i hi ho
    exact absurd ho (this b i hi)
  locals := by
    have : ∀ b, ∀ i ∈ mFn.code b, i.op ≠ .allocat := mAll (by decide +kernel)
    intro b i hi ho
    exact absurd ho (this b i hi)
  keeps := by
    have : ∀ b, ∀ i ∈ mFn.code b, i.op ≠ .write := mAll (by decide +kernel)
    intro b i hi ho
    exact absurd ho (this b i hi)
  temps := by
    have : ∀ b, ∀ i ∈ mFn.code b, ∀ v, i.rd = some v → mSrc.isGlobal v = false := mAll (by decide +kernel)
    intro b i hi _ v hv
    exact this b i hi v hv
  calls := by
    intro b
    have : ∀ b < 2, callSeq none (mFn.code b) = true := by decide +kernel
    match b with
    | 0 | 1 => exact @callSeq_part _ [] (by first | exact this 0 (by decide) | exact this 1 (by decide))
    | b + 2 =>
      intro xs i ys h
      replace h : [] = xs ++ i :: ys := h
      simp at h
  fetches := by
    have : ∀ b, ∀ i ∈ mFn.code b, i.op = .func_ret → i.rs1 = none ∧ i.rs2 = none := mAll (by decide +kernel)
    exact this
  steps := by decide +kernel
  ssa := mSsa_eq
  numbered := mNumbered
  attached := mAttached da bv os
  allocs := by
    intro sp b i hi ho
    have : ∀ b, ∀ i ∈ mNamed b, i.op ≠ .allocat := by apply mNamed_cases; decide
    rw [← mNamed_eq] at this
    exact absurd ho (this b i hi)
  dominators := by
    have e1 := some_getD (d := (fun _ => 0, [])) (o := Cfg.buildRpo (succs mF) 0 2) (by decide)
    have e2 := some_getD (d := fun _ => none) (o := Cfg.buildIdom mRpo0.1 mPrev 0 mRpo0.2.tail 5 4) (by decide)
    have ho : mRpo0.2 = [0, 1] := by decide
    refine ⟨mRpo0.1, [1], (Cfg.buildIdom mRpo0.1 mPrev 0 mRpo0.2.tail 5 4).getD fun _ => none, ?_, ?_, by decide⟩
    · have : mRpo0 = (mRpo0.1, [0, 1]) := by rw [← ho]
      show _ = some (mRpo0.1, [0, 1])
      rw [← this]
      exact e1
    · exact e2
  repeats := fun C s _ => unchanged_noRead mNoRead C s
  fresh := fun _ => rfl
  optimized := mOptimized
  graph := ⟨by decide, rfl, rfl⟩
  prepared := mPrepared
  listed := mListed
  preds := by decide +kernel
  unmarked := ⟨fun _ => rfl, fun _ => rfl, rfl⟩
  marked := mMarked
  joined := mJoined
  swept := mSwept
  consts := rfl
  entry := rfl
  numbers := rfl
  void := rfl

/-! ### The program, and what it does -/

/-- The functions as they are written. -/
def code (g : String) : Option SFn := if g = "f" then some fSrc else if g = "main" then some mSrc else none

theorem compiled (da : Word) (bv : BitVec 8 → Word) (os : IrM.Os) : ∀ g f sf, g ≠ "__syscall" → (src da bv os).fn g = some f → code g = some sf →
    ∃ st, CProg.Compiled (src da bv os) sf f st := by
  intro g f sf _ hf hs
  simp only [src] at hf
  unfold code at hs
  split at hf
  · rename_i h
    rw [if_pos h] at hs
    cases hf; cases hs
    exact ⟨_, fCompiled da bv os⟩
  · rename_i h
    rw [if_neg h] at hs
    split at hf
    · rename_i h
      rw [if_pos h] at hs
      cases hf; cases hs
      exact ⟨_, mCompiled da bv os⟩
    · cases hf

theorem f_zero (C : Ctx) (al : Nat → String → Word) (keep : Word → Prop) (μ : Mem) :
    ∃ e', execs (CProg.mach C al keep) fSrc.home 1 fBody ((⟨μ, [], none, none, []⟩ : World), fun _ => (0#32 : Word)) =
      .ok .ret ((⟨μ, [], none, some (some 0#32), []⟩ : World), e') := by
  simp [fBody, seqS, execs, exec, test, truth, eval, evals, CRename.run, CRename.step, CRename.rd, CRename.wr, CRename.arg1, leaf, Expr.res, SFn.home, fSrc,
    Res.andThen, Res.ofOpt, CProg.mach, CProg.act, CRename.Ins.tag, constIns, retIns]

theorem f_succ (C : Ctx) (al : Nat → String → Word) (keep : Word → Prop) (μ : Mem) (x y : Word) (hx : x ≠ 0#32) (hc : C.call "f" [x - 1#32] μ μ (some y)) :
    ∃ e', execs (CProg.mach C al keep) fSrc.home 1 fBody ((⟨μ, [], none, none, [(μ, some y)]⟩ : World), fun _ => x) =
      .ok .ret ((⟨μ, [], some y, some (some (x + y)), []⟩ : World), e') := by
  simp [fBody, seqS, execs, exec, test, truth, eval, evals, CRename.run, CRename.step, CRename.rd, CRename.wr, CRename.arg1, leaf, Expr.res, SFn.home, fSrc,
    Res.andThen, Res.ofOpt, CProg.mach, CProg.act, CRename.Ins.tag, constIns, retIns, hx, hc, binOf, CArith.bin]

theorem m_run (C : Ctx) (al : Nat → String → Word) (keep : Word → Prop) (μ : Mem) (y : Word) (hc : C.call "f" [load32 μ 0xffffc#32] μ μ (some y)) :
    ∃ e', execs (CProg.mach C al keep) mSrc.home 1 mBody ((⟨μ, [], none, none, [(μ, some y)]⟩ : World), fun _ => (0#32 : Word)) =
      .ok .ret ((⟨μ, [], some y, some (some y), []⟩ : World), e') := by
  simp [mBody, seqS, execs, exec, test, truth, eval, evals, CRename.run, CRename.step, CRename.rd, CRename.wr, CRename.arg1, leaf, Expr.res, SFn.home, mSrc,
    Res.andThen, Res.ofOpt, CProg.mach, CProg.act, CRename.Ins.tag, retIns, hc]

open Shecc.RegAlloc (num) in
open SsaProg (inside hiddenIn stackBelow) in
/-- `f` computes the sum `n + (n - 1) + … + 1`, if the stack is deep enough. -/
theorem callF (da : Word) (bv : BitVec 8 → Word) (os : IrM.Os) : ∀ (n : Nat) (hid : Word → Prop) (sp : Word) (m : Mem),
    n < 2 ^ 32 → 0x1000 + 24 + 16 * n ≤ sp.toNat →
    CProg.Call (src da bv os) code (n + 1) hid sp "f" [BitVec.ofNat 32 n] m m (some (total n)) := by
  intro n
  induction n with
  | zero =>
    intro hid sp m _ hr
    rw [CProg.Call]
    refine ⟨fun _ _ => rfl, ?_⟩
    rw [if_neg (by decide)]
    refine ⟨srcF, fSrc, rfl, rfl, rfl, by show 0x1000 + 12 + 12 ≤ _; omega, fun μ hμ => ?_⟩
    obtain ⟨e', he⟩ := f_zero (SsaProg.ctx (src da bv os) srcF (inside srcF sp) (hiddenIn srcF (inside srcF sp) hid)
      (CProg.Call (src da bv os) code 0 (hiddenIn srcF (inside srcF sp) hid) (inside srcF sp))) (fSrc.alloc (inside srcF sp)) fSrc.keep μ
    refine ⟨_, _, _, _, _, _, ?_, he, Or.inl ?_, hμ⟩ <;> rfl
  | succ n ih =>
    intro hid sp m hn hr
    rw [CProg.Call]
    refine ⟨fun _ _ => rfl, ?_⟩
    rw [if_neg (by decide)]
    refine ⟨srcF, fSrc, rfl, rfl, rfl, by show 0x1000 + 12 + 12 ≤ _; omega, fun μ hμ => ?_⟩
    have hz : BitVec.ofNat 32 (n + 1) ≠ 0#32 := by
      intro e
      have := congrArg BitVec.toNat e
      simp only [BitVec.toNat_ofNat, Nat.mod_eq_of_lt hn] at this
      omega
    have hsub : BitVec.ofNat 32 (n + 1) - 1#32 = BitVec.ofNat 32 n := by
      apply BitVec.eq_of_toNat_eq
      simp only [BitVec.toNat_sub, BitVec.toNat_ofNat]
      omega
    have hsp : (inside srcF sp).toNat = sp.toNat - 16 := by
      show (sp - 16#32).toNat = _
      rw [BitVec.toNat_sub]
      simp only [BitVec.toNat_ofNat]
      have := sp.isLt
      omega
    have hc := ih (hiddenIn srcF (inside srcF sp) hid) (inside srcF sp) μ (by omega) (by rw [hsp]; omega)
    rw [← hsub] at hc
    obtain ⟨e', he⟩ := f_succ (SsaProg.ctx (src da bv os) srcF (inside srcF sp) (hiddenIn srcF (inside srcF sp) hid)
      (CProg.Call (src da bv os) code (n + 1) (hiddenIn srcF (inside srcF sp) hid) (inside srcF sp))) (fSrc.alloc (inside srcF sp)) fSrc.keep μ _ _ hz hc
    refine ⟨_, _, _, _, _, _, ?_, he, Or.inl ?_, hμ⟩ <;> rfl

theorem five_thousand : total 100 = 5050#32 := by decide +kernel

open Shecc.RegAlloc (num) in
open SsaProg (inside hiddenIn stackBelow) in
set_option maxRecDepth 4000 in
/-- The program, executed statement by statement, exits with 5050, whatever memory it is started in. -/
theorem exits (da : Word) (bv : BitVec 8 → Word) (os : IrM.Os) (m : Mem) :
    ∃ m', CProg.Exits vars (fun _ => .word) ds gRes sp0 (src da bv os) code m m' (some 5050#32) := by
  have hg : sp0 - num gRes.stack + num (gRes.offset 0) = 0xffffc#32 := by rw [gFrame.1, gFrame.2]; rfl
  have hl : load32 (store32 m 0xffffc#32 100#32) 0xffffc#32 = 100#32 := load32_same _ _ _
  refine ⟨store32 m 0xffffc#32 100#32, store32 m 0xffffc#32 100#32, 102, mSrc, ⟨?_, ?_⟩, rfl, ?_⟩
  · intro d hd x hx
    obtain rfl := List.mem_singleton.1 hd
    cases hx
    rw [hg]
    exact hl
  · intro b hb
    have := hb _ (List.mem_singleton.2 rfl) (by simp [CGlobals.initial])
    rw [hg] at this
    exact store32_ne _ _ (fun k hk => this k hk)
  · rw [CProg.Call]
    refine ⟨fun _ _ => rfl, ?_⟩
    rw [if_neg (by decide)]
    refine ⟨srcMain, mSrc, rfl, rfl, rfl, by rw [gFrame.1]; show 0x1000 + 4 + 12 ≤ (sp0 - 8#32).toNat; decide, fun μ hμ => ?_⟩
    have hv : load32 μ 0xffffc#32 = BitVec.ofNat 32 100 := by
      rw [show BitVec.ofNat 32 100 = 100#32 from rfl, ← hl]
      apply load32_congr
      intro k hk
      refine hμ _ ?_
      intro h
      have h := h.2
      have e : (sp0 - num gRes.stack).toNat = 0xffff8 := by rw [gFrame.1]; rfl
      rw [e] at h
      rcases (by omega : k = 0 ∨ k = 1 ∨ k = 2 ∨ k = 3) with rfl | rfl | rfl | rfl <;> revert h <;> decide
    obtain ⟨e', he⟩ := m_run (SsaProg.ctx (src da bv os) srcMain (inside srcMain (sp0 - num gRes.stack)) (hiddenIn srcMain (inside srcMain (sp0 - num gRes.stack)) (stackBelow (src da bv os) (sp0 - num gRes.stack)))
       (CProg.Call (src da bv os) code 101 (hiddenIn srcMain (inside srcMain (sp0 - num gRes.stack)) (stackBelow (src da bv os) (sp0 - num gRes.stack))) (inside srcMain (sp0 - num gRes.stack))))
       (mSrc.alloc (inside srcMain (sp0 - num gRes.stack))) mSrc.keep μ 5050#32 (by
         rw [hv]
         exact five_thousand ▸ callF da bv os 100 _ _ μ (by decide) (by decide))
    refine ⟨_, _, _, _, _, _, ?_, he, Or.inl ?_, hμ⟩ <;> rfl

/-- The hypotheses of `C95_rv_partial` hold: compiled from its statements, the program exits with 5050. -/
theorem C95_example_rv : ∃ F img, compile Riscv.target false (Peep.prog prog) = some (F, img) ∧ ∀ (c : RV32.Code), RV32.CodeAt c codeBase img →
    ∀ (os : IrM.Os) (t : RV32.State), t.pc = codeBase → t.get 2#5 = sp0 →
    ∃ u, RV32.SysReaches c os t u ∧ RV32.step c u = .ecall u ∧ u.get 17#5 = 93#32 ∧ u.get 10#5 = 5050#32 := by
  have hc : (compile Riscv.target false (Peep.prog prog)).isSome = true := by decide +kernel
  obtain ⟨⟨F, img⟩, hc⟩ := Option.isSome_iff_exists.1 hc
  refine ⟨F, img, hc, fun c hci os t hpc hsp => ?_⟩
  obtain ⟨m', hx⟩ := exits (codeBase + BitVec.ofNat 32 (4 * img.length)) (fun b => b.signExtend 32) os t.mem
  rw [← hsp] at hx
  have W := whole (codeBase + BitVec.ofNat 32 (4 * img.length)) (fun b => b.signExtend 32) os
  rw [← hsp] at W
  obtain ⟨u, h1, h2, h3, h4, _⟩ := C95_rv_partial false prog F img hc distinct c hci t hpc _ _ _ _ _ W rfl rfl code (compiled _ _ _) m' _ hx
  exact ⟨u, h1, h2, h3, h4 _ rfl⟩

theorem C95_example_arm : ∃ F img, compile Arm.target false (Peep.prog prog) = some (F, img) ∧ ∀ (c : ARM.Code), ARM.CodeAt c codeBase img →
    ∀ (os : IrM.Os) (t : ARM.State), t.pc = codeBase → t.get 13#4 = sp0 →
    ∃ u, ARM.SysReaches c os t u ∧ ARM.step c u = .svc u ∧ u.get 7#4 = 1#32 ∧ u.get 0#4 = 5050#32 := by
  have hc : (compile Arm.target false (Peep.prog prog)).isSome = true := by decide +kernel
  obtain ⟨⟨F, img⟩, hc⟩ := Option.isSome_iff_exists.1 hc
  refine ⟨F, img, hc, fun c hci os t hpc hsp => ?_⟩
  obtain ⟨m', hx⟩ := exits (codeBase + BitVec.ofNat 32 (4 * img.length)) (fun b => b.setWidth 32) os t.mem
  rw [← hsp] at hx
  have W := whole (codeBase + BitVec.ofNat 32 (4 * img.length)) (fun b => b.setWidth 32) os
  rw [← hsp] at W
  obtain ⟨u, h1, h2, h3, h4, _⟩ := C95_arm_partial false prog F img hc distinct armOk c hci t hpc _ _ _ _ _ W rfl rfl code (compiled _ _ _) m' _ hx
  exact ⟨u, h1, h2, h3, h4 _ rfl⟩

end Shecc.Props.CProgExample
