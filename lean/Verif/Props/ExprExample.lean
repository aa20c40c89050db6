import Verif.Props.ExprGen
import Verif.Props.Types
import Verif.Props.Lexer

/-!
# C79-C81: the hypotheses are met; what is false

A machine on which everything can be computed: memory at address `a` holds `1000 a + k` when `k` bytes are read, address 0 must not be used, variable `x` is at address `500 + x`,
and the world is a list of what was written and pushed.
-/

namespace Shecc.Props
open CTypes CEval CSyntax CArith SsaSem
open Shecc.ExprGen
open Shecc.Ssa (Insn Op1)

def toyM : Mach where
  World := List Word
  mem := fun _ => false
  get := fun _ _ => 0
  set := fun w _ _ => w
  load := fun k _ a => if a = 0 then none else some (a * 1000 + BitVec.ofNat 32 k)
  addrOf := fun x => BitVec.ofNat 32 (500 + x)
  dataAddr := 9000
  ext := fun i a b w =>
    match i.op with
    | .push => some (w ++ [a.getD 0], 0)
    | .call => some (w, 0)
    | .indirect => some (w ++ [a.getD 0], 0)
    | .func_ret => some ([], w.foldl (· + ·) 0)
    | .write => if a = some 0 then none else some (w ++ [a.getD 0, b.getD 0, BitVec.ofNat 32 i.sz], 0)
    | _ => none

def toyLang : Lang toyM where
  call := fun _ vs (w : List Word) => some ([], (w ++ vs).foldl (· + ·) 0)
  icall := fun f vs (w : List Word) => some ([], (w ++ vs ++ [f]).foldl (· + ·) 0)
  store := fun k (w : List Word) a v => if a = 0 then none else some (w ++ [a, v, BitVec.ofNat 32 k])

theorem toy_pushes (vs w : List Word) : List.foldl (fun w v => w ++ [v]) w vs = w ++ vs := by
  induction vs generalizing w with
  | nil => simp
  | cons v vs ih => simp [ih]

def toyLinked : Linked toyM toyLang where
  push := fun (w : List Word) v => w ++ [v]
  push_get := fun _ _ _ => rfl
  push_ok := fun _ _ _ _ => ⟨0, rfl⟩
  call_ok := by
    intro f vs w w2 v h
    simp only [toyLang, Option.some.injEq, Prod.mk.injEq] at h
    obtain ⟨rfl, rfl⟩ := h
    exact ⟨List.append w vs, 0, congrArg (fun x : List Word => some (x, (0 : Word))) (toy_pushes vs w), fun _ => rfl⟩
  icall_ok := by
    intro a vs w w2 v h
    simp only [toyLang, Option.some.injEq, Prod.mk.injEq] at h
    obtain ⟨rfl, rfl⟩ := h
    exact ⟨List.append (List.append w vs) [a], 0, fun _ => congrArg (fun x : List Word => some (x ++ [a], (0 : Word))) (toy_pushes vs w), fun _ => rfl⟩
  write_ok := by
    intro x y k a v w w' h
    simp only [toyLang] at h
    split at h
    · cases h
    · rename_i ha
      cases h
      refine ⟨0, ?_⟩
      simp only [toyM, Option.some.injEq, if_neg ha, Option.getD_some]

/-- The values of the variables. -/
def toyVars (x : Nat) : Word := BitVec.ofNat 32 (100 + 10 * x)

/-- The scope in which the declared variables are numbered in order. -/
def toyScope (E : Env) (vs : List Declr) (cs : List (String × Word)) : Scope where
  E := E
  const := fun s => (cs.find? fun c => c.1.toList = s).map (·.2)
  var := fun s => vs.findIdx? fun d => d.name.toList = s
  decl := fun x => vs.getD x { spec := .name "int", name := "" }
  fn := fun s => if s = "f".toList then some .int else none

/-- The tokens of a text. -/
def text (s : String) : List Tk := (Lex.lexAll plainEnv 60 s.toList).getD []

def constsOf (g : G) (x : Nat) : Word := ((g.consts.find? fun c => c.1 = x).map (·.2)).getD 0

/-- The value of the compiled expression, and the world afterwards. -/
def value (T : Types.Table) (S : Scope) (s : String) : Option (Word × List Word) :=
  (expr (names T S) 60 (text s) { next := 50 }).bind fun q =>
    match q.1.stack with
    | [r] => (run toyM (constsOf q.1) q.1.code ([], toyVars)).map fun s => (rdVar toyM s r, s.1)
    | _ => none

/-- What the compiled assignment writes, and the value of variable `y` afterwards. -/
def effect (T : Types.Table) (S : Scope) (y : Nat) (s : String) : Option (List Word × Word) :=
  match text s with
  | (_, x) :: ts =>
    (assignment (names T S) 60 x ts { next := 50 }).bind fun q =>
      (run toyM (constsOf q.1) q.1.code ([], toyVars)).map fun s => (s.1, rdVar toyM s y)
  | _ => none

/-! ### The hypotheses are met -/

def exTable : Types.Table := (Types.declares Types.builtin exDecls).getD []

/-- `Node *n; int arr[5]; int i; char *q; List l;` and the constant `B`. -/
def exScope : Scope :=
  toyScope exEnv [{ spec := .name "Node", ptrs := 1, name := "n" }, { spec := .name "int", form := .array 5, name := "arr" },
    { spec := .name "int", name := "i" }, { spec := .name "char", ptrs := 1, name := "q" }, { spec := .name "List", name := "l" }] [("B", 5)]

/-- `n->val * B + f(l.head.next, "hi") - *(q + i)`. -/
def exExpr : Ex :=
  .bin .sub (.bin .add (.bin .mul (.lval (.arrow (.var 0) "val")) (.num 5))
    (.call "f".toList (.cons (.lval (.dot (.dot (.var 4) "head") "next")) (.cons (.str 0) .nil))))
    (.deref (.var 3) (.cons (.lval (.var 2)) .nil))

def exTypes : List CTypes.T := [.ptr (.struct (.tag "Node")), .arr 5 .int, .int, .ptr .char, .struct (.anon "List")]

theorem exType (x : Nat) (t : CTypes.T) (h : exTypes[x]? = some t) : (exScope.decl x).type exScope.E = some t := by
  match x, h with
  | 0, h => cases h; decide
  | 1, h => cases h; decide
  | 2, h => cases h; decide
  | 3, h => cases h; decide
  | 4, h => cases h; decide
  | n + 5, h => cases h

theorem exList_size : HasSize exEnv (.struct (.anon "List")) 27 :=
  .struct (fs := exList) (by decide) (.cons (k := 11) (m := 16) (.struct (fs := exNode) (by decide) exNode_extent) (.cons (k := 4) (m := 12) .int
    (.cons (k := 8) (m := 4) (.arr (k := 4) (by decide) (.ptr _)) (.cons (k := 4) (m := 0) (.ptr _) .nil))))

theorem exVal : MemberAt exEnv 0 exNode "val" 0 .int := .here
theorem exNext : MemberAt exEnv 0 exNode "next" 4 (.ptr (.struct (.tag "Node"))) := .there (k := 4) (by decide) .int .here
theorem exHead : MemberAt exEnv 0 exList "head" 0 (.struct (.tag "Node")) := .here

theorem exN (d : List Char) : WLv exScope (.var 0) (.ptr (.struct (.tag "Node"))) [(.identifier, "n".toList)] d d :=
  .var (by decide) (by decide) (exType 0 _ rfl) (.ptr _)
theorem exArr (d : List Char) : WLv exScope (.var 1) (.arr 5 .int) [(.identifier, "arr".toList)] d d :=
  .var (by decide) (by decide) (exType 1 _ rfl) (.arr (by decide) .int)
theorem exI (d : List Char) : WLv exScope (.var 2) .int [(.identifier, "i".toList)] d d := .var (by decide) (by decide) (exType 2 _ rfl) .int
theorem exQ (d : List Char) : WLv exScope (.var 3) (.ptr .char) [(.identifier, "q".toList)] d d := .var (by decide) (by decide) (exType 3 _ rfl) (.ptr _)
theorem exL (d : List Char) : WLv exScope (.var 4) (.struct (.anon "List")) [(.identifier, "l".toList)] d d :=
  .var (by decide) (by decide) (exType 4 _ rfl) exList_size

theorem exNVal (d : List Char) : WLv exScope (.arrow (.var 0) "val") .int ([(.identifier, "n".toList)] ++ [p .arrow, (.identifier, "val".toList)]) d d :=
  .arrow (fs := exNode) (exN d) (.ptr _) (by decide) exVal (fun h => by cases h)
theorem exLNext (d : List Char) : WLv exScope (.dot (.dot (.var 4) "head") "next") (.ptr (.struct (.tag "Node")))
    ([(.identifier, "l".toList)] ++ [p .dot, (.identifier, "head".toList)] ++ [p .dot, (.identifier, "next".toList)]) d d :=
  .dot (fs := exNode) (.dot (fs := exList) (exL d) (by decide) exHead) (by decide) exNext

theorem exArgs : WArgs exScope (.cons (.lval (.dot (.dot (.var 4) "head") "next")) (.cons (.str 0) .nil))
    (([(.identifier, "l".toList)] ++ [p .dot, (.identifier, "head".toList)] ++ [p .dot, (.identifier, "next".toList)]) ++
      p .comma :: ([(.string, "hi".toList)] ++ [p .close_bracket])) [] "hi\x00".toList :=
  .cons (.op (.lval (exLNext []) (.ptr _))) (.last (.op (.str (d := []) (by decide)))) rfl

theorem exCall : WOp exScope (.call "f".toList (.cons (.lval (.dot (.dot (.var 4) "head") "next")) (.cons (.str 0) .nil))) .int
    (text "f(l.head.next, \"hi\")").dropLast false [] "hi\x00".toList :=
  .call (by decide) (by decide) (by decide) exArgs

theorem exExpr_written : ∃ fl, WEx exScope 0 exExpr .int ((text "n->val * B + f(l.head.next, \"hi\") - *(q + i)").dropLast) fl [] "hi\x00".toList :=
  ⟨_, .bin (o := .sub) (by decide) rfl
    (.bin (o := .add) (by decide) rfl (.bin (o := .mul) (by decide) rfl (.op (.lval (exNVal []) .int)) (.op (.const (by decide))) ⟨rfl, rfl⟩ (fun h => by cases h))
      (.op exCall) ⟨rfl, rfl⟩ (fun _ => rfl))
    (.op (.derefSum (k := 1) (exQ _) (.ptr _) trivial .char .char rfl (fun h => by cases h)
      (.cons (.lval (exI _) .int) .nil (fun h => by cases h)) (Or.inr rfl) (Or.inl ⟨_, rfl⟩))) ⟨rfl, rfl⟩ (fun h => by cases h)⟩

theorem exVars : ∀ s x, exScope.var s = some x → x < 5 := by
  intro s x h
  have := List.findIdx?_eq_some_iff_findIdx_eq.1 h
  exact this.1

theorem exTable_ok : Types.declares Types.builtin exDecls = some exTable := by
  obtain ⟨T, h, _⟩ := C76_sizeof_partial exProgram exApart exNoAlias
  unfold exTable
  rw [h]
  rfl

/-- On every machine the expression has a value whenever the call returns; on the machine above it has this one. -/
theorem exExpr_value : EvEx toyLang exEnv exScope.decl toyVars [] exExpr [] (.val 0x000bb42f) := by
  have hn : EvEx toyLang exEnv exScope.decl toyVars [] (.lval (.arrow (.var 0) "val")) [] (.val 100004) :=
    .lmem (k := 4) (.arrow (fs := exNode) (.var (exType 0 _ rfl)) .var (by decide) exVal) trivial .int rfl
  have hl : EvEx toyLang exEnv exScope.decl toyVars [] (.lval (.dot (.dot (.var 4) "head") "next")) [] (.val 508004) :=
    .lmem (k := 4) (.dot (fs := exNode) (.dot (fs := exList) (.var (exType 4 _ rfl)) (by decide) exHead) (by decide) exNext) trivial (.ptr _) rfl
  have hq : EvEx toyLang exEnv exScope.decl toyVars [] (.deref (.var 3) (.cons (.lval (.var 2)) .nil)) [] (.val 250001) :=
    .deref (k := 1) (.var (exType 3 _ rfl)) .var trivial .char (.cons (.lvar (.var (exType 2 _ rfl)) trivial) .nil) rfl
  exact .bin (.bin (.bin hn .num rfl) (.call (.cons hl (.cons .str .nil)) rfl) rfl) hq rfl

example : (∃ fl, WEx exScope 0 exExpr .int ((text "n->val * B + f(l.head.next, \"hi\") - *(q + i)").dropLast) fl [] "hi\x00".toList) ∧
    EvEx toyLang exEnv exScope.decl toyVars [] exExpr [] (.val 0x000bb42f) ∧
    (Types.declares Types.builtin exDecls = some exTable ∧ ∀ s x, exScope.var s = some x → x < 5) ∧ Nonempty (Linked toyM toyLang) ∧
    strings exExpr = [0] ∧ Ends (text ";") :=
  ⟨exExpr_written, exExpr_value, ⟨exTable_ok, exVars⟩, ⟨toyLinked⟩, rfl, .semicolon, [], [(.eof, [])], by decide, by decide⟩

/-- What the model computes on it. -/
example : value exTable exScope "n->val * B + f(l.head.next, \"hi\") - *(q + i);" = some (0x000bb42f, []) := by decide +kernel

/-- `arr[i + 1] += n->val`. -/
example : WAsg exScope (.op .add (.index (.var 1) (.bin .add (.lval (.var 2)) (.num 1))) (.lval (.arrow (.var 0) "val")))
      (text "arr[i + 1] += n->val").dropLast false [] [] ∧
    EvAsg toyLang exEnv exScope.decl toyVars [] (.op .add (.index (.var 1) (.bin .add (.lval (.var 2)) (.num 1))) (.lval (.arrow (.var 0) "val")))
      ([594, 594004 + 100004, 4], toyVars) ∧
    effect exTable exScope 2 "arr[i + 1] += n->val;" = some ([594, 594004 + 100004, 4], 120) := by
  refine ⟨?_, ?_, by decide +kernel⟩
  · have hl : WLv exScope (.index (.var 1) (.bin .add (.lval (.var 2)) (.num 1))) .int
        ([(.identifier, "arr".toList)] ++ p .open_square :: ([(.identifier, "i".toList)] ++ p .plus :: [(.numeric, "1".toList)]) ++ [p .close_square]) [] [] :=
      .index (k := 4) (exArr []) (.arr _ _) (.bin (o := .add) (by decide) rfl (.op (.lval (exI _) .int))
        (.op (.num (l := .dec ['1']) ⟨by decide, by decide, by decide⟩)) ⟨rfl, rfl⟩ (fun _ => rfl)) .int (fun h => by cases h)
    refine WAsg.op (o := .add) (k := .pluseq) (t := .int) (i := 1) rfl hl (.op (.lval (exNVal []) .int)) trivial ?_ (.other (by simp)) (fun h => by cases h)
    · refine ⟨by simp, ?_⟩
      intro l' e h
      cases h
      exact ⟨5, .var (exType 1 _ rfl)⟩
  · have hi : EvEx toyLang exEnv exScope.decl toyVars [] (.bin .add (.lval (.var 2)) (.num 1)) [] (.val 121) :=
      .bin (.lvar (.var (exType 2 _ rfl)) trivial) .num rfl
    exact EvAsg.op (M := toyM) (w2 := []) (k := 4) (i := 1) (pl := .mem 594) (v := 694008) (.index (k := 4) (.var (exType 1 _ rfl)) .arrVar hi .int) (.mem rfl)
      (.lmem (k := 4) (.arrow (fs := exNode) (.var (exType 0 _ rfl)) .var (by decide) exVal) trivial .int rfl) .int (.other (by simp)) rfl rfl

/-! ### What is false -/

/-- `int *p; int a[5]; int i; char **pp; char *aa[9]; char c; int (*g)();` -/
def wScope : Scope :=
  toyScope Env.init [{ spec := .name "int", ptrs := 1, name := "p" }, { spec := .name "int", form := .array 5, name := "a" },
    { spec := .name "int", name := "i" }, { spec := .name "char", ptrs := 2, name := "pp" },
    { spec := .name "char", ptrs := 1, form := .array 9, name := "aa" }, { spec := .name "char", name := "c" },
    { spec := .name "int", form := .func, name := "g" }] []

def wTypes : List CTypes.T := [.ptr .int, .arr 5 .int, .int, .ptr (.ptr .char), .arr 9 (.ptr .char), .char, .ptr .fn]

theorem wType (x : Nat) (t : CTypes.T) (h : wTypes[x]? = some t) : (wScope.decl x).type Env.init = some t := by
  match x, h with
  | 0, h => cases h; decide
  | 1, h => cases h; decide
  | 2, h => cases h; decide
  | 3, h => cases h; decide
  | 4, h => cases h; decide
  | 5, h => cases h; decide
  | 6, h => cases h; decide
  | n + 7, h => cases h

/-- The value of an expression in C, and the value of the compiled text. -/
def Values (e : Ex) (s : String) (v v' : Word) : Prop :=
  (∃ r, EvEx toyLang Env.init wScope.decl toyVars [] e [] r ∧ r.use (M := toyM) toyVars [] = v) ∧ value Types.builtin wScope s = some (v', []) ∧ v ≠ v'

/-- The state after an assignment in C (what is written, and the variable `y`), and after the compiled text. -/
def Effects (a : Asg) (y : Nat) (s : String) (w : List Word) (v : Word) (w' : List Word) (v' : Word) : Prop :=
  (∃ s', EvAsg toyLang Env.init wScope.decl toyVars [] a s' ∧ s'.1 = w ∧ rdVar toyM s' y = v) ∧
    effect Types.builtin wScope y s = some (w', v') ∧ (w, v) ≠ (w', v')

theorem wI : EvEx toyLang Env.init wScope.decl toyVars [] (.lval (.var 2)) [] (.var 2) := .lvar (.var (wType 2 _ rfl)) trivial
theorem wAi : EvEx toyLang Env.init wScope.decl toyVars [] (.lval (.index (.var 1) (.lval (.var 2)))) [] (.val 590004) :=
  .lmem (k := 4) (.index (k := 4) (.var (wType 1 _ rfl)) .arrVar wI .int) trivial .int rfl

/-- `*p + 1` is compiled as `*(p + 1)`. -/
theorem C79_deref_plus : Values (.bin .add (.deref (.var 0) .nil) (.num 1)) "*p + 1;" 100005 104004 :=
  ⟨⟨_, .bin (.deref (k := 4) (.var (wType 0 _ rfl)) .var trivial .int .nil rfl) .num rfl, rfl⟩, by decide +kernel, by decide⟩

/-- `a[i] + 1` adds the size of an element. -/
theorem C79_element_plus : Values (.bin .add (.lval (.index (.var 1) (.lval (.var 2)))) (.num 1)) "a[i] + 1;" 590005 590008 :=
  ⟨⟨_, .bin wAi .num rfl, rfl⟩, by decide +kernel, by decide⟩

/-- `i * a[i] + 1` is compiled as a product of `i` and a sum. -/
theorem C79_times_element_plus :
    Values (.bin .add (.bin .mul (.lval (.var 2)) (.lval (.index (.var 1) (.lval (.var 2))))) (.num 1)) "i * a[i] + 1;" 70800481 70800960 :=
  ⟨⟨_, .bin (.bin wI wAi rfl) .num rfl, rfl⟩, by decide +kernel, by decide⟩

/-- `p + i * 4` is compiled as `(p + i) * 4`. -/
theorem C79_pointer_plus_product : Values (.padd (.var 0) (.cons (.bin .mul (.lval (.var 2)) (.num 4)) .nil)) "p + i * 4;" 2020 2320 :=
  ⟨⟨_, .padd (k := 4) (.var (wType 0 _ rfl)) .var .int (.cons (.bin wI .num rfl) .nil), rfl⟩, by decide +kernel, by decide⟩

/-- To a pointer to pointers, `pp + 1` adds 1. -/
theorem C79_pointer_pointer_plus : Values (.padd (.var 3) (.cons (.num 1) .nil)) "pp + 1;" 134 131 :=
  ⟨⟨_, .padd (k := 4) (.var (wType 3 _ rfl)) .var (.ptr _) (.cons .num .nil), rfl⟩, by decide +kernel, by decide⟩

/-- `pp[i][i]` is 4 bytes at distance `4 * i`, not a character at distance `i`; so is `aa[i][i]`. -/
theorem C79_element_element :
    Values (.lval (.index (.index (.var 3) (.lval (.var 2))) (.lval (.var 2)))) "pp[i][i];" 610124001 610484004 ∧
    Values (.lval (.index (.index (.var 4) (.lval (.var 2))) (.lval (.var 2)))) "aa[i][i];" 620124001 620484004 :=
  ⟨⟨⟨_, .lmem (k := 1) (.index (k := 1) (.index (k := 4) (.var (wType 3 _ rfl)) .var wI (.ptr _)) (.mem rfl) wI .char) trivial .char rfl, rfl⟩,
      by decide +kernel, by decide⟩,
    ⟨⟨_, .lmem (k := 1) (.index (k := 1) (.index (k := 4) (.var (wType 4 _ rfl)) .arrVar wI (.ptr _)) (.mem rfl) wI .char) trivial .char rfl, rfl⟩,
      by decide +kernel, by decide⟩⟩

/-- `*aa` reads one byte of a pointer. -/
theorem C79_deref_array : Values (.deref (.var 4) .nil) "*aa;" 140004 140001 :=
  ⟨⟨_, .deref (k := 4) (.var (wType 4 _ rfl)) .arrVar trivial (.ptr _) .nil rfl, rfl⟩, by decide +kernel, by decide⟩

/-- `&a` is not the address of the first element. -/
theorem C79_address_of_array : Values (.addr (.var 1)) "&a;" 110 501 :=
  ⟨⟨_, .addrArr (.var (wType 1 _ rfl)), rfl⟩, by decide +kernel, by decide⟩

/-- `p - i` does not count elements: it is not `p - i * 4` on addresses. -/
theorem C79_pointer_minus : Values (.bin .sub (.lval (.var 0)) (.bin .mul (.lval (.var 2)) (.num 4))) "p - i;" (-380) (-20) :=
  ⟨⟨_, .bin (.lvar (.var (wType 0 _ rfl)) trivial) (.bin wI .num rfl) rfl, rfl⟩, by decide +kernel, by decide⟩

/-- The minus sign of `-(i)` is ignored. -/
theorem C79_minus_parenthesis : Values (.un .neg (.lval (.var 2))) "-(i);" (-120) 120 :=
  ⟨⟨_, .un wI, rfl⟩, by decide +kernel, by decide⟩

/-- `l.head.next + i + i` reads memory after the first addition. -/
theorem C79_member_sum :
    EvEx toyLang exEnv exScope.decl toyVars [] (.padd (.dot (.dot (.var 4) "head") "next") (.cons (.lval (.var 2)) (.cons (.lval (.var 2)) .nil))) []
      (.val 510644) ∧
    value exTable exScope "l.head.next + i + i;" = some (509325331, []) := by
  refine ⟨?_, by decide +kernel⟩
  exact .padd (k := 11) (.dot (fs := exNode) (.dot (fs := exList) (.var (exType 4 _ rfl)) (by decide) exHead) (by decide) exNext) (.mem rfl)
    (.struct (fs := exNode) (by decide) exNode_extent)
    (.cons (.lvar (.var (exType 2 _ rfl)) trivial) (.cons (.lvar (.var (exType 2 _ rfl)) trivial) .nil))

/-- An enumeration constant hides a variable of the same name. -/
theorem C79_constant_hides : wScope.var "i".toList = some 2 ∧ value Types.builtin { wScope with const := fun s => if s = "i".toList then some 7 else none } "i;" = some (7, []) ∧
    toyVars 2 = 120 := by decide +kernel

/-- `p[i] += 2` adds 8 to the element and `p[i]++` adds 4. -/
theorem C80_element_of_pointer :
    Effects (.op .add (.index (.var 0) (.lval (.var 2))) (.num 2)) 0 "p[i] += 2;" [580, 580006, 4] 100 [580, 580012, 4] 100 ∧
    Effects (.incr (.index (.var 0) (.lval (.var 2)))) 0 "p[i]++;" [580, 580005, 4] 100 [580, 580008, 4] 100 :=
  ⟨⟨⟨_, .op (k := 4) (i := 1) (.index (k := 4) (.var (wType 0 _ rfl)) .var wI .int) (.mem rfl) .num .int (.other (by simp)) rfl rfl, rfl, rfl⟩, by decide +kernel, by decide⟩,
    ⟨⟨_, .incr (k := 4) (i := 1) (.index (k := 4) (.var (wType 0 _ rfl)) .var wI .int) (.mem rfl) .int (.other (by simp)) rfl, rfl, rfl⟩, by decide +kernel, by decide⟩⟩

/-- `pp += 2` adds 2 to a pointer to pointers. -/
theorem C80_pointer_pointer : Effects (.op .add (.var 3) (.num 2)) 3 "pp += 2;" [] 138 [] 132 :=
  ⟨⟨_, .op (k := 4) (i := 4) (.var (wType 3 _ rfl)) .var .num (.ptr _) (.ptr (.ptr _)) rfl rfl, rfl, rfl⟩, by decide +kernel, by decide⟩

/-- The value of a character variable is not converted. -/
theorem C80_character : Effects (.set (.var 5) (.num 300)) 5 "c = 300;" [] 44 [] 300 :=
  ⟨⟨_, .set (k := 1) (.var (wType 5 _ rfl)) .num .char rfl, rfl, rfl⟩, by decide +kernel, by decide⟩

/-- An assignment to a pointer to a function writes through it and leaves it unchanged. -/
theorem C80_function_pointer : Effects (.set (.var 6) (.lval (.var 2))) 6 "g = i;" [] 120 [160, 120, 4] 160 :=
  ⟨⟨_, .set (k := 4) (.var (wType 6 _ rfl)) wI (.ptr _) rfl, rfl, rfl⟩, by decide +kernel, by decide⟩

end Shecc.Props
