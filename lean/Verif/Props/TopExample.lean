import Verif.Props.Top

/-!
# C99: an example, and where the parser differs from C
-/

namespace Shecc.Props.TopExample
open Shecc CTypes CEval CSyntax CArith CBody CUnit
open Shecc.Top (Tab program)

/-- What the names mean in a function with these parameters and local variables. -/
def unitOf (base : Nat) (D : Decls) (ps : List Named) (loc : List Declr) : CBody.Unit where
  E := D.E
  const := D.const
  fn := D.fn
  macro_ := fun _ => false
  globals := frame 0 D.globals
  params := frame D.globals.length ps
  decl := fun i => ((D.globals.map (·.2) ++ ps.map (·.2) ++ loc)[i]?).getD { spec := .name "int", name := "" }
  base := base

theorem inside {base : Nat} {D : Decls} {ps : List Named} {loc : List Declr} (h : D.globals.length + ps.length ≤ base) :
    Inside base D ps (unitOf base D ps loc) where
  E := rfl
  const := rfl
  fn := rfl
  macro_ := rfl
  globals := rfl
  params := rfl
  decl := fun i e hi => by
    have hl : i < (D.globals.map (·.2) ++ ps.map (·.2)).length := by
      have := (List.getElem?_eq_some_iff.1 hi).1
      simpa using this
    show ((D.globals.map (·.2) ++ ps.map (·.2) ++ loc)[i]?).getD _ = e.2
    rw [List.getElem?_append_left hl, ← List.map_append, List.getElem?_map, hi]
    rfl
  room := h
  below := rfl

def source : String :=
  "typedef enum { A, B = 5, C } color; typedef struct { int x; char *s; } point; point q; int a[3]; int g = 1 + 2 * 3 ? 'x' : 0; int k = 1 << 4; int f(int n); int f(int n) { return n + g; }"

def items : List (String × Option Int) := [("A", none), ("B", some 5), ("C", none)]
def fields : List Declr := [{ spec := .name "int", name := "x" }, { spec := .name "char", ptrs := 1, name := "s" }]
def n_ : Named := ("n".toList, { spec := .name "int", name := "n" })
def q_ : Named := ("q".toList, { spec := .name "point", name := "q" })
def a_ : Named := ("a".toList, { spec := .name "int", form := .array 3, name := "a" })
def g_ : Named := ("g".toList, { spec := .name "int", name := "g" })
def k_ : Named := ("k".toList, { spec := .name "int", name := "k" })

def D1 : Decls := { Decls.init with
  types := [.typedefEnum items "color"]
  E := Env.init.name "color" .int
  consts := [("A", 0#32), ("B", 5#32), ("C", 6#32)] }
def pointOf : List (String × T) := [("x", .int), ("s", .ptr .char)]
def D2 : Decls := { D1 with
  types := [.typedefEnum items "color", .typedefStruct none (some fields) "point"]
  E := (D1.E.define (.anon "point") pointOf).name "point" (.struct (.anon "point")) }
def D3 : Decls := { D2 with globals := [q_] }
def D4 : Decls := { D2 with globals := [q_, a_] }
def D5 : Decls := { D2 with globals := [q_, a_, g_] }
def D6 : Decls := { D2 with globals := [q_, a_, g_, k_] }
def D7 : Decls := { D6 with fns := D6.fns ++ [("f".toList, .int)] }
def D8 : Decls := { D7 with bodies := ["f".toList] }

def fU : CBody.Unit := unitOf 5 D7 [n_] []
def fBody : CBody.Stmts := .cons (.ret (some (.cond (.one (.one (.bin .add (.lval (.var 4)) (.lval (.var 2)))))))) .nil
def fDef : FnDef := ⟨"f".toList, [n_], fU, 5, fBody, .int⟩
def tops : List CUnit.Top :=
  [.type (.typedefEnum items "color"), .type (.typedefStruct none (some fields) "point"), .var q_ none, .var a_ none, .var g_ (some 0x78#32),
    .var k_ (some 16#32), .proto "f".toList, .fn fDef]

theorem free2 : D2.Free "q".toList := ⟨by decide, by decide, by decide, by decide⟩
theorem free3 : D3.Free "a".toList := ⟨by decide, by decide, by decide, by decide⟩
theorem free4 : D4.Free "g".toList := ⟨by decide, by decide, by decide, by decide⟩
theorem free5 : D5.Free "k".toList := ⟨by decide, by decide, by decide, by decide⟩
theorem free6 : D6.Free "f".toList := ⟨by decide, by decide, by decide, by decide⟩

theorem enumFree (s : List Char) (h : String.ofList s ∈ ["A", "B", "C"]) : Decls.init.Free s := by
  have e : s = "A".toList ∨ s = "B".toList ∨ s = "C".toList := by
    simp only [List.mem_cons, List.not_mem_nil, or_false] at h
    rcases h with h | h | h
    · exact .inl (by rw [← h, String.toList_ofList])
    · exact .inr (.inl (by rw [← h, String.toList_ofList]))
    · exact .inr (.inr (by rw [← h, String.toList_ofList]))
  rcases e with rfl | rfl | rfl
  all_goals exact ⟨by decide, by decide, by decide, by decide⟩

theorem head : ∃ th, WHead D6 "f".toList .int [n_] th ∧ WHead D7 "f".toList .int [n_] th ∧
    th = [(.identifier, "int".toList), (.identifier, "f".toList), p .open_bracket, (.identifier, "int".toList), (.identifier, "n".toList), p .close_bracket] := by
  have hp : ∀ D : Decls, D.E = D6.E → WParams D.E [n_] _ := fun D h => .some (.one (.mk (ty := "int".toList) (.var (n := 0) (s := "n".toList) (f := .plain) .plain) (t := .int) (by rw [h]; decide) (.inl rfl)))
  have h1 : WHead D6 "f".toList .int [n_] _ := .mk (ty := "int".toList) (n := 0) (u := .int) (by decide) rfl (.inr (.inl rfl)) (hp D6 rfl) (by decide) (.inl free6)
  have h2 : WHead D7 "f".toList .int [n_] _ := .mk (ty := "int".toList) (n := 0) (u := .int) (by decide) rfl (.inr (.inl rfl)) (hp D7 rfl) (by decide) (.inr (by decide))
  exact ⟨_, h1, h2, rfl⟩

theorem written : ∃ ts, ts ++ [(.eof, [])] = toks source ∧ WProgram 5 tops ts D8 := by
  have h1 : WTop 5 Decls.init (.type (.typedefEnum items "color")) _ D1 :=
    .type (.enum (cs := items) (x := "color".toList) (.more (.next (s := ['A'])) (.more (.val (s := ['B']) (l := .dec ['5']) ⟨by decide, by decide, by decide⟩ (by decide)) (.last (.next (s := ['C']))))))
      (fun h => by revert h; decide) (.enum (by decide)) (by decide) (fun s hs => enumFree s hs)
  have h2 : WTop 5 D1 (.type (.typedefStruct none (some fields) "point")) _ D2 :=
    .type (.untagged (ds := fields) (x := "point".toList)
        (.more (.name (s := "int".toList)) (.var (n := 0) (s := ['x']) (f := .plain) .plain) (.last (.name (s := "char".toList)) (.var (n := 1) (s := ['s']) (f := .plain) .plain))))
      ⟨by decide, by decide⟩ (.untagged rfl ⟨rfl, by decide, by decide, fun x hx => by
        rcases List.mem_cons.1 hx with rfl | hx
        · exact ⟨_, .int⟩
        · obtain rfl := List.mem_singleton.1 hx; exact ⟨_, .ptr _⟩⟩ (by decide)) (by decide) (fun s hs => by cases hs)
  have h3 : WTop 5 D2 (.var q_ none) _ D3 :=
    .var (ty := "point".toList) (.var (n := 0) (s := "q".toList) (f := .plain) .plain) (fun h => by cases h) (t := .struct (.anon "point")) (by decide)
      (.struct (fs := pointOf) rfl (.cons .int (.cons (.ptr _) .nil))) free2 .none
  have h4 : WTop 5 D3 (.var a_ none) _ D4 :=
    .var (ty := "int".toList) (.var (n := 0) (s := "a".toList) (f := .array 3) (.array (l := .dec ['3']) ⟨by decide, by decide, by decide⟩ (by decide))) (fun h => by cases h) (t := .arr 3 .int) (by decide)
      (.arr (by decide) .int) free3 .none
  have leaf : ∀ v : CArith.Word, CExpr.Parses (.leaf v) v [] := fun v => ⟨rfl, rfl, trivial⟩
  have c0 : WConst 0x78#32 [(.char, ['x'])] := .expr (.one (.pos (.chr (c := 'x') (by decide)))) (.inl (fun _ h => by cases h)) (leaf _) (.leaf _)
  have c1 : WConst 0#32 [(.numeric, ['0'])] := .expr (.one (.pos (.num (l := .oct []) (fun _ h => by cases h) (by decide)))) (.inl (fun _ h => by cases h)) (leaf _) (.leaf _)
  have c2 : WConst 7#32 _ :=
    .expr (a := 1#32) (l := [(.add, 2#32), (.mul, 3#32)]) (t := .node .add (.leaf 1#32) (.node .mul (.leaf 2#32) (.leaf 3#32)))
      (.more (op := .add) (.pos (.num (l := .dec ['1']) ⟨by decide, by decide, by decide⟩ (by decide)))
        (.more (op := .mul) (.pos (.num (l := .dec ['2']) ⟨by decide, by decide, by decide⟩ (by decide)))
          (.one (.pos (.num (l := .dec ['3']) ⟨by decide, by decide, by decide⟩ (by decide))))))
      (.inl (by decide)) ⟨rfl, rfl, by simp [CExpr.Tree.Grouped, CExpr.Tree.root?, CExpr.prec]⟩
      (.node (o := .add) rfl (by decide) (fun h => by cases h) (fun h => by cases h) (.leaf _)
        (.node (o := .mul) (v := 6#32) rfl (by decide) (fun h => by cases h) (fun h => by cases h) (.leaf _) (.leaf _) (by decide)) (by decide))
  have h5 : WTop 5 D4 (.var g_ (some 0x78#32)) _ D5 :=
    .var (ty := "int".toList) (.var (n := 0) (s := "g".toList) (f := .plain) .plain) (fun h => by cases h) (t := .int) (by decide) .int free4
      (.some rfl (.then_ c2 (by decide) c0 (.expr c1)))
  have c3 : WConst 16#32 _ :=
    .expr (a := 1#32) (l := [(.lshift, 4#32)]) (t := .node .lshift (.leaf 1#32) (.leaf 4#32))
      (.more (op := .lshift) (.pos (.num (l := .dec ['1']) ⟨by decide, by decide, by decide⟩ (by decide)))
          (.one (.pos (.num (l := .dec ['4']) ⟨by decide, by decide, by decide⟩ (by decide)))))
      (.inr (by decide)) ⟨rfl, rfl, by simp [CExpr.Tree.Grouped, CExpr.Tree.root?, CExpr.prec]⟩
      (.node (o := .shl) rfl (by decide) (fun h => by cases h) (fun h => by cases h) (.leaf _) (.leaf _) (by decide))
  have h6 : WTop 5 D5 (.var k_ (some 16#32)) _ D6 :=
    .var (ty := "int".toList) (.var (n := 0) (s := "k".toList) (f := .plain) .plain) (fun h => by cases h) (t := .int) (by decide) .int free5
      (.some rfl (.expr c3))
  obtain ⟨th, hh6, hh7, rfl⟩ := head
  have h7 : WTop 5 D6 (.proto "f".toList) _ D7 := .proto hh6
  have hb : WItems fU [[]] 5 fBody _ 5 [] [] :=
    .stmt (.ret (.cond (.one (.bin (o := .add) (by decide) rfl
      (.op (.lval (.var (s := "n".toList) (by decide) (by decide) (t := .int) (by decide) .int) .int))
      (.op (.lval (.var (s := "g".toList) (by decide) (by decide) (t := .int) (by decide) .int) .int)) ⟨rfl, rfl⟩ (fun _ => rfl)) trivial))) .nil
  have h8 : WTop 5 D7 (.fn fDef) _ D8 := .fn hh7 (by decide) (inside (by decide)) hb
  exact ⟨_, by decide +kernel, .cons h1 (.cons h2 (.cons h3 (.cons h4 (.cons h5 (.cons h6 (.cons h7 (.cons h8 .nil))))))), fun h => by cases h⟩

theorem apart : D8.E.Apart := by
  intro x t _ h
  cases h

theorem noAlias : NoStructAlias D8.types D8.E := by
  intro b x h
  rcases List.mem_cons.1 h with h | h
  · cases h
  · cases List.mem_singleton.1 h

/-- The hypotheses of `C99_program_partial` hold for this text, and this is what the parser makes of it. -/
theorem C99_example : ∃ n tab, program 5 n (toks source) = some tab ∧ Types.findConstant tab.consts "C" = some 6#32 ∧
    tab.globals = [(q_, none), (a_, none), (g_, some 0x78#32), (k_, some 16#32)] ∧ ∃ d, tab.defs = [d] ∧ d.name = "f".toList ∧ Does fDef d.body := by
  obtain ⟨ts, h1, h2⟩ := written
  obtain ⟨tab, ⟨n, h3⟩, _, _, h4, _, _, h5, h6, h7⟩ := C99_program_partial h2 apart noAlias
  refine ⟨n, tab, by rw [← h1]; exact h3, ?_, h5, ?_⟩
  · exact (h4 "C".toList).trans (by decide)
  · match hd : tab.defs, h6 with
    | [d], _ =>
      obtain ⟨h8, _, h9⟩ := h7 0 fDef d rfl (by rw [hd]; rfl)
      exact ⟨d, rfl, h8, h9⟩

/-! ### Where the parser differs from C -/

theorem void_toks : toks "int f(void) { return 0; }" = [(.identifier, "int".toList), (.identifier, "f".toList), p .open_bracket, (.identifier, "void".toList),
    p .close_bracket, p .open_curly, kw .return_ "return", (.numeric, "0".toList), p .semicolon, p .close_curly, (.eof, [])] := by decide +kernel

theorem tag_toks : toks "struct s { int x; }; struct s g;" = [kw .struct "struct", (.identifier, "s".toList), p .open_curly, (.identifier, "int".toList),
    (.identifier, "x".toList), p .semicolon, p .close_curly, p .semicolon, kw .struct "struct", (.identifier, "s".toList), (.identifier, "g".toList),
    p .semicolon, (.eof, [])] := by decide +kernel

theorem enum_toks : toks "typedef enum { A, B, } e;" = [kw .typedef "typedef", kw .enum "enum", p .open_curly, (.identifier, "A".toList), p .comma,
    (.identifier, "B".toList), p .comma, p .close_curly, (.identifier, "e".toList), p .semicolon, (.eof, [])] := by decide +kernel

theorem ternary_toks : toks "int g = 1 ? 1 ? 2 : 3 : 4;" = [(.identifier, "int".toList), (.identifier, "g".toList), p .assign, (.numeric, "1".toList),
    p .question, (.numeric, "1".toList), p .question, (.numeric, "2".toList), p .colon, (.numeric, "3".toList), p .colon, (.numeric, "4".toList), p .semicolon,
    (.eof, [])] := by decide +kernel

theorem pointer_toks : toks "int (*g)(int);" = [(.identifier, "int".toList), p .open_bracket, p .asterisk, (.identifier, "g".toList), p .close_bracket, p .open_bracket,
    (.identifier, "int".toList), p .close_bracket, p .semicolon, (.eof, [])] := by decide +kernel

theorem comma_toks : toks "int f(int a int b);" = [(.identifier, "int".toList), (.identifier, "f".toList), p .open_bracket, (.identifier, "int".toList),
    (.identifier, "a".toList), (.identifier, "int".toList), (.identifier, "b".toList), p .close_bracket, p .semicolon, (.eof, [])] := by decide +kernel

/-- C99 fails for all programs: these are C programs, and are not accepted: a parameter list `(void)`, a global variable of type `struct s`, an
enumeration with a comma at the end, `?:` between `?` and `:` in an initial value, a global pointer to a function. -/
theorem C99_rejected_wrong (n : Nat) : program 5 n (toks "int f(void) { return 0; }") = none ∧ program 5 n (toks "struct s { int x; }; struct s g;") = none ∧
    program 5 n (toks "typedef enum { A, B, } e;") = none ∧ program 5 n (toks "int g = 1 ? 1 ? 2 : 3 : 4;") = none ∧
    program 5 n (toks "int (*g)(int);") = none := by
  rw [void_toks, tag_toks, enum_toks, ternary_toks, pointer_toks]
  refine ⟨?_, ?_, ?_, ?_, ?_⟩
  all_goals exact never (k := 10) (fun n => by cbv) n

/-- And this is no C program, but is accepted: a comma is missing. -/
theorem C99_accepted_wrong : ∃ tab, program 5 10 (toks "int f(int a int b);") = some tab ∧ tab.funcs = ["__syscall".toList, "f".toList] := by
  rw [comma_toks]
  exact ⟨{ Top.init with funcs := ["__syscall".toList, "f".toList] }, by cbv, rfl⟩

end Shecc.Props.TopExample
