import Verif.Lemmas.Macro

/-!
# C89: function-like macros
-/

namespace Shecc.Props
open CMacro Shecc.Macro
open Shecc.Parser (POp)

/-- Reading starts with the token at position `i`. -/
def startAt (src : List MT) (i : Nat) : S := tokenAt src i { pos := i, next := .eof }

theorem startAt_at {src : List MT} {i : Nat} {t : MT} {l : List MT} (h : src.drop i = t :: l) : At src (startAt src i) (t :: l) := by
  refine ⟨rfl, rfl, l, by rw [startAt, tokenAt]; simp only [getD_drop h], ?_⟩
  simp only [startAt, tokenAt, Option.isSome_none, Bool.false_eq_true, if_false]
  rw [skipEols_drop, drop_succ h]
  exact dropE_idem l

theorem startAt_toks {src : List MT} {i : Nat} {o : List MT} (hne : o ≠ []) {u : MT} {post : List MT} (h : src.drop i = o ++ u :: post) :
    At src (startAt src i) (o ++ u :: post) := by
  cases o with
  | nil => exact (hne rfl).elim
  | cons t l => exact startAt_at h

/-- An expression `p` in which every macro call is the last operand of the expression or bracket it stands in, is defined on one line as a
bracket around an expression in which parameters occur in brackets, and gets arguments that name none of its parameters and no macro: it is
read as the text is that C's preprocessor would make of it, `p.expand`, wherever that stands. `u` is what follows. -/
theorem C89_macro_text_partial {src : List MT} {defs : List Def} {i : Nat} {p : Phr} {u : MT} {post : List MT}
    (hsrc : src.drop i = p.toks ++ u :: post) (hok : p.Ok src defs) (hsg : p.Signed) (hu : u ≠ .eol) (hop : ∀ o, u ≠ .op o) :
    ∃ (e : Ex) (s' : S) (N : Nat), s'.next = u ∧ s'.ret = none ∧ s'.cur = none ∧
      (∀ n, N ≤ n → readExpr src defs n (startAt src i) = some (e, s')) ∧
      ∀ (src2 : List MT) (j : Nat) (u2 : MT) (post2 : List MT), src2.drop j = p.expand src defs ++ u2 :: post2 → u2 ≠ .eol → (∀ o, u2 ≠ .op o) →
        ∃ (s2 : S) (N2 : Nat), s2.next = u2 ∧ ∀ n, N2 ≤ n → readExpr src2 [] n (startAt src2 j) = some (e, s2) := by
  have hno : ∀ {w : MT}, (∀ o, w ≠ .op o) → notOp w := fun {w} h => by cases w <;> first | trivial | exact (h _ rfl).elim
  obtain ⟨p', e, s', N, a1, a2, a3, a4, a5, a6⟩ := read_expr2 p hok hsg (startAt_toks p.toks_ne hsrc) hu (hno hop)
  obtain ⟨b1, b2, l', b3, _⟩ := a5
  injection b3 with b3 _
  refine ⟨e, s', N, b3.symm, b1, b2, a6, fun src2 j u2 post2 h hu2 hop2 => ?_⟩
  rw [← a1] at h
  obtain ⟨e2, s2, N2, c1, c2, c3⟩ := read_plain p' a2 a3 (startAt_toks p'.toks_ne h) hu2 (hno hop2)
  rw [a4] at c1
  cases c1
  exact ⟨s2, N2, c2, c3⟩

/-- What a call means wherever it stands: the body **and all that follows the call** up to the end of the expression (`rest`) are read as one
operand, and the arguments in it as bracketed expressions. -/
theorem C89_call_takes_rest {src : List MT} {defs : List Def} {i : Nat} {P : List (Opd × POp)} {m : String} {d : Def} {args : List Arg}
    {body rest : List MT} {F : Phr} {u : MT} {post l0 : List MT}
    (hsrc : src.drop i = preToks P ++ Opd.toks (.call m args) ++ rest ++ u :: post)
    (hP : ∀ x ∈ P, x.1.endsInCall = false ∧ x.1.Ok src defs ∧ x.1.Signed ∧ x.1.expand src defs = x.1.toks)
    (hm : findMacro defs m = some d) (hb : src.drop d.start = body ++ .eol :: l0) (hbne : body ≠ [])
    (hF : F.toks = body ++ rest) (hcall : F.Plain) (hsgF : F.Signed) (hFm : F.NoMacro defs)
    (hlen : args.length = d.params.length) (hsg : ∀ a ∈ args, a.Signed)
    (hid : ∀ a ∈ args, ∀ v ∈ a.ids, findMacro defs v = none ∧ v ∉ d.params)
    (hu : u ≠ .eol) (hop : ∀ o, u ≠ .op o) :
    ∃ (e : Ex) (s' : S) (N : Nat), s'.next = u ∧ (∀ n, N ≤ n → readExpr src defs n (startAt src i) = some (e, s')) ∧
      ∀ (src2 : List MT) (j : Nat) (u2 : MT) (post2 : List MT),
        src2.drop j = preToks P ++ .lpar :: ((body ++ rest).flatMap (placeP d.params (args.map Arg.toks)) ++ .rpar :: u2 :: post2) →
        u2 ≠ .eol → (∀ o, u2 ≠ .op o) →
        ∃ (s2 : S) (N2 : Nat), s2.next = u2 ∧ ∀ n, N2 ≤ n → readExpr src2 [] n (startAt src2 j) = some (e, s2) := by
  have hno : ∀ {w : MT}, (∀ o, w ≠ .op o) → notOp w := fun {w} h => by cases w <;> first | trivial | exact (h _ rfl).elim
  have hcl := F.clean
  rw [hF] at hcl
  have hbc : Clean body := fun h => hcl (by simp [h])
  have hrc : Clean rest := fun h => hcl (by simp [h])
  obtain ⟨i1, i2, i3, i4⟩ := phr_pinst hlen hsg F hcall hsgF
  obtain ⟨x, hx⟩ := Phr.items_some (sig d args) F hcall
  obtain ⟨e, he⟩ := Parser_infix x
  have hTc : Clean (Opd.toks (.call m args) ++ rest) := by
    intro h
    rcases List.mem_append.1 h with h | h
    · exact Opd.clean _ h
    · exact hrc h
  obtain ⟨p', y, s', N, a1, a2, a3, a4, a5, a6⟩ := read_pre (src := src) (defs := defs) (K := .par (F.pinst (argOf d args))) (e := e)
    (T := Opd.toks (.call m args) ++ rest) (u := u) (post := post) (by simp [Opd.toks_ne]) hTc (hno hop)
    ⟨by rw [Opd.Plain]; exact i3, by rw [Opd.Signed]; exact i4, by rw [Opd.ex, i1, hx]; exact he⟩
    (by
      intro s hat
      obtain ⟨hr, hc, l', hl1, hl2⟩ := hat
      simp only [Opd.toks, List.cons_append, List.append_assoc, List.nil_append] at hl1
      injection hl1 with hl1 hl3
      subst hl3
      rw [dropE_cons (by simp)] at hl2
      obtain ⟨s', N, e', c1, c2, c3, c4, c5, c6⟩ := call_reads hr hc hl1.symm hm hl2 hrc hu (hno hop) hb hbne hbc hF hcall hsgF hlen hsg hid
        (fun v hv => hFm v (F.ids_toks v hv))
      rw [Phr.ex, hx] at c1
      have : e = e' := by
        have c1' : Shecc.Parser.infixExpr mk x.1 x.2 = some e' := c1
        rw [he] at c1'
        exact Option.some.inj c1'
      subst this
      exact ⟨s', N, c4, c6⟩)
    P (s := startAt src i) (fun x hx => ⟨(hP x hx).1, (hP x hx).2.1, (hP x hx).2.2.1⟩) (by
      have h : src.drop i = (preToks P ++ (Opd.toks (.call m args) ++ rest)) ++ u :: post := by rw [hsrc]; simp only [List.append_assoc]
      have := startAt_toks (by simp [Opd.toks_ne]) h
      simpa only [List.append_assoc] using this)
  obtain ⟨e2, he2⟩ := Parser_infix y
  refine ⟨e2, s', N + 1, a5, fun n hn => ?_, fun src2 j u2 post2 h hu2 hop2 => ?_⟩
  · obtain ⟨n, rfl⟩ : ∃ k, n = k + 1 := ⟨n - 1, by omega⟩
    obtain ⟨s1, g1, g2⟩ := a6 n (by omega)
    simp only [readExpr, g1, g2, Option.bind_some, he2, Option.map_some]
  · have hpre : preExp src defs P = preToks P := by
      unfold preExp preToks
      clear hsrc a1 h a6
      induction P with
      | nil => rfl
      | cons z P ih =>
        rw [List.flatMap_cons, List.flatMap_cons, (hP z (by simp)).2.2.2, ih (fun x hx => hP x (by simp [hx]))]
    have h' : src2.drop j = p'.toks ++ u2 :: post2 := by
      rw [h, a1, hpre, Opd.toks, i2, hF]
      simp
    obtain ⟨e3, s2, N2, c1, c2, c3⟩ := read_plain p' a2 a3 (startAt_toks p'.toks_ne h') hu2 (hno hop2)
    have : e2 = e3 := by
      rw [Phr.ex, a4] at c1
      have c1' : Shecc.Parser.infixExpr mk y.1 y.2 = some e3 := c1
      rw [he2] at c1'
      exact Option.some.inj c1'
    subst this
    exact ⟨s2, N2, c2, c3⟩
  where
    Parser_infix (x : Ex × List (POp × Ex)) : ∃ e, Shecc.Parser.infixExpr mk x.1 x.2 = some e := infix_total x.1 x.2

/-- `#define m(p, q, …) body`: the parameters in order, and the body starts after the `)`. -/
theorem C89_define {src : List MT} {i : Nat} {m : String} {params : List String} {body : List MT}
    (h : src.drop i = .id m :: .lpar :: (commas (params.map fun v => [.id v]) ++ .rpar :: body)) :
    ∃ d, define src i = some d ∧ d.name = m ∧ d.params = params ∧ src.drop d.start = body := by
  have key : ∀ (ps : List String) (r : List MT), ∃ k, readParams (commas (ps.map fun v => [.id v]) ++ .rpar :: r) = (ps, k) ∧
      (commas (ps.map fun v => [MT.id v]) ++ .rpar :: r).drop (k + 1) = r := by
    intro ps r
    induction ps with
    | nil => exact ⟨0, by simp [commas, readParams], by simp [commas]⟩
    | cons v ps ih =>
      obtain ⟨k, h1, h2⟩ := ih
      cases ps with
      | nil => exact ⟨1, by simp [commas, readParams], by simp [commas]⟩
      | cons w ps =>
        refine ⟨k + 2, ?_, ?_⟩
        · simp only [List.map_cons] at h1
          simp only [List.map_cons, commas, List.cons_append, List.nil_append, readParams, h1]
        · simp only [List.map_cons] at h2
          simp only [List.map_cons, commas, List.cons_append, List.nil_append, List.drop_succ_cons]
          exact h2
  obtain ⟨k, k1, k2⟩ := key params body
  have h1 := getD_drop h
  have h2 := drop_succ h
  have h3 := getD_drop h2
  have h4 := drop_succ h2
  refine ⟨⟨m, (readParams (src.drop (i + 2))).1, i + 2 + (readParams (src.drop (i + 2))).2 + 1⟩, by simp only [define, h1, h3], rfl, ?_, ?_⟩
  · show (readParams (src.drop (i + 1 + 1))).1 = params
    rw [h4, k1]
  · show src.drop (i + 1 + 1 + (readParams (src.drop (i + 1 + 1))).2 + 1) = body
    rw [h4, k1, Nat.add_assoc, ← List.drop_drop, h4]
    exact k2

/-! ### Instances and limits -/

namespace MacroEx

/-- `SQ(x) ((x)*(x))`, at positions 0 to 13; then the text `t`. -/
def srcOf (t : List MT) : List MT :=
  [.id "SQ", .lpar, .id "x", .rpar, .lpar, .lpar, .id "x", .rpar, .op .mul, .lpar, .id "x", .rpar, .rpar, .eol] ++ t ++ [.other 0, .eof]

def defs : List Def := [⟨"SQ", ["x"], 4⟩]

def three : Arg := ⟨.num 3, []⟩

def sum12 : Arg := ⟨.num 1, [(.add, .num 2)]⟩

/-- `2 + SQ(1+2)` meets the hypotheses of `C89_macro_text_partial`. -/
example : ∃ p : Phr, (srcOf p.toks).drop 14 = p.toks ++ .other 0 :: [.eof] ∧ p.Ok (srcOf p.toks) defs ∧ p.Signed ∧
    p.toks = [.num 2, .op .add, .id "SQ", .lpar, .num 1, .op .add, .num 2, .rpar] ∧
    p.expand (srcOf p.toks) defs = [.num 2, .op .add, .lpar, .lpar, .num 1, .op .add, .num 2, .rpar, .op .mul, .lpar, .num 1, .op .add, .num 2, .rpar, .rpar] := by
  refine ⟨.more (.num 2) .add (.one (.call "SQ" [sum12])), by decide +kernel, ?_, by simp [Phr.Signed, Opd.Signed, Arg.Signed, sum12, Simple.Signed], by decide +kernel, by decide +kernel⟩
  simp only [Phr.Ok, Opd.Ok, Opd.endsInCall, true_and]
  refine ⟨⟨⟨"SQ", ["x"], 4⟩, .more (.par (.one (.id "x"))) .mul (.one (.par (.one (.id "x")))), by decide +kernel, by simp, ⟨_, by rfl⟩, ?_, ?_, rfl, ?_⟩, ?_, ?_⟩
  · simp only [Opd.Wrapped, Phr.Wrapped]; decide +kernel
  · simp [Phr.Signed, Opd.Signed]
  · simp [sum12, Arg.ids, Simple.ids]
  · simp [sum12, Arg.ids, Simple.ids]
  · simp [sum12, Arg.Signed, Simple.Signed]

/-- `define` yields the definition used here. -/
example : define (srcOf []) 0 = some ⟨"SQ", ["x"], 4⟩ := by decide +kernel

def nine (a : Ex) : Ex := .bin .mul a a

/-- `2 * SQ(3) + 1` is read as `2 * (3*3 + 1)`: the call takes what follows it, although its body is in brackets. -/
theorem C89_rest_joins_call : (readExpr (srcOf [.num 2, .op .mul, .id "SQ", .lpar, .num 3, .rpar, .op .add, .num 1]) defs 20
      (startAt (srcOf [.num 2, .op .mul, .id "SQ", .lpar, .num 3, .rpar, .op .add, .num 1]) 14)).map (·.1) =
    some (.bin .mul (.num 2) (.bin .add (nine (.num 3)) (.num 1))) := by decide +kernel

/-- `SQ(3) - 1 - 1`… at the beginning nothing shows: the same tree as in C. -/
example : (readExpr (srcOf [.id "SQ", .lpar, .num 3, .rpar, .op .sub, .num 1, .op .sub, .num 1]) defs 20
      (startAt (srcOf [.id "SQ", .lpar, .num 3, .rpar, .op .sub, .num 1, .op .sub, .num 1]) 14)).map (·.1) =
    some (.bin .sub (.bin .sub (nine (.num 3)) (.num 1)) (.num 1)) := by decide +kernel

/-- `10 - SQ(3) - 1` is read as `10 - (9 - 1)`. -/
theorem C89_rest_joins_call_sub : (readExpr (srcOf [.num 10, .op .sub, .id "SQ", .lpar, .num 3, .rpar, .op .sub, .num 1]) defs 20
      (startAt (srcOf [.num 10, .op .sub, .id "SQ", .lpar, .num 3, .rpar, .op .sub, .num 1]) 14)).map (·.1) =
    some (.bin .sub (.num 10) (.bin .sub (nine (.num 3)) (.num 1))) := by decide +kernel

/-- `SQ((3))`: the scan for the arguments stops at the first `)`, so a `)` is left over behind the call, which the caller rejects. -/
theorem C89_brackets_in_argument : (readExpr (srcOf [.id "SQ", .lpar, .lpar, .num 3, .rpar, .rpar]) defs 40
      (startAt (srcOf [.id "SQ", .lpar, .lpar, .num 3, .rpar, .rpar]) 14)).map (fun x => (x.1, x.2.next)) = some (nine (.num 3), .rpar) := by
  decide +kernel

/-- `2 * SQ(3) + 1` meets the hypotheses of `C89_call_takes_rest`; the text it is read as is `2 * (((3))*((3)) + 1)` up to brackets. -/
example : ∃ (P : List (Opd × POp)) (F : Phr) (rest : List MT), P ≠ [] ∧ rest = [.op .add, .num 1] ∧
    (srcOf (preToks P ++ Opd.toks (.call "SQ" [three]) ++ rest)).drop 14 = preToks P ++ Opd.toks (.call "SQ" [three]) ++ rest ++ .other 0 :: [.eof] ∧
    (∀ x ∈ P, x.1.endsInCall = false ∧ x.1.Ok (srcOf []) defs ∧ x.1.Signed ∧ x.1.expand (srcOf []) defs = x.1.toks) ∧
    F.toks = bodyToks (srcOf []) ⟨"SQ", ["x"], 4⟩ ++ rest ∧ F.Plain ∧ F.Signed ∧ F.NoMacro defs := by
  refine ⟨[(.num 2, .mul)], .more (.par (.more (.par (.one (.id "x"))) .mul (.one (.par (.one (.id "x")))))) .add (.one (.num 1)), _, by simp, rfl,
    by decide +kernel, ?_, by decide +kernel, by simp [Phr.Plain, Opd.Plain], by simp [Phr.Signed, Opd.Signed], ?_⟩
  · intro x hx
    simp only [List.mem_singleton] at hx
    subst hx
    simp [Opd.endsInCall, Opd.Ok, Opd.Signed, Opd.expand, Opd.toks]
  · intro v hv
    simp only [Phr.toks, Opd.toks, List.cons_append, List.nil_append, List.mem_cons, MT.id.injEq, List.not_mem_nil, reduceCtorEq, or_false, false_or, or_self] at hv
    subst hv
    decide +kernel

/-- A macro called in the body of another is rejected. -/
theorem C89_nested_call : ∀ n, readOperand (srcOf [.id "SQ", .lpar, .num 3, .rpar]) defs n
      { pos := 15, next := .id "SQ", ret := some 3, cur := some (⟨"T", [], 5⟩, []) } = none := by
  intro n
  cases n with
  | zero => rfl
  | succ n =>
    have : findMacro defs "SQ" = some ⟨"SQ", ["x"], 4⟩ := by decide +kernel
    simp only [readOperand, this, Option.isSome_some, if_true]

/-- `SQ(x)` with a variable that is named like the parameter: reading the argument never ends. -/
theorem C89_parameter_named_like_argument : ∀ n, readExpr (srcOf [.id "SQ", .lpar, .id "x", .rpar]) defs n
      (startAt (srcOf [.id "SQ", .lpar, .id "x", .rpar]) 14) = none := by
  generalize hs : srcOf [.id "SQ", .lpar, .id "x", .rpar] = src
  -- the state after jumping to the argument
  let A : S := { pos := 17, next := .id "x", ret := some 18, cur := some (⟨"SQ", ["x"], 4⟩, [16]) }
  have hx : findMacro defs "x" = none := by decide +kernel
  have hl : ∀ s : S, s.ret = some 18 → s.cur = some (⟨"SQ", ["x"], 4⟩, [16]) → lex src { s with pos := 16 } = some A := by
    intro s h1 h2
    rw [lex_at h1 h2, ← hs]
    decide +kernel
  have hp : paramIdx "x" (some ((⟨"SQ", ["x"], 4⟩ : Def), [16])) = some 16 := by decide +kernel
  have loopO : ∀ (s : S) n, s.next = .id "x" → s.ret = some 18 → s.cur = some (⟨"SQ", ["x"], 4⟩, [16]) →
      (readExpr src defs n A = none) → readOperand src defs (n + 1) s = none := by
    intro s n h1 h2 h3 h4
    have := hl s h2 h3
    rw [h1, h3] at this
    simp only [readOperand, h1, hx, h3, hp, this, Option.bind_some, h4, Option.bind_none]
  have loopE : ∀ n, readExpr src defs n A = none ∧ readOperand src defs n A = none := by
    intro n
    induction n with
    | zero => exact ⟨rfl, rfl⟩
    | succ n ih =>
      refine ⟨?_, loopO A n rfl rfl rfl ih.1⟩
      simp only [readExpr, ih.2, Option.bind_none]
  -- the body starts with two brackets
  let B : S := { pos := 5, next := .lpar, ret := some 18, cur := some (⟨"SQ", ["x"], 4⟩, [16]) }
  let C : S := { pos := 6, next := .lpar, ret := some 18, cur := some (⟨"SQ", ["x"], 4⟩, [16]) }
  let D : S := { pos := 7, next := .id "x", ret := some 18, cur := some (⟨"SQ", ["x"], 4⟩, [16]) }
  have hB : lex src B = some C := by rw [← hs]; decide +kernel
  have hC : lex src C = some D := by rw [← hs]; decide +kernel
  have hOD : ∀ n, readOperand src defs n D = none := by
    intro n
    cases n with
    | zero => rfl
    | succ n => exact loopO D n rfl rfl rfl (loopE n).1
  have hED : ∀ n, readExpr src defs n D = none := by
    intro n
    cases n with
    | zero => rfl
    | succ n => simp only [readExpr, hOD, Option.bind_none]
  have hEC : ∀ n, readExpr src defs n C = none := by
    intro n
    cases n with
    | zero => rfl
    | succ n =>
      cases n with
      | zero => rfl
      | succ n =>
        have : readOperand src defs (n + 1) C = none := by
          show readOperand src defs (n + 1) { pos := 6, next := .lpar, ret := some 18, cur := some (⟨"SQ", ["x"], 4⟩, [16]) } = none
          simp only [readOperand]
          rw [show lex src { pos := 6, next := .lpar, ret := some 18, cur := some (⟨"SQ", ["x"], 4⟩, [16]) } = some D from hC]
          simp only [Option.bind_some, hED, Option.bind_none]
        simp only [readExpr, this, Option.bind_none]
  have hEB : ∀ n, readExpr src defs n B = none := by
    intro n
    cases n with
    | zero => rfl
    | succ n =>
      cases n with
      | zero => rfl
      | succ n =>
        have : readOperand src defs (n + 1) B = none := by
          show readOperand src defs (n + 1) { pos := 5, next := .lpar, ret := some 18, cur := some (⟨"SQ", ["x"], 4⟩, [16]) } = none
          simp only [readOperand]
          rw [show lex src { pos := 5, next := .lpar, ret := some 18, cur := some (⟨"SQ", ["x"], 4⟩, [16]) } = some C from hB]
          simp only [Option.bind_some, hEC, Option.bind_none]
        simp only [readExpr, this, Option.bind_none]
  -- the call
  let T0 : S := { pos := 15, next := .id "SQ" }
  let T1 : S := { pos := 16, next := .lpar }
  let T2 : S := { pos := 17, next := .id "x" }
  let T3 : S := { pos := 18, next := .rpar }
  have h0 : startAt src 14 = T0 := by rw [← hs]; decide +kernel
  have h1 : lex src T0 = some T1 := by rw [← hs]; decide +kernel
  have hscan : ∀ n s' a, scan src n T1 [] = some (s', a) → s' = T3 ∧ a = [16] := by
    have e1 : lex src T1 = some T2 := by rw [← hs]; decide +kernel
    have e2 : lex src T2 = some T3 := by rw [← hs]; decide +kernel
    intro n s' a h
    match n, h with
    | 0, h => simp [scan] at h
    | 1, h => simp [scan, scanTok, T1] at h
    | 2, h =>
      simp only [scan] at h
      rw [if_neg (by simp [T1])] at h
      simp only [scanTok, e1] at h
      rw [if_neg (by simp [T2])] at h
      simp at h
    | 3, h =>
      simp only [scan] at h
      rw [if_neg (by simp [T1])] at h
      simp only [scanTok, e1, e2] at h
      rw [if_neg (by simp [T2]), if_pos (by simp [T3])] at h
      simp [scan] at h
    | n + 4, h =>
      simp only [scan] at h
      rw [if_neg (by simp [T1])] at h
      simp only [scanTok, e1, e2] at h
      rw [if_neg (by simp [T2]), if_pos (by simp [T3])] at h
      simp only [scan, T3, if_true, Option.some.injEq, Prod.mk.injEq] at h
      exact ⟨h.1.symm, h.2.symm⟩
  have hm : findMacro defs "SQ" = some ⟨"SQ", ["x"], 4⟩ := by decide +kernel
  have hbody : lex src { T3 with pos := 4, ret := some 18, cur := some (⟨"SQ", ["x"], 4⟩, [16]) } = some B := by rw [← hs]; decide +kernel
  have hO : ∀ n, readOperand src defs n T0 = none := by
    intro n
    cases n with
    | zero => rfl
    | succ n =>
      show readOperand src defs (n + 1) { pos := 15, next := .id "SQ" } = none
      simp only [readOperand, hm, Option.isSome_none, Bool.false_eq_true, if_false]
      rw [show lex src { pos := 15, next := .id "SQ" } = some T1 from h1]
      simp only [Option.bind_some]
      cases hsc : scan src n T1 [] with
      | none => rfl
      | some a =>
        obtain ⟨q1, q2⟩ := hscan n a.1 a.2 hsc
        simp only [Option.bind_some, q1, q2]
        rw [show lex src { pos := 4, next := T3.next, ret := some T3.pos, cur := some (⟨"SQ", ["x"], 4⟩, [16]) } = some B from hbody]
        simp only [Option.bind_some, hEB, Option.map_none]
  intro n
  rw [h0]
  cases n with
  | zero => rfl
  | succ n => simp only [readExpr, hO, Option.bind_none]

end MacroEx

end Shecc.Props
