import Verif.Lemmas.Lex

/-!
# Lexer (C43-C46)

`CLex` (Spec/CLex.lean) describes source text: tokens with their spelling, separators (blanks, spliced lines, comments)
and when neighbours merge.  C43 runs the lexer of src/lexer.c on such text.
-/

namespace Shecc.Props
open Shecc.Lex CLex

/-- Strings with a backslash are excluded: see `C45_backslash_n`, `C45_backslash_end`. -/
def TokenOk (t : Token) : Prop := t.Valid ∧ ∀ s, t = .str s → '\\' ∉ s

/-- The identifier is not the name of an object-like macro. -/
def NotMacro (E : Env) (t : Token) : Prop := ∀ w, t = .ident w → E.aliasing = true → E.alias w = none

theorem nul_not_glue : ∀ p ∈ puncts, gluesB p.1 p.2 '\x00' = false := by decide

theorem keyword_none {w : List Char} (h : ∀ p ∈ keywords, p.2.toList ≠ w) : keyword (String.ofList w) = none := by
  have key : ∀ s : String, (∀ p ∈ keywords, p.2 ≠ s) → keyword s = none := by
    intro s hs
    simp only [keywords, List.mem_cons, List.not_mem_nil, or_false, forall_eq_or_imp, forall_eq] at hs
    obtain ⟨a1, a2, a3, a4, a5, a6, a7, a8, a9, a10, a11, a12, a13, a14, a15⟩ := hs
    simp only [keyword, if_neg (Ne.symm a1), if_neg (Ne.symm a2), if_neg (Ne.symm a3), if_neg (Ne.symm a4),
      if_neg (Ne.symm a5), if_neg (Ne.symm a6), if_neg (Ne.symm a7), if_neg (Ne.symm a8), if_neg (Ne.symm a9),
      if_neg (Ne.symm a10), if_neg (Ne.symm a11), if_neg (Ne.symm a12), if_neg (Ne.symm a13), if_neg (Ne.symm a14),
      if_neg (Ne.symm a15)]
  refine key _ (fun p hp e => h p hp ?_)
  rw [e, String.toList_ofList]

/-- One token: the lexer reports the token's kind and text, and continues after the blanks that follow it. -/
theorem C43_token (E : Env) (hE : E.nl = true) (n : Nat) (t : Token) (ht : TokenOk t) (hm : NotMacro E t) (rest : Src)
    (ha : Apart t rest) :
    lex E (n + 1) (t.spelling ++ rest) = .tok t.value.1 t.value.2 (dropBlanks rest) := by
  obtain ⟨hv, hs⟩ := ht
  obtain ⟨g1, g2⟩ := ha
  rw [← skipWs_eq]
  have hdh : ∀ (x : Src) c, hd x = c → c ≠ '\x00' → x.head? = some c := by
    intro x c h h0
    cases x with
    | nil => exact absurd h.symm h0
    | cons d x => simpa [hd] using h
  cases t with
  | punct k sp =>
    have hv' : (k, sp) ∈ puncts := hv
    have h0 := nul_not_glue _ hv'
    refine lex_punct E hE n k sp hv' rest ?_ ?_
    · intro c hc e
      have : c ≠ '\x00' := fun e' => by rw [e', h0] at hc; exact absurd hc (by decide)
      exact g1 c (hdh _ _ e this) ((gluesB_iff _ _ _).1 hc)
    · intro hst c hc e
      have : c ≠ '\x00' := fun e' => by rw [e', h0] at hc; exact absurd hc (by decide)
      refine g2 k sp rfl ?_ c (by rw [← skipWs_eq]; exact hdh _ _ e this) ((gluesB_iff _ _ _).1 hc)
      simpa [stickyB, blankBlind] using hst
  | keyword k sp =>
    have hk : ∀ p ∈ keywords, (∃ c w, p.2.toList = c :: w ∧ c ∈ wordChars ∧ c ∉ digits ∧ (∀ x ∈ w, x ∈ wordChars)) ∧
        keyword p.2 = some p.1 := by
      intro p hp
      simp only [keywords, List.mem_cons, List.not_mem_nil, or_false] at hp
      rcases hp with rfl | rfl | rfl | rfl | rfl | rfl | rfl | rfl | rfl | rfl | rfl | rfl | rfl | rfl | rfl
      all_goals exact ⟨⟨_, _, rfl, by decide, by decide, by decide⟩, by decide⟩
    obtain ⟨⟨c, w, e, h1, h2, h3⟩, h4⟩ := hk _ hv
    show lex E (n + 1) (sp.toList ++ rest) = .tok k sp.toList _
    rw [show sp.toList = c :: w from e, lex_word E hE n c w h1 h2 h3 rest (fun x hx => g1 x hx), lexWord]
    rw [← show sp.toList = c :: w from e, String.ofList_toList, h4]
  | directive k sp =>
    have hk : ∀ p ∈ directives, (∃ w, p.2.toList = '#' :: w ∧ (∀ x ∈ w, x ∈ wordChars)) ∧ directive p.2 = some p.1 := by
      intro p hp
      simp only [directives, List.mem_cons, List.not_mem_nil, or_false] at hp
      rcases hp with rfl | rfl | rfl | rfl | rfl | rfl | rfl | rfl | rfl | rfl
      all_goals exact ⟨⟨_, rfl, by decide⟩, by decide⟩
    obtain ⟨⟨w, e, h3⟩, h4⟩ := hk _ hv
    show lex E (n + 1) (sp.toList ++ rest) = .tok k sp.toList _
    rw [show sp.toList = '#' :: w from e]
    exact lex_directive E hE n k w h3 (by rw [← show sp.toList = '#' :: w from e, String.ofList_toList, h4]) rest
      (fun x hx => g1 x hx)
  | ident w =>
    obtain ⟨h1, h2, h3, h4⟩ := hv
    cases w with
    | nil => exact absurd rfl h1
    | cons c w =>
      show lex E (n + 1) (c :: w ++ rest) = .tok .identifier (c :: w) _
      rw [lex_word E hE n c w (h2 c (by simp)) (h3 c rfl) (fun x hx => h2 x (by simp [hx])) rest (fun x hx => g1 x hx),
        lexWord, keyword_none h4]
      by_cases ha : E.aliasing = true
      · simp only [ha, if_true, hm _ rfl ha]
      · simp only [ha, Bool.false_eq_true, if_false]
  | num w =>
    obtain ⟨⟨c, r, rfl, hc⟩, h2⟩ := hv
    exact lex_num E hE n c r hc (fun x hx => h2 x (by simp [hx])) rest (fun x hx => g1 x hx)
  | str s => exact lex_str E hE n s (hs s rfl) rest
  | chr c => exact lex_chr E hE n c rest

theorem lexAll_render (E : Env) (hE : E.nl = true) (hR : E.ret = none) (fin : List Piece) (hf : ∀ p ∈ fin, PieceOk p) :
    ∀ (items : List Item), (∀ i ∈ items, (∀ p ∈ i.1, PieceOk p) ∧ TokenOk i.2 ∧ NotMacro E i.2) →
      AllApart items fin →
      lexAll E (items.length + 1) (skipWs true (render items fin)) =
        some (items.map (·.2.value) ++ [(.eof, [])]) := by
  intro items
  induction items with
  | nil =>
    intro _ _
    have h : Lexes E (skipWs true (sepText fin ++ [])) (.tok .eof [] []) :=
      lexes_sep E hE hR fin hf [] _ ⟨by simp, 1, by simp, by simp [skipWs, lex]⟩
    rw [List.append_nil] at h
    simp only [lexAll, render, List.map_nil, List.nil_append]
    rw [h.eq]
  | cons i items ih =>
    intro hv ha
    obtain ⟨ps, t⟩ := i
    obtain ⟨hp, ht, hm⟩ := hv (ps, t) (by simp)
    have htok := C43_token E hE 0 t ht hm _ ha.1
    -- a token starts with neither a blank nor a backslash
    have hne : skipWs true (t.spelling ++ render items fin) = t.spelling ++ render items fin := by
      have hh : ∀ c r, c ∉ blanks → c ≠ '\\' → skipWs true (c :: r) = c :: r := fun c r => skipWs_cons r
      cases t with
      | punct k sp =>
        have : ∀ p ∈ puncts, ∃ c w, p.2.toList = c :: w ∧ c ∉ blanks ∧ c ≠ '\\' := by
          intro p hp
          simp only [puncts, List.mem_cons, List.not_mem_nil, or_false] at hp
          repeat' (rcases hp with rfl | hp)
          all_goals (try subst hp)
          all_goals exact ⟨_, _, rfl, by decide, by decide⟩
        obtain ⟨c, w, e, h1, h2⟩ := this _ ht.1
        show skipWs true (sp.toList ++ _) = sp.toList ++ _
        rw [show sp.toList = c :: w from e]; exact hh _ _ h1 h2
      | keyword k sp =>
        have : ∀ p ∈ keywords, ∃ c w, p.2.toList = c :: w ∧ c ∉ blanks ∧ c ≠ '\\' := by
          intro p hp
          simp only [keywords, List.mem_cons, List.not_mem_nil, or_false] at hp
          repeat' (rcases hp with rfl | hp)
          all_goals (try subst hp)
          all_goals exact ⟨_, _, rfl, by decide, by decide⟩
        obtain ⟨c, w, e, h1, h2⟩ := this _ ht.1
        show skipWs true (sp.toList ++ _) = sp.toList ++ _
        rw [show sp.toList = c :: w from e]; exact hh _ _ h1 h2
      | directive k sp =>
        have : ∀ p ∈ directives, ∃ c w, p.2.toList = c :: w ∧ c ∉ blanks ∧ c ≠ '\\' := by
          intro p hp
          simp only [directives, List.mem_cons, List.not_mem_nil, or_false] at hp
          repeat' (rcases hp with rfl | hp)
          all_goals (try subst hp)
          all_goals exact ⟨_, _, rfl, by decide, by decide⟩
        obtain ⟨c, w, e, h1, h2⟩ := this _ ht.1
        show skipWs true (sp.toList ++ _) = sp.toList ++ _
        rw [show sp.toList = c :: w from e]; exact hh _ _ h1 h2
      | ident w =>
        obtain ⟨h1, h2, _⟩ := ht.1
        cases w with
        | nil => exact absurd rfl h1
        | cons c w =>
          have hc := h2 c (by simp)
          refine hh _ _ (fun h => ?_) (fun h => ?_)
          · simp only [blanks, List.mem_cons, List.not_mem_nil, or_false] at h
            rcases h with rfl | rfl | rfl | rfl <;> exact absurd hc (by decide)
          · subst h; exact absurd hc (by decide)
      | num w =>
        obtain ⟨⟨c, r, rfl, hc⟩, h2⟩ := ht.1
        refine hh _ _ (fun hb => ?_) (fun h => ?_)
        · simp only [blanks, List.mem_cons, List.not_mem_nil, or_false] at hb
          rcases hb with rfl | rfl | rfl | rfl <;> exact absurd hc (by decide)
        · subst h; exact absurd hc (by decide)
      | str s => exact hh _ _ (by decide) (by decide)
      | chr c => exact hh _ _ (by decide) (by decide)
    have h : Lexes E (skipWs true (sepText ps ++ (t.spelling ++ render items fin)))
        (.tok t.value.1 t.value.2 (dropBlanks (render items fin))) := by
      refine lexes_sep E hE hR ps hp _ _ ?_
      rw [hne]
      exact ⟨by simp, 1, by omega, htok⟩
    have hnf : t.value.1 ≠ .eof := by
      cases t with
      | punct k sp =>
        have : ∀ p ∈ puncts, p.1 ≠ .eof := by decide
        exact this _ ht.1
      | keyword k sp =>
        have : ∀ p ∈ keywords, p.1 ≠ .eof := by decide
        exact this _ ht.1
      | directive k sp =>
        have : ∀ p ∈ directives, p.1 ≠ .eof := by decide
        exact this _ ht.1
      | _ => simp [Token.value]
    have ih' := ih (fun i hi => hv i (by simp [hi])) ha.2
    rw [lexAll]
    simp only [render]
    rw [h.eq]
    split
    · rename_i heq
      simp only [Res.tok.injEq] at heq
      exact absurd heq.1 hnf
    · rename_i heq
      simp only [Res.tok.injEq] at heq
      obtain ⟨e1, e2, e3⟩ := heq
      subst e1 e2 e3
      rw [← skipWs_eq]
      show (lexAll E (items.length + 1) _).map _ = _
      rw [ih']
      simp
    · rename_i h1 h2
      exact absurd rfl (h2 _ _ _)

/-- **C43 (partial).** Any text made of valid tokens, with any separators such that neighbours stay apart, lexes to exactly
those tokens, in order, and then the end of the file.

Missing from the full property: strings with a backslash (C45), comments ending in an even number of `*` before the `/`
(C46), operators of `blankBlind` followed, after blanks, by a character that could continue them (C44); and the text must
not begin with a blank. -/
theorem C43_lex_partial (E : Env) (hE : E.nl = true) (hR : E.ret = none) (items : List Item) (fin : List Piece)
    (hf : ∀ p ∈ fin, PieceOk p) (hi : ∀ i ∈ items, (∀ p ∈ i.1, PieceOk p) ∧ TokenOk i.2 ∧ NotMacro E i.2)
    (ha : AllApart items fin) (hs : StartsAtToken (render items fin)) :
    lexAll E (items.length + 1) (render items fin) = some (items.map (·.2.value) ++ [(.eof, [])]) := by
  have := lexAll_render E hE hR fin hf items hi ha
  rwa [skipWs_eq, hs] at this

/-- Environment of the examples: no macros, newlines skipped. -/
def plainEnv : Env where
  aliasing := true
  alias := fun _ => none
  nl := true
  ret := none

/-- `x->y /* hi */ == 0x1F // c` newline `"a\n"` satisfies the hypotheses of C43. -/
def C43_items : List Item :=
  [([], .ident ['x']), ([], .punct .arrow "->"), ([], .ident ['y']),
   ([.blank ' ', .block [' ', 'h', 'i', ' '], .blank ' '], .punct .eq "=="), ([.blank ' '], .num ['0', 'x', '1', 'F']),
   ([.blank ' ', .line [' ', 'c']], .str ['a', '\n']), ([.splice], .punct .semicolon ";")]

example : render C43_items [.blank '\n'] =
    "x->y /* hi */ == 0x1F // c\n\"a\\n\"\\\n;\n".toList := by decide

theorem noClose_dec (t : List Char) (h : ∀ k, k < t.length → t.drop k = [] ∨ (t.drop k).take 2 ≠ ['*', '/']) :
    NoClose t := by
  intro a b e
  have := h a.length (by rw [e]; simp)
  rw [e] at this
  simp at this

example : (∀ i ∈ C43_items, (∀ p ∈ i.1, PieceOk p) ∧ TokenOk i.2 ∧ NotMacro plainEnv i.2) ∧
    AllApart C43_items [.blank '\n'] ∧ StartsAtToken (render C43_items [.blank '\n']) := by
  have hok : ∀ c ∈ blanks, PieceOk (.blank c) := fun c hc => ⟨hc, by intro t h; cases h⟩
  have ap : ∀ (t : Token) (x : List Char), (∀ c, x.head? = some c → ¬ t.Glues c) →
      (∀ k sp, t = .punct k sp → k ∉ blankBlind) → Apart t x :=
    fun t x h1 h2 => ⟨h1, fun k sp e hk => absurd hk (h2 k sp e)⟩
  have hd1 : ∀ (P : Char → Prop) (d : Char) (x : List Char), P d → ∀ c, (d :: x).head? = some c → P c := by
    intro P d x h c e
    rw [List.head?_cons, Option.some.injEq] at e; rw [← e]; exact h
  have np : ∀ k sp c, gluesB k sp c = false → ¬ (Token.punct k sp).Glues c := by
    intro k sp c h g
    rw [(gluesB_iff k sp c).2 g] at h; exact absurd h (by decide)
  refine ⟨?_, ?_, by unfold StartsAtToken; decide⟩
  · intro i hi
    simp only [C43_items, List.mem_cons, List.not_mem_nil, or_false] at hi
    rcases hi with rfl | rfl | rfl | rfl | rfl | rfl | rfl
    · exact ⟨by simp, ⟨by unfold Token.Valid; decide, by intro s h; cases h⟩, fun _ _ _ => rfl⟩
    · exact ⟨by simp, ⟨by unfold Token.Valid; decide, by intro s h; cases h⟩, fun _ _ _ => rfl⟩
    · exact ⟨by simp, ⟨by unfold Token.Valid; decide, by intro s h; cases h⟩, fun _ _ _ => rfl⟩
    · refine ⟨?_, ⟨by unfold Token.Valid; decide, by intro s h; cases h⟩, fun _ _ _ => rfl⟩
      simp only [List.mem_cons, List.not_mem_nil, or_false]
      rintro p (rfl | rfl | rfl)
      · exact hok _ (by decide)
      · refine ⟨⟨noClose_dec _ (by decide), by decide⟩, ?_⟩
        intro t h; cases h; decide
      · exact hok _ (by decide)
    · refine ⟨?_, ⟨⟨⟨_, _, rfl, by decide⟩, by decide⟩, by intro s h; cases h⟩, fun _ _ _ => rfl⟩
      simp only [List.mem_cons, List.not_mem_nil, or_false]
      rintro p rfl
      exact hok _ (by decide)
    · refine ⟨?_, ⟨trivial, by intro s h; cases h; decide⟩, fun _ _ _ => rfl⟩
      simp only [List.mem_cons, List.not_mem_nil, or_false]
      rintro p (rfl | rfl)
      · exact hok _ (by decide)
      · exact ⟨⟨by decide, by decide, by decide, by decide⟩, by intro t h; cases h⟩
    · refine ⟨?_, ⟨by unfold Token.Valid; decide, by intro s h; cases h⟩, fun _ _ _ => rfl⟩
      simp only [List.mem_cons, List.not_mem_nil, or_false]
      rintro p rfl
      exact ⟨trivial, by intro t h; cases h⟩
  · refine ⟨?_, ?_, ?_, ?_, ?_, ?_, ?_, trivial⟩
    · exact ap _ _ (hd1 _ _ _ (by unfold Token.Glues; decide)) (by intro _ _ h; cases h)
    · exact ap _ _ (hd1 _ _ _ (np _ _ _ (by decide))) (by intro _ _ h; cases h; decide)
    · exact ap _ _ (hd1 _ _ _ (by unfold Token.Glues; decide)) (by intro _ _ h; cases h)
    · exact ap _ _ (hd1 _ _ _ (np _ _ _ (by decide))) (by intro _ _ h; cases h; decide)
    · exact ap _ _ (hd1 _ _ _ (by unfold Token.Glues; decide)) (by intro _ _ h; cases h)
    · exact ap _ _ (hd1 _ _ _ (by unfold Token.Glues; decide)) (by intro _ _ h; cases h)
    · exact ap _ _ (hd1 _ _ _ (np _ _ _ (by decide))) (by intro _ _ h; cases h; decide)

/-- A text beginning with a blank is refused. -/
theorem C43_leading_blank (E : Env) (n : Nat) (r : Src) : lex E (n + 1) (' ' :: r) = .err := by
  simp (config := { decide := true }) only [lex, isDigit_false (c := ' ') (by decide), isAlnum_false (c := ' ') (by decide),
    if_false]

/-- **C44 (partial).** Two operators separated by one blank are lexed as those two tokens, unless the first is one of
`blankBlind` and the second begins with a character that could continue it. -/
theorem C44_operators_partial (E : Env) (hE : E.nl = true) (hR : E.ret = none) (k1 k2 : Tok) (s1 s2 : String) (c : Char)
    (h1 : (k1, s1) ∈ puncts) (h2 : (k2, s2) ∈ puncts) (hc : c ∈ blanks)
    (hg : k1 ∈ blankBlind → ∀ d, s2.toList.head? = some d → ¬ (Token.punct k1 s1).Glues d) :
    lexAll E 3 (s1.toList ++ c :: s2.toList) = some [(k1, []), (k2, []), (.eof, [])] := by
  have pc : ∀ p ∈ puncts, (∃ d w, p.2.toList = d :: w ∧ d ∉ blanks ∧ d ≠ '\\') ∧ ∀ b ∈ blanks, gluesB p.1 p.2 b = false := by
    intro p hp
    simp only [puncts, List.mem_cons, List.not_mem_nil, or_false] at hp
    repeat' (rcases hp with rfl | hp)
    all_goals (try subst hp)
    all_goals exact ⟨⟨_, _, rfl, by decide, by decide⟩, by decide⟩
  obtain ⟨⟨d1, w1, e1, a1, b1⟩, f1⟩ := pc _ h1
  obtain ⟨⟨d2, w2, e2, a2, b2⟩, f2⟩ := pc _ h2
  have := C43_lex_partial E hE hR [([], .punct k1 s1), ([.blank c], .punct k2 s2)] [] (by simp)
    (by
      intro i hi
      simp only [List.mem_cons, List.not_mem_nil, or_false] at hi
      rcases hi with rfl | rfl
      · exact ⟨by simp, ⟨h1, by intro s h; cases h⟩, by intro w h; cases h⟩
      · refine ⟨?_, ⟨h2, by intro s h; cases h⟩, by intro w h; cases h⟩
        simp only [List.mem_cons, List.not_mem_nil, or_false]
        rintro p rfl
        exact ⟨hc, by intro t h; cases h⟩)
    (by
      refine ⟨⟨?_, ?_⟩, ⟨?_, ?_⟩, trivial⟩
      · intro x hx g
        simp only [render, sepText, List.flatMap_cons, Piece.text, List.cons_append, List.head?_cons, Option.some.injEq] at hx
        rw [← hx] at g
        have := (gluesB_iff _ _ _).2 g
        rw [show gluesB k1 s1 c = false from f1 c hc] at this
        exact absurd this (by decide)
      · intro k sp hk hb x hx
        cases hk
        refine hg hb x ?_
        rw [← skipWs_eq] at hx
        simp only [render, sepText, List.flatMap_cons, List.flatMap_nil, Piece.text, List.cons_append, List.nil_append,
          Token.spelling, List.append_nil] at hx
        rw [skipWs_blank _ hc, show s2.toList = d2 :: w2 from e2, skipWs_cons _ a2 b2] at hx
        rw [show s2.toList = d2 :: w2 from e2]; exact hx
      · intro x hx; cases hx
      · intro k sp hk hb x hx; cases hx)
    (by
      unfold StartsAtToken
      rw [← skipWs_eq]
      simp only [render, sepText, List.flatMap_nil, List.nil_append, Token.spelling]
      rw [show s1.toList = d1 :: w1 from e1]
      exact skipWs_cons _ a1 b1)
  simpa [render, sepText, Piece.text, Token.spelling, Token.value] using this

example : lexAll plainEnv 3 "+ +".toList = some [(.plus, []), (.plus, []), (.eof, [])] := by decide

/-- C44 fails: `- -`, `- >`, `- =`, `* =`, `/ =`, `% =`, `^ =`, `<< =`, `>> =` are each lexed as one token. -/
theorem C44_blank_merges :
    lexAll plainEnv 3 "- -".toList = some [(.decrement, []), (.eof, [])] ∧
    lexAll plainEnv 3 "- >".toList = some [(.arrow, []), (.eof, [])] ∧
    lexAll plainEnv 3 "- =".toList = some [(.minuseq, []), (.eof, [])] ∧
    lexAll plainEnv 3 "* =".toList = some [(.asteriskeq, []), (.eof, [])] ∧
    lexAll plainEnv 3 "/ =".toList = some [(.divideeq, []), (.eof, [])] ∧
    lexAll plainEnv 3 "% =".toList = some [(.modeq, []), (.eof, [])] ∧
    lexAll plainEnv 3 "^ =".toList = some [(.xoreq, []), (.eof, [])] ∧
    lexAll plainEnv 3 "<< =".toList = some [(.lshifteq, []), (.eof, [])] ∧
    lexAll plainEnv 3 ">> =".toList = some [(.rshifteq, []), (.eof, [])] := by
  refine ⟨?_, ?_, ?_, ?_, ?_, ?_, ?_, ?_, ?_⟩ <;> decide +kernel

/-- C44 fails in valid programs: `a - -b` is `a --b`, and `a / *p;` starts a comment. -/
theorem C44_double_minus : lexAll plainEnv 9 "a - -b".toList =
      some [(.identifier, ['a']), (.decrement, []), (.identifier, ['b']), (.eof, [])] ∧
    lexAll plainEnv 9 "a / *p;".toList = none := by
  refine ⟨?_, ?_⟩ <;> decide +kernel

/-- **C45 (partial).** The escaped spelling of any string without a backslash lexes to that string, and of any character
to that character.  Missing: strings with a backslash, for which the property is false. -/
theorem C45_escapes_partial (E : Env) (hE : E.nl = true) (n : Nat) (rest : Src) :
    (∀ s, '\\' ∉ s → lex E (n + 1) ((Token.str s).spelling ++ rest) = .tok .string s (dropBlanks rest)) ∧
    (∀ c, lex E (n + 1) ((Token.chr c).spelling ++ rest) = .tok .char [c] (dropBlanks rest)) := by
  rw [← skipWs_eq]
  exact ⟨fun s hs => lex_str E hE n s hs rest, fun c => lex_chr E hE n c rest⟩

example : (Token.str "say \"hi\"\t\n".toList).spelling = "\"say \\\"hi\\\"\\t\\n\"".toList := by decide

/-- C45 fails: the spelling `"\\n"` of a backslash and an n is read as a newline. -/
theorem C45_backslash_n : (Token.str ['\\', 'n']).spelling = "\"\\\\n\"".toList ∧
    lex plainEnv 9 (Token.str ['\\', 'n']).spelling = .tok .string ['\n'] [] := by decide

/-- C45 fails: a string ending in a backslash swallows its closing quote (and the following text up to the next one). -/
theorem C45_backslash_end : (Token.str ['\\']).spelling = "\"\\\\\"".toList ∧
    lex plainEnv 9 ((Token.str ['\\']).spelling ++ ";".toList) = .err ∧
    lex plainEnv 9 ((Token.str ['\\']).spelling ++ "; puts(\"".toList) = .tok .string "\"; puts(".toList [] := by decide

/-- **C46 (partial).** Comments do not change the tokens: with and without the separators (of the supported kinds) a text
lexes to the same tokens. Missing: comments with an odd number of `*` just before the closing `*/`, and comments after an
operator of `blankBlind`. -/
theorem C46_comments_partial (E : Env) (hE : E.nl = true) (hR : E.ret = none) (items items' : List Item) (fin fin' : List Piece)
    (hf : ∀ p ∈ fin ++ fin', PieceOk p)
    (hi : ∀ i ∈ items ++ items', (∀ p ∈ i.1, PieceOk p) ∧ TokenOk i.2 ∧ NotMacro E i.2)
    (ha : AllApart items fin) (hs : StartsAtToken (render items fin))
    (ha' : AllApart items' fin') (hs' : StartsAtToken (render items' fin'))
    (same : items.map (·.2) = items'.map (·.2)) :
    lexAll E (items.length + 1) (render items fin) = lexAll E (items.length + 1) (render items' fin') := by
  have hl : items.length = items'.length := by simpa using congrArg List.length same
  rw [C43_lex_partial E hE hR items fin (fun p hp => hf p (by simp [hp])) (fun i h => hi i (by simp [h])) ha hs, hl,
    C43_lex_partial E hE hR items' fin' (fun p hp => hf p (by simp [hp])) (fun i h => hi i (by simp [h])) ha' hs']
  have : ∀ l : List Item, l.map (·.2.value) = (l.map (·.2)).map Token.value := fun l => by simp
  rw [this, this, same]

/-- Exactly which block comments end where they should: those with an even number of `*` before the closing `*/`.  After an
odd number the lexer reads on from the `/` as if still inside the comment. -/
theorem C46_stars (E : Env) (hE : E.nl = true) (n : Nat) (t : List Char) (ht : NoClose (t ++ ['*'])) (rest : Src) :
    lex E (n + 1) ((Piece.block t).text ++ rest) =
      if trailingStars t % 2 = 0 then lex E n (dropBlanks rest)
      else match commentLoop rest with
        | some r => lex E n (dropBlanks r)
        | none => .err := by
  have k := skipWs_cons (c := '*') (t ++ '*' :: '/' :: rest) (by decide) (by decide)
  have cl := commentLoop_text rest t.length t (Nat.le_refl _) (fun a b e => ht a (b ++ ['*']) (by rw [e]; simp))
  have c2 : commentLoop ('/' :: rest) = commentLoop rest := by
    cases rest <;> exact if_neg (by decide)
  simp only [Piece.text, List.cons_append, List.append_assoc, List.nil_append]
  simp (config := {decide := true}) only [lex, hE, readChar, List.tail_cons, k, hd, if_true, if_false, cl, c2]
  by_cases h : trailingStars t % 2 = 0
  · simp only [if_pos h, skipWs_eq]
  · simp only [if_neg h]
    cases commentLoop rest <;> simp only [skipWs_eq]

/-- C46 fails: `/***/` does not end, and swallows the code up to the next comment. -/
theorem C46_three_stars : lexAll plainEnv 9 "/***/ x;".toList = none ∧
    lexAll plainEnv 9 "/***/ x = 1; /* c */ y;".toList = some [(.identifier, ['y']), (.semicolon, []), (.eof, [])] := by
  refine ⟨?_, ?_⟩ <;> decide +kernel

/-- C46 fails: after a division sign a comment, even at a distance, is read as part of a `//` comment. -/
theorem C46_after_divide : lexAll plainEnv 9 "a / /* c */ b;\nd".toList =
    some [(.identifier, ['a']), (.identifier, ['d']), (.eof, [])] := by decide +kernel

/-- C46 fails: a line comment whose line ends in CR LF stops the compiler. -/
theorem C46_crlf : lexAll plainEnv 9 "a // c\r\nb".toList = none := by decide

end Shecc.Props
