import Verif.Model.Preproc
import Verif.Spec.CPreproc
import Verif.Props.Lexer

/-!
# C69, C70: use of object-like macros; conditional groups
-/

namespace Shecc.Props
open Shecc.Preproc Shecc.Lex CPreproc CLex

/-! ## C70 -/

mutual
/-- The directives and statements of a program in the order of the text. -/
def itemsOf {D α : Type} : Prog D α → List (Item D α)
  | .done => []
  | .text a k => .text a :: itemsOf k
  | .change f k => .change f :: itemsOf k
  | .group c b r k => .iff c :: (itemsOf b ++ (chainItems r ++ itemsOf k))
def chainItems {D α : Type} : Chain D α → List (Item D α)
  | .endif => [.endif]
  | .els b => .els :: (itemsOf b ++ [.endif])
  | .elif c b r => .elif c :: (itemsOf b ++ chainItems r)
end

variable {D α : Type}

theorem go_run_cons (st : St D α) (i : Item D α) (r) : go .run st (i :: r) = go (step st i).1 (step st i).2 r := by
  rw [go]; rfl

/-- Skipping passes over text without groups. -/
theorem go_skip_flat (m : Mode) (hm : m ≠ .run) (st : St D α) (r : List (Item D α)) :
    ∀ p : Prog D α, p.Flat → go m st (itemsOf p ++ r) = go m st r
  | .done, _ => rfl
  | .text a k, h => by
    rw [itemsOf, List.cons_append, go, if_neg, go_skip_flat m hm st r k h]
    cases m <;> simp [stops] at hm ⊢
  | .change f k, h => by
    rw [itemsOf, List.cons_append, go, if_neg, go_skip_flat m hm st r k h]
    cases m <;> simp [stops] at hm ⊢
  | .group .., h => h.elim

theorem go_skip_iff {m : Mode} (st : St D α) (i : Item D α) (r) (h : stops m i = true) :
    go m st (i :: r) = go .run st (i :: r) := by
  rw [go, if_pos h, go_run_cons]

/-- Once a part has been taken, the rest of a group is skipped. -/
theorem go_after_hit (st : St D α) (hs : st.hit = true) (r : List (Item D α)) :
    ∀ ch : Chain D α, ch.Flat → ∀ m, m = .run ∨ m = .skipEnd → go m st (chainItems ch ++ r) = go .run { st with hit := false } r
  | .endif, _, m, hm => by
    rcases hm with rfl | rfl <;> (rw [chainItems, List.cons_append, go, if_pos (by rfl)]; rfl)
  | .els b, h, .run, _ => by
    rw [chainItems, List.cons_append, go_run_cons]
    simp only [step, hs, if_true]
    rw [List.append_assoc, go_skip_flat _ (by decide) st _ b h]
    rw [List.cons_append, go, if_pos (by rfl)]
    rfl
  | .els b, h, .skipEnd, _ => by
    rw [chainItems, List.cons_append, go, if_neg (by simp [stops])]
    rw [List.append_assoc, go_skip_flat _ (by decide) st _ b h]
    rw [List.cons_append, go, if_pos (by rfl)]
    rfl
  | .els b, h, .skip, hm => by rcases hm with h | h <;> cases h
  | .elif c b ch, h, .run, _ => by
    rw [chainItems, List.cons_append, go_run_cons]
    simp only [step, hs, if_true]
    rw [List.append_assoc, go_skip_flat _ (by decide) st _ b h.1]
    exact go_after_hit st hs r ch h.2 _ (Or.inr rfl)
  | .elif c b ch, h, .skipEnd, _ => by
    rw [chainItems, List.cons_append, go, if_neg (by simp [stops])]
    rw [List.append_assoc, go_skip_flat _ (by decide) st _ b h.1]
    exact go_after_hit st hs r ch h.2 _ (Or.inr rfl)
  | .elif c b ch, h, .skip, hm => by rcases hm with h | h <;> cases h

/-- A program without groups leaves the flag alone. -/
theorem go_flat (r : List (Item D α)) : ∀ (p : Prog D α), p.Flat → ∀ st : St D α,
    go .run st (itemsOf p ++ r) = go .run ⟨(p.meaning st.defs).1, st.hit, st.out ++ (p.meaning st.defs).2⟩ r
  | .done, _, st => by simp [itemsOf, Prog.meaning]
  | .text a k, h, st => by
    rw [itemsOf, List.cons_append, go_run_cons]
    simp only [step]
    rw [go_flat r k h]
    simp [Prog.meaning]
  | .change f k, h, st => by
    rw [itemsOf, List.cons_append, go_run_cons]
    simp only [step]
    rw [go_flat r k h]
    simp [Prog.meaning]
  | .group .., h, _ => h.elim

mutual
theorem go_prog (r : List (Item D α)) : ∀ (p : Prog D α) (st : St D α), p.Tame st.defs →
    ∃ m, go .run st (itemsOf p ++ r) = go .run ⟨(p.meaning st.defs).1, m, st.out ++ (p.meaning st.defs).2⟩ r
  | .done, st, _ => ⟨st.hit, by simp [itemsOf, Prog.meaning]⟩
  | .text a k, st, h => by
    obtain ⟨m, e⟩ := go_prog r k { st with out := st.out ++ [a] } h
    refine ⟨m, ?_⟩
    rw [itemsOf, List.cons_append, go_run_cons]
    simp only [step]
    rw [e]
    simp [Prog.meaning]
  | .change f k, st, h => by
    obtain ⟨m, e⟩ := go_prog r k { st with defs := f st.defs } h
    refine ⟨m, ?_⟩
    rw [itemsOf, List.cons_append, go_run_cons]
    simp only [step]
    rw [e]
    simp [Prog.meaning]
  | .group c b ch k, st, h => by
    simp only [Prog.Tame] at h
    obtain ⟨h1, h2⟩ := h
    rw [itemsOf, List.cons_append, go_run_cons]
    simp only [step]
    by_cases hc : c st.defs = true
    · rw [if_pos hc] at h1 h2
      obtain ⟨hb, hch, hor⟩ := h1
      simp only [hc, if_true, List.append_assoc]
      have hstep : go .run { st with hit := true } (itemsOf b ++ (chainItems ch ++ (itemsOf k ++ r))) =
          go .run ⟨(b.meaning st.defs).1, false, st.out ++ (b.meaning st.defs).2⟩ (itemsOf k ++ r) := by
        rcases hor with hf | rfl
        · rw [go_flat _ b hf, go_after_hit _ rfl _ ch hch _ (Or.inl rfl)]
        · obtain ⟨m, e⟩ := go_prog (chainItems .endif ++ (itemsOf k ++ r)) b { st with hit := true } hb
          rw [e, chainItems, List.cons_append, go_run_cons]
          rfl
      obtain ⟨m, e⟩ := go_prog r k ⟨(b.meaning st.defs).1, false, st.out ++ (b.meaning st.defs).2⟩ h2
      exact ⟨m, by rw [hstep, e]; simp [Prog.meaning, hc]⟩
    · rw [if_neg hc] at h1 h2
      obtain ⟨hb, hch⟩ := h1
      simp only [hc, List.append_assoc]
      obtain ⟨m, e⟩ := go_chain (itemsOf k ++ r) ch ⟨st.defs, false, st.out⟩ rfl hch
      obtain ⟨m', e'⟩ := go_prog r k ⟨(ch.meaning st.defs).1, m, st.out ++ (ch.meaning st.defs).2⟩ h2
      refine ⟨m', ?_⟩
      rw [if_neg (by simp), go_skip_flat _ (by decide) _ _ b hb, e, e']
      simp [Prog.meaning, hc]
theorem go_chain (r : List (Item D α)) : ∀ (ch : Chain D α) (st : St D α), st.hit = false → ch.Tame st.defs →
    ∃ m, go .skip st (chainItems ch ++ r) = go .run ⟨(ch.meaning st.defs).1, m, st.out ++ (ch.meaning st.defs).2⟩ r
  | .endif, st, hs, _ => ⟨false, by
      rw [chainItems, List.cons_append, go_skip_iff _ _ _ rfl, go_run_cons]
      simp [step, Chain.meaning]⟩
  | .els b, st, hs, h => by
    obtain ⟨m, e⟩ := go_prog (.endif :: r) b st h
    refine ⟨false, ?_⟩
    rw [chainItems, List.cons_append, go_skip_iff _ _ _ rfl, go_run_cons]
    simp only [step, hs, Bool.false_eq_true, if_false, List.append_assoc, List.cons_append, List.nil_append]
    rw [e, go_run_cons]
    simp [step, Chain.meaning]
  | .elif c b ch, st, hs, h => by
    simp only [Chain.Tame] at h
    rw [chainItems, List.cons_append, go_skip_iff _ _ _ rfl, go_run_cons]
    simp only [step, hs, Bool.false_eq_true, if_false]
    by_cases hc : c st.defs = true
    · rw [if_pos hc] at h
      obtain ⟨hb, hch, hor⟩ := h
      simp only [hc, if_true, List.append_assoc]
      refine ⟨false, ?_⟩
      rcases hor with hf | rfl
      · rw [go_flat _ b hf, go_after_hit _ rfl _ ch hch _ (Or.inl rfl)]
        simp [Chain.meaning, hc]
      · obtain ⟨m, e⟩ := go_prog (chainItems .endif ++ r) b { st with hit := true } hb
        rw [e, chainItems, List.cons_append, go_run_cons]
        simp [step, Chain.meaning, hc]
    · rw [if_neg hc] at h
      obtain ⟨m, e⟩ := go_chain r ch ⟨st.defs, false, st.out⟩ rfl h.2
      refine ⟨m, ?_⟩
      simp only [hc, List.append_assoc]
      rw [if_neg (by simp), go_skip_flat _ (by decide) _ _ b h.1, e]
      simp [Chain.meaning, hc]
end

/-- **C70 (partial).** Of each conditional group exactly the selected part is compiled, and the definitions change accordingly,
for every source text, at any depth, whose nested groups occur only in processed parts that are the last of their group (as
within include guards).  Missing: other nestings, for which the claim is false (`C70_nested_in_skipped`, `C70_nested_then_else`). -/
theorem C70_groups_partial (p : Prog D α) (d : D) (m : Bool) (h : p.Tame d) :
    ∃ m', go .run ⟨d, m, []⟩ (itemsOf p) = some ⟨(p.meaning d).1, m', (p.meaning d).2⟩ := by
  obtain ⟨m', e⟩ := go_prog [] p ⟨d, m, []⟩ h
  refine ⟨m', ?_⟩
  rw [List.append_nil] at e
  rw [e]
  simp [go]

theorem Prog.Flat.tame : ∀ (p : Prog D α), p.Flat → ∀ d, p.Tame d
  | .done, _, _ => trivial
  | .text _ k, h, d => Prog.Flat.tame k h d
  | .change f k, h, d => Prog.Flat.tame k h (f d)
  | .group .., h, _ => h.elim

theorem Chain.Flat.tame : ∀ (p : Chain D α), p.Flat → ∀ d, p.Tame d
  | .endif, _, _ => trivial
  | .els b, h, d => Prog.Flat.tame b h d
  | .elif c b r, h, d => by
    simp only [Chain.Tame]
    split
    · exact ⟨Prog.Flat.tame b h.1 d, h.2, Or.inl h.1⟩
    · exact ⟨h.1, Chain.Flat.tame r h.2 d⟩

theorem Prog.Unnested.tame : ∀ (p : Prog D α), p.Unnested → ∀ d, p.Tame d
  | .done, _, _ => trivial
  | .text _ k, h, d => Prog.Unnested.tame k h d
  | .change f k, h, d => Prog.Unnested.tame k h (f d)
  | .group c b r k, h, d => by
    simp only [Prog.Tame]
    refine ⟨?_, Prog.Unnested.tame k h.2.2 _⟩
    split
    · exact ⟨Prog.Flat.tame b h.1 d, h.2.1, Or.inl h.1⟩
    · exact ⟨h.1, Chain.Flat.tame r h.2.1 d⟩

/-- **C70 (partial).** In particular for every text without nested groups. -/
theorem C70_unnested_partial (p : Prog D α) (d : D) (m : Bool) (h : p.Unnested) :
    ∃ m', go .run ⟨d, m, []⟩ (itemsOf p) = some ⟨(p.meaning d).1, m', (p.meaning d).2⟩ :=
  C70_groups_partial p d m (Prog.Unnested.tame p h d)

/-- An include guard around a group, met twice: `#ifndef G / #define G / #if X ... #else ... #endif / text / #endif`, where the
definitions are the pair of whether `G` and `X` are defined. -/
def guarded (next : Prog (Bool × Bool) Nat) : Prog (Bool × Bool) Nat :=
  .group (fun d => !d.1) (.change (fun d => (true, d.2)) (.group (fun d => d.2) (.text 1 .done) (.els (.text 2 .done)) (.text 3 .done)))
    .endif next

example : (go .run ⟨(false, false), false, []⟩ (itemsOf (guarded .done))).map (·.out) = some [2, 3] := by
  obtain ⟨m, e⟩ := C70_groups_partial (guarded .done) (false, false) false (by simp [guarded, Prog.Tame, Chain.Tame, Prog.Flat, Chain.Flat])
  rw [e]
  rfl

/-- C70 fails: a group nested in a skipped part. The second time, the guard's part should be skipped, but the text after the inner
group is compiled again: skipping stops at the inner `#else`. -/
theorem C70_nested_in_skipped :
    ((guarded (guarded .done)).meaning (false, true)).2 = [1, 3] ∧
    (go .run ⟨(false, true), false, []⟩ (itemsOf (guarded (guarded .done)))).map (·.out) = some [1, 3, 2, 3] := by
  decide

/-- C70 fails: after a nested group in a processed part, the `#else` part of the outer group is compiled too. -/
theorem C70_nested_then_else :
    ∃ p : Prog Unit Nat, (p.meaning ()).2 = [1] ∧ (go .run ⟨(), false, []⟩ (itemsOf p)).map (·.out) = some [1, 2] :=
  ⟨.group (fun _ => true) (.group (fun _ => true) (.text 1 .done) .endif .done) (.els (.text 2 .done)) .done, by decide, by decide⟩

/-- A skipped part that is never closed makes the compiler run for ever instead of reporting an error. -/
theorem C70_unterminated (st : St D α) (c : D → Bool) (hc : c st.defs = false) (p : Prog D α) (h : p.Flat) :
    go .run st (.iff c :: itemsOf p) = none := by
  rw [go_run_cons]
  simp only [step, hc]
  have := go_skip_flat .skip (by decide) { st with hit := false } [] p h
  rw [List.append_nil] at this
  simp only [Bool.false_eq_true, if_false]
  rw [this]
  rfl

/-! ## C69 -/

/-- Values with which object-like macros work: decimal and octal numbers, `0x` numbers, and strings that are neither. -/
def GoodValue : Token → Prop
  | .num w => (w ≠ [] ∧ ∀ c ∈ w, c ∈ digits) ∨ ∃ r, r ≠ [] ∧ w = '0' :: 'x' :: r ∧ ∀ c ∈ r, c ∈ numChars
  | .str s => '\\' ∉ s ∧ (∃ c ∈ s, c ∉ numChars) ∧ s ≠ "_Bool".toList
  | _ => False

theorem isNumeric_good (w : List Char) (h : GoodValue (.num w)) : isNumeric w = true := by
  rcases h with ⟨_, h⟩ | ⟨r, hr, rfl, h⟩
  · unfold isNumeric
    simp only [List.all_eq_true]
    intro c hc
    have := h c hc
    split
    · exact (isHex_iff c).2 (by revert this; unfold digits numChars; simp; intro h; rcases h with h | h | h | h | h | h | h | h | h | h <;> simp [h])
    · exact (isDigit_iff c).2 this
  · unfold isNumeric
    have hl : (('0' :: 'x' :: r).length > 2) = True := by
      cases r with
      | nil => exact absurd rfl hr
      | cons _ _ => simp
    simp only [hl, List.take, List.all_cons]
    simp
    exact ⟨by decide, by decide, fun c hc => (isHex_iff c).2 (h c hc)⟩

theorem isNumeric_bad (s : List Char) (h : ∃ c ∈ s, c ∉ numChars) : isNumeric s = false := by
  obtain ⟨c, hc, hn⟩ := h
  unfold isNumeric
  rw [Bool.eq_false_iff]
  intro ha
  simp only [List.all_eq_true] at ha
  have := ha c hc
  split at this
  · exact hn ((isHex_iff c).1 this)
  · have := (isDigit_iff c).1 this
    apply hn
    revert this
    unfold digits numChars
    simp
    intro h
    rcases h with h | h | h | h | h | h | h | h | h | h <;> simp [h]

/-- **C69 (partial).** The use of an object-like macro whose value is a number or a string lexes exactly as its value written in
its place, for every name, value, and text that follows.  Missing: other values, for which the claim is false
(`C69_other_values`). -/
theorem C69_macro_use_partial (E : Env) (hE : E.nl = true) (ha : E.aliasing = true) (n : Nat) (w : List Char)
    (hw : (Token.ident w).Valid) (v : Token) (hv : GoodValue v) (hd : E.alias w = defineValue v.value.1 v.value.2)
    (rest : List Char) (hr : ∀ c, rest.head? = some c → c ∉ wordChars) :
    lex E (n + 1) (w ++ rest) = lex E (n + 1) (v.spelling ++ rest) := by
  obtain ⟨hne, hwc, hdg, hk⟩ := hw
  have hkw := keyword_none hk
  have hnum : ∀ c, c ∈ numChars → c ∈ wordChars := by decide
  cases w with
  | nil => exact absurd rfl hne
  | cons c w =>
    rw [lex_word E hE n c w (hwc c (by simp)) (hdg c rfl) (fun x hx => hwc x (by simp [hx])) rest hr]
    cases v with
    | num x =>
      have hi := isNumeric_good x hv
      simp only [Token.value, defineValue] at hd
      have e : lexWord E (c :: w) (skipWs true rest) = .tok .numeric x (skipWs true rest) := by
        unfold lexWord
        simp only [hkw, ha, hd, hi, if_true]
      rw [e]
      have hx : ∃ c r, x = c :: r ∧ c ∈ digits ∧ ∀ y ∈ r, y ∈ numChars := by
        rcases hv with ⟨h1, h2⟩ | ⟨r, _, rfl, h⟩
        · cases x with
          | nil => exact absurd rfl h1
          | cons y x =>
            refine ⟨y, x, rfl, h2 y (by simp), fun z hz => ?_⟩
            have : ∀ c, c ∈ digits → c ∈ numChars := by decide
            exact this z (h2 z (by simp [hz]))
        · refine ⟨'0', 'x' :: r, rfl, by decide, fun z hz => ?_⟩
          simp only [List.mem_cons] at hz
          rcases hz with rfl | hz
          · decide
          · exact h z hz
      obtain ⟨d, r, rfl, h1, h2⟩ := hx
      exact (lex_num E hE n d r h1 h2 rest (fun z hz hz' => hr z hz (hnum z hz'))).symm
    | str s =>
      obtain ⟨h1, h2, h3⟩ := hv
      have hi := isNumeric_bad s h2
      simp only [Token.value, defineValue] at hd
      have e : lexWord E (c :: w) (skipWs true rest) = .tok .string s (skipWs true rest) := by
        unfold lexWord
        simp only [hkw, ha, hd, hi, if_true, Bool.false_eq_true, if_false, if_neg h3]
      rw [e]
      exact (lex_str E hE n s h1 rest).symm
    | _ => exact hv.elim

/-- Hypotheses met: `#define LEN 0x1f` used in `LEN;`. -/
example : ∃ E : Env, lex E 1 "LEN;".toList = .tok .numeric "0x1f".toList [';'] := by
  refine ⟨⟨true, fun w => if w = "LEN".toList then some "0x1f".toList else none, true, none⟩, ?_⟩
  rw [show "LEN;".toList = "LEN".toList ++ [';'] by decide,
    C69_macro_use_partial _ rfl rfl 0 "LEN".toList ⟨by decide, by decide, by simp; decide, by decide⟩ (.num "0x1f".toList)
      (Or.inr ⟨['1', 'f'], by decide, by decide, by decide⟩) (by decide) [';'] (by simp; decide)]
  decide

/-- C69 fails for other values: a macro standing for an identifier is lexed as a string; one standing for a string of digits as a
number; one with a negative value, or none, as a number without digits; and a value in brackets makes a function-like macro. -/
theorem C69_other_values :
    lex ⟨true, fun w => if w = ['A'] then defineValue .identifier ['x'] else none, true, none⟩ 1 "A;".toList =
      .tok .string ['x'] [';'] ∧
    lex ⟨true, fun w => if w = ['A'] then defineValue .string "123".toList else none, true, none⟩ 1 "A;".toList =
      .tok .numeric "123".toList [';'] ∧
    lex ⟨true, fun w => if w = ['A'] then defineValue .minus [] else none, true, none⟩ 1 "A;".toList = .tok .numeric [] [';'] ∧
    defineValue .open_bracket [] = none := by
  decide

end Shecc.Props
