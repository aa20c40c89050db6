import Verif.Model.Driver
import Verif.Spec.CDriver

/-!
# C59, C60: the embedded library text and the command line
-/

namespace Shecc.Props
open Shecc.Driver CDriver

/-! ## C60 -/

def Item.set (o : Opts) : Item → Opts
  | .dumpIr => { o with dump := true }
  | .hardMul => { o with hard := true }
  | .noLibc => { o with libc := false }
  | .output f => { o with out := some f }
  | .input f => { o with inp := some f }

theorem optLoop_item (i : Item) (h : i.Ok) (rest : List String) (o : Opts) :
    optLoop (i.words ++ rest) o = optLoop rest (Item.set o i) := by
  cases i with
  | dumpIr => show optLoop (_ :: rest) o = _; rw [optLoop.eq_def]; simp [Item.set]
  | hardMul => show optLoop (_ :: rest) o = _; rw [optLoop.eq_def]; simp [Item.set]
  | noLibc => show optLoop (_ :: rest) o = _; rw [optLoop.eq_def]; simp [Item.set]
  | output f => simp [Item.words, optLoop, Item.set]
  | input f =>
    simp only [Item.Ok, List.mem_cons, List.not_mem_nil, or_false, not_or] at h
    obtain ⟨h1, h2, h3, h4⟩ := h
    show optLoop (f :: rest) o = _
    rw [optLoop.eq_def]
    simp [Item.set, h1, h2, h3, h4]

theorem optLoop_items (items : List Item) (h : ∀ i ∈ items, i.Ok) : ∀ o, optLoop (items.flatMap Item.words) o = items.foldl Item.set o := by
  induction items with
  | nil => intro o; rfl
  | cons i is ih =>
    intro o
    rw [List.flatMap_cons, optLoop_item i (h i (List.mem_cons_self ..)), ih (fun j hj => h j (List.mem_cons_of_mem _ hj))]
    rfl

theorem getLast_cons (x : String) (l : List String) (d : Option String) : ((x :: l).getLast?).or d = (l.getLast?).or (some x) := by
  cases l with
  | nil => rfl
  | cons y l => simp [List.getLast?_cons_cons, List.getLast?_cons]

theorem foldl_set (items : List Item) : ∀ o : Opts, items.foldl Item.set o =
    { dump := o.dump || decide (Item.dumpIr ∈ items)
      hard := o.hard || decide (Item.hardMul ∈ items)
      libc := o.libc && !decide (Item.noLibc ∈ items)
      out := (outputs items).getLast?.or o.out
      inp := (inputs items).getLast?.or o.inp } := by
  induction items with
  | nil => intro o; simp [outputs, inputs]
  | cons i is ih =>
    intro o
    rw [List.foldl_cons, ih]
    cases i with
    | dumpIr => simp [Item.set, outputs, inputs]
    | hardMul => simp [Item.set, outputs, inputs]
    | noLibc => simp [Item.set, outputs, inputs]
    | output f =>
      have e : outputs (.output f :: is) = f :: outputs is := rfl
      have e' : inputs (.output f :: is) = inputs is := rfl
      rw [e, e', getLast_cons]
      simp [Item.set]
    | input f =>
      have e : outputs (.input f :: is) = outputs is := rfl
      have e' : inputs (.input f :: is) = f :: inputs is := rfl
      rw [e, e', getLast_cons]
      simp [Item.set]

/-- **C60.** For every command line made of the documented items, in any order and number: each flag is set exactly if its item
occurs, the last output and input names win (`a.out` if there is no output), and without an input compilation is refused. -/
theorem C60_command_line (items : List Item) (h : ∀ i ∈ items, i.Ok) :
    start (items.flatMap Item.words) =
      match (inputs items).getLast? with
      | none => none
      | some f => some
          ({ dump := decide (Item.dumpIr ∈ items), hard := decide (Item.hardMul ∈ items), libc := !decide (Item.noLibc ∈ items),
             out := (outputs items).getLast?, inp := some f }, (outputs items).getLast?.getD "a.out") := by
  unfold start
  rw [optLoop_items items h, foldl_set]
  simp only [Bool.false_or, Bool.true_and]
  cases hi : (inputs items).getLast? with
  | none => simp
  | some f => cases (outputs items).getLast? <;> simp

/-- **C60.** Position independence: reordering the items of a command line with at most one input and one output changes
nothing. -/
theorem C60_position_independent (a b : List Item) (h : ∀ i ∈ a, i.Ok) (hp : a.Perm b) (h1 : (inputs a).length ≤ 1)
    (h2 : (outputs a).length ≤ 1) : start (a.flatMap Item.words) = start (b.flatMap Item.words) := by
  have one : ∀ l l' : List String, l.Perm l' → l.length ≤ 1 → l = l' := by
    intro l l' hp hl
    cases l with
    | nil => exact (List.nil_perm.1 hp).symm
    | cons x l =>
      have : l = [] := List.eq_nil_of_length_eq_zero (by simp only [List.length_cons] at hl; omega)
      subst this
      exact List.singleton_perm.1 hp
  have e1 : inputs a = inputs b := one _ _ (hp.filterMap _) h1
  have e2 : outputs a = outputs b := one _ _ (hp.filterMap _) h2
  rw [C60_command_line a h, C60_command_line b (fun i hi => h i (hp.mem_iff.2 hi)), e1, e2]
  simp only [hp.mem_iff]

example : start ["+m", "x.c", "-o", "x", "--no-libc"] = start ["--no-libc", "-o", "x", "+m", "x.c"] :=
  C60_position_independent [.hardMul, .input "x.c", .output "x", .noLibc] [.noLibc, .output "x", .hardMul, .input "x.c"]
    (by intro i hi; simp at hi; rcases hi with rfl | rfl | rfl | rfl <;> simp [Item.Ok])
    (by decide) (by decide) (by decide)

/-- Outside the documented usage: an `-o` without a name is accepted and the default name used; an unknown option is taken for
the input file. -/
theorem C60_undocumented : start ["x.c", "-o"] = start ["x.c"] ∧ (start ["--help"]).map (·.1.inp) = some (some "--help") := by
  decide

/-! ## C59 -/

/-- One line of the generated text: the literal denotes the line. -/
theorem literal_line (r : List Char) : ∀ l : List Char, '\\' ∉ l →
    literal (l.flatMap (fun c => if c = '"' then ['\\', '"'] else if c = '\n' then [] else [c]) ++ '\\' :: 'n' :: '"' :: r) =
      some (l.filter (· ≠ '\n') ++ ['\n'], r) := by
  intro l
  induction l with
  | nil => intro _; simp [literal]
  | cons c l ih =>
    intro h
    simp only [List.mem_cons, not_or] at h
    have ih := ih h.2
    by_cases h1 : c = '"'
    · subst h1
      simp only [List.flatMap_cons, if_true, List.cons_append, List.nil_append, literal, ih, Option.map_some]
      rfl
    · by_cases h2 : c = '\n'
      · subst h2
        simp only [List.flatMap_cons, List.nil_append, if_true, if_neg h1]
        rw [ih]
        simp
      · simp only [List.flatMap_cons, if_neg h1, if_neg h2, List.cons_append, List.nil_append]
        rw [literal, ih]
        · simp [h2]
        · exact fun e => h1 e
        · intro x e; exact absurd e.symm h.1
        · intro x e; exact absurd e.symm h.1
        · exact fun e => h.1 e.symm
        · exact fun e => h2 e

theorem after_append (p t : List Char) : after p (p ++ t) = some t := by
  unfold after
  rw [if_pos (List.isPrefixOf_iff_prefix.2 (List.prefix_append p t)), List.drop_left]

theorem fed_line (n : Nat) (l rest v : List Char) (h : '\\' ∉ l) (hv : fed n rest = some v) :
    fed (n + 1) (writeLine l ++ rest) = some (l.filter (· ≠ '\n') ++ ['\n'] ++ v) := by
  unfold writeLine fed
  have e : "\");\n".toList = '"' :: ");\n".toList := by decide
  rw [e]
  simp only [List.append_assoc, List.cons_append, List.nil_append]
  rw [after_append]
  simp only [Option.bind_some]
  rw [literal_line _ l h]
  simp only [Option.bind_some]
  rw [after_append]
  simp [hv]

theorem fgets_append (n : Nat) : ∀ s, (fgets n s).1 ++ (fgets n s).2 = s := by
  induction n with
  | zero => intro s; rfl
  | succ n ih =>
    intro s
    cases s with
    | nil => rfl
    | cons c s =>
      unfold fgets
      split
      · rename_i h; simp [h]
      · simp [ih]

/-- **C59.** No character is lost: whatever the line lengths, the text fed to the compiler is the library source up to line
breaks, if the source contains no backslash. -/
theorem C59_characters (src : List Char) (h : '\\' ∉ src) :
    ∃ n v, fed n (loadFrom src) = some v ∧ v.filter (· ≠ '\n') = src.filter (· ≠ '\n') := by
  suffices H : ∀ k, ∀ src : List Char, src.length ≤ k → '\\' ∉ src →
      ∃ n v, fed n (loadFrom src) = some v ∧ v.filter (· ≠ '\n') = src.filter (· ≠ '\n') from H _ src (Nat.le_refl _) h
  intro k
  induction k with
  | zero =>
    intro src hl _
    have : src = [] := List.eq_nil_of_length_eq_zero (by omega)
    subst this
    exact ⟨0, [], by simp [loadFrom, fed], rfl⟩
  | succ k ih =>
    intro src hl h
    cases src with
    | nil => exact ⟨0, [], by simp [loadFrom, fed], rfl⟩
    | cons c s =>
      have e := fgets_append 199 (c :: s)
      have hlt := (fgets_length 199 (c :: s)).2 (by decide) (by simp)
      rw [loadFrom]
      generalize fgets 199 (c :: s) = p at *
      obtain ⟨a, b⟩ := p
      simp only at *
      have ha : '\\' ∉ a := fun h' => h (by rw [← e]; simp [h'])
      have hb : '\\' ∉ b := fun h' => h (by rw [← e]; simp [h'])
      obtain ⟨n, v, h1, h2⟩ := ih b (by omega) hb
      refine ⟨n + 1, _, fed_line n a _ v ha h1, ?_⟩
      rw [← e]
      rw [List.filter_append, List.filter_append, List.filter_append, h2]
      simp

theorem lines_fgets : ∀ (s : List Char) (n : Nat), s ≠ [] → (∀ l ∈ (lines s).head?, l.length < n) →
    ∃ l, lines s = l :: lines (fgets n s).2 ∧ (fgets n s).1.filter (· ≠ '\n') = l := by
  intro s
  induction s with
  | nil => intro n h; exact absurd rfl h
  | cons c s ih =>
    intro n _ hl
    cases n with
    | zero =>
      exfalso
      cases h : lines (c :: s) with
      | nil =>
        unfold lines at h
        split at h
        · cases h
        · split at h <;> cases h
      | cons l ls => rw [h] at hl; exact absurd (hl l rfl) (Nat.not_lt_zero _)
    | succ n =>
      unfold fgets
      by_cases hc : c = '\n'
      · subst hc
        simp [lines]
      · rw [if_neg hc]
        simp only [lines, if_neg hc] at hl ⊢
        cases s with
        | nil => simp [lines, hc, fgets]; cases n <;> simp [fgets, lines]
        | cons d s =>
          have hne : d :: s ≠ [] := by simp
          cases hs : lines (d :: s) with
          | nil =>
            exfalso
            unfold lines at hs
            split at hs
            · cases hs
            · split at hs <;> cases hs
          | cons l ls =>
            rw [hs] at hl
            simp only [List.head?_cons, Option.mem_some_iff, forall_eq', List.length_cons] at hl
            obtain ⟨l', e1, e2⟩ := ih n hne (by rw [hs]; simp; omega)
            rw [hs] at e1
            simp only [List.cons.injEq] at e1
            obtain ⟨e1, e1'⟩ := e1
            subst e1
            refine ⟨c :: l, ?_, ?_⟩
            · simp only; rw [e1']
            · rw [List.filter_cons_of_pos (by simpa using hc), e2]

/-- **C59.** The text fed to the compiler is the library source, line by line, for every source without backslashes whose lines
have at most 198 characters. -/
theorem C59_inlined_text (src : List Char) (h : '\\' ∉ src) (hl : ∀ l ∈ lines src, l.length ≤ 198) :
    fed (lines src).length (loadFrom src) = some (terminated src) := by
  suffices H : ∀ k, ∀ src : List Char, src.length ≤ k → '\\' ∉ src → (∀ l ∈ lines src, l.length ≤ 198) →
      fed (lines src).length (loadFrom src) = some (terminated src) from H _ src (Nat.le_refl _) h hl
  intro k
  induction k with
  | zero =>
    intro src hk _ _
    have : src = [] := List.eq_nil_of_length_eq_zero (by omega)
    subst this
    simp [loadFrom, fed, lines, terminated]
  | succ k ih =>
    intro src hk h hl
    cases src with
    | nil => simp [loadFrom, fed, lines, terminated]
    | cons c s =>
      obtain ⟨l, e1, e2⟩ := lines_fgets (c :: s) 199 (by simp) (by
        intro l hl'
        have := hl l (List.mem_of_mem_head? hl')
        omega)
      have e := fgets_append 199 (c :: s)
      have hlt := (fgets_length 199 (c :: s)).2 (by decide) (by simp)
      unfold terminated
      rw [e1] at hl ⊢
      rw [loadFrom]
      generalize fgets 199 (c :: s) = p at *
      obtain ⟨a, b⟩ := p
      simp only at *
      have ha : '\\' ∉ a := fun h' => h (by rw [← e]; simp [h'])
      have hb : '\\' ∉ b := fun h' => h (by rw [← e]; simp [h'])
      have := ih b (by omega) hb (fun x hx => hl x (List.mem_cons_of_mem _ hx))
      rw [List.length_cons, fed_line _ a _ _ ha this, e2]
      simp [terminated]

/-- `write_line` ignores newlines. -/
theorem writeLine_filter (l : List Char) : writeLine l = writeLine (l.filter (· ≠ '\n')) := by
  unfold writeLine
  congr 3
  induction l with
  | nil => rfl
  | cons c l ih =>
    by_cases h2 : c = '\n'
    · subst h2
      simp only [List.flatMap_cons, ih]
      simp
    · rw [List.filter_cons_of_pos (by simpa using h2)]
      simp only [List.flatMap_cons, ih]

theorem literal_escapes (r : List Char) : ∀ n, ∀ l v : List Char, l.length ≤ n → '\n' ∉ l → escapes l = some v →
    literal (l.flatMap (fun c => if c = '"' then ['\\', '"'] else if c = '\n' then [] else [c]) ++ '\\' :: 'n' :: '"' :: r) =
      some (v ++ ['\n'], r) := by
  intro n
  induction n with
  | zero =>
    intro l v hl _ he
    have : l = [] := List.eq_nil_of_length_eq_zero (by omega)
    subst this
    simp only [escapes, Option.some.injEq] at he
    subst he
    simp [literal]
  | succ n ih =>
    intro l v hl hn he
    unfold escapes at he
    split at he
    · cases he; simp [literal]
    · rename_i r'
      simp only [Option.map_eq_some_iff] at he
      obtain ⟨v', he, rfl⟩ := he
      simp only [List.mem_cons, not_or] at hn
      have := ih r' v' (by simp only [List.length_cons] at hl; omega) hn.2.2 he
      simp only [List.flatMap_cons]
      simp [literal, this]
    · cases he
    · rename_i c r' h1 h2
      simp only [Option.map_eq_some_iff] at he
      obtain ⟨v', he, rfl⟩ := he
      simp only [List.mem_cons, not_or] at hn
      have ih := ih r' v' (by simp only [List.length_cons] at hl; omega) hn.2 he
      have hb : c ≠ '\\' := fun e => h2 e
      by_cases hq : c = '"'
      · subst hq
        simp only [List.flatMap_cons, if_true, List.cons_append, List.nil_append, literal, ih, Option.map_some]
      · have hc : c ≠ '\n' := fun e => hn.1 e.symm
        simp only [List.flatMap_cons, if_neg hq, if_neg hc, List.cons_append, List.nil_append]
        rw [literal, ih]
        · simp
        · exact fun e => hq e
        · intro x e; exact absurd e hb
        · intro x e; exact absurd e hb
        · exact fun e => hb e
        · exact fun e => hc e

theorem lines_no_newline : ∀ (s l : List Char), l ∈ lines s → '\n' ∉ l := by
  intro s
  induction s with
  | nil => intro l h; cases h
  | cons c s ih =>
    intro l h
    unfold lines at h
    split at h
    · simp only [List.mem_cons] at h
      rcases h with rfl | h
      · simp
      · exact ih l h
    · rename_i hc
      split at h
      · simp only [List.mem_singleton] at h
        subst h
        simp; exact fun e => hc e.symm
      · rename_i l' ls hs
        simp only [List.mem_cons] at h
        rcases h with rfl | h
        · simp only [List.mem_cons, not_or]
          exact ⟨fun e => hc e.symm, ih l' (by rw [hs]; simp)⟩
        · exact ih l (by rw [hs]; simp [h])

theorem fed_escaped (n : Nat) (l rest u v : List Char) (h : '\n' ∉ l) (hu : escapes l = some u) (hv : fed n rest = some v) :
    fed (n + 1) (writeLine l ++ rest) = some (u ++ ['\n'] ++ v) := by
  unfold writeLine fed
  have e : "\");\n".toList = '"' :: ");\n".toList := by decide
  rw [e]
  simp only [List.append_assoc, List.cons_append, List.nil_append]
  rw [after_append]
  simp only [Option.bind_some]
  rw [literal_escapes _ _ l u (Nat.le_refl _) h hu]
  simp only [Option.bind_some]
  rw [after_append]
  simp [hv]

/-- **C59.** Sources may also contain `\n` escapes, as the shipped library does: the text fed to the compiler is then the source
with each such escape replaced by a newline character. -/
theorem C59_escaped_text (src : List Char) (hl : ∀ l ∈ lines src, l.length ≤ 198) (vs : List (List Char))
    (hv : (lines src).map escapes = vs.map some) :
    fed (lines src).length (loadFrom src) = some (vs.flatMap (· ++ ['\n'])) := by
  suffices H : ∀ k, ∀ (src : List Char) (vs : List (List Char)), src.length ≤ k → (∀ l ∈ lines src, l.length ≤ 198) →
      (lines src).map escapes = vs.map some →
      fed (lines src).length (loadFrom src) = some (vs.flatMap (· ++ ['\n'])) from H _ src vs (Nat.le_refl _) hl hv
  intro k
  induction k with
  | zero =>
    intro src vs hk _ hv
    have : src = [] := List.eq_nil_of_length_eq_zero (by omega)
    subst this
    cases vs with
    | nil => simp [loadFrom, fed, lines]
    | cons v vs => simp [lines] at hv
  | succ k ih =>
    intro src vs hk hl hv
    cases src with
    | nil =>
      cases vs with
      | nil => simp [loadFrom, fed, lines]
      | cons v vs => simp [lines] at hv
    | cons c s =>
      obtain ⟨l, e1, e2⟩ := lines_fgets (c :: s) 199 (by simp) (by
        intro l hl'
        have := hl l (List.mem_of_mem_head? hl')
        omega)
      have hlt := (fgets_length 199 (c :: s)).2 (by decide) (by simp)
      have hno : '\n' ∉ l := lines_no_newline (c :: s) l (by rw [e1]; simp)
      rw [e1] at hl hv ⊢
      rw [loadFrom]
      generalize fgets 199 (c :: s) = p at *
      obtain ⟨a, b⟩ := p
      simp only at *
      cases vs with
      | nil => simp at hv
      | cons v vs =>
        simp only [List.map_cons, List.cons.injEq] at hv
        have := ih b vs (by omega) (fun x hx => hl x (List.mem_cons_of_mem _ hx)) hv.2
        rw [writeLine_filter, e2, List.length_cons, fed_escaped _ l _ _ _ hno hv.1 this]
        simp

/-- The escape in lib/c.c:452. -/
example : fed 1 (loadFrom "if (c == '\\n') {\n".toList) = some "if (c == '\n') {\n".toList :=
  C59_escaped_text "if (c == '\\n') {\n".toList (by decide) ["if (c == '\n') {".toList] (by decide)

example : fed 3 (loadFrom "puts(\"hi\");\n\n}".toList) = some "puts(\"hi\");\n\n}\n".toList :=
  C59_inlined_text "puts(\"hi\");\n\n}".toList (by decide) (by decide)

/-- C59 needs the bounds: a backslash escape is interpreted once more (here the two characters of `\n` become a newline), and a
line of 199 characters is followed by an empty line. -/
theorem C59_bounds :
    fed 1 (loadFrom "\\n".toList) = some ['\n', '\n'] ∧
    fed 2 (loadFrom (List.replicate 199 'a' ++ ['\n'])) = some (List.replicate 199 'a' ++ ['\n', '\n']) := by
  constructor
  · rw [show "\\n".toList = ['\\', 'n'] by decide, loadFrom, show (fgets 199 ['\\', 'n']) = (['\\', 'n'], []) by decide, loadFrom]
    decide
  · have e : fgets 199 (List.replicate 199 'a' ++ ['\n']) = (List.replicate 199 'a', ['\n']) := by decide +kernel
    have e2 : List.replicate 199 'a' ++ ['\n'] = 'a' :: (List.replicate 198 'a' ++ ['\n']) := by decide +kernel
    have e3 : fgets 199 ['\n'] = (['\n'], []) := by decide
    rw [e2, loadFrom, ← e2, e, loadFrom, e3, loadFrom]
    decide +kernel

end Shecc.Props
