import Verif.Model.Source
import Verif.Spec.CSource
import Verif.Props.LibcMisc

/-!
# C91: the source text the compiler works on
-/

namespace Shecc.Props.Source
open Shecc.Source CSource
open Shecc.Text (Byte ascii)

/-- `nextChunk` is what `fgets` delivers (C42). -/
theorem nextChunk_line : ∀ (k : Nat) (s : List Byte), LineOf k s (nextChunk k s).1 (nextChunk k s).2
  | 0, s => by rw [nextChunk]; exact .full s
  | k + 1, [] => by rw [nextChunk]; exact .eof _
  | k + 1, c :: s => by
    rw [nextChunk]
    by_cases h : c = 10
    · subst h; simp only [if_true]; exact .newline _ _
    · simp only [if_neg h]; exact .char h (nextChunk_line k s)

theorem chunk_short : ∀ (k : Nat) (l rest : List Byte), (∀ b ∈ l, b ≠ 10) → l.length < k → nextChunk k (l ++ 10 :: rest) = (l ++ [10], rest)
  | 0, l, rest, _, h => by omega
  | k + 1, [], rest, _, _ => by simp [nextChunk]
  | k + 1, c :: l, rest, hl, h => by
    have hc := hl c (by simp)
    simp only [List.cons_append, nextChunk, if_neg hc]
    rw [chunk_short k l rest (fun b hb => hl b (by simp [hb])) (by simpa using h)]

theorem chunk_long : ∀ (k : Nat) (l rest : List Byte), (∀ b ∈ l, b ≠ 10) → k ≤ l.length → nextChunk k (l ++ rest) = (l.take k, l.drop k ++ rest)
  | 0, l, rest, _, h => by simp [nextChunk]
  | k + 1, [], rest, _, h => by simp at h
  | k + 1, c :: l, rest, hl, h => by
    have hc := hl c (by simp)
    simp only [List.cons_append, nextChunk, if_neg hc]
    rw [chunk_long k l rest (fun b hb => hl b (by simp [hb])) (by simpa using h)]
    simp

theorem chunk_end : ∀ (k : Nat) (l : List Byte), (∀ b ∈ l, b ≠ 10) → l.length ≤ k → nextChunk k l = (l, [])
  | 0, l, _, h => by
    have : l = [] := List.length_eq_zero_iff.1 (by omega)
    subst this; rfl
  | k + 1, [], _, _ => rfl
  | k + 1, c :: l, hl, h => by
    have hc := hl c (by simp)
    simp only [nextChunk, if_neg hc]
    rw [chunk_end k l (fun b hb => hl b (by simp [hb])) (by simpa using h)]

theorem cstr_id {l : List Byte} (h : ∀ b ∈ l, b ≠ 0) : cstr l = l := by
  unfold cstr
  induction l with
  | nil => rfl
  | cons c l ih =>
    rw [List.takeWhile_cons, if_pos (by simpa using h c (by simp)), ih (fun b hb => h b (by simp [hb]))]

theorem nl : (newline : Byte) = 10 := rfl

theorem isInclude_prefix {l : List Byte} (h : l.take 9 = includeText ∧ l.getD 9 0 = 34) : bytes "#include \"" <+: l := by
  have hlen : 9 < l.length := by
    by_cases h' : 9 < l.length
    · exact h'
    · have := h.2
      rw [List.getD_eq_getElem?_getD, List.getElem?_eq_none (by omega)] at this
      exact absurd this (by decide)
  refine ⟨l.drop 10, ?_⟩
  have e : l.take 10 = bytes "#include \"" := by
    rw [List.take_succ, h.1]
    have := h.2
    rw [List.getD_eq_getElem?_getD, List.getElem?_eq_getElem hlen] at this
    rw [List.getElem?_eq_getElem hlen]
    simp only [Option.getD_some] at this
    rw [this]
    decide
  rw [← e, List.take_append_drop]

theorem prefix_snoc {p l : List Byte} (hp : 10 ∉ p) (h : p <+: l ++ [10]) : p <+: l := by
  obtain ⟨t, ht⟩ := h
  rcases List.eq_nil_or_concat t with rfl | ⟨t', x, rfl⟩
  · rw [List.append_nil] at ht
    exact absurd (by rw [ht]; simp) hp
  · refine ⟨t', ?_⟩
    rw [List.concat_eq_append, ← List.append_assoc] at ht
    exact (List.append_inj' ht rfl).1

theorem bytes_no_nl : (10 : Byte) ∉ bytes "#include \"" := by decide

section
variable {fs : List Byte → Option (List Byte)} {g : Byte}

/-- One piece of text that is not a directive. -/
theorem load_piece {file content acc buf rest : List Byte} (hne : content ≠ []) (hc : nextChunk 255 content = (buf, rest)) (h0 : ∀ b ∈ buf, b ≠ 0)
    (hni : ¬ bytes "#include \"" <+: buf) (hlen : acc.length + buf.length < 524288) (n : Nat) :
    loadLines fs g (n + 1) file content acc = loadLines fs g n file rest (acc ++ buf) := by
  rw [loadLines]
  rw [if_neg hne, hc]
  simp only [cstr_id h0]
  rw [if_neg (fun h => hni (isInclude_prefix h)), if_pos hlen]

theorem load_line (file : List Byte) : ∀ (m : Nat) (l rest acc : List Byte), l.length ≤ m → (∀ b ∈ l, b ≠ 10 ∧ b ≠ 0) → ¬ bytes "#include \"" <:+: l →
    acc.length + l.length + 1 < 524288 → ∃ k, ∀ n, loadLines fs g (n + k) file (l ++ 10 :: rest) acc = loadLines fs g n file rest (acc ++ (l ++ [10])) := by
  intro m
  induction m with
  | zero =>
    intro l rest acc hm h10 hni hlen
    have : l = [] := List.length_eq_zero_iff.1 (by omega)
    subst this
    exact ⟨1, fun n => load_piece (buf := [] ++ [10]) (by simp) (chunk_short 255 [] rest (by simp) (by simp)) (by simp) (fun h => hni (prefix_snoc bytes_no_nl h).isInfix) (by simpa using hlen) n⟩
  | succ m ih =>
    intro l rest acc hm h10 hni hlen
    by_cases hs : l.length < 255
    · exact ⟨1, fun n => load_piece (by simp) (chunk_short 255 l rest (fun b hb => (h10 b hb).1) hs)
        (by intro b hb; simp at hb; rcases hb with hb | rfl; exact (h10 b hb).2; decide)
        (fun h => hni (prefix_snoc bytes_no_nl h).isInfix) (by simp; omega) n⟩
    · have hd : ∀ b ∈ l.drop 255, b ≠ 10 ∧ b ≠ 0 := fun b hb => h10 b (List.mem_of_mem_drop hb)
      obtain ⟨k, hk⟩ := ih (l.drop 255) rest (acc ++ l.take 255) (by simp; omega) hd
        (fun h => hni (h.trans (List.drop_suffix _ _).isInfix)) (by simp; omega)
      refine ⟨k + 1, fun n => ?_⟩
      have := load_piece (fs := fs) (g := g) (file := file) (acc := acc) (content := l ++ 10 :: rest) (by simp) (chunk_long 255 l (10 :: rest) (fun b hb => (h10 b hb).1) (by omega))
        (fun b hb => (h10 b (List.mem_of_mem_take hb)).2) (fun h => hni (h.isInfix.trans (List.take_prefix _ _).isInfix)) (by simp; omega) (n + k)
      rw [show n + (k + 1) = n + k + 1 by omega, this, hk n, List.append_assoc, ← List.append_assoc (l.take 255), List.take_append_drop]

theorem load_last (file : List Byte) : ∀ (m : Nat) (l acc : List Byte), l.length ≤ m → l ≠ [] → (∀ b ∈ l, b ≠ 10 ∧ b ≠ 0) → ¬ bytes "#include \"" <:+: l →
    acc.length + l.length < 524288 → ∃ k, ∀ n, loadLines fs g (n + k) file l acc = loadLines fs g n file [] (acc ++ l) := by
  intro m
  induction m with
  | zero =>
    intro l acc hm hne
    exact (hne (List.length_eq_zero_iff.1 (by omega))).elim
  | succ m ih =>
    intro l acc hm hne h10 hni hlen
    by_cases hs : l.length ≤ 255
    · exact ⟨1, fun n => load_piece hne (chunk_end 255 l (fun b hb => (h10 b hb).1) hs) (fun b hb => (h10 b hb).2) (fun h => hni h.isInfix) hlen n⟩
    · have hd : ∀ b ∈ l.drop 255, b ≠ 10 ∧ b ≠ 0 := fun b hb => h10 b (List.mem_of_mem_drop hb)
      obtain ⟨k, hk⟩ := ih (l.drop 255) (acc ++ l.take 255) (by simp; omega) (by intro h; rw [List.drop_eq_nil_iff] at h; omega) hd
        (fun h => hni (h.trans (List.drop_suffix _ _).isInfix)) (by simp; omega)
      refine ⟨k + 1, fun n => ?_⟩
      have hch := chunk_long 255 l [] (fun b hb => (h10 b hb).1) (by omega)
      rw [List.append_nil, List.append_nil] at hch
      have := load_piece (fs := fs) (g := g) (file := file) (acc := acc) (content := l) hne hch
        (fun b hb => (h10 b (List.mem_of_mem_take hb)).2) (fun h => hni (h.isInfix.trans (List.take_prefix _ _).isInfix)) (by simp; omega) (n + k)
      rw [show n + (k + 1) = n + k + 1 by omega, this, hk n, List.append_assoc, List.take_append_drop]

/-- The directory part, as the loop finds it. -/
theorem slash_dir (p : List Byte) (h : 2 ≤ (dir p).length) : slash p (p.length - 1) ≠ 0 ∧ p.take (slash p (p.length - 1) + 1) = dir p := by
  have key : ∀ (r : List Byte) (q t : List Byte), p = q ++ t → r = q.reverse → (r.dropWhile (· ≠ ascii '/')).length ≥ 2 →
      slash p (q.length - 1) ≠ 0 ∧ p.take (slash p (q.length - 1) + 1) = (r.dropWhile (· ≠ ascii '/')).reverse := by
    intro r
    induction r with
    | nil => intro q t _ _ h; simp at h
    | cons x r ih =>
      intro q t hp hr hl
      have hq : q = r.reverse ++ [x] := by
        have := congrArg List.reverse hr
        simpa using this.symm
      subst hq
      by_cases hx : x = ascii '/'
      · have hd : (x :: r).dropWhile (· ≠ ascii '/') = x :: r := by simp [List.dropWhile, hx]
        rw [hd] at hl ⊢
        obtain ⟨c, hc⟩ : ∃ c, r.length = c + 1 := ⟨r.length - 1, by simp at hl; omega⟩
        have hlen : (r.reverse ++ [x]).length - 1 = c + 1 := by simp [hc]
        have hget : p.getD (c + 1) 0 = 47 := by
          rw [hp, List.getD_eq_getElem?_getD, List.append_assoc, List.getElem?_append_right (by simp [hc])]
          simp [hc, hx]
          rfl
        rw [hlen, slash, if_pos hget]
        refine ⟨by omega, ?_⟩
        rw [hp, List.reverse_cons, List.take_append_of_le_length (by simp [hc]), List.take_of_length_le (by simp [hc])]
      · have hd : (x :: r).dropWhile (· ≠ ascii '/') = r.dropWhile (· ≠ ascii '/') := by simp [List.dropWhile, hx]
        rw [hd] at hl ⊢
        obtain ⟨h1, h2⟩ := ih r.reverse (x :: t) (by rw [hp]; simp) (by simp) hl
        have hrl : 2 ≤ r.length := by
          have := (List.dropWhile_suffix (· ≠ ascii '/') (l := r)).length_le
          omega
        obtain ⟨c, hc⟩ : ∃ c, r.length = c + 1 := ⟨r.length - 1, by omega⟩
        have hlen : (r.reverse ++ [x]).length - 1 = c + 1 := by simp [hc]
        have hget : ¬ p.getD (c + 1) 0 = 47 := by
          rw [hp, List.getD_eq_getElem?_getD, List.append_assoc, List.getElem?_append_right (by simp [hc])]
          simp [hc]
          exact hx
        rw [hlen, slash, if_neg hget]
        have : r.reverse.length - 1 = c := by simp [hc]
        rw [this] at h1 h2
        exact ⟨h1, h2⟩
  have := key p.reverse p [] (by simp) rfl (by simpa [dir] using h)
  exact this

theorem includeLine_facts {name : List Byte} (hn : ∀ b ∈ name, b ≠ newline ∧ b ≠ 0) :
    ∃ l, includeLine name = l ++ [10] ∧ (∀ b ∈ l, b ≠ 10) ∧ (∀ b ∈ includeLine name, b ≠ 0) ∧ l.length = name.length + 11 := by
  refine ⟨bytes "#include \"" ++ name ++ [ascii '"'], by simp [includeLine, newline]; decide, ?_, ?_, by simp [bytes]⟩
  · intro b hb
    simp only [List.mem_append, List.mem_singleton] at hb
    rcases hb with (hb | hb) | rfl
    · exact fun e => bytes_no_nl (e ▸ hb)
    · exact (hn b hb).1
    · decide
  · intro b hb
    simp only [includeLine, List.mem_append, List.mem_cons, List.not_mem_nil, or_false] at hb
    rcases hb with (hb | hb) | rfl | rfl
    · have : ∀ b ∈ bytes "#include \"", b ≠ 0 := by decide
      exact this b hb
    · exact (hn b hb).2
    · decide
    · decide

theorem load_all {path content text : List Byte} (h : Included fs path content text) : ∀ acc : List Byte, acc.length + text.length < 524288 →
    ∃ N, ∀ n, N ≤ n → loadLines fs g n path content acc = some (.text (acc ++ text)) := by
  induction h with
  | done =>
    intro acc _
    refine ⟨1, fun n hn => ?_⟩
    obtain ⟨n, rfl⟩ : ∃ k, n = k + 1 := ⟨n - 1, by omega⟩
    simp [loadLines]
  | @incl path name content text rest text' hd hname hnl hpl hfs _ _ ih1 ih2 =>
    intro acc hlen
    obtain ⟨N1, h1⟩ := ih1 acc (by simp at hlen; omega)
    obtain ⟨N2, h2⟩ := ih2 (acc ++ text) (by simp at hlen ⊢; omega)
    obtain ⟨l, e1, e2, e3, e4⟩ := includeLine_facts hname
    refine ⟨N1 + N2 + 2, fun n hn => ?_⟩
    obtain ⟨n, rfl⟩ : ∃ k, n = k + 2 := ⟨n - 2, by omega⟩
    have hch : nextChunk 255 (includeLine name ++ rest) = (includeLine name, rest) := by
      rw [e1, List.append_assoc, List.singleton_append, chunk_short 255 l rest e2 (by omega)]
    have hlenI : (includeLine name).length = name.length + 12 := by rw [e1]; simp [e4]
    have hsplit : includeLine name = bytes "#include \"" ++ (name ++ [ascii '"', newline]) := by simp [includeLine]
    have hb10 : (bytes "#include \"").length = 10 := by decide
    have hinc : (includeLine name).take 9 = includeText ∧ (includeLine name).getD 9 0 = 34 := by
      constructor
      · rw [hsplit, List.take_append_of_le_length (by rw [hb10]; omega)]; decide
      · rw [hsplit, List.getD_eq_getElem?_getD, List.getElem?_append_left (by rw [hb10]; omega)]; decide
    have hname' : ((includeLine name).drop 10).take ((includeLine name).length - 12) = name := by
      rw [hlenI, hsplit, List.drop_append_of_le_length (by rw [hb10]; omega), List.drop_of_length_le (by rw [hb10]; omega), List.nil_append,
        show name.length + 12 - 12 = name.length by omega, List.take_append_of_le_length (by omega), List.take_of_length_le (by omega)]
    obtain ⟨s1, s2⟩ := slash_dir path hd
    have hdl : (dir path).length = slash path (path.length - 1) + 1 := by
      have hle : slash path (path.length - 1) + 1 ≤ path.length := by
        have hsl : ∀ c, slash path c ≤ c := by
          intro c
          induction c with
          | zero => simp [slash]
          | succ c ih => rw [slash]; split <;> omega
        have := hsl (path.length - 1)
        have hp : (dir path).length ≤ path.length := by
          unfold dir
          have := (List.dropWhile_suffix (· ≠ ascii '/') (l := path.reverse)).length_le
          simpa using this
        omega
      rw [← s2, List.length_take]; omega
    have hpath : pathOf g path (includeLine name) = some (dir path ++ name) := by
      simp only [pathOf, hname']
      rw [if_neg (by omega), if_pos (by rw [List.length_append] at hpl; omega), if_pos s1, s2]
    have hload : loadFile fs g (n + 1) (dir path ++ name) acc = some (.text (acc ++ text)) := by
      rw [loadFile, hfs]
      exact h1 n (by omega)
    rw [loadLines, if_neg (by rw [e1]; simp)]
    simp only [hch, cstr_id e3]
    rw [if_pos hinc, hpath]
    simp only [hload]
    rw [h2 (n + 1) (by omega), List.append_assoc]
  | @line path l rest text' hl hni _ ih =>
    intro acc hlen
    rw [nl] at *
    simp only [List.length_append, List.length_cons] at hlen
    obtain ⟨k, hk⟩ := load_line (fs := fs) (g := g) path l.length l rest acc (Nat.le_refl _) (fun b hb => hl b hb) hni (by omega)
    obtain ⟨N, hN⟩ := ih (acc ++ (l ++ [10])) (by simp; omega)
    refine ⟨N + k, fun n hn => ?_⟩
    obtain ⟨n, rfl⟩ : ∃ j, n = j + k := ⟨n - k, by omega⟩
    rw [hk n, hN n (by omega)]
    simp
  | @last path l hne hl hni =>
    intro acc hlen
    obtain ⟨k, hk⟩ := load_last (fs := fs) (g := g) path l.length l acc (Nat.le_refl _) hne (fun b hb => hl b hb) hni hlen
    refine ⟨k + 1, fun n hn => ?_⟩
    obtain ⟨n, rfl⟩ : ∃ j, n = j + 1 + k := ⟨n - k - 1, by omega⟩
    rw [hk, loadLines, if_pos rfl]

/-- **C91.** The text given to the parser is the text of the file with its `#include "..."` lines replaced, for every tree of files, whatever is in
memory before; it is appended to what has been read before. -/
theorem C91_source_partial {path content text : List Byte} (hfs : fs path = some content) (h : Included fs path content text) {acc : List Byte}
    (hlen : acc.length + text.length < 524288) (g : Byte) : ∃ N, ∀ n, N ≤ n → loadFile fs g n path acc = some (.text (acc ++ text)) := by
  obtain ⟨N, hN⟩ := load_all (g := g) h acc hlen
  refine ⟨N + 1, fun n hn => ?_⟩
  obtain ⟨n, rfl⟩ : ∃ k, n = k + 1 := ⟨n - 1, by omega⟩
  rw [loadFile, hfs]
  exact hN n (by omega)

/-- A missing file, included or not, ends the compilation (where `fopen` reports it: not with shecc's own library, `C90_missing_file`). -/
theorem C91_missing {path : List Byte} (h : fs path = none) (n : Nat) (acc : List Byte) : loadFile fs g (n + 1) path acc = some .aborted := by
  rw [loadFile, h]

end

/-! ### An instance, and limits -/

/-- `s/a.c` includes `s/b.h`, which includes `s/c.h`. -/
def tree : List Byte → Option (List Byte) := fun p =>
  if p = bytes "s/a.c" then some (bytes "int x;\n#include \"b.h\"\nint y;")
  else if p = bytes "s/b.h" then some (bytes "#include \"c.h\"\nint z;\n")
  else if p = bytes "s/c.h" then some (bytes "int w;\n")
  else none

example : Included tree (bytes "s/a.c") (bytes "int x;\n#include \"b.h\"\nint y;") (bytes "int x;\nint w;\nint z;\nint y;") := by
  have hc : Included tree (bytes "s/c.h") (bytes "int w;\n") (bytes "int w;\n") := .line (l := bytes "int w;") (by decide +kernel) (by decide +kernel) .done
  have hb : Included tree (bytes "s/b.h") (bytes "#include \"c.h\"\nint z;\n") (bytes "int w;\nint z;\n") :=
    .incl (name := bytes "c.h") (content := bytes "int w;\n") (text := bytes "int w;\n") (by decide +kernel) (by decide +kernel) (by decide +kernel) (by decide +kernel) (by decide +kernel) hc
      (.line (l := bytes "int z;") (by decide +kernel) (by decide +kernel) .done)
  have ha : Included tree (bytes "s/a.c") (includeLine (bytes "b.h") ++ bytes "int y;") (bytes "int w;\nint z;\n" ++ bytes "int y;") :=
    .incl (name := bytes "b.h") (content := bytes "#include \"c.h\"\nint z;\n") (text := bytes "int w;\nint z;\n") (by decide +kernel) (by decide +kernel) (by decide +kernel) (by decide +kernel)
      (by decide +kernel) hb (.last (l := bytes "int y;") (by decide +kernel) (by decide +kernel) (by decide +kernel))
  have e1 : bytes "int x;\n#include \"b.h\"\nint y;" = bytes "int x;" ++ newline :: (includeLine (bytes "b.h") ++ bytes "int y;") := by decide +kernel
  have e2 : bytes "int x;\nint w;\nint z;\nint y;" = bytes "int x;" ++ newline :: (bytes "int w;\nint z;\n" ++ bytes "int y;") := by decide +kernel
  rw [e1, e2]
  have h1 : ∀ b ∈ bytes "int x;", b ≠ newline ∧ b ≠ 0 := by decide +kernel
  have h2 : ¬ bytes "#include \"" <:+: bytes "int x;" := by decide +kernel
  exact .line h1 h2 ha

/-- **A source file without a directory in its name** includes the wrong file: the first character of the name is whatever was in memory. -/
theorem C91_no_directory (fs : List Byte → Option (List Byte)) (g : Byte) (hg : g ≠ 0) (ha : fs (bytes "a.c") = some (bytes "#include \"b.h\"\n"))
    (hm : fs (g :: bytes "b.h") = none) : ∀ n, 3 ≤ n → loadFile fs g n (bytes "a.c") [] = some .aborted := by
  intro n hn
  obtain ⟨n, rfl⟩ : ∃ k, n = k + 3 := ⟨n - 3, by omega⟩
  have hch : nextChunk 255 (bytes "#include \"b.h\"\n") = (bytes "#include \"b.h\"\n", []) := by decide +kernel
  have hp : pathOf g (bytes "a.c") (bytes "#include \"b.h\"\n") = some (g :: bytes "b.h") := by
    have h1 : slash (bytes "a.c") ((bytes "a.c").length - 1) = 0 := by decide
    have h2 : ((bytes "#include \"b.h\"\n").drop 10).take ((bytes "#include \"b.h\"\n").length - 12) = bytes "b.h" := by decide
    simp only [pathOf, h1, h2]
    rw [if_neg (by decide), if_pos (by decide), if_neg (by decide), if_neg hg]
  have hcs : cstr (bytes "#include \"b.h\"\n") = bytes "#include \"b.h\"\n" := by decide
  rw [loadFile, ha]
  simp only
  rw [loadLines, if_neg (by decide)]
  simp only [hch, hcs]
  rw [if_pos (by decide), hp]
  simp only
  rw [loadFile, hm]

/-- **An `#include` line at the end of a file that does not end in a newline** looks for a file without the last character of the name. -/
theorem C91_no_final_newline (g : Byte) : pathOf g (bytes "s/a.c") (bytes "#include \"b.h\"") = some (bytes "s/b.") := by
  have h1 : slash (bytes "s/a.c") ((bytes "s/a.c").length - 1) = 1 := by decide
  simp only [pathOf, h1]
  rw [if_neg (by decide), if_pos (by decide), if_pos (by decide)]
  decide

/-- **A file that includes itself** is read without end. -/
theorem C91_self_include (g : Byte) (fs : List Byte → Option (List Byte)) (ha : fs (bytes "s/a") = some (bytes "#include \"a\"\n")) :
    ∀ n acc, loadFile fs g n (bytes "s/a") acc = none ∧ loadLines fs g n (bytes "s/a") (bytes "#include \"a\"\n") acc = none := by
  have hch : nextChunk 255 (bytes "#include \"a\"\n") = (bytes "#include \"a\"\n", []) := by decide +kernel
  have hcs : cstr (bytes "#include \"a\"\n") = bytes "#include \"a\"\n" := by decide
  have hp : pathOf g (bytes "s/a") (bytes "#include \"a\"\n") = some (bytes "s/a") := by
    have h1 : slash (bytes "s/a") ((bytes "s/a").length - 1) = 1 := by decide
    simp only [pathOf, h1]
    rw [if_neg (by decide), if_pos (by decide), if_pos (by decide)]
    decide
  intro n
  induction n with
  | zero => intro acc; exact ⟨rfl, rfl⟩
  | succ n ih =>
    intro acc
    constructor
    · rw [loadFile, ha]; exact (ih acc).2
    · rw [loadLines, if_neg (by decide)]
      simp only [hch, hcs]
      rw [if_pos (by decide), hp]
      simp only [(ih acc).1]

/-- **A NUL** hides the rest of its line. -/
theorem C91_nul (g : Byte) (fs : List Byte → Option (List Byte)) (ha : fs (bytes "s/a") = some (bytes "x" ++ 0 :: bytes "y\nz\n")) :
    loadFile fs g 5 (bytes "s/a") [] = some (.text (bytes "xz\n")) := by
  have h1 : nextChunk 255 (bytes "x" ++ 0 :: bytes "y\nz\n") = (bytes "x" ++ 0 :: bytes "y\n", bytes "z\n") := by decide +kernel
  have h2 : nextChunk 255 (bytes "z\n") = (bytes "z\n", []) := by decide +kernel
  have h3 : cstr (bytes "x" ++ 0 :: bytes "y\n") = bytes "x" := by decide
  have h4 : cstr (bytes "z\n") = bytes "z\n" := by decide
  rw [loadFile, ha]
  simp only
  rw [loadLines, if_neg (by decide)]
  simp only [h1, h3]
  rw [if_neg (by decide), if_pos (by decide), loadLines, if_neg (by decide)]
  simp only [h2, h4]
  rw [if_neg (by decide), if_pos (by decide), loadLines, if_pos rfl]
  decide

end Shecc.Props.Source
