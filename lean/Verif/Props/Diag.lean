import Verif.Model.Diag
import Verif.Spec.CDiag

/-!
# Errors are reported where they are (C101)
-/

namespace Shecc.Props
open Shecc.Diag CDiag

/-- The buffer holds the text. -/
def Buffered (el : Nat → Char) (text : List Char) : Prop := ∀ (i : Nat) c, text[i]? = some c → el i = c

theorem lineStart_at {el : Nat → Char} {b : Nat} (h0 : b = 0 ∨ ∃ k, b = k + 1 ∧ el k = '\n') : ∀ {p : Nat}, b ≤ p → (∀ i, b ≤ i → i ≤ p → el i ≠ '\n') → lineStart el p = b
  | 0, hp, h => by
    have : b = 0 := by omega
    subst this
    simp [lineStart, h 0 (Nat.le_refl _) (Nat.le_refl _)]
  | p + 1, hp, h => by
    rw [lineStart, if_neg (h (p + 1) hp (Nat.le_refl _))]
    by_cases e : b = p + 1
    · rcases h0 with h0 | ⟨k, hk, hn⟩
      · omega
      · have : k = p := by omega
        subst this
        cases k <;> simp [lineStart, hn] <;> omega
    · exact lineStart_at h0 (by omega) fun i h1 h2 => h i h1 (by omega)

theorem copyLine_at {el : Nat → Char} : ∀ {line : List Char} {n k : Nat}, line.length ≤ n → (∀ (i : Nat) c, line[i]? = some c → el (k + i) = c) → '\n' ∉ line →
    (line.length < n → el (k + line.length) = '\n') → copyLine el n k = line
  | [], 0, _, _, _, _, _ => rfl
  | [], n + 1, k, _, _, _, h => by
    have := h (Nat.succ_pos n)
    simp only [List.length_nil, Nat.add_zero] at this
    simp [copyLine, this]
  | c :: line, 0, _, hl, _, _, _ => by simp at hl
  | c :: line, n + 1, k, hl, hc, hn, he => by
    have h0 : el k = c := hc 0 c rfl
    rw [copyLine, if_neg (by rw [h0]; intro e; exact hn (by simp [e])), h0]
    congr 1
    refine copyLine_at (by simpa using hl) (fun i d h => ?_) (fun h => hn (by simp [h])) (fun h => ?_)
    · have := hc (i + 1) d (by simpa using h)
      rwa [show k + (i + 1) = k + 1 + i by omega] at this
    · have := he (by simpa using h)
      rwa [show k + (c :: line).length = k + 1 + line.length by simp; omega] at this

theorem cstr_text : ∀ {l : List Char}, Text l → cstr l = l
  | [], _ => rfl
  | c :: l, h => by
    have hc : c ≠ '\x00' := fun e => h (by simp [e])
    have := cstr_text (l := l) fun e => h (by simp [e])
    simp only [cstr, List.takeWhile, ne_eq, hc, not_false_eq_true, decide_true] at this ⊢
    rw [this]

theorem text_append {a b : List Char} (ha : Text a) (hb : Text b) : Text (a ++ b) := by
  intro h
  rcases List.mem_append.1 h with h | h
  · exact ha h
  · exact hb h

theorem text_spaces (n : Nat) : Text (List.replicate n ' ') := by
  intro h
  have := List.eq_of_mem_replicate h
  cases this

theorem char_at {el : Nat → Char} {text a b : List Char} {c : Char} (hb : Buffered el text) (h : text = a ++ c :: b) : el a.length = c :=
  hb a.length c (by simp [h])

theorem mark_text : Text "^ Error occurs here".toList := by
  show '\x00' ∉ _
  decide

theorem shown_core (k k1 k2 k3 : List Char) {msg line : List Char} {n : Nat} (hk : Text k) (hl : k.length = 19) (hm : Text msg) (ht : Text line) :
    (if (line ++ ['\n'] ++ List.replicate n ' ' ++ k).length + 1 ≤ 512 then some (line ++ ['\n'] ++ List.replicate n ' ' ++ k) else none).map
      (fun d => k1 ++ cstr msg ++ k2 ++ k3 ++ ['\n'] ++ cstr d ++ ['\n']) =
    if line.length + n + 21 ≤ 512 then some (k1 ++ msg ++ k2 ++ k3 ++ ['\n'] ++ line ++ ['\n'] ++ List.replicate n ' ' ++ k ++ ['\n']) else none := by
  have hc2 : cstr (line ++ ['\n'] ++ List.replicate n ' ' ++ k) = line ++ ['\n'] ++ List.replicate n ' ' ++ k :=
    cstr_text (text_append (text_append (text_append ht (show Text ['\n'] by simp [Text])) (text_spaces _)) hk)
  have hd : (line ++ ['\n'] ++ List.replicate n ' ' ++ k).length + 1 = line.length + n + 21 := by
    simp only [List.length_append, List.length_cons, List.length_nil, List.length_replicate]
    omega
  rw [hd]
  by_cases h : line.length + n + 21 ≤ 512
  · rw [if_pos h, if_pos h]
    simp only [Option.map_some]
    rw [cstr_text hm, hc2]
    simp only [List.append_assoc]
  · rw [if_neg h, if_neg h]
    rfl

/-- The line from position `b` on, and how `error` continues. -/
theorem error_at {el : Nat → Char} {text before line after msg : List Char} {p : Nat} (hb : Buffered el text)
    (hs : text = before ++ line ++ '\n' :: after) (ho : '\n' ∉ line) (hm : Text msg) (ht : Text line) (hp : lineStart el p = before.length)
    (hl : line.length ≤ maxSource) :
    error el p msg = if line.length + (p - before.length) + 21 ≤ 512 then some (shown msg line p (p - before.length)) else none := by
  have hc : copyLine el maxSource before.length = line := by
    refine copyLine_at hl (fun i c h => hb _ _ ?_) ho (fun _ => ?_)
    · have : i < line.length := by
        rw [List.getElem?_eq_some_iff] at h
        exact h.1
      rw [hs, List.append_assoc, List.getElem?_append_right (by omega), List.getElem?_append_left (by omega)]
      simpa using h
    · have := char_at (a := before ++ line) hb hs
      simpa using this
  unfold error diagnostic shown
  rw [hp]
  dsimp only
  rw [hc]
  exact shown_core _ _ _ _ mark_text (by decide) hm ht

theorem start_at {el : Nat → Char} {text before line after : List Char} {p col : Nat} (hb : Buffered el text) (h : At text before line after p col) :
    lineStart el p = before.length := by
  refine lineStart_at ?_ (by rw [h.pos]; omega) ?_
  · rcases h.start with e | ⟨b, e⟩
    · exact .inl (by rw [e]; rfl)
    · refine .inr ⟨b.length, by rw [e]; simp, char_at (a := b) (b := line ++ '\n' :: after) hb ?_⟩
      rw [h.split, e]
      simp
  · intro i h1 h2 e
    have hi : i - before.length < line.length := by have := h.col; rw [h.pos] at h2; omega
    have : el i = line[i - before.length] := by
      refine hb i _ ?_
      rw [h.split, List.append_assoc, List.getElem?_append_right h1, List.getElem?_append_left hi, List.getElem?_eq_getElem hi]
    rw [e] at this
    exact h.one (this ▸ List.getElem_mem hi)

/-- **C101** (for lines of moderate length): the error is shown by the line that contains its position, with the mark under its column. -/
theorem C101_error_shown_partial {el : Nat → Char} {text before line after msg : List Char} {p col : Nat} (hb : Buffered el text)
    (h : At text before line after p col) (hm : Text msg) (ht : Text line) (hl : line.length + col + 21 ≤ 512) :
    error el p msg = some (shown msg line p col) := by
  have hpc : p - before.length = col := by rw [h.pos]; omega
  have hst := start_at hb h
  rw [error_at hb h.split h.one hm ht hst (by unfold maxSource; omega), hpc, if_pos hl]

/-- Longer lines overrun the buffer. -/
theorem C101_long_line_overruns {el : Nat → Char} {text before line after msg : List Char} {p col : Nat} (hb : Buffered el text)
    (h : At text before line after p col) (hm : Text msg) (ht : Text line) (hx : line.length ≤ maxSource) (hl : 512 < line.length + col + 21) :
    error el p msg = none := by
  have hpc : p - before.length = col := by rw [h.pos]; omega
  have hst := start_at hb h
  rw [error_at hb h.split h.one hm ht hst hx, hpc, if_neg (by omega)]

/-- At the end of a line, the next line is shown instead, with the mark under its first column. -/
theorem C101_line_end_wrong {el : Nat → Char} {text before next after msg : List Char} (hb : Buffered el text)
    (hs : text = before ++ '\n' :: (next ++ '\n' :: after)) (hn : '\n' ∉ next) (hm : Text msg) (ht : Text next) (hl : next.length + 21 ≤ 512) :
    error el before.length msg = some (shown msg next before.length 0) := by
  have he : el before.length = '\n' := char_at hb hs
  have hst : lineStart el before.length = (before ++ ['\n']).length := by
    rw [List.length_append]
    cases hbl : before.length with
    | zero => rw [hbl] at he; simp [lineStart, he]
    | succ k => rw [hbl] at he; simp [lineStart, he]
  have hz : before.length - (before ++ ['\n']).length = 0 := by simp
  rw [error_at (before := before ++ ['\n']) (line := next) (after := after) hb (by rw [hs]; simp) hn hm ht hst (by unfold maxSource; omega), hz, if_pos (by omega)]

/-- In particular for every `#error`: the message is the rest of the line, but the line that is shown is the one after it. -/
theorem C101_directive_wrong {el : Nat → Char} {text before msg next after : List Char} {c : Char} (hb : Buffered el text)
    (hs : text = before ++ (c :: msg) ++ '\n' :: (next ++ '\n' :: after)) (h1 : '\n' ∉ msg) (hm : Text (c :: msg)) (hl1 : msg.length + 2 ≤ 256)
    (hn : '\n' ∉ next) (ht : Text next) (hl : next.length + 21 ≤ 512) :
    errorDirective el before.length = some (shown (c :: msg) next (before.length + (msg.length + 1)) 0) := by
  have h0 : el before.length = c := char_at (b := msg ++ '\n' :: (next ++ '\n' :: after)) hb (by rw [hs]; simp)
  have hc : copyLine el maxSource (before.length + 1) = msg := by
    refine copyLine_at (by unfold maxSource; omega) (fun i d h => hb _ _ ?_) h1 (fun _ => ?_)
    · have : i < msg.length := by
        rw [List.getElem?_eq_some_iff] at h
        exact h.1
      rw [hs, List.append_assoc, List.getElem?_append_right (by omega), List.getElem?_append_left (by simp; omega),
        show before.length + 1 + i - before.length = i + 1 by omega]
      simpa using h
    · have := char_at (a := before ++ c :: msg) hb hs
      rw [show before.length + 1 + msg.length = (before ++ c :: msg).length by simp; omega]
      exact this
  simp only [errorDirective, h0, hc]
  rw [if_pos (by simpa using hl1)]
  have := C101_line_end_wrong (before := before ++ c :: msg) (msg := c :: msg) hb hs hn hm ht hl
  simpa using this

/-- A last line without newline, followed by zeros: the buffer is overrun. -/
theorem C101_last_line_overruns {el : Nat → Char} {p : Nat} (msg : List Char) (h : ∀ k, lineStart el p ≤ k → el k ≠ '\n') : error el p msg = none := by
  have hlen : ∀ n k, lineStart el p ≤ k → (copyLine el n k).length = n := by
    intro n
    induction n with
    | zero => intro k _; rfl
    | succ n ih =>
      intro k hk
      rw [copyLine, if_neg (h k hk), List.length_cons, ih (k + 1) (by omega)]
  simp only [error, diagnostic]
  rw [if_neg]
  · rfl
  · simp only [List.length_append, hlen _ _ (Nat.le_refl _), maxSource]
    omega

/-! ### The hypotheses are met -/

namespace DiagExample

def text : List Char := "int main() {\n  return 0\n}\n".toList
def el : Nat → Char := fun i => text.getD i '\x00'

theorem buffered : Buffered el text := by
  intro i c h
  simp [el, List.getD, h]

theorem here : At text "int main() {\n".toList "  return 0".toList "}\n".toList 21 8 :=
  ⟨by decide, .inr ⟨"int main() {".toList, by decide⟩, by decide, by decide, by decide⟩

/-- The output, character by character. -/
theorem C101_example : error el 21 "Unexpected token".toList =
    some "Error Unexpected token at source location 21\n  return 0\n        ^ Error occurs here\n".toList := by
  rw [C101_error_shown_partial buffered here (show '\x00' ∉ _ by decide) (show '\x00' ∉ _ by decide) (by decide)]
  decide +kernel

/-- The error that is found at the end of the line is shown at the next one. -/
theorem C101_example_wrong : error el 23 "Unexpected token".toList =
    some "Error Unexpected token at source location 23\n}\n^ Error occurs here\n".toList := by
  have := C101_line_end_wrong (el := el) (before := "int main() {\n  return 0".toList) (next := ['}']) (after := []) (msg := "Unexpected token".toList)
    buffered (by decide) (by decide) (show '\x00' ∉ _ by decide) (show '\x00' ∉ _ by decide) (by decide)
  rw [show ("int main() {\n  return 0".toList).length = 23 from by decide] at this
  rw [this]
  decide +kernel

end DiagExample

end Shecc.Props
