import Verif.Model.Inliner
import Verif.Spec.CInliner
import Verif.Props.Driver

/-!
# C59: the inliner as a program, with its buffer and files
-/

namespace Shecc.Props
open Shecc.Driver CDriver

theorem writeStr_eq : ∀ (t s : List Char), s.length ≤ inlinerCap →
    writeStr t s = if s.length + t.length ≤ inlinerCap then some (s ++ t) else none
  | [], s, h => by
    rw [if_pos (by simpa using h)]
    simp [writeStr]
  | c :: t, s, h => by
    simp only [writeStr, writeChar, List.length_cons]
    by_cases hc : s.length < inlinerCap
    · rw [if_pos hc, Option.bind_some, writeStr_eq t (s ++ [c]) (by simp; omega)]
      simp only [List.length_append, List.length_cons, List.length_nil, List.append_assoc, List.cons_append, List.nil_append]
      by_cases h2 : s.length + (0 + 1) + t.length ≤ inlinerCap
      · rw [if_pos h2, if_pos (by omega)]
      · rw [if_neg h2, if_neg (by omega)]
    · rw [if_neg hc, if_neg (by omega)]
      rfl

/-- One write after another is the write of both. -/
theorem write_seq {s t u : List Char} {f : List Char → Option (List Char)} (h : s.length ≤ inlinerCap)
    (hf : ∀ s : List Char, s.length ≤ inlinerCap → f s = writeStr u s) :
    (writeStr t s).bind f = writeStr (t ++ u) s := by
  rw [writeStr_eq _ _ h, writeStr_eq _ _ h]
  by_cases h1 : s.length + t.length ≤ inlinerCap
  · rw [if_pos h1, Option.bind_some, hf _ (by simpa using h1), writeStr_eq _ _ (by simpa using h1)]
    simp only [List.length_append, List.append_assoc]
    by_cases h2 : s.length + t.length + u.length ≤ inlinerCap
    · rw [if_pos h2, if_pos (by omega)]
    · rw [if_neg h2, if_neg (by omega)]
  · rw [if_neg h1, if_neg (by simp only [List.length_append]; omega)]
    rfl

theorem writeChar_str (c : Char) (s : List Char) : writeChar c s = writeStr [c] s := by
  simp only [writeStr]
  cases writeChar c s <;> rfl

theorem writeEscaped_eq : ∀ (l s : List Char), s.length ≤ inlinerCap →
    writeEscaped l s = writeStr (l.flatMap fun c => if c = '"' then ['\\', '"'] else if c = '\n' then [] else [c]) s
  | [], s, _ => rfl
  | c :: l, s, h => by
    rw [writeEscaped, List.flatMap_cons]
    by_cases h1 : c = '"'
    · rw [if_pos h1, if_pos h1, writeChar_str]
      refine write_seq (u := ['"'] ++ _) h fun s h => ?_
      rw [writeChar_str]
      exact write_seq h fun s h => writeEscaped_eq l s h
    · rw [if_neg h1, if_neg h1]
      by_cases h2 : c = '\n'
      · rw [if_neg (fun h => h h2), if_pos h2]
        exact writeEscaped_eq l s h
      · rw [if_pos h2, if_neg h2, writeChar_str]
        exact write_seq h fun s h => writeEscaped_eq l s h

theorem writeLineTo_eq (l s : List Char) (h : s.length ≤ inlinerCap) : writeLineTo l s = writeStr (writeLine l) s := by
  unfold writeLineTo writeLine
  rw [List.append_assoc, List.append_assoc]
  refine write_seq h fun s h => ?_
  rw [writeEscaped_eq l s h]
  refine write_seq h fun s h => ?_
  rw [writeChar_str]
  refine write_seq (u := ['n'] ++ _) h fun s h => ?_
  rw [writeChar_str]
  exact write_seq h fun s h => rfl

theorem loadFromTo_eq : ∀ (k : Nat) (f s : List Char), f.length ≤ k → s.length ≤ inlinerCap →
    loadFromTo f s = writeStr (loadFrom f) s
  | k, [], s, _, _ => by
    rw [loadFromTo, loadFrom]
    rfl
  | 0, c :: f, s, hk, _ => by simp at hk
  | k + 1, c :: f, s, hk, h => by
    rw [loadFromTo, loadFrom, writeLineTo_eq _ _ h]
    refine write_seq h fun s h => loadFromTo_eq k _ s ?_ h
    have := (fgets_length 199 (c :: f)).2 (by decide) (by simp)
    simp only [List.length_cons] at hk this
    omega

theorem writeStrs_eq : ∀ (ts : List (List Char)) (s : List Char), s.length ≤ inlinerCap →
    writeStrs ts s = writeStr ts.flatten s
  | [], s, _ => rfl
  | t :: ts, s, h => by
    rw [writeStrs, List.flatten_cons]
    exact write_seq h fun s h => writeStrs_eq ts s h

/-- **C59.** The inliner as a program: called with an input file and an output file, it ends with status 0 and has written
the prologue, the lines and the end to the output file, and changed no other file - exactly if that text has at most 65536
characters; a longer one overruns the buffer. -/
theorem C59_tool (inp out : String) (more : List String) (fs : Files) (src : List Char) (hin : fs inp = some src) :
    inliner (inp :: out :: more) fs =
      if CInliner.before.length + (loadFrom src).length + CInliner.behind.length ≤ 65536 then
        some (0, fun n => if n = out then some (CInliner.before ++ loadFrom src ++ CInliner.behind) else fs n)
      else none := by
  have hb : prologue.flatten = CInliner.before := by decide +kernel
  have e : ((writeStrs prologue []).bind fun s => (loadFile fs inp s).bind fun s => writeStr "}\n".toList s) =
      writeStr (CInliner.before ++ (loadFrom src ++ CInliner.behind)) [] := by
    rw [writeStrs_eq _ _ (Nat.zero_le _), hb]
    refine write_seq (Nat.zero_le _) fun s h => ?_
    simp only [loadFile, hin]
    rw [loadFromTo_eq _ _ _ (Nat.le_refl _) h]
    exact write_seq h fun s h => rfl
  have e2 : inliner (inp :: out :: more) fs =
      (((writeStrs prologue []).bind fun s => (loadFile fs inp s).bind fun s => writeStr "}\n".toList s).map fun s =>
        ((0 : Int), saveTo out s fs)) := by
    unfold inliner
    dsimp only
    cases writeStrs prologue [] with
    | none => rfl
    | some s =>
      simp only [Option.bind_some]
      cases loadFile fs inp s with
      | none => rfl
      | some s => rfl
  rw [e2, e, writeStr_eq _ _ (Nat.zero_le _)]
  simp only [List.length_append, List.length_nil, Nat.zero_add, List.nil_append, inlinerCap]
  by_cases h : CInliner.before.length + (loadFrom src).length + CInliner.behind.length ≤ 65536
  · rw [if_pos h, if_pos (by omega)]
    simp only [Option.map_some, List.append_assoc]
    rfl
  · rw [if_neg h, if_neg (by omega)]
    rfl

theorem writeLine_length (l : List Char) : '\n' ∉ l → (writeLine l).length = CInliner.lineSize l := by
  intro h
  have e : (l.flatMap (fun c => if c = '"' then ['\\', '"'] else if c = '\n' then [] else [c])).length = l.length + l.count '"' := by
    induction l with
    | nil => rfl
    | cons c l ih =>
      simp only [List.mem_cons, not_or] at h
      rw [List.flatMap_cons, List.length_append, ih h.2, List.length_cons, List.count_cons]
      by_cases h1 : c = '"'
      · subst h1
        simp
        omega
      · rw [if_neg h1, if_neg (fun e => h.1 e.symm), if_neg (by simpa using h1)]
        simp
        omega
  have e2 : ("  __c(\"".toList).length = 7 := by decide
  have e3 : ("\");\n".toList).length = 4 := by decide
  unfold writeLine CInliner.lineSize
  simp only [List.length_append, e, e2, e3, List.length_cons, List.length_nil]
  omega

theorem loadFrom_length : ∀ (k : Nat) (src : List Char), src.length ≤ k → (∀ l ∈ lines src, l.length ≤ 198) →
    (loadFrom src).length = ((lines src).map CInliner.lineSize).sum
  | k, [], _, _ => by simp [loadFrom, lines]
  | 0, c :: s, hk, _ => by simp at hk
  | k + 1, c :: s, hk, hl => by
    obtain ⟨l, e1, e2⟩ := lines_fgets (c :: s) 199 (by simp) (by
      intro l hl'
      have := hl l (List.mem_of_mem_head? hl')
      omega)
    have hlt := (fgets_length 199 (c :: s)).2 (by decide) (by simp)
    rw [e1] at hl
    rw [loadFrom, e1, List.length_append, writeLine_filter, e2, writeLine_length l (by rw [← e2]; simp),
      loadFrom_length k _ (by omega) fun x hx => hl x (List.mem_cons_of_mem _ hx)]
    simp

/-- **C59.** Called with the library source - whose lines have at most 198 characters and contain no escape but `\n` - the
inliner writes a file that consists of a prologue, of statements that feed the compiler the source with its escapes
replaced, and of an end, if that fits into 65536 characters: 165 and, for each line, its length, its quotes and 13.  If it
does not fit, the buffer is overrun. -/
theorem C59_library (inp out : String) (more : List String) (fs : Files) (src : List Char) (hin : fs inp = some src)
    (hl : ∀ l ∈ lines src, l.length ≤ 198) (vs : List (List Char)) (hv : (lines src).map escapes = vs.map some) :
    if 165 + ((lines src).map CInliner.lineSize).sum ≤ 65536 then
      ∃ fs' mid, inliner (inp :: out :: more) fs = some (0, fs') ∧ fs' out = some (CInliner.before ++ mid ++ CInliner.behind) ∧
        fed (lines src).length mid = some (vs.flatMap (· ++ ['\n'])) ∧ ∀ n, n ≠ out → fs' n = fs n
    else inliner (inp :: out :: more) fs = none := by
  have h := C59_tool inp out more fs src hin
  have hb : CInliner.before.length + CInliner.behind.length = 165 := by decide +kernel
  rw [loadFrom_length _ src (Nat.le_refl _) hl] at h
  by_cases hs : 165 + ((lines src).map CInliner.lineSize).sum ≤ 65536
  · rw [if_pos hs]
    rw [if_pos (by omega)] at h
    exact ⟨_, _, h, if_pos rfl, C59_escaped_text src hl vs hv, fun n hn => if_neg hn⟩
  · rw [if_neg hs]
    rw [if_neg (by omega)] at h
    exact h

example : ∃ fs' mid, inliner ["c.c", "libc.inc"] (fun n => if n = "c.c" then some "puts(\"hi\\n\");\n}".toList else none) = some (0, fs') ∧
    fs' "libc.inc" = some (CInliner.before ++ mid ++ CInliner.behind) ∧ fed 2 mid = some "puts(\"hi\n\");\n}\n".toList ∧
    ∀ n, n ≠ "libc.inc" → fs' n = (fun n => if n = "c.c" then some "puts(\"hi\\n\");\n}".toList else none) n := by
  have h := C59_library "c.c" "libc.inc" [] (fun n => if n = "c.c" then some "puts(\"hi\\n\");\n}".toList else none)
    "puts(\"hi\\n\");\n}".toList (if_pos rfl) (by decide +kernel) ["puts(\"hi\n\");".toList, "}".toList] (by decide +kernel)
  rw [if_pos (by decide +kernel)] at h
  exact h

/-- Without two arguments it says how it is called, and changes nothing; without an input file it crashes. -/
theorem C59_arguments (fs : Files) :
    inliner [] fs = some (-1, fs) ∧ (∀ a, inliner [a] fs = some (-1, fs)) ∧
      ∀ inp out more, fs inp = none → inliner (inp :: out :: more) fs = none := by
  refine ⟨rfl, fun _ => rfl, fun inp out more h => ?_⟩
  unfold inliner
  dsimp only
  cases writeStrs prologue [] with
  | none => rfl
  | some s => simp only [Option.bind_some, loadFile, h, Option.bind_none, Option.map_none]

end Shecc.Props
