import Verif.Model.LibcIo
import Verif.Props.LibcPrintf
import Verif.Props.LibcHeap

/-!
# C90: standard output, files and exit
-/

namespace Shecc.Props.Io
open Shecc.Libc Shecc.Files
open Shecc.Text hiding Byte

theorem ofNat_nonneg {n : Nat} (h : n < 2 ^ 31) : (BitVec.ofNat 32 n).slt 0 = false := by
  rw [BitVec.slt]
  simp only [decide_eq_false_iff_not]
  rw [BitVec.toInt_eq_toNat_cond, BitVec.toNat_ofNat, Nat.mod_eq_of_lt (by omega), if_pos (by omega)]
  simp

theorem ofNat_toNat {n : Nat} (h : n < 2 ^ 31) : (BitVec.ofNat 32 n).toNat = n := by
  rw [BitVec.toNat_ofNat]; exact Nat.mod_eq_of_lt (by omega)

/-! ### Files -/

/-- The file `p` is open as `fd`, at `pos`, and contains `c`. -/
structure Opened (k : Kernel) (fd : Nat) (p : List Byte) (pos : Nat) (c : List Byte) : Prop where
  fd : k.fds fd = some ⟨p, pos⟩
  file : k.files p = some c

theorem fopen_wb {k : Kernel} {p : List Byte} (hn : k.next < 2 ^ 31) : ∃ k', fopen k p [119#8, 98#8] = (k', BitVec.ofNat 32 k.next) ∧
    Opened k' k.next p 0 ((k.files p).getD []) ∧ (∀ q, q ≠ p → k'.files q = k.files q) ∧ ∀ fd, fd ≠ k.next → k'.fds fd = k.fds fd := by
  unfold fopen
  rw [if_pos rfl]
  unfold openFile
  have h64 : has 65 O_CREAT = true := by decide
  have h512 : has 65 O_TRUNC = false := by decide
  cases h : k.files p with
  | none =>
    simp only [h64, if_true]
    refine ⟨_, rfl, ⟨?_, ?_⟩, ?_, ?_⟩
    · simp [setFd]
    · simp [setFd, setFile]
    · intro q hq; simp [setFd, setFile, hq]
    · intro fd hfd; simp [setFd, setFile, hfd]
  | some c =>
    simp only [h512, Bool.false_eq_true, if_false]
    refine ⟨_, rfl, ⟨?_, ?_⟩, ?_, ?_⟩
    · simp [setFd]
    · simp [setFd, setFile]
    · intro q hq; simp [setFd, setFile, hq]
    · intro fd hfd; simp [setFd, setFile, hfd]

theorem fputc_ok {k : Kernel} {fd : Nat} (hfd : fd < 2 ^ 31) {p : List Byte} {a c : List Byte} (ho : Opened k fd p a.length (a ++ c)) (x : CInt) :
    ∃ k', fputc k x (BitVec.ofNat 32 fd) = (k', x) ∧ Opened k' fd p (a.length + 1) (a ++ [x.setWidth 8] ++ c.drop 1) ∧
      (∀ q, q ≠ p → k'.files q = k.files q) ∧ ∀ n, n ≠ fd → k'.fds n = k.fds n := by
  unfold fputc
  rw [ofNat_toNat hfd]
  unfold write
  rw [ho.fd]
  simp only [ho.file, Option.getD_some, List.length_singleton]
  rw [if_neg (by simp)]
  refine ⟨_, rfl, ⟨?_, ?_⟩, ?_, ?_⟩
  · simp [setFd]
  · simp only [setFd, setFile, if_true, overwrite]
    simp [List.drop_append]
  · intro q hq; simp [setFd, setFile, hq]
  · intro n hn; simp [setFd, setFile, hn]

theorem fputAll_ok (sx : Byte → CInt) (hsx : ∀ b, (sx b).setWidth 8 = b) {fd : Nat} (hfd : fd < 2 ^ 31) {p : List Byte} : ∀ (l : List Byte) {k : Kernel} {a c : List Byte},
    Opened k fd p a.length (a ++ c) →
    Opened (fputAll sx k (BitVec.ofNat 32 fd) l) fd p (a.length + l.length) (a ++ l ++ c.drop l.length) ∧
      (∀ q, q ≠ p → (fputAll sx k (BitVec.ofNat 32 fd) l).files q = k.files q) ∧
      ∀ n, n ≠ fd → (fputAll sx k (BitVec.ofNat 32 fd) l).fds n = k.fds n
  | [], k, a, c, h => by simpa [fputAll] using h
  | b :: l, k, a, c, h => by
    obtain ⟨k', h1, h2, h3, h4⟩ := fputc_ok hfd h (sx b)
    rw [hsx] at h2
    have := fputAll_ok sx hsx hfd l (k := k') (a := a ++ [b]) (c := c.drop 1) (by simpa using h2)
    rw [fputAll, h1]
    refine ⟨?_, fun q hq => (this.2.1 q hq).trans (h3 q hq), fun n hn => (this.2.2 n hn).trans (h4 n hn)⟩
    have e := this.1
    rw [List.drop_drop] at e
    simp only [List.length_append, List.length_singleton, List.append_assoc, List.singleton_append, List.length_cons] at e ⊢
    rw [show a.length + (l.length + 1) = a.length + 1 + l.length by omega, show l.length + 1 = 1 + l.length by omega]
    exact e

/-- **C90, files written.** Opening a file with mode "wb", writing the bytes `l` one by one and closing it leaves `l` **followed by what the
file contained behind as many bytes before**; every other file is as before, the descriptor is closed and every other descriptor is as
before. (`sx`: how the machine extends a `char`.) -/
theorem C90_write_file (sx : Byte → CInt) (hsx : ∀ b, (sx b).setWidth 8 = b) {k : Kernel} (hn : k.next < 2 ^ 31) (p l : List Byte) :
    let o := fopen k p (ascii 'w' :: [ascii 'b'])
    let k' := (fclose (fputAll sx o.1 o.2 l) o.2).1
    k'.files p = some (l ++ ((k.files p).getD []).drop l.length) ∧ (∀ q, q ≠ p → k'.files q = k.files q) ∧
      k'.fds o.2.toNat = none ∧ ∀ n, n ≠ o.2.toNat → k'.fds n = k.fds n := by
  intro o k'
  obtain ⟨k1, h1, h2, h3, h4⟩ := fopen_wb (k := k) (p := p) hn
  have ho : o = (k1, BitVec.ofNat 32 k.next) := h1
  have hk : k' = (fclose (fputAll sx k1 (BitVec.ofNat 32 k.next) l) (BitVec.ofNat 32 k.next)).1 := by simp only [k', ho]
  obtain ⟨g1, g2, g3⟩ := fputAll_ok sx hsx hn l (k := k1) (a := []) (c := (k.files p).getD []) (by simpa using h2)
  have ht : o.2.toNat = k.next := by rw [ho]; exact ofNat_toNat hn
  rw [hk, ht]
  refine ⟨?_, fun q hq => ?_, ?_, fun n hn' => ?_⟩
  · have := g1.file
    simpa [fclose, Files.close, setFd] using this
  · have := g2 q hq
    simp only [fclose, Files.close, setFd]
    rw [this, h3 q hq]
  · simp [fclose, Files.close, setFd, ofNat_toNat hn]
  · simp only [fclose, Files.close, setFd, ofNat_toNat hn, if_neg hn']
    rw [g3 n hn', h4 n hn']

/-- **C90, a new file** contains exactly what was written; so does an old file that is not longer. -/
theorem C90_new_file_partial (sx : Byte → CInt) (hsx : ∀ b, (sx b).setWidth 8 = b) {k : Kernel} (hn : k.next < 2 ^ 31) (p l : List Byte)
    (hold : ((k.files p).getD []).length ≤ l.length) :
    let o := fopen k p (ascii 'w' :: [ascii 'b'])
    (fclose (fputAll sx o.1 o.2 l) o.2).1.files p = some l := by
  intro o
  have := (C90_write_file sx hsx hn p l).1
  rw [List.drop_eq_nil_of_le hold, List.append_nil] at this
  exact this

/-- **C90 is false of longer old files**: whatever the file contained behind the bytes written stays (C's mode "wb" truncates the file). -/
theorem C90_old_tail_kept : ∃ (k : Kernel) (p l : List Byte), k.files p = some [1, 2, 3] ∧ l = [9] ∧ 2 < k.next ∧
    (let o := fopen k p (ascii 'w' :: [ascii 'b'])
     (fclose (fputAll (fun b => b.setWidth 32) o.1 o.2 l) o.2).1.files p = some [9, 2, 3]) :=
  ⟨{ files := fun p => if p = [97] then some [1, 2, 3] else none, fds := fun _ => none, next := 3 }, [97], [9], by decide, rfl, by decide, by decide⟩

/-- **C90, files read.** A file opened with mode "rb" is read byte by byte, each as a number from 0 to 255, and then the end is reported. -/
theorem C90_read_file {k : Kernel} (hn : k.next < 2 ^ 31) {p c : List Byte} (hp : k.files p = some c) :
    let o := fopen k p (ascii 'r' :: [ascii 'b'])
    ∃ k', (∀ n, c.length < n → fgetAll o.1 o.2 n = some (c.map fun b => b.setWidth 32, k')) ∧ ∀ q, k'.files q = k.files q := by
  intro o
  have key : ∀ (d a : List Byte) (k : Kernel) (fd : Nat), fd < 2 ^ 31 → Opened k fd p a.length (a ++ d) →
      ∃ k', (∀ n, d.length < n → fgetAll k (BitVec.ofNat 32 fd) n = some (d.map fun b => b.setWidth 32, k')) ∧ ∀ q, k'.files q = k.files q := by
    intro d
    induction d with
    | nil =>
      intro a k fd hfd ho
      refine ⟨(fgetcFile k (BitVec.ofNat 32 fd)).1, fun n hlt => ?_, ?_⟩
      · obtain ⟨n, rfl⟩ : ∃ j, n = j + 1 := ⟨n - 1, by simp at hlt; omega⟩
        have : (fgetcFile k (BitVec.ofNat 32 fd)).2 = -1 := by
          simp [fgetcFile, ofNat_toNat hfd, Files.read, ho.fd, ho.file]
        simp only [fgetAll, this, if_true, List.map_nil]
      · intro q
        simp [fgetcFile, ofNat_toNat hfd, Files.read, ho.fd, ho.file, setFd]
    | cons b d ih =>
      intro a k fd hfd ho
      have hr : ∃ k1, fgetcFile k (BitVec.ofNat 32 fd) = (k1, b.setWidth 32) ∧ Opened k1 fd p (a ++ [b]).length (a ++ [b] ++ d) ∧ ∀ q, k1.files q = k.files q := by
        refine ⟨setFd k fd (some ⟨p, a.length + 1⟩), ?_, ⟨?_, ?_⟩, ?_⟩
        · simp [fgetcFile, ofNat_toNat hfd, Files.read, ho.fd, ho.file]
        · simp [setFd]
        · simpa [setFd] using ho.file
        · intro q; rfl
      obtain ⟨k1, h1, h2, h3⟩ := hr
      obtain ⟨k', g1, g2⟩ := ih (a ++ [b]) k1 fd hfd h2
      refine ⟨k', fun n hlt => ?_, fun q => (g2 q).trans (h3 q)⟩
      obtain ⟨n, rfl⟩ : ∃ j, n = j + 1 := ⟨n - 1, by simp at hlt; omega⟩
      have hne : (b.setWidth 32 : CInt) ≠ -1 := by
        intro h
        have := congrArg BitVec.toNat h
        rw [BitVec.toNat_setWidth] at this
        have hb := b.isLt
        have h1 : (-1 : CInt).toNat = 4294967295 := rfl
        rw [h1] at this
        omega
      simp only [fgetAll, h1]
      rw [if_neg hne, g1 n (by simpa using hlt)]
      rfl
  have ho : ∃ k1, o = (k1, BitVec.ofNat 32 k.next) ∧ Opened k1 k.next p 0 c ∧ ∀ q, k1.files q = k.files q := by
    have h512 : has 0 O_TRUNC = false := by decide
    have e : o = openFile k p 0 := rfl
    rw [e]
    unfold openFile
    rw [hp]
    simp only [h512, Bool.false_eq_true, if_false]
    refine ⟨_, rfl, ⟨by simp [setFd], by simp [setFd, setFile]⟩, ?_⟩
    intro q
    simp only [setFd, setFile]
    by_cases h : q = p
    · rw [if_pos h, h, hp]
    · rw [if_neg h]
  obtain ⟨k1, h1, h2, h3⟩ := ho
  obtain ⟨k', g1, g2⟩ := key c [] k1 k.next hn (by simpa using h2)
  rw [h1]
  exact ⟨k', g1, fun q => (g2 q).trans (h3 q)⟩

/-- What was written to a new file is read back. -/
theorem C90_round_trip (sx : Byte → CInt) (hsx : ∀ b, (sx b).setWidth 8 = b) {k : Kernel} (hn : k.next < 2 ^ 31)
    (p l : List Byte) (hold : k.files p = none) :
    let o := fopen k p (ascii 'w' :: [ascii 'b'])
    let k1 := (fclose (fputAll sx o.1 o.2 l) o.2).1
    ∀ k2 : Kernel, k2.files = k1.files → k2.next < 2 ^ 31 →
      let i := fopen k2 p (ascii 'r' :: [ascii 'b'])
      ∃ k', ∀ n, l.length < n → fgetAll i.1 i.2 n = some (l.map fun b => b.setWidth 32, k') := by
  intro o k1 k2 h2 hn2 i
  have hf : k2.files p = some l := by
    rw [h2]
    exact C90_new_file_partial sx hsx hn p l (by rw [hold]; simp)
  obtain ⟨k', h, _⟩ := C90_read_file hn2 hf
  exact ⟨k', h⟩

/-- **C90 is false of missing files**: `fopen` does not return `NULL` for any of them (but the negative number of the error). -/
theorem C90_missing_file {k : Kernel} {p : List Byte} (hp : k.files p = none) : (fopen k p (ascii 'r' :: [ascii 'b'])).2 ≠ 0 := by
  have h64 : has 0 O_CREAT = false := by decide
  have e : fopen k p (ascii 'r' :: [ascii 'b']) = openFile k p 0 := rfl
  rw [e, openFile, hp]
  simp only [h64, Bool.false_eq_true, if_false]
  decide

/-- `fputc` writes the low byte of its argument, whatever it is, and returns the argument; a file that is not open yields -1. (In C the
result is the byte written: the same for 0 to 255.) -/
theorem C90_fputc {k : Kernel} {fd : Nat} (hfd : fd < 2 ^ 31) {p a c : List Byte} (ho : Opened k fd p a.length (a ++ c)) (x : CInt) :
    (fputc k x (BitVec.ofNat 32 fd)).1.files p = some (a ++ [x.setWidth 8] ++ c.drop 1) ∧ (fputc k x (BitVec.ofNat 32 fd)).2 = x ∧
    (k.fds (fd + 1) = none → fd + 1 < 2 ^ 31 → fputc k x (BitVec.ofNat 32 (fd + 1)) = (k, -1)) := by
  obtain ⟨k', h1, h2, _, _⟩ := fputc_ok hfd ho x
  rw [h1]
  refine ⟨h2.file, rfl, fun h3 h4 => ?_⟩
  unfold fputc
  rw [ofNat_toNat h4]
  unfold write
  rw [h3]
  exact if_pos (show (-9 : CInt).slt 0 = true by decide)

/-! ### Standard output -/

/-- **C90, `printf`.** If the text has less than 200 characters, `printf` writes exactly that text to standard output, in one piece, changes no
memory outside its buffer, and returns the number of characters written (what `write` returns). -/
theorem C90_printf_partial {m : Mem} {fmt buffer : Nat} {args : Nat → CInt} {strs : BitVec 32 → List Byte} {ps : List Piece}
    (hwf : ∀ p ∈ ps, p.wf) (hfmt : CStrAt m fmt (sourceOf ps)) (hargs : ArgsOk m args strs 0 ps)
    (hfit : (textOf args strs 0 ps).length < 200) (k : Kernel) :
    ∃ N m', (∀ fuel, N ≤ fuel → printf fuel k m buffer fmt args =
        some ((write k 1 (textOf args strs 0 ps)).1, m', (write k 1 (textOf args strs 0 ps)).2)) ∧
      ∀ a, a < buffer ∨ buffer + 200 ≤ a → m' a = m a := by
  obtain ⟨N, hN⟩ := C64_format (buffer := buffer) hwf hfmt hargs (size := INT_MAX) (by simp only [INT_MAX]; omega)
  obtain ⟨r, h1, h2, h3, h4, h5⟩ := hN N (Nat.le_refl _)
  have hfix : ∀ fuel, N ≤ fuel → ∃ r', format_to_buf fuel m fmt args INT_MAX = some (some r') ∧ bufferAfter m buffer r' = bufferAfter m buffer r ∧ r'.2 = r.2 := by
    intro fuel hf
    obtain ⟨r', g1, g2, g3, g4, g5⟩ := hN fuel hf
    refine ⟨r', g1, ?_, g2.trans h2.symm⟩
    funext a
    by_cases h : a < buffer ∨ buffer + (textOf args strs 0 ps).length < a
    · rw [g5 a h, h5 a h]
    · by_cases h' : a = buffer + (textOf args strs 0 ps).length
      · rw [h', g4, h4]
      · have hi : a - buffer < (textOf args strs 0 ps).length := by omega
        have e := g3 _ hi
        have e' := h3 _ hi
        rw [show buffer + (a - buffer) = a by omega] at e e'
        rw [e, e']
  refine ⟨N, bufferAfter m buffer r, fun fuel hf => ?_, fun a ha => h5 a (by omega)⟩
  obtain ⟨r', g1, g2, g3⟩ := hfix fuel hf
  have hlen : (BitVec.ofInt 32 r'.2).toNat = (textOf args strs 0 ps).length := by
    rw [g3, h2, BitVec.ofInt_natCast, ofNat_toNat (by omega)]
  have hbytes : ((List.range (textOf args strs 0 ps).length).map fun i => bufferAfter m buffer r (buffer + i)) = textOf args strs 0 ps := by
    apply List.ext_getElem
    · simp
    · intro i h1' h2'
      simp only [List.getElem_map, List.getElem_range]
      exact h3 i h2'
  simp only [printf, sprintf, snprintf, g1, Option.map_some, hlen, g2, hbytes]

/-- **C90 is false of longer texts**: `printf` stores characters 201 and following behind its buffer. -/
theorem C90_printf_overflow {m : Mem} {fmt buffer : Nat} {args : Nat → CInt} {strs : BitVec 32 → List Byte} {ps : List Piece}
    (hwf : ∀ p ∈ ps, p.wf) (hfmt : CStrAt m fmt (sourceOf ps)) (hargs : ArgsOk m args strs 0 ps)
    (hbig : 200 < (textOf args strs 0 ps).length) (hlt : (textOf args strs 0 ps).length < 2 ^ 31 - 1) (k : Kernel) :
    ∃ N, ∀ fuel, N ≤ fuel → ∃ x, printf fuel k m buffer fmt args = some x ∧ x.2.1 (buffer + 200) = (textOf args strs 0 ps)[200] := by
  obtain ⟨N, hN⟩ := C64_format (buffer := buffer) hwf hfmt hargs (size := INT_MAX) (by simp only [INT_MAX]; omega)
  refine ⟨N, fun fuel hf => ?_⟩
  obtain ⟨r, h1, h2, h3, h4, h5⟩ := hN fuel hf
  simp only [printf, sprintf, snprintf, h1, Option.map_some]
  exact ⟨_, rfl, h3 200 hbig⟩

/-! ### exit and abort -/

/-- **C90, `exit`.** In every state of the heap: all blocks are unmapped (C66) and the process ends with the low byte of the code as status. -/
theorem C90_exit {s : Sys} (hr : Reach s) (k : Kernel) (code : CInt) :
    ∃ N, ∀ fuel, N ≤ fuel → ∃ l k', exitC fuel k s.heap code = some (l, k') ∧ k'.exited = some (code.setWidth 8) ∧ k'.files = k.files ∧
      ((s.mapped = [] ∧ l = []) ∨ ∃ D S, s.mapped.Perm ((D, 4096) :: (S, 4096) :: l)) := by
  obtain ⟨N, hN⟩ := C66_free_all hr
  refine ⟨N, fun fuel hf => ?_⟩
  obtain ⟨l, h1, h2⟩ := hN fuel hf
  refine ⟨l, Files.exit k code, by simp only [exitC, h1, Option.map_some], rfl, rfl, ?_⟩
  rcases h2 with h | ⟨D, S, h, _⟩
  · exact .inl h
  · exact .inr ⟨D, S, h⟩

theorem argsOk_lits (m : Mem) (args : Nat → CInt) (strs : BitVec 32 → List Byte) : ∀ (l : List Char) (i : Nat),
    ArgsOk m args strs i (l.map fun c => Piece.lit (ascii c))
  | [], _ => trivial
  | _ :: l, i => ⟨(fun h => by cases h), argsOk_lits m args strs l _⟩

def abortText : List Char := "Abnormal program termination\n".toList

/-- **C90, `abort`** prints its message and ends the process with status 255. -/
theorem C90_abort {s : Sys} (hr : Reach s) (k : Kernel) {m : Mem} {buffer msg : Nat} (hm : CStrAt m msg (abortText.map ascii)) :
    ∃ N, ∀ fuel, N ≤ fuel → ∃ l, abortC fuel k s.heap m buffer msg = some (l, Files.exit (write k 1 (abortText.map ascii)).1 (-1)) ∧
      (Files.exit (write k 1 (abortText.map ascii)).1 (-1)).exited = some 255#8 := by
  have hsrc : sourceOf (abortText.map fun c => Piece.lit (ascii c)) = abortText.map ascii := by decide
  have htext : ∀ args strs, textOf args strs 0 (abortText.map fun c => Piece.lit (ascii c)) = abortText.map ascii := by
    intro args strs; rfl
  obtain ⟨N1, m', h1, _⟩ := C90_printf_partial (buffer := buffer) (args := fun _ => 0) (strs := fun _ => [])
    (ps := abortText.map fun c => Piece.lit (ascii c)) (by
      intro p hp
      obtain ⟨c, hc, rfl⟩ := List.mem_map.1 hp
      have : ∀ c ∈ abortText, ascii c ≠ 0 ∧ ascii c ≠ ascii '%' := by decide
      exact this c hc) (by rw [hsrc]; exact hm) (argsOk_lits m _ _ abortText 0) (by rw [htext]; decide) k
  obtain ⟨N2, h2⟩ := C90_exit hr (write k 1 (abortText.map ascii)).1 (-1)
  refine ⟨N1 + N2, fun fuel hf => ?_⟩
  have g1 := h1 fuel (by omega)
  rw [htext] at g1
  obtain ⟨l, k', g2, g3, _⟩ := h2 fuel (by omega)
  have hk : k' = Files.exit (write k 1 (abortText.map ascii)).1 (-1) := by
    simp only [exitC] at g2
    cases hfa : free_all fuel s.heap with
    | none => rw [hfa] at g2; cases g2
    | some l' => rw [hfa] at g2; simp only [Option.map_some, Option.some.injEq, Prod.mk.injEq] at g2; exact g2.2.symm
  refine ⟨l, ?_, by rfl⟩
  simp only [abortC, g1, Option.bind_some, g2, hk]

/-- The hypotheses can be met: a kernel in which standard output is a file. -/
example : ∃ k : Kernel, Opened k 1 [111] 0 [] ∧ k.next = 3 ∧ (write k 1 [104, 105]).1.files [111] = some [104, 105] ∧ (write k 1 [104, 105]).2 = 2 :=
  ⟨{ files := fun p => if p = [111] then some [] else none, fds := fun n => if n = 1 then some ⟨[111], 0⟩ else none, next := 3 },
    ⟨by decide, by decide⟩, rfl, by decide, by decide⟩

end Shecc.Props.Io
