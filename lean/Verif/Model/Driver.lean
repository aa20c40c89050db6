/-!
# Model of the command line loop (src/main.c) and of the libc inliner (tools/inliner.c)
-/

namespace Shecc.Driver

/-- The variables set by the option loop: `dump_ir`, `hard_mul_div`, `libc`, `out`, `in` (src/main.c:49-50,
src/globals.c). -/
structure Opts where
  dump : Bool := false
  hard : Bool := false
  libc : Bool := true
  out : Option String := none
  inp : Option String := none
  deriving DecidableEq, Repr

/-- The option loop (src/main.c:52-70), over `argv[1] ... argv[argc - 1]`.  `i < argc + 1` always holds, so a final `-o` reads
`argv[argc]`, which is `NULL`, and the loop ends. -/
def optLoop : List String → Opts → Opts
  | [], o => o
  | a :: rest, o =>
    if a = "--dump-ir" then optLoop rest { o with dump := true }
    else if a = "+m" then optLoop rest { o with hard := true }
    else if a = "--no-libc" then optLoop rest { o with libc := false }
    else if a = "-o" then
      match rest with
      | [] => { o with out := none }
      | f :: rest => optLoop rest { o with out := some f }
    else optLoop rest { o with inp := some a }

/-- What `main` goes on with (src/main.c:72-121): `none` is the refusal with exit status -1; otherwise the configuration and
the name passed to `fopen` in `elf_generate` (src/elf.c:254-255). -/
def start (args : List String) : Option (Opts × String) :=
  let o := optLoop args {}
  match o.inp with
  | none => none
  | some _ => some (o, o.out.getD "a.out")

/-- `write_line` (tools/inliner.c:35-50). -/
def writeLine (src : List Char) : List Char :=
  "  __c(\"".toList ++ src.flatMap (fun c => if c = '"' then ['\\', '"'] else if c = '\n' then [] else [c]) ++
    ['\\', 'n'] ++ "\");\n".toList

/-- The host's `fgets(buffer, n + 1, f)`: at most `n` characters, up to and including the first newline; the rest of the
stream. Files are assumed to contain no NUL character. -/
def fgets : Nat → List Char → List Char × List Char
  | 0, s => ([], s)
  | _, [] => ([], [])
  | n + 1, c :: s => if c = '\n' then (['\n'], s) else ((c :: (fgets n s).1), (fgets n s).2)

theorem fgets_length (n : Nat) : ∀ s : List Char, (fgets n s).2.length ≤ s.length ∧ (n ≠ 0 → s ≠ [] → (fgets n s).2.length < s.length) := by
  induction n with
  | zero => intro s; exact ⟨Nat.le_refl _, fun h => absurd rfl h⟩
  | succ n ih =>
    intro s
    cases s with
    | nil => exact ⟨Nat.le_refl _, fun _ h => absurd rfl h⟩
    | cons c s =>
      unfold fgets
      split
      · simp
      · have := (ih s).1
        simp only [List.length_cons]
        omega

/-- The loop of `load_from` (tools/inliner.c:52-64); `MAX_LINE_LEN` is 200. The output buffer (`MAX_SIZE` 65536 bytes,
unchecked) is taken as unbounded here and bounded in Model/Inliner. -/
def loadFrom : List Char → List Char
  | [] => []
  | c :: s => writeLine (fgets 199 (c :: s)).1 ++ loadFrom (fgets 199 (c :: s)).2
termination_by s => s.length
decreasing_by exact (fgets_length 199 (c :: s)).2 (by decide) (by simp)

end Shecc.Driver
