import Verif.Spec.SsaImage

/-!
# Specification: executions up to a system call

An execution need not end: a program may call `exit`, run for ever, or read past the end of an array after it has written its
output.  What it does up to any given system call is determined by the part of the execution before that call.
-/

namespace RaFn
open Shecc Shecc.Ssa Shecc.RegAlloc IrM SrcBlock

/-- `Reach C F T b s`: from block `b` in state `s` the function gets to a call of some function `f`, with arguments and memory such
that `T f args mem`. Whether that call returns is left open. -/
inductive Reach (C : Ctx) (F : RegAlloc.Fn) (T : String → List Word → Mem → Prop) : Nat → St → Prop
  | next {b n s s'} (hr : SrcBlock.Run C (F.insns b) s s') (hn : (F.block b).next = some n) (hne : n ≠ F.fnExit)
      (hx : Reach C F T n s') : Reach C F T b s
  | branch {b is br a s s'} (hi : F.insns b = is ++ [br]) (ho : br.op = .branch) (ha : br.rs1 = some a)
      (hr : SrcBlock.Run C is s s') (hn : (F.block b).next = none)
      (hne : (if rd C s' a ≠ 0#32 then (F.block b).then_ else (F.block b).else_) ≠ F.fnExit)
      (hx : Reach C F T (if rd C s' a ≠ 0#32 then (F.block b).then_ else (F.block b).else_) s') : Reach C F T b s
  | call {b xs c ys s s'} (hi : F.insns b = xs ++ c :: ys) (ho : c.op = .call) (hr : SrcBlock.Run C xs s s')
      (ht : T c.str s'.args s'.mem) : Reach C F T b s

end RaFn

namespace SsaProg
open Shecc Shecc.Ssa Shecc.RegAlloc Shecc.GlobalInit IrM SrcBlock RaFn CGlobals

/-- A call of `g` with the stack pointer at `sp` gets, at a depth of at most `n`, to a system call that `T` describes: `T hid args mem` is
about the arguments (the number first), the memory at that moment, and what of it is hidden. -/
def Reaches (Pr : SrcProg) (T : (Word → Prop) → List Word → Mem → Prop) : Nat → (Word → Prop) → Word → String → List Word → Mem → Prop
  | 0, _, _, _, _, _ => False
  | n + 1, hid, sp, g, args, m =>
    if g = "__syscall" then 1 ≤ args.length ∧ args.length ≤ 7 ∧ T hid args m
    else ∃ f, Pr.fn g = some f ∧ args.length = f.params.length ∧
      Pr.lo + f.size + 12 ≤ sp.toNat ∧
      ∀ μ, Agree hid m μ → ∃ s, s.mem = μ ∧ s.args = [] ∧ f.params.map s.val = args ∧
        Reach (ctx Pr f (inside f sp) (hiddenIn f (inside f sp) hid) (Call Pr n (hiddenIn f (inside f sp) hid) (inside f sp)))
          f.F (Reaches Pr T n (hiddenIn f (inside f sp) hid) (inside f sp)) f.entry s

/-- Started in memory `m`, the program initialises its global variables, runs `main` and gets to a system call that `T` describes. -/
def Makes (V : Vars) (K : Nat → Kind) (ds : List Decl) (fin : RA) (sp0 : Word) (Pr : SrcProg)
    (T : (Word → Prop) → List Word → Mem → Prop) (m : Mem) : Prop :=
  ∃ m1 n f, Initialised V K ds fin.offset (sp0 - num fin.stack) m m1 ∧ Pr.fn "main" = some f ∧
    Reaches Pr T n (stackBelow Pr (sp0 - num fin.stack)) (sp0 - num fin.stack) "main" (mainArgs m1 sp0 f.params.length) m1

end SsaProg
