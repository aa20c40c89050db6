import Verif.Model.Layout

/-!
# Specification vocabulary for whole programs
-/

namespace Shecc

/-- Virtual address of the code section: `ELF_START + 0x54`. -/
def codeBase : BitVec 32 := 0x10054#32

/-- The instructions of block `b` of function `f` as they must appear in the output, when `pre` are the blocks before
and `post` those after it: the entry block starts with the frame allocation; a `return` carries the frame size; on a
target with detached branches, a branch whose else block is not the next one is detached. -/
def blockCode (T : Target) (f : Fn) (pre : List Block) (b : Block) (post : List Block) : List Ph2Ir :=
  (if pre = [] then [{ op := .define, src0 := f.stackSize }] else []) ++
    b.insns.map fun ir =>
      let ir := if ir.op = .ret then { ir with src1 := f.stackSize } else ir
      if T.detaches ∧ ir.op = .branch ∧ some ir.else_bb ≠ post.head?.map (·.id) then
        { ir with is_branch_detached := true } else ir

/-- The words `ws` are in the code section at byte offset `ofs`. -/
def CodeHas (img : List CInt) (ofs : Nat) (ws : List CInt) : Prop :=
  ∃ before after, img = before ++ ws ++ after ∧ 4 * before.length = ofs

end Shecc
