import Verif.Model.RegAlloc
import Verif.Spec.SrcBlock

/-!
# Specification: how a source state and a machine state correspond around a block

`fofs` gives the frame offset of each local variable (0: it has none) and the offset of each global in the global area.
-/

namespace RaLink
open Shecc Shecc.Ssa Shecc.RegAlloc IrM SrcBlock

/-- The word of the frame at an offset. -/
def slot (t : State) (o : Nat) : Word := load32 t.mem (t.sp + BitVec.ofNat 32 o)

/-- Byte `k` of the frame word at offset `o`. -/
def slotByte (sp : Word) (o k : Nat) : Word := sp + BitVec.ofNat 32 o + BitVec.ofNat 32 k

/-- IR register `i`. -/
def r3 (i : Nat) : BitVec 3 := BitVec.ofNat 3 i

/-- The surroundings of a block: the two descriptions of variables agree; frame words of different locals are disjoint and
hidden from the source; globals are visible and disjoint; division only disturbs hidden bytes outside the frame's words; and
a call on the machine does what the source's call does, preserving the frame. -/
structure Setup (A : Abi) (tcall : Nat → String → State → State → Prop) (C : Ctx) (V : Vars) (sp gp : Word) (fofs : Nat → Nat) :
    Prop where
  isGlobal : C.isGlobal = V.isGlobal
  initVal : C.initVal = V.initVal
  basic : C.basic = V.basic
  byteVal : A.byteVal = C.byteVal
  dataAddr : A.dataAddr = C.dataAddr
  slotHidden : ∀ v, V.isGlobal v = false → fofs v ≠ 0 → ∀ k, k < 4 → C.hidden (slotByte sp (fofs v) k)
  slotFits : ∀ v, V.isGlobal v = false → fofs v ≠ 0 → fofs v % 4 = 0 ∧ fofs v + 4 ≤ 2 ^ 32
  slotDiff : ∀ u v, u ≠ v → V.isGlobal u = false → V.isGlobal v = false → fofs u ≠ 0 → fofs v ≠ 0 → fofs u ≠ fofs v
  globalAt : ∀ v, V.isGlobal v = true → fofs v ≠ 0 ∧ C.gaddr v = gp + BitVec.ofNat 32 (fofs v)
  globalVis : ∀ v, V.isGlobal v = true → ∀ k, k < 4 → ¬ C.hidden (C.gaddr v + BitVec.ofNat 32 k)
  globalDiff : ∀ u v, u ≠ v → V.isGlobal u = true → V.isGlobal v = true → ∀ k l, k < 4 → l < 4 →
    C.gaddr u + BitVec.ofNat 32 k ≠ C.gaddr v + BitVec.ofNat 32 l
  objAt : ∀ v, V.basic v = false → C.objAddr v = sp + BitVec.ofNat 32 (fofs v + 4)
  divOk : ∀ o t k l, t.sp = sp → k ≠ l → A.divOk o t k l
  divMem : ∀ t k l a, t.sp = sp → A.divMem t k l a ≠ t.mem a →
    C.hidden a ∧ ∀ v, V.isGlobal v = false → fofs v ≠ 0 → ∀ k, k < 4 → a ≠ slotByte sp (fofs v) k
  call : ∀ i f (t : State) args m m' r, t.sp = sp → t.gp = gp → (∀ a, ¬ C.hidden a → t.mem a = m a) → args.length ≤ 8 →
    (∀ k, k < args.length → t.reg (r3 k) = args.getD k 0) → C.call f args m m' r →
    ∃ t' : State, tcall i f t t' ∧ t'.sp = sp ∧ t'.gp = gp ∧ (∀ x, r = some x → t'.reg 0 = x) ∧ (∀ a, ¬ C.hidden a → t'.mem a = m' a) ∧
      ∀ v, V.isGlobal v = false → fofs v ≠ 0 → slot t' (fofs v) = slot t (fofs v)

/-- Between blocks: the frame is in place, visible memory is the source's, and each local of `live` has its value in its
frame word. -/
structure Between (C : Ctx) (V : Vars) (sp gp : Word) (fofs : Nat → Nat) (live : Nat → Prop) (s : St) (t : State) : Prop where
  sp : t.sp = sp
  gp : t.gp = gp
  mem : ∀ a, ¬ C.hidden a → t.mem a = s.mem a
  val : ∀ v, live v → V.isGlobal v = false → fofs v ≠ 0 ∧ slot t (fofs v) = s.val v

end RaLink
