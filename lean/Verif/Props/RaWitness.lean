import Verif.Model.RegAlloc

/-!
# C57: blocks that the allocator translates wrongly

Each block begins with empty registers; `consumed` is the index of the last use, as `bb_solve_locals` computes it.
They justify the hypotheses `Grouped` and `NoClash` of the theorems in `Verif.Props.RaBlock`.
-/

namespace Shecc.Props.RaWitness
open Shecc Shecc.Ssa Shecc.RegAlloc

def constOf (d : Nat) : Insn := { op := .load_constant, rd := some d }
def bin (o : Op2) (d a b : Nat) : Insn := { op := .alu o, rd := some d, rs1 := some a, rs2 := some b }
def ret (a : Nat) : Insn := { op := .ret, rs1 := some a }

/-- Index of the last use of a variable in a block. -/
def lastUse (is : List Insn) (v : Nat) : Int :=
  is.zipIdx.foldl (fun acc p => if p.1.rs1 = some v ∨ p.1.rs2 = some v then (p.2 : Int) else acc) (-1)

def codeOf (V : Vars) (is : List Insn) : Option (List Ph2Ir) := (allocBlock V {} false is { consumed := lastUse is }).map (·.out)

/-- Nine constants; `v9 = v1 - v0` is computed while `v0` is in memory. -/
def pressure : List Insn :=
  (List.range 9).map constOf ++
    [bin .sub 9 1 0, bin .add 10 2 3, bin .add 11 4 5, bin .add 12 6 7, bin .add 13 8 9, bin .add 14 1 0, ret 14]

/-- C57 fails under register pressure: for `v1 - v0` the allocator stores `v1` from register 1, loads `v0` into the same
register and emits a subtraction of register 1 from itself. -/
theorem C57_high_pressure_witness :
    ∃ out, codeOf {} pressure = some out ∧
      (out.drop 10).take 2 = [{ op := .store, src0 := 1, src1 := 8 }, { op := .load, src0 := 4, dest := 1 }] ∧
      out[13]? = some { op := .sub, src0 := 1, src1 := 1, dest := 0 } := by
  refine ⟨(codeOf {} pressure).get (by decide +kernel), by decide +kernel, by decide +kernel, by decide +kernel⟩

/-- `f(v1) + v1` through a function pointer `v2`. -/
def indirectThenUse : List Insn :=
  [constOf 1, constOf 2, { op := .push, rs1 := some 1, sz := 1 }, { op := .indirect, rs1 := some 2 },
    { op := .func_ret, rd := some 3 }, bin .add 4 3 1, ret 4]

/-- C57 fails after an indirect call: the sum reads `v1` from register 0, which holds the result of the call. -/
theorem C57_indirect_witness :
    ∃ out, codeOf {} indirectThenUse = some out ∧
      out.drop 8 = [{ op := .indirect }, { op := .assign, src0 := 0, dest := 1 }, { op := .add, src0 := 1, src1 := 0, dest := 2 },
        { op := .ret, src0 := 2 }] := by
  refine ⟨(codeOf {} indirectThenUse).get (by decide +kernel), by decide +kernel, by decide +kernel⟩

/-- `v9 = v0` while `v0` is in memory and no register is free; `v9` is used later. -/
def assignFull : List Insn :=
  (List.range 9).map constOf ++
    [{ op := .assign, rd := some 9, rs1 := some 0 }, bin .add 10 2 3, bin .add 11 4 5, bin .add 12 6 7, bin .add 13 1 8,
      bin .add 14 9 0, ret 14]

/-- C57 fails for an assignment under pressure: `v9` gets the register of `v0`, which is then forgotten; the later use of
`v9` loads frame offset 0, which nothing has stored. -/
theorem C57_assign_witness :
    ∃ out, codeOf {} assignFull = some out ∧ out[12]? = some { op := .assign, src0 := 0, dest := 0 } ∧
      { op := .load, src0 := 0, dest := 0 } ∈ out ∧ ∀ ir ∈ out, ir.op = .store → ir.src1 ≠ 0 := by
  refine ⟨(codeOf {} assignFull).get (by decide +kernel), by decide +kernel, by decide +kernel, by decide +kernel, by decide +kernel⟩

/-- A call without arguments of a function with one parameter; `v1` is used after it. -/
def callNoArgs : List Insn := [constOf 1, { op := .call, str := "f" }, { op := .func_ret, rd := some 3 }, bin .add 4 3 1, ret 4]

/-- C57 fails for calls that pass no argument to a function with parameters: `v1` is not stored before the call. -/
theorem C57_call_witness :
    ∃ out, codeOf { numParams := fun _ => some 1 } callNoArgs = some out ∧
      { op := .load, src0 := 0, dest := 1 } ∈ out ∧ ∀ ir ∈ out, ir.op ≠ .store := by
  refine ⟨(codeOf { numParams := fun _ => some 1 } callNoArgs).get (by decide +kernel), by decide +kernel, by decide +kernel, by decide +kernel⟩

/-- Variable 0 is global, variable 1 a function: its address is stored in variable 0, which is read before and after. -/
def funcWrite : List Insn :=
  [bin .add 3 0 0, { op := .address_of, rd := some 2, rs1 := some 0 }, { op := .write, rs1 := some 2, rs2 := some 1, sz := 4 },
    bin .add 4 0 3, ret 4]

/-- C57 fails for storing the address of a function over a global that is in a register: the global is not read again. -/
theorem C57_func_write_witness :
    ∃ out, codeOf { isGlobal := fun v => v == 0, isFunc := fun v => v == 1, name := fun _ => "f" } funcWrite = some out ∧
      (out.map (·.op)).filter (· = .global_load) = [.global_load] ∧
      out.drop 4 = [{ op := .address_of_func, src0 := 2, func_name := "f" }, { op := .add, src0 := 0, src1 := 1, dest := 2 },
        { op := .ret, src0 := 2 }] := by
  refine ⟨(codeOf { isGlobal := fun v => v == 0, isFunc := fun v => v == 1, name := fun _ => "f" } funcWrite).get (by decide +kernel),
    by decide +kernel, by decide +kernel, by decide +kernel⟩

end Shecc.Props.RaWitness
