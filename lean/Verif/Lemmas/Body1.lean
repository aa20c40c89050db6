import Verif.Model.Body
import Verif.Spec.CBody
import Verif.Props.ExprGen

/-!
# Function bodies: instructions, expressions and conditions
-/

namespace Shecc.Body
open CEval CSyntax CBody CArith
open Shecc.ExprGen (Conv Keeps Val Ext Comp CompS CompL TOk okHead phEx)
open Shecc.Ssa (Insn Op1)
open CRename (Ins Home)
open CStmt (Expr Exprs eval evals)

theorem _root_.Shecc.ExprGen.Conv.map {α β : Type} {f : Nat → Option α} {a : α} (h : Conv f a) (k : α → β) : Conv (fun n => (f n).map k) (k a) := by
  obtain ⟨n0, h⟩ := h
  exact ⟨n0, fun n hn => by simp only [h n hn, Option.map_some]⟩

/-- A machine and a language on it. -/
structure Mc (nv : Nat) where
  M : CRename.Mach
  H : Home Nat
  da : Word
  load : Nat → M.World → Word → Option Word
  C : CBody.Lang (machOf M H da load)
  K : CBody.Linked M H da load C nv

/-! ### Instructions -/

section
variable {M : CRename.Mach} {H : Home Nat} {da : Word} {load : Nat → M.World → Word → Option Word}

theorem rd_eq (s : CRename.State M Nat) (x : Nat) : SsaSem.rdVar (machOf M H da load) s x = CRename.rd M H s x := rfl

theorem wr_eq (s : CRename.State M Nat) (x : Nat) (v : Word) : SsaSem.wrVar (machOf M H da load) s x v = CRename.wr M H s x v := rfl

theorem step_bridge (hs : Std M da load) (cs : List (Nat × BitVec 32)) (i : Insn) (s s' : CRename.State M Nat)
    (h : SsaSem.step (machOf M H da load) (constOf cs) i s = some s') : CRename.step M H (toIns cs i) s = some s' := by
  obtain ⟨op, rd, rs1, rs2, sz, str⟩ := i
  have gen : ∀ (op : Op1), op ≠ .allocat → op ≠ .unwound_phi → op ≠ .address_of → op ≠ .load_constant → op ≠ .load_data_address →
      ((machOf M H da load).ext { op := op, rd := rd, rs1 := rs1, rs2 := rs2, sz := sz, str := str } (rs1.map (CRename.rd M H s)) (rs2.map (CRename.rd M H s)) s.1).map
        (fun r => SsaSem.wrOpt (machOf M H da load) (r.1, s.2) rd r.2) = some s' →
      CRename.step M H (toIns cs { op := op, rd := rd, rs1 := rs1, rs2 := rs2, sz := sz, str := str }) s = some s' := by
    intro op h1 h2 h3 h4 h5 h
    obtain ⟨r, hr, rfl⟩ := Option.map_eq_some_iff.1 h
    simp only [machOf, if_neg h1] at hr
    have hst : CRename.step M H (toIns cs { op := op, rd := rd, rs1 := rs1, rs2 := rs2, sz := sz, str := str }) s =
        (M.act ⟨op, sz, str⟩ (rs1.map (CRename.rd M H s)) (rs2.map (CRename.rd M H s)) s.1).map fun r =>
          match rd with
          | none => (r.1, s.2)
          | some d => CRename.wr M H (r.1, s.2) d r.2 := by
      unfold CRename.step
      split
      · rename_i he _ _
        exact absurd he h2
      · simp only [toIns, CRename.Ins.tag, CRename.arg1, if_neg h3, h4, h5, or_self, if_false]
        congr 1
        funext r
        cases rd with
        | none => rfl
        | some d => simp only [if_neg (fun h : op = .allocat ∧ _ => h1 h.1)]
    rw [hst, hr]
    cases rd <;> rfl
  cases op
  case allocat => simp [SsaSem.step, machOf] at h
  case load_constant =>
    cases rd with
    | none => simp [SsaSem.step] at h
    | some d =>
      simp only [SsaSem.step] at h
      refine Eq.trans ?_ h
      simp [CRename.step, toIns, CRename.Ins.tag, hs.const]
      rfl
  case load_data_address =>
    cases rd with
    | none => simp [SsaSem.step] at h
    | some d =>
      simp only [SsaSem.step] at h
      refine Eq.trans ?_ h
      simp [CRename.step, toIns, CRename.Ins.tag, hs.data]
      rfl
  case assign =>
    cases rd <;> cases rs1 <;> simp only [SsaSem.step, reduceCtorEq] at h
    refine Eq.trans ?_ h
    simp [CRename.step, toIns, CRename.Ins.tag, CRename.arg1, hs.move]
    rfl
  case unwound_phi =>
    cases rd <;> cases rs1 <;> simp only [SsaSem.step, reduceCtorEq] at h
    exact Eq.trans rfl h
  case address_of =>
    cases rd <;> cases rs1 <;> simp only [SsaSem.step, reduceCtorEq] at h
    refine Eq.trans ?_ h
    simp [CRename.step, toIns, CRename.Ins.tag, CRename.arg1, hs.addr]
    rfl
  case read =>
    cases rd <;> cases rs1 <;> simp only [SsaSem.step, reduceCtorEq] at h
    obtain ⟨v, hv, rfl⟩ := Option.map_eq_some_iff.1 h
    have hv' : load sz s.1 (CRename.rd M H s _) = some v := hv
    simp [CRename.step, toIns, CRename.Ins.tag, CRename.arg1, hs.read, hv', wr_eq]
  case alu op =>
    cases rd <;> cases rs1 <;> simp only [SsaSem.step, reduceCtorEq] at h
    rename_i d a
    cases hb : IrM.binOf op with
    | some o =>
      cases rs2 with
      | none => simp [hb] at h
      | some b =>
        simp only [hb] at h
        obtain ⟨v, hv, rfl⟩ := Option.map_eq_some_iff.1 h
        have hv' : CArith.bin o (CRename.rd M H s a) (CRename.rd M H s b) = some v := hv
        simp [CRename.step, toIns, CRename.Ins.tag, CRename.arg1, hs.bin _ _ _ _ _ _ _ hb, hv', wr_eq]
    | none =>
      cases hu : IrM.unOf op with
      | none => simp [hb, hu] at h
      | some o =>
        simp only [hb, hu] at h
        refine Eq.trans ?_ h
        simp [CRename.step, toIns, CRename.Ins.tag, CRename.arg1, hs.un _ _ _ _ _ _ _ hb hu]
        rfl
  all_goals exact gen _ (by simp) (by simp) (by simp) (by simp) (by simp) h

theorem run_bridge (hs : Std M da load) (cs : List (Nat × BitVec 32)) : ∀ (c : List Insn) (s s' : CRename.State M Nat),
    SsaSem.run (machOf M H da load) (constOf cs) c s = some s' → CRename.run M H (c.map (toIns cs)) s = some s'
  | [], _, _, h => h
  | i :: c, s, s', h => by
    simp only [SsaSem.run] at h
    obtain ⟨s1, h1, h2⟩ := Option.bind_eq_some_iff.1 h
    simp only [List.map_cons, CRename.run, step_bridge hs cs i s s1 h1, Option.bind_some]
    exact run_bridge hs cs c s1 s' h2
end

/-! ### Names -/

variable {T : Types.Table} {U : CBody.Unit}

def ent (U : CBody.Unit) (e : List Char × Nat) : Entry := (e.1, e.2, Types.readVar (U.decl e.2))

/-- What the parser's tables say at the beginning of a function body. -/
def glob (T : Types.Table) (U : CBody.Unit) : Glob where
  types := T
  const := U.const
  fn := fun s => (U.fn s).isSome
  macro_ := U.macro_
  params := U.params.map (ent U)
  globals := U.globals.map (ent U)

def stOf (U : CBody.Unit) (next : Nat) (d : List Char) (fs : List Frame) (nv : Nat) : St where
  next := next
  data := d
  frames := fs.map fun f => f.map (ent U)
  nv := nv

theorem findIn_map (s : List Char) (f : Frame) : findIn s (f.map (ent U)) = (inFrame s f).map fun x => (x, Types.readVar (U.decl x)) := by
  induction f with
  | nil => rfl
  | cons e f ih =>
    simp only [findIn, inFrame, List.map_cons, List.find?_cons] at ih ⊢
    by_cases h : e.1 = s
    · simp [ent, h]
    · simp only [ent, h, decide_false]
      exact ih

theorem findVar_map (s : List Char) (fs : List Frame) : findVar (glob T U) (fs.map fun f => f.map (ent U)) s =
    (lookup s (fs ++ [U.params, U.globals])).map fun x => (x, Types.readVar (U.decl x)) := by
  induction fs with
  | nil =>
    simp only [findVar, findLocal, List.map_nil, List.nil_append, lookup, glob, findIn_map]
    cases inFrame s U.params with
    | some x => rfl
    | none =>
      cases inFrame s U.globals <;> rfl
  | cons f fs ih =>
    simp only [findVar, findLocal, List.map_cons, List.cons_append, lookup, findIn_map] at ih ⊢
    cases inFrame s f with
    | some x => rfl
    | none => exact ih

theorem names_eq (next : Nat) (d : List Char) (fs : List Frame) (nv : Nat) :
    names (glob T U) (stOf U next d fs nv) = ExprGen.names T (U.scope fs) := by
  unfold names ExprGen.names
  congr 1
  funext s
  exact findVar_map s fs

/-- The variables are numbered below `base`. -/
def Below (base : Nat) (fs : List Frame) : Prop := ∀ f ∈ fs, ∀ e ∈ f, e.2 < base

theorem inFrame_mem {s : List Char} {f : Frame} {x : Nat} (h : inFrame s f = some x) : ∃ e ∈ f, e.2 = x := by
  obtain ⟨e, he, rfl⟩ := Option.map_eq_some_iff.1 h
  exact ⟨e, List.mem_of_find?_eq_some he, rfl⟩

theorem lookup_mem {s : List Char} {x : Nat} : ∀ {fs : List Frame}, lookup s fs = some x → ∃ f ∈ fs, ∃ e ∈ f, e.2 = x
  | [], h => by cases h
  | f :: fs, h => by
    simp only [lookup] at h
    split at h
    · rename_i y hy
      cases h
      obtain ⟨e, he, hx⟩ := inFrame_mem hy
      exact ⟨f, by simp, e, he, hx⟩
    · obtain ⟨f', hf, h'⟩ := lookup_mem h
      exact ⟨f', by simp [hf], h'⟩

theorem scope_below {base : Nat} {fs : List Frame} (h : Below base (fs ++ [U.params, U.globals])) :
    ∀ s x, (U.scope fs).var s = some x → x < base := by
  intro s x hx
  obtain ⟨f, hf, e, he, rfl⟩ := lookup_mem hx
  exact h f hf e he

end Shecc.Body
