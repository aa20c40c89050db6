import Verif.Props.RaFn

/-!
# C82: a function that meets the hypotheses

`int f(int n) { int s = 0; while (n) { s = s + n; n = n - 1; } return s; }`: variable 1 is the parameter, variables 3 and 4 hold `s` and
`n` in the loop. Blocks: 0 entry, 1 condition, 2 body, 3 `return s`, 4 exit.
-/

namespace Shecc.Props.RaFnExample
open Shecc Shecc.Ssa Shecc.RegAlloc IrM SrcBlock RaLink RaFn

def vars : Vars :=
  { isGlobal := fun v => v == 0
    initVal := fun v => if v = 6 then 1#32 else 0#32 }

def b0 : RegAlloc.Block := { liveOut := [3, 4], killed := [1, 2], next := some 1 }
def b1 : RegAlloc.Block := { liveOut := [3, 4], then_ := 2, else_ := 3 }
def b2 : RegAlloc.Block := { liveOut := [3, 4], killed := [5, 6, 7], next := some 1 }
def b3 : RegAlloc.Block := { next := some 4 }
def b4 : RegAlloc.Block := {}

def fn : RegAlloc.Fn :=
  { block := fun b => [b0, b1, b2, b3].getD b b4
    insns := fun b =>
      [[{ op := .load_constant, rd := some 2 }, { op := .unwound_phi, rd := some 3, rs1 := some 2 },
        { op := .unwound_phi, rd := some 4, rs1 := some 1 }],
       [{ op := .branch, rs1 := some 4 }],
       [{ op := .alu .add, rd := some 5, rs1 := some 3, rs2 := some 4 }, { op := .load_constant, rd := some 6 },
        { op := .alu .sub, rd := some 7, rs1 := some 4, rs2 := some 6 }, { op := .unwound_phi, rd := some 3, rs1 := some 5 },
        { op := .unwound_phi, rd := some 4, rs1 := some 7 }],
       [{ op := .ret, rs1 := some 3 }]].getD b []
    rpo := fun b => b
    fnExit := 4 }

/-- Last uses. -/
def use (v : Nat) : Int := [-1, 2, 1, 0, 2, 3, 2, 4].getD v (-1)

/-- The variables with a value at the start of a block. -/
def live (b v : Nat) : Prop := v ∈ [[1], [3, 4], [3, 4], [3]].getD b []

def sp : Word := 0x8000#32
def gp : Word := 0x1000#32
def stack : Word := 16#32

/-- The addresses of the blocks: four bytes for each instruction. -/
def abi : Abi :=
  { blockAddr := fun n => BitVec.ofNat 32 ([0x400, 0x40c, 0x414, 0x434, 0x43c].getD n 0)
    funcAddr := fun _ => none
    dataAddr := 0x2000#32
    byteVal := fun b => b.setWidth 32
    raSlot := fun x => x
    divMem := fun s _ _ => s.mem
    divOk := fun _ _ _ _ => True
    retRa := fun a _ => a }

def code : List Ph2Ir :=
  [{ op := .load_constant, src0 := 0, dest := 1 }, { op := .store, src0 := 1, src1 := 4 }, { op := .store, src0 := 0, src1 := 8 },
   { op := .load, src0 := 8, dest := 0 }, { op := .branch, src0 := 0, then_bb := 2, else_bb := 3 },
   { op := .load, src0 := 4, dest := 0 }, { op := .load, src0 := 8, dest := 1 }, { op := .add, src0 := 0, src1 := 1, dest := 2 },
   { op := .load_constant, src0 := 1, dest := 3 }, { op := .sub, src0 := 1, src1 := 3, dest := 4 },
   { op := .store, src0 := 2, src1 := 4 }, { op := .store, src0 := 4, src1 := 8 }, { op := .jump, next_bb := 1 },
   { op := .load, src0 := 4, dest := 0 }, { op := .ret, src0 := 0, src1 := 16 }]

/-- The program: the code at 0x400. -/
def prog : Program := fun a ir nxt =>
  ∃ k, a = BitVec.ofNat 32 (0x400 + 4 * k) ∧ nxt = BitVec.ofNat 32 (0x400 + 4 * (k + 1)) ∧ code[k]? = some ir

def ctx : Ctx :=
  { isGlobal := vars.isGlobal
    initVal := vars.initVal
    gaddr := fun _ => 0x1004#32
    basic := vars.basic
    objAddr := fun _ => 0
    dataAddr := 0x2000#32
    byteVal := fun b => b.setWidth 32
    hidden := fun a => 0x8000 ≤ a.toNat ∧ a.toNat < 0x9000
    call := fun _ _ _ _ _ => False }

def st0 : RA := { offset := fun v => if v = 0 then 4 else 0, consumed := use }

/-- The allocator produces that code, and puts `s` and `n` at offsets 4 and 8. -/
theorem alloc : ∃ codes fin, allocBlocks vars fn [] [0, 1, 2, 3, 4] (fnStart [1] false st0) = some (codes, fin) ∧
    codes = [(0, code.take 3), (1, (code.drop 3).take 2), (2, (code.drop 5).take 8),
      (3, [{ op := .load, src0 := 4, dest := 0 }, { op := .ret, src0 := 0 }]), (4, [])] ∧
    fin.offset = upd (upd st0.offset 3 4) 4 8 := by
  refine ⟨_, _, rfl, rfl, rfl⟩

theorem at_ {k n : Nat} {irs : List Ph2Ir} (h : ∀ i, i < irs.length → ∃ ir', code[k + i]? = some ir' ∧ ∀ ir, irs[i]? = some ir → Final stack ir ir')
    (hn : irs.length = n) : At prog stack (BitVec.ofNat 32 (0x400 + 4 * k)) irs (BitVec.ofNat 32 (0x400 + 4 * (k + n))) := by
  subst hn
  induction irs generalizing k with
  | nil => exact .nil _
  | cons x xs ih =>
    obtain ⟨ir', e, hf⟩ := h 0 (by simp)
    have := ih (k := k + 1) (fun i hi => by
      obtain ⟨y, e, hf⟩ := h (i + 1) (by simp; omega)
      exact ⟨y, by rw [← e]; congr 1; omega, fun ir hir => hf ir (by simpa using hir)⟩)
    rw [show k + 1 + xs.length = k + (x :: xs).length by simp; omega] at this
    exact .cons (hf x rfl) ⟨k, rfl, rfl, e⟩ this

theorem final_id {ir : Ph2Ir} (h : ir.op ≠ .ret) : Final stack ir ir := ⟨ir.is_branch_detached, by rw [if_neg h]⟩

theorem laid : Laid abi prog stack (abi.blockAddr 0) (withReturns fn false [3]
    [(0, code.take 3), (1, (code.drop 3).take 2), (2, (code.drop 5).take 8),
      (3, [{ op := .load, src0 := 4, dest := 0 }, { op := .ret, src0 := 0 }]), (4, [])]) := by
  refine .cons (e := BitVec.ofNat 32 (0x400 + 4 * 3)) (at_ (k := 0) ?_ rfl) ?_
    (.cons (e := BitVec.ofNat 32 (0x400 + 4 * 5)) (at_ (k := 3) ?_ rfl) ?_
    (.cons (e := BitVec.ofNat 32 (0x400 + 4 * 13)) (at_ (k := 5) ?_ rfl) ?_
    (.cons (e := BitVec.ofNat 32 (0x400 + 4 * 15)) (at_ (k := 13) ?_ rfl) ?_
    (.cons (e := BitVec.ofNat 32 (0x400 + 4 * 15)) (.nil _) ?_ (.nil _)))))
  all_goals first
    | (intro i hi
       simp only [List.length_append, implicitReturns] at hi
       have hi' : i < 8 := by first | (simp [code] at hi; omega) | (simp at hi; omega)
       have : i = 0 ∨ i = 1 ∨ i = 2 ∨ i = 3 ∨ i = 4 ∨ i = 5 ∨ i = 6 ∨ i = 7 := by omega
       rcases this with rfl | rfl | rfl | rfl | rfl | rfl | rfl | rfl
       all_goals first
        | exact ⟨_, rfl, fun ir hir => by cases hir; exact ⟨false, rfl⟩⟩
        | (exfalso; simp [code] at hi))
    | (intro c hc
       simp only [List.head?_cons, List.head?_nil, List.map_cons, List.map_nil, Option.mem_def, Option.some.injEq] at hc
       first | (subst hc; rfl) | cases hc)

theorem ofs_cases {v : Nat} (h : vars.isGlobal v = false) (hv : upd (upd st0.offset 3 4) 4 8 v ≠ 0) :
    (upd (upd st0.offset 3 4) 4 8 v = 4 ∧ v = 3) ∨ (upd (upd st0.offset 3 4) 4 8 v = 8 ∧ v = 4) := by
  have h0 : v ≠ 0 := fun e => by subst e; cases h
  unfold upd st0 at hv ⊢
  simp only [h0, if_false] at hv ⊢
  by_cases h4 : v = 4
  · exact Or.inr ⟨by simp [h4], h4⟩
  · by_cases h3 : v = 3
    · exact Or.inl ⟨by simp [h3], h3⟩
    · simp [h3, h4] at hv

theorem global_is {v : Nat} (h : vars.isGlobal v = true) : v = 0 := by simpa [vars] using h

theorem setup : Setup abi (fun _ _ _ _ => True) ctx vars sp gp (upd (upd st0.offset 3 4) 4 8) where
  isGlobal := rfl
  initVal := rfl
  basic := rfl
  byteVal := rfl
  dataAddr := rfl
  slotHidden := by
    intro v hg hv k hk
    rcases ofs_cases hg hv with ⟨e, _⟩ | ⟨e, _⟩ <;> rw [e] <;>
      rcases (by omega : k = 0 ∨ k = 1 ∨ k = 2 ∨ k = 3) with rfl | rfl | rfl | rfl <;> exact ⟨by decide, by decide⟩
  slotFits := by
    intro v hg hv
    rcases ofs_cases hg hv with ⟨e, _⟩ | ⟨e, _⟩ <;> rw [e] <;> decide
  slotDiff := by
    intro u v huv hu hv hu' hv'
    rcases ofs_cases hu hu' with ⟨e, e'⟩ | ⟨e, e'⟩ <;> rcases ofs_cases hv hv' with ⟨d, d'⟩ | ⟨d, d'⟩ <;> omega
  globalAt := by
    intro v hv
    rw [global_is hv]
    decide
  globalVis := by
    intro v hv k hk h
    have : k = 0 ∨ k = 1 ∨ k = 2 ∨ k = 3 := by omega
    rcases this with rfl | rfl | rfl | rfl <;> exact absurd h.1 (by show ¬ (0x8000 ≤ (0x1004#32 + _).toNat); decide)
  globalDiff := by
    intro u v huv hu hv
    rw [global_is hu, global_is hv] at huv
    exact absurd rfl huv
  objAt := by intro v hv; cases hv
  divOk := by intros; trivial
  divMem := by intro t k l a _ h; exact absurd rfl h
  call := by
    intro _ f t args m m' r hsp hgp hm hl ha hc
    exact hc.elim

theorem fnOk : FnOk vars fn [1] [3] 0 [1, 2, 3, 4] use live where
  nodup := by decide
  numbered := by
    intro k b h
    rcases k with _ | _ | _ | _ | _ | k <;> simp at h <;> subst h <;> rfl
  entryExit := by decide
  exit := ⟨rfl, rfl⟩
  prev := by
    intro b
    by_cases h4 : b = 4
    · subst h4; simp [succs, fn]
    · rcases b with _ | _ | _ | _ | b
      · decide
      · decide
      · decide
      · decide
      · have e : fn.block (b + 1 + 1 + 1 + 1) = b4 := rfl
        have h4' : b + 1 + 1 + 1 + 1 ≠ fn.fnExit := h4
        rw [succs, if_neg h4', e]
        simp [b4, fn]
  closed := by decide
  reached := by
    intro n hn _
    simp only [List.mem_cons, List.not_mem_nil, or_false] at hn
    rcases hn with rfl | rfl | rfl | rfl
    · exact ⟨0, by decide, [], _, rfl, by simp⟩
    · exact ⟨1, by decide, [0], _, rfl, by simp⟩
    · exact ⟨1, by decide, [0], _, rfl, by simp⟩
    · exact ⟨3, by decide, [0, 1, 2], _, rfl, by simp⟩
  block := by
    intro pre b post h hb
    rcases pre with _ | ⟨p0, _ | ⟨p1, _ | ⟨p2, _ | ⟨p3, _ | ⟨p4, pre⟩⟩⟩⟩⟩
    · simp only [List.nil_append, List.cons.injEq] at h
      obtain ⟨rfl, rfl⟩ := h
      refine ⟨[{ op := .load_constant, rd := some 2 }], [{ op := .unwound_phi, rd := some 3, rs1 := some 2 },
        { op := .unwound_phi, rd := some 4, rs1 := some 1 }], [], rfl, .next rfl, .one rfl .nil, ?_, ?_, ?_, ?_⟩
      · refine ⟨⟨?_, ?_, ?_, ?_, ?_, ?_⟩, trivial⟩
        all_goals intros
        all_goals simp_all [fn, b0]
        all_goals (subst_vars; simp_all [use])
      · refine ⟨⟨⟨[1], by decide, ?_⟩, ?_, ?_, ?_, ?_, ?_⟩, trivial⟩
        all_goals intros
        all_goals simp_all
      · refine ⟨⟨3, 2, rfl, rfl, rfl, Or.inr ⟨_, List.mem_cons_self .., rfl⟩, id, Or.inr (by decide), rfl, by decide⟩,
          ⟨4, 1, rfl, rfl, rfl, Or.inl (Or.inr (by simp [live])), by simp, Or.inr (by decide), rfl, by decide⟩, trivial⟩
      · rintro v ⟨_, n, hn, _, hv⟩
        simp [succs, fn, b0] at hn
        subst hn
        refine ⟨hv, ?_⟩
        simp [live] at hv
        rcases hv with rfl | rfl
        · exact Or.inr ⟨_, List.mem_cons_self .., rfl⟩
        · exact Or.inr ⟨_, List.mem_cons_of_mem _ (List.mem_cons_self ..), rfl⟩
    · simp only [List.cons_append, List.nil_append, List.cons.injEq] at h
      obtain ⟨rfl, rfl, rfl⟩ := h
      refine ⟨[], [], [{ op := .branch, rs1 := some 4 }], rfl, .branch rfl rfl rfl ?_, .nil, trivial, trivial, trivial, ?_⟩
      · exact ⟨Or.inl (Or.inr (by simp [live])), by simp, Or.inl (by decide)⟩
      · rintro v ⟨_, n, hn, _, hv⟩
        have h : v ∈ [3, 4] := by
          simp [succs, fn, b1] at hn
          rcases hn with rfl | rfl
          · exact hv
          · simp [live] at hv; subst hv; decide
        exact ⟨h, Or.inl (Or.inl h)⟩
    · simp only [List.cons_append, List.nil_append, List.cons.injEq] at h
      obtain ⟨rfl, rfl, rfl, rfl⟩ := h
      refine ⟨[{ op := .alu .add, rd := some 5, rs1 := some 3, rs2 := some 4 }, { op := .load_constant, rd := some 6 },
        { op := .alu .sub, rd := some 7, rs1 := some 4, rs2 := some 6 }], [{ op := .unwound_phi, rd := some 3, rs1 := some 5 },
        { op := .unwound_phi, rd := some 4, rs1 := some 7 }], [], rfl, .next rfl, .one rfl (.one rfl (.one rfl .nil)), ?_, ?_, ?_, ?_⟩
      · refine ⟨⟨?_, ?_, ?_, ?_, ?_, ?_⟩, ⟨?_, ?_, ?_, ?_, ?_, ?_⟩, ⟨?_, ?_, ?_, ?_, ?_, ?_⟩, trivial⟩
        all_goals intros
        all_goals simp_all [fn, b2, result, live]
        all_goals first
          | (subst_vars; simp_all [use, vars]; done)
          | (rename_i h; rcases h with rfl | rfl <;> simp [use, vars])
      · refine ⟨⟨⟨List.range 0, by decide, ?_⟩, ?_, ?_, ?_, ?_, ?_⟩, ⟨⟨[3, 4, 5], by decide, ?_⟩, ?_, ?_, ?_, ?_, ?_⟩,
          ⟨⟨[3, 4, 5, 6], by decide, ?_⟩, ?_, ?_, ?_, ?_, ?_⟩, trivial⟩
        all_goals intros
        all_goals simp_all [mentions]
        all_goals omega
      · refine ⟨⟨3, 5, rfl, rfl, rfl, Or.inr ⟨_, List.mem_cons_self .., rfl⟩, id, Or.inr (by decide), rfl, by decide⟩,
          ⟨4, 7, rfl, rfl, rfl, Or.inr ⟨_, List.mem_cons_of_mem _ (List.mem_cons_of_mem _ (List.mem_cons_self ..)), rfl⟩, by simp,
            Or.inr (by decide), rfl, by decide⟩, trivial⟩
      · rintro v ⟨_, n, hn, _, hv⟩
        simp [succs, fn, b2] at hn
        subst hn
        refine ⟨hv, ?_⟩
        simp [live] at hv
        rcases hv with rfl | rfl
        · exact Or.inr ⟨_, List.mem_cons_self .., rfl⟩
        · exact Or.inr ⟨_, List.mem_cons_of_mem _ (List.mem_cons_self ..), rfl⟩
    · simp only [List.cons_append, List.nil_append, List.cons.injEq] at h
      obtain ⟨rfl, rfl, rfl, rfl, rfl⟩ := h
      refine ⟨[], [], [{ op := .ret, rs1 := some 3 }], rfl, .ret rfl rfl rfl ?_, .nil, trivial, trivial, trivial, ?_⟩
      · exact ⟨Or.inl (Or.inr (by simp [live])), by simp, Or.inr (by decide)⟩
      · rintro v ⟨_, n, hn, hne, _⟩
        simp [succs, fn, b3] at hn
        exact absurd hn hne
    · simp only [List.cons_append, List.nil_append, List.cons.injEq] at h
      obtain ⟨rfl, rfl, rfl, rfl, rfl, rfl⟩ := h
      exact absurd rfl hb
    · simp only [List.cons_append, List.nil_append, List.cons.injEq] at h
      obtain ⟨rfl, rfl, rfl, rfl, rfl, h⟩ := h
      simp at h
  param := by
    refine ⟨by decide, by decide, ?_⟩
    intro p hp
    obtain rfl := List.mem_singleton.1 hp
    exact ⟨rfl, by decide⟩
  start := by intro v; exact Iff.rfl

/-- The sum `n + (n - 1) + … + 1`. -/
def total : Nat → Word
  | 0 => 0
  | n + 1 => BitVec.ofNat 32 (n + 1) + total n

theorem loop : ∀ (n : Nat) (s : St), n < 2 ^ 32 → s.val 4 = BitVec.ofNat 32 n →
    Exec ctx fn false 1 s (some (s.val 3 + total n)) s.mem := by
  intro n
  induction n with
  | zero =>
    intro s _ h
    have hz : rd ctx s 4 = 0#32 := h
    refine .branch (is := []) rfl rfl rfl (.nil s) rfl ?_ ?_
    · rw [hz]; decide
    · rw [hz]
      have : Exec ctx fn false 3 s (some (rd ctx s 3)) s.mem := .ret (is := []) rfl rfl rfl (.nil s)
      have e : rd ctx s 3 = s.val 3 + total 0 := by simp [rd, total, ctx, vars]
      rw [e] at this
      exact this
  | succ n ih =>
    intro s hn h
    have hz : rd ctx s 4 ≠ 0#32 := by
      show s.val 4 ≠ 0#32
      rw [h]
      intro e
      have := congrArg BitVec.toNat e
      simp only [BitVec.toNat_ofNat, Nat.mod_eq_of_lt hn] at this
      omega
    refine .branch (is := []) rfl rfl rfl (.nil s) rfl ?_ ?_
    · rw [if_pos hz]; decide
    · rw [if_pos hz]
      refine .next (n := 1) (.cons (.bin (op := .add) rfl rfl rfl rfl rfl rfl) (.cons (.const rfl rfl)
        (.cons (.bin (op := .sub) rfl rfl rfl rfl rfl rfl) (.cons (.phi rfl rfl rfl) (.cons (.phi rfl rfl rfl) (.nil _)))))) rfl (by decide) ?_
      have e3 : s.val 3 + s.val 4 + total n = s.val 3 + total (n + 1) := by
        rw [h, total, BitVec.add_assoc]
      rw [← e3]
      refine ih _ (by omega) ?_
      show s.val 4 - 1#32 = _
      rw [h]
      apply BitVec.eq_of_toNat_eq
      simp only [BitVec.toNat_sub, BitVec.toNat_ofNat]
      omega

/-- A call of the function with argument 100. -/
def s0 : St :=
  { mem := fun _ => 0
    val := fun v => if v = 1 then 100#32 else 0 }

def t0 : State :=
  { reg := fun _ => 100#32
    sp := sp
    gp := gp
    ra := 0
    callee := none
    mem := s0.mem
    pc := abi.blockAddr 0 }

set_option maxRecDepth 4000 in
theorem execs : Exec ctx fn false 0 s0 (some 5050#32) s0.mem := by
  refine .next (n := 1) (.cons (.const rfl rfl) (.cons (.phi rfl rfl rfl) (.cons (.phi rfl rfl rfl) (.nil _)))) rfl (by decide) ?_
  exact loop 100 _ (by decide) rfl

/-- The theorem applies: the machine returns 5050. -/
example (os : Os) (sys : Word) : ∃ t' ir nxt k, XRun abi prog os sys t0 t' ∧ prog t'.pc ir nxt ∧ ir.op = .ret ∧ isReg ir.src0 k ∧ t'.reg k = 5050#32 := by
  obtain ⟨codes, fin, h1, rfl, h3⟩ := alloc
  obtain ⟨t', hr, hret⟩ := C82_function_partial (t := t0) (stack := stack) (start := abi.blockAddr 0) (void := false) (fin := fin)
    (nargs := fun _ => 0) (fun s t _ _ _ _ _ h => ⟨h, fun _ _ => trivial⟩) (by rw [h3]; exact setup)
    (by intro _ _ _ _ _ _ _ _ _ _ hc; exact hc.elim) (by intro _ _ _ _ _ hc; exact hc.elim) fnOk rfl rfl
    (by intro v hv; have : v ≠ 0 := fun e => (by subst e; cases hv); simp [st0, this])
    (by intro v hv; rw [global_is hv]; decide) h1 (.inl rfl) laid execs
    ⟨rfl, rfl, fun _ _ => rfl, rfl, by
      intro k p hp
      rcases k with _ | k
      · simp at hp; subst hp; rfl
      · simp at hp⟩ rfl
  obtain ⟨ir, nxt, h4, h5, _, k, h6, h7⟩ := hret.ret
  exact ⟨t', ir, nxt, k, hr, h4, h5, h6, h7⟩

end Shecc.Props.RaFnExample
