import Verif.Props.RaBlock

/-!
# C57: a block that meets the hypotheses

Variable 0 is a global; the block computes `v1 = 5; v2 = g + v1; v3 = f(v2); g = v3`, copies `v3` to `v4` and goes to block 7.
`f` returns its argument plus one.
-/

namespace Shecc.Props.RaExample
open Shecc Shecc.Ssa Shecc.RegAlloc IrM SrcBlock RaLink

def vars : Vars :=
  { isGlobal := fun v => v == 0
    initVal := fun v => if v = 1 then 5#32 else 0#32
    numParams := fun _ => some 1 }

def sp : Word := 0x8000#32
def gp : Word := 0x1000#32

/-- Offsets: the global at 4, locals 1 to 9 in the frame. -/
def ofs (v : Nat) : Nat := if v = 0 then 4 else if v = 2 then 4 else if v = 4 then 8 else 0

def abi : Abi :=
  { blockAddr := fun n => BitVec.ofNat 32 (4 * n)
    funcAddr := fun _ => none
    dataAddr := 0x2000#32
    byteVal := fun b => b.setWidth 32
    raSlot := fun x => x
    divMem := fun s _ _ => s.mem
    divOk := fun _ _ _ _ => True
    retRa := fun a _ => a }

def ctx : Ctx :=
  { isGlobal := vars.isGlobal
    initVal := vars.initVal
    gaddr := fun _ => 0x1004#32
    basic := vars.basic
    objAddr := fun _ => 0
    dataAddr := 0x2000#32
    byteVal := fun b => b.setWidth 32
    hidden := fun a => 0x8000 ≤ a.toNat ∧ a.toNat < 0x9000
    call := fun _ args m m' r => m' = m ∧ r = some (args.getD 0 0 + 1#32) ∧ args.length = 1 }

/-- What calling `f` does to the machine. -/
def tcall (_ : Nat) (_ : String) (t t' : State) : Prop := t' = setReg t 0 (t.reg 0 + 1#32)

def body : List Insn :=
  [{ op := .load_constant, rd := some 1 }, { op := .alu .add, rd := some 2, rs1 := some 0, rs2 := some 1 },
    { op := .push, rs1 := some 2, sz := 1 }, { op := .call, str := "f" }, { op := .func_ret, rd := some 3 },
    { op := .assign, rd := some 0, rs1 := some 3 }]

def phis : List Insn := [{ op := .unwound_phi, rd := some 4, rs1 := some 3 }]

def blk : Block := { liveOut := [4], killed := [0, 1, 2, 3], next := some 7 }

/-- Index of the last use. -/
def use (v : Nat) : Int := if v = 0 then 1 else if v = 1 then 1 else if v = 2 then 2 else if v = 3 then 6 else -1

def st0 : RA := { offset := fun v => if v = 0 then 4 else 0, consumed := use }

theorem ofs_cases {v : Nat} (h : vars.isGlobal v = false) (hv : ofs v ≠ 0) : ofs v = 4 ∧ v = 2 ∨ ofs v = 8 ∧ v = 4 := by
  have h0 : v ≠ 0 := fun e => by subst e; cases h
  unfold ofs at hv ⊢
  rw [if_neg h0] at hv ⊢
  split at hv
  · rename_i e; exact Or.inl ⟨by simp [e], e⟩
  · split at hv
    · rename_i e; exact Or.inr ⟨by simp [e], e⟩
    · exact absurd rfl hv

theorem global_is {v : Nat} (h : vars.isGlobal v = true) : v = 0 := by simpa [vars] using h

theorem setup : Setup abi tcall ctx vars sp gp ofs where
  isGlobal := rfl
  initVal := rfl
  basic := rfl
  byteVal := rfl
  dataAddr := rfl
  slotHidden := by
    intro v hg hv k hk
    rcases ofs_cases hg hv with ⟨e, _⟩ | ⟨e, _⟩ <;> rw [e] <;>
      rcases (by omega : k = 0 ∨ k = 1 ∨ k = 2 ∨ k = 3) with rfl | rfl | rfl | rfl <;> exact ⟨by decide, by decide⟩
  slotFits := by
    intro v hg hv
    rcases ofs_cases hg hv with ⟨e, _⟩ | ⟨e, _⟩ <;> rw [e] <;> decide
  slotDiff := by
    intro u v huv hu hv hu' hv'
    rcases ofs_cases hu hu' with ⟨e, e'⟩ | ⟨e, e'⟩ <;> rcases ofs_cases hv hv' with ⟨d, d'⟩ | ⟨d, d'⟩ <;> omega
  globalAt := by
    intro v hv
    rw [global_is hv]
    decide
  globalVis := by
    intro v hv k hk h
    have : k = 0 ∨ k = 1 ∨ k = 2 ∨ k = 3 := by omega
    rcases this with rfl | rfl | rfl | rfl <;> exact absurd h.1 (by show ¬ (0x8000 ≤ (0x1004#32 + _).toNat); decide)
  globalDiff := by
    intro u v huv hu hv
    rw [global_is hu, global_is hv] at huv
    exact absurd rfl huv
  objAt := by intro v hv; cases hv
  divOk := by intros; trivial
  divMem := by intro t k l a _ h; exact absurd rfl h
  call := by
    intro _ f t args m m' r hsp hgp hm hl ha hc
    obtain ⟨h1, h2, h3⟩ := hc
    subst h1
    refine ⟨_, rfl, hsp, hgp, ?_, hm, fun v _ _ => rfl⟩
    intro x hx
    rw [h2] at hx
    cases hx
    show (if (0 : BitVec 3) = 0 then t.reg 0 + 1#32 else t.reg 0) = _
    rw [if_pos rfl, ← ha 0 (by omega)]
    rfl

theorem grouped : Grouped vars body := by
  refine .one rfl (.one rfl (.callRet (ps := [{ op := .push, rs1 := some 2, sz := 1 }]) (c := { op := .call, str := "f" }) ?_ rfl (.one rfl .nil)))
  refine ⟨by simp, ?_, by decide, rfl, ⟨1, rfl, by simp⟩, by simp⟩
  intro k hk
  have : k = 0 := by simpa using hk
  subst this
  rfl

theorem uses : Uses vars blk use (fun v => vars.isGlobal v = true ∨ False) 0 body := by
  refine ⟨⟨?_, ?_, ?_, ?_, ?_, ?_⟩, ⟨?_, ?_, ?_, ?_, ?_, ?_⟩, ⟨?_, ?_, ?_, ?_, ?_, ?_⟩, ⟨?_, ?_, ?_, ?_, ?_, ?_⟩, ⟨?_, ?_, ?_, ?_, ?_, ?_⟩,
    ⟨?_, ?_, ?_, ?_, ?_, ?_⟩, trivial⟩
  all_goals intros
  all_goals simp_all [blk, use, vars, result]
  all_goals omega

theorem modest : AllModest vars blk (fun v => st0.offset v ≠ 0) (fun v => ∃ i, i < 8 ∧ st0.var i = some v) st0.consumed 0 body := by
  refine ⟨⟨⟨List.range 5, by decide, ?_⟩, ?_, ?_, ?_, ?_, ?_⟩, ⟨⟨List.range 5, by decide, ?_⟩, ?_, ?_, ?_, ?_, ?_⟩,
    ⟨⟨List.range 5, by decide, ?_⟩, ?_, ?_, ?_, ?_, ?_⟩, ⟨⟨List.range 5, by decide, ?_⟩, ?_, ?_, ?_, ?_, ?_⟩,
    ⟨⟨List.range 5, by decide, ?_⟩, ?_, ?_, ?_, ?_, ?_⟩, ⟨⟨List.range 5, by decide, ?_⟩, ?_, ?_, ?_, ?_, ?_⟩, trivial⟩
  all_goals intros
  all_goals simp_all [st0, mentions, List.mem_range, body, bump, use]
  all_goals first
    | omega
    | (rename_i h _ h'; rcases h with (e | e | e) <;> simp_all)

/-- The conditions on the block hold. -/
theorem srcOk : SrcOk vars blk use (fun _ => False) body phis st0 := by
  refine ⟨grouped, uses, modest, ?_, ?_, ?_, fun v => Int.le_refl _, rfl, rfl, rfl⟩
  · refine ⟨⟨4, 3, rfl, rfl, rfl, Or.inr ⟨{ op := .func_ret, rd := some 3 }, by decide, rfl⟩, id, Or.inr (by decide), rfl, by decide⟩, trivial⟩
  · intro i _ v h; cases h
  · intro i j v _ _ h; cases h

/-- A source state: the global is 37. -/
def s0 : St :=
  { mem := store32 (fun _ => 0) 0x1004#32 37#32
    val := fun _ => 0 }

def t0 : State :=
  { reg := fun _ => 99
    sp := sp
    gp := gp
    ra := 0
    callee := none
    mem := s0.mem
    pc := 0 }

theorem entry : Entry ctx vars sp gp ofs (fun _ => False) st0 s0 t0 := by
  refine ⟨rfl, rfl, fun _ _ => rfl, ?_, by decide, rfl, ?_, ?_, ?_⟩
  · intro v hv; rw [global_is hv]; rfl
  · intro i _ v h; cases h
  · intro i j v _ _ h; cases h
  · intro v h; exact h.elim

/-- The block runs: the source computes `g = f(37 + 5)`. -/
theorem runs : ∃ s', SrcBlock.Run ctx (body ++ phis) s0 s' ∧ rd ctx s' 0 = 43#32 ∧ s'.val 4 = 43#32 := by
  refine ⟨_, .cons (.const rfl rfl) (.cons (.bin (op := .add) rfl rfl rfl rfl rfl rfl) (.cons (.push rfl rfl)
    (.cons (.call rfl ⟨rfl, rfl, rfl⟩) (.cons (.funcRet rfl rfl rfl) (.cons (.assign rfl rfl rfl) (.cons (.phi rfl rfl rfl) (.nil _))))))), ?_, ?_⟩
  · decide +kernel
  · decide +kernel

set_option maxRecDepth 20000 in
theorem offsets {st' : RA} (he : allocBlock vars blk true (body ++ phis) st0 = some st') :
    st'.offset = upd (upd (fun v => if v = 0 then 4 else 0) 2 4) 4 8 := by
  have : (allocBlock vars blk true (body ++ phis) st0).map (·.offset) =
      some (upd (upd (fun v => if v = 0 then 4 else 0) 2 4) 4 8) := rfl
  rw [he] at this
  exact Option.some.inj this

/-- The theorem applies, and its conclusion says that the machine has 43 in the global and in the slot of `v4`. -/
example : ∃ (st' : RA) (code : List Ph2Ir) (t' : State), allocBlock vars blk true (body ++ phis) st0 = some st' ∧
    st'.out = code ++ [{ op := .jump, next_bb := 7 }] ∧ TRun abi tcall 0 code t0 t' ∧
    load32 t'.mem 0x1004#32 = 43#32 ∧ slot t' 8 = 43#32 := by
  obtain ⟨s', hr, h0, h4⟩ := runs
  have he : ∃ st', allocBlock vars blk true (body ++ phis) st0 = some st' :=
    Option.isSome_iff_exists.1 (by decide +kernel)
  obtain ⟨st', he⟩ := he
  have ho : ∀ v, st'.offset v ≠ 0 → st'.offset v = ofs v := by
    intro v
    rw [offsets he]
    intro h
    unfold ofs upd at *
    repeat' split
    all_goals simp_all
  obtain ⟨code, t', h1, h2, h3⟩ := C57_block_partial setup (C57_six_variables_suffice srcOk) entry rfl hr he ho
  refine ⟨st', code, t', he, h1, h2, ?_, ?_⟩
  · have hm : ∀ k, k < 4 → t'.mem (0x1004#32 + BitVec.ofNat 32 k) = s'.mem (0x1004#32 + BitVec.ofNat 32 k) :=
      fun k hk => h3.between.mem _ (setup.globalVis 0 rfl k hk)
    have e0 := hm 0 (by decide)
    have e1 := hm 1 (by decide)
    have e2 := hm 2 (by decide)
    have e3 := hm 3 (by decide)
    rw [← h0]
    show _ = load32 s'.mem 0x1004#32
    unfold load32
    have x0 : t'.mem 0x1004#32 = s'.mem 0x1004#32 := e0
    have x1 : t'.mem (0x1004#32 + 1) = s'.mem (0x1004#32 + 1) := e1
    have x2 : t'.mem (0x1004#32 + 2) = s'.mem (0x1004#32 + 2) := e2
    have x3 : t'.mem (0x1004#32 + 3) = s'.mem (0x1004#32 + 3) := e3
    rw [x0, x1, x2, x3]
  · rw [← h4]
    exact (h3.between.val 4 ⟨by decide, Or.inr ⟨_, List.mem_cons_self .., rfl⟩⟩ rfl).2

end Shecc.Props.RaExample
