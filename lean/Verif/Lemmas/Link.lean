import Verif.Spec.CProgram
import Verif.Lemmas.ExecBlocks

/-!
# From executions over names to executions over numbered variables
-/

namespace CProg
open Shecc Shecc.Ssa IrM SrcBlock RaFn
open CRename (Tag Mach Home Ins)
open SsaBuild (Name)

/-- Instructions assign a variable if they compute a value, and only then. -/
def Shaped (i : Ins SsaBuild.Name) : Prop :=
  match i.op with
  | .write | .push | .call | .indirect | .ret | .branch => i.rd = none
  | _ => i.rd ≠ none

/-- `d` is declared, but not as an array or structure. -/
def Scalar (basic : Nat → Bool) (enc : SsaBuild.Name → Nat) (out : Nat → List (Ins SsaBuild.Name)) (d : SsaBuild.Name) : Prop :=
  basic (enc d) = true ∧ ∃ b, ∃ i ∈ out b, i.op = .allocat ∧ i.rd = some d

/-- What a function in SSA form must satisfy, and the data attached to its variables: their constants, which of them are global and
where these are, and which have no storage of their own in memory. -/
structure Sound (g : Cfg.Graph) (out : Nat → List (Ins SsaBuild.Name)) (enc : SsaBuild.Name → Nat) (isGlobal basic : Nat → Bool)
    (initVal gaddr : Nat → Word) (sf : SFn) : Prop where
  shaped : ∀ b, ∀ i ∈ out b, Shaped i
  exit : out g.exit = [] ∧ (g.block g.exit).next = none
  /-- branches and returns are the last instruction of their block -/
  ends : ∀ b xs i ys, out b = xs ++ i :: ys → (i.op = .branch → ys = [] ∧ (g.block b).next = none) ∧
    (i.op = .ret → ys = [] ∧ (g.block b).next = some g.exit)
  /-- no branch goes to the exit -/
  inner : ∀ b, (g.block b).then_ ≠ some g.exit ∧ (g.block b).else_ ≠ some g.exit
  /-- constants are attached to the variables they are loaded into -/
  const : ∀ b, ∀ i ∈ out b, i.op = .load_constant ∨ i.op = .load_data_address → ∀ d, i.rd = some d → initVal (enc d) = BitVec.ofNat 32 i.sz
  /-- global variables, in the program and in the function -/
  global_ : ∀ x, Occurs out x → isGlobal (enc x) = sf.isGlobal x.1 ∧ (sf.isGlobal x.1 = true → gaddr (enc x) = sf.gaddr x.1)
  /-- only addresses of globals are taken -/
  address : ∀ b, ∀ i ∈ out b, i.op = .address_of → ∀ v, i.rs1 = some v → sf.isGlobal v.1 = true
  /-- declared variables are local, and those without storage have no other assignment under this name -/
  declared : ∀ b, ∀ i ∈ out b, i.op = .allocat → ∀ d, i.rd = some d → sf.isGlobal d.1 = false
  scalar : ∀ d, Scalar basic enc out d → (d.2 ≠ none ∧ ∀ p ∈ sf.params, d ≠ (p, some 0)) ∧ ∀ b, ∀ i ∈ out b, i.rd = some d → i.op = .allocat
  keep : ∀ b, ∀ i ∈ out b, i.op = .write → ∀ v, i.rs1 = some v ∨ i.rs2 = some v → sf.isGlobal v.1 = true → sf.keep (sf.gaddr v.1)

section
variable {C : Ctx} {alloc : Nat → String → Word} {keep : Word → Prop} {g : Cfg.Graph} {out : Nat → List (Ins Name)} {enc : Name → Nat}
  {F : RegAlloc.Fn} {H : Home Name}

theorem ite_some {α : Type} {c : Prop} {_ : Decidable c} {a b : α} {o : Option α} (h : (if c then some a else o) = some b) :
    (c ∧ a = b) ∨ (¬ c ∧ o = some b) := by
  by_cases hc : c
  · rw [if_pos hc] at h; exact Or.inl ⟨hc, Option.some.inj h⟩
  · rw [if_neg hc] at h; exact Or.inr ⟨hc, h⟩

/-- Corresponding states. -/
structure Rel (C : Ctx) (enc : Name → Nat) (out : Nat → List (Ins Name)) (w : World) (e : Name → Word) (s : SrcBlock.St) : Prop where
  mem : s.mem = w.mem
  args : s.args = w.args
  ret : s.ret = w.ret
  val : ∀ x, C.isGlobal (enc x) = false → s.val (enc x) = e x
  scalar : ∀ x, Scalar C.basic enc out x → e x = 0

/-- Where the numbered variables live. -/
structure HomeOk (C : Ctx) (out : Nat → List (Ins Name)) (enc : Name → Nat) (H : Home Name) : Prop where
  mem : ∀ x, Occurs out x → H.mem x = C.isGlobal (enc x)
  addr : ∀ x, Occurs out x → C.isGlobal (enc x) = true → H.addr x = C.gaddr (enc x)

theorem rd_link (hH : HomeOk C out enc H) {w : World} {e : Name → Word} {s : SrcBlock.St} (h : Rel C enc out w e s) (x : Name)
    (hx : Occurs out x) : CRename.rd (mach C alloc keep) H (w, e) x = SrcBlock.rd C s (enc x) := by
  unfold CRename.rd SrcBlock.rd
  rw [hH.mem x hx]
  cases hg : C.isGlobal (enc x) with
  | true =>
    simp only [if_true]
    rw [hH.addr x hx hg, h.mem]
    rfl
  | false =>
    simp only [Bool.false_eq_true, if_false]
    exact (h.val x hg).symm

theorem wr_link (hi : ∀ x y, enc x = enc y → x = y) (hH : HomeOk C out enc H) {w : World} {e : Name → Word} {s : SrcBlock.St}
    (h : Rel C enc out w e s) {x : Name} (ho : Occurs out x) (hx : ¬ Scalar C.basic enc out x) (v : Word) :
    Rel C enc out (CRename.wr (mach C alloc keep) H (w, e) x v).1 (CRename.wr (mach C alloc keep) H (w, e) x v).2 (SrcBlock.wr C s (enc x) v) ∧
      (CRename.wr (mach C alloc keep) H (w, e) x v).1.result = w.result := by
  unfold CRename.wr SrcBlock.wr
  rw [hH.mem x ho]
  cases hg : C.isGlobal (enc x) with
  | true =>
    simp only [if_true]
    rw [hH.addr x ho hg]
    refine ⟨⟨?_, h.args, h.ret, h.val, h.scalar⟩, rfl⟩
    rw [h.mem]
    rfl
  | false =>
    simp only [Bool.false_eq_true, if_false]
    refine ⟨⟨h.mem, h.args, h.ret, ?_, ?_⟩, trivial⟩
    · intro y hy
      by_cases hyx : y = x
      · subst hyx; simp
      · have : enc y ≠ enc x := fun he => hyx (hi y x he)
        simp only [this, if_false, hyx]
        exact h.val y hy
    · intro y hy
      have : y ≠ x := by rintro rfl; exact hx hy
      simp only [this, if_false]
      exact h.scalar y hy


/-- The state after an instruction that computed `r`. -/
def after (M : Mach) (H : Home Name) (i : Ins Name) (e : Name → Word) (r : M.World × Word) : CRename.State M Name :=
  match i.rd with
  | none => (r.1, e)
  | some d => if i.op = .allocat ∧ H.mem d = true then (r.1, e) else CRename.wr M H (r.1, e) d r.2

theorem step_act (M : Mach) (H : Home Name) {i : Ins Name} (ho : i.op ≠ .unwound_phi) {s s' : CRename.State M Name}
    (h : CRename.step M H i s = some s') :
    ∃ r, M.act i.tag (CRename.arg1 M H i s) (i.rs2.map (CRename.rd M H s)) s.1 = some r ∧ after M H i s.2 r = s' := by
  unfold CRename.step at h
  split at h
  · rename_i h' _ _; exact absurd h' ho
  · obtain ⟨r, h1, h2⟩ := Option.map_eq_some_iff.1 h
    refine ⟨r, h1, ?_⟩
    rw [← h2]
    unfold after
    cases i.rd <;> rfl

/-- The instruction computes a value for a variable. -/
theorem step_value {i : Ins Name} {w w1 : World} {e e1 : Name → Word} (hp : i.op ≠ .unwound_phi) (ha : i.op ≠ .allocat)
    {d : Name} (hd : i.rd = some d) (h : CRename.step (mach C alloc keep) H i (w, e) = some (w1, e1)) :
    ∃ w' v, act C alloc keep i.tag (CRename.arg1 (mach C alloc keep) H i (w, e)) (i.rs2.map (CRename.rd (mach C alloc keep) H (w, e))) w = some (w', v) ∧
      CRename.wr (mach C alloc keep) H (w', e) d v = (w1, e1) := by
  obtain ⟨⟨w', v⟩, h1, h2⟩ := step_act _ _ hp h
  unfold after at h2
  rw [hd] at h2
  simp only [ha, false_and, if_false] at h2
  exact ⟨w', v, h1, h2⟩

theorem step_effect {i : Ins Name} {w w1 : World} {e e1 : Name → Word} (hp : i.op ≠ .unwound_phi)
    (hd : i.rd = none) (h : CRename.step (mach C alloc keep) H i (w, e) = some (w1, e1)) :
    e1 = e ∧ ∃ v, act C alloc keep i.tag (CRename.arg1 (mach C alloc keep) H i (w, e)) (i.rs2.map (CRename.rd (mach C alloc keep) H (w, e))) w = some (w1, v) := by
  obtain ⟨⟨w', v⟩, h1, h2⟩ := step_act _ _ hp h
  unfold after at h2
  rw [hd] at h2
  simp only at h2
  cases h2
  exact ⟨rfl, v, h1⟩

theorem arg1_link (hH : HomeOk C out enc H) {w : World} {e : Name → Word} {s : SrcBlock.St} (h : Rel C enc out w e s) {i : Ins Name}
    (hx : ∀ x, i.rs1 = some x → Occurs out x) (ho : i.op ≠ .address_of) :
    CRename.arg1 (mach C alloc keep) H i (w, e) = (i.rs1.map enc).map (SrcBlock.rd C s) := by
  unfold CRename.arg1
  cases hr : i.rs1 with
  | none => rfl
  | some x =>
    simp only [ho, if_false, Option.map_some, Option.some.injEq]
    exact rd_link hH h x (hx x hr)

theorem arg2_link (hH : HomeOk C out enc H) {w : World} {e : Name → Word} {s : SrcBlock.St} (h : Rel C enc out w e s) (o : Option Name)
    (hx : ∀ x, o = some x → Occurs out x) : o.map (CRename.rd (mach C alloc keep) H (w, e)) = (o.map enc).map (SrcBlock.rd C s) := by
  cases o with
  | none => rfl
  | some x =>
    simp only [Option.map_some, Option.some.injEq]
    exact rd_link hH h x (hx x rfl)

/-- What the instructions need, one by one. -/
structure Fine (C : Ctx) (out : Nat → List (Ins Name)) (enc : Name → Nat) (alloc : Nat → String → Word) (keep : Word → Prop) (i : Ins Name) :
    Prop where
  occurs : ∃ b, i ∈ out b
  shaped : Shaped i
  const : i.op = .load_constant ∨ i.op = .load_data_address → ∀ d, i.rd = some d → C.initVal (enc d) = BitVec.ofNat 32 i.sz
  address : i.op = .address_of → ∀ v, i.rs1 = some v → C.isGlobal (enc v) = true
  declared : i.op = .allocat → ∀ d, i.rd = some d → C.isGlobal (enc d) = false
  scalar : ∀ d, i.rd = some d → Scalar C.basic enc out d → i.op = .allocat
  isScalar : i.op = .allocat → ∀ d, i.rd = some d → C.basic (enc d) = true → Scalar C.basic enc out d
  keep : i.op = .write → ∀ v, i.rs1 = some v ∨ i.rs2 = some v → C.isGlobal (enc v) = true → keep (C.gaddr (enc v))
  alloc : i.op = .allocat → ∀ d, i.rd = some d →
    (C.basic (enc d) = true → alloc i.sz i.str = 0) ∧ (C.basic (enc d) = false → alloc i.sz i.str = C.objAddr (enc d))

set_option maxHeartbeats 1000000 in
theorem step_link (hi : ∀ x y, enc x = enc y → x = y) (hH : HomeOk C out enc H) {i : Ins Name} (hf : Fine C out enc alloc keep i)
    (hb : i.op ≠ .branch) (hr : i.op ≠ .ret) {w w1 : World} {e e1 : Name → Word} {s : SrcBlock.St} (h : Rel C enc out w e s)
    (hs : CRename.step (mach C alloc keep) H i (w, e) = some (w1, e1)) :
    ∃ s1, SrcBlock.Step C (encode enc i) s s1 ∧ Rel C enc out w1 e1 s1 ∧ w1.result = w.result := by
  obtain ⟨b0, hb0⟩ := hf.occurs
  have o1 : ∀ x, i.rs1 = some x → Occurs out x := fun x hx => ⟨b0, i, hb0, Or.inr (Or.inl hx)⟩
  have o2 : ∀ x, i.rs2 = some x → Occurs out x := fun x hx => ⟨b0, i, hb0, Or.inr (Or.inr hx)⟩
  have od : ∀ x, i.rd = some x → Occurs out x := fun x hx => ⟨b0, i, hb0, Or.inl hx⟩
  -- writing a variable
  have fin : ∀ {w' : World} {d : Name} {v : Word} {s' : SrcBlock.St}, i.rd = some d → i.op ≠ .allocat → Rel C enc out w' e s' →
      CRename.wr (mach C alloc keep) H (w', e) d v = (w1, e1) →
      Rel C enc out w1 e1 (SrcBlock.wr C s' (enc d) v) ∧ w1.result = w'.result := by
    intro w' d v s' hd ha hrel hw
    have := wr_link (alloc := alloc) (keep := keep) hi hH hrel (x := d) (od d hd) (fun hsc => ha (hf.scalar d hd hsc)) v
    rw [hw] at this
    exact this
  have a2 := arg2_link (alloc := alloc) (keep := keep) hH h i.rs2 o2
  have hrd : ∀ {d}, i.rd = some d → (encode enc i).rd = some (enc d) := fun hd => by simp [encode, hd]
  have hshape := hf.shaped
  cases hop : i.op with
  | unwound_phi =>
    simp only [Shaped, hop] at hshape
    obtain ⟨d, hd⟩ := Option.ne_none_iff_exists'.1 hshape
    unfold CRename.step at hs
    cases hr1 : i.rs1 with
    | none =>
      rw [hop, hd, hr1] at hs
      simp [CRename.Ins.tag, hop, mach, act] at hs
    | some x =>
      rw [hop, hd, hr1] at hs
      obtain ⟨g1, g2⟩ := fin hd (by rw [hop]; simp) h (Option.some.inj hs)
      rw [rd_link hH h x (o1 x hr1)] at g1
      exact ⟨_, .phi (by simp [encode, hop]) (hrd hd) (by simp [encode, hr1]), g1, g2⟩
  | load_constant =>
    simp only [Shaped, hop] at hshape
    obtain ⟨d, hd⟩ := Option.ne_none_iff_exists'.1 hshape
    obtain ⟨w', v, h1, h2⟩ := step_value (by rw [hop]; simp) (by rw [hop]; simp) hd hs
    simp only [act, CRename.Ins.tag, hop, Option.some.injEq, Prod.mk.injEq] at h1
    obtain ⟨rfl, rfl⟩ := h1
    obtain ⟨g1, g2⟩ := fin hd (by rw [hop]; simp) h h2
    refine ⟨_, .const (by simp [encode, hop]) (hrd hd), ?_, g2⟩
    rw [hf.const (Or.inl hop) d hd]
    exact g1
  | load_data_address =>
    simp only [Shaped, hop] at hshape
    obtain ⟨d, hd⟩ := Option.ne_none_iff_exists'.1 hshape
    obtain ⟨w', v, h1, h2⟩ := step_value (by rw [hop]; simp) (by rw [hop]; simp) hd hs
    simp only [act, CRename.Ins.tag, hop, Option.some.injEq, Prod.mk.injEq] at h1
    obtain ⟨rfl, rfl⟩ := h1
    obtain ⟨g1, g2⟩ := fin hd (by rw [hop]; simp) h h2
    refine ⟨_, .data (by simp [encode, hop]) (hrd hd), ?_, g2⟩
    rw [hf.const (Or.inr hop) d hd]
    exact g1
  | address_of =>
    simp only [Shaped, hop] at hshape
    obtain ⟨d, hd⟩ := Option.ne_none_iff_exists'.1 hshape
    obtain ⟨w', v, h1, h2⟩ := step_value (by rw [hop]; simp) (by rw [hop]; simp) hd hs
    simp only [act, CRename.Ins.tag, hop, Option.map_eq_some_iff, Prod.mk.injEq] at h1
    obtain ⟨x, hx, rfl, rfl⟩ := h1
    obtain ⟨g1, g2⟩ := fin hd (by rw [hop]; simp) h h2
    unfold CRename.arg1 at hx
    simp only [hop, if_true, Option.map_eq_some_iff] at hx
    obtain ⟨a, ha, rfl⟩ := hx
    have hg := hf.address hop a ha
    refine ⟨_, .gaddr (by simp [encode, hop]) (hrd hd) (a := enc a) (by simp [encode, ha]) hg, ?_, g2⟩
    rw [← hH.addr a (o1 a ha) hg]
    exact g1
  | assign =>
    simp only [Shaped, hop] at hshape
    obtain ⟨d, hd⟩ := Option.ne_none_iff_exists'.1 hshape
    obtain ⟨w', v, h1, h2⟩ := step_value (by rw [hop]; simp) (by rw [hop]; simp) hd hs
    rw [arg1_link hH h o1 (by rw [hop]; simp)] at h1
    simp only [act, CRename.Ins.tag, hop, Option.map_map, Option.map_eq_some_iff, Function.comp, Prod.mk.injEq] at h1
    obtain ⟨a, ha, rfl, rfl⟩ := h1
    obtain ⟨g1, g2⟩ := fin hd (by rw [hop]; simp) h h2
    exact ⟨_, .assign (by simp [encode, hop]) (hrd hd) (by simp [encode, ha]), g1, g2⟩
  | read =>
    simp only [Shaped, hop] at hshape
    obtain ⟨d, hd⟩ := Option.ne_none_iff_exists'.1 hshape
    obtain ⟨w', v, h1, h2⟩ := step_value (by rw [hop]; simp) (by rw [hop]; simp) hd hs
    rw [arg1_link hH h o1 (by rw [hop]; simp)] at h1
    simp only [act, CRename.Ins.tag, hop, Option.map_map, Option.bind_eq_some_iff, Option.map_eq_some_iff, Function.comp] at h1
    obtain ⟨x, ⟨a, ha, rfl⟩, h1⟩ := h1
    rcases ite_some h1 with ⟨hc, h1⟩ | ⟨_, h1⟩
    · simp only [Prod.mk.injEq] at h1
      obtain ⟨rfl, rfl⟩ := h1
      obtain ⟨g1, g2⟩ := fin hd (by rw [hop]; simp) h h2
      rw [← h.mem] at g1
      exact ⟨_, .read4 (by simp [encode, hop]) (by simp [encode, hc.1]) (hrd hd) (by simp [encode, ha]) hc.2, g1, g2⟩
    · rcases ite_some h1 with ⟨hc, h1⟩ | ⟨_, h1⟩
      · simp only [Prod.mk.injEq] at h1
        obtain ⟨rfl, rfl⟩ := h1
        obtain ⟨g1, g2⟩ := fin hd (by rw [hop]; simp) h h2
        rw [← h.mem] at g1
        exact ⟨_, .read1 (by simp [encode, hop]) (by simp [encode, hc.1]) (hrd hd) (by simp [encode, ha]) hc.2, g1, g2⟩
      · cases h1
  | func_ret =>
    simp only [Shaped, hop] at hshape
    obtain ⟨d, hd⟩ := Option.ne_none_iff_exists'.1 hshape
    obtain ⟨w', v, h1, h2⟩ := step_value (by rw [hop]; simp) (by rw [hop]; simp) hd hs
    simp only [act, CRename.Ins.tag, hop, Option.map_eq_some_iff, Prod.mk.injEq] at h1
    obtain ⟨x, hx, rfl, rfl⟩ := h1
    obtain ⟨g1, g2⟩ := fin hd (by rw [hop]; simp) h h2
    exact ⟨_, .funcRet (by simp [encode, hop]) (hrd hd) (by rw [h.ret]; exact hx), g1, g2⟩
  | alu o =>
    simp only [Shaped, hop] at hshape
    obtain ⟨d, hd⟩ := Option.ne_none_iff_exists'.1 hshape
    obtain ⟨w', v, h1, h2⟩ := step_value (by rw [hop]; simp) (by rw [hop]; simp) hd hs
    rw [arg1_link hH h o1 (by rw [hop]; simp), a2] at h1
    simp only [act, CRename.Ins.tag, hop] at h1
    split at h1
    · rename_i op _ hbo
      simp only [Option.map_map, Option.bind_eq_some_iff, Option.map_eq_some_iff, Function.comp, Prod.mk.injEq] at h1
      obtain ⟨x, ⟨a, ha, rfl⟩, y, ⟨b, hbb, rfl⟩, z, hz, rfl, rfl⟩ := h1
      obtain ⟨g1, g2⟩ := fin hd (by rw [hop]; simp) h h2
      exact ⟨_, .bin (by simp [encode, hop]) hbo (hrd hd) (by simp [encode, ha]) (by simp [encode, hbb]) hz, g1, g2⟩
    · rename_i op hbo huo
      simp only [Option.map_map, Option.map_eq_some_iff, Function.comp, Prod.mk.injEq] at h1
      obtain ⟨a, ha, rfl, rfl⟩ := h1
      obtain ⟨g1, g2⟩ := fin hd (by rw [hop]; simp) h h2
      exact ⟨_, .un (by simp [encode, hop]) huo (hrd hd) (by simp [encode, ha]), g1, g2⟩
    · cases h1
  | allocat =>
    simp only [Shaped, hop] at hshape
    obtain ⟨d, hd⟩ := Option.ne_none_iff_exists'.1 hshape
    obtain ⟨⟨w', v⟩, h1, h2⟩ := step_act _ _ (by rw [hop]; simp) hs
    unfold after at h2
    have hmem : H.mem d = false := by rw [hH.mem d (od d hd), hf.declared hop d hd]
    rw [hd] at h2
    simp only [hmem, Bool.false_eq_true, and_false, if_false] at h2
    simp only [mach, act, CRename.Ins.tag, hop, Option.some.injEq, Prod.mk.injEq] at h1
    obtain ⟨rfl, rfl⟩ := h1
    obtain ⟨q1, q2⟩ := hf.alloc hop d hd
    unfold CRename.wr at h2
    simp only [hmem, Bool.false_eq_true, if_false, Prod.mk.injEq] at h2
    obtain ⟨rfl, rfl⟩ := h2
    cases hbas : C.basic (enc d) with
    | true =>
      refine ⟨s, .declare (by simp [encode, hop]) (hrd hd) hbas, ?_, rfl⟩
      rw [q1 hbas]
      have hsc := h.scalar d (hf.isScalar hop d hd hbas)
      have : (fun y => if y = d then (0 : Word) else e y) = e := by
        funext y
        by_cases hy : y = d
        · subst hy; simp [hsc]
        · simp [hy]
      rw [this]
      exact h
    | false =>
      refine ⟨_, .object (by simp [encode, hop]) (hrd hd) hbas, ?_, rfl⟩
      rw [q2 hbas]
      have := wr_link (alloc := alloc) (keep := keep) hi hH h (x := d) (od d hd) (fun hsc => by rw [hsc.1] at hbas; cases hbas) (C.objAddr (enc d))
      unfold CRename.wr at this
      simp only [hmem, Bool.false_eq_true, if_false] at this
      exact this.1
  | write =>
    simp only [Shaped, hop] at hshape
    obtain ⟨rfl, v, h1⟩ := step_effect (by rw [hop]; simp) hshape hs
    rw [arg1_link hH h o1 (by rw [hop]; simp), a2] at h1
    simp only [act, CRename.Ins.tag, hop, Option.map_map, Option.bind_eq_some_iff, Option.map_eq_some_iff, Function.comp] at h1
    obtain ⟨x, ⟨a, ha, rfl⟩, y, ⟨b, hbb, rfl⟩, h1⟩ := h1
    rcases ite_some h1 with ⟨hc, h1⟩ | ⟨_, h1⟩
    · simp only [Prod.mk.injEq] at h1
      obtain ⟨rfl, rfl⟩ := h1
      refine ⟨{ s with mem := store32 s.mem (SrcBlock.rd C s (enc a)) (SrcBlock.rd C s (enc b)) }, .write4 (a := enc a) (b := enc b) (by simp [encode, hop])
        (by simp [encode, hc.1]) (by simp [encode, ha]) (by simp [encode, hbb]) hc.2.1 rfl ?_ ?_, ⟨by rw [h.mem], h.args, h.ret, h.val, h.scalar⟩, rfl⟩
      · intro hg
        rw [h.mem]
        exact hc.2.2 _ (hf.keep hop a (Or.inl ha) hg)
      · intro hg
        rw [h.mem]
        exact hc.2.2 _ (hf.keep hop b (Or.inr hbb) hg)
    · rcases ite_some h1 with ⟨hc, h1⟩ | ⟨_, h1⟩
      · simp only [Prod.mk.injEq] at h1
        obtain ⟨rfl, rfl⟩ := h1
        refine ⟨{ s with mem := store8 s.mem (SrcBlock.rd C s (enc a)) ((SrcBlock.rd C s (enc b)).setWidth 8) }, .write1 (a := enc a) (b := enc b)
          (by simp [encode, hop]) (by simp [encode, hc.1]) (by simp [encode, ha]) (by simp [encode, hbb]) hc.2.1 rfl ?_ ?_,
          ⟨by rw [h.mem], h.args, h.ret, h.val, h.scalar⟩, rfl⟩
        · intro hg
          rw [h.mem]
          exact hc.2.2 _ (hf.keep hop a (Or.inl ha) hg)
        · intro hg
          rw [h.mem]
          exact hc.2.2 _ (hf.keep hop b (Or.inr hbb) hg)
      · cases h1
  | push =>
    simp only [Shaped, hop] at hshape
    obtain ⟨rfl, v, h1⟩ := step_effect (by rw [hop]; simp) hshape hs
    rw [arg1_link hH h o1 (by rw [hop]; simp)] at h1
    simp only [act, CRename.Ins.tag, hop, Option.map_map, Option.map_eq_some_iff, Function.comp, Prod.mk.injEq] at h1
    obtain ⟨a, ha, rfl, rfl⟩ := h1
    exact ⟨_, .push (a := enc a) (by simp [encode, hop]) (by simp [encode, ha]), ⟨h.mem, by rw [h.args], h.ret, h.val, h.scalar⟩, rfl⟩
  | call =>
    simp only [Shaped, hop] at hshape
    obtain ⟨rfl, v, h1⟩ := step_effect (by rw [hop]; simp) hshape hs
    simp only [act, CRename.Ins.tag, hop] at h1
    split at h1
    · cases h1
    · rename_i m r rest _
      rcases ite_some h1 with ⟨hc, h1⟩ | ⟨_, h1⟩
      · simp only [Prod.mk.injEq] at h1
        obtain ⟨rfl, rfl⟩ := h1
        exact ⟨_, .call (m := m) (r := r) (by simp [encode, hop]) (by rw [h.args, h.mem]; exact hc), ⟨rfl, rfl, rfl, h.val, h.scalar⟩, rfl⟩
      · cases h1
  | indirect =>
    exfalso
    obtain ⟨r, h1, h2⟩ := step_act _ _ (by rw [hop]; simp) hs
    simp [mach, act, CRename.Ins.tag, hop] at h1
  | branch => exact absurd hop hb
  | ret => exact absurd hop hr

end

end CProg
