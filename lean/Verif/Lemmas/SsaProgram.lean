import Verif.Spec.SsaProgram
import Verif.Lemmas.RaMem
import Verif.Props.RaFn

/-! Executions of functions: fewer hidden bytes, and bytes that stay. -/

namespace SsaProg
open Shecc Shecc.Ssa Shecc.RegAlloc IrM SrcBlock RaFn RaLink

/-- `C` with other hidden bytes. -/
abbrev rehide (C : Ctx) (h : Word → Prop) : Ctx := { C with hidden := h }

theorem step_mono {C : Ctx} {h : Word → Prop} (hh : ∀ a, h a → C.hidden a) {i : Insn} {s s' : St} (hs : SrcBlock.Step C i s s') :
    SrcBlock.Step (rehide C h) i s s' := by
  have hv : ∀ {a n}, Vis C a n → Vis (rehide C h) a n := fun hv k hk hx => hv k hk (hh _ hx)
  cases hs with
  | const ho hd => exact .const (C := rehide C h) ho hd
  | data ho hd => exact .data (C := rehide C h) ho hd
  | assign ho hd ha => exact .assign (C := rehide C h) ho hd ha
  | phi ho hd ha => exact .phi (C := rehide C h) ho hd ha
  | bin ho hop hd ha hb hv => exact .bin (C := rehide C h) ho hop hd ha hb hv
  | un ho hop hd ha => exact .un (C := rehide C h) ho hop hd ha
  | read4 ho hs hd ha h1 => exact .read4 (C := rehide C h) ho hs hd ha (hv h1)
  | read1 ho hs hd ha h1 => exact .read1 (C := rehide C h) ho hs hd ha (hv h1)
  | write4 ho hs ha hb h1 hm h2 h3 => exact .write4 (C := rehide C h) ho hs ha hb (hv h1) hm h2 h3
  | write1 ho hs ha hb h1 hm h2 h3 => exact .write1 (C := rehide C h) ho hs ha hb (hv h1) hm h2 h3
  | gaddr ho hd ha hg => exact .gaddr (C := rehide C h) ho hd ha hg
  | declare ho hd hb => exact .declare (C := rehide C h) ho hd hb
  | object ho hd hb => exact .object (C := rehide C h) ho hd hb
  | push ho ha => exact .push (C := rehide C h) ho ha
  | call ho hc => exact .call (C := rehide C h) ho hc
  | funcRet ho hd hx => exact .funcRet (C := rehide C h) ho hd hx

theorem srun_mono {C : Ctx} {h : Word → Prop} (hh : ∀ a, h a → C.hidden a) {is : List Insn} {s s' : St}
    (hs : SrcBlock.Run C is s s') : SrcBlock.Run (rehide C h) is s s' := by
  induction hs with
  | nil => exact .nil _
  | cons hx _ ih => exact .cons (step_mono hh hx) ih

theorem exec_mono {C : Ctx} {h : Word → Prop} (hh : ∀ a, h a → C.hidden a) {F : RegAlloc.Fn} {void : Bool} {b : Nat} {s : St}
    {r : Option Word} {m : Mem} (hx : Exec C F void b s r m) : Exec (rehide C h) F void b s r m := by
  induction hx with
  | next hr hn hne _ ih => exact .next (srun_mono hh hr) hn hne ih
  | branch hi ho ha hr hn hne _ ih => exact .branch (C := rehide C h) hi ho ha (srun_mono hh hr) hn hne ih
  | ret hi ho ha hr => exact .ret (C := rehide C h) hi ho ha (srun_mono hh hr)
  | retVoid hi ho ha hr => exact .retVoid hi ho ha (srun_mono hh hr)
  | fall hr hn hv => exact .fall (srun_mono hh hr) hn hv

/-- Global variables are visible, and calls do not change what is hidden. -/
structure Keeps (C : Ctx) : Prop where
  globals : ∀ v, C.isGlobal v = true → ∀ k, k < 4 → ¬ C.hidden (C.gaddr v + BitVec.ofNat 32 k)
  calls : ∀ f args m m' r, C.call f args m m' r → ∀ a, C.hidden a → m' a = m a

theorem wr_keeps {C : Ctx} (K : Keeps C) (s : St) (v : Nat) (x : Word) {a : Word} (ha : C.hidden a) : (wr C s v x).mem a = s.mem a := by
  unfold wr
  split
  · rename_i hg
    exact store32_ne s.mem x (fun k hk e => K.globals v hg k hk (e ▸ ha))
  · rfl

theorem step_keeps {C : Ctx} (K : Keeps C) {i : Insn} {s s' : St} (hs : SrcBlock.Step C i s s') {a : Word} (ha : C.hidden a) :
    s'.mem a = s.mem a := by
  cases hs with
  | const | data | assign | phi | bin | un | read4 | read1 | gaddr | object | funcRet => exact wr_keeps K _ _ _ ha
  | write4 ho hs h1 hb hv hm =>
    subst hm
    exact store32_ne _ _ (fun k hk e => hv k hk (e ▸ ha))
  | write1 ho hs h1 hb hv hm =>
    subst hm
    refine store8_ne _ _ (fun e => hv 0 (by omega) ?_)
    rw [← e, show BitVec.ofNat 32 0 = 0#32 from rfl, BitVec.add_zero]
    exact ha
  | declare | push => rfl
  | call ho hc => exact K.calls _ _ _ _ _ hc a ha

theorem srun_keeps {C : Ctx} (K : Keeps C) {is : List Insn} {s s' : St} (hs : SrcBlock.Run C is s s') {a : Word} (ha : C.hidden a) :
    s'.mem a = s.mem a := by
  induction hs with
  | nil => rfl
  | cons hx _ ih => rw [ih, step_keeps K hx ha]

theorem exec_keeps {C : Ctx} (K : Keeps C) {F : RegAlloc.Fn} {void : Bool} {b : Nat} {s : St} {r : Option Word} {m : Mem}
    (hx : Exec C F void b s r m) {a : Word} (ha : C.hidden a) : m a = s.mem a := by
  induction hx with
  | next hr _ _ _ ih => rw [ih, srun_keeps K hr ha]
  | branch _ _ _ hr _ _ _ ih => rw [ih, srun_keeps K hr ha]
  | ret _ _ _ hr => exact srun_keeps K hr ha
  | retVoid _ _ _ hr => exact srun_keeps K hr ha
  | fall hr _ _ => exact srun_keeps K hr ha

/-! ## Addresses of a frame -/

theorem inside_toNat {f : SrcFn} {sp : Word} (h : f.size + 12 ≤ sp.toNat) : (inside f sp).toNat = sp.toNat - f.size - 4 := by
  have hlt := sp.isLt
  have e : (num f.size + 4 : Word).toNat = f.size + 4 := by
    rw [BitVec.toNat_add, show (4 : Word).toNat = 4 from rfl]
    simp only [num, BitVec.toNat_ofNat]
    omega
  unfold inside
  rw [BitVec.toNat_sub, e]
  omega

theorem add_toNat {sp : Word} {o : Nat} (h : sp.toNat + o < 2 ^ 32) : (sp + BitVec.ofNat 32 o).toNat = sp.toNat + o := by
  rw [BitVec.toNat_add, BitVec.toNat_ofNat]
  omega

theorem slotByte_toNat {sp : Word} {o k : Nat} (h : sp.toNat + o + k < 2 ^ 32) : (slotByte sp o k).toNat = sp.toNat + o + k := by
  unfold slotByte
  rw [add_toNat (by rw [add_toNat (by omega)]; omega), add_toNat (by omega)]

theorem mem_declared {V : Vars} (is : List Insn) {d : Nat} : d ∈ Props.declared V is ↔ ∃ i ∈ is, V.basic d = false ∧ i.op = .allocat ∧ i.rd = some d := by
  have key : ∀ i, Props.declares V i = some d ↔ V.basic d = false ∧ i.op = .allocat ∧ i.rd = some d := by
      intro i
      unfold Props.declares
      by_cases ho : i.op = .allocat
      · rw [if_pos ho]
        cases hr : i.rd with
        | none => simp
        | some e =>
          simp only [Option.some.injEq]
          by_cases hb : V.basic e = true
          · rw [if_pos hb]
            simp only [reduceCtorEq, false_iff]
            rintro ⟨h1, _, rfl⟩
            rw [hb] at h1; cases h1
          · rw [if_neg hb]
            simp only [Option.some.injEq]
            constructor
            · rintro rfl; exact ⟨by simpa using hb, ho, rfl⟩
            · rintro ⟨_, _, h⟩; exact h
      · rw [if_neg ho]; simp [ho]
  unfold Props.declared
  rw [List.mem_filterMap]
  exact exists_congr fun i => and_congr_right fun _ => key i

/-- What C58 says about a placed function. -/
structure Frame (f : SrcFn) : Prop where
  size4 : f.size % 4 = 0
  four : 4 ≤ f.size
  word : ∀ v, f.vars.isGlobal v = false → f.ofs v ≠ 0 → 4 ≤ f.ofs v ∧ f.ofs v % 4 = 0 ∧ f.ofs v + 4 ≤ f.size
  object : ∀ v, f.vars.isGlobal v = false → Declares f v → f.ofs v ≠ 0 ∧ f.ofs v + 4 + (alignSize (num (f.vars.objSize v))).toNat ≤ f.size
  words : ∀ u v, u ≠ v → f.vars.isGlobal u = false → f.vars.isGlobal v = false → f.ofs u ≠ 0 → f.ofs v ≠ 0 →
    f.ofs u + 4 ≤ f.ofs v ∨ f.ofs v + 4 ≤ f.ofs u
  objects : ∀ u v, u ≠ v → f.vars.isGlobal u = false → f.vars.isGlobal v = false → f.ofs u ≠ 0 → Declares f v →
    f.ofs u + 4 ≤ f.ofs v ∨ f.ofs v + 4 + (alignSize (num (f.vars.objSize v))).toNat ≤ f.ofs u

theorem Allocated.frame {gofs : Nat → Nat} {f : SrcFn} {exitPrev : List Nat} {use : Nat → Int}
    {live : Nat → Nat → Prop} {st0 fin : RA} {codes : List (Nat × List Ph2Ir)}
    (H : Allocated gofs f exitPrev use live st0 fin codes) : Frame f := by
  have hF := Props.C58_frame_start f.vars (fun v => f.vars.isGlobal v = false) f.params false st0 H.stack4 H.locals
  obtain ⟨decl, hd, h1, h2, h3, h4, h5⟩ := Props.C58_frame_areas_disjoint f.vars (fun v => f.vars.isGlobal v = false) f.F _ [] [] _ _ _ hF H.alloc
  rw [H.size] at h1 h2 h4
  rw [H.ofs] at h3 h4 h5
  have hdecl : ∀ v, Declares f v → v ∈ decl := by
    rintro v ⟨hb, b, hb', i, hi, ho, hr⟩
    rw [hd]
    exact Or.inr ⟨b, hb', (mem_declared _).2 ⟨i, hi, hb, ho, hr⟩⟩
  have h4le : ∀ v, 4 ≤ Props.areaSize f.vars decl v := by intro v; unfold Props.areaSize; split <;> omega
  have harea : ∀ v, Declares f v → Props.areaSize f.vars decl v = 4 + (alignSize (num (f.vars.objSize v))).toNat := by
    intro v hv; unfold Props.areaSize; rw [if_pos (hdecl v hv)]
  refine ⟨h1, h2, ?_, ?_, ?_, ?_⟩
  · intro v hg hv
    have := h4 v hg hv
    have := h4le v
    omega
  · intro v hg hv
    have h0 := h3 v (hdecl v hv)
    have := h4 v hg h0
    have := harea v hv
    exact ⟨h0, by omega⟩
  · intro u v huv hu hv hu' hv'
    have := h5 u v huv hu hv hu' hv'
    have := h4le u
    have := h4le v
    omega
  · intro u v huv hu hv hu' hv'
    have := h5 u v huv hu hv hu' (h3 v (hdecl v hv'))
    have := h4le u
    have := harea v hv'
    omega

/-- What is hidden from a function's own code: its frame words, and the stack below its frame. -/
def ownHidden (Pr : SrcProg) (f : SrcFn) (sp a : Word) : Prop :=
  (Pr.lo ≤ a.toNat ∧ a.toNat < sp.toNat) ∨
    ∃ v k, f.vars.isGlobal v = false ∧ f.ofs v ≠ 0 ∧ k < 4 ∧ a = slotByte sp (f.ofs v) k

theorem object_toNat {Pr : SrcProg} {f : SrcFn} {sp a : Word} (H : Frame f) (hr : Pr.lo + f.size + 12 ≤ sp.toNat)
    (h : Object f (inside f sp) a) : ∃ v k, Declares f v ∧ f.vars.isGlobal v = false ∧ k < (alignSize (num (f.vars.objSize v))).toNat ∧
      a.toNat = (inside f sp).toNat + f.ofs v + 4 + k ∧ f.ofs v + 4 + k < f.size := by
  obtain ⟨v, k, hd, hg, hk, rfl⟩ := h
  have := H.object v hg hd
  have hi := inside_toNat (f := f) (sp := sp) (by omega)
  have := sp.isLt
  refine ⟨v, k, hd, hg, hk, ?_, by omega⟩
  rw [add_toNat (by omega)]
  omega

theorem own_sub {Pr : SrcProg} {f : SrcFn} {sp a : Word} {hid : Word → Prop} (H : Frame f) (hr : Pr.lo + f.size + 12 ≤ sp.toNat)
    (S : StackAt Pr hid sp) (h : ownHidden Pr f (inside f sp) a) : hiddenIn f (inside f sp) hid a := by
  have hi := inside_toNat (f := f) (sp := sp) (by omega)
  have hlt := sp.isLt
  rcases h with ⟨h1, h2⟩ | ⟨v, k, hg, hv, hk, rfl⟩
  · refine ⟨S.below a h1 (by omega), fun ho => ?_⟩
    obtain ⟨v, k, _, _, _, e, _⟩ := object_toNat H hr ho
    omega
  · have hw := H.word v hg hv
    have e := slotByte_toNat (sp := inside f sp) (o := f.ofs v) (k := k) (by omega)
    refine ⟨S.below _ (by omega) (by omega), fun ho => ?_⟩
    obtain ⟨u, l, hd, hu, hl, e', _⟩ := object_toNat H hr ho
    by_cases huv : v = u
    · subst huv; omega
    · have := H.objects v u huv hg hu hv hd
      omega

theorem stack_in {Pr : SrcProg} {f : SrcFn} {sp : Word} {hid : Word → Prop} (H : Frame f) (hr : Pr.lo + f.size + 12 ≤ sp.toNat)
    (S : StackAt Pr hid sp) : StackAt Pr (hiddenIn f (inside f sp) hid) (inside f sp) := by
  have hi := inside_toNat (f := f) (sp := sp) (by omega)
  refine ⟨fun a h1 h2 => own_sub H hr S (Or.inl ⟨h1, h2⟩), ?_, fun v hv k hk h => S.globals v hv k hk h.1⟩
  have := S.aligned
  have := H.size4
  omega

/-- Bytes of the return address are hidden, are not frame words, and are not below the frame. -/
theorem ra_byte {Pr : SrcProg} {f : SrcFn} {sp : Word} {hid : Word → Prop} (H : Frame f) (hr : Pr.lo + f.size + 12 ≤ sp.toNat)
    (S : StackAt Pr hid sp) {ofs : Word} (ho : ofs = 0 ∨ ofs = num f.size) {k : Nat} (hk : k < 4) :
    let a := inside f sp + ofs + BitVec.ofNat 32 k
    Pr.lo ≤ a.toNat ∧ a.toNat < sp.toNat ∧ hiddenIn f (inside f sp) hid a ∧ ¬ ownHidden Pr f (inside f sp) a := by
  intro a
  have hi := inside_toNat (f := f) (sp := sp) (by omega)
  have hlt := sp.isLt
  have ha : a.toNat = (inside f sp).toNat + k ∨ a.toNat = (inside f sp).toNat + f.size + k := by
    rcases ho with rfl | rfl
    · left
      show (inside f sp + 0 + BitVec.ofNat 32 k).toNat = _
      rw [show (inside f sp + 0 : Word) = inside f sp from BitVec.add_zero _, add_toNat (by omega)]
    · right
      exact slotByte_toNat (sp := inside f sp) (o := f.size) (k := k) (by omega)
  have h4 := H.four
  refine ⟨by omega, by omega, ⟨S.below _ (by omega) (by omega), fun h => ?_⟩, ?_⟩
  · obtain ⟨v, l, hd, hg, hl, e, _⟩ := object_toNat H hr h
    have := (H.word v hg (H.object v hg hd).1).1
    omega
  · rintro (⟨_, h⟩ | ⟨v, l, hg, hv, hl, e⟩)
    · omega
    · have hw := H.word v hg hv
      have e' := slotByte_toNat (sp := inside f sp) (o := f.ofs v) (k := l) (by omega)
      rw [← e] at e'
      omega

end SsaProg
