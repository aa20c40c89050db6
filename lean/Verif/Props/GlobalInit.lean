import Verif.Spec.CGlobals
import Verif.Lemmas.RaMem
import Verif.Lemmas.IrMem
import Verif.Lemmas.RaFn

/-!
# C84: global variables and their initialisers
-/

namespace Shecc.Props
open Shecc Shecc.Ssa Shecc.RegAlloc Shecc.GlobalInit IrM CGlobals RaFn

theorem align_words {n : Nat} (h : n < 2 ^ 31 - 4) : (alignSize (num n)).toNat = words n := by
  unfold alignSize words num
  have e : (BitVec.ofNat 32 n).toInt = n := by
    rw [BitVec.toInt_eq_toNat_of_lt (by rw [BitVec.toNat_ofNat]; omega), BitVec.toNat_ofNat, Nat.mod_eq_of_lt (by omega)]
  simp only [BitVec.sle, e]
  by_cases h4 : n ≤ 4
  · rw [if_pos (by simp; omega), if_pos h4]; rfl
  · rw [if_neg (by simp; omega), if_neg h4]
    have : (BitVec.ofNat 32 n + 3#32) &&& ~~~ 3#32 = (BitVec.ofNat 32 n + 3#32) - ((BitVec.ofNat 32 n + 3#32) % 4#32) := by
      generalize BitVec.ofNat 32 n + 3#32 = x
      have : ∀ y : BitVec 32, y % 4#32 = y &&& 3#32 := by
        intro y
        apply BitVec.eq_of_toNat_eq
        simp only [BitVec.toNat_umod, BitVec.toNat_and, BitVec.toNat_ofNat]
        exact (Nat.and_two_pow_sub_one_eq_mod _ 2).symm
      rw [this]
      apply BitVec.eq_of_getLsbD_eq
      have hx : x = (x &&& ~~~3#32) + (x &&& 3#32) := by
        rw [BitVec.add_eq_or_of_and_eq_zero _ _ (by
          apply BitVec.eq_of_getLsbD_eq
          intro i hi
          simp only [BitVec.getLsbD_and, BitVec.getLsbD_not, BitVec.getLsbD_zero]
          cases x.getLsbD i <;> cases (3#32).getLsbD i <;> simp)]
        apply BitVec.eq_of_getLsbD_eq
        intro i hi
        simp only [BitVec.getLsbD_and, BitVec.getLsbD_or, BitVec.getLsbD_not, hi]
        cases x.getLsbD i <;> cases (3#32).getLsbD i <;> simp
      have : x &&& ~~~3#32 = x - (x &&& 3#32) := by
        conv => rhs; lhs; rw [hx]
        rw [BitVec.add_sub_cancel]
      intro i hi
      rw [this]
    rw [this, BitVec.toNat_sub, BitVec.toNat_umod, BitVec.toNat_add, BitVec.toNat_ofNat]
    simp only [show (3#32 : BitVec 32).toNat = 3 from rfl, show (4#32 : BitVec 32).toNat = 4 from rfl]
    omega

theorem words_pos (n : Nat) : 4 ≤ words n ∧ words n % 4 = 0 ∧ n ≤ words n := by
  unfold words; split <;> omega

theorem room_pos (k : Kind) : 4 ≤ room k ∧ room k % 4 = 0 := by
  cases k with
  | word => simp [room]
  | struct n => have := words_pos n; simp only [room]; omega
  | array n => have := words_pos n; simp only [room]; omega

/-- The code of one declaration whose storage is at offset `o`. -/
def declCode (V : Vars) (K : Nat → Kind) (o : Nat) (d : Decl) : List Ph2Ir :=
  match K d.var, d.tmp with
  | .array _, _ => [{ op := .global_address_of, src0 := num (o + 4), dest := num 0 }, { op := .global_store, src0 := num 0, src1 := num o }]
  | _, some t => [{ op := .load_constant, src0 := V.initVal t, dest := num 0 }, { op := .assign, src0 := num 0, dest := num 1 },
      { op := .global_store, src0 := num 1, src1 := num o }]
  | _, none => []

theorem firstReg_none {p : Nat → Bool} (h : ∀ i, p i = false) : firstReg p = none := by
  unfold firstReg
  simp [h]

theorem firstReg_zero {p : Nat → Bool} (h : p 0 = true) : firstReg p = some 0 := by
  simp [firstReg, regCnt, List.range, List.range.loop, h]

theorem firstReg_one {p : Nat → Bool} (h0 : p 0 = false) (h : p 1 = true) : firstReg p = some 1 := by
  simp [firstReg, regCnt, List.range, List.range.loop, h, h0]

theorem dest_empty (V : Vars) (B : RegAlloc.Block) (v : Nat) (a b : Option Nat) {st : RA} (h : st.var = fun _ => none) :
    prepareDest V B v a b st = (st.setReg 0 (some v) true, 0) := by
  unfold prepareDest findReg freeReg
  rw [firstReg_none (by intro i; simp [h]), firstReg_zero (by simp [h])]

theorem upd_none (v : Option Nat) : upd (upd (fun _ => none) 0 v) 0 none = (fun _ => none : Nat → Option Nat) := by
  funext j; simp only [upd]; split <;> rfl

theorem const_step (V : Vars) (v t : Nat) (hv : V.isGlobal v = true) (ht : V.isGlobal t = false)
    (st : RA) (hvar : st.var = fun _ => none) (ho : st.offset v ≠ 0) :
    let st' := gAssign V v t (gConst V t st)
    st'.var = (fun _ => none) ∧ st'.offset = st.offset ∧ st'.stack = st.stack ∧
      st'.out = st.out ++ [{ op := .load_constant, src0 := V.initVal t, dest := num 0 }, { op := .assign, src0 := num 0, dest := num 1 },
      { op := .global_store, src0 := num 1, src1 := num (st.offset v) }] := by
  have hne : v ≠ t := fun e => by rw [e, ht] at hv; cases hv
  have e1 : gConst V t st =
      (st.setReg 0 (some t) true).emit { op := .load_constant, src0 := V.initVal t, dest := num 0 } := by
    unfold gConst
    rw [dest_empty V {} t none none hvar]
  generalize hs1 : gConst V t st = s1 at e1 ⊢
  have v1 : s1.var = upd (fun _ => none) 0 (some t) := by rw [e1, ← hvar]; rfl
  have e2 : prepareOperand V {} t none s1 = (s1, 0) := by
    unfold prepareOperand findReg
    rw [firstReg_zero (by simp [v1, upd])]
  have e3 : prepareDest V {} v (some 0) none s1 = (s1.setReg 1 (some v) true, 1) := by
    unfold prepareDest findReg freeReg
    rw [firstReg_none (by
      intro i; simp only [v1, upd]
      split
      · simp only [beq_eq_false_iff_ne, ne_eq, Option.some.injEq]; exact fun e => hne e.symm
      · rfl), firstReg_one (by simp [v1, upd]) (by simp [v1, upd])]
  have e4 : gAssign V v t s1 = ((spillVar V v 1 ((s1.setReg 1 (some v) true).emit
      { op := .assign, src0 := num 0, dest := num 1 }))).setReg 0 none false := by
    unfold gAssign
    simp only [e2, e3]
  have o1 : s1.offset = st.offset := by rw [e1]; rfl
  have k1 : s1.stack = st.stack := by rw [e1]; rfl
  have t1 : s1.out = st.out ++ [{ op := .load_constant, src0 := V.initVal t, dest := num 0 }] := by rw [e1]; rfl
  simp only [e4]
  have hp : ((s1.setReg 1 (some v) true).emit { op := .assign, src0 := num 0, dest := num 1 }).pol 1 = true := by
    simp [RA.setReg, RA.emit, upd]
  have he : ((s1.setReg 1 (some v) true).emit { op := .assign, src0 := num 0, dest := num 1 }).ensureSlot v =
      (s1.setReg 1 (some v) true).emit { op := .assign, src0 := num 0, dest := num 1 } := by
    unfold RA.ensureSlot
    rw [if_neg (by show s1.offset v ≠ 0; rw [o1]; exact ho)]
  unfold spillVar
  rw [if_pos hp]
  simp only [he]
  refine ⟨?_, o1, k1, ?_⟩
  · funext j
    simp only [RA.setReg, RA.emit, upd, v1]
    by_cases h0 : j = 0
    · rw [if_pos h0]
    · rw [if_neg h0]
      by_cases h1 : j = 1
      · rw [if_pos h1]
      · rw [if_neg h1, if_neg h1, if_neg h0]
  · simp only [RA.setReg, RA.emit, storeIr, hv, if_true, t1, o1, List.append_assoc, List.cons_append, List.nil_append]

theorem array_step (V : Vars) (K : Nat → Kind) (v n : Nat) (hv : V.isGlobal v = true) (hK : K v = .array n)
    (st : RA) (hvar : st.var = fun _ => none) (ho : st.stack ≠ 0) :
    let st' := gAllocat V K v st
    st'.var = (fun _ => none) ∧ st'.offset = upd st.offset v st.stack ∧ st'.stack = st.stack + 4 + (alignSize (num n)).toNat ∧
      st'.out = st.out ++ [{ op := .global_address_of, src0 := num (st.stack + 4), dest := num 0 },
        { op := .global_store, src0 := num 0, src1 := num st.stack }] := by
  simp only [gAllocat, hK]
  rw [dest_empty V {} v none none (by exact hvar)]
  simp only
  unfold spillVar
  rw [if_pos (by simp [RA.setReg, RA.emit, upd])]
  have he : ∀ s : RA, s.offset v = st.stack → s.ensureSlot v = s := by
    intro s h
    unfold RA.ensureSlot
    rw [if_neg (by rw [h]; exact ho)]
  rw [he _ (by simp [RA.setReg, RA.emit, upd])]
  refine ⟨?_, rfl, rfl, ?_⟩
  · simp only [RA.setReg, RA.emit, hvar]
    exact upd_none _
  · simp only [RA.setReg, RA.emit, storeIr, hv, if_true, upd, List.append_assoc, List.cons_append, List.nil_append]

theorem gInsns_append (V : Vars) (K : Nat → Kind) (a b : List Insn) (st : RA) :
    gInsns V K (a ++ b) st = (gInsns V K a st).bind (gInsns V K b) := by
  induction a generalizing st with
  | nil => rfl
  | cons i a ih =>
    simp only [List.cons_append, gInsns]
    split
    · rfl
    · exact ih _

theorem decl_step (V : Vars) (K : Nat → Kind) (d : Decl) (hv : V.isGlobal d.var = true)
    (ht : ∀ t, d.tmp = some t → V.isGlobal t = false) (hn : ∀ n, K d.var = .array n → d.tmp = none)
    (hsz : room (K d.var) < 2 ^ 31 - 4) (st : RA) (hvar : st.var = fun _ => none) (ho : st.stack ≠ 0) :
    ∃ st', gInsns V K (declInsns d) st = some st' ∧ st'.var = (fun _ => none) ∧ st'.offset = upd st.offset d.var st.stack ∧
      st'.stack = st.stack + room (K d.var) ∧ st'.out = st.out ++ declCode V K st.stack d := by
  have hinit : ∀ t (st1 : RA), st1.var = (fun _ => none) → st1.offset = upd st.offset d.var st.stack → V.isGlobal t = false →
      ∃ st', gInsns V K [{ op := .load_constant, rd := some t }, { op := .assign, rd := some d.var, rs1 := some t }] st1 = some st' ∧
        st'.var = (fun _ => none) ∧ st'.offset = upd st.offset d.var st.stack ∧ st'.stack = st1.stack ∧
        st'.out = st1.out ++ [{ op := .load_constant, src0 := V.initVal t, dest := num 0 }, { op := .assign, src0 := num 0, dest := num 1 },
          { op := .global_store, src0 := num 1, src1 := num st.stack }] := by
    intro t st1 h1 h2 h3
    have ho1 : st1.offset d.var = st.stack := by rw [h2]; simp [upd]
    obtain ⟨a1, a2, a3, a4⟩ := const_step V d.var t hv h3 st1 h1 (by rw [ho1]; exact ho)
    refine ⟨_, rfl, a1, a2.trans h2, a3, ?_⟩
    rw [a4, ho1]
  cases hk : K d.var with
  | array n =>
    obtain ⟨a1, a2, a3, a4⟩ := array_step V K d.var n hv hk st hvar ho
    have := hn n hk
    have hw : n < 2 ^ 31 - 4 := by
      have := words_pos n
      simp only [hk, room] at hsz
      omega
    refine ⟨gAllocat V K d.var st, by simp only [declInsns, this]; rfl, a1, a2, ?_, ?_⟩
    · rw [a3, align_words hw]; simp only [room]; omega
    · rw [a4]; simp only [declCode, hk]
  | word =>
    have e : gAllocat V K d.var st = { st with offset := upd st.offset d.var st.stack, stack := st.stack + 4 } := by
      simp only [gAllocat, hk]
    cases htm : d.tmp with
    | none =>
      refine ⟨gAllocat V K d.var st, by simp only [declInsns, htm]; rfl, ?_⟩
      rw [e]
      refine ⟨hvar, rfl, rfl, ?_⟩
      simp only [declCode, hk, htm, List.append_nil]
    | some t =>
      obtain ⟨st', b1, b2, b3, b4, b5⟩ := hinit t { st with offset := upd st.offset d.var st.stack, stack := st.stack + 4 } hvar rfl
        (ht t htm)
      refine ⟨st', ?_, b2, b3, b4, ?_⟩
      · simp only [declInsns, htm]
        simp only [gInsns, gInsn, e]
        simpa only [gInsns, gInsn] using b1
      · rw [b5]; simp only [declCode, hk, htm]
  | struct n =>
    have hw : n < 2 ^ 31 - 4 := by
      have := words_pos n
      simp only [hk, room] at hsz
      omega
    have e : gAllocat V K d.var st = { st with offset := upd st.offset d.var st.stack, stack := st.stack + words n } := by
      simp only [gAllocat, hk, align_words hw]
    cases htm : d.tmp with
    | none =>
      refine ⟨gAllocat V K d.var st, by simp only [declInsns, htm]; rfl, ?_⟩
      rw [e]
      refine ⟨hvar, rfl, rfl, ?_⟩
      simp only [declCode, hk, htm, List.append_nil]
    | some t =>
      obtain ⟨st', b1, b2, b3, b4, b5⟩ := hinit t { st with offset := upd st.offset d.var st.stack, stack := st.stack + words n } hvar rfl
        (ht t htm)
      refine ⟨st', ?_, b2, b3, b4, ?_⟩
      · simp only [declInsns, htm]
        simp only [gInsns, gInsn, e]
        simpa only [gInsns, gInsn] using b1
      · rw [b5]; simp only [declCode, hk, htm]


/-- The code of the declarations, the first with its storage at offset `o`. -/
def declsCode (V : Vars) (K : Nat → Kind) : Nat → List Decl → List Ph2Ir
  | _, [] => []
  | o, d :: ds => declCode V K o d ++ declsCode V K (o + room (K d.var)) ds

theorem total_append (K : Nat → Kind) (a b : List Decl) : total K (a ++ b) = total K a + total K b := by
  induction a with
  | nil => simp [total]
  | cons d a ih => simp only [List.cons_append, total, ih]; omega

theorem decls_alloc (V : Vars) (K : Nat → Kind) (ds : List Decl) : ∀ (st : RA), (ds.map (·.var)).Nodup →
    (∀ d ∈ ds, V.isGlobal d.var = true) → (∀ d ∈ ds, ∀ t, d.tmp = some t → V.isGlobal t = false) →
    (∀ d ∈ ds, ∀ n, K d.var = .array n → d.tmp = none) → st.stack + total K ds < 2 ^ 31 → st.var = (fun _ => none) → 4 ≤ st.stack →
    ∃ fin, gInsns V K (ds.flatMap declInsns) st = some fin ∧ fin.stack = st.stack + total K ds ∧
      fin.out = st.out ++ declsCode V K st.stack ds ∧ (∀ v, v ∉ ds.map (·.var) → fin.offset v = st.offset v) ∧
      ∀ pre d post, ds = pre ++ d :: post → fin.offset d.var = st.stack + total K pre := by
  induction ds with
  | nil =>
    intro st _ _ _ _ _ _ _
    exact ⟨st, rfl, rfl, by simp [declsCode], fun _ _ => rfl, fun pre d post h => by simp at h⟩
  | cons d ds ih =>
    intro st hnd hg ht hn hs hv h4
    simp only [total] at hs
    have hr := room_pos (K d.var)
    obtain ⟨s1, a1, a2, a3, a4, a5⟩ := decl_step V K d (hg d List.mem_cons_self) (ht d List.mem_cons_self) (hn d List.mem_cons_self)
      (by omega) st hv (by omega)
    simp only [List.map_cons, List.nodup_cons] at hnd
    obtain ⟨fin, b1, b2, b3, b4, b5⟩ := ih s1 hnd.2 (fun d hd => hg d (List.mem_cons_of_mem _ hd))
      (fun d hd => ht d (List.mem_cons_of_mem _ hd)) (fun d hd => hn d (List.mem_cons_of_mem _ hd)) (by omega) a2 (by omega)
    refine ⟨fin, ?_, ?_, ?_, ?_, ?_⟩
    · rw [List.flatMap_cons, gInsns_append, a1]; exact b1
    · rw [b2, a4]; simp only [total]; omega
    · rw [b3, a5, a4]; simp only [declsCode, List.append_assoc]
    · intro v hv
      simp only [List.map_cons, List.mem_cons, not_or] at hv
      rw [b4 v hv.2, a3]; simp only [upd]; rw [if_neg hv.1]
    · intro pre e post h
      cases pre with
      | nil =>
        simp only [List.nil_append, List.cons.injEq] at h
        obtain ⟨rfl, rfl⟩ := h
        rw [b4 _ hnd.1, a3]; simp [upd, total]
      | cons p pre =>
        simp only [List.cons_append, List.cons.injEq] at h
        obtain ⟨rfl, h⟩ := h
        rw [b5 pre e post h, a4]; simp only [total]; omega

/-- Memory after the initialisers. -/
def initMem (V : Vars) (K : Nat → Kind) (gp : Word) : Nat → List Decl → Mem → Mem
  | _, [], m => m
  | o, d :: ds, m => initMem V K gp (o + room (K d.var)) ds
      (match initial V K (gp + num o) d with
       | none => m
       | some x => store32 m (gp + num o) x)

theorem at_append {P : Program} {stack : Word} (l : List Ph2Ir) {r : List Ph2Ir} : ∀ {a e : Word}, At P stack a (l ++ r) e →
    ∃ m, At P stack a l m ∧ At P stack m r e := by
  induction l with
  | nil => intro a e h; exact ⟨a, .nil _, h⟩
  | cons i l ih =>
    intro a e h
    cases h with
    | cons hf hp hs =>
      obtain ⟨m, h1, h2⟩ := ih hs
      exact ⟨m, .cons hf hp h1, h2⟩

theorem final_id {stack : Word} {ir ir' : Ph2Ir} (h : Final stack ir ir') (hr : ir.op ≠ .ret) :
    ir'.op = ir.op ∧ ir'.src0 = ir.src0 ∧ ir'.src1 = ir.src1 ∧ ir'.dest = ir.dest := by
  obtain ⟨d, rfl⟩ := h
  rw [if_neg hr]
  exact ⟨rfl, rfl, rfl, rfl⟩

/-- What running initialisers may change. -/
structure Kept (t u : State) : Prop where
  sp : u.sp = t.sp
  gp : u.gp = t.gp
  ra : u.ra = t.ra

theorem run_decl {A : Abi} {P : Program} {os : Os} {sys : Word} (V : Vars) (K : Nat → Kind) (o : Nat) (d : Decl) {a e : Word}
    (h : At P 0 a (declCode V K o d) e) (t : State) (ht : t.pc = a) :
    ∃ u, XRun A P os sys t u ∧ u.pc = e ∧ Kept t u ∧
      u.mem = match initial V K (t.gp + num o) d with
        | none => t.mem
        | some x => store32 t.mem (t.gp + num o) x := by
  subst ht
  have r0 : isReg (num 0) 0 := rfl
  have r1 : isReg (num 1) 1 := rfl
  have hinit : ∀ c, At P 0 t.pc [{ op := .load_constant, src0 := c, dest := num 0 }, { op := .assign, src0 := num 0, dest := num 1 },
      { op := .global_store, src0 := num 1, src1 := num o }] e →
      ∃ u, XRun A P os sys t u ∧ u.pc = e ∧ Kept t u ∧ u.mem = store32 t.mem (t.gp + num o) c := by
    intro c h
    cases h with
    | cons f1 p1 h =>
      cases h with
      | cons f2 p2 h =>
        cases h with
        | cons f3 p3 h =>
          cases h
          obtain ⟨q1, q2, _, q4⟩ := final_id f1 (by simp)
          obtain ⟨s1, s2, _, s4⟩ := final_id f2 (by simp)
          obtain ⟨w1, w2, w3, _⟩ := final_id f3 (by simp)
          have x1 := XRun.tail (.refl t) ⟨_, _, p1, Step.const (A := A) (s := t) (d := 0) (by rw [q1]) (by rw [q4]; exact r0)⟩ (os := os) (sys := sys)
          have x2 := XRun.tail x1 ⟨_, _, p2, Step.assign (A := A) (d := 1) (a := 0) (by rw [s1]) (by rw [s4]; exact r1) (by rw [s2]; exact r0)⟩
          have x3 := XRun.tail x2 ⟨_, _, p3, Step.gstore (A := A) (a := 1) (by rw [w1]) (by rw [w2]; exact r1)⟩
          refine ⟨_, x3, rfl, ⟨rfl, rfl, rfl⟩, ?_⟩
          simp only [w3, setReg, q2]
          rfl
  cases hk : K d.var with
  | array n =>
    simp only [declCode, hk] at h
    simp only [initial, hk]
    cases h with
    | cons f1 p1 h =>
      cases h with
      | cons f2 p2 h =>
        cases h
        obtain ⟨q1, q2, _, q4⟩ := final_id f1 (by simp)
        obtain ⟨s1, s2, s3, _⟩ := final_id f2 (by simp)
        have x1 := XRun.tail (.refl t) ⟨_, _, p1, Step.gaddr (A := A) (s := t) (d := 0) (by rw [q1]) (by rw [q4]; exact r0)⟩ (os := os) (sys := sys)
        have x2 := XRun.tail x1 ⟨_, _, p2, Step.gstore (A := A) (a := 0) (by rw [s1]) (by rw [s2]; exact r0)⟩
        refine ⟨_, x2, rfl, ⟨rfl, rfl, rfl⟩, ?_⟩
        simp only [s3, setReg, q2, if_true]
        congr 1
        simp only [num]
        rw [BitVec.ofNat_add, ← BitVec.add_assoc]
        rfl
  | word =>
    simp only [declCode, hk] at h
    simp only [initial, hk]
    cases htm : d.tmp with
    | none =>
      simp only [htm] at h ⊢
      cases h
      exact ⟨t, .refl _, rfl, ⟨rfl, rfl, rfl⟩, rfl⟩
    | some c =>
      simp only [htm] at h ⊢
      exact hinit _ h
  | struct n =>
    simp only [declCode, hk] at h
    simp only [initial, hk]
    cases htm : d.tmp with
    | none =>
      simp only [htm] at h ⊢
      cases h
      exact ⟨t, .refl _, rfl, ⟨rfl, rfl, rfl⟩, rfl⟩
    | some c =>
      simp only [htm] at h ⊢
      exact hinit _ h

theorem run_decls {A : Abi} {P : Program} {os : Os} {sys : Word} (V : Vars) (K : Nat → Kind) (ds : List Decl) :
    ∀ (o : Nat) {a e : Word}, At P 0 a (declsCode V K o ds) e → ∀ (t : State), t.pc = a →
    ∃ u, XRun A P os sys t u ∧ u.pc = e ∧ Kept t u ∧ u.mem = initMem V K t.gp o ds t.mem := by
  induction ds with
  | nil =>
    intro o a e h t ht
    cases h
    exact ⟨t, .refl _, ht, ⟨rfl, rfl, rfl⟩, rfl⟩
  | cons d ds ih =>
    intro o a e h t ht
    obtain ⟨m, h1, h2⟩ := at_append _ h
    obtain ⟨u, x1, e1, k1, m1⟩ := run_decl (A := A) (os := os) (sys := sys) V K o d h1 t ht
    obtain ⟨w, x2, e2, k2, m2⟩ := ih _ h2 u e1
    refine ⟨w, run_trans x1 x2, e2, ⟨k2.sp.trans k1.sp, k2.gp.trans k1.gp, k2.ra.trans k1.ra⟩, ?_⟩
    rw [m2, m1, k1.gp]
    rfl

theorem num_ne {gp : Word} {o p k l : Nat} (h : o + k ≠ p + l) (h1 : o + k < 2 ^ 32) (h2 : p + l < 2 ^ 32) :
    gp + num o + BitVec.ofNat 32 k ≠ gp + num p + BitVec.ofNat 32 l := by
  simp only [num]
  rw [BitVec.add_assoc, BitVec.add_assoc, ← BitVec.ofNat_add, ← BitVec.ofNat_add]
  apply add_ne
  intro e
  have := congrArg BitVec.toNat e
  simp only [BitVec.toNat_ofNat] at this
  omega

/-- The initialisers store their values, and nothing else. -/
theorem initMem_spec (V : Vars) (K : Nat → Kind) (gp : Word) (ds : List Decl) : ∀ (o : Nat) (m : Mem), o + total K ds < 2 ^ 32 →
    (∀ pre d post, ds = pre ++ d :: post → ∀ x, initial V K (gp + num (o + total K pre)) d = some x →
      load32 (initMem V K gp o ds m) (gp + num (o + total K pre)) = x) ∧
    (∀ b, (∀ pre d post, ds = pre ++ d :: post → initial V K (gp + num (o + total K pre)) d ≠ none →
      ∀ k, k < 4 → b ≠ gp + num (o + total K pre) + BitVec.ofNat 32 k) → initMem V K gp o ds m b = m b) := by
  induction ds with
  | nil => intro o m _; exact ⟨fun pre d post h => by simp at h, fun _ _ => rfl⟩
  | cons d ds ih =>
    intro o m hs
    simp only [total] at hs
    have hr := room_pos (K d.var)
    obtain ⟨i1, i2⟩ := ih (o + room (K d.var)) (match initial V K (gp + num o) d with
       | none => m
       | some x => store32 m (gp + num o) x) (by omega)
    constructor
    · intro pre e post h x hx
      cases pre with
      | nil =>
        simp only [List.nil_append, List.cons.injEq] at h
        obtain ⟨rfl, rfl⟩ := h
        simp only [total, Nat.add_zero] at hx ⊢
        have : ∀ k, k < 4 → initMem V K gp o (d :: ds) m (gp + num o + BitVec.ofNat 32 k) =
            store32 m (gp + num o) x (gp + num o + BitVec.ofNat 32 k) := by
          intro k hk
          simp only [initMem]
          rw [i2 _ (by
            intro pre e post h _ l hl
            have := total_append K pre (e :: post)
            rw [← h] at this
            have r := room_pos (K e.var)
            simp only [total] at this
            exact num_ne (by omega) (by omega) (by omega)), hx]
        rw [load32_congr this, load32_same]
      | cons p pre =>
        simp only [List.cons_append, List.cons.injEq] at h
        obtain ⟨rfl, h⟩ := h
        simp only [total] at hx ⊢
        rw [← Nat.add_assoc] at hx ⊢
        exact i1 pre e post h x hx
    · intro b hb
      simp only [initMem]
      rw [i2 b (by
        intro pre e post h hx k hk
        have := hb (d :: pre) e post (by rw [h]; rfl) (by simpa only [total, ← Nat.add_assoc] using hx) k hk
        simpa only [total, ← Nat.add_assoc] using this)]
      cases hi : initial V K (gp + num o) d with
      | none => rfl
      | some x =>
        simp only
        exact store32_ne _ _ (fun k hk => by
          have := hb [] d ds rfl (by simpa only [total, Nat.add_zero, hi] using (by simp)) k hk
          simpa only [total, Nat.add_zero] using this)

theorem total_mod (K : Nat → Kind) (ds : List Decl) : total K ds % 4 = 0 := by
  induction ds with
  | nil => rfl
  | cons d ds ih => have := room_pos (K d.var); simp only [total]; omega

theorem split_at {l : List Decl} {d : Decl} (h : d ∈ l) : ∃ pre post, l = pre ++ d :: post := List.append_of_mem h

theorem split_two (l : List Decl) : ∀ {d e : Decl}, d ∈ l → e ∈ l → d.var ≠ e.var →
    (∃ p q r, l = p ++ d :: (q ++ e :: r)) ∨ ∃ p q r, l = p ++ e :: (q ++ d :: r) := by
  induction l with
  | nil => intro d e h; cases h
  | cons x l ih =>
    intro d e hd he hne
    rcases List.mem_cons.mp hd with rfl | hd
    · rcases List.mem_cons.mp he with rfl | he
      · exact absurd rfl hne
      · obtain ⟨q, r, rfl⟩ := List.append_of_mem he
        exact .inl ⟨[], q, r, rfl⟩
    · rcases List.mem_cons.mp he with rfl | he
      · obtain ⟨q, r, rfl⟩ := List.append_of_mem ‹d ∈ l›
        exact .inr ⟨[], q, r, rfl⟩
      · rcases ih hd he hne with ⟨p, q, r, rfl⟩ | ⟨p, q, r, rfl⟩
        · exact .inl ⟨x :: p, q, r, rfl⟩
        · exact .inr ⟨x :: p, q, r, rfl⟩

/-- **C84.** Every accepted list of global declarations is allocated: each variable has its own word-aligned part of the global frame,
apart from the first word and from the other variables; and the code that is run before `main` gives initialised variables
their values and array variables the addresses of their elements, changes nothing else in memory, and leaves the stack pointer,
the global frame and the return address as they were. -/
theorem C84_globals (V : Vars) (K : Nat → Kind) (ds : List Decl) (H : Proper V K ds) :
    ∃ fin, allocGlobals V K ds = some fin ∧ Apart K ds fin.offset fin.stack ∧
      ∀ (A : Abi) (P : Program) (os : Os) (sys a e : Word), At P 0 a fin.out e → ∀ t : State, t.pc = a →
        ∃ u, XRun A P os sys t u ∧ u.pc = e ∧ u.sp = t.sp ∧ u.gp = t.gp ∧ u.ra = t.ra ∧
          Initialised V K ds fin.offset t.gp t.mem u.mem := by
  have hs := H.size
  obtain ⟨fin, h1, h2, h3, h4, h5⟩ := decls_alloc V K ds { stack := 4 } H.distinct H.global H.temp H.noArray
    (by show 4 + total K ds < 2 ^ 31; omega) rfl (Nat.le_refl 4)
  have h2 : fin.stack = 4 + total K ds := h2
  have h3 : fin.out = declsCode V K 4 ds := h3
  have h5 : ∀ pre d post, ds = pre ++ d :: post → fin.offset d.var = 4 + total K pre := h5
  have hm := total_mod K ds
  refine ⟨fin, h1, ⟨?_, ?_, by omega⟩, ?_⟩
  · intro d hd
    obtain ⟨p, q, e⟩ := split_at hd
    have := h5 p d q e
    have ht := total_append K p (d :: q)
    have hp := total_mod K p
    rw [← e] at ht
    simp only [total] at ht
    omega
  · intro d hd e he hne
    rcases split_two ds hd he hne with ⟨p, q, r, h⟩ | ⟨p, q, r, h⟩
    · have a1 := h5 p d _ h
      have a2 := h5 (p ++ d :: q) e r (by rw [h]; simp)
      rw [total_append] at a2
      simp only [total] at a2
      omega
    · have a1 := h5 p e _ h
      have a2 := h5 (p ++ e :: q) d r (by rw [h]; simp)
      rw [total_append] at a2
      simp only [total] at a2
      omega
  · intro A P os sys a e hat t ht
    rw [h3] at hat
    obtain ⟨u, x, e1, k, hmem⟩ := run_decls (A := A) (os := os) (sys := sys) V K ds 4 hat t ht
    obtain ⟨i1, i2⟩ := initMem_spec V K t.gp ds 4 t.mem (by omega)
    refine ⟨u, x, e1, k.sp, k.gp, k.ra, ?_, ?_⟩
    · intro d hd v hv
      obtain ⟨p, q, e⟩ := split_at hd
      rw [h5 p d q e] at hv ⊢
      rw [hmem]
      exact i1 p d q e v hv
    · intro b hb
      rw [hmem]
      refine i2 b (fun p d q e hi k hk => ?_)
      have := hb d (by rw [e]; simp)
      rw [h5 p d q e] at this
      exact this hi k hk

/-- Three declarations: `int x = 5; char buf[10]; struct s y;` with a structure of 6 bytes. -/
def demoV : Vars where
  isGlobal v := v < 10
  initVal _ := 5
def demoK (v : Nat) : Kind := if v = 0 then .word else if v = 1 then .array 10 else .struct 6
def demoDs : List Decl := [{ var := 0, tmp := some 10 }, { var := 1 }, { var := 2 }]

theorem demo_proper : Proper demoV demoK demoDs where
  distinct := by decide
  global := by decide
  temp := by
    intro d hd t ht
    simp only [demoDs, List.mem_cons, List.not_mem_nil, or_false] at hd
    rcases hd with rfl | rfl | rfl <;> simp only [Option.some.injEq, reduceCtorEq] at ht
    subst ht; rfl
  noArray := by
    intro d hd n h
    simp only [demoDs, List.mem_cons, List.not_mem_nil, or_false] at hd
    rcases hd with rfl | rfl | rfl
    · simp [demoK] at h
    · rfl
    · rfl
  size := by decide

example : ((allocGlobals demoV demoK demoDs).map fun s => (s.offset 0, s.offset 1, s.offset 2, s.stack, s.out.length)) = some (4, 8, 24, 32, 5) := by
  decide

end Shecc.Props
