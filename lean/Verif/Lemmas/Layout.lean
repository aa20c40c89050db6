import Verif.Model.Layout

namespace Shecc

/-- `w` occurs in `ws` at word index `k`, where `ws` itself starts at word `n`. -/
def Within (n : Nat) (ws : List CInt) (k : Nat) (w : List CInt) : Prop :=
  ∃ p q, ws = p ++ w ++ q ∧ k = n + p.length

theorem Within.self (n : Nat) (ws : List CInt) : Within n ws n ws := ⟨[], [], by simp, by simp⟩

theorem Within.left {n k : Nat} {a b w : List CInt} (h : Within n a k w) : Within n (a ++ b) k w := by
  obtain ⟨p, q, rfl, h⟩ := h
  exact ⟨p, q ++ b, by simp, h⟩

theorem Within.right {n k : Nat} {a b w : List CInt} (h : Within (n + a.length) b k w) : Within n (a ++ b) k w := by
  obtain ⟨p, q, rfl, h⟩ := h
  exact ⟨a ++ p, q, by simp, by simp [h]; omega⟩

theorem Within.trans {n k m : Nat} {a b w : List CInt} (h : Within n a k b) (h2 : Within k b m w) : Within n a m w := by
  obtain ⟨p, q, rfl, rfl⟩ := h
  obtain ⟨p2, q2, rfl, rfl⟩ := h2
  exact ⟨p ++ p2, q2 ++ q, by simp, by simp; omega⟩

/-- The words emitted for `irs` are in `ws` (starting at word `n`) at word `k`. -/
def Placed (T : Target) (env : EmitEnv) (n : Nat) (ws : List CInt) (k : Nat) (irs : List Ph2Ir) : Prop :=
  ∃ w, emitAll T env k irs = some w ∧ Within n ws k w

theorem Placed.mono {T : Target} {env : EmitEnv} {n k m : Nat} {ws w : List CInt} {irs : List Ph2Ir}
    (h : Within n ws k w) (hp : Placed T env k w m irs) : Placed T env n ws m irs := by
  obtain ⟨v, h1, h2⟩ := hp
  exact ⟨v, h1, h.trans h2⟩

theorem emitAll_append {T : Target} {env : EmitEnv} (a b : List Ph2Ir) :
    ∀ (n : Nat) (ws : List CInt), emitAll T env n (a ++ b) = some ws →
      ∃ wa wb, ws = wa ++ wb ∧ emitAll T env n a = some wa ∧ emitAll T env (n + wa.length) b = some wb := by
  induction a with
  | nil => intro n ws h; exact ⟨[], ws, rfl, rfl, by simpa using h⟩
  | cons x a ih =>
    intro n ws h
    simp only [List.cons_append, emitAll] at h
    split at h
    · cases h
    rename_i w hw
    split at h
    · cases h
    rename_i r hr
    obtain ⟨wa, wb, rfl, h1, h2⟩ := ih _ _ hr
    simp only [Option.some.injEq] at h
    refine ⟨w ++ wa, wb, by rw [← h]; simp, by simp [emitAll, hw, h1], ?_⟩
    rw [List.length_append, ← Nat.add_assoc]; exact h2

theorem emitAll_one {T : Target} {env : EmitEnv} {n : Nat} {ir : Ph2Ir} {ws : List CInt}
    (h : emitAll T env n [ir] = some ws) : T.emit env (BitVec.ofNat 32 (4 * n)) ir = some ws := by
  simp only [emitAll] at h
  split at h
  · cases h
  rename_i w hw
  simp only [Option.some.injEq, List.append_nil] at h
  rw [← h]; exact hw

/-- Size of an instruction in the flattened program (`OP_define` reserves 16 bytes). -/
def sizeFlat (T : Target) (hard : Bool) (ir : Ph2Ir) : Option Nat :=
  if ir.op = .define then some 16 else T.sizeOf hard ir

/-- Reserved and emitted size agree on these instructions. -/
def SizesAgree (T : Target) (env : EmitEnv) (irs : List Ph2Ir) : Prop :=
  ∀ ir ∈ irs, ∀ idx ws, T.emit env idx ir = some ws → sizeFlat T env.hardMulDiv ir = some (4 * ws.length)

/-- Located instructions at consecutive offsets. -/
def Consec (sz : Ph2Ir → Option Nat) : Nat → List (Nat × Ph2Ir) → Nat → Prop
  | ofs, [], stop => stop = ofs
  | ofs, (k, ir) :: r, stop => k = ofs ∧ ∃ n, sz ir = some n ∧ Consec sz (ofs + n) r stop

theorem Consec.append {sz : Ph2Ir → Option Nat} {a b : List (Nat × Ph2Ir)} :
    ∀ {o m e : Nat}, Consec sz o a m → Consec sz m b e → Consec sz o (a ++ b) e := by
  induction a with
  | nil => intro o m e h1 h2; simp only [Consec] at h1; subst h1; exact h2
  | cons x a ih =>
    intro o m e h1 h2
    obtain ⟨k, ir⟩ := x
    obtain ⟨h3, n, h4, h5⟩ := h1
    exact ⟨h3, n, h4, ih h5 h2⟩

theorem layInsns_consec {T : Target} {hard : Bool} (irs : List Ph2Ir) (hnd : ∀ ir ∈ irs, ir.op ≠ .define) :
    ∀ {ofs : Nat} {l o}, layInsns T hard ofs irs = some (l, o) →
      Consec (sizeFlat T hard) ofs l o ∧ l.map (·.2) = irs := by
  induction irs with
  | nil =>
    intro ofs l o h
    simp only [layInsns, Option.some.injEq, Prod.mk.injEq] at h
    obtain ⟨rfl, rfl⟩ := h
    exact ⟨rfl, rfl⟩
  | cons ir irs ih =>
    intro ofs l o h
    simp only [layInsns] at h
    split at h
    · cases h
    rename_i n hn
    split at h
    · cases h
    rename_i l' o' hl
    simp only [Option.some.injEq, Prod.mk.injEq] at h
    obtain ⟨rfl, rfl⟩ := h
    obtain ⟨h1, h2⟩ := ih (fun x hx => hnd x (List.mem_cons_of_mem _ hx)) hl
    refine ⟨⟨rfl, n, ?_, h1⟩, by simp [h2]⟩
    rw [sizeFlat, if_neg (hnd ir List.mem_cons_self)]; exact hn

/-- Everything emitted for a consecutive run sits at its offsets. -/
theorem emit_consec {T : Target} {env : EmitEnv} (l : List (Nat × Ph2Ir)) :
    ∀ {n stop : Nat} {ws : List CInt}, SizesAgree T env (l.map (·.2)) →
      Consec (sizeFlat T env.hardMulDiv) (4 * n) l stop → emitAll T env n (l.map (·.2)) = some ws →
      stop = 4 * (n + ws.length) ∧
      (∀ k ir, (k, ir) ∈ l → ∃ w, T.emit env (BitVec.ofNat 32 k) ir = some w ∧
        sizeFlat T env.hardMulDiv ir = some (4 * w.length) ∧ k % 4 = 0 ∧ Within n ws (k / 4) w) := by
  induction l with
  | nil =>
    intro n stop ws hs hc he
    simp only [List.map_nil, emitAll, Option.some.injEq] at he
    subst he
    simp only [Consec] at hc
    exact ⟨by simp [hc], by simp⟩
  | cons y l ih =>
    intro n stop ws hs hc he
    obtain ⟨k0, ir0⟩ := y
    obtain ⟨rfl, m, h4, h5⟩ := hc
    simp only [List.map_cons, emitAll] at he
    split at he
    · cases he
    rename_i w hw
    split at he
    · cases he
    rename_i r hr
    simp only [Option.some.injEq] at he
    subst he
    have hsz := hs ir0 (by simp) _ _ hw
    rw [h4] at hsz
    simp only [Option.some.injEq] at hsz
    subst hsz
    rw [← Nat.mul_add] at h5
    obtain ⟨i1, i3⟩ := ih (fun ir hir => hs ir (by simp at hir ⊢; exact .inr hir)) h5 hr
    refine ⟨by rw [i1, List.length_append]; omega, ?_⟩
    intro k ir hk
    rcases List.mem_cons.mp hk with hk | hk
    · simp only [Prod.mk.injEq] at hk
      obtain ⟨rfl, rfl⟩ := hk
      refine ⟨w, hw, h4, by omega, ?_⟩
      rw [Nat.mul_div_cancel_left _ (by omega)]
      exact (Within.self n w).left
    · obtain ⟨w', q1, q2, q4, q5⟩ := i3 k ir hk
      exact ⟨w', q1, q2, q4, q5.right⟩

/-- A sub-run starting at offset `o` is emitted at `o`. -/
theorem emit_sub {T : Target} {env : EmitEnv} {n o : Nat} {a x c : List (Nat × Ph2Ir)} {ws : List CInt}
    (hs : SizesAgree T env ((a ++ x ++ c).map (·.2))) (hc : Consec (sizeFlat T env.hardMulDiv) (4 * n) a o)
    (he : emitAll T env n ((a ++ x ++ c).map (·.2)) = some ws) :
    o % 4 = 0 ∧ Placed T env n ws (o / 4) (x.map (·.2)) := by
  rw [List.map_append, List.map_append] at he
  obtain ⟨wax, wc, rfl, h1, h2⟩ := emitAll_append _ _ _ _ he
  obtain ⟨wa, wx, rfl, h3, h4⟩ := emitAll_append _ _ _ _ h1
  have hsa : SizesAgree T env (a.map (·.2)) := fun ir hir => hs ir (by simp at hir ⊢; exact .inl hir)
  obtain ⟨e, _⟩ := emit_consec a hsa hc h3
  subst e
  refine ⟨by omega, wx, ?_, ?_⟩
  · rw [Nat.mul_div_cancel_left _ (by omega)]; exact h4
  · rw [Nat.mul_div_cancel_left _ (by omega)]
    exact ((Within.self _ wx).right (a := wa)).left

/-! ## Structure of the layout -/

def NoDefine (b : Block) : Prop := ∀ ir ∈ b.insns, ir.op ≠ .define

theorem prep_op (T : Target) (st : CInt) (n : Option Nat) (ir : Ph2Ir) : (prepInsn T st n ir).op = ir.op := by
  unfold prepInsn; simp only; split <;> split <;> rfl

theorem prep_nodef {T : Target} {st : CInt} {n : Option Nat} {b : Block} (h : NoDefine b) :
    ∀ ir ∈ b.insns.map (prepInsn T st n), ir.op ≠ .define := by
  intro ir hir
  obtain ⟨x, hx, rfl⟩ := List.mem_map.mp hir
  rw [prep_op]; exact h x hx

/-- Instructions of a block as flattened (block `b` followed by `post` in its function). -/
def flatBlock (T : Target) (st : CInt) (b : Block) (post : List Block) : List Ph2Ir :=
  b.insns.map (prepInsn T st (post.head?.map (·.id)))

theorem layBlocks_spec {T : Target} {hard : Bool} {st : CInt} (bs : List Block) (hnd : ∀ b ∈ bs, NoDefine b) :
    ∀ {ofs : Nat} {L : Layout}, layBlocks T hard st ofs bs = some L →
      Consec (sizeFlat T hard) ofs L.insns L.stop ∧ L.bbs.map (·.1) = bs.map (·.id) ∧
      ∀ pre b post, bs = pre ++ b :: post → ∃ o a x c e, (b.id, o) ∈ L.bbs ∧ L.insns = a ++ x ++ c ∧
        x.map (·.2) = flatBlock T st b post ∧ Consec (sizeFlat T hard) ofs a o ∧ Consec (sizeFlat T hard) o x e := by
  induction bs with
  | nil =>
    intro ofs L h
    simp only [layBlocks, Option.some.injEq] at h
    subst h
    exact ⟨rfl, rfl, fun pre b post h => by simp at h⟩
  | cons b0 bs ih =>
    intro ofs L h
    simp only [layBlocks] at h
    split at h
    · cases h
    rename_i l o hl
    split at h
    · cases h
    rename_i r hr
    simp only [Option.some.injEq] at h
    subst h
    obtain ⟨c1, c2⟩ := layInsns_consec _ (prep_nodef (hnd b0 List.mem_cons_self)) hl
    obtain ⟨i1, i2, i3⟩ := ih (fun b hb => hnd b (List.mem_cons_of_mem _ hb)) hr
    refine ⟨c1.append i1, by simp [i2], ?_⟩
    intro pre b post hb
    cases pre with
    | nil =>
      simp only [List.nil_append, List.cons.injEq] at hb
      obtain ⟨rfl, rfl⟩ := hb
      exact ⟨ofs, [], l, r.insns, o, by simp, by simp, c2, rfl, c1⟩
    | cons p pre =>
      simp only [List.cons_append, List.cons.injEq] at hb
      obtain ⟨o', a, x, c, e, j1, j2, j3, j4, j5⟩ := i3 pre b post hb.2
      exact ⟨o', l ++ a, x, c, e, by simp [j1], by simp [j2], j3, c1.append j4, j5⟩

/-- Instructions of a block of a function as flattened; the entry block is preceded by the frame allocation. -/
def flatFnBlock (T : Target) (f : Fn) (pre : List Block) (b : Block) (post : List Block) : List Ph2Ir :=
  (if pre = [] then [{ op := .define, src0 := f.stackSize }] else []) ++ flatBlock T f.stackSize b post

theorem layFn_spec {T : Target} {hard : Bool} (f : Fn) (hnd : ∀ b ∈ f.blocks, NoDefine b) {ofs : Nat} {L : Layout}
    (h : layFn T hard ofs f = some L) :
    Consec (sizeFlat T hard) ofs L.insns L.stop ∧ L.bbs.map (·.1) = f.blocks.map (·.id) ∧
      ∀ pre b post, f.blocks = pre ++ b :: post → ∃ o a x c e, (b.id, o) ∈ L.bbs ∧ L.insns = a ++ x ++ c ∧
        x.map (·.2) = flatFnBlock T f pre b post ∧ Consec (sizeFlat T hard) ofs a o ∧
        Consec (sizeFlat T hard) o x e := by
  unfold layFn at h
  split at h
  · cases h
  rename_i l o hl
  split at h
  · cases h
  rename_i r hr
  simp only [Option.some.injEq] at h
  subst h
  obtain ⟨c1, c2⟩ := layInsns_consec _ (prep_nodef (hnd f.entry (by simp [Fn.blocks]))) hl
  obtain ⟨i1, i2, i3⟩ := layBlocks_spec _ (fun b hb => hnd b (by simp [Fn.blocks, hb])) hr
  have hdef : Consec (sizeFlat T hard) ofs ((ofs, { op := .define, src0 := f.stackSize }) :: l) o :=
    ⟨rfl, 16, by simp [sizeFlat], c1⟩
  refine ⟨by simpa using hdef.append i1, by simp [Fn.blocks, i2], ?_⟩
  intro pre b post hb
  cases pre with
  | nil =>
    simp only [Fn.blocks, List.nil_append, List.cons.injEq] at hb
    obtain ⟨rfl, rfl⟩ := hb
    exact ⟨ofs, [], _ :: l, r.insns, o, by simp, by simp, by simp [flatFnBlock, flatBlock, c2], rfl, hdef⟩
  | cons p pre =>
    simp only [Fn.blocks, List.cons_append, List.cons.injEq] at hb
    obtain ⟨o', a, x, c, e, j1, j2, j3, j4, j5⟩ := i3 pre b post hb.2
    exact ⟨o', (_ :: l) ++ a, x, c, e, by simp [j1], by simp [j2], by simp [flatFnBlock, j3], hdef.append j4, j5⟩

theorem layFns_spec {T : Target} {hard : Bool} (fs : List Fn) (hnd : ∀ f ∈ fs, ∀ b ∈ f.blocks, NoDefine b) :
    ∀ {ofs : Nat} {L : Layout}, layFns T hard ofs fs = some L →
    Consec (sizeFlat T hard) ofs L.insns L.stop ∧ L.bbs.map (·.1) = (fs.flatMap (·.blocks)).map (·.id) ∧
      ∀ f ∈ fs, ∀ pre b post, f.blocks = pre ++ b :: post → ∃ o a x c e, (b.id, o) ∈ L.bbs ∧
        L.insns = a ++ x ++ c ∧ x.map (·.2) = flatFnBlock T f pre b post ∧ Consec (sizeFlat T hard) ofs a o ∧
        Consec (sizeFlat T hard) o x e := by
  induction fs with
  | nil =>
    intro ofs L h
    simp only [layFns, Option.some.injEq] at h
    subst h
    exact ⟨rfl, rfl, fun f hf => by simp at hf⟩
  | cons f0 fs ih =>
    intro ofs L h
    simp only [layFns] at h
    split at h
    · cases h
    rename_i l hl
    split at h
    · cases h
    rename_i r hr
    simp only [Option.some.injEq] at h
    subst h
    obtain ⟨c1, c2, c3⟩ := layFn_spec f0 (hnd f0 List.mem_cons_self) hl
    obtain ⟨i1, i2, i3⟩ := ih (fun b hb => hnd b (List.mem_cons_of_mem _ hb)) hr
    refine ⟨c1.append i1, by simp [c2, i2], ?_⟩
    intro f hf pre b post hb
    rcases List.mem_cons.mp hf with rfl | hf
    · obtain ⟨o', a, x, c, e, j1, j2, j3, j4, j5⟩ := c3 pre b post hb
      exact ⟨o', a, x, c ++ r.insns, e, by simp [j1], by simp [j2], j3, j4, j5⟩
    · obtain ⟨o', a, x, c, e, j1, j2, j3, j4, j5⟩ := i3 f hf pre b post hb
      exact ⟨o', l.insns ++ a, x, c, e, by simp [j1], by simp [j2], j3, c1.append j4, j5⟩

theorem ofsOf_nodup {l : List (Nat × Nat)} (h : (l.map (·.1)).Nodup) {b o : Nat} (hm : (b, o) ∈ l) : ofsOf l b = o := by
  induction l with
  | nil => simp at hm
  | cons x l ih =>
    obtain ⟨k, v⟩ := x
    simp only [List.map_cons, List.nodup_cons, List.mem_map, not_exists] at h
    simp only [ofsOf]
    rcases List.mem_cons.mp hm with hm | hm
    · simp only [Prod.mk.injEq] at hm
      obtain ⟨rfl, rfl⟩ := hm
      have : l.any (·.1 == b) = false := by
        rw [List.any_eq_false]
        intro y hy he
        exact h.1 y ⟨hy, by simpa using he⟩
      simp [this]
    · have : l.any (·.1 == b) = true := by
        rw [List.any_eq_true]
        exact ⟨(b, o), hm, by simp⟩
      simp only [this, if_true]
      exact ih h.2 hm

/-- What the generic layout argument needs to know about a target. -/
structure Target.Good (T : Target) : Prop where
  defineNone : ∀ hard ir, ir.op = .define → T.sizeOf hard ir = none
  stubsLen : ∀ g o a, T.stubs g o = some a → 4 * a.length = T.globalOfs
  mainLen : ∀ g o i c, T.toMain g o i = some c → c.length = 6

theorem layInsns_nodef {T : Target} (hT : T.Good) {hard : Bool} (irs : List Ph2Ir) :
    ∀ {ofs : Nat} {r}, layInsns T hard ofs irs = some r → ∀ ir ∈ irs, ir.op ≠ .define := by
  induction irs with
  | nil => intro ofs r _ ir hir; simp at hir
  | cons x irs ih =>
    intro ofs r h ir hir
    simp only [layInsns] at h
    split at h
    · cases h
    rename_i n hn
    split at h
    · cases h
    rename_i l o hl
    rcases List.mem_cons.mp hir with rfl | hir
    · intro hd; rw [hT.defineNone hard ir hd] at hn; cases hn
    · exact ih hl ir hir

theorem layBlocks_nodef {T : Target} (hT : T.Good) {hard : Bool} {st : CInt} (bs : List Block) :
    ∀ {ofs : Nat} {L}, layBlocks T hard st ofs bs = some L → ∀ b ∈ bs, NoDefine b := by
  induction bs with
  | nil => intro _ _ _ b hb; simp at hb
  | cons x bs ih =>
    intro ofs L h b hb
    simp only [layBlocks] at h
    split at h
    · cases h
    rename_i l o hl
    split at h
    · cases h
    rename_i r hr
    rcases List.mem_cons.mp hb with rfl | hb
    · intro ir hir
      have := layInsns_nodef hT _ hl _ (List.mem_map_of_mem hir)
      rwa [prep_op] at this
    · exact ih hr b hb

theorem layFns_nodef {T : Target} (hT : T.Good) {hard : Bool} (fs : List Fn) :
    ∀ {ofs : Nat} {L}, layFns T hard ofs fs = some L → ∀ f ∈ fs, ∀ b ∈ f.blocks, NoDefine b := by
  induction fs with
  | nil => intro _ _ _ b hb; simp at hb
  | cons x fs ih =>
    intro ofs L h f hf
    simp only [layFns] at h
    split at h
    · cases h
    rename_i l hl
    split at h
    · cases h
    rename_i r hr
    rcases List.mem_cons.mp hf with rfl | hf
    · unfold layFn at hl
      split at hl
      · cases hl
      rename_i li oi hli
      split at hl
      · cases hl
      rename_i rb hrb
      intro b hb
      rcases List.mem_cons.mp hb with rfl | hb
      · intro ir hir
        have := layInsns_nodef hT _ hli _ (List.mem_map_of_mem hir)
        rwa [prep_op] at this
      · exact layBlocks_nodef hT _ hrb b hb
    · exact ih hr f hf

/-- Instructions as they end up in the code section, with their offsets. -/
def Flat.located (F : Flat) : List (Nat × Ph2Ir) := F.globals ++ F.fns.insns

/-- Identities of all basic blocks are distinct. -/
def Prog.DistinctBlocks (P : Prog) : Prop :=
  (P.syscallBB :: P.globalBB :: (P.fns.flatMap (·.blocks)).map (·.id)).Nodup

theorem compile_spec {T : Target} (hT : T.Good) {hard : Bool} {P : Prog} {F : Flat} {img : List CInt}
    (h : compile T hard P = some (F, img))
    (hs : SizesAgree T (emitEnv T hard P F) (F.located.map (·.2))) :
    (∃ a, T.stubs P.globalStack (BitVec.ofNat 32 (ofsOf (F.bbs T P) P.globalBB)) = some a ∧ Within 0 img 0 a ∧
      4 * a.length = T.globalOfs) ∧
    Placed T (emitEnv T hard P F) 0 img (T.globalOfs / 4) P.globalInsns ∧
    (F.mainJump % 4 = 0 ∧ ∃ c, T.toMain P.globalStack (BitVec.ofNat 32 (ofsOf (F.bbs T P) P.mainBB))
      (BitVec.ofNat 32 F.mainJump) = some c ∧ Within 0 img (F.mainJump / 4) c) ∧
    (∀ k ir, (k, ir) ∈ F.located → ∃ w, T.emit (emitEnv T hard P F) (BitVec.ofNat 32 k) ir = some w ∧
      sizeFlat T hard ir = some (4 * w.length) ∧ k % 4 = 0 ∧ Within 0 img (k / 4) w) ∧
    (P.DistinctBlocks → ∀ f ∈ P.fns, ∀ pre b post, f.blocks = pre ++ b :: post →
      ofsOf (F.bbs T P) b.id % 4 = 0 ∧
      Placed T (emitEnv T hard P F) 0 img (ofsOf (F.bbs T P) b.id / 4) (flatFnBlock T f pre b post)) ∧
    F.fns.stop = 4 * img.length ∧ 4 * img.length ≤ maxCode ∧
    (P.DistinctBlocks → ofsOf (F.bbs T P) P.syscallBB = T.syscallOfs ∧ ofsOf (F.bbs T P) P.globalBB = T.globalOfs) ∧
    Consec (sizeFlat T hard) T.globalOfs F.globals F.mainJump ∧ F.globals.map (·.2) = P.globalInsns ∧
    (P.DistinctBlocks → ∀ f ∈ P.fns, ∀ pre b post, f.blocks = pre ++ b :: post →
      ∃ x y z e, F.fns.insns = x ++ y ++ z ∧ y.map (·.2) = flatFnBlock T f pre b post ∧
        Consec (sizeFlat T hard) (ofsOf (F.bbs T P) b.id) y e) ∧
    F.fns.bbs.map (·.1) = (P.fns.flatMap (·.blocks)).map (·.id) := by
  unfold compile at h
  split at h
  · cases h
  rename_i F' hF
  simp only [Option.map_eq_some_iff, Prod.mk.injEq] at h
  obtain ⟨ws, hw, rfl, rfl⟩ := h
  unfold cfgFlatten at hF
  split at hF
  · cases hF
  rename_i g o hg
  split at hF
  · cases hF
  rename_i L hL
  simp only [Option.some.injEq] at hF
  subst hF
  simp only [Flat.located, List.map_append] at hs
  unfold codeGenerate at hw
  simp only at hw
  split at hw
  · cases hw
  rename_i a ha
  split at hw
  · cases hw
  rename_i b hb
  split at hw
  · cases hw
  rename_i c hc
  split at hw
  · cases hw
  rename_i d hd
  split at hw
  rotate_left
  · cases hw
  rename_i hmax
  simp only [Option.some.injEq] at hw
  subst hw
  have la := hT.stubsLen _ _ _ ha
  have lc := hT.mainLen _ _ _ _ hc
  generalize henv : emitEnv T hard P ⟨g, o, L⟩ = env at *
  have hh : env.hardMulDiv = hard := by rw [← henv]; rfl
  obtain ⟨g1, g2⟩ := layInsns_consec _ (layInsns_nodef hT _ hg) hg
  obtain ⟨l1, l2, l3⟩ := layFns_spec _ (layFns_nodef hT _ hL) hL
  rw [← hh] at g1 l1
  rw [← la] at g1
  have hsg : SizesAgree T env (g.map (·.2)) := fun ir hir => hs ir (by simp at hir ⊢; exact .inl hir)
  have hsl : SizesAgree T env (L.insns.map (·.2)) := fun ir hir => hs ir (by simp at hir ⊢; exact .inr hir)
  obtain ⟨e1, e2⟩ := emit_consec g hsg g1 hb
  subst e1
  have e3 : 4 * (a.length + b.length) + 24 = 4 * (a.length + b.length + c.length) := by omega
  rw [e3] at l1 l3
  obtain ⟨f1, f2⟩ := emit_consec L.insns hsl l1 hd
  have wb : ∀ {k w}, Within a.length b k w → Within 0 (a ++ b ++ c ++ d) k w := by
    intro k w hk
    exact (((Within.right (n := 0) (by simpa using hk)).left).left)
  have wd : ∀ {k w}, Within (a.length + b.length + c.length) d k w → Within 0 (a ++ b ++ c ++ d) k w := by
    intro k w hk
    exact Within.right (n := 0) (by simpa [Nat.add_assoc] using hk)
  refine ⟨⟨a, ?_, ?_, la⟩, ?_, ?_, ?_, ?_, ?_, hmax, ?_, ?_, g2, ?_, l2⟩
  · rw [← henv] at ha; exact ha
  · exact (((Within.self 0 a).left).left).left
  · rw [← la, Nat.mul_div_cancel_left _ (by omega)]
    rw [g2] at hb
    exact ⟨b, hb, wb (Within.self _ _)⟩
  · refine ⟨Nat.mul_mod_right _ _, c, ?_, ?_⟩
    · rw [← henv] at hc; exact hc
    · show Within 0 _ (4 * (a.length + b.length) / 4) c
      rw [Nat.mul_div_cancel_left _ (by omega)]
      have : Within 0 (a ++ b ++ c) (a.length + b.length) c :=
        Within.right (n := 0) (by simpa using Within.self (a.length + b.length) c)
      exact this.left
  · intro k ir hk
    rw [← hh]
    rcases List.mem_append.mp hk with hk | hk
    · obtain ⟨w, q1, q2, q3, q4⟩ := e2 k ir hk
      exact ⟨w, q1, q2, q3, wb q4⟩
    · obtain ⟨w, q1, q2, q3, q4⟩ := f2 k ir hk
      exact ⟨w, q1, q2, q3, wd q4⟩
  · intro hdis f hf pre bl post hbl
    obtain ⟨o', x1, x, x2, e, j1, j2, j3, j4, j5⟩ := l3 f hf pre bl post hbl
    have : ofsOf (Flat.bbs T P ⟨g, 4 * (a.length + b.length), L⟩) bl.id = o' := by
      apply ofsOf_nodup
      · simp only [Flat.bbs, List.map_cons, l2]; exact hdis
      · simp only [Flat.bbs, List.mem_cons]; exact .inr (.inr j1)
    rw [this]
    rw [← hh] at j4
    rw [j2] at hsl hd
    obtain ⟨k1, k2⟩ := emit_sub hsl j4 hd
    rw [j3] at k2
    refine ⟨k1, ?_⟩
    obtain ⟨v, v1, v2⟩ := k2
    exact ⟨v, v1, wd v2⟩
  · show L.stop = _
    rw [f1]; simp; omega
  · intro hdis
    constructor
    · apply ofsOf_nodup
      · simp only [Flat.bbs, List.map_cons, l2]; exact hdis
      · simp [Flat.bbs]
    · apply ofsOf_nodup
      · simp only [Flat.bbs, List.map_cons, l2]; exact hdis
      · simp [Flat.bbs]
  · rw [← hh, ← la]; exact g1
  · intro hdis f hf pre bl post hbl
    obtain ⟨o', x1, x, x2, e, j1, j2, j3, j4, j5⟩ := l3 f hf pre bl post hbl
    have : ofsOf (Flat.bbs T P ⟨g, 4 * (a.length + b.length), L⟩) bl.id = o' := by
      apply ofsOf_nodup
      · simp only [Flat.bbs, List.map_cons, l2]; exact hdis
      · simp only [Flat.bbs, List.mem_cons]; exact .inr (.inr j1)
    rw [this]
    exact ⟨x1, x, x2, e, j2, j3, j5⟩

theorem ofsOf_mem (l : List (Nat × Nat)) (b : Nat) : ofsOf l b = 0 ∨ (b, ofsOf l b) ∈ l := by
  induction l with
  | nil => exact .inl rfl
  | cons x l ih =>
    obtain ⟨k, v⟩ := x
    simp only [ofsOf]
    split
    · rcases ih with h | h
      · exact .inl h
      · exact .inr (List.mem_cons_of_mem _ h)
    · split
      · rename_i _ h; subst h; exact .inr List.mem_cons_self
      · exact .inl rfl

theorem Within.le {k : Nat} {ws w : List CInt} (h : Within 0 ws k w) : k + w.length ≤ ws.length := by
  obtain ⟨p, q, rfl, rfl⟩ := h
  simp only [List.length_append]; omega

/-- Every offset the emitter can read is a multiple of 4 inside the code section. -/
theorem ofs_bound {T : Target} (hT : T.Good) (hsys : T.syscallOfs % 4 = 0 ∧ T.syscallOfs ≤ T.globalOfs)
    {hard : Bool} {P : Prog} {F : Flat} {img : List CInt}
    (h : compile T hard P = some (F, img))
    (hs : SizesAgree T (emitEnv T hard P F) (F.located.map (·.2))) (hd : P.DistinctBlocks) (id : Nat) :
    ofsOf (F.bbs T P) id % 4 = 0 ∧ ofsOf (F.bbs T P) id ≤ 4 * img.length := by
  obtain ⟨⟨a, _, a2, a3⟩, _, _, _, h5, _, _, h8, _, _, _, h12⟩ := compile_spec hT h hs
  have := a2.le
  rcases ofsOf_mem (F.bbs T P) id with h0 | h0
  · omega
  · have hn : ((F.bbs T P).map (·.1)).Nodup := by
      simp only [Flat.bbs, List.map_cons, h12]; exact hd
    simp only [Flat.bbs, List.mem_cons, Prod.mk.injEq] at h0
    rcases h0 with ⟨h0, _⟩ | ⟨h0, _⟩ | h0
    · subst h0; rw [(h8 hd).1]; omega
    · subst h0; rw [(h8 hd).2]; omega
    · have : id ∈ F.fns.bbs.map (·.1) := List.mem_map.mpr ⟨_, h0, rfl⟩
      rw [h12] at this
      simp only [List.mem_map, List.mem_flatMap] at this
      obtain ⟨b, ⟨f, hf, hb⟩, rfl⟩ := this
      obtain ⟨pre, post, hsplit⟩ := List.append_of_mem hb
      obtain ⟨k1, w, k2, k3⟩ := h5 hd f hf pre b post hsplit
      have := k3.le
      omega

end Shecc
