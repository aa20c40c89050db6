import Verif.Lemmas.ArmSim2

namespace Shecc
open ARM

theorem layInsns_split {T : Target} {hard : Bool} (irs : List Ph2Ir) :
    ∀ {ofs : Nat} {l o k ir}, layInsns T hard ofs irs = some (l, o) → (k, ir) ∈ l →
      ∃ xs zs n, irs = xs ++ ir :: zs ∧ T.sizeOf hard ir = some n ∧ (zs = [] → k + n = o) := by
  induction irs with
  | nil =>
    intro ofs l o k ir h hm
    simp only [layInsns, Option.some.injEq, Prod.mk.injEq] at h
    obtain ⟨rfl, rfl⟩ := h
    simp at hm
  | cons i irs ih =>
    intro ofs l o k ir h hm
    simp only [layInsns] at h
    split at h
    · cases h
    rename_i n hn
    split at h
    · cases h
    rename_i l' o' hl
    simp only [Option.some.injEq, Prod.mk.injEq] at h
    obtain ⟨rfl, rfl⟩ := h
    rcases List.mem_cons.mp hm with hm | hm
    · simp only [Prod.mk.injEq] at hm
      obtain ⟨rfl, rfl⟩ := hm
      refine ⟨[], irs, n, rfl, hn, ?_⟩
      rintro rfl
      simp only [layInsns, Option.some.injEq, Prod.mk.injEq] at hl
      exact hl.2
    · obtain ⟨xs, zs, n', h1, h2, h3⟩ := ih hl hm
      exact ⟨i :: xs, zs, n', by simp [h1], h2, h3⟩

/-- What is needed of a located instruction. -/
def LocOk (T : Target) (hard : Bool) (bbs : List (Nat × Nat)) (k : Nat) (ir : Ph2Ir) : Prop :=
  (ir.op = .assign → ir.dest ≠ ir.src0) ∧
  (ir.op = .branch → ∃ n, T.sizeOf hard ir = some n ∧
    ((if ir.is_branch_detached then ir.then_bb else ir.else_bb), k + n) ∈ bbs) ∧
  (ir.op = .define ∨ ∃ n, T.sizeOf hard ir = some n)

theorem LocOk.mono {T : Target} {hard : Bool} {a b : List (Nat × Nat)} {k : Nat} {ir : Ph2Ir} (h : LocOk T hard a k ir)
    (hs : ∀ x ∈ a, x ∈ b) : LocOk T hard b k ir :=
  ⟨h.1, fun e => let ⟨n, h1, h2⟩ := h.2.1 e; ⟨n, h1, hs _ h2⟩, h.2.2⟩

theorem locOk_block {T : Target} (hT : T.detaches = true) {hard : Bool} {st : CInt} {b : Block} {next : Option Nat}
    (hb : b.ArmOk next) {ofs o : Nat} {l : List (Nat × Ph2Ir)} (bbs : List (Nat × Nat))
    (hl : layInsns T hard ofs (b.insns.map (prepInsn T st next)) = some (l, o))
    (hn : ∀ i, next = some i → (i, o) ∈ bbs) : ∀ k ir, (k, ir) ∈ l → LocOk T hard bbs k ir := by
  intro k ir hm
  obtain ⟨xs, zs, n, h1, h2, h3⟩ := layInsns_split _ hl hm
  obtain ⟨ys, ws, e0, e1, e2⟩ := List.map_eq_append_iff.mp h1
  obtain ⟨i0, rest, rfl, e3, e4⟩ := List.map_eq_cons_iff.mp e2
  obtain ⟨a1, a2⟩ := hb ys i0 rest e0
  have hop : ir.op = i0.op := by rw [← e3]; exact prep_op ..
  refine ⟨?_, ?_, .inr ⟨n, h2⟩⟩
  · intro h
    have ho : i0.op = .assign := hop ▸ h
    have : ir = i0 := by
      rw [← e3, prepInsn, ho]; simp [ho]
    rw [this]; exact a1 ho
  · intro h
    have ho : i0.op = .branch := hop ▸ h
    obtain ⟨b1, b2, b3⟩ := a2 ho
    have hz : zs = [] := by rw [← e4, b1]; rfl
    refine ⟨n, h2, ?_⟩
    rw [h3 hz]
    apply hn
    rw [← e3, prepInsn, ho]
    simp only [reduceCtorEq, if_false, hT, true_and, ho]
    by_cases he : some i0.else_bb = next
    · simp [he, b2]
    · rcases b3 with b3 | b3
      · exact absurd b3.symm he
      · have : ¬ i0.else_bb = i0.then_bb := fun e => he (by rw [e, b3])
        simp [b3, this]

theorem layBlocks_head {T : Target} {hard : Bool} {st : CInt} {bs : List Block} {ofs : Nat} {L : Layout}
    (h : layBlocks T hard st ofs bs = some L) : ∀ i, bs.head?.map (·.id) = some i → (i, ofs) ∈ L.bbs := by
  intro i hi
  cases bs with
  | nil => simp at hi
  | cons b bs =>
    simp only [List.head?_cons, Option.map_some, Option.some.injEq] at hi
    simp only [layBlocks] at h
    split at h
    · cases h
    split at h
    · cases h
    simp only [Option.some.injEq] at h
    subst h
    simp [hi]

theorem layBlocks_loc {T : Target} (hT : T.detaches = true) {hard : Bool} {st : CInt} (bs : List Block)
    (hb : ∀ pre b post, bs = pre ++ b :: post → b.ArmOk (post.head?.map (·.id))) :
    ∀ {ofs : Nat} {L : Layout}, layBlocks T hard st ofs bs = some L →
      ∀ k ir, (k, ir) ∈ L.insns → LocOk T hard L.bbs k ir := by
  induction bs with
  | nil =>
    intro ofs L h k ir hm
    simp only [layBlocks, Option.some.injEq] at h
    subst h
    simp at hm
  | cons b0 bs ih =>
    intro ofs L h k ir hm
    simp only [layBlocks] at h
    split at h
    · cases h
    rename_i l o hl
    split at h
    · cases h
    rename_i r hr
    simp only [Option.some.injEq] at h
    subst h
    rcases List.mem_append.mp hm with hm | hm
    · exact locOk_block hT (hb [] b0 bs rfl) _ hl
        (fun i hi => List.mem_cons_of_mem _ (layBlocks_head hr i hi)) k ir hm
    · exact (ih (fun pre b post e => hb (b0 :: pre) b post (by simp [e])) hr k ir hm).mono
        (fun x hx => List.mem_cons_of_mem _ hx)

theorem layFn_loc {T : Target} (hT : T.detaches = true) {hard : Bool} (f : Fn)
    (hb : ∀ pre b post, f.blocks = pre ++ b :: post → b.ArmOk (post.head?.map (·.id))) {ofs : Nat} {L : Layout}
    (h : layFn T hard ofs f = some L) : ∀ k ir, (k, ir) ∈ L.insns → LocOk T hard L.bbs k ir := by
  intro k ir hm
  unfold layFn at h
  split at h
  · cases h
  rename_i l o hl
  split at h
  · cases h
  rename_i r hr
  simp only [Option.some.injEq] at h
  subst h
  rcases List.mem_cons.mp hm with hm | hm
  · simp only [Prod.mk.injEq] at hm
    obtain ⟨rfl, rfl⟩ := hm
    exact ⟨(fun h => (by cases h)), (fun h => (by cases h)), .inl rfl⟩
  rcases List.mem_append.mp hm with hm | hm
  · exact locOk_block hT (hb [] f.entry f.rest rfl) _ hl
      (fun i hi => List.mem_cons_of_mem _ (layBlocks_head hr i hi)) k ir hm
  · exact (layBlocks_loc hT f.rest (fun pre b post e => hb (f.entry :: pre) b post (by simp [Fn.blocks, e])) hr k ir hm).mono
      (fun x hx => List.mem_cons_of_mem _ hx)

theorem layFns_loc {T : Target} (hT : T.detaches = true) {hard : Bool} (fs : List Fn)
    (hb : ∀ f ∈ fs, ∀ pre b post, f.blocks = pre ++ b :: post → b.ArmOk (post.head?.map (·.id))) :
    ∀ {ofs : Nat} {L : Layout}, layFns T hard ofs fs = some L →
      ∀ k ir, (k, ir) ∈ L.insns → LocOk T hard L.bbs k ir := by
  induction fs with
  | nil =>
    intro ofs L h k ir hm
    simp only [layFns, Option.some.injEq] at h
    subst h
    simp at hm
  | cons f0 fs ih =>
    intro ofs L h k ir hm
    simp only [layFns] at h
    split at h
    · cases h
    rename_i l hl
    split at h
    · cases h
    rename_i r hr
    simp only [Option.some.injEq] at h
    subst h
    rcases List.mem_append.mp hm with hm | hm
    · exact (layFn_loc hT f0 (hb f0 List.mem_cons_self) hl k ir hm).mono (fun x hx => List.mem_append_left _ hx)
    · exact (ih (fun f hf => hb f (List.mem_cons_of_mem _ hf)) hr k ir hm).mono (fun x hx => List.mem_append_right _ hx)

theorem compile_loc {T : Target} (hT : T.detaches = true) {hard : Bool} {P : Prog} {F : Flat} {img : List CInt}
    (h : compile T hard P = some (F, img)) (hP : P.ArmOk) :
    ∀ k ir, (k, ir) ∈ F.located → LocOk T hard (F.bbs T P) k ir := by
  intro k ir hm
  unfold compile at h
  split at h
  · cases h
  rename_i F' hF
  simp only [Option.map_eq_some_iff, Prod.mk.injEq] at h
  obtain ⟨ws, hw, rfl, rfl⟩ := h
  unfold cfgFlatten at hF
  split at hF
  · cases hF
  rename_i g o hg
  split at hF
  · cases hF
  rename_i L hL
  simp only [Option.some.injEq] at hF
  subst hF
  rcases List.mem_append.mp hm with hm | hm
  · obtain ⟨xs, zs, n, h1, h2, _⟩ := layInsns_split _ hg hm
    obtain ⟨g1, g2⟩ := hP.globals ir (by rw [h1]; simp)
    exact ⟨g2, fun e => absurd e g1, .inr ⟨n, h2⟩⟩
  · exact (layFns_loc hT _ hP.blocks hL k ir hm).mono
      (fun x hx => List.mem_cons_of_mem _ (List.mem_cons_of_mem _ hx))

end Shecc
