import Verif.Lemmas.CseFn2
import Verif.Lemmas.SsaStrict
import Verif.Spec.CProgram

/-!
# Lemmas about what dead code elimination is given
-/

namespace Shecc.DceIn
open Shecc.Ssa Shecc.Optimize Shecc.Props SsaSem
open CProg (Part)

/-! ### Calling sequences -/

theorem Part.map {α β : Type} {op : β → Op1} {h : α → β} {xs : List α} {i : α} {ys : List α} (p : Part (fun a => op (h a)) xs i ys) :
    Part op (xs.map h) (h i) (ys.map h) := by
  rcases p with ⟨ho, xs', c, rfl, hc⟩ | ⟨ho, ps, c, ys', rfl, hc, hp⟩
  · exact .inl ⟨ho, xs'.map h, h c, by simp, hc⟩
  · refine .inr ⟨ho, ps.map h, h c, ys'.map h, by simp, hc, ?_⟩
    intro p hm
    obtain ⟨q, hq, rfl⟩ := List.mem_map.1 hm
    exact hp q hq

theorem Part.unmap {α β : Type} {op : β → Op1} {h : α → β} {xs : List α} {i : α} {ys : List α} (p : Part op (xs.map h) (h i) (ys.map h)) :
    Part (fun a => op (h a)) xs i ys := by
  rcases p with ⟨ho, xs', c, e, hc⟩ | ⟨ho, ps, c, ys', e, hc, hp⟩
  · left
    obtain ⟨us, vs, rfl, rfl, h2⟩ := List.map_eq_append_iff.1 e
    obtain ⟨k, ws, rfl, rfl, h3⟩ := List.map_eq_cons_iff.1 h2
    rw [List.map_eq_nil_iff.1 h3]
    exact ⟨ho, us, k, rfl, hc⟩
  · right
    obtain ⟨us, vs, rfl, rfl, h2⟩ := List.map_eq_append_iff.1 e
    obtain ⟨k, ws, rfl, rfl, h3⟩ := List.map_eq_cons_iff.1 h2
    exact ⟨ho, us, k, ws, rfl, hc, fun p hm => hp _ (List.mem_map_of_mem hm)⟩

/-! ### Copies -/

section
open SsaBuild
open CRename (Ins)

theorem weave_local {l cs as bs : List (Ins Name)} {i : Ins Name} (hc : ∀ c ∈ cs, c.op = .unwound_phi) (h : weave l cs = as ++ i :: bs)
    (hi : i.op = .push ∨ i.op = .func_ret) : ∃ bs', l = as ++ i :: bs' := by
  have hn : i ∉ cs := by
    intro hm
    have := hc i hm
    rcases hi with hi | hi <;> (rw [hi] at this; cases this)
  rcases weave_cases l cs with ⟨a, k, h1, hk, h2⟩ | h2
  · rw [h2] at h
    rcases append_split h with ⟨bs', k1, _⟩ | ⟨as', k1, k2⟩
    · rcases append_split k1 with ⟨bs2, k3, _⟩ | ⟨as2, k3, k4⟩
      · exact ⟨bs2 ++ [k], by rw [h1, k3]; simp⟩
      · exact absurd (by rw [k4]; simp) hn
    · cases as' with
      | nil =>
        simp only [List.nil_append, List.cons.injEq] at k2
        rw [← k2.1, hk] at hi
        rcases hi with hi | hi <;> cases hi
      | cons x as' => simp at k2
  · rw [h2] at h
    rcases append_split h with ⟨bs', k1, _⟩ | ⟨as', k1, k2⟩
    · exact ⟨bs', k1⟩
    · exact absurd (by rw [k2]; simp) hn

/-- What stands before the last instruction stays where it is. -/
theorem weave_front {l cs as seg bs : List (Ins Name)} (h : l = as ++ seg ++ bs) (hs : ∀ i ∈ seg, i.op ≠ .branch) :
    ∃ bs', weave l cs = as ++ seg ++ bs' ∨ (seg = [] ∧ weave l cs = bs') := by
  by_cases hne : seg = []
  · exact ⟨weave l cs, .inr ⟨hne, rfl⟩⟩
  rcases weave_cases l cs with ⟨a, k, h1, hk, h2⟩ | h2
  · rcases List.eq_nil_or_concat bs with rfl | ⟨bs0, z, rfl⟩
    · rcases List.eq_nil_or_concat seg with rfl | ⟨s0, z, rfl⟩
      · exact absurd rfl hne
      · exfalso
        rw [h1] at h
        simp only [List.append_nil, ← List.append_assoc, List.concat_eq_append] at h
        obtain ⟨_, e⟩ := List.append_inj' h rfl
        simp only [List.cons.injEq, and_true] at e
        exact hs z (by simp) (by rw [← e]; exact hk)
    · rw [h1] at h
      simp only [← List.append_assoc, List.concat_eq_append] at h
      obtain ⟨e, _⟩ := List.append_inj' h rfl
      exact ⟨bs0 ++ cs ++ [k], .inl (by rw [h2, e]; simp)⟩
  · exact ⟨bs ++ cs, .inl (by rw [h2, h]; simp)⟩

theorem part_weave {l cs as bs : List (Ins Name)} {i : Ins Name} (hc : ∀ c ∈ cs, c.op = .unwound_phi)
    (hp : ∀ xs i ys, l = xs ++ i :: ys → i.op = .push ∨ i.op = .func_ret → Part (·.op) xs i ys)
    (h : weave l cs = as ++ i :: bs) (hi : i.op = .push ∨ i.op = .func_ret) : Part (·.op) as i bs := by
  obtain ⟨bs', e⟩ := weave_local hc h hi
  rcases hp as i bs' e hi with ⟨ho, xs', c, rfl, hcc⟩ | ⟨ho, ps, c, ys', rfl, hcc, hps⟩
  · exact .inl ⟨ho, xs', c, rfl, hcc⟩
  · right
    refine ⟨ho, ps, c, ?_⟩
    obtain ⟨bs2, k | ⟨k, _⟩⟩ := weave_front (l := l) (cs := cs) (as := as) (seg := i :: ps ++ [c]) (bs := ys') (by rw [e]; simp) (by
      intro j hj
      simp only [List.cons_append, List.mem_cons, List.mem_append, List.not_mem_nil, or_false] at hj
      rcases hj with rfl | hj | rfl
      · intro h; exact absurd ((show _ = Op1.push from ho).symm.trans h) (by simp)
      · intro h; exact absurd ((show _ = Op1.push from hps j hj).symm.trans h) (by simp)
      · intro h; rcases hcc with k | k <;> exact absurd ((show j.op = _ from k).symm.trans h) (by simp))
    · rw [h] at k
      simp only [List.append_assoc, List.cons_append, List.nil_append, List.append_cancel_left_eq, List.cons.injEq, true_and] at k
      exact ⟨bs2, k, hcc, hps⟩
    · simp at k

theorem weave_branch {ren cs : List (Ins Name)} {xs : List (Ins Name)} {i : Ins Name} (h : ren = xs ++ [i]) (hi : i.op = .branch) :
    weave ren cs = xs ++ cs ++ [i] := by
  unfold weave
  rw [h]
  simp [hi]

end

/-! ### Optimisation -/

section
variable {g : Nat → Bool} {idom : Nat → Nat} {fuel : Nat} {cv0 : Nat → CArith.Word} {F : RegAlloc.Fn} {order : List Nat}
variable {cur : Nat → List Insn} {A : Nat → List Al} {PZ : List (Insn × Insn)} {st : ConstFold.CF}

theorem img_facts {i i' : Insn} (h : Img cv0 st i i') : i'.rd = i.rd ∧ (i' = i ∨ i'.op = .load_constant ∧ (i.op = .assign ∨ ∃ o, i.op = .alu o)) := by
  cases h with
  | same => exact ⟨rfl, .inl rfl⟩
  | assign hop hd _ _ _ _ hop' hd' => exact ⟨hd'.trans hd.symm, .inr ⟨hop', .inl hop⟩⟩
  | alu hop hd _ _ _ _ _ _ _ hop' hd' => exact ⟨hd'.trans hd.symm, .inr ⟨hop', .inr ⟨_, hop⟩⟩⟩

/-- What an instruction was before. -/
def Was (a : Al) : Prop :=
  match a with
  | .one i i' => i'.rd = i.rd ∧ (i' = i ∨ i'.op = .load_constant ∧ (i.op = .assign ∨ ∃ o, i.op = .alu o))
  | .two i n _ => i.op = .alu .add ∧ n.op = .read

theorem was (H : OInv g idom fuel cv0 F order cur A PZ st) (hp : ∀ c ∈ order, Proc PZ (A c)) {b : Nat} (hb : b ∈ order) : ∀ a ∈ A b, Was a := by
  intro a ha
  cases a with
  | one i i' => exact img_facts (H.fi.img _ (hp b hb i i' ha))
  | two i n d =>
    obtain ⟨X, Y, e⟩ := List.append_of_mem ha
    obtain ⟨_, _, _, _, _, _, _, _, h, _⟩ := (H.al b).twos X i n d Y e
    exact ⟨h.add, h.read⟩

theorem was_last {a : Al} (h : Was a) : ∃ pre k, a.bef = pre ++ [k] ∧ k.rd = a.aft.rd ∧ (k.op = .unwound_phi → a.aft.op = .unwound_phi) := by
  cases a with
  | one i i' =>
    refine ⟨[], i, rfl, h.1.symm, fun ho => ?_⟩
    rcases h.2 with e | ⟨_, e | ⟨_, e⟩⟩
    · rw [show (Al.one i i').aft = i' from rfl, e]; exact ho
    · rw [ho] at e; cases e
    · rw [ho] at e; cases e
  | two i n d =>
    refine ⟨[i], n, rfl, rfl, fun ho => ?_⟩
    rw [h.2] at ho
    cases ho

theorem was_kept {a : Al} (h : Was a) (ho : a.aft.op ≠ .load_constant) (h2 : a.aft.op ≠ .assign) : a.bef = [a.aft] := by
  cases a with
  | one i i' =>
    rcases h.2 with e | ⟨e, _⟩
    · rw [show (Al.one i i').aft = i' from rfl, e]; rfl
    · exact absurd e ho
  | two i n d => exact absurd rfl h2

/-- An instruction that is neither an assignment, a sum nor a read is left alone. -/
theorem was_keep {a : Al} (h : Was a) {k : Insn} {pre post : List Insn} (he : a.bef = pre ++ k :: post) (h1 : k.op ≠ .assign) (h2 : ∀ o, k.op ≠ .alu o)
    (h3 : k.op ≠ .read) : pre = [] ∧ post = [] ∧ a.aft = k := by
  cases a with
  | one i i' =>
    have he' : [i] = pre ++ k :: post := he
    cases pre with
    | cons x pre => simp at he'
    | nil =>
      simp only [List.nil_append, List.cons.injEq] at he'
      obtain ⟨rfl, e⟩ := he'
      refine ⟨rfl, e.symm, ?_⟩
      rcases h.2 with e | ⟨_, e | ⟨o, e⟩⟩
      · exact e
      · exact absurd e h1
      · exact absurd e (h2 o)
  | two i n d =>
    exfalso
    have hk : k ∈ [i, n] := by rw [show [i, n] = pre ++ k :: post from he]; simp
    simp only [List.mem_cons, List.not_mem_nil, or_false] at hk
    rcases hk with rfl | rfl
    · exact h2 _ h.1
    · exact h3 h.2

theorem keep_ops {o : Op1} (h : o = .push ∨ o = .func_ret ∨ o = .call ∨ o = .indirect ∨ o = .branch) :
    o ≠ .assign ∧ (∀ k, o ≠ .alu k) ∧ o ≠ .read ∧ o ≠ .load_constant := by
  rcases h with h | h | h | h | h <;> (rw [h]; exact ⟨by simp, by simp, by simp, by simp⟩)

theorem bef_ne (a : Al) : a.bef ≠ [] := by cases a <;> simp [Al.bef]

theorem pushes_al : ∀ {B : List Al}, (∀ a ∈ B, Was a) → ∀ {ps : List Insn} {c : Insn} {ys : List Insn}, bef B = ps ++ c :: ys →
    (∀ p ∈ ps, p.op = .push) → c.op = .call ∨ c.op = .indirect → ∃ ys', B.map Al.aft = ps ++ c :: ys' := by
  intro B
  induction B with
  | nil => intro _ ps c ys h _ _; simp [bef] at h
  | cons a B ih =>
    intro hw ps c ys h hp hc
    have hwa := hw a (List.mem_cons_self ..)
    rw [show bef (a :: B) = a.bef ++ bef B from List.flatMap_cons] at h
    cases ps with
    | nil =>
      rw [List.nil_append] at h
      rcases hk : a.bef with _ | ⟨k, post⟩
      · have := bef_ne a; exact absurd hk this
      · rw [hk] at h
        simp only [List.cons_append, List.cons.injEq] at h
        obtain ⟨rfl, _⟩ := h
        obtain ⟨o1, o2, o3, _⟩ := keep_ops (o := k.op) (by rcases hc with h | h <;> simp [h])
        obtain ⟨_, _, e⟩ := was_keep hwa (pre := []) hk o1 o2 o3
        exact ⟨B.map Al.aft, by rw [List.map_cons, e]; rfl⟩
    | cons p ps =>
      rcases hk : a.bef with _ | ⟨k, post⟩
      · have := bef_ne a; exact absurd hk this
      · have hk' := hk
        rw [hk] at h
        simp only [List.cons_append, List.cons.injEq] at h
        obtain ⟨rfl, h⟩ := h
        obtain ⟨o1, o2, o3, _⟩ := keep_ops (o := k.op) (.inl (hp k (List.mem_cons_self ..)))
        obtain ⟨_, e0, e⟩ := was_keep hwa (pre := []) hk' o1 o2 o3
        rw [e0, List.nil_append] at h
        obtain ⟨ys', e2⟩ := ih (fun a ha => hw a (List.mem_cons_of_mem _ ha)) h (fun p hm => hp p (List.mem_cons_of_mem _ hm)) hc
        exact ⟨ys', by rw [List.map_cons, e, e2]; rfl⟩

theorem part_al {B : List Al} (hw : ∀ a ∈ B, Was a)
    (hp : ∀ xs i ys, bef B = xs ++ i :: ys → i.op = .push ∨ i.op = .func_ret → Part (·.op) xs i ys)
    {xs ys : List Insn} {i : Insn} (h : B.map Al.aft = xs ++ i :: ys) (hi : i.op = .push ∨ i.op = .func_ret) : Part (·.op) xs i ys := by
  obtain ⟨X, B', rfl, rfl, h2⟩ := List.map_eq_append_iff.1 h
  obtain ⟨a, Y, rfl, rfl, rfl⟩ := List.map_eq_cons_iff.1 h2
  have hwa := hw a (by simp)
  have hk : a.bef = [a.aft] := by
    obtain ⟨o1, _, _, o4⟩ := keep_ops (o := a.aft.op) (by rcases hi with h | h <;> simp [h])
    exact was_kept hwa o4 o1
  have hb : bef (X ++ a :: Y) = bef X ++ a.aft :: bef Y := by
    simp only [bef, List.flatMap_append, List.flatMap_cons, hk]
    rfl
  rcases hp _ _ _ hb hi with ⟨ho, xs', c, e, hc⟩ | ⟨ho, ps, c, ys', e, hc, hps⟩
  · left
    rcases List.eq_nil_or_concat X with rfl | ⟨X0, z, rfl⟩
    · simp [bef] at e
    · rw [List.concat_eq_append] at e ⊢
      have hwz := hw z (by simp)
      obtain ⟨pre, k, hz, _, _⟩ := was_last hwz
      have : bef (X0 ++ [z]) = (bef X0 ++ pre) ++ [k] := by simp [bef, hz]
      rw [this] at e
      obtain ⟨_, e2⟩ := List.append_inj' e rfl
      simp only [List.cons.injEq, and_true] at e2
      subst e2
      obtain ⟨o1, o2, o3, _⟩ := keep_ops (o := k.op) (by rcases hc with h | h <;> simp [h])
      obtain ⟨_, _, e3⟩ := was_keep hwz (pre := pre) (post := []) hz o1 o2 o3
      exact ⟨ho, X0.map Al.aft, k, by rw [List.map_append, ← e3]; rfl, hc⟩
  · right
    obtain ⟨ys2, e2⟩ := pushes_al (fun a ha => hw a (by simp [ha])) e hps hc
    exact ⟨ho, ps, c, ys2, e2, hc, hps⟩

theorem branch_al {B : List Al} (hw : ∀ a ∈ B, Was a) {xs : List Insn} {i : Insn} (h : bef B = xs ++ [i]) (hi : i.op = .branch) :
    ∃ ys, B.map Al.aft = ys ++ [i] := by
  rcases List.eq_nil_or_concat B with rfl | ⟨X0, z, rfl⟩
  · simp [bef] at h
  · rw [List.concat_eq_append] at h hw ⊢
    have hwz := hw z (by simp)
    obtain ⟨pre, k, hz, _, _⟩ := was_last hwz
    have : bef (X0 ++ [z]) = (bef X0 ++ pre) ++ [k] := by simp [bef, hz]
    rw [this] at h
    obtain ⟨_, e2⟩ := List.append_inj' h rfl
    simp only [List.cons.injEq, and_true] at e2
    subst e2
    obtain ⟨o1, o2, o3, _⟩ := keep_ops (o := k.op) (by simp [hi])
    obtain ⟨_, _, e3⟩ := was_keep hwz (pre := pre) (post := []) hz o1 o2 o3
    exact ⟨X0.map Al.aft, by rw [List.map_append, ← e3]; rfl⟩

/-- Variables that are assigned once stay so. -/
theorem single_al {B : List Al} (hw : ∀ a ∈ B, Was a)
    (hs : ∀ xs i ys v, bef B = xs ++ i :: ys → i.rd = some v → g v = false → i.op ≠ .unwound_phi → ∀ j ∈ xs ++ ys, j.rd ≠ some v)
    {xs ys : List Insn} {i : Insn} {v : Nat} (h : B.map Al.aft = xs ++ i :: ys) (hv : i.rd = some v) (hg : g v = false)
    (ho : i.op ≠ .unwound_phi) : ∀ j ∈ xs ++ ys, j.rd ≠ some v := by
  obtain ⟨X, B', rfl, rfl, h2⟩ := List.map_eq_append_iff.1 h
  obtain ⟨a, Y, rfl, rfl, rfl⟩ := List.map_eq_cons_iff.1 h2
  intro j hj hjv
  rw [← List.map_append] at hj
  obtain ⟨c, hc, rfl⟩ := List.mem_map.1 hj
  obtain ⟨pre, k, ha, hk, hk2⟩ := was_last (hw a (by simp))
  obtain ⟨pre', k', hc', hk', _⟩ := was_last (hw c (by rcases List.mem_append.1 hc with h | h <;> simp [h]))
  have hb : bef (X ++ a :: Y) = (bef X ++ pre) ++ k :: bef Y := by
    simp [bef, ha]
  refine hs _ _ _ v hb (hk.trans hv) hg (fun h => ho (hk2 h)) k' ?_ (hk'.trans hjv)
  have hmem : ∀ {Z : List Al}, c ∈ Z → k' ∈ bef Z := fun hz => List.mem_flatMap.2 ⟨c, hz, by rw [hc']; simp⟩
  rcases List.mem_append.1 hc with h | h
  · exact List.mem_append_left _ (List.mem_append_left _ (hmem h))
  · exact List.mem_append_right _ (hmem h)

end

end Shecc.DceIn
