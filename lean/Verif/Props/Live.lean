import Verif.Spec.CLive
import Verif.Lemmas.Idom

/-!
# C53: liveness analysis
-/

namespace Shecc.Props
open Shecc.Live Shecc.Cfg CGraph CLive

theorem addKill_mem {k : List Nat} {v x : Nat} : x ∈ addKill k v ↔ x ∈ k ∨ x = v := by
  unfold addKill
  split
  · rename_i h
    constructor
    · exact Or.inl
    · rintro (h' | rfl)
      · exact h'
      · exact h
  · simp

theorem foldl_addKill_mem {vs k : List Nat} {x : Nat} : x ∈ vs.foldl addKill k ↔ x ∈ k ∨ x ∈ vs := by
  induction vs generalizing k with
  | nil => simp
  | cons v vs ih =>
    rw [List.foldl_cons, ih, addKill_mem, List.mem_cons, or_assoc]

theorem useOp_mem {g : Nat → Bool} {kill gen : List Nat} {o : Option Nat} {x : Nat} :
    x ∈ useOp g kill gen o ↔ x ∈ gen ∨ (o = some x ∧ x ∉ kill ∧ g x = false) := by
  cases o with
  | none => simp [useOp]
  | some v =>
    simp only [useOp, Option.some.injEq]
    split
    · rename_i h
      constructor
      · exact Or.inl
      · rintro (h' | ⟨rfl, h', _⟩)
        · exact h'
        · exact absurd h h'
    · rename_i h
      unfold addGen
      split
      · rename_i hg
        constructor
        · exact Or.inl
        · rintro (h' | ⟨rfl, _, h'⟩)
          · exact h'
          · rw [hg] at h'; cases h'
      · rename_i hg
        have hg' : g v = false := by simpa using hg
        split
        · rename_i hm
          constructor
          · exact Or.inl
          · rintro (h' | ⟨rfl, _, _⟩)
            · exact h'
            · exact hm
        · rw [List.mem_append, List.mem_singleton]
          constructor
          · rintro (h' | rfl)
            · exact Or.inl h'
            · exact Or.inr ⟨rfl, h, hg'⟩
          · rintro (h' | ⟨rfl, _, _⟩)
            · exact Or.inl h'
            · exact Or.inr rfl

theorem defKill_mem {kill : List Nat} {i : Insn} {x : Nat} : x ∈ defKill kill i ↔ x ∈ kill ∨ Defines i x := by
  unfold Defines defKill
  cases i.rd with
  | none => simp
  | some v =>
    simp only [Option.some.injEq]
    cases i.phi with
    | true => simp
    | false =>
      simp only [Bool.false_eq_true, if_false, and_true]
      rw [addKill_mem]
      exact or_congr_right eq_comm

theorem solveLocals_kill {g : Nat → Bool} : ∀ (is : List Insn) (r : List Nat × List Nat) (x : Nat),
    x ∈ (solveLocals g is r).2 ↔ x ∈ r.2 ∨ ∃ i ∈ is, Defines i x := by
  intro is
  induction is with
  | nil => intro r x; simp [solveLocals]
  | cons i is ih =>
    rintro ⟨gen, kill⟩ x
    rw [solveLocals, ih]
    simp only [defKill_mem, List.mem_cons, exists_eq_or_imp]
    rw [or_assoc]

theorem solveLocals_gen {g : Nat → Bool} : ∀ (is : List Insn) (r : List Nat × List Nat) (x : Nat),
    x ∈ (solveLocals g is r).1 ↔ x ∈ r.1 ∨
      (g x = false ∧ x ∉ r.2 ∧ ∃ xs i ys, is = xs ++ i :: ys ∧ Uses i x ∧ ∀ j ∈ xs, ¬ Defines j x) := by
  intro is
  induction is with
  | nil => intro r x; simp [solveLocals]
  | cons i is ih =>
    rintro ⟨gen, kill⟩ x
    rw [solveLocals, ih]
    simp only [useOp_mem, defKill_mem]
    constructor
    · rintro ((h | ⟨h1, h2, h3⟩) | ⟨h1, h2, xs, j, ys, rfl, h3, h4⟩)
      · rcases h with h | ⟨h1, h2, h3⟩
        · exact Or.inl h
        · exact Or.inr ⟨h3, h2, [], i, is, rfl, Or.inl h1, by simp⟩
      · exact Or.inr ⟨h3, h2, [], i, is, rfl, Or.inr h1, by simp⟩
      · refine Or.inr ⟨h1, fun h => h2 (Or.inl h), i :: xs, j, ys, rfl, h3, ?_⟩
        intro k hk
        rcases List.mem_cons.1 hk with rfl | hk
        · exact fun h => h2 (Or.inr h)
        · exact h4 k hk
    · rintro (h | ⟨h1, h2, xs, j, ys, he, h3, h4⟩)
      · exact Or.inl (Or.inl (Or.inl h))
      · cases xs with
        | nil =>
          simp only [List.nil_append, List.cons.injEq] at he
          obtain ⟨rfl, rfl⟩ := he
          rcases h3 with h3 | h3
          · exact Or.inl (Or.inl (Or.inr ⟨h3, h2, h1⟩))
          · exact Or.inl (Or.inr ⟨h3, h2, h1⟩)
        | cons x0 xs =>
          simp only [List.cons_append, List.cons.injEq] at he
          obtain ⟨rfl, rfl⟩ := he
          refine Or.inr ⟨h1, ?_, xs, j, ys, rfl, h3, fun k hk => h4 k (List.mem_cons_of_mem _ hk)⟩
          rintro (h | h)
          · exact h2 h
          · exact h4 i (by simp) h

theorem genKill_kill (f : Fn) (b x : Nat) : x ∈ (genKill f b).2 ↔ BlockDefines f b x := by
  unfold genKill BlockDefines
  rw [solveLocals_kill]
  by_cases hb : b = f.g.entry
  · simp only [hb, if_true, foldl_addKill_mem, List.not_mem_nil, false_or, true_and]
    exact or_comm
  · simp [hb]

theorem genKill_gen (f : Fn) (b x : Nat) : x ∈ (genKill f b).1 ↔ f.isGlobal x = false ∧ BlockReads f b x := by
  unfold genKill BlockReads
  rw [solveLocals_gen]
  by_cases hb : b = f.g.entry
  · simp only [hb, if_true, foldl_addKill_mem, List.not_mem_nil, false_or, true_and]
    constructor
    · rintro ⟨h1, h2, h3⟩; exact ⟨h1, h3, h2⟩
    · rintro ⟨h1, h3, h2⟩; exact ⟨h1, h2, h3⟩
  · simp [hb]

theorem addLiveIn_mem {l : List Nat} {v x : Nat} : x ∈ addLiveIn l v ↔ x ∈ l ∨ x = v := addKill_mem

theorem foldl_addLiveIn_mem {vs k : List Nat} {x : Nat} : x ∈ vs.foldl addLiveIn k ↔ x ∈ k ∨ x ∈ vs := foldl_addKill_mem

theorem foldl_addLiveIn_nodup {vs k : List Nat} (h : k.Nodup) : (vs.foldl addLiveIn k).Nodup := by
  induction vs generalizing k with
  | nil => exact h
  | cons v vs ih =>
    rw [List.foldl_cons]
    apply ih
    unfold addLiveIn
    split
    · exact h
    · rename_i hv
      rw [List.nodup_append]
      refine ⟨h, by simp, ?_⟩
      rintro a ha b hb rfl
      simp only [List.mem_singleton] at hb
      exact hv (hb ▸ ha)

theorem computeLiveIn_mem {gk : List Nat × List Nat} {out : List Nat} {x : Nat} :
    x ∈ computeLiveIn gk out ↔ (x ∈ out ∧ x ∉ gk.2) ∨ x ∈ gk.1 := by
  unfold computeLiveIn
  rw [foldl_addLiveIn_mem, foldl_addLiveIn_mem]
  simp

theorem newOut_mem {f : Fn} {L : Nat → List Nat} {b x : Nat} :
    x ∈ newOut f L b ↔ ∃ c ∈ f.g.succs b, x ∈ computeLiveIn (genKill f c) (L c) := by
  unfold newOut
  have : ∀ (cs : List Nat) (k : List Nat), x ∈ cs.foldl (fun out c => mergeLiveIn out (computeLiveIn (genKill f c) (L c))) k ↔
      x ∈ k ∨ ∃ c ∈ cs, x ∈ computeLiveIn (genKill f c) (L c) := by
    intro cs
    induction cs with
    | nil => intro k; simp
    | cons c cs ih =>
      intro k
      rw [List.foldl_cons, ih]
      unfold mergeLiveIn
      rw [foldl_addLiveIn_mem]
      simp only [List.mem_cons, exists_eq_or_imp]
      rw [or_assoc]
  rw [this]
  simp

theorem newOut_nodup (f : Fn) (L : Nat → List Nat) (b : Nat) : (newOut f L b).Nodup := by
  unfold newOut
  have : ∀ (cs : List Nat) (k : List Nat), k.Nodup →
      (cs.foldl (fun out c => mergeLiveIn out (computeLiveIn (genKill f c) (L c))) k).Nodup := by
    intro cs
    induction cs with
    | nil => intro k h; exact h
    | cons c cs ih =>
      intro k h
      exact ih _ (foldl_addLiveIn_nodup h)
  exact this _ _ (by simp)

/-- Invariant of the loop: sets without repetition, growing, and containing only live variables. -/
structure LInv (f : Fn) (L : Nat → List Nat) : Prop where
  nodup : ∀ b, (L b).Nodup
  grow : ∀ b x, x ∈ L b → x ∈ newOut f L b
  sound : ∀ b x, x ∈ L b → f.isGlobal x = false ∧ LiveAtEnd f b x

theorem newOut_sound {f : Fn} {L : Nat → List Nat} (h : ∀ b x, x ∈ L b → f.isGlobal x = false ∧ LiveAtEnd f b x)
    {b x : Nat} (hx : x ∈ newOut f L b) : f.isGlobal x = false ∧ LiveAtEnd f b x := by
  obtain ⟨c, hc, hx⟩ := newOut_mem.1 hx
  rcases computeLiveIn_mem.1 hx with ⟨h1, h2⟩ | h1
  · obtain ⟨hg, d, hd, l, e, hp, hr, hl⟩ := h c x h1
    refine ⟨hg, c, hc, c :: l, e, .cons hd hp, hr, ?_⟩
    intro y hy
    rcases List.mem_cons.1 hy with rfl | hy
    · rw [← genKill_kill]; exact h2
    · exact hl y hy
  · obtain ⟨hg, hr⟩ := (genKill_gen f c x).1 h1
    exact ⟨hg, c, hc, [], c, .nil c, hr, by simp⟩

theorem newOut_mono {f : Fn} {L L' : Nat → List Nat} (h : ∀ b x, x ∈ L b → x ∈ L' b) {b x : Nat}
    (hx : x ∈ newOut f L b) : x ∈ newOut f L' b := by
  obtain ⟨c, hc, hx⟩ := newOut_mem.1 hx
  refine newOut_mem.2 ⟨c, hc, ?_⟩
  rcases computeLiveIn_mem.1 hx with ⟨h1, h2⟩ | h1
  · exact computeLiveIn_mem.2 (Or.inl ⟨h c x h1, h2⟩)
  · exact computeLiveIn_mem.2 (Or.inr h1)

theorem recompute_ok {f : Fn} {L : Nat → List Nat} (I : LInv f L) (b : Nat) :
    LInv f (recompute f L b).1 ∧ (∀ c, (L c).length ≤ ((recompute f L b).1 c).length) ∧
      ((recompute f L b).2 = true → (L b).length < ((recompute f L b).1 b).length) ∧
      ((recompute f L b).2 = false → (recompute f L b).1 = L ∧ ∀ x ∈ newOut f L b, x ∈ L b) := by
  have hle : (L b).length ≤ (newOut f L b).length := nodup_length_le (I.nodup b) (I.grow b)
  have hupd : LInv f (fun x => if x = b then newOut f L b else L x) := by
    have hsub : ∀ c x, x ∈ L c → x ∈ (if c = b then newOut f L b else L c) := by
      intro c x hx
      split
      · rename_i hc; subst hc; exact I.grow c x hx
      · exact hx
    refine ⟨?_, ?_, ?_⟩
    · intro c
      split
      · exact newOut_nodup f L b
      · exact I.nodup c
    · intro c x hx
      apply newOut_mono (L := L) hsub
      split at hx
      · rename_i hc; subst hc; exact hx
      · exact I.grow c x hx
    · intro c x hx
      split at hx
      · rename_i hc; subst hc; exact newOut_sound I.sound hx
      · exact I.sound c x hx
  have hlen : ∀ c, (L c).length ≤ (if c = b then newOut f L b else L c).length := by
    intro c
    split
    · rename_i hc; subst hc; exact hle
    · exact Nat.le_refl _
  unfold recompute
  by_cases h1 : (L b).length ≠ (newOut f L b).length
  · simp only [if_pos h1]
    refine ⟨hupd, hlen, ?_, by simp⟩
    intro _
    simp only [if_true]
    omega
  · simp only [if_neg h1]
    have hno : (newOut f L b).any (fun v => decide (v ∉ L b)) = false := by
      rw [List.any_eq_false]
      intro v hv
      simp only [decide_not, Bool.not_eq_true', decide_eq_false_iff_not, Decidable.not_not]
      by_cases hm : v ∈ L b
      · exact hm
      · exfalso
        have := nodup_length_le (m := v :: L b) (l := newOut f L b) (List.nodup_cons.2 ⟨hm, I.nodup b⟩) (by
          intro x hx
          rcases List.mem_cons.1 hx with rfl | hx
          · exact hv
          · exact I.grow b x hx)
        simp only [List.length_cons] at this
        omega
    rw [hno]
    simp only [Bool.false_eq_true, if_false]
    refine ⟨I, fun c => Nat.le_refl _, by simp, ?_⟩
    intro _
    refine ⟨trivial, ?_⟩
    intro x hx
    rw [List.any_eq_false] at hno
    simpa using hno x hx

theorem livePass_ok {f : Fn} : ∀ (bs : List Nat) (L : Nat → List Nat), LInv f L →
    LInv f (livePass f bs L).1 ∧ (∀ c, (L c).length ≤ ((livePass f bs L).1 c).length) ∧
      ((livePass f bs L).2 = true → ∃ b ∈ bs, (L b).length < ((livePass f bs L).1 b).length) ∧
      ((livePass f bs L).2 = false → (livePass f bs L).1 = L ∧ ∀ b ∈ bs, ∀ x ∈ newOut f L b, x ∈ L b) := by
  intro bs
  induction bs with
  | nil => intro L I; exact ⟨I, fun c => Nat.le_refl _, by simp [livePass], by simp [livePass]⟩
  | cons b bs ih =>
    intro L I
    obtain ⟨I1, h1, h2, h3⟩ := recompute_ok I b
    obtain ⟨I2, g1, g2, g3⟩ := ih _ I1
    rw [livePass]
    refine ⟨I2, fun c => Nat.le_trans (h1 c) (g1 c), ?_, ?_⟩
    · intro h
      simp only [Bool.or_eq_true] at h
      rcases h with h | h
      · exact ⟨b, by simp, Nat.lt_of_lt_of_le (h2 h) (g1 b)⟩
      · obtain ⟨c, hc, hlt⟩ := g2 h
        exact ⟨c, List.mem_cons_of_mem _ hc, Nat.lt_of_le_of_lt (h1 c) hlt⟩
    · intro h
      simp only [Bool.or_eq_false_iff] at h
      obtain ⟨e1, e2⟩ := h3 h.1
      rw [e1] at g3 h ⊢
      obtain ⟨e3, e4⟩ := g3 h.2
      refine ⟨e3, ?_⟩
      intro c hc
      rcases List.mem_cons.1 hc with rfl | hc
      · exact e2
      · exact e4 c hc

def total (order : List Nat) (L : Nat → List Nat) : Nat := (order.map fun b => (L b).length).sum

theorem total_le {order : List Nat} {L : Nat → List Nat} {V : Nat} (h : ∀ b, (L b).length ≤ V) :
    total order L ≤ order.length * V := by
  unfold total
  induction order with
  | nil => simp
  | cons b bs ih =>
    simp only [List.map_cons, List.sum_cons, List.length_cons]
    have := h b
    rw [Nat.add_mul]
    omega

theorem total_mono {order : List Nat} {L L' : Nat → List Nat} (h : ∀ b, (L b).length ≤ (L' b).length) :
    total order L ≤ total order L' := by
  unfold total
  induction order with
  | nil => simp
  | cons b bs ih =>
    simp only [List.map_cons, List.sum_cons]
    have := h b
    omega

theorem total_lt {order : List Nat} {L L' : Nat → List Nat} (h : ∀ b, (L b).length ≤ (L' b).length) {b : Nat}
    (hb : b ∈ order) (hlt : (L b).length < (L' b).length) : total order L < total order L' := by
  induction order with
  | nil => simp at hb
  | cons c bs ih =>
    have hm : total bs L ≤ total bs L' := total_mono h
    have hc := h c
    unfold total at *
    simp only [List.map_cons, List.sum_cons]
    rcases List.mem_cons.1 hb with rfl | hb
    · omega
    · have := ih hb
      omega

theorem liveLoop_ok {f : Fn} {order vars : List Nat}
    (hv : ∀ b x, LiveAtEnd f b x → x ∈ vars) : ∀ n L, LInv f L → order.length * vars.length < n + total order L →
    ∃ L', liveLoop f order n L = some L' ∧ LInv f L' ∧ ∀ b ∈ order, ∀ x ∈ newOut f L' b, x ∈ L' b := by
  have hbound : ∀ L, LInv f L → total order L ≤ order.length * vars.length := by
    intro L I
    apply total_le
    intro b
    exact nodup_length_le (I.nodup b) (fun x hx => hv b x (I.sound b x hx).2)
  intro n
  induction n with
  | zero => intro L I h; have := hbound L I; omega
  | succ n ih =>
    intro L I h
    obtain ⟨I', h1, h2, h3⟩ := livePass_ok order L I
    rw [liveLoop]
    cases hch : (livePass f order L).2 with
    | true =>
      rw [if_pos rfl]
      obtain ⟨b, hb, hlt⟩ := h2 hch
      have := total_lt h1 hb hlt
      exact ih _ I' (by omega)
    | false =>
      rw [if_neg (by simp)]
      obtain ⟨e1, e2⟩ := h3 hch
      rw [e1]
      exact ⟨L, rfl, I, e2⟩

theorem live_complete {f : Fn} {order : List Nat} {L : Nat → List Nat} (hcl : ∀ b ∈ order, ∀ c ∈ f.g.succs b, c ∈ order)
    (hfix : ∀ b ∈ order, ∀ x ∈ newOut f L b, x ∈ L b) {x : Nat} (hg : f.isGlobal x = false) : ∀ l c d, c ∈ order →
    Path f.g.succs c (l ++ [d]) d → BlockReads f d x → (∀ y ∈ l, ¬ BlockDefines f y x) →
    x ∈ computeLiveIn (genKill f c) (L c) := by
  intro l
  induction l with
  | nil =>
    intro c d _ hp hr _
    have : c = d := by
      have := Path.first hp
      simpa using this
    subst this
    exact computeLiveIn_mem.2 (Or.inr ((genKill_gen f c x).2 ⟨hg, hr⟩))
  | cons y l ih =>
    intro c d hc hp hr hd
    generalize hm : (y :: l) ++ [d] = m at hp
    cases hp with
    | nil => simp at hm
    | @cons _ c' _ l' hs hp' =>
      simp only [List.cons_append, List.cons.injEq] at hm
      obtain ⟨rfl, rfl⟩ := hm
      have := ih c' d (hcl y hc c' hs) hp' hr (fun z hz => hd z (List.mem_cons_of_mem _ hz))
      have h1 := hfix y hc x (newOut_mem.2 ⟨c', hs, this⟩)
      exact computeLiveIn_mem.2 (Or.inl ⟨h1, fun h => hd y (by simp) ((genKill_kill f y x).1 h)⟩)

/-- C53. For every function whose blocks in the backward list have all their successors in it (every block can reach the
exit), with finitely many variables: the analysis terminates, and at the end of each block it reports exactly the local
variables that are live there. -/
theorem C53_liveness_exact_partial (f : Fn) (order vars : List Nat) (hv : ∀ b x, LiveAtEnd f b x → x ∈ vars)
    (hcl : ∀ b ∈ order, ∀ c ∈ f.g.succs b, c ∈ order) :
    ∃ L, liveness f order (order.length * vars.length + 1) = some L ∧
      (∀ b, (L b).Nodup) ∧ ∀ b ∈ order, ∀ x, x ∈ L b ↔ f.isGlobal x = false ∧ LiveAtEnd f b x := by
  have I0 : LInv f (fun _ => []) := ⟨by simp, by simp, by simp⟩
  obtain ⟨L, h1, I, h2⟩ := liveLoop_ok (order := order) hv (order.length * vars.length + 1) _ I0 (by omega)
  refine ⟨L, h1, I.nodup, ?_⟩
  intro b hb x
  refine ⟨I.sound b x, ?_⟩
  rintro ⟨hg, c, hc, l, d, hp, hr, hd⟩
  exact h2 b hb x (newOut_mem.2 ⟨c, hc, live_complete hcl h2 hg l c d (hcl b hb c hc) hp hr hd⟩)

/-- C53, for part of a graph: for the blocks of a set `R` that control does not leave and that are all in the backward list. -/
theorem C53_liveness_exact_on_partial (f : Fn) (order vars : List Nat) (hv : ∀ b x, LiveAtEnd f b x → x ∈ vars) (R : Nat → Prop)
    (hR : ∀ b, R b → b ∈ order) (hcl : ∀ b, R b → ∀ c ∈ f.g.succs b, R c) :
    ∃ L, liveness f order (order.length * vars.length + 1) = some L ∧
      ∀ b, R b → ∀ x, x ∈ L b ↔ f.isGlobal x = false ∧ LiveAtEnd f b x := by
  classical
  have I0 : LInv f (fun _ => []) := ⟨by simp, by simp, by simp⟩
  obtain ⟨L, h1, I, h2⟩ := liveLoop_ok (order := order) hv (order.length * vars.length + 1) _ I0 (by omega)
  refine ⟨L, h1, ?_⟩
  intro b hb x
  refine ⟨I.sound b x, ?_⟩
  rintro ⟨hg, c, hc, l, d, hp, hr, hd⟩
  have hm : ∀ b, b ∈ order.filter (fun b => decide (R b)) ↔ R b := fun b => by
    simp only [List.mem_filter, decide_eq_true_eq]
    exact ⟨fun h => h.2, fun h => ⟨hR b h, h⟩⟩
  refine h2 b (hR b hb) x (newOut_mem.2 ⟨c, hc, live_complete (order := order.filter fun b => decide (R b)) ?_ ?_ hg l c d ?_ hp hr hd⟩)
  · intro b hb c hc
    exact (hm c).2 (hcl b ((hm b).1 hb) c hc)
  · intro b hb
    exact h2 b (hR b ((hm b).1 hb))
  · exact (hm c).2 (hcl b hb c hc)

/-- Without the hypothesis on successors nothing is reported live that is not (for any block). -/
theorem C53_liveness_sound (f : Fn) (order vars : List Nat) (hv : ∀ b x, LiveAtEnd f b x → x ∈ vars) :
    ∃ L, liveness f order (order.length * vars.length + 1) = some L ∧
      ∀ b x, x ∈ L b → f.isGlobal x = false ∧ LiveAtEnd f b x := by
  have I0 : LInv f (fun _ => []) := ⟨by simp, by simp, by simp⟩
  obtain ⟨L, h1, I, _⟩ := liveLoop_ok (order := order) hv (order.length * vars.length + 1) _ I0 (by omega)
  exact ⟨L, h1, I.sound⟩

/-- A counting loop: block 1 tests `10`, block 2 updates it from `11`, block 3 returns `12`; block 0 sets `10` and `12`. -/
def liveDemo : Fn where
  g := ⟨fun | 0 => { next := some 1 } | 1 => { then_ := some 2, else_ := some 3, prev := [0, 2] }
            | 2 => { next := some 1, prev := [1] } | 3 => { prev := [1] } | _ => {}, 0, 3⟩
  insns
    | 0 => [{ rd := some 10 }, { rd := some 12 }]
    | 1 => [{ rd := some 13, rs1 := some 10 }, { rs1 := some 13 }]
    | 2 => [{ rd := some 10, rs1 := some 10, rs2 := some 11 }]
    | 3 => [{ rs1 := some 12 }]
    | _ => []
  params := [11]
  isGlobal _ := false

example : (∀ b ∈ [3, 1, 2, 0], ∀ c ∈ liveDemo.g.succs b, c ∈ [3, 1, 2, 0]) ∧
    (liveness liveDemo [3, 1, 2, 0] 100).map (fun L => [0, 1, 2, 3].map L) = some [[10, 11, 12], [10, 11, 12], [10, 11, 12], []] := by
  decide +kernel

/-- The hypothesis on successors is needed: block 1 loops for ever, so it is not in the list built from the exit, and the
use of `7` in the second block of the loop is missed at the end of block 0. -/
def liveBad : Fn where
  g := ⟨fun | 0 => { then_ := some 1, else_ := some 3 } | 1 => { next := some 2, prev := [0, 2] }
            | 2 => { next := some 1, prev := [1] } | 3 => { prev := [0] } | _ => {}, 0, 3⟩
  insns
    | 2 => [{ rs1 := some 7 }]
    | _ => []
  params := []
  isGlobal _ := false

theorem C53_endless_loop_missed : (buildRpo liveBad.g.preds 3 4).map (·.2) = some [3, 0] ∧
    (liveness liveBad [3, 0] 100).map (fun L => L 0) = some [] ∧ LiveAtEnd liveBad 0 7 := by
  refine ⟨by decide +kernel, by decide +kernel, 1, by decide, [1], 2, ?_, ?_, ?_⟩
  · exact .cons (by decide) (.nil 2)
  · exact ⟨⟨[], { rs1 := some 7 }, [], rfl, Or.inl rfl, by simp⟩, by simp [liveBad]⟩
  · intro x hx
    simp only [List.mem_singleton] at hx
    subst hx
    rintro (⟨i, hi, _⟩ | ⟨h, _⟩)
    · simp [liveBad] at hi
    · simp [liveBad] at h

end Shecc.Props
