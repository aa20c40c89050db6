import Verif.Lemmas.RenameUnique

/-!
# The shape of the code after SSA construction
-/

namespace Shecc.SsaBuild
open Shecc.Cfg CGraph
open CRename

/-- The instruction with the subscripts removed. -/
def strip (j : Ins Name) : Ins Nat :=
  { op := j.op, rd := j.rd.map (·.1), rs1 := j.rs1.map (·.1), rs2 := j.rs2.map (·.1), sz := j.sz, str := j.str }

theorem renameVar_fst {f : Fn} {R : Ren} {v : Nat} {x : Name} (h : renameVar f R v = some x) : x.1 = v := by
  unfold renameVar at h
  split at h
  · cases h; rfl
  · split at h
    · cases h
    · cases h; rfl

theorem renOpt_fst {f : Fn} {R : Ren} {o : Option Nat} {a : Option Name} (h : renOpt f R o = some a) : a.map (·.1) = o := by
  cases o with
  | none => cases h; rfl
  | some v =>
    obtain ⟨x, hx, rfl⟩ := Option.map_eq_some_iff.1 (show (renameVar f R v).map some = some a from h)
    rw [Option.map_some, renameVar_fst hx]

theorem renOpt2_fst {f : Fn} {R : Ren} {o : Option Nat} {a : Option Name} (h : renOpt2 f R o = some a) : a.map (·.1) = o := by
  cases o with
  | none => cases h; rfl
  | some v =>
    unfold renOpt2 at h
    simp only at h
    split at h
    · cases h; rfl
    · obtain ⟨x, hx, rfl⟩ := Option.map_eq_some_iff.1 h
      rw [Option.map_some, renameVar_fst hx]

theorem newOpt_fst (f : Fn) (R : Ren) (o : Option Nat) : (newOpt f R o).1.map (·.1) = o := by
  cases o with
  | none => rfl
  | some v =>
    simp only [newOpt, newName, Option.map_some]
    split <;> rfl

theorem strip_renIns {f : Fn} {i : Ins Nat} {R R1 : Ren} {j : Ins Name} (h : renIns f i R = some (j, R1)) : strip j = i := by
  obtain ⟨h1, h2, h3, _, h5, h6, h7⟩ := renIns_some h
  cases i
  unfold strip
  simp only at h1 h2 h3 h5 h6 h7 ⊢
  rw [renOpt_fst h1, renOpt2_fst h2, h3, newOpt_fst, h5, h6, h7]

theorem strip_renBody {f : Fn} : ∀ (is : List (Ins Nat)) {R R2 : Ren} {l : List (Ins Name)}, renBody f is R = some (l, R2) →
    l.map strip = is := by
  intro is
  induction is with
  | nil => intro R R2 l h; cases h; rfl
  | cons i is ih =>
    intro R R2 l h
    obtain ⟨j, R1, js, h1, h2, rfl⟩ := renBody_cons h
    rw [List.map_cons, ih h2, strip_renIns h1]

theorem weave_mem {l cs : List (Ins Name)} {i : Ins Name} : i ∈ weave l cs ↔ i ∈ l ∨ i ∈ cs := by
  rcases weave_cases l cs with ⟨a, k, h1, _, h2⟩ | h
  · rw [h2, h1]
    simp only [List.mem_append, List.mem_singleton]
    constructor
    · rintro ((h | h) | h)
      · exact .inl (.inl h)
      · exact .inr h
      · exact .inl (.inr h)
    · rintro ((h | h) | h)
      · exact .inl (.inl h)
      · exact .inr h
      · exact .inl (.inr h)
  · rw [h, List.mem_append]

/-- A branch or return that ends the code of the block also ends the block, with copies before it only if it is a branch. -/
theorem weave_ends {l cs : List (Ins Name)} (hl : ∀ xs i ys, l = xs ++ i :: ys → i.op = .branch ∨ i.op = .ret → ys = [])
    (hc : ∀ c ∈ cs, c.op = .unwound_phi) (hr : (∃ i ∈ l, i.op = .ret) → cs = []) {xs : List (Ins Name)} {i : Ins Name} {ys : List (Ins Name)}
    (h : weave l cs = xs ++ i :: ys) (ho : i.op = .branch ∨ i.op = .ret) : ys = [] ∧ ∃ zs, l = zs ++ [i] := by
  have hil : i ∈ l := by
    have : i ∈ weave l cs := by rw [h]; simp
    rcases weave_mem.1 this with h | h
    · exact h
    · rw [hc i h] at ho
      rcases ho with ho | ho <;> cases ho
  obtain ⟨zs, ws, e⟩ := List.append_of_mem hil
  have := hl zs i ws e ho
  subst this
  refine ⟨?_, zs, e⟩
  -- before the end there is no branch or return
  have inner : ∀ k ∈ zs, ¬ (k.op = .branch ∨ k.op = .ret) := by
    intro k hk hko
    obtain ⟨us, vs, rfl⟩ := List.append_of_mem hk
    have := hl us k (vs ++ [i]) (by rw [e]; simp) hko
    simp at this
  have key : ∀ (as : List (Ins Name)), (∀ k ∈ as, ¬ (k.op = .branch ∨ k.op = .ret)) → as ++ [i] = xs ++ i :: ys → ys = [] := by
    intro as ha hh
    rcases List.eq_nil_or_concat ys with rfl | ⟨us, k, rfl⟩
    · rfl
    · exfalso
      rw [List.concat_eq_append, show xs ++ i :: (us ++ [k]) = (xs ++ i :: us) ++ [k] by simp] at hh
      obtain ⟨h1, _⟩ := List.append_inj' hh rfl
      exact ha i (by rw [h1]; simp) ho
  rcases ho with ho | ho
  · have hw : weave l cs = zs ++ cs ++ [i] := by
      unfold weave
      rw [e, List.getLast?_append]
      simp [ho]
    rw [hw] at h
    refine key _ ?_ h
    intro k hk
    rcases List.mem_append.1 hk with hk | hk
    · exact inner k hk
    · rw [hc k hk]
      rintro (h | h) <;> cases h
  · rw [hr ⟨i, hil, ho⟩, weave_nil, e] at h
    exact key _ inner h

/-- The code of a function in SSA form, against the code it was made from. -/
structure Shape (f : Fn) (out : Nat → List (Ins Name)) : Prop where
  /-- renamed instructions of the block, and copies for the phis of a successor, which is not the exit -/
  code : ∀ b, ∃ ren cs, out b = weave ren cs ∧ (ren.map strip = f.code b ∨ ren = []) ∧
    ∀ c ∈ cs, c.op = .unwound_phi ∧ c.rd ≠ none ∧ ∃ x ∈ f.g.succs b, x ≠ f.g.exit
  /-- blocks that can be reached keep their code -/
  reached : ∀ b, Reach f.g.succs f.g.entry b → ∃ ren cs, out b = weave ren cs ∧ ren.map strip = f.code b ∧ ∀ c ∈ cs, c.op = .unwound_phi
  /-- a name that a declaration assigns is assigned nowhere else, and is not the name of a parameter -/
  declared : ∀ b, ∀ j ∈ out b, j.op = .allocat → ∀ v k, j.rd = some (v, k) → f.isGlobal v = false →
    k ≠ none ∧ (∀ p ∈ f.params, ((v, k) : Name) ≠ (p, some 0)) ∧ ∀ c, ∀ i ∈ out c, i.rd = some (v, k) → i.op = .allocat

theorem newOpt_local {f : Fn} {i : Ins Nat} {R R1 : Ren} {j : Ins Name} (h : renIns f i R = some (j, R1)) {v : Nat} {k : Option Nat}
    (hd : j.rd = some (v, k)) (hg : f.isGlobal v = false) : k ≠ none := by
  obtain ⟨_, _, h3, _⟩ := renIns_some h
  rw [h3] at hd
  cases hi : i.rd with
  | none => rw [hi] at hd; cases hd
  | some u =>
    rw [hi] at hd
    simp only [newOpt, newName, Option.some.injEq] at hd
    split at hd
    · rename_i hu
      cases hd
      rw [hu] at hg; cases hg
    · cases hd
      simp

theorem renBody_mem {f : Fn} : ∀ (is : List (Ins Nat)) {R R2 : Ren} {l : List (Ins Name)}, renBody f is R = some (l, R2) →
    ∀ j ∈ l, ∃ i ∈ is, ∃ R R1, renIns f i R = some (j, R1) := by
  intro is
  induction is with
  | nil => intro R R2 l h j hj; cases h; cases hj
  | cons i is ih =>
    intro R R2 l h j hj
    obtain ⟨j0, R1, js, h1, h2, rfl⟩ := renBody_cons h
    rcases List.mem_cons.1 hj with rfl | hj
    · exact ⟨i, List.mem_cons_self .., _, _, h1⟩
    · obtain ⟨i', h3, h4⟩ := ih h2 j hj
      exact ⟨i', List.mem_cons_of_mem _ h3, h4⟩

theorem count_two {l : List (Ins Name)} {d : Name} : ∀ {i j : Ins Name}, i ∈ l → j ∈ l → i.rd = some d → j.rd = some d → i.op ≠ j.op →
    2 ≤ (l.filterMap (·.rd)).count d := by
  induction l with
  | nil => intro i j hi; cases hi
  | cons a l ih =>
    intro i j hi hj hdi hdj hne
    have one : ∀ {x : Ins Name}, x ∈ l → x.rd = some d → 1 ≤ (l.filterMap (·.rd)).count d := by
      intro x hx hd
      exact List.count_pos_iff.2 (List.mem_filterMap.2 ⟨x, hx, hd⟩)
    rcases List.mem_cons.1 hi with rfl | hi' <;> rcases List.mem_cons.1 hj with rfl | hj'
    · exact absurd rfl hne
    · have := one hj' hdj
      rw [List.filterMap_cons, hdi]
      simp only
      rw [List.count_cons, if_pos (by simp)]
      omega
    · have := one hi' hdi
      rw [List.filterMap_cons, hdj]
      simp only
      rw [List.count_cons, if_pos (by simp)]
      omega
    · have := ih hi' hj' hdi hdj hne
      rw [List.filterMap_cons]
      cases a.rd with
      | none => exact this
      | some x =>
        simp only
        rw [List.count_cons]
        omega

theorem ssaBuild_shape {f : Fn} {n : Nat} {univ : List Nat} (hk : f.Linked) (he : f.g.entry ∈ univ)
    (hc : ∀ x ∈ univ, ∀ y ∈ f.g.succs x, y ∈ univ) (hn : 2 * univ.length + 2 ≤ n) (hg : ∀ p ∈ f.params, f.isGlobal p = false) {S : St}
    {out : Nat → List (Ins Name)} (h : ssaBuild f n = some (S, out)) : Shape f out := by
  obtain ⟨vis, post, rpo, l, idom, tr, df, h1, h2, h3, h4, h5, A⟩ := analysis_ok f.g univ n he hc hk.edges hk.entry hk.preds hn
  obtain ⟨phis, hphi, hS, hout⟩ := ssaBuild_some h h1 h2 h3 h4 h5
  simp only at hS hout
  subst hout
  have P := phiFacts hk A hphi
  obtain ⟨sub, E, Rin, Rphi, Rout, D⟩ := solve_ok n f.g.entry _ _ (pre_start P hg) hS (A.tree _)
  have U := unique_of_done A P D
  have hex : ∀ v, v ∉ phis f.g.exit := by
    intro v hv
    obtain ⟨g1, g2, _⟩ := insertPhis_ok _ _ (solveGlobals_ok f post [] List.nodup_nil).1 (fun _ _ _ h => by cases h) hphi
    have hin : v ∈ solveGlobals f post [] := by
      apply Classical.byContradiction
      intro hn
      rw [g2 v _ hn] at hv
      cases hv
    have := (g1 v hin).sound (fun b => allowed f v b = true) (fun _ _ _ _ h => h) _ hv
    unfold allowed at this
    simp at this
  have copies : ∀ b, ∀ c ∈ copiesTo b S.phi vis.reverse, c.op = .unwound_phi ∧
      ∃ x, Reach f.g.succs f.g.entry x ∧ x ∈ f.g.succs b ∧ x ≠ f.g.exit ∧ ∃ v ∈ phis x, c.rd = some (v, some (sub x v)) := by
    intro b c hc
    rw [mem_copiesTo] at hc
    obtain ⟨x, hx, p, hp, k, ho, rfl⟩ := hc
    rw [List.mem_reverse, A.visMem] at hx
    rw [phi_eq A D hx, List.mem_map] at hp
    obtain ⟨v, hv, rfl⟩ := hp
    obtain ⟨_, h2, _⟩ := D.opsSound x v hv (b, k) ho
    exact ⟨rfl, x, hx, h2, fun e => hex v (e ▸ hv), v, hv, rfl⟩
  have none : ∀ b, ¬ Reach f.g.succs f.g.entry b → S.code b = [] := fun b hb =>
    D.codeOut b fun hL => hb ((subtree_reach A D b).1 hL)
  refine ⟨fun b => ⟨S.code b, copiesTo b S.phi vis.reverse, unwind_ok _ _ _ _, ?_, ?_⟩, fun b hb => ⟨S.code b,
    copiesTo b S.phi vis.reverse, unwind_ok _ _ _ _, strip_renBody _ (D.body b ((subtree_reach A D b).2 hb)), fun c hc => (copies b c hc).1⟩, ?_⟩
  · by_cases hb : Reach f.g.succs f.g.entry b
    · exact .inl (strip_renBody _ (D.body b ((subtree_reach A D b).2 hb)))
    · exact .inr (none b hb)
  · intro c hc
    obtain ⟨h1, x, _, h2, h3, v, _, h4⟩ := copies b c hc
    exact ⟨h1, by rw [h4]; simp, x, h2, h3⟩
  · intro b j hj ho v k hd hgv
    rw [unwind_ok] at hj
    have hjc : j ∈ S.code b := by
      rcases weave_mem.1 hj with h | h
      · exact h
      · rw [(copies b j h).1] at ho; cases ho
    have hb : Reach f.g.succs f.g.entry b := by
      apply Classical.byContradiction
      intro hb
      rw [none b hb] at hjc
      cases hjc
    obtain ⟨i, _, R, R1, hr⟩ := renBody_mem _ (D.body b ((subtree_reach A D b).2 hb)) j hjc
    have hk0 := newOpt_local hr hd hgv
    obtain ⟨m, rfl⟩ := Option.ne_none_iff_exists'.1 hk0
    have hin : ((v, some m) : Name) ∈ assigned S b := by
      unfold assigned
      exact List.mem_append_right _ (List.mem_filterMap.2 ⟨j, hjc, hd⟩)
    refine ⟨hk0, ?_, ?_⟩
    · intro p hp e
      cases e
      have := U.param b hb v 0 hgv hin
      have := List.count_pos_iff.2 hp
      omega
    · intro c i hi hdi
      rw [unwind_ok] at hi
      rcases weave_mem.1 hi with hi | hi
      · have hc : Reach f.g.succs f.g.entry c := by
          apply Classical.byContradiction
          intro hc
          rw [none c hc] at hi
          cases hi
        have hin' : ((v, some m) : Name) ∈ assigned S c := by
          unfold assigned
          exact List.mem_append_right _ (List.mem_filterMap.2 ⟨i, hi, hdi⟩)
        have := U.block b c hb hc v m hgv hin hin'
        subst this
        apply Classical.byContradiction
        intro hno
        have h2 := count_two hi hjc hdi hd (by rw [ho]; exact hno)
        have h3 := U.once b hb v m hgv
        unfold assigned at h3
        rw [List.count_append] at h3
        omega
      · exfalso
        obtain ⟨_, x, hx, _, _, u, hu, hdu⟩ := copies c i hi
        rw [hdi] at hdu
        cases hdu
        have hin' : ((v, some (sub x v)) : Name) ∈ assigned S x := by
          unfold assigned
          refine List.mem_append_left _ ?_
          rw [phi_eq A D hx, List.map_map]
          exact List.mem_map.2 ⟨v, hu, rfl⟩
        have := U.block b x hb hx v _ hgv hin hin'
        subst this
        have h3 := U.once b hb v (sub b v) hgv
        unfold assigned at h3 hin'
        rw [List.count_append] at h3
        have h4 : 0 < ((S.code b).filterMap (·.rd)).count (v, some (sub b v)) :=
          List.count_pos_iff.2 (List.mem_filterMap.2 ⟨j, hjc, hd⟩)
        have h5 : 0 < ((S.phi b).map (fun p => ((p.var, p.sub) : Name))).count (v, some (sub b v)) := by
          refine List.count_pos_iff.2 ?_
          rw [phi_eq A D hx, List.map_map]
          exact List.mem_map.2 ⟨v, hu, rfl⟩
        omega

end Shecc.SsaBuild
