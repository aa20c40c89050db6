import Verif.Lemmas.RenameMain

/-!
# Lemmas: the construction of SSA form succeeds when variables are declared before use
-/

namespace Shecc.SsaBuild
open Shecc.Cfg CGraph CRename

theorem renBody_some {f : Fn} : ∀ (is : List (Ins Nat)) (R : Ren),
    (∀ xs i ys v, is = xs ++ i :: ys → f.isGlobal v = false → (i.rs1 = some v ∨ i.rs2 = some v ∧ f.isFunc v = false) →
      R.stack v ≠ [] ∨ Assigns v xs) → ∃ r, renBody f is R = some r := by
  intro is
  induction is with
  | nil => intro R _; exact ⟨_, rfl⟩
  | cons i is ih =>
    intro R h
    have hv : ∀ v, (i.rs1 = some v ∨ i.rs2 = some v ∧ f.isFunc v = false) → ∃ x, renameVar f R v = some x := by
      intro v hv
      unfold renameVar
      by_cases hg : f.isGlobal v = true
      · rw [if_pos hg]; exact ⟨_, rfl⟩
      · rw [if_neg hg]
        rcases h [] i is v rfl (by simpa using hg) hv with h | ⟨x, hx, _⟩
        · cases hs : R.stack v with
          | nil => exact absurd hs h
          | cons k t => exact ⟨_, rfl⟩
        · cases hx
    have h1 : ∃ a, renOpt f R i.rs1 = some a := by
      unfold renOpt
      cases hr : i.rs1 with
      | none => exact ⟨_, rfl⟩
      | some v => obtain ⟨x, hx⟩ := hv v (Or.inl hr); simp only [hx]; exact ⟨_, rfl⟩
    have h2 : ∃ a, renOpt2 f R i.rs2 = some a := by
      unfold renOpt2
      cases hr : i.rs2 with
      | none => exact ⟨_, rfl⟩
      | some v =>
        simp only
        by_cases hf : f.isFunc v = true
        · rw [if_pos hf]; exact ⟨_, rfl⟩
        · obtain ⟨x, hx⟩ := hv v (Or.inr ⟨hr, by simpa using hf⟩)
          rw [if_neg hf, hx]; exact ⟨_, rfl⟩
    obtain ⟨a, ha⟩ := h1
    obtain ⟨b, hb⟩ := h2
    have hi : renIns f i R = some ({ op := i.op, rd := (newOpt f R i.rd).1, rs1 := a, rs2 := b, sz := i.sz, str := i.str },
        (newOpt f R i.rd).2) := by
      unfold renIns; rw [ha, hb]
    obtain ⟨⟨js, R2⟩, hr⟩ := ih (newOpt f R i.rd).2 (by
      intro xs j ys v hs hg hu
      rcases h (i :: xs) j ys v (by rw [hs]; rfl) hg hu with h | ⟨x, hx, hd⟩
      · left
        unfold newOpt
        cases hr : i.rd with
        | none => exact h
        | some d =>
          simp only
          unfold newName
          split
          · exact h
          · simp only [Ren.push, upd]
            split
            · simp
            · exact h
      · rcases List.mem_cons.1 hx with rfl | hx
        · left
          rw [hd]
          simp [newOpt, newName, hg, Ren.push, upd]
        · exact Or.inr ⟨x, hx, hd⟩)
    unfold renBody
    rw [hi]
    simp only
    rw [hr]
    exact ⟨_, rfl⟩

theorem scanBlock_sound (v : Nat) : ∀ (is : List (Ins Nat)) (kill gl : List Nat), v ∈ scanBlock is kill gl →
    v ∈ gl ∨ (v ∉ kill ∧ ReadsFirst v is) := by
  intro is
  induction is with
  | nil => intro kill gl h; exact Or.inl h
  | cons i is ih =>
    intro kill gl h
    unfold scanBlock at h
    rcases ih _ _ h with h | ⟨h1, xs, j, ys, h2, h3, h4⟩
    · rcases mem_addGl.1 h with h | ⟨h1, h2⟩
      · rcases mem_addGl.1 h with h | ⟨h1, h2⟩
        · exact Or.inl h
        · exact Or.inr ⟨h2, [], i, is, rfl, Or.inl h1, by simp⟩
      · exact Or.inr ⟨h2, [], i, is, rfl, Or.inr h1, by simp⟩
    · right
      simp only [List.mem_append, not_or] at h1
      refine ⟨h1.1, i :: xs, j, ys, by rw [h2]; rfl, h3, ?_⟩
      intro x hx
      rcases List.mem_cons.1 hx with rfl | hx
      · intro e; exact h1.2 (by rw [e]; simp)
      · exact h4 x hx

theorem solveGlobals_sound (f : Fn) (v : Nat) : ∀ (bs gl : List Nat), v ∈ solveGlobals f bs gl →
    v ∈ gl ∨ ∃ c ∈ bs, ReadsFirst v (f.code c) := by
  intro bs
  induction bs with
  | nil => intro gl h; exact Or.inl h
  | cons b bs ih =>
    intro gl h
    rcases ih _ h with h | ⟨c, hc, h⟩
    · rcases scanBlock_sound v _ _ _ h with h | ⟨_, h⟩
      · exact Or.inl h
      · exact Or.inr ⟨b, List.mem_cons_self .., h⟩
    · exact Or.inr ⟨c, List.mem_cons_of_mem _ hc, h⟩

theorem addOps_some {b : Nat} {R : Ren} : ∀ (ps : List Phi), (∀ p ∈ ps, R.stack p.var ≠ []) → ∃ qs, addOps b R ps = some qs := by
  intro ps
  induction ps with
  | nil => intro _; exact ⟨_, rfl⟩
  | cons p ps ih =>
    intro h
    obtain ⟨qs, hq⟩ := ih (fun q hq => h q (List.mem_cons_of_mem _ hq))
    unfold addOps
    rw [hq]
    cases hs : R.stack p.var with
    | nil => exact absurd hs (h p (List.mem_cons_self ..))
    | cons k t => exact ⟨_, rfl⟩

theorem addOpsAll_some {b : Nat} {R : Ren} : ∀ (cs : List Nat) (phi : Nat → List Phi),
    (∀ c ∈ cs, ∀ v ∈ (phi c).map (·.var), R.stack v ≠ []) → ∃ phi', addOpsAll b R cs phi = some phi' := by
  intro cs
  induction cs with
  | nil => intro phi _; exact ⟨_, rfl⟩
  | cons c cs ih =>
    intro phi h
    obtain ⟨qs, hq⟩ := addOps_some (b := b) (R := R) (phi c)
      (fun p hp => h c (List.mem_cons_self ..) p.var (List.mem_map_of_mem hp))
    unfold addOpsAll
    rw [hq]
    refine ih (upd phi c qs) ?_
    intro d hd v hv
    unfold upd at hv
    by_cases e : d = c
    · rw [if_pos e, (addOps_ok _ hq).1, List.map_map] at hv
      subst e
      exact h d (List.mem_cons_self ..) v hv
    · rw [if_neg e] at hv
      exact h d (List.mem_cons_of_mem _ hd) v hv

section
variable {f : Fn} {n0 : Nat} {vis post : List Nat} {rpo : Nat → Nat} {l : List Nat} {idom : Nat → Option Nat} {t : Tree}
  {df : List (Nat × Nat)} (A : Analysis f.g n0 vis post rpo l idom t df) {phis : Nat → List Nat} {univ : List Nat}
  (hu : ∀ x, Reach f.g.succs f.g.entry x → x ∈ univ) (hd : f.Declared)
  (hphi : ∀ b v, v ∈ phis b → f.isGlobal v = false ∧ f.Wanted v b ∧
    ∃ c, Reach f.g.succs f.g.entry c ∧ ReadsFirst v (f.code c))

include A hu hd hphi in
theorem solve_some : ∀ (n b : Nat) (S : St) (anc : List Nat), Pre f phis S → Reach f.g.succs f.g.entry b →
    (subtree t.next n b).Nodup →
    (∀ a ∈ anc, SDom f.g.succs f.g.entry a b) → anc.Nodup → univ.length ≤ anc.length + n →
    (∀ v ∈ f.params, S.ren.stack v ≠ []) →
    (∀ a v, SDom f.g.succs f.g.entry a b → f.isGlobal v = false → Assigns v (f.code a) → S.ren.stack v ≠ []) →
    ∃ S', solve f t.next n b S = some S' := by
  intro n
  have domReach : ∀ x q, Reach f.g.succs f.g.entry q → Dom f.g.succs f.g.entry x q → Reach f.g.succs f.g.entry x := by
    rintro x q ⟨p, hp⟩ hd
    obtain ⟨p', hp', _⟩ := path_prefix hp (hd p hp)
    exact ⟨p', hp'⟩
  induction n with
  | zero =>
    intro b S anc _ hb _ ha hn hl _ _
    exfalso
    have hn' : (b :: anc).Nodup := List.nodup_cons.2 ⟨fun h => (ha b h).2 rfl, hn⟩
    have := Cfg.nodup_length_le (l := univ) hn' (by
      intro x hx
      rcases List.mem_cons.1 hx with rfl | hx
      · exact hu x hb
      · exact hu x (domReach x b hb (ha x hx).1))
    simp only [List.length_cons] at this
    omega
  | succ n ih =>
    intro b S anc P hb hnd ha hn hl hpar hst
    obtain ⟨p1, p2, p3⟩ := renPhis_ok (S.phi b) S.ren (by rw [P.vars]; exact P.nodup b)
      (fun p hp => P.nonglobal b p.var (by rw [← P.vars b]; exact List.mem_map_of_mem hp))
    rw [P.vars b] at p2 p3
    have hR0ok : (renPhis f (S.phi b) S.ren).2.Ok := renPhis_Ok _ P.ok
    have keep0 : ∀ v, S.ren.stack v ≠ [] → (renPhis f (S.phi b) S.ren).2.stack v ≠ [] := by
      intro v hv
      rw [p3 v]
      split
      · simp
      · exact hv
    obtain ⟨⟨js, R⟩, hr⟩ := renBody_some (f := f) (f.code b) (renPhis f (S.phi b) S.ren).2 (by
      intro xs i ys v hs hg hv
      rcases hd.use b v xs i ys hb hg hs hv with h | h | ⟨a, h1, h2⟩
      · exact Or.inl (keep0 v (hpar v h))
      · exact Or.inr h
      · exact Or.inl (keep0 v (hst a v h1 hg h2)))
    have hRs := renBody_stack _ hr
    obtain ⟨hRok, hRle⟩ := renBody_mono _ hr hR0ok
    have keep1 : ∀ v, (renPhis f (S.phi b) S.ren).2.stack v ≠ [] → R.stack v ≠ [] := by
      intro v hv
      cases hg : f.isGlobal v with
      | true => rw [((hRs v).2 hg).2]; exact hv
      | false =>
        obtain ⟨_, xs, h, _⟩ := (hRs v).1 hg
        rw [h]
        intro e
        exact hv (List.append_eq_nil_iff.1 e).2
    have new1 : ∀ v, f.isGlobal v = false → Assigns v (f.code b) → R.stack v ≠ [] := by
      intro v hg ⟨i, hi, hrd⟩
      obtain ⟨_, xs, h, hlen⟩ := (hRs v).1 hg
      have : 0 < ((f.code b).filterMap (·.rd)).count v := List.count_pos_iff.2 (List.mem_filterMap.2 ⟨i, hi, hrd⟩)
      rw [h]
      intro e
      rw [(List.append_eq_nil_iff.1 e).1] at hlen
      simp at hlen
      omega
    have hvars : ∀ x, ((upd S.phi b (renPhis f (S.phi b) S.ren).1) x).map (·.var) = phis x := by
      intro x
      unfold upd
      split
      · rename_i e; subst e; rw [p1, List.map_map, ← P.vars x]; rfl
      · exact P.vars x
    obtain ⟨phi1, hadd⟩ := addOpsAll_some (b := b) (R := R) (f.g.succs b) (upd S.phi b (renPhis f (S.phi b) S.ren).1) (by
      intro c hc v hv
      rw [hvars] at hv
      obtain ⟨hg, hw, hrf⟩ := hphi c v hv
      rcases hd.phi c v b hb hc hg hw hrf with h | ⟨a, h1, h2⟩
      · exact keep1 v (keep0 v (hpar v h))
      · by_cases e : a = b
        · subst e; exact new1 v hg h2
        · exact keep1 v (keep0 v (hst a v ⟨h1, e⟩ hg h2)))
    obtain ⟨a1, a2⟩ := addOpsAll_ok _ hadd
    have P1 : Pre f phis ⟨R, phi1, upd S.code b js⟩ := by
      refine ⟨fun x => ?_, P.nodup, P.nonglobal, hRok, fun v hv => ?_⟩
      · show (phi1 x).map _ = _
        rw [a1 x, List.map_map, ← hvars x]
        rfl
      · show R.stack v = []
        rw [((hRs v).2 hv).2, p3 v, if_neg (fun hm => by have := P.nonglobal b v hm; rw [hv] at this; cases this)]
        exact P.glob v hv
    rw [subtree, List.nodup_cons] at hnd
    have all : ∀ (cs : List Nat) (S1 : St), (∀ c ∈ cs, c ∈ t.next b) → (cs.flatMap (subtree t.next n)).Nodup → Pre f phis S1 →
        S1.ren.stack = R.stack → ∃ S', solveAll (solve f t.next n) cs S1 = some S' := by
      intro cs
      induction cs with
      | nil => intro S1 _ _ _ _; exact ⟨_, rfl⟩
      | cons c cs ihc =>
        intro S1 hcs hnc PS1 hren
        have hck := hcs c (List.mem_cons_self ..)
        have hci := A.kidsIdom b c hck
        rw [List.flatMap_cons] at hnc
        obtain ⟨hn1, hn2, _⟩ := List.nodup_append.1 hnc
        have hcase : ∀ a, SDom f.g.succs f.g.entry a c → a = b ∨ SDom f.g.succs f.g.entry a b := by
          intro a hac
          by_cases e : a = b
          · exact Or.inl e
          · exact Or.inr ⟨hci.2 a hac, e⟩
        obtain ⟨S2, hS2⟩ := ih c S1 (b :: anc) PS1 (A.kidsReach b c hck) hn1
          (by
            intro a ham
            rcases List.mem_cons.1 ham with rfl | ham
            · exact hci.1
            · have h1 := ha a ham
              refine ⟨dom_trans h1.1 hci.1.1, ?_⟩
              rintro rfl
              exact sdom_antisymm hci.1 h1.1 (A.kidsReach b _ hck))
          (List.nodup_cons.2 ⟨fun h => (ha b h).2 rfl, hn⟩) (by simp only [List.length_cons]; omega)
          (by
            intro v hv
            rw [hren]
            exact keep1 v (keep0 v (hpar v hv)))
          (by
            intro a v hac hg has
            rw [hren]
            rcases hcase a hac with rfl | h
            · exact new1 v hg has
            · exact keep1 v (keep0 v (hst a v h hg has)))
        obtain ⟨sub, E, Rin, Rphi, Rout, D⟩ := solve_ok n c S1 S2 PS1 hS2 hn1
        have PS2 : Pre f phis S2 := ⟨D.vars PS1.vars, PS1.nodup, PS1.nonglobal, D.Ok PS1.glob PS1.ok, fun v hv => by rw [D.stack, PS1.glob v hv]⟩
        unfold solveAll
        rw [hS2]
        exact ihc S2 (fun c hc => hcs c (List.mem_cons_of_mem _ hc)) hn2 PS2 (by rw [← hren]; funext v; exact D.stack v)
    obtain ⟨S2, hS2⟩ := all (t.next b) ⟨R, phi1, upd S.code b js⟩ (fun _ h => h) hnd.2 P1 rfl
    unfold solve
    simp only
    rw [hr]
    simp only
    rw [hadd]
    simp only
    rw [hS2]
    exact ⟨_, rfl⟩

end

theorem ssaBuild_succeeds {f : Fn} {n : Nat} {univ : List Nat} (hk : f.Linked) (he : f.g.entry ∈ univ)
    (hc : ∀ x ∈ univ, ∀ y ∈ f.g.succs x, y ∈ univ) (hn : 2 * univ.length + 2 ≤ n) (hg : ∀ p ∈ f.params, f.isGlobal p = false)
    (hd : f.Declared) : ∃ r, ssaBuild f n = some r := by
  obtain ⟨vis, post, rpo, l, idom, t, df, h1, h2, h3, h4, h5, A⟩ := analysis_ok f.g univ n he hc hk.edges hk.entry hk.preds hn
  have hu : ∀ x, Reach f.g.succs f.g.entry x → x ∈ univ := by
    have key : ∀ a m y, Path f.g.succs a m y → a ∈ univ → y ∈ univ := by
      intro a m y h
      induction h with
      | nil => exact fun h => h
      | cons h _ ih => exact fun ha => ih (hc _ ha _ h)
    rintro x ⟨m, hm⟩
    exact key _ _ _ hm he
  obtain ⟨phis, hp⟩ := insertPhis_some (f := f) (df := frontier df) (order := post) (n := n) (univ := univ)
    (fun q b hb => hu b ((A.dfMem q b).1 (mem_frontier.1 hb)).1) A.postNodup (fun q hq => hu q ((A.postMem q).1 hq)) (by omega)
    (solveGlobals f post []) (fun _ => [])
  have P := phiFacts hk A hp
  have domReach : ∀ x q, Reach f.g.succs f.g.entry q → Dom f.g.succs f.g.entry x q → Reach f.g.succs f.g.entry x := by
    rintro x q ⟨p, hp⟩ hd
    obtain ⟨p', hp', _⟩ := path_prefix hp (hd p hp)
    exact ⟨p', hp'⟩
  have hw : ∀ b v, v ∈ phis b → f.isGlobal v = false ∧ f.Wanted v b ∧
      ∃ c, Reach f.g.succs f.g.entry c ∧ ReadsFirst v (f.code c) := by
    intro b v hv
    refine ⟨P.nonglobal b v hv, ?_⟩
    obtain ⟨g1, g2, _⟩ := insertPhis_ok _ _ (solveGlobals_ok f post [] List.nodup_nil).1 (fun _ _ _ h => by cases h) hp
    have hin : v ∈ solveGlobals f post [] := by
      apply Classical.byContradiction
      intro hn
      rw [g2 v b hn] at hv
      cases hv
    have hrf : ∃ c, Reach f.g.succs f.g.entry c ∧ ReadsFirst v (f.code c) := by
      rcases solveGlobals_sound f v post [] hin with h | ⟨c, hc, h⟩
      · cases h
      · exact ⟨c, (A.postMem c).1 hc, h⟩
    refine ⟨(g1 v hin).sound (fun b => f.Wanted v b) ?_ b hv, hrf⟩
    intro q b hq hb ha
    have h2 := (A.dfMem q b).1 (mem_frontier.1 hb)
    obtain ⟨p, _, hpr, hpd⟩ := h2.2.1
    unfold allowed at ha
    simp only [Bool.and_eq_true, Bool.not_eq_true', beq_eq_false_iff_ne] at ha
    have hm : f.Meets q b := ⟨domReach q p hpr hpd, h2.1, h2.2⟩
    rcases hq with hq | ⟨_, hq⟩
    · exact .assigned (mem_refBlocks.1 hq).2 hm ha.1.1.1 ha.1.1.2 ha.1.2
    · exact .phi hq hm ha.1.1.1 ha.1.1.2 ha.1.2
  obtain ⟨S, hS⟩ := solve_some A hu hd hw n f.g.entry _ [] (pre_start P hg) ⟨_, .nil _⟩ (A.tree _) (by simp) List.nodup_nil
    (by simp; omega)
    (by
      intro v hv
      have h2 := (pushAll_ok f.params ⟨fun _ => 0, fun _ => []⟩ v).2.1
      have := List.count_pos_iff.2 hv
      show (startRen f).stack v ≠ []
      unfold startRen
      intro e
      rw [e] at h2
      simp at h2
      omega)
    (by
      intro a v hs
      exact absurd (by simpa using hs.1 _ (.nil _)) hs.2)
  have hS' : solveParams f t.next n phis = some S := hS
  unfold ssaBuild
  rw [h1, h2]
  simp only
  rw [h3]
  simp only
  rw [h4, h5]
  simp only
  rw [hp]
  simp only
  rw [hS']
  exact ⟨_, rfl⟩

end Shecc.SsaBuild
