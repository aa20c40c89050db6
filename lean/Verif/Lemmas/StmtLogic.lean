import Verif.Lemmas.StmtBase

/-! # The blocks for `&&` and `||` -/

namespace Shecc.Stmt
open Shecc.Cfg
open CRename (Ins Mach Home run)
open CStmt

variable {M : Mach} {H : Home Nat}

theorem readLogical_ok (op : LogOp) {s : PS} {bb shared v : Nat} (hf : Fresh s) (hb : bb < s.n) (ho : Open s bb) :
    ∃ s', readLogical op shared v s (some bb) = some (s', some s.n) ∧ Post [bb] s s' ∧ s'.n = s.n + 1 ∧ Open s' s.n ∧
      s'.code s.n = [] ∧ (s'.block s.n).prev ≠ [] ∧
      ∀ F, Le s' F → ∀ σ : S M, Go M H F ⟨bb, (s.code bb).length, σ⟩
        ⟨if truth M H σ v = decide (op = .and) then s.n else shared, 0, σ⟩ := by
  cases op
  · refine ⟨(((s.link bb shared .else_).emit (some bb) [branchIns v]).create).link bb s.n .then_, rfl, ?_, rfl, ?_, ?_, ?_, ?_⟩
    · have h1 : ¬ Frozen (s.link bb shared .else_) bb := by
        intro k
        rcases k with k | k
        · exact k (by rw [link_next_ne _ _ _ (.inr (by simp))]; exact ho.next)
        · exact k.1 (by rw [link_then_ne _ _ _ (.inr (by simp))]; exact ho.then_)
      refine Post.link (Post.create (Post.emit (Post.link (Post.nil s) hb (ho.ptr _) (by simp) (hx := nonext ho.next)) hb h1 ho.clean (Tail.single _) (by simp))) (by simp; omega) ?_ (by simp) (hx := nonext ho.next)
      show ((s.link bb shared .else_).block bb).then_ = none
      rw [link_then_ne _ _ _ (.inr (by simp))]; exact ho.then_
    · have h := (hf s.n (Nat.le_refl _)).2
      have hne : s.n ≠ bb := by omega
      refine Open.same h ?_
      refine (link_same s shared .else_ hne).trans ?_
      refine Same.trans (t := ((s.link bb shared .else_).emit (some bb) [branchIns v]).create) ?_ (link_same _ _ _ hne)
      exact ⟨emit_code_ne _ _ hne, rfl, rfl, rfl⟩
    · show ((s.link bb shared .else_).emit (some bb) [branchIns v]).code s.n = []
      rw [emit_code_ne _ _ (by omega)]
      exact (hf s.n (Nat.le_refl _)).1
    · exact link_prev_ne _ _ _ _
    · intro F hF σ
      have := hF.branch (M := M) (H := H) (b := bb) (x := s.n) (y := shared) (v := v) (pre := s.code bb) (by simp) (by simp) (by
        rw [link_else_ne _ _ _ (.inr (by simp))]
        simp) σ
      simpa using this
  · refine ⟨(((s.link bb shared .then_).emit (some bb) [branchIns v]).create).link bb s.n .else_, rfl, ?_, rfl, ?_, ?_, ?_, ?_⟩
    · have h1 : ¬ Frozen (s.link bb shared .then_) bb := by
        intro k
        rcases k with k | k
        · exact k (by rw [link_next_ne _ _ _ (.inr (by simp))]; exact ho.next)
        · exact k.2 (by rw [link_else_ne _ _ _ (.inr (by simp))]; exact ho.else_)
      refine Post.link (Post.create (Post.emit (Post.link (Post.nil s) hb (ho.ptr _) (by simp) (hx := nonext ho.next)) hb h1 ho.clean (Tail.single _) (by simp))) (by simp; omega) ?_ (by simp) (hx := nonext ho.next)
      show ((s.link bb shared .then_).block bb).else_ = none
      rw [link_else_ne _ _ _ (.inr (by simp))]; exact ho.else_
    · have h := (hf s.n (Nat.le_refl _)).2
      have hne : s.n ≠ bb := by omega
      refine Open.same h ?_
      refine (link_same s shared .then_ hne).trans ?_
      refine Same.trans (t := ((s.link bb shared .then_).emit (some bb) [branchIns v]).create) ?_ (link_same _ _ _ hne)
      exact ⟨emit_code_ne _ _ hne, rfl, rfl, rfl⟩
    · show ((s.link bb shared .then_).emit (some bb) [branchIns v]).code s.n = []
      rw [emit_code_ne _ _ (by omega)]
      exact (hf s.n (Nat.le_refl _)).1
    · exact link_prev_ne _ _ _ _
    · intro F hF σ
      have := hF.branch (M := M) (H := H) (b := bb) (x := shared) (y := s.n) (v := v) (pre := s.code bb) (by simp) (by
        rw [link_then_ne _ _ _ (.inr (by simp))]
        simp) (by simp) σ
      cases h : truth M H σ v <;> simpa [h] using this

/-- A block that sets a truth value and goes on. -/
theorem Le.setGo {s F : PS} (h : Le s F) {b e : Nat} {t : Tmp} {x : Bool} (hc : s.code b = setBool t x)
    (hn : (s.block b).next = some e) {σ σ' : S M} (hr : run M H (setBool t x) σ = some σ') :
    Go M H F ⟨b, 0, σ⟩ ⟨e, 0, σ'⟩ :=
  (h.steps (pre := []) (is := setBool t x) (by simpa using hc) (setBool_noBranch t x) hr).trans (h.jump hn σ')

/-- The four connections made at the end of a logical operation: `b` branches to `x` and `y`, which go on to `e`. -/
theorem diamond_ok {s : PS} {b x y e : Nat} {cx cy : List (Ins Nat)} {v : Nat} (hb : b < s.n) (hx : x < s.n) (hy : y < s.n)
    (hbx : b ≠ x) (hby : b ≠ y) (hxy : x ≠ y) (ob : Open s b) (ox : Open s x) (oy : Open s y) (kx : Clean cx) (ky : Clean cy)
    {s' : PS} (hs' : s' = (((((((s.emit (some b) [branchIns v]).emit (some x) cx).emit (some y) cy).link b x .then_).link b y .else_).link x e .next).link y e .next)) :
    Post [b, x, y] s s' ∧ s'.n = s.n ∧ s'.code b = s.code b ++ [branchIns v] ∧ s'.code x = s.code x ++ cx ∧ s'.code y = s.code y ++ cy ∧
      (s'.block b).then_ = some x ∧ (s'.block b).else_ = some y ∧ (s'.block x).next = some e ∧ (s'.block y).next = some e ∧
      (s'.block e).prev ≠ [] := by
  subst hs'
  refine ⟨?_, rfl, ?_, ?_, ?_, ?_, ?_, ?_, ?_, link_prev_ne _ _ _ _⟩
  · have ox1 : Open (s.emit (some b) [branchIns v]) x := ox.emit _ _ (.inl (by simpa using hbx))
    have oy1 : Open ((s.emit (some b) [branchIns v]).emit (some x) cx) y :=
      (oy.emit _ _ (.inl (by simpa using hby))).emit _ _ (.inl (by simpa using hxy))
    refine Post.link (Post.link (Post.link (Post.link (Post.emit (Post.emit (Post.emit (Post.nil s) hb ob.notFrozen ob.clean
      (Tail.single _) (by simp)) hx ox1.notFrozen ox1.clean kx.tail (by simp)) hy oy1.notFrozen oy1.clean ky.tail (by simp)) hb
      (ob.ptr .then_) (by simp) (hx := nonext ob.next)) hb ?_ (by simp) (hx := nonext ob.next)) hx ?_ (by simp) ?_) hy ?_ (by simp) ?_
    · show Block.else_ _ = none
      rw [link_else_ne _ _ _ (.inr (by simp))]; exact ob.else_
    · show Block.next _ = none
      rw [link_next_ne _ _ _ (.inr (by simp)), link_next_ne _ _ _ (.inr (by simp))]; exact ox.next
    · intro _
      have : (((s.emit (some b) [branchIns v]).emit (some x) cx).emit (some y) cy).code x = s.code x ++ cx := by
        simp [emit_code, hbx.symm, hxy]
      show Clean ((((s.emit (some b) [branchIns v]).emit (some x) cx).emit (some y) cy).code x)
      rw [this]
      exact ox.clean.append kx
    · show Block.next _ = none
      rw [link_next_ne _ _ _ (.inl hxy.symm), link_next_ne _ _ _ (.inr (by simp)), link_next_ne _ _ _ (.inr (by simp))]; exact oy.next
    · intro _
      have : (((s.emit (some b) [branchIns v]).emit (some x) cx).emit (some y) cy).code y = s.code y ++ cy := by
        simp [emit_code, hby.symm, hxy.symm]
      show Clean ((((s.emit (some b) [branchIns v]).emit (some x) cx).emit (some y) cy).code y)
      rw [this]
      exact oy.clean.append ky
  · simp [emit_code, hbx, hby]
  · simp [emit_code, hbx.symm, hxy]
  · simp [emit_code, hby.symm, hxy.symm]
  · rw [link_then_ne _ _ _ (.inr (by simp)), link_then_ne _ _ _ (.inr (by simp)), link_then_ne _ _ _ (.inr (by simp))]; simp
  · rw [link_else_ne _ _ _ (.inr (by simp)), link_else_ne _ _ _ (.inr (by simp))]; simp
  · rw [link_next_ne _ _ _ (.inl hxy)]; simp
  · simp

theorem finalize_ok (op : LogOp) {s : PS} {b shared v : Nat} {t : Tmp} (hf : Fresh s) (hb : b < s.n) (ho : Open s b)
    (hsh : shared < s.n) (osh : Open s shared) (csh : s.code shared = []) (hne : shared ≠ b) :
    ∃ s', finalize op shared t v s (some b) = some (s', some s.n) ∧ Post [b, shared] s s' ∧ s'.n = s.n + 2 ∧ Open s' s.n ∧
      s'.code s.n = [] ∧ (s'.block s.n).prev ≠ [] ∧
      ∀ F, Le s' F →
        (∀ σ σ' : S M, run M H (setBool t (decide (op = .or))) σ = some σ' → Go M H F ⟨shared, 0, σ⟩ ⟨s.n, 0, σ'⟩) ∧
        (∀ σ σ' : S M, run M H (setBool t (truth M H σ v)) σ = some σ' →
          Go M H F ⟨b, (s.code b).length, σ⟩ ⟨s.n, 0, σ'⟩) := by
  have hf2 : Fresh s.create.create := (post_create _).fresh ((post_create _).fresh hf)
  have hpc : Post [b, shared] s s.create.create :=
    ((post_create s).mono (W := [b, shared]) (by simp)).trans (post_create _) (by simp)
  have oe : Open s.create.create s.n := (hf s.n (Nat.le_refl _)).2.create.create
  have ox : Open s.create.create (s.n + 1) := (hf (s.n + 1) (Nat.le_succ _)).2.create.create
  have ce : s.create.create.code s.n = [] := (hf s.n (Nat.le_refl _)).1
  have cx : s.create.create.code (s.n + 1) = [] := (hf (s.n + 1) (Nat.le_succ _)).1
  cases op
  · obtain ⟨p, pn, c1, c2, c3, t1, e1, n1, n2, pe⟩ := diamond_ok (s := s.create.create) (b := b) (x := s.n + 1) (y := shared) (e := s.n)
      (cx := setBool t true) (cy := setBool t false) (v := v) (by simp; omega) (by simp) (by simp; omega) (by omega)
      hne.symm (by omega) ho.create.create ox osh.create.create (setBool_clean _ _) (setBool_clean _ _) rfl
    refine ⟨_, rfl, ?_, rfl, ?_, ?_, pe, ?_⟩
    · exact hpc.trans (W := [b, s.n + 1, shared]) p (by
        intro c hc
        simp at hc
        rcases hc with rfl | rfl | rfl
        · simp
        · right; omega
        · simp)
    · exact oe.same (p.same s.n (by simp; omega) (by simp; omega))
    · exact ((p.same s.n (by simp; omega) (by simp; omega)).code).trans ce
    · intro F hF
      have hF' := hF
      have c2' := c2
      have c3' := c3
      rw [show s.create.create.code (s.n + 1) = [] from cx, List.nil_append] at c2'
      rw [show s.create.create.code shared = [] from csh, List.nil_append] at c3'
      have hsh' : ∀ σ σ' : S M, run M H (setBool t false) σ = some σ' → Go M H F ⟨shared, 0, σ⟩ ⟨s.n, 0, σ'⟩ :=
        fun σ σ' hr => Le.setGo hF c3' n2 hr
      refine ⟨hsh', ?_⟩
      intro σ σ' hr
      have hg := hF.branch (M := M) (H := H) (pre := s.code b) c1 t1 e1 σ
      cases ht : truth M H σ v
      · rw [ht] at hr hg
        exact hg.trans (hsh' σ σ' hr)
      · rw [ht] at hr hg
        exact hg.trans (Le.setGo hF c2' n1 hr)
  · obtain ⟨p, pn, c1, c2, c3, t1, e1, n1, n2, pe⟩ := diamond_ok (s := s.create.create) (b := b) (x := shared) (y := s.n + 1) (e := s.n)
      (cx := setBool t true) (cy := setBool t false) (v := v) (by simp; omega) (by simp; omega) (by simp) hne.symm
      (by omega) (by omega) ho.create.create osh.create.create ox (setBool_clean _ _) (setBool_clean _ _) rfl
    have heq : finalize .or shared t v s (some b) = some ((((((((s.create.create.emit (some b) [branchIns v]).emit (some shared) (setBool t true)).emit (some (s.n + 1)) (setBool t false)).link b shared .then_).link b (s.n + 1) .else_).link shared s.n .next).link (s.n + 1) s.n .next), some s.n) := by
      have hc : ∀ u : PS, (u.emit (some (s.n + 1)) (setBool t false)).emit (some shared) (setBool t true) =
          (u.emit (some shared) (setBool t true)).emit (some (s.n + 1)) (setBool t false) := by
        intro u
        have : ∀ f : Nat → List (Ins Nat), upd (upd f (s.n + 1) (f (s.n + 1) ++ setBool t false)) shared
            (upd f (s.n + 1) (f (s.n + 1) ++ setBool t false) shared ++ setBool t true) =
            upd (upd f shared (f shared ++ setBool t true)) (s.n + 1)
            (upd f shared (f shared ++ setBool t true) (s.n + 1) ++ setBool t false) := by
          intro f
          have h1 : shared ≠ s.n + 1 := by omega
          funext c
          by_cases a1 : c = shared
          · subst a1; simp [upd, h1]
          · by_cases a2 : c = s.n + 1 <;> simp [upd, a1, a2, h1.symm]
        exact congrArg (fun f => ({ u with code := f } : PS)) (this u.code)
      rw [← hc]
      rfl
    refine ⟨_, heq, ?_, rfl, ?_, ?_, pe, ?_⟩
    · exact hpc.trans (W := [b, shared, s.n + 1]) p (by
        intro c hc
        simp at hc
        rcases hc with rfl | rfl | rfl
        · simp
        · simp
        · right; omega)
    · exact oe.same (p.same s.n (by simp; omega) (by simp; omega))
    · exact ((p.same s.n (by simp; omega) (by simp; omega)).code).trans ce
    · intro F hF
      have c2' := c2
      have c3' := c3
      rw [show s.create.create.code (s.n + 1) = [] from cx, List.nil_append] at c3'
      rw [show s.create.create.code shared = [] from csh, List.nil_append] at c2'
      have hsh' : ∀ σ σ' : S M, run M H (setBool t true) σ = some σ' → Go M H F ⟨shared, 0, σ⟩ ⟨s.n, 0, σ'⟩ :=
        fun σ σ' hr => Le.setGo hF c2' n1 hr
      refine ⟨hsh', ?_⟩
      intro σ σ' hr
      have hg := hF.branch (M := M) (H := H) (pre := s.code b) c1 t1 e1 σ
      cases ht : truth M H σ v
      · rw [ht] at hr hg
        exact hg.trans (Le.setGo hF c3' n2 hr)
      · rw [ht] at hr hg
        exact hg.trans (hsh' σ σ' hr)

end Shecc.Stmt
