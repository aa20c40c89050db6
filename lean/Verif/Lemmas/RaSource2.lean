import Verif.Lemmas.RaSource

/-!
# The analyses supply what register allocation relies on
-/

namespace RaSource
open Shecc Shecc.Ssa Shecc.RegAlloc SrcBlock RaLink RaFn CGraph

theorem grouped_noPhi {V : Vars} {is : List Insn} (h : Grouped V is) : ∀ i ∈ is, i.op ≠ .unwound_phi := by
  have cs : ∀ {ps : List Insn} {c : Insn}, CallSeq V ps c → (∀ p ∈ ps, p.op ≠ .unwound_phi) ∧ c.op ≠ .unwound_phi := by
    intro ps c h
    refine ⟨fun p hp => ?_, ?_⟩
    · rw [h.push p hp]; simp
    · rw [h.call]; simp
  induction h with
  | nil => simp
  | one h _ ih =>
    intro j hj
    rcases List.mem_cons.1 hj with rfl | hj
    · intro he; rw [he] at h; cases h
    · exact ih j hj
  | call h _ ih =>
    intro j hj
    rcases List.mem_append.1 hj with hj | hj
    · exact (cs h).1 j hj
    · rcases List.mem_cons.1 hj with rfl | hj
      · exact (cs h).2
      · exact ih j hj
  | callRet h hf _ ih =>
    intro j hj
    rcases List.mem_append.1 hj with hj | hj
    · exact (cs h).1 j hj
    · rcases List.mem_cons.1 hj with rfl | hj
      · exact (cs h).2
      · rcases List.mem_cons.1 hj with rfl | hj
        · rw [hf]; simp
        · exact ih j hj

theorem insnOf_uses (i : Insn) (v : Nat) : CLive.Uses (insnOf i) v ↔ i.rs1 = some v ∨ i.rs2 = some v := Iff.rfl

theorem insnOf_defines (i : Insn) (v : Nat) : CLive.Defines (insnOf i) v ↔ i.rd = some v ∧ i.op ≠ .unwound_phi := by
  unfold CLive.Defines insnOf
  simp

/-- Live at the start of a block, according to the analysis. -/
def LiveIn (V : Vars) (F : RegAlloc.Fn) (params : List Nat) (entry b v : Nat) : Prop :=
  v ∈ Live.computeLiveIn (Live.genKill (liveFn V F params entry fun _ => []) b) (F.block b).liveOut

/-- What follows from the analyses. -/
structure Facts (V : Vars) (F : RegAlloc.Fn) (params : List Nat) (entry : Nat) (rest : List Nat) (use : Nat → Int) : Prop where
  lay : LayoutOk F entry rest
  killed : ∀ b ∈ entry :: rest, ∀ d, d ∈ (F.block b).killed ↔
    (∃ i ∈ F.insns b, i.rd = some d ∧ i.op ≠ .unwound_phi) ∨ (b = entry ∧ d ∈ params)
  read : ∀ b v xs i ys, b ≠ entry → V.isGlobal v = false → F.insns b = xs ++ i :: ys → (i.rs1 = some v ∨ i.rs2 = some v) →
    (∀ x ∈ xs, x.rd = some v → x.op = .unwound_phi) → LiveIn V F params entry b v
  pass : ∀ b ∈ entry :: rest, ∀ v, v ∈ (F.block b).liveOut → v ∉ (F.block b).killed → LiveIn V F params entry b v
  out : ∀ b ∈ entry :: rest, ∀ n ∈ succs F b, ∀ v, LiveIn V F params entry n v → v ∈ (F.block b).liveOut
  used : ∀ b ∈ entry :: rest, ∀ v xs i ys, F.insns b = xs ++ i :: ys → (i.rs1 = some v ∨ i.rs2 = some v) → (xs.length : Int) ≤ use v
  outUsed : ∀ b ∈ entry :: rest, ∀ v ∈ (F.block b).liveOut, 0 ≤ use v

theorem facts {V : Vars} {F : RegAlloc.Fn} {params exitPrev : List Nat} {entry : Nat} {rest : List Nat} {use : Nat → Int}
    (S : SsaFn V F params exitPrev entry rest use) (A : Analysed V F params entry rest use) : Facts V F params entry rest use := by
  obtain ⟨n, hlay⟩ := A.layout
  rw [cfgOf_succs] at hlay
  have lay := layout_ok hlay
  obtain ⟨prev, rpo, order, n', k, L, hprev, hord, hlive, hL⟩ := A.live
  obtain ⟨con, hcon, huse⟩ := A.use_
  obtain ⟨I, hfix⟩ := liveLoop_some _ _ _ ⟨by simp, by simp, by simp⟩ hlive
  have hg : ∀ b, Live.genKill (liveFn V F params entry fun _ => []) b = Live.genKill (liveFn V F params entry prev) b := fun _ => rfl
  have hs : (liveFn V F params entry prev).g.succs = succs F := cfgOf_succs F entry prev
  have hpreds : ∀ a, ∀ b ∈ entry :: rest, (b ∈ (cfgOf F entry prev).preds a ↔ a ∈ succs F b) := by
    intro a b hb
    have : (cfgOf F entry prev).preds a = prev a := by
      unfold Cfg.Graph.preds cfgOf
      by_cases h : a = F.fnExit
      · simp [h]
      · simp only [h, if_false]
        cases (F.block a).next <;> rfl
    rw [this]
    exact hprev a b hb
  have hmemord : ∀ b ∈ entry :: rest, b ∈ order := by
    intro b hb
    exact (rpo_mem hord b).2 (reach_back (l := entry :: rest) (fun b hb n hn =>
      (lay.mem n).2 (Cfg.Reach.trans ((lay.mem b).1 hb) (Cfg.Reach.one hn))) hpreds hb (S.toExit b ((lay.mem b).1 hb)))
  have hused : ∀ b ∈ entry :: rest, ∀ v xs i ys, F.insns b = xs ++ i :: ys → (i.rs1 = some v ∨ i.rs2 = some v) →
      (xs.length : Int) ≤ use v := by
    intro b hb v xs i ys hi hu
    refine Int.le_trans ?_ (huse v).1
    have : (liveFn V F params entry fun _ => []).insns b = xs.map insnOf ++ insnOf i :: ys.map insnOf := by
      show (F.insns b).map insnOf = _
      rw [hi]; simp
    have := consumed_use this ((insnOf_uses i v).2 hu) (entry :: rest) con hb
    rwa [List.length_map] at this
  refine ⟨lay, ?_, ?_, ?_, ?_, hused, ?_⟩
  · intro b hb d
    rw [A.killed b hb, Props.genKill_kill]
    unfold CLive.BlockDefines
    constructor
    · rintro (⟨i, hi, hd⟩ | h)
      · obtain ⟨j, hj, rfl⟩ := List.mem_map.1 hi
        exact Or.inl ⟨j, hj, (insnOf_defines j d).1 hd⟩
      · exact Or.inr h
    · rintro (⟨i, hi, hd⟩ | h)
      · exact Or.inl ⟨insnOf i, List.mem_map.2 ⟨i, hi, rfl⟩, (insnOf_defines i d).2 hd⟩
      · exact Or.inr h
  · intro b v xs i ys hb hgl hi hu hx
    refine Props.computeLiveIn_mem.2 (Or.inr ((Props.genKill_gen _ _ _).2 ⟨hgl, ⟨xs.map insnOf, insnOf i, ys.map insnOf, ?_,
      (insnOf_uses i v).2 hu, ?_⟩, fun h => hb h.1⟩))
    · show (F.insns b).map insnOf = _
      rw [hi]; simp
    · intro x hxm hd
      obtain ⟨y, hy, rfl⟩ := List.mem_map.1 hxm
      obtain ⟨h1, h2⟩ := (insnOf_defines y v).1 hd
      exact h2 (hx y hy h1)
  · intro b hb v ho hk
    rw [A.killed b hb] at hk
    exact Props.computeLiveIn_mem.2 (Or.inl ⟨ho, hk⟩)
  · intro b hb c hc v hv
    rw [hL]
    refine hfix b (hmemord b hb) v (Props.newOut_mem.2 ⟨c, by rw [hs]; exact hc, ?_⟩)
    unfold LiveIn at hv
    rwa [hg, hL] at hv
  · intro b hb v hv
    rw [hL] at hv
    obtain ⟨_, c, hc, l, d, hp, ⟨⟨xs, i, ys, hi, hu, _⟩, _⟩, _⟩ := I.sound b v hv
    rw [hs] at hc hp
    have hd : d ∈ entry :: rest :=
      (lay.mem d).2 (Cfg.Reach.trans ((lay.mem b).1 hb) (Cfg.Reach.step hc ⟨_, hp⟩))
    obtain ⟨xs', ys', i', hii⟩ : ∃ xs' ys' i', F.insns d = xs' ++ i' :: ys' ∧ insnOf i' = i := by
      have hi' : (F.insns d).map insnOf = xs ++ i :: ys := hi
      obtain ⟨p, q, hpq, _, hq⟩ := List.map_eq_append_iff.1 hi'
      obtain ⟨i', ys', rfl, hi2, _⟩ := List.map_eq_cons_iff.1 hq
      exact ⟨p, ys', i', hpq, hi2⟩
    obtain ⟨hii, rfl⟩ := hii
    have := hused d hd v xs' i' ys' hii ((insnOf_uses i' v).1 hu)
    omega

section
variable {V : Vars} {F : RegAlloc.Fn} {params exitPrev : List Nat} {entry : Nat} {rest : List Nat} {use : Nat → Int}

/-- The variables with a value at the start of a block. -/
def liveAt (V : Vars) (F : RegAlloc.Fn) (params : List Nat) (entry b v : Nat) : Prop :=
  if b = entry then v ∈ params else LiveIn V F params entry b v ∧ Assigned V F params entry b v

theorem assigned_entry {v : Nat} (h : Assigned V F params entry entry v) : v ∈ params := by
  rcases h with h | h
  · exact h
  · obtain ⟨x, hx, _⟩ := h [] (.nil entry)
    simp at hx

/-- A variable that is read and has not been assigned in the block is live at its start. -/
theorem Facts.readAt (H : Facts V F params entry rest use) {b v : Nat} {xs ys : List Insn} {i : Insn} (hgl : V.isGlobal v = false)
    (hi : F.insns b = xs ++ i :: ys) (hu : i.rs1 = some v ∨ i.rs2 = some v) (hr : Readable V F params entry b xs v) :
    (∃ x ∈ xs, x.op ≠ .unwound_phi ∧ result V x = some v) ∨ liveAt V F params entry b v := by
  rcases hr with h | ⟨h1, h2⟩
  · exact Or.inl h
  · right
    unfold liveAt
    split
    · rename_i hb; subst hb; exact assigned_entry h1
    · rename_i hb; exact ⟨H.read b v xs i ys hb hgl hi hu h2, h1⟩

theorem last_rd {b : Nat} {phis last : List Insn} (h : Last F b phis last) : ∀ i ∈ last, i.rd = none := by
  cases h <;> simp_all

theorem last_op {b : Nat} {phis last : List Insn} (h : Last F b phis last) : ∀ i ∈ last, i.op = .branch ∨ i.op = .ret := by
  cases h <;> simp_all

theorem result_none {i : Insn} (h : i.rd = none) : result V i = none := by
  unfold result
  rw [h]
  cases i.op <;> rfl

theorem result_rd {i : Insn} {v : Nat} (h : result V i = some v) : i.rd = some v := by
  unfold result at h
  split at h
  · rename_i d _ hd
    split at h
    · cases h
    · rw [hd]; exact h
  · exact h

theorem result_of_rd {i : Insn} {v : Nat} (h : i.rd = some v) : result V i = some v ∨ (i.op = .allocat ∧ V.basic v = true) := by
  unfold result
  rw [h]
  split
  · rename_i d ho hd
    cases hd
    split
    · rename_i hb; exact Or.inr ⟨ho, hb⟩
    · exact Or.inl rfl
  · exact Or.inl rfl

theorem phi_op {b : Nat} {body phis last : List Insn} (B : SsaBlock V F params entry use b body phis last) :
    ∀ i ∈ phis, i.op = .unwound_phi := by
  intro i hi
  obtain ⟨xs, ys, rfl⟩ := List.append_of_mem hi
  obtain ⟨d, a, h, _⟩ := B.phi xs i ys rfl
  exact h

theorem body_of {b : Nat} {body phis last : List Insn} (B : SsaBlock V F params entry use b body phis last) : bodyOf F b = body := by
  unfold bodyOf
  rw [B.insns, List.append_assoc, List.takeWhile_append_of_pos]
  · have : ∀ i ∈ (phis ++ last).head?, (i.op != .unwound_phi && i.op != .branch && i.op != .ret) = false := by
      intro i hi
      have hm := List.mem_of_mem_head? hi
      rcases List.mem_append.1 hm with h | h
      · rw [phi_op B i h]; rfl
      · rcases last_op B.last_ i h with h | h <;> rw [h] <;> rfl
    cases hpl : phis ++ last with
    | nil => simp
    | cons x xs =>
      rw [hpl] at this
      rw [List.takeWhile_cons_of_neg (by rw [this x rfl]; simp), List.append_nil]
  · intro i hi
    have h1 := grouped_noPhi B.grouped i hi
    have h2 := grouped_inner B.grouped i hi
    cases ho : i.op <;> rw [ho] at h1 h2 <;> first | rfl | exact absurd rfl h1 | cases h2

/-- Uses in the body. -/
theorem uses_body (S : SsaFn V F params exitPrev entry rest use) (H : Facts V F params entry rest use) {pre post : List Nat} {b : Nat}
    {body phis last : List Insn} (he : entry :: rest = pre ++ b :: post) (B : SsaBlock V F params entry use b body phis last) :
    ∀ ys xs (con : Nat → Int) (M : Nat → Prop), body = xs ++ ys →
    (∀ v, M v ↔ ((pre = [] ∧ v ∈ params) ∨ ∃ x ∈ xs, mentions x v)) →
    AllModest V (F.block b) (Named V F params pre) M con xs.length ys →
    Uses V (F.block b) use (fun v => (V.isGlobal v = true ∨ liveAt V F params entry b v) ∨ ∃ x ∈ xs, result V x = some v) xs.length ys := by
  have hb : b ∈ entry :: rest := by rw [he]; simp
  intro ys
  induction ys with
  | nil => intro xs con M _ _ _; trivial
  | cons i ys ih =>
    intro xs con M hbody hM hA
    obtain ⟨hA1, hA2⟩ := hA
    have hi : F.insns b = xs ++ i :: (ys ++ phis ++ last) := by rw [B.insns, hbody]; simp
    have hib : i ∈ body := by rw [hbody]; simp
    refine ⟨⟨?_, ?_, ?_, ?_, B.noResult i hib, ?_⟩, ?_⟩
    · intro v hv
      refine ⟨?_, Or.inr (H.used b hb v xs i _ hi hv)⟩
      by_cases hg : V.isGlobal v = true
      · exact Or.inl (Or.inl hg)
      · have hg' : V.isGlobal v = false := by simpa using hg
        rcases H.readAt hg' hi hv (B.strict xs i _ hi v hv hg') with ⟨x, hx, _, hr⟩ | h
        · exact Or.inr ⟨x, hx, hr⟩
        · exact Or.inl (Or.inr h)
    · intro d hd
      exact (H.killed b hb d).2 (Or.inl ⟨i, by rw [hi]; simp, hd, grouped_noPhi B.grouped i hib⟩)
    · intro d hd hg
      exact (B.global_ i hib d hd hg).1
    · intro d hd hu
      have hg : V.isGlobal d = false := by
        cases hgd : V.isGlobal d with
        | false => rfl
        | true =>
          have := (B.global_ i hib d hd hgd).2
          omega
      refine ⟨hg, fun ho => ?_⟩
      have := H.outUsed b hb d ho
      omega
    · intro d ho hd hba hD
      obtain ⟨h1, h2⟩ := hA1.declare ho d hd hba
      rcases hD with (hg | hl) | ⟨x, hx, hr⟩
      · exact h1 (Or.inl hg)
      · unfold liveAt at hl
        split at hl
        · exact h1 (Or.inr (Or.inl hl))
        · rcases hl.2 with hp | hp
          · exact h1 (Or.inr (Or.inl hp))
          · obtain ⟨l, hpath, hsub⟩ := H.lay.path _ pre b post rfl he
            obtain ⟨x, hx, j, hj, hr⟩ := hp l hpath
            exact h1 (Or.inr (Or.inr ⟨x, hsub x hx, j, hj, Or.inl (result_rd hr)⟩))
      · exact h2 ((hM d).2 (Or.inr ⟨x, hx, Or.inl (result_rd hr)⟩))
    · have := ih (xs ++ [i]) _ (fun v => M v ∨ mentions i v) (by rw [hbody]; simp) (fun v => by
        constructor
        · rintro (h | h)
          · rcases (hM v).1 h with h | ⟨x, hx, h⟩
            · exact Or.inl h
            · exact Or.inr ⟨x, by simp [hx], h⟩
          · exact Or.inr ⟨i, by simp, h⟩
        · rintro (h | ⟨x, hx, h⟩)
          · exact Or.inl ((hM v).2 (Or.inl h))
          · rcases List.mem_append.1 hx with hx | hx
            · exact Or.inl ((hM v).2 (Or.inr ⟨x, hx, h⟩))
            · rw [List.mem_singleton] at hx; subst hx; exact Or.inr h) (by
        rw [List.length_append]; exact hA2)
      rw [List.length_append] at this
      have e : (fun v => ((V.isGlobal v = true ∨ liveAt V F params entry b v) ∨ ∃ x ∈ xs, result V x = some v) ∨ result V i = some v)
          = (fun v => (V.isGlobal v = true ∨ liveAt V F params entry b v) ∨ ∃ x ∈ xs ++ [i], result V x = some v) := by
        funext v
        apply propext
        simp only [List.mem_append, List.mem_singleton]
        constructor
        · rintro ((h | ⟨x, hx, h⟩) | h)
          · exact Or.inl h
          · exact Or.inr ⟨x, Or.inl hx, h⟩
          · exact Or.inr ⟨i, Or.inr rfl, h⟩
        · rintro (h | ⟨x, hx | rfl, h⟩)
          · exact Or.inl (Or.inl h)
          · exact Or.inl (Or.inr ⟨x, hx, h⟩)
          · exact Or.inr h
      rw [e]
      exact this

/-- The operand of an instruction after the body has a value. -/
theorem val_after (H : Facts V F params entry rest use) {b : Nat} {body phis last : List Insn}
    (B : SsaBlock V F params entry use b body phis last) {xs ys : List Insn} {i : Insn} {a : Nat} (hp : ∀ x ∈ xs, x.op = .unwound_phi)
    (hi : F.insns b = (body ++ xs) ++ i :: ys) (ha : i.rs1 = some a ∨ i.rs2 = some a) :
    (V.isGlobal a = true ∨ liveAt V F params entry b a) ∨ ∃ i ∈ body, result V i = some a := by
  by_cases hg : V.isGlobal a = true
  · exact Or.inl (Or.inl hg)
  · have hg' : V.isGlobal a = false := by simpa using hg
    rcases H.readAt hg' hi ha (B.strict _ i _ hi a ha hg') with ⟨x, hx, ho, hr⟩ | h
    · rcases List.mem_append.1 hx with hx | hx
      · exact Or.inr ⟨x, hx, hr⟩
      · exact absurd (hp x hx) ho
    · exact Or.inl (Or.inr h)

theorem phis_ok (H : Facts V F params entry rest use) {b : Nat} (hb : b ∈ entry :: rest)
    {body phis last : List Insn} (B : SsaBlock V F params entry use b body phis last) : ∀ ys xs, phis = xs ++ ys →
    Phis V (F.block b) use (fun v => (V.isGlobal v = true ∨ liveAt V F params entry b v) ∨ ∃ i ∈ body, result V i = some v)
      (fun v => ∃ x ∈ xs, x.rd = some v) (body.length + xs.length) ys := by
  intro ys
  induction ys with
  | nil => intro xs _; trivial
  | cons i ys ih =>
    intro xs hx
    have hop := phi_op B
    have hi : F.insns b = (body ++ xs) ++ i :: (ys ++ last) := by rw [B.insns, hx]; simp
    obtain ⟨d, a, h1, h2, h3, h4, h5, h6, h7⟩ := B.phi xs i ys hx
    refine ⟨⟨d, a, h1, h2, h3, ?_, ?_, ?_, h4, ?_⟩, ?_⟩
    · exact val_after H B (fun x hxx => hop x (by rw [hx]; simp [hxx])) hi (Or.inl h3)
    · rintro ⟨x, hxx, hxa⟩
      exact h5 x hxx hxa
    · right
      have := H.used b hb a _ i _ hi (Or.inl h3)
      rwa [List.length_append] at this
    · intro hk
      rcases (H.killed b hb d).1 hk with ⟨j, hj, hjd, hjo⟩ | ⟨_, h⟩
      · rw [B.insns] at hj
        rcases List.mem_append.1 hj with hj | hj
        · rcases List.mem_append.1 hj with hj | hj
          · exact h6 j hj hjd
          · exact hjo (hop j hj)
        · rw [last_rd B.last_ j hj] at hjd
          cases hjd
      · exact h7 h
    · have := ih (xs ++ [i]) (by rw [hx]; simp)
      rw [List.length_append] at this
      have e : (fun v => (∃ x ∈ xs, x.rd = some v) ∨ i.rd = some v) = (fun v => ∃ x ∈ xs ++ [i], x.rd = some v) := by
        funext v
        apply propext
        simp only [List.mem_append, List.mem_singleton]
        constructor
        · rintro (⟨x, hx, h⟩ | h)
          · exact ⟨x, Or.inl hx, h⟩
          · exact ⟨i, Or.inr rfl, h⟩
        · rintro ⟨x, hx | rfl, h⟩
          · exact Or.inl ⟨x, hx, h⟩
          · exact Or.inr h
      rw [e]
      exact this

theorem ends_ok (H : Facts V F params entry rest use) {b : Nat} (hb : b ∈ entry :: rest)
    {body phis last : List Insn} (B : SsaBlock V F params entry use b body phis last) :
    Ends V F use (liveAt V F params entry b) b body phis last := by
  have key : ∀ i a, last = [i] → i.rs1 = some a → (∀ i ∈ phis, i.rd ≠ some a) →
      LastOk V (F.block b) use (liveAt V F params entry b) body phis a := by
    intro i a hl ha hp
    have hi : F.insns b = (body ++ phis) ++ i :: [] := by rw [B.insns, hl]
    refine ⟨val_after H B (phi_op B) hi (Or.inl ha), hp, Or.inr ?_⟩
    have := H.used b hb a _ i _ hi (Or.inl ha)
    rwa [List.length_append] at this
  have hl := B.last_
  generalize hlast : last = l at hl
  cases hl with
  | next hn => exact .next hn
  | branch hn ho hr ha hp => exact .branch hn ho ha (key _ _ hlast ha hp)
  | ret hn ho hr ha hp => exact .ret hn ho ha (key _ _ hlast ha hp)
  | retVoid hn ho hr ha => exact .retVoid hn ho ha

theorem valued_ok (S : SsaFn V F params exitPrev entry rest use) (H : Facts V F params entry rest use) {b : Nat} (hb : b ∈ entry :: rest)
    {body phis last : List Insn} (B : SsaBlock V F params entry use b body phis last) {v : Nat}
    (hv : liveNext V F (liveAt V F params entry) b v) :
    v ∈ (F.block b).liveOut ∧ Valued V (liveAt V F params entry b) body phis v := by
  obtain ⟨hg, n, hn, _, hl⟩ := hv
  have hne : n ≠ entry := by rintro rfl; exact S.noEntry b hb hn
  unfold liveAt at hl
  rw [if_neg hne] at hl
  obtain ⟨hin, has⟩ := hl
  have hout := H.out b hb n hn v hin
  refine ⟨hout, ?_⟩
  by_cases hgv : Gives V F b v
  · obtain ⟨i, hi, hr⟩ := hgv
    rw [B.insns] at hi
    rcases List.mem_append.1 hi with hi | hi
    · rcases List.mem_append.1 hi with hi | hi
      · exact Or.inl (Or.inr ⟨i, hi, hr⟩)
      · exact Or.inr ⟨i, hi, result_rd hr⟩
    · rw [result_none (last_rd B.last_ i hi)] at hr
      cases hr
  · refine Or.inl (Or.inl ?_)
    obtain ⟨pre, post, he⟩ := List.append_of_mem hb
    obtain ⟨l, hpath, _⟩ := H.lay.path _ pre b post rfl he
    have hasb : Assigned V F params entry b v := by
      rcases has with h | h
      · exact Or.inl h
      · right
        intro l hp
        obtain ⟨x, hx, hxv⟩ := h _ (Cfg.Path.snoc hp hn)
        rcases List.mem_append.1 hx with hx | hx
        · exact ⟨x, hx, hxv⟩
        · rw [List.mem_singleton] at hx
          subst hx
          exact absurd hxv hgv
    unfold liveAt
    split
    · rename_i hbe; subst hbe; exact assigned_entry hasb
    · rename_i hbe
      refine ⟨H.pass b hb v hout ?_, hasb⟩
      intro hk
      rcases (H.killed b hb v).1 hk with ⟨i, hi, hd, _⟩ | ⟨h, _⟩
      · rcases result_of_rd (V := V) hd with hr | ⟨ho, hba⟩
        · exact hgv ⟨i, hi, hr⟩
        · obtain ⟨h1, h2⟩ := S.single b i hi v ho hd hba
          rcases hasb with h | h
          · exact h1 h
          · obtain ⟨x, _, hx⟩ := h l hpath
            exact h2 x hx
      · exact hbe h

/-- The analyses supply what register allocation relies on. -/
theorem fnOk (S : SsaFn V F params exitPrev entry rest use) (M : Moderate V F params entry rest use)
    (A : Analysed V F params entry rest use) : FnOk V F params exitPrev entry rest use (liveAt V F params entry) := by
  have H := facts S A
  refine ⟨H.lay.nodup, H.lay.numbered, S.entryExit, S.exit, S.prev, ?_, ?_, ?_, ?_, ?_⟩
  · intro b hb n hn
    have h1 : n ∈ entry :: rest := (H.lay.mem n).2 (Cfg.Reach.trans ((H.lay.mem b).1 hb) (Cfg.Reach.one hn))
    rcases List.mem_cons.1 h1 with rfl | h1
    · exact absurd hn (S.noEntry b hb)
    · exact h1
  · intro n hn _
    exact H.lay.parent n hn
  · intro pre b post he hbe
    have hb : b ∈ entry :: rest := by rw [he]; simp
    obtain ⟨body, phis, last, B⟩ := S.block b hb hbe
    have hmod := M pre b post he
    rw [body_of B] at hmod
    refine ⟨body, phis, last, B.insns, ends_ok H hb B, B.grouped, ?_, hmod, ?_, fun v hv => valued_ok S H hb B hv⟩
    · have := uses_body S H he B body [] _ _ rfl (fun v => by simp) hmod
      simpa using this
    · have := phis_ok H hb B phis [] rfl
      simpa using this
  · refine ⟨S.param.1, S.param.2.1, fun p hp => ⟨S.param.2.2 p hp, ?_⟩⟩
    exact (H.killed entry (by simp) p).2 (Or.inr ⟨rfl, hp⟩)
  · intro v
    unfold liveAt
    simp

end

end RaSource
