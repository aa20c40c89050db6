import Verif.Lemmas.ExprGen5

/-!
# Translation of expressions: operators, sums, arguments; everything together
-/

namespace Shecc.ExprGen
open CTypes CEval CSyntax CArith SsaSem
open Shecc.Ssa (Insn Op1)
open Shecc.Parser (POp prio getOperator operator)

variable {base : Nat} {T : Types.Table} {S : Scope}

theorem rEx_op {n : Nat} {e : Ex} {ts : List Tk} {fl : Bool} {d d1 : List Char} (he : ROp base T S e ts fl d d1) : REx base T S n e ts fl d d1 := by
  intro lg os g rest hb hd hr _ _ _
  obtain ⟨g1, h1, h2, h3⟩ := he g rest hb hd hr
  exact ⟨g1, h2, h3, fun y hy => Conv.bind h1 hy⟩

theorem okHead_op {fl : Bool} {o : BinOp} (h : o = .add → fl = false) (rest : List Parser.T) : okHead fl (p (opTok o) :: rest) = true := by
  cases o <;> first | rfl | (simp [h rfl]; rfl)

theorem getOperator_op (o : BinOp) (rest : List Parser.T) : getOperator (p (opTok o) :: rest) = (some (popOf o), rest) := by
  simp only [p, getOperator, operator_opTok]

theorem rEx_bin {n : Nat} {o : BinOp} {a b : Ex} {ta tb : List Tk} {fa fb : Bool} {d d1 d2 : List Char} {na nb : Nat}
    (hna : prio (popOf o) ≤ na) (hn : n ≤ prio (popOf o)) (hnb : prio (popOf o) < nb) (hsh : 0 < n → isShift o = false)
    (ha : REx base T S na a ta fa d d1) (hb : REx base T S nb b tb fb d1 d2) (hp : o = .add → fa = false) :
    REx base T S n (.bin o a b) (ta ++ p (opTok o) :: tb) fb d d2 := by
  intro lg os g rest hbn hd hr hlg hos hq
  obtain ⟨g1, h1, h2, h3⟩ := ha lg os g (p (opTok o) :: (tb ++ rest)) hbn hd (okHead_op hp _) (fun h => by have := hlg h; omega) (fun q hq' => by have := hos q hq'; omega)
    (fun q ts hg => by rw [getOperator_op] at hg; cases hg; exact hna)
  have hn1 := h2.next
  obtain ⟨g2, e1, e2, e3⟩ := hb lg (popOf o :: os) g1 rest (by omega) h1 hr (fun h => by omega) (fun q hq' => by
      rcases List.mem_cons.1 hq' with rfl | hq'
      · exact hnb
      · have := hos q hq'; omega) (fun q ts hg => by have := hq q ts hg; omega)
  obtain ⟨g3, a1, a2, a3⟩ := apply_ok h2 e2 hbn o
  refine ⟨g3, by rw [a2, e1], a3.mono ?_, fun y hy => ?_⟩
  · intro X w w' res hev
    cases hev with
    | bin ha' hb' hv' => exact ⟨_, _, _, _, ha', hb', hv', rfl⟩
  · have h4 := e3 y (Conv.eq (fun m => exprLoop_apply (names T S) a1 lg os rest (fun q ts hg => by have := hq q ts hg; omega) m) hy)
    have h5 := h3 y (Conv.succ (fun m => exprLoop_op (names T S) (fun q hq' => by have := hos q hq'; omega) (fun h => hsh (hlg h)) (tb ++ rest) g1 m) h4)
    simpa using h5

theorem rSum_cons {e : Ex} {es : Exs} {ts tss : List Tk} {fl : Bool} {d d1 d2 : List Char} (he : ROp base T S e ts fl d d1) (hws : WSum S es tss d1 d2)
    (hs : RSum base T S es tss d1 d2) (hp : isNil es = false → fl = false) : RSum base T S (.cons e es) (p .plus :: ts ++ tss) d d2 := by
  intro st g g0 g1 rest k P hb hd hr hk hk0 hc hcase
  obtain ⟨hnil, hplus⟩ := wSum_head hws
  have hn := hc.next
  have hr' : okHead fl (tss ++ rest) = true := by
    cases hi : isNil es with
    | true => rw [(hnil hi).2.1]; exact okHead_weak hr
    | false =>
      obtain ⟨r, rfl⟩ := hplus hi
      rw [hp hi]; rfl
  obtain ⟨g2, e1, e2, e3⟩ := he g1 (tss ++ rest) (by omega) hd hr'
  obtain ⟨g3, a1, a2, a3⟩ := hc.scaleAdd e3 hb k (decide (k > 1)) (fun h => by have := of_decide_eq_false h; omega)
  have hread : (if st.isRef then g0.un .read st.size else some g0) = some g1 := by
    rcases hcase with ⟨h1, rfl⟩ | ⟨h1, _, _, h2⟩
    · simp [h1]
    · simp [h1, h2]
  -- the additions that follow
  have hnext : ∃ g4 sz, Conv (fun n => sums (names T S) n { st with size := k } g3 (tss ++ rest)) ({ st with size := sz }, g4, rest) ∧ g4.data = d2 ∧
      Comp base g g4 fun X w w' res => ∃ w1 r, (∃ w0 ra rb, P X w w0 ra ∧ phEx S e X w0 w1 rb ∧ r = .val (ra.use X.ρ w1 + rb.use X.ρ w1 * BitVec.ofNat 32 k)) ∧
        EvSum X.C S.E S.decl X.ρ (BitVec.ofNat 32 k) w1 r es w' res := by
    rcases hcase with ⟨h1, rfl⟩ | ⟨h1, h2, _, _⟩
    · obtain ⟨g4, sz, b1, b2, b3⟩ := hs { st with size := k } g g3 g3 rest k _ hb (by rw [a2, e2]) hr hk hk0 a3 (.inl ⟨h1, rfl⟩)
      exact ⟨g4, sz, b1, b2, b3⟩
    · have hes : isNil es = true := by
        cases es with
        | nil => rfl
        | cons _ _ => simp [short] at h2
      obtain ⟨n1, n2, n3⟩ := hnil hes
      subst n1 n2 n3
      refine ⟨g3, k, Conv.const fun n => ?_, by rw [a2, e2], a3.mono ?_⟩
      · cases rest with
        | nil => simp only [List.append_nil, sums]
        | cons t r =>
          obtain ⟨t, s⟩ := t
          revert hr
          cases t <;> simp [okHead, okTok, sums]
      · rintro X w w' res ⟨w1, r, ⟨w0, ra, rb, h5, h6, h7⟩, hE⟩
        cases hE
        exact ⟨w0, ra, rb, h5, h6, h7⟩
  obtain ⟨g4, sz, b1, b2, b3⟩ := hnext
  refine ⟨g4, sz, ?_, b2, b3.mono ?_⟩
  · obtain ⟨n0, h0⟩ := e1
    obtain ⟨n1, h1⟩ := b1
    refine ⟨n0 + n1 + 1, fun n hn => ?_⟩
    obtain ⟨j, rfl⟩ : ∃ j, n = j + 1 := ⟨n - 1, by omega⟩
    have h0 : operand (names T S) j (ts ++ (tss ++ rest)) g1 = _ := h0 j (by omega)
    have h1 : sums (names T S) j { st with size := k } g3 (tss ++ rest) = _ := h1 j (by omega)
    have hk' : tySize (names T S).types st.ty = some k := hk
    simp only [p, List.cons_append, List.append_assoc, sums, hread, Option.bind_some, h0, hk', a1, h1]
  · rintro X w w' res ⟨w1, r, hP, hE⟩
    cases hE with
    | cons he' hs' => exact ⟨_, _, ⟨_, _, _, hP, he', rfl⟩, hs'⟩

theorem not_close {N : Names} {ts : List Parser.T} {g : G} {y : G × List Parser.T} (h : Conv (fun n => expr N n ts g) y) : ∀ s r, ts ≠ (.close_bracket, s) :: r := by
  rintro s r rfl
  obtain ⟨n0, h0⟩ := h
  have := h0 (n0 + 3) (by omega)
  simp [expr, operand, operandBody] at this

theorem rArgs_nil {d : List Char} : RArgs base T S .nil [p .close_bracket] d d := by
  intro g rest j hb hd
  refine ⟨g, 0, Conv.const fun n => ?_, hd, (compL_nil g).mono ?_⟩
  · simp only [p, List.cons_append, List.nil_append, args, Nat.add_zero]
  · intro X w w' vs h
    cases h
    exact ⟨rfl, rfl⟩

theorem args_expr {N : Names} {ts rest : List Parser.T} {g g1 : G} {j : Nat} {y : G × Nat × List Parser.T}
    (h : Conv (fun n => expr N n ts g) (g1, rest)) (h2 : Conv (fun n => (match rest with
        | (.comma, _) :: ts => args N n ts g1 (j + 1)
        | ts => args N n ts g1 (j + 1))) y) : Conv (fun n => args N n ts g j) y := by
  have hc := not_close h
  refine Conv.succ (h := fun n => (expr N n ts g).bind fun r => match r.2 with
        | (.comma, _) :: ts => args N n ts r.1 (j + 1)
        | ts => args N n ts r.1 (j + 1)) (fun n => ?_) (Conv.bind h h2)
  cases ts with
  | nil => simp only [args]; rfl
  | cons t r =>
    obtain ⟨t, s⟩ := t
    cases t with
    | close_bracket => exact absurd rfl (hc s r)
    | _ => simp only [args]; rfl

theorem rArgs_last {e : Ex} {ts : List Tk} {fl : Bool} {d d1 : List Char} (he : REx base T S 0 e ts fl d d1) :
    RArgs base T S (.cons e .nil) (ts ++ [p .close_bracket]) d d1 := by
  intro g rest j hb hd
  obtain ⟨g1, h1, h2, h3⟩ := he.expr (rest := p .close_bracket :: rest) hb hd rfl rfl
  refine ⟨g1, 1, ?_, h2, (CompL.cons h3 (compL_nil g1) hb).mono ?_⟩
  · rw [List.append_assoc]
    refine args_expr h1 (Conv.const fun n => ?_)
    simp only [p, args]
  · intro X w w' vs h
    cases h with
    | cons he' hs' =>
      cases hs'
      exact ⟨_, _, _, he', ⟨rfl, rfl⟩, rfl⟩

theorem rArgs_cons {e : Ex} {es : Exs} {ts tss : List Tk} {fl : Bool} {d d1 d2 : List Char} (he : REx base T S 0 e ts fl d d1) (hs : RArgs base T S es tss d1 d2) :
    RArgs base T S (.cons e es) (ts ++ p .comma :: tss) d d2 := by
  intro g rest j hb hd
  obtain ⟨g1, h1, h2, h3⟩ := he.expr (rest := p .comma :: (tss ++ rest)) hb hd rfl rfl
  have hn := h3.next
  obtain ⟨g2, m, e1, e2, e3⟩ := hs g1 rest (j + 1) (by omega) h2
  refine ⟨g2, m + 1, ?_, e2, (CompL.cons h3 e3 hb).mono ?_⟩
  · rw [List.append_assoc]
    refine args_expr h1 ?_
    have : j + (m + 1) = j + 1 + m := by omega
    rw [this]
    exact e1
  · intro X w w' vs h
    cases h with
    | cons he' hs' => exact ⟨_, _, _, he', hs', rfl⟩

mutual
theorem wLv_ok (h : TOk T S.E) (hv : ∀ s x, S.var s = some x → x < base) : ∀ {l : Lv} {t : CTypes.T} {ts : List Tk} {d d1 : List Char}, WLv S l t ts d d1 → RLv base T S l t ts d d1
  | _, _, _, _, _, .var h1 h2 h3 h4 => rLv_var h hv h1 h2 h3 h4
  | _, _, _, _, _, .index hl hu he hk h4 => rLv_index h hl (wLv_ok h hv hl) hu (wEx_ok h hv he) hk h4
  | _, _, _, _, _, .dot hl hf hm => rLv_dot h hl (wLv_ok h hv hl) hf hm
  | _, _, _, _, _, .arrow hl hp hf hm ha => rLv_arrow h hl (wLv_ok h hv hl) hp hf hm ha
theorem wOp_ok (h : TOk T S.E) (hv : ∀ s x, S.var s = some x → x < base) : ∀ {e : Ex} {t : CTypes.T} {ts : List Tk} {fl : Bool} {d d1 : List Char}, WOp S e t ts fl d d1 → ROp base T S e ts fl d d1
  | _, _, _, _, _, _, .num hl => rOp_num hl
  | _, _, _, _, _, _, .negNum hl => rOp_negNum hl
  | _, _, _, _, _, _, .chr _ => rOp_chr
  | _, _, _, _, _, _, .str hs => rOp_str hs
  | _, _, _, _, _, _, .const hc => rOp_const hc
  | _, _, _, _, _, _, .sizeof hr hd hk => rOp_sizeof h hr hd hk
  | _, _, _, _, _, _, .lnot he _ => rOp_not (.inl ⟨rfl, rfl, rfl⟩) (wOp_ok h hv he)
  | _, _, _, _, _, _, .bnot he => rOp_not (.inr ⟨rfl, rfl, rfl⟩) (wOp_ok h hv he)
  | _, _, _, _, _, _, .neg he => rOp_neg (wOp_ok h hv he)
  | _, _, _, _, _, _, .lval hl ht => rOp_lval h hl (wLv_ok h hv hl) ht
  | _, _, _, _, _, _, .addr hl ha => rOp_addr h hl (wLv_ok h hv hl) ha
  | _, _, _, _, _, _, .deref hl hp _ _ hk hi ha => rOp_deref h hl (wLv_ok h hv hl) hp hk hi ha
  | _, _, _, _, _, _, .derefSum hl hp _ _ hk hi ha hs hn hm => rOp_derefSum h hl (wLv_ok h hv hl) hp hk hi ha hs (wSum_ok h hv hs) hn hm
  | _, _, _, _, _, _, .padd hl hp hk hu hs _ hm => rOp_padd h hl (wLv_ok h hv hl) hp hk hu hs (wSum_ok h hv hs) hm
  | _, _, _, _, _, _, .paren he => rOp_paren (wEx_ok h hv he)
  | _, _, _, _, _, _, .call hc hv' hf hs => rOp_call hc hv' hf (wArgs_ok h hv hs)
  | _, _, _, _, _, _, .icall hl hs => rOp_icall h hl (wLv_ok h hv hl) (wArgs_ok h hv hs)
theorem wEx_ok (h : TOk T S.E) (hv : ∀ s x, S.var s = some x → x < base) : ∀ {n : Nat} {e : Ex} {t : CTypes.T} {ts : List Tk} {fl : Bool} {d d1 : List Char}, WEx S n e t ts fl d d1 →
    REx base T S n e ts fl d d1
  | _, _, _, _, _, _, _, .op he => rEx_op (wOp_ok h hv he)
  | _, _, _, _, _, _, _, .bin ho hs ha hb _ hp =>
    rEx_bin (Nat.le_of_eq (prio_popOf hs)) (by rw [prio_popOf hs]; exact ho) (by rw [prio_popOf hs]; exact Nat.lt_succ_self _) (fun _ => hs) (wEx_ok h hv ha) (wEx_ok h hv hb) hp
  | _, _, _, _, _, _, _, .shift (o := o) hs ha hb =>
    rEx_bin (na := 0) (nb := 1) (Nat.le_of_eq (prio_shift hs)) (Nat.zero_le _) (by rw [prio_shift hs]; exact Nat.lt_succ_self _) (fun h => absurd h (Nat.lt_irrefl 0)) (rEx_op (wOp_ok h hv ha)) (rEx_op (wOp_ok h hv hb))
      (fun h => by subst h; cases hs)
theorem wSum_ok (h : TOk T S.E) (hv : ∀ s x, S.var s = some x → x < base) : ∀ {es : Exs} {ts : List Tk} {d d1 : List Char}, WSum S es ts d d1 → RSum base T S es ts d d1
  | _, _, _, _, .nil => rSum_nil
  | _, _, _, _, .cons he hs hp => rSum_cons (wOp_ok h hv he) hs (wSum_ok h hv hs) hp
theorem wArgs_ok (h : TOk T S.E) (hv : ∀ s x, S.var s = some x → x < base) : ∀ {es : Exs} {ts : List Tk} {d d1 : List Char}, WArgs S es ts d d1 → RArgs base T S es ts d d1
  | _, _, _, _, .nil => rArgs_nil
  | _, _, _, _, .last he => rArgs_last (wEx_ok h hv he)
  | _, _, _, _, .cons he hs _ => rArgs_cons (wEx_ok h hv he) (wArgs_ok h hv hs)
end

end Shecc.ExprGen
