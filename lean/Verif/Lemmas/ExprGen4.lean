import Verif.Lemmas.ExprGen3
import Verif.Props.Parser

/-!
# Translation of expressions: the phrases
-/

namespace Shecc.ExprGen
open CTypes CEval CSyntax CArith SsaSem
open Shecc.Ssa (Insn Op1)
open Shecc.Parser (POp prio getOperator operator)

/-! ### The specification is determinate -/

theorem memberAt_fun {E : Env} {a o o' : Nat} {fs : List (String × CTypes.T)} {f : String} {t t' : CTypes.T} (h : MemberAt E a fs f o t)
    (h' : MemberAt E a fs f o' t') : o' = o ∧ t' = t := by
  induction h with
  | here =>
    cases h' with
    | here => exact ⟨rfl, rfl⟩
    | there hne => exact absurd rfl hne
  | there hne hk r ih =>
    cases h' with
    | here => exact absurd rfl hne
    | there _ hk' r' =>
      have := Types.HasSize.fun' hk hk'
      subst this
      exact ih r'

theorem decay_points {M : Mach} {w : M.World} {t u u' : CTypes.T} {pl : Place} {r : Res} (h : PointsTo t u) (h' : Decay w t pl u' r) : u' = u := by
  cases h <;> cases h' <;> rfl

/-- The type that an evaluation assigns to an lvalue is the one it is written with. -/
theorem evLv_type {S : Scope} {M : Mach} {C : Lang M} {ρ : Nat → Word} : ∀ {l : Lv} {t : CTypes.T} {ts : List Tk} {d d1 : List Char}, WLv S l t ts d d1 →
    ∀ {w w' : M.World} {t' : CTypes.T} {pl : Place}, EvLv C S.E S.decl ρ w l w' t' pl → t' = t ∧ ∀ x, pl = .var x ↔ l = .var x
  | _, _, _, _, _, .var _ _ ht _, _, _, _, _, h => by
    cases h with
    | var ht' => rw [ht] at ht'; cases ht'; exact ⟨rfl, fun x => by simp⟩
  | _, _, _, _, _, .index hl hu _ _ _, _, _, _, _, h => by
    cases h with
    | index hl' hb he hk =>
      have := (evLv_type hl hl').1
      subst this
      exact ⟨decay_points hu hb, fun x => by simp⟩
  | _, _, _, _, _, .dot hl hf hm, _, _, _, _, h => by
    cases h with
    | dot hl' hf' hm' =>
      have := (evLv_type hl hl').1
      cases this
      rw [hf] at hf'; cases hf'
      exact ⟨(memberAt_fun hm hm').2, fun x => by simp⟩
  | _, _, _, _, _, .arrow hl hp hf hm _, _, _, _, _, h => by
    cases h with
    | arrow hl' hb hf' hm' =>
      have := (evLv_type hl hl').1
      subst this
      have := decay_points hp hb
      cases this
      rw [hf] at hf'; cases hf'
      exact ⟨(memberAt_fun hm hm').2, fun x => by simp⟩

/-! ### What is to be shown of each phrase -/

variable {base : Nat} {T : Types.Table} {S : Scope}

def Place.res : Place → Res
  | .var x => .var x
  | .mem a => .val a

def phEx (S : Scope) (e : Ex) : Phrase base := fun X w w' res => EvEx X.C S.E S.decl X.ρ w e w' res
def phLv (S : Scope) (l : Lv) (t : CTypes.T) : Phrase base := fun X w w' res => ∃ pl, EvLv X.C S.E S.decl X.ρ w l w' t pl ∧ res = Place.res pl
/-- The pointer that the lvalue yields. -/
def phPt (S : Scope) (l : Lv) (t : CTypes.T) (u : CTypes.T) : Phrase base := fun X w w' res => ∃ pl, EvLv X.C S.E S.decl X.ρ w l w' t pl ∧ Decay w' t pl u res

/-- For an element of an array the state says whether it is a pointer. -/
def FromArray (S : Scope) (l : Lv) (t : CTypes.T) (st : LvSt) : Prop :=
  ∀ l' e n, l = .index l' e → TypeOf S l' (.arr n t) → (0 < st.isPtr ↔ isPtr t = true)

def RLv (base : Nat) (T : Types.Table) (S : Scope) (l : Lv) (t : CTypes.T) (ts : List Tk) (d d1 : List Char) : Prop :=
  ∃ s x ts', ts = (.identifier, s) :: ts' ∧ S.const s = none ∧ S.var s = some x ∧ ∀ g rest, base ≤ g.next → g.data = d →
    ∃ st sp b g', LvRel T S.E st l t (isAccess rest) sp b ∧ FromArray S l t st ∧ g'.data = d1 ∧ Comp base g g' (phLv S l t) ∧
      ∀ y, Conv (fun n => access (names T S) n st g' rest) y → Conv (fun n => (lvStart T x (Types.readVar (S.decl x)) (ts' ++ rest) g).bind fun q =>
        access (names T S) n q.1 q.2 (ts' ++ rest)) y

def ROp (base : Nat) (T : Types.Table) (S : Scope) (e : Ex) (ts : List Tk) (fl : Bool) (d d1 : List Char) : Prop :=
  ∀ g rest, base ≤ g.next → g.data = d → okHead fl rest = true →
    ∃ g', Conv (fun n => operand (names T S) n (ts ++ rest) g) (g', rest) ∧ g'.data = d1 ∧ Comp base g g' (phEx S e)

def REx (base : Nat) (T : Types.Table) (S : Scope) (p : Nat) (e : Ex) (ts : List Tk) (fl : Bool) (d d1 : List Char) : Prop :=
  ∀ lg os g rest, base ≤ g.next → g.data = d → okHead fl rest = true → (lg = true → 0 < p) → (∀ q ∈ os, prio q < p) →
    (∀ q ts, getOperator rest = (some q, ts) → prio q ≤ p) →
    ∃ g', g'.data = d1 ∧ Comp base g g' (phEx S e) ∧ ∀ y, Conv (fun n => exprLoop (names T S) n lg os rest g') y →
      Conv (fun n => (operand (names T S) n (ts ++ rest) g).bind fun r => exprLoop (names T S) n lg os r.2 r.1) y

def RSum (base : Nat) (T : Types.Table) (S : Scope) (es : Exs) (ts : List Tk) (d d1 : List Char) : Prop :=
  ∀ st g g0 g1 rest k P, base ≤ g.next → g1.data = d → okHead true rest = true → tySize T st.ty = some k → 0 < k → Comp base g g1 P →
    ((st.isRef = false ∧ g1 = g0) ∨ (st.isRef = true ∧ short es = true ∧ isNil es = false ∧ g0.un .read st.size = some g1)) →
    ∃ g2 sz, Conv (fun n => sums (names T S) n st g0 (ts ++ rest)) ({ st with size := sz }, g2, rest) ∧ g2.data = d1 ∧
      Comp base g g2 fun X w w' res => ∃ w1 r, P X w w1 r ∧ EvSum X.C S.E S.decl X.ρ (BitVec.ofNat 32 k) w1 r es w' res

def RArgs (base : Nat) (T : Types.Table) (S : Scope) (es : Exs) (ts : List Tk) (d d1 : List Char) : Prop :=
  ∀ g rest j, base ≤ g.next → g.data = d → ∃ g' m, Conv (fun n => args (names T S) n (ts ++ rest) g j) (g', j + m, rest) ∧ g'.data = d1 ∧
    CompL base g g' m fun X w w' rs => EvArgs X.C S.E S.decl X.ρ w es w' rs

theorem wLv_typeOf : ∀ {l : Lv} {t : CTypes.T} {ts : List Tk} {d d1 : List Char}, WLv S l t ts d d1 → ∀ {t' : CTypes.T}, TypeOf S l t' → t = t'
  | _, _, _, _, _, .var _ _ ht _, _, h => by
    cases h with
    | var ht' => rw [ht] at ht'; cases ht'; rfl
  | _, _, _, _, _, .index hl hu _ _ _, _, h => by
    cases h with
    | index hl' hu' =>
      have := wLv_typeOf hl hl'
      subst this
      cases hu <;> cases hu' <;> rfl
  | _, _, _, _, _, .dot hl hf hm, _, h => by
    cases h with
    | dot hl' hf' hm' =>
      have := wLv_typeOf hl hl'
      cases this
      rw [hf] at hf'; cases hf'
      exact (memberAt_fun hm' hm).2
  | _, _, _, _, _, .arrow hl hp hf hm _, _, h => by
    cases h with
    | arrow hl' hp' hf' hm' =>
      have := wLv_typeOf hl hl'
      subst this
      have : ∀ {t u v : CTypes.T}, PointsTo t u → PointsTo t v → u = v := by intro t u v h h'; cases h <;> cases h' <;> rfl
      cases this hp hp'
      rw [hf] at hf'; cases hf'
      exact (memberAt_fun hm' hm).2

theorem elem_isPtr {E : Env} (h : TOk T E) {st : LvSt} {l : Lv} {t u : CTypes.T} {acc : Bool} {sp : TSpec} {b : CTypes.T} {n : Nat}
    (hr : LvRel T E st l t acc sp b) (ht : t = .arr n u) : 0 < st.isPtr ↔ isPtr u = true := by
  obtain ⟨hb1, hb2, hb3⟩ := base_kind h hr.hb
  cases hi : isIndex l with
  | true =>
    obtain ⟨_, _, _, q, hq, _⟩ := hr.hidx hi
    have := isArr_pointers hb2 q
    rw [← hq, ht] at this; cases this
  | false =>
    obtain ⟨hs, _⟩ := hr.hdir hi
    rw [ht] at hs
    generalize ht' : CTypes.T.arr n u = t' at hs
    cases hs with
    | obj ha hf =>
      have := isArr_pointers hb2 st.var.isPtr
      rw [← ht'] at this; cases this
    | fn ha hf => cases ht'
    | arr ha hf =>
      cases ht'
      rw [hr.hp, isPtr_pointers hb1]
      simp

/-! ### Expressions in brackets -/

theorem REx.expr {e : Ex} {ts : List Tk} {fl : Bool} {d d1 : List Char} (h : REx base T S 0 e ts fl d d1) {g : G} {rest : List Parser.T} (hb : base ≤ g.next)
    (hd : g.data = d) (hr : okHead fl rest = true) (ho : getOperator rest = (none, rest)) :
    ∃ g', Conv (fun n => expr (names T S) n (ts ++ rest) g) (g', rest) ∧ g'.data = d1 ∧ Comp base g g' (phEx S e) := by
  obtain ⟨g', h1, h2, h3⟩ := h false [] g rest hb hd hr (fun h => by cases h) (fun _ h => by cases h) (fun q ts h => by rw [ho] at h; cases h)
  refine ⟨g', Conv.succ (fun n => by simp only [ExprGen.expr]) (h3 (g', rest) (Conv.const fun n => ?_)), h1, h2⟩
  simp only [exprLoop, ho, flush, Option.map_some]

/-! ### Lvalues -/

theorem comp_fetch {l : Lv} {t u : CTypes.T} {ts : List Tk} {d d1 : List Char} (hw : WLv S l t ts d d1) (hu : PointsTo t u) {g g1 : G} (hb : base ≤ g.next)
    (h : Comp base g g1 (phLv S l t)) : ∃ g2, (if fetch l t then g1.un .read 4 else some g1) = some g2 ∧ g2.data = g1.data ∧ Comp base g g2 (phPt S l t u) := by
  by_cases hf : fetch l t = true
  · rw [if_pos hf]
    obtain ⟨g2, h1, h2, h3⟩ := h.read hb 4
    refine ⟨g2, h1, h2, h3.mono ?_⟩
    rintro X w w' res ⟨pl, he, hd⟩
    have hv := (evLv_type hw he).2
    cases hd with
    | mem hv' => exact ⟨_, _, ⟨_, he, rfl⟩, hv', rfl⟩
    | var => rw [(hv _).1 rfl] at hf; simp [fetch, isVar] at hf
    | arrVar => simp [fetch, isPtr] at hf
    | arrMem => simp [fetch, isPtr] at hf
  · rw [if_neg hf]
    refine ⟨g1, rfl, rfl, h.mono ?_⟩
    rintro X w w' res ⟨pl, he, hd⟩
    have hv := (evLv_type hw he).2
    cases hd with
    | mem =>
      refine absurd ?_ hf
      cases l with
      | var x => exact absurd ((hv x).2 rfl) (by simp)
      | _ => simp [fetch, isVar, isPtr]
    | var => exact ⟨_, he, rfl⟩
    | arrVar => exact ⟨_, he, rfl⟩
    | arrMem => exact ⟨_, he, rfl⟩

theorem comp_place {l : Lv} {t : CTypes.T} {ts : List Tk} {d d1 : List Char} (hw : WLv S l t ts d d1) {g g1 : G} (hb : base ≤ g.next)
    (h : Comp base g g1 (phLv S l t)) : ∃ g2, (if isVar l then g1.un .address_of 0 else some g1) = some g2 ∧ g2.data = g1.data ∧
      Comp base g g2 fun X w w' res => ∃ pl, EvLv X.C S.E S.decl X.ρ w l w' t pl ∧ res = .val (pl.addr (M := X.M)) := by
  by_cases hf : isVar l = true
  · rw [if_pos hf]
    obtain ⟨g2, h1, h2, h3⟩ := h.addr hb 0
    refine ⟨g2, h1, h2, h3.mono ?_⟩
    rintro X w w' res ⟨pl, he, rfl⟩
    have hv := (evLv_type hw he).2
    cases l with
    | var x =>
      have := (hv x).2 rfl
      subst this
      exact ⟨x, ⟨_, he, rfl⟩, rfl⟩
    | _ => simp [isVar] at hf
  · rw [if_neg hf]
    refine ⟨g1, rfl, rfl, h.mono ?_⟩
    rintro X w w' res ⟨pl, he, rfl⟩
    have hv := (evLv_type hw he).2
    cases pl with
    | var x => rw [(hv x).1 rfl] at hf; simp [isVar] at hf
    | mem a => exact ⟨_, he, rfl⟩

theorem comp_offset {g g1 : G} {P : Phrase base} (h : Comp base g g1 P) (hb : base ≤ g.next) (o : Nat) :
    ∃ g2, (g1.const (BitVec.ofNat 32 o)).bin .add = some g2 ∧ g2.data = g1.data ∧
      Comp base g g2 fun X w w' res => ∃ r, P X w w' r ∧ res = .val (r.use X.ρ w' + BitVec.ofNat 32 o) := by
  have hn := h.next
  obtain ⟨g2, h1, h2, h3⟩ := h.alu2 (comp_const (base := base) (g := g1) (by omega) (BitVec.ofNat 32 o)) hb (op := .add) (o := .add) rfl
  refine ⟨g2, h1, h2, h3.mono ?_⟩
  rintro X w w' res ⟨r, hp, rfl⟩
  exact ⟨w', r, _, _, hp, ⟨rfl, rfl⟩, rfl, rfl⟩

theorem rLv_var (h : TOk T S.E) (hvb : ∀ s x, S.var s = some x → x < base) {s : List Char} {x : Nat} {t : CTypes.T} {k : Nat} {d : List Char}
    (hc : S.const s = none) (hv : S.var s = some x) (ht : (S.decl x).type S.E = some t) (hk : HasSize S.E t k) :
    RLv base T S (.var x) t [(.identifier, s)] d d := by
  refine ⟨s, x, [], rfl, hc, hv, fun g rest hb hd => ?_⟩
  obtain ⟨st, sp, b, h1, h2⟩ := lvStart_ok h ht hk x rest g
  refine ⟨st, sp, b, { g with stack := x :: g.stack }, h2, (fun _ _ _ h => by cases h), hd, (comp_var (hvb s x hv)).mono ?_, fun y hy => ?_⟩
  · rintro X w w' res ⟨pl, he, rfl⟩
    cases he with
    | var _ => exact ⟨rfl, rfl⟩
  · refine Conv.eq (fun n => ?_) hy
    rw [List.nil_append, h1, Option.bind_some]

theorem rLv_index (h : TOk T S.E) {l : Lv} {t u : CTypes.T} {tl te : List Tk} {e : Ex} {fl : Bool} {k : Nat} {d d1 d2 : List Char} (hw : WLv S l t tl d d1)
    (hl : RLv base T S l t tl d d1) (hu : PointsTo t u) (he : REx base T S 0 e te fl d1 d2) (hk : HasSize S.E u k) (h4 : isIndex l = true → k = 4) :
    RLv base T S (.index l e) u (tl ++ p .open_square :: te ++ [p .close_square]) d d2 := by
  obtain ⟨s, x, tl', rfl, hc, hv, hl⟩ := hl
  refine ⟨s, x, tl' ++ p .open_square :: te ++ [p .close_square], by simp, hc, hv, fun g rest hb hd => ?_⟩
  obtain ⟨st, sp, b, g1, h1, _, h2, h3, hcont⟩ := hl g (p .open_square :: (te ++ p .close_square :: rest)) hb hd
  have hn := h3.next
  obtain ⟨i1, i2⟩ := idxStart_ok h h1 hu hk h4 g1 e (isAccess rest)
  obtain ⟨g2, f1, f2, f3⟩ := comp_fetch hw hu hb h3
  have hn2 := f3.next
  obtain ⟨g3, e1, e2, e3⟩ := he.expr (g := g2) (rest := p .close_square :: rest) (by omega) (by rw [f2, h2]) rfl rfl
  obtain ⟨g4, a1, a2, a3⟩ := f3.scaleAdd e3 hb k (decide (k ≠ 1)) (by simp)
  refine ⟨_, sp, b, g4, i2, ?_, by rw [a2, e2], a3.mono ?_, fun y hy => ?_⟩
  · intro l' e' n heq hty
    cases heq
    have ht := wLv_typeOf hw hty
    have := elem_isPtr h h1 ht
    exact this
  · rintro X w w' res ⟨pl, hev, rfl⟩
    cases hev with
    | index hl' hb' he' hk' =>
      have := (evLv_type hw hl').1
      subst this
      have := Types.HasSize.fun' hk hk'
      subst this
      exact ⟨_, _, _, ⟨_, hl', hb'⟩, he', rfl⟩
  · have := hcont y (Conv.succ (h := fun n => (expr (names T S) n (te ++ p .close_square :: rest) g2).bind fun r =>
      (scaleAdd (decide (k ≠ 1)) k r.1).bind fun g => match r.2 with
        | (.close_square, _) :: ts => access (names T S) n { st with size := k, got := true, member := true, isRef := true } g ts
        | _ => none) (fun n => ?_) (Conv.bind e1 ?_))
    · simpa using this
    · simp only [p, access, names]
      rw [i1, f1]
      simp only [Option.map_some, Option.bind_some]
      rfl
    · simp only [a1, Option.bind_some, p]
      exact hy

theorem rLv_dot (h : TOk T S.E) {l : Lv} {s : Sid} {tl : List Tk} {f : String} {o : Nat} {t : CTypes.T} {fs : List (String × CTypes.T)} {d d1 : List Char}
    (hw : WLv S l (.struct s) tl d d1) (hl : RLv base T S l (.struct s) tl d d1) (hf : S.E.fields s = some fs) (hm : MemberAt S.E 0 fs f o t) :
    RLv base T S (.dot l f) t (tl ++ [p .dot, (.identifier, f.toList)]) d d1 := by
  obtain ⟨s', x, tl', rfl, hc, hv, hl⟩ := hl
  refine ⟨s', x, tl' ++ [p .dot, (.identifier, f.toList)], by simp, hc, hv, fun g rest hb hd => ?_⟩
  obtain ⟨st, sp, b, g1, h1, _, h2, h3, hcont⟩ := hl g (p .dot :: (.identifier, f.toList) :: rest) hb hd
  obtain ⟨g2, f1, f2, f3⟩ := comp_place hw hb h3
  obtain ⟨st', sp', b', m1, m2⟩ := member_ok h h1 (.inl rfl) (fun h => by simp [isArr] at h) hf hm (l' := .dot l f) ⟨rfl, rfl⟩ (isAccess rest)
  obtain ⟨g3, o1, o2, o3⟩ := comp_offset f3 hb o
  refine ⟨st', sp', b', g3, m2, (fun _ _ _ h => by cases h), by rw [o2, f2, h2], o3.mono ?_, fun y hy => ?_⟩
  · rintro X w w' res ⟨pl, hev, rfl⟩
    cases hev with
    | dot hl' hf' hm' =>
      have := (evLv_type hw hl').1
      cases this
      rw [hf] at hf'; cases hf'
      have := (memberAt_fun hm hm').1
      subst this
      exact ⟨_, ⟨_, hl', rfl⟩, rfl⟩
  · have := hcont y (Conv.succ (h := fun n => access (names T S) n st' g3 rest) (fun n => ?_) hy)
    · simpa using this
    · simp only [p, access]
      rw [memStart_dot h1, f1, Option.bind_some]
      simp only [names]
      rw [m1, o1]
      rfl

theorem rLv_arrow (h : TOk T S.E) {l : Lv} {t' : CTypes.T} {s : Sid} {tl : List Tk} {f : String} {o : Nat} {t : CTypes.T} {fs : List (String × CTypes.T)}
    {d d1 : List Char} (hw : WLv S l t' tl d d1) (hl : RLv base T S l t' tl d d1) (hp : PointsTo t' (.struct s)) (hf : S.E.fields s = some fs)
    (hm : MemberAt S.E 0 fs f o t) (ha : isArr t' = true → ∃ x, l = .var x) : RLv base T S (.arrow l f) t (tl ++ [p .arrow, (.identifier, f.toList)]) d d1 := by
  obtain ⟨s', x, tl', rfl, hc, hv, hl⟩ := hl
  have hpa : isPtr t' = true ∨ isVar l = true := by
    generalize hu : CTypes.T.struct s = u at hp
    cases hp with
    | ptr u => exact .inl rfl
    | arr n u =>
      obtain ⟨x, rfl⟩ := ha rfl
      exact .inr rfl
  refine ⟨s', x, tl' ++ [p .arrow, (.identifier, f.toList)], by simp, hc, hv, fun g rest hb hd => ?_⟩
  obtain ⟨st, sp, b, g1, h1, _, h2, h3, hcont⟩ := hl g (p .arrow :: (.identifier, f.toList) :: rest) hb hd
  obtain ⟨g2, f1, f2, f3⟩ := comp_fetch hw hp hb h3
  obtain ⟨st', sp', b', m1, m2⟩ := member_ok h h1 (.inr hp) (fun h => by obtain ⟨x, rfl⟩ := ha h; rfl) hf hm (l' := .arrow l f) ⟨rfl, rfl⟩ (isAccess rest)
  obtain ⟨g3, o1, o2, o3⟩ := comp_offset f3 hb o
  refine ⟨st', sp', b', g3, m2, (fun _ _ _ h => by cases h), by rw [o2, f2, h2], o3.mono ?_, fun y hy => ?_⟩
  · rintro X w w' res ⟨pl, hev, rfl⟩
    cases hev with
    | arrow hl' hb' hf' hm' =>
      have := (evLv_type hw hl').1
      subst this
      have := decay_points hp hb'
      cases this
      rw [hf] at hf'; cases hf'
      have := (memberAt_fun hm hm').1
      subst this
      exact ⟨_, ⟨_, hl', hb'⟩, rfl⟩
  · have := hcont y (Conv.succ (h := fun n => access (names T S) n st' g3 rest) (fun n => ?_) hy)
    · simpa using this
    · simp only [p, access]
      rw [memStart_arrow h1 hpa, f1, Option.bind_some]
      simp only [names]
      rw [m1, o1]
      rfl

end Shecc.ExprGen
