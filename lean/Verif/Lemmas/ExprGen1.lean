import Verif.Spec.CSyntax
import Verif.Model.ExprGen
import Verif.Props.Types

/-!
# Translation of expressions: what the state of `read_lvalue` says about the type
-/

namespace Shecc.ExprGen
open CTypes CEval CSyntax
open Shecc.Types (Inv EnvOk findType specName readVar Rep)

/-- The type table fits the declarations. -/
structure TOk (T : Types.Table) (E : Env) : Prop where
  inv : Inv T E
  env : EnvOk E
  apart : E.Apart

variable {T : Types.Table} {E : Env}

theorem base_size (h : TOk T E) {sp : TSpec} {b : CTypes.T} {k : Nat} (hr : resolve E sp = some b) (hk : HasSize E b k) :
    tySize T (findType T (specName sp) .all) = some k := by
  obtain ⟨i, h3, h4⟩ := h.inv.all_spec h.env h.apart hr (Types.base_tag h.env hr hk)
  obtain ⟨e, h5, h6⟩ := h4.size hk
  simp [tySize, h3, h5, h6]

theorem base_kind (h : TOk T E) {sp : TSpec} {b : CTypes.T} (hr : resolve E sp = some b) : isPtr b = false ∧ isArr b = false ∧ b ≠ .fn := by
  cases sp with
  | tag s => cases hr; exact ⟨rfl, rfl, by simp⟩
  | name x =>
    obtain ⟨i, _, e, _, h2⟩ := h.inv.names x b hr
    cases b <;> first | exact h2.elim | exact ⟨rfl, rfl, by simp⟩

theorem isPtr_pointers {b : CTypes.T} (hb : isPtr b = false) (q : Nat) : isPtr (pointers q b) = decide (0 < q) := by
  cases q with
  | zero => simp [pointers, hb]
  | succ q => simp [pointers, isPtr]

theorem isArr_pointers {b : CTypes.T} (hb : isArr b = false) (q : Nat) : isArr (pointers q b) = false := by
  cases q with
  | zero => simp [pointers, hb]
  | succ q => simp [pointers, isArr]

theorem pointers_inj {b : CTypes.T} {q : Nat} {u : CTypes.T} (hb : isPtr b = false) (h : pointers q b = .ptr u) : ∃ r, q = r + 1 ∧ u = pointers r b := by
  cases q with
  | zero => simp only [pointers] at h; subst h; simp [isPtr] at hb
  | succ q => simp only [pointers, T.ptr.injEq] at h; exact ⟨q, rfl, h.symm⟩

/-- How a variable or member with the type specifier of `b` is declared to get type `t`. -/
inductive Shape (b : CTypes.T) : Types.Var → CTypes.T → Prop
  | obj {v : Types.Var} (ha : v.arraySize = 0) (hf : v.isFunc = false) : Shape b v (pointers v.isPtr b)
  | arr {v : Types.Var} (ha : 0 < v.arraySize) (hf : v.isFunc = false) : Shape b v (.arr v.arraySize (pointers v.isPtr b))
  | fn {v : Types.Var} (ha : v.arraySize = 0) (hf : v.isFunc = true) : Shape b v (.ptr .fn)

theorem shape_offset {b : CTypes.T} {v : Types.Var} {t : CTypes.T} (h : Shape b v t) (o : Nat) : Shape b { v with offset := o } t := by
  cases h with
  | obj ha hf => exact .obj (v := { v with offset := o }) ha hf
  | arr ha hf => exact .arr (v := { v with offset := o }) ha hf
  | fn ha hf => exact .fn (v := { v with offset := o }) ha hf

theorem shape_of {d : Declr} {t : CTypes.T} {k : Nat} (hd : d.type E = some t) (hk : HasSize E t k) :
    ∃ b, resolve E d.spec = some b ∧ Shape b (readVar d) t := by
  unfold Declr.type at hd
  obtain ⟨b, h1, h2⟩ := Option.map_eq_some_iff.1 hd
  refine ⟨b, h1, ?_⟩
  cases hform : d.form with
  | func =>
    simp only [hform] at h2
    subst h2
    exact .fn (by simp [readVar, hform]) (by simp [readVar, hform])
  | unsized =>
    simp only [hform] at h2
    subst h2
    have : (readVar d).isPtr = d.ptrs + 1 := by simp [readVar, hform]
    have h := Shape.obj (b := b) (v := readVar d) (by simp [readVar, hform]) (by simp [readVar, hform])
    rw [this] at h; exact h
  | plain =>
    simp only [hform] at h2
    subst h2
    have : (readVar d).isPtr = d.ptrs := by simp [readVar, hform]
    have h := Shape.obj (b := b) (v := readVar d) (by simp [readVar, hform]) (by simp [readVar, hform])
    rw [this] at h; exact h
  | array n =>
    simp only [hform] at h2
    subst h2
    cases hk with
    | arr hn hk =>
      have : (readVar d).isPtr = d.ptrs := by simp [readVar, hform]
      have h' : (readVar d).arraySize = n := by simp [readVar, hform]
      have h := Shape.arr (b := b) (v := readVar d) (by omega) (by simp [readVar, hform])
      rw [this, h'] at h; exact h

/-- `get_size`: the size of the object, or of an element of the array. -/
theorem getSize_obj (h : TOk T E) {sp : TSpec} {b : CTypes.T} (hr : resolve E sp = some b) {v : Types.Var} {t : CTypes.T} {k : Nat}
    (hs : Shape b v t) (hk : HasSize E t k) : ∃ m, getSize T v (findType T (specName sp) .all) = some m ∧
      (isArr t = false → m = k) ∧ ∀ n u, t = .arr n u → HasSize E u m := by
  obtain ⟨hb1, hb2, hb3⟩ := base_kind h hr
  cases hs with
  | fn ha hf => exact ⟨4, by simp [getSize, hf], fun _ => (by cases hk; rfl), fun n u hu => (by cases hu)⟩
  | obj ha hf =>
    by_cases hp : 0 < v.isPtr
    · refine ⟨4, by simp [getSize, hp], fun _ => (Types.pointers_size hp hk).symm, fun n u hu => ?_⟩
      have := isArr_pointers hb2 v.isPtr
      rw [hu] at this; cases this
    · have h0 : v.isPtr = 0 := by omega
      rw [h0] at hk
      refine ⟨k, by simp [getSize, hf, h0, base_size h hr hk], fun _ => rfl, fun n u hu => ?_⟩
      have := isArr_pointers hb2 v.isPtr
      rw [hu] at this; cases this
  | arr ha hf =>
    cases hk with
    | @arr _ _ k hn hk =>
      by_cases hp : 0 < v.isPtr
      · refine ⟨4, by simp [getSize, hp], fun h => (by simp [isArr] at h), fun n u hu => ?_⟩
        cases hu
        have := Types.pointers_size hp hk
        subst this; exact hk
      · have h0 : v.isPtr = 0 := by omega
        have hk' := hk
        rw [h0] at hk
        refine ⟨k, by simp [getSize, hf, h0, base_size h hr hk], fun h => (by simp [isArr] at h), fun n u hu => ?_⟩
        cases hu; exact hk'

def isVar : Lv → Bool
  | .var _ => true
  | _ => false

theorem isVar_not_index {l : Lv} (h : isVar l = true) : isIndex l = false := by cases l <;> simp_all [isVar, isIndex]

/-- What the state of `read_lvalue` says after the lvalue `l` of type `t` has been read; `acc`: an accessor follows. -/
structure LvRel (T : Types.Table) (E : Env) (st : LvSt) (l : Lv) (t : CTypes.T) (acc : Bool) (sp : TSpec) (b : CTypes.T) : Prop where
  hb : resolve E sp = some b
  hty : st.ty = findType T (specName sp) .all
  hp : st.isPtr = st.var.isPtr
  hf : st.isFunc = st.var.isFunc
  hvar : isVar l = true → st.got = false ∧ st.member = false ∧ st.isRef = acc
  hmem : isVar l = false → st.got = true ∧ st.member = true
  hdir : isIndex l = false → Shape b st.var t ∧ (∃ k, HasSize E t k) ∧ getSize T st.var st.ty = some st.size ∧
    (isVar l = false → st.isRef = !isArr t)
  hidx : isIndex l = true → st.isRef = true ∧ HasSize E t st.size ∧ st.var.isFunc = false ∧ ∃ q, t = pointers q b ∧
    (if st.var.arraySize = 0 then q + 1 ≤ st.var.isPtr else q ≤ st.var.isPtr)

variable {st : LvSt} {l : Lv} {t : CTypes.T} {acc : Bool} {sp : TSpec} {b : CTypes.T}

theorem lvStart_ok (h : TOk T E) {d : Declr} {k : Nat} (hd : d.type E = some t) (hk : HasSize E t k) (x : Nat) (ts : List Parser.T) (g : G) :
    ∃ st sp b, lvStart T x (readVar d) ts g = some (st, { g with stack := x :: g.stack }) ∧ LvRel T E st (.var x) t (isAccess ts) sp b := by
  obtain ⟨b, hb, hs⟩ := shape_of hd hk
  obtain ⟨m, hm, _⟩ := getSize_obj h hb hs hk
  have htn : (readVar d).typeName = specName d.spec := rfl
  refine ⟨_, d.spec, b, by simp only [lvStart, htn, hm, Option.map_some]; rfl, ?_⟩
  constructor <;> first | exact hb | rfl | skip
  · exact fun _ => ⟨rfl, rfl, rfl⟩
  · exact fun h => by simp [isVar] at h
  · exact fun _ => ⟨hs, ⟨k, hk⟩, hm, fun h => (by simp [isVar] at h)⟩
  · exact fun h => by simp [isIndex] at h

/-- The pointer must be fetched from memory. -/
def fetch (l : Lv) (t : CTypes.T) : Bool := !isVar l && isPtr t

theorem idxStart_ok (h : TOk T E) (hr : LvRel T E st l t true sp b) {u : CTypes.T} {k : Nat} (hu : PointsTo t u) (hk : HasSize E u k)
    (h4 : isIndex l = true → k = 4) (g : G) (e : Ex) (acc' : Bool) :
    idxStart T st g = (if fetch l t then g.un .read 4 else some g).map (fun g => ({ st with size := k }, g)) ∧
      LvRel T E { st with size := k, got := true, member := true, isRef := true } (.index l e) u acc' sp b := by
  obtain ⟨hb1, hb2, hb3⟩ := base_kind h hr.hb
  -- the facts to show
  suffices hgoal : (((st.isRef = true ∧ st.isPtr > 0 ∧ st.member = true) ↔ fetch l t = true) ∧ ¬ (st.var.isPtr = 0 ∧ st.var.arraySize = 0) ∧
      (if st.var.isPtr ≤ 1 ∧ st.var.arraySize = 0 then tySize T st.ty else some st.size) = some k) ∧ st.var.isFunc = false ∧
      ∃ q, u = pointers q b ∧ (if st.var.arraySize = 0 then q + 1 ≤ st.var.isPtr else q ≤ st.var.isPtr) by
    obtain ⟨⟨h1, h2, h3⟩, h5, q, h6, h7⟩ := hgoal
    constructor
    · unfold idxStart
      rw [h3]
      by_cases hf : fetch l t = true
      · rw [if_pos (h1.2 hf), if_pos hf]
        simp only [if_neg h2, Option.map_some]
        cases g.un .read 4 <;> rfl
      · rw [if_neg (fun h => hf (h1.1 h)), if_neg hf]
        simp only [Option.bind_some, if_neg h2, Option.map_some]
    · constructor
      · exact hr.hb
      · exact hr.hty
      · exact hr.hp
      · exact hr.hf
      · exact fun h => by simp [isVar] at h
      · exact fun _ => ⟨rfl, rfl⟩
      · exact fun h => by simp [isIndex] at h
      · exact fun _ => ⟨rfl, hk, h5, q, h6, h7⟩
  cases hi : isIndex l with
  | true =>
    obtain ⟨h1, h2, h3, q, h5, h6⟩ := hr.hidx hi
    have hv : isVar l = false := by cases l <;> simp_all [isIndex, isVar]
    have hk4 := h4 hi
    subst hk4
    cases hu with
    | arr n u =>
      have := isArr_pointers hb2 q
      rw [← h5] at this; simp [isArr] at this
    | ptr u =>
      obtain ⟨r, hq, hr'⟩ := pointers_inj hb1 h5.symm
      have hsz : st.size = 4 := Types.HasSize.fun' h2 (.ptr u)
      refine ⟨⟨?_, ?_, ?_⟩, h3, r, hr', ?_⟩
      · simp only [fetch, hv, isPtr, Bool.not_false, Bool.and_self, iff_true, (hr.hmem hv).2, and_true, h1, true_and, hr.hp]
        split at h6 <;> omega
      · split at h6 <;> omega
      · rw [if_neg, hsz]
        split at h6 <;> omega
      · split at h6 <;> simp_all <;> omega
  | false =>
    obtain ⟨hs, ⟨m, hm⟩, hg, href⟩ := hr.hdir hi
    obtain ⟨m', hm1, hm2, hm3⟩ := getSize_obj h hr.hb hs hm
    rw [hr.hty, hm1, Option.some.injEq] at hg
    subst hg
    have hfetch : 0 < st.var.isPtr → isPtr t = true → isArr t = false → ((st.isRef = true ∧ st.isPtr > 0 ∧ st.member = true) ↔ fetch l t = true) := by
      intro hp ht ha
      cases hv : isVar l with
      | true => simp [fetch, hv, (hr.hvar hv).2.1]
      | false => simp [fetch, hv, (hr.hmem hv).2, href hv, ha, hr.hp, hp, ht]
    cases hu with
    | ptr u =>
      generalize ht : CTypes.T.ptr u = t' at *
      cases hs with
      | fn ha hf => cases ht; cases hk
      | arr ha hf => cases ht
      | obj ha hf =>
        obtain ⟨r, hq, hr'⟩ := pointers_inj hb1 ht.symm
        have ha' := isArr_pointers hb2 st.var.isPtr
        have hsz := hm2 ha'
        have h4' : m = 4 := by rw [← ht] at hm; exact Types.HasSize.fun' hm (.ptr u)
        refine ⟨⟨hfetch (by omega) (by rw [← ht]; rfl) ha', by omega, ?_⟩, hf, r, hr', by rw [if_pos ha]; omega⟩
        by_cases h1 : st.var.isPtr ≤ 1
        · rw [if_pos ⟨h1, ha⟩, hr.hty]
          have : r = 0 := by omega
          subst this
          exact base_size h hr.hb (by rw [hr'] at hk; exact hk)
        · rw [if_neg (fun h => h1 h.1), hsz, h4']
          have : k = 4 := by rw [hr'] at hk; exact Types.pointers_size (by omega) hk
          rw [this]
    | arr n u =>
      generalize ht : CTypes.T.arr n u = t' at *
      cases hs with
      | fn ha hf => cases ht
      | obj ha hf =>
        have := isArr_pointers hb2 st.var.isPtr
        rw [← ht] at this; simp [isArr] at this
      | arr ha hf =>
        cases ht
        have := Types.HasSize.fun' (hm3 _ _ rfl) hk
        subst this
        refine ⟨⟨?_, by omega, by rw [if_neg (by omega)]⟩, hf, st.var.isPtr, rfl, by rw [if_neg (by omega)]; omega⟩
        cases hv : isVar l with
        | true => simp [fetch, hv, (hr.hvar hv).2.1]
        | false => simp [fetch, hv, href hv, isArr, isPtr]

theorem pointers_struct {b : CTypes.T} {q : Nat} {s : Sid} (h : pointers q b = .struct s) : b = .struct s := by
  cases q with
  | zero => exact h
  | succ q => cases h

theorem fieldsOk_size {E : Env} {a : Nat} {vs : List Types.Var} {fs : List (String × CTypes.T)} (h : Types.FieldsOk E a vs fs) {f : String} {o : Nat}
    {t : CTypes.T} (hm : MemberAt E a fs f o t) : ∃ k, HasSize E t k := by
  induction h with
  | nil => cases hm
  | @cons a k v vs g t' fs hn hr ho hk r ih =>
    cases hm with
    | here => exact ⟨k, hk⟩
    | there hne hk' r' =>
      have := Types.HasSize.fun' hk hk'
      subst this
      exact ih r'

theorem shape_arr {v : Types.Var} {t : CTypes.T} (hb : isArr b = false) (h : Shape b v t) : isArr t = decide (0 < v.arraySize) := by
  cases h with
  | obj ha hf => simp [isArr_pointers hb, ha]
  | arr ha hf => simp [isArr, ha]
  | fn ha hf => simp [isArr, ha]

/-- The type that an lvalue followed by `.` or `->` has or points to. -/
theorem base_struct (h : TOk T E) (hr : LvRel T E st l t acc sp b) {s : Sid} (hs : t = .struct s ∨ PointsTo t (.struct s)) : b = .struct s := by
  obtain ⟨hb1, hb2, hb3⟩ := base_kind h hr.hb
  have key : ∀ q, t = pointers q b → b = .struct s := by
    intro q hq
    rcases hs with hs | hs
    · exact pointers_struct (hq.symm.trans hs)
    · generalize hv : CTypes.T.struct s = v at hs
      cases hs with
      | ptr u =>
        obtain ⟨r, _, hr'⟩ := pointers_inj hb1 hq.symm
        exact (pointers_struct (hr'.symm.trans hv.symm)).trans hv
      | arr n u =>
        have := isArr_pointers hb2 q
        rw [← hq] at this; cases this
  cases hi : isIndex l with
  | true =>
    obtain ⟨_, _, _, q, hq, _⟩ := hr.hidx hi
    exact key q hq
  | false =>
    obtain ⟨hsh, _⟩ := hr.hdir hi
    generalize ht : t = t' at hsh
    cases hsh with
    | obj ha hf => exact key _ ht
    | fn ha hf =>
      rw [ht] at hs
      rcases hs with hs | hs <;> cases hs
    | arr ha hf =>
      rw [ht] at hs
      rcases hs with hs | hs
      · cases hs
      · generalize hv : CTypes.T.struct s = v at hs
        cases hs with
        | arr n u => exact (pointers_struct hv.symm).trans hv

theorem isRef_member (hr : LvRel T E st l t true sp b) (ha : isArr t = true → isVar l = true) : st.isRef = true := by
  cases hv : isVar l with
  | true => exact (hr.hvar hv).2.2
  | false =>
    cases hi : isIndex l with
    | true => exact (hr.hidx hi).1
    | false =>
      rw [(hr.hdir hi).2.2.2 hv]
      cases hx : isArr t with
      | false => rfl
      | true => rw [ha hx] at hv; cases hv

theorem member_ok (h : TOk T E) (hr : LvRel T E st l t true sp b) {s : Sid} (hs : t = .struct s ∨ PointsTo t (.struct s)) (ha : isArr t = true → isVar l = true)
    {fs : List (String × CTypes.T)} {f : String} {o : Nat} {t' : CTypes.T} (hf : E.fields s = some fs) (hm : MemberAt E 0 fs f o t') {l' : Lv}
    (hl' : isVar l' = false ∧ isIndex l' = false) (acc' : Bool) :
    ∃ st' sp' b', (∀ g, member T f.toList st g = ((g.const (BitVec.ofNat 32 o)).bin .add).map fun g => (st', g)) ∧ LvRel T E st' l' t' acc' sp' b' := by
  have hbs := base_struct h hr hs
  have hb := hr.hb
  rw [hbs] at hb
  obtain ⟨i, e, h3, h4, h5, h6, _⟩ := Props.struct_entry h.inv h.env h.apart hb hf
  obtain ⟨v, h7, h8, d, h9, h10⟩ := Props.fieldsOk_find h6 hm
  obtain ⟨k, hk⟩ := fieldsOk_size h6 hm
  obtain ⟨b', hb', hsh⟩ := shape_of h9 hk
  have hsh : Shape b' v t' := by rw [h10]; exact shape_offset hsh _
  obtain ⟨m, hm1, _⟩ := getSize_obj h hb' hsh hk
  have htn : v.typeName = specName d.spec := by rw [h10]; rfl
  have hfm : st.ty.bind (Types.findMember T (String.ofList f.toList)) = some v := by
    rw [hr.hty, h3, Option.bind_some, String.ofList_toList, Props.findMember_eq h4 h5, h7]
  refine ⟨{ ty := findType T (specName d.spec) .all
            size := m
            isPtr := v.isPtr
            isFunc := v.isFunc
            isRef := if v.arraySize > 0 then false else st.isRef
            var := v
            got := true
            member := true }, d.spec, b', fun g => ?_, ?_⟩
  · unfold member
    rw [hfm]
    simp only [Option.bind_some, htn, hm1, h8]
  · constructor <;> first | exact hb' | rfl | skip
    · rw [hl'.1]; exact fun h => by cases h
    · exact fun _ => ⟨rfl, rfl⟩
    · refine fun _ => ⟨hsh, ⟨k, hk⟩, hm1, fun _ => ?_⟩
      rw [shape_arr (base_kind h hb').2.1 hsh]
      dsimp only
      rw [isRef_member hr ha]
      by_cases h0 : 0 < v.arraySize <;> simp [h0]
    · rw [hl'.2]; exact fun h => by cases h

theorem memStart_arrow (hr : LvRel T E st l t true sp b) (hp : isPtr t = true ∨ isVar l = true) (g : G) :
    memStart true st g = if fetch l t then g.un .read 4 else some g := by
  cases hv : isVar l with
  | true => simp [memStart, fetch, hv, (hr.hvar hv).2.1]
  | false =>
    have : isPtr t = true := by rcases hp with h | h; exact h; rw [hv] at h; cases h
    simp [memStart, fetch, hv, (hr.hmem hv).2, this]

theorem memStart_dot (hr : LvRel T E st l t true sp b) (g : G) :
    memStart false st g = if isVar l then g.un .address_of 0 else some g := by
  cases hv : isVar l with
  | true => simp [memStart, (hr.hvar hv).1]
  | false => simp [memStart, (hr.hmem hv).1]

/-- At the end: the lvalue is a reference unless it is a variable or an array. -/
theorem lv_isRef (h : TOk T E) (hr : LvRel T E st l t false sp b) : st.isRef = (!isVar l && !isArr t) := by
  cases hv : isVar l with
  | true => simp [(hr.hvar hv).2.2]
  | false =>
    cases hi : isIndex l with
    | false => simp [(hr.hdir hi).2.2.2 hv]
    | true =>
      obtain ⟨h1, h2, _, q, hq, _⟩ := hr.hidx hi
      have : isArr t = false := by rw [hq]; exact isArr_pointers (base_kind h hr.hb).2.1 q
      simp [h1, this]

/-- The size of the object, for the last read. -/
theorem lv_size (h : TOk T E) (hr : LvRel T E st l t acc sp b) (ha : isArr t = false) {k : Nat} (hk : HasSize E t k) : st.size = k := by
  cases hi : isIndex l with
  | true => exact Types.HasSize.fun' (hr.hidx hi).2.1 hk
  | false =>
    obtain ⟨hs, _, hg, _⟩ := hr.hdir hi
    obtain ⟨m, h1, h2, _⟩ := getSize_obj h hr.hb hs hk
    rw [hr.hty, h1, Option.some.injEq] at hg
    rw [← hg, h2 ha]

/-- If a `+` would be taken for the addition of an index, the lvalue catches it. -/
theorem lv_catches (h : TOk T E) (hr : LvRel T E st l t acc sp b) (hv : st.var.isPtr > 0 ∨ st.var.arraySize > 0) : catches l t = true := by
  obtain ⟨hb1, hb2, hb3⟩ := base_kind h hr.hb
  cases hi : isIndex l with
  | true => simp [catches, hi]
  | false =>
    obtain ⟨hs, _⟩ := hr.hdir hi
    cases hs with
    | obj ha hf =>
      rw [ha] at hv
      simp [catches, isPtr_pointers hb1]
      omega
    | arr ha hf => simp [catches, isArr]
    | fn ha hf => simp [catches, isPtr]

theorem lv_points (h : TOk T E) (hr : LvRel T E st l t acc sp b) {u : CTypes.T} {k : Nat} (hu : PointsTo t u) (hk : HasSize E u k) :
    (st.var.isPtr > 0 ∨ st.var.arraySize > 0) ∧ ∃ q, u = pointers q b ∧ (isIndex l = false → q + (if isArr t then 0 else 1) = st.var.isPtr) := by
  obtain ⟨hb1, hb2, hb3⟩ := base_kind h hr.hb
  cases hi : isIndex l with
  | true =>
    obtain ⟨_, _, _, q, hq, hq'⟩ := hr.hidx hi
    cases hu with
    | arr n u =>
      have := isArr_pointers hb2 q
      rw [← hq] at this; cases this
    | ptr u =>
      obtain ⟨r, h1, h2⟩ := pointers_inj hb1 hq.symm
      refine ⟨?_, r, h2, fun h => by cases h⟩
      split at hq' <;> omega
  | false =>
    obtain ⟨hs, _⟩ := hr.hdir hi
    generalize ht : t = t' at hs
    cases hs with
    | obj ha hf =>
      rw [ht] at hu
      generalize ht' : pointers st.var.isPtr b = t'' at hu
      cases hu with
      | arr n u =>
        have := isArr_pointers hb2 st.var.isPtr
        rw [ht'] at this; cases this
      | ptr u =>
        obtain ⟨r, h1, h2⟩ := pointers_inj hb1 ht'
        exact ⟨by omega, r, h2, fun _ => by simp [isArr]; omega⟩
    | arr ha hf =>
      rw [ht] at hu
      cases hu with
      | arr n u => exact ⟨.inr ha, _, rfl, fun _ => by simp [isArr]⟩
    | fn ha hf =>
      rw [ht] at hu
      cases hu with
      | ptr u => cases hk

/-- The size by which an index is multiplied in an addition. -/
theorem sum_size (h : TOk T E) (hr : LvRel T E st l t acc sp b) {u : CTypes.T} {k : Nat} (hu : PointsTo t u) (hk : HasSize E u k) (hp : isPtr u = false) :
    tySize T st.ty = some k := by
  obtain ⟨hb1, hb2, hb3⟩ := base_kind h hr.hb
  obtain ⟨_, q, h1, _⟩ := lv_points h hr hu hk
  rw [h1, isPtr_pointers hb1] at hp
  have : q = 0 := by simpa using hp
  subst this
  rw [hr.hty]
  exact base_size h hr.hb (by rw [h1] at hk; exact hk)

/-- The size that `*` reads. -/
theorem deref_size (h : TOk T E) (hr : LvRel T E st l t acc sp b) {u : CTypes.T} {k : Nat} (hu : PointsTo t u) (hk : HasSize E u k) (hi : isIndex l = false)
    (ha : isArr t = true → isPtr u = false) : (if st.isPtr > 1 then some 4 else tySize T st.ty) = some k := by
  obtain ⟨hb1, hb2, hb3⟩ := base_kind h hr.hb
  obtain ⟨_, q, h1, h2⟩ := lv_points h hr hu hk
  have h2 := h2 hi
  by_cases hq : q = 0
  · subst hq
    rw [if_neg (by rw [hr.hp]; split at h2 <;> omega)]
    exact sum_size h hr hu hk (by rw [h1]; exact hb1)
  · have : isPtr u = true := by rw [h1, isPtr_pointers hb1]; simp; omega
    have ha' : isArr t = false := by
      cases hx : isArr t with
      | false => rfl
      | true => rw [ha hx] at this; cases this
    rw [ha'] at h2
    rw [if_pos (by rw [hr.hp]; simp at h2; omega)]
    rw [h1] at hk
    rw [Types.pointers_size (by omega) hk]

end Shecc.ExprGen
