import Verif.Model.Types

/-!
# The type table represents the declared types
-/

namespace Shecc.Types
open CTypes

/-! ### Lookup -/

/-- The entry ends the search. -/
def Hit (x : String) (flag : Flag) (t : Ty) : Prop :=
  t.name = x ∧ (t.base = .struct → flag ≠ .names) ∧ (t.base ≠ .struct → flag ≠ .tags)

theorem findFrom_miss {x : String} {flag : Flag} : ∀ {A : List Ty} {i : Nat}, (∀ t ∈ A, ¬ Hit x flag t) → ∀ B,
    findFrom x flag i (A ++ B) = findFrom x flag (i + A.length) B
  | [], i, _, B => by simp
  | t :: A, i, h, B => by
    have ih := findFrom_miss (A := A) (i := i + 1) (fun u hu => h u (List.mem_cons_of_mem _ hu)) B
    have ht := h t List.mem_cons_self
    have e : i + (t :: A).length = i + 1 + A.length := by simp only [List.length_cons]; omega
    rw [e, ← ih, List.cons_append]
    simp only [findFrom]
    by_cases hb : t.base = .struct
    · rw [if_pos hb]
      by_cases hf : flag = .names
      · rw [if_pos hf]
      · rw [if_neg hf, if_neg]
        intro hn; exact ht ⟨hn, fun _ => hf, fun h => absurd hb h⟩
    · rw [if_neg hb]
      by_cases hf : flag = .tags
      · rw [if_pos hf]
      · rw [if_neg hf, if_neg]
        intro hn; exact ht ⟨hn, fun h => absurd h hb, fun _ => hf⟩

theorem findFrom_append {x : String} {flag : Flag} {j : Nat} : ∀ {A : List Ty} {i : Nat}, findFrom x flag i A = some j → ∀ B,
    findFrom x flag i (A ++ B) = some j
  | [], i, h, B => by simp [findFrom] at h
  | t :: A, i, h, B => by
    rw [List.cons_append]
    simp only [findFrom] at h ⊢
    split at h
    · rename_i hb
      rw [if_pos hb]
      split at h
      · rename_i hf; rw [if_pos hf]; exact findFrom_append h B
      · rename_i hf
        rw [if_neg hf]
        split at h
        · rename_i hn; rw [if_pos hn]; exact h
        · rename_i hn; rw [if_neg hn]; exact findFrom_append h B
    · rename_i hb
      rw [if_neg hb]
      split at h
      · rename_i hf; rw [if_pos hf]; exact findFrom_append h B
      · rename_i hf
        rw [if_neg hf]
        split at h
        · rename_i hn; rw [if_pos hn]; exact h
        · rename_i hn; rw [if_neg hn]; exact findFrom_append h B

/-- Replacing an entry that is not found, or whose key is the same. -/
theorem findFrom_set {x : String} {flag : Flag} {e e' : Ty}
    (h : ∀ i r, findFrom x flag i (e' :: r) = findFrom x flag i (e :: r)) : ∀ {T : List Ty} {j : Nat} {i : Nat}, T[j]? = some e →
    findFrom x flag i (T.set j e') = findFrom x flag i T
  | [], j, i, hj => by simp at hj
  | t :: T, 0, i, hj => by
    simp only [List.getElem?_cons_zero, Option.some.injEq] at hj
    subst hj
    exact h i T
  | t :: T, j + 1, i, hj => by
    simp only [List.getElem?_cons_succ] at hj
    have ih : ∀ i, findFrom x flag i (T.set j e') = findFrom x flag i T := fun i => findFrom_set h hj
    rw [List.set_cons_succ]
    simp only [findFrom, ih]

theorem findFrom_all {x : String} {a b : Nat} : ∀ {T : List Ty} {i : Nat}, findFrom x .names i T = some a → findFrom x .tags i T = some b →
    findFrom x .all i T = some a ∨ findFrom x .all i T = some b
  | [], i, h, _ => by simp [findFrom] at h
  | t :: T, i, ha, hb => by
    simp only [findFrom] at ha hb ⊢
    by_cases hs : t.base = .struct
    · simp only [hs, if_true, reduceCtorEq, if_false] at ha hb ⊢
      by_cases hn : t.name = x
      · simp only [hn, if_true] at hb ⊢
        exact .inr hb
      · simp only [hn, if_false] at hb ⊢
        exact findFrom_all ha hb
    · simp only [hs, if_true, reduceCtorEq, if_false] at ha hb ⊢
      by_cases hn : t.name = x
      · simp only [hn, if_true] at ha ⊢
        exact .inl ha
      · simp only [hn, if_false] at ha ⊢
        exact findFrom_all ha hb

theorem findFrom_all_names {x : String} : ∀ {T : List Ty} {i : Nat}, (∀ e ∈ T, e.name = x → e.base ≠ .struct) →
    findFrom x .all i T = findFrom x .names i T
  | [], i, _ => rfl
  | t :: T, i, h => by
    have ih : ∀ i, findFrom x .all i T = findFrom x .names i T := fun i => findFrom_all_names fun e he => h e (List.mem_cons_of_mem _ he)
    simp only [findFrom, ih]
    by_cases hs : t.base = .struct
    · have hn : ¬ t.name = x := fun hn => h t List.mem_cons_self hn hs
      simp [hs, hn]
    · simp [hs]

theorem findFrom_all_tags {x : String} : ∀ {T : List Ty} {i : Nat}, (∀ e ∈ T, e.name = x → e.base = .struct) →
    findFrom x .all i T = findFrom x .tags i T
  | [], i, _ => rfl
  | t :: T, i, h => by
    have ih : ∀ i, findFrom x .all i T = findFrom x .tags i T := fun i => findFrom_all_tags fun e he => h e (List.mem_cons_of_mem _ he)
    simp only [findFrom, ih]
    by_cases hs : t.base = .struct
    · simp [hs]
    · have hn : ¬ t.name = x := fun hn => hs (h t List.mem_cons_self hn)
      simp [hs, hn]

theorem findFrom_tags_lt {s : String} {j : Nat} : ∀ {T : List Ty} {i : Nat}, findFrom s .tags i T = some j →
    i ≤ j ∧ ∃ e, T[j - i]? = some e ∧ e.name = s ∧ e.base = .struct
  | [], i, h => by simp [findFrom] at h
  | t :: T, i, h => by
    have hrec : findFrom s .tags (i + 1) T = some j → i ≤ j ∧ ∃ e, (t :: T)[j - i]? = some e ∧ e.name = s ∧ e.base = .struct := by
      intro h
      obtain ⟨h1, e, h2, h3⟩ := findFrom_tags_lt h
      refine ⟨by omega, e, ?_, h3⟩
      have : j - i = (j - (i + 1)) + 1 := by omega
      rw [this, List.getElem?_cons_succ]; exact h2
    simp only [findFrom] at h
    by_cases hs : t.base = .struct
    · simp only [hs, if_true, reduceCtorEq, if_false] at h
      by_cases hn : t.name = s
      · simp only [hn, if_true, Option.some.injEq] at h
        subst h
        exact ⟨Nat.le_refl _, t, by simp, hn, hs⟩
      · simp only [hn, if_false] at h
        exact hrec h
    · simp only [hs, if_true, if_false] at h
      exact hrec h

theorem findType_tags {T : Table} {s : String} {j : Nat} (h : findType T s .tags = some j) :
    ∃ e, T[j]? = some e ∧ e.name = s ∧ e.base = .struct := by
  have := findFrom_tags_lt h
  simpa using this.2


/-! ### Sizes -/

/-- What declarations ensure. -/
structure EnvOk (E : Env) : Prop where
  fields : ∀ s fs, E.fields s = some fs → fs ≠ []
  tag : ∀ s fs, E.fields (.tag s) = some fs → E.tags s = true
  unnamed : E.tydef "" = none ∧ E.tags "" = false

mutual
theorem HasSize.pos' {E : Env} (hE : ∀ s fs, E.fields s = some fs → fs ≠ []) {t : T} {k : Nat} : HasSize E t k → 0 < k
  | .char | .bool | .int | .ptr _ => by decide
  | .arr hn h => Nat.mul_pos (HasSize.pos' hE h) hn
  | .struct hf h => Extent.pos' hE h (hE _ _ hf)
theorem Extent.pos' {E : Env} (hE : ∀ s fs, E.fields s = some fs → fs ≠ []) {fs : List (String × T)} {k : Nat} : Extent E fs k → fs ≠ [] → 0 < k
  | .nil, h => absurd rfl h
  | .cons h _, _ => Nat.lt_of_lt_of_le (HasSize.pos' hE h) (Nat.le_add_right _ _)
end

mutual
theorem HasSize.fun' {E : Env} {t : T} {k : Nat} : HasSize E t k → ∀ {m}, HasSize E t m → k = m
  | .char, _, h => by cases h; rfl
  | .bool, _, h => by cases h; rfl
  | .int, _, h => by cases h; rfl
  | .ptr _, _, h => by cases h; rfl
  | .arr hn h, _, h' => by
    cases h' with
    | arr _ h' => rw [HasSize.fun' h h']
  | .struct hf h, _, h' => by
    cases h' with
    | struct hf' h' =>
      rw [hf] at hf'
      cases hf'
      exact Extent.fun' h h'
theorem Extent.fun' {E : Env} {fs : List (String × T)} {k : Nat} : Extent E fs k → ∀ {m}, Extent E fs m → k = m
  | .nil, _, h => by cases h; rfl
  | .cons h r, _, h' => by
    cases h' with
    | cons h' r' => rw [HasSize.fun' h h', Extent.fun' r r']
end

mutual
theorem HasSize.mono {E E' : Env} (hE : ∀ s fs, E.fields s = some fs → E'.fields s = some fs) {t : T} {k : Nat} : HasSize E t k → HasSize E' t k
  | .char => .char
  | .bool => .bool
  | .int => .int
  | .ptr t => .ptr t
  | .arr hn h => .arr hn (HasSize.mono hE h)
  | .struct hf h => .struct (hE _ _ hf) (Extent.mono hE h)
theorem Extent.mono {E E' : Env} (hE : ∀ s fs, E.fields s = some fs → E'.fields s = some fs) {fs : List (String × T)} {k : Nat} : Extent E fs k → Extent E' fs k
  | .nil => .nil
  | .cons h r => .cons (HasSize.mono hE h) (Extent.mono hE r)
end

/-- Environment `E'` declares all that `E` declares. -/
structure Grows (E E' : Env) : Prop where
  fields : ∀ s fs, E.fields s = some fs → E'.fields s = some fs
  tydef : ∀ x t, E.tydef x = some t → E'.tydef x = some t
  tags : ∀ s, E.tags s = true → E'.tags s = true

theorem resolve_mono {E E' : Env} (h : Grows E E') {sp : TSpec} {t : T} (hr : resolve E sp = some t) : resolve E' sp = some t := by
  cases sp with
  | tag s => exact hr
  | name x => exact h.tydef _ _ hr

theorem type_mono {E E' : Env} (h : Grows E E') {d : Declr} {t : T} (hr : d.type E = some t) : d.type E' = some t := by
  unfold Declr.type at hr ⊢
  obtain ⟨b, h1, h2⟩ := Option.map_eq_some_iff.1 hr
  rw [resolve_mono h h1]; exact Option.map_eq_some_iff.2 ⟨b, rfl, h2⟩

/-! ### Representation -/

/-- The variable is declared with this type. -/
def VarRep (E : Env) (v : Var) (t : T) : Prop := ∃ d : Declr, d.type E = some t ∧ v = { readVar d with offset := v.offset }

/-- The members of a structure, the first at offset `a`. -/
inductive FieldsOk (E : Env) : Nat → List Var → List (String × T) → Prop
  | nil {a : Nat} : FieldsOk E a [] []
  | cons {a k : Nat} {v : Var} {vs : List Var} {f : String} {t : T} {fs : List (String × T)} (hn : v.name = f) (hr : VarRep E v t)
      (ho : v.offset = a) (hk : HasSize E t k) (r : FieldsOk E (a + k) vs fs) : FieldsOk E a (v :: vs) ((f, t) :: fs)

theorem FieldsOk.mono {E E' : Env} (h : Grows E E') {a : Nat} {vs : List Var} {fs : List (String × T)} (hf : FieldsOk E a vs fs) :
    FieldsOk E' a vs fs := by
  induction hf with
  | nil => exact .nil
  | cons hn hr ho hk _ ih =>
    obtain ⟨d, hd, hv⟩ := hr
    exact .cons hn ⟨d, type_mono h hd, hv⟩ ho (HasSize.mono h.fields hk) ih

/-- Entry `e`, at index `i`, describes the type. -/
def RepE (T : Table) (E : Env) (i : Nat) (e : Ty) : CTypes.T → Prop
  | .void => e.name ≠ "" ∧ e.base ≠ .struct ∧ e.base ≠ .typedef ∧ e.size = 0
  | .char | .bool => e.name ≠ "" ∧ e.base ≠ .struct ∧ e.base ≠ .typedef ∧ e.size = 1
  | .int => e.name ≠ "" ∧ e.base ≠ .struct ∧ e.base ≠ .typedef ∧ e.size = 4
  | .struct s =>
    (∀ fs, E.fields s = some fs → FieldsOk E 0 e.fields fs ∧ Extent E fs e.size) ∧
    (E.fields s = none → ∃ g, s = .tag g ∧ findType T g .tags = some i ∧ e.size = 0)
  | _ => False

def Rep (T : Table) (E : Env) (i : Nat) (t : CTypes.T) : Prop := ∃ e, T[i]? = some e ∧ RepE T E i e t

structure Inv (T : Table) (E : Env) : Prop where
  names : ∀ x t, E.tydef x = some t → ∃ i, findType T x .names = some i ∧ Rep T E i t
  tags : ∀ s, E.tags s = true → ∃ i, findType T s .tags = some i ∧ Rep T E i (.struct (.tag s))
  freshN : ∀ x, x ≠ "" → E.tydef x = none → ∀ e ∈ T, e.name = x → e.base = .struct
  freshT : ∀ s, E.tags s = false → ∀ e ∈ T, e.name = s → e.base ≠ .struct

/-- Lookup by `find_type(name, 0)`. -/
theorem Inv.all_names {T : Table} {E : Env} (h : Inv T E) (ha : E.Apart) {x : String} {t : CTypes.T} (hx : E.tydef x = some t) :
    ∃ i, findType T x .all = some i ∧ Rep T E i t := by
  obtain ⟨i, h1, h2⟩ := h.names x t hx
  cases hs : E.tags x with
  | false => exact ⟨i, by rw [findType, findFrom_all_names (h.freshT x hs)]; exact h1, h2⟩
  | true =>
    obtain ⟨j, h3, h4⟩ := h.tags x hs
    have := ha x t hx hs
    subst this
    rcases findFrom_all h1 h3 with h5 | h5
    · exact ⟨i, h5, h2⟩
    · exact ⟨j, h5, h4⟩

theorem Inv.all_tags {T : Table} {E : Env} (h : Inv T E) (hE : EnvOk E) (ha : E.Apart) {s : String} (hs : E.tags s = true) :
    ∃ i, findType T s .all = some i ∧ Rep T E i (.struct (.tag s)) := by
  cases hx : E.tydef s with
  | some t =>
    have := ha s t hx hs
    subst this
    exact h.all_names ha hx
  | none =>
    obtain ⟨j, h3, h4⟩ := h.tags s hs
    have hne : s ≠ "" := by
      intro h0; subst h0; rw [hE.unnamed.2] at hs; cases hs
    exact ⟨j, by rw [findType, findFrom_all_tags (h.freshN s hne hx)]; exact h3, h4⟩

/-- Lookup of a declared type by its name. -/
theorem Inv.all_spec {T : Table} {E : Env} (h : Inv T E) (hE : EnvOk E) (ha : E.Apart) {sp : TSpec} {t : CTypes.T}
    (hr : resolve E sp = some t) (hc : ∀ s, sp = .tag s → E.tags s = true) :
    ∃ i, findType T (specName sp) .all = some i ∧ Rep T E i t := by
  cases sp with
  | name x => exact h.all_names ha hr
  | tag s =>
    cases hr
    exact h.all_tags hE ha (hc s rfl)

theorem Rep.size {T : Table} {E : Env} {i : Nat} {t : CTypes.T} (h : Rep T E i t) {k : Nat} (hk : HasSize E t k) :
    ∃ e, T[i]? = some e ∧ e.size = k := by
  obtain ⟨e, h1, h2⟩ := h
  refine ⟨e, h1, ?_⟩
  cases hk with
  | char => exact h2.2.2.2
  | bool => exact h2.2.2.2
  | int => exact h2.2.2.2
  | ptr => exact h2.elim
  | arr => exact h2.elim
  | struct hf hx => exact Extent.fun' (h2.1 _ hf).2 hx

/-- `size_var` of a variable whose base type is looked up. -/
theorem sizeVar_base {T : Table} {v : Var} {i : Nat} {e : Ty} (hp : ¬ (v.isPtr > 0 ∨ v.isFunc = true)) (hf : findType T v.typeName .all = some i)
    (he : T[i]? = some e) (hs : e.size ≠ 0) : sizeVar T v = some (if v.arraySize > 0 then e.size * v.arraySize else e.size) := by
  unfold sizeVar
  rw [if_neg hp, hf]
  simp only [Option.bind_some, he, if_neg hs, Option.map_some]

theorem sizeVar_ptr {T : Table} {v : Var} (hp : v.isPtr > 0 ∨ v.isFunc = true) :
    sizeVar T v = some (if v.arraySize > 0 then 4 * v.arraySize else 4) := by
  unfold sizeVar
  rw [if_pos hp]; rfl

theorem sizeVar_append {T : Table} {v : Var} {k : Nat} (h : sizeVar T v = some k) (B : List Ty) : sizeVar (T ++ B) v = some k := by
  unfold sizeVar at h ⊢
  by_cases hp : v.isPtr > 0 ∨ v.isFunc = true
  · rw [if_pos hp] at h ⊢; exact h
  · rw [if_neg hp] at h ⊢
    obtain ⟨m, h1, h2⟩ := Option.map_eq_some_iff.1 h
    obtain ⟨i, h3, h4⟩ := Option.bind_eq_some_iff.1 h1
    obtain ⟨t, h5, h6⟩ := Option.bind_eq_some_iff.1 h4
    have e1 : findType (T ++ B) v.typeName .all = some i := findFrom_append h3 B
    have get : ∀ {j : Nat} {u : Ty}, T[j]? = some u → (T ++ B)[j]? = some u := by
      intro j u hu
      rw [List.getElem?_append_left (by obtain ⟨h, _⟩ := List.getElem?_eq_some_iff.1 hu; exact h)]; exact hu
    rw [e1, Option.bind_some, get h5, Option.bind_some]
    refine Option.map_eq_some_iff.2 ⟨m, ?_, h2⟩
    split at h6
    · rename_i hz
      rw [if_pos hz]
      obtain ⟨j, h7, h8⟩ := Option.bind_eq_some_iff.1 h6
      obtain ⟨u, h9, h10⟩ := Option.map_eq_some_iff.1 h8
      rw [h7, Option.bind_some, get h9, Option.map_some, h10]
    · rename_i hz
      rw [if_neg hz]; exact h6

theorem pointers_size {E : Env} {p k : Nat} {t : CTypes.T} (hp : p > 0) (h : HasSize E (pointers p t) k) : k = 4 := by
  cases p with
  | zero => omega
  | succ p =>
    simp only [pointers] at h
    cases h; rfl

theorem base_tag {E : Env} (hE : EnvOk E) {sp : TSpec} {t : CTypes.T} {k : Nat} (hr : resolve E sp = some t) (h : HasSize E t k) :
    ∀ s, sp = .tag s → E.tags s = true := by
  intro s hs
  subst hs
  cases hr
  cases h with
  | struct hf _ => exact hE.tag _ _ hf

/-- `size_var` computes `sizeof`. -/
theorem Inv.sizeVar {T : Table} {E : Env} (h : Inv T E) (hE : EnvOk E) (ha : E.Apart) {d : Declr} {t : CTypes.T} {k : Nat}
    (hd : d.type E = some t) (hk : HasSize E t k) : Types.sizeVar T (readVar d) = some k := by
  unfold Declr.type at hd
  obtain ⟨b, h1, h2⟩ := Option.map_eq_some_iff.1 hd
  have base : ∀ {k : Nat}, d.ptrs = 0 → HasSize E (pointers d.ptrs b) k → ∃ i e, findType T (specName d.spec) .all = some i ∧
      T[i]? = some e ∧ e.size = k ∧ e.size ≠ 0 := by
    intro k h0 hk
    rw [h0] at hk
    obtain ⟨i, h3, h4⟩ := h.all_spec hE ha h1 (base_tag hE h1 hk)
    obtain ⟨e, h5, h6⟩ := h4.size hk
    exact ⟨i, e, h3, h5, h6, by have := HasSize.pos' hE.fields hk; omega⟩
  cases hform : d.form with
  | func =>
    simp only [hform] at h2
    subst h2
    cases hk
    rw [sizeVar_ptr (.inr (by simp [readVar, hform]))]
    simp [readVar, hform]
  | unsized =>
    simp only [hform] at h2
    subst h2
    cases hk
    rw [sizeVar_ptr (.inl (by simp [readVar, hform]))]
    simp [readVar, hform]
  | plain =>
    simp only [hform] at h2
    subst h2
    by_cases hp : d.ptrs = 0
    · obtain ⟨i, e, h3, h4, h5, h6⟩ := base hp hk
      rw [sizeVar_base (i := i) (e := e) (by simp [readVar, hform, hp]) h3 h4 h6]
      simp [readVar, hform, h5]
    · rw [sizeVar_ptr (.inl (by simp only [readVar, hform]; omega)), pointers_size (by omega) hk]
      simp [readVar, hform]
  | array n =>
    simp only [hform] at h2
    subst h2
    cases hk with
    | arr hn hk =>
      by_cases hp : d.ptrs = 0
      · obtain ⟨i, e, h3, h4, h5, h6⟩ := base hp hk
        rw [sizeVar_base (i := i) (e := e) (by simp [readVar, hform, hp]) h3 h4 h6]
        simp [readVar, hform, h5, hn]
      · rw [sizeVar_ptr (.inl (by simp only [readVar, hform]; omega)), pointers_size (by omega) hk]
        simp [readVar, hform, hn]

theorem readFields_ok {T : Table} {E : Env} (h : Inv T E) (hE : EnvOk E) (ha : E.Apart) (B : List Ty) : ∀ {ds : List Declr}
    {fs : List (String × CTypes.T)} (a : Nat), ds.mapM (fun d => (d.type E).map fun t => (d.name, t)) = some fs →
    (∀ x ∈ fs, ∃ k, HasSize E x.2 k) → ∃ vs m, readFields (T ++ B) ds a = some (vs, a + m) ∧ FieldsOk E a vs fs ∧ Extent E fs m
  | [], fs, a, hm, _ => by
    simp only [List.mapM_nil] at hm
    cases hm
    exact ⟨[], 0, rfl, .nil, .nil⟩
  | d :: ds, fs, a, hm, hc => by
    simp only [List.mapM_cons, Option.pure_def, Option.bind_eq_bind] at hm
    obtain ⟨x, h1, h2⟩ := Option.bind_eq_some_iff.1 hm
    obtain ⟨xs, h3, h4⟩ := Option.bind_eq_some_iff.1 h2
    cases h4
    obtain ⟨t, h5, h6⟩ := Option.map_eq_some_iff.1 h1
    subst h6
    obtain ⟨k, hk⟩ := hc _ List.mem_cons_self
    obtain ⟨vs, m, h7, h8, h9⟩ := readFields_ok h hE ha B (a + k) h3 fun x hx => hc x (List.mem_cons_of_mem _ hx)
    have hs := sizeVar_append (h.sizeVar hE ha h5 hk) B
    refine ⟨{ readVar d with offset := a } :: vs, k + m, ?_, .cons rfl ⟨d, h5, rfl⟩ rfl hk h8, .cons hk h9⟩
    simp only [readFields, hs, Option.bind_some, h7, Option.map_some, Nat.add_assoc]

end Shecc.Types
