import Verif.Lemmas.Types

/-!
# Declarations keep the type table in step with what is declared
-/

namespace Shecc.Types
open CTypes

theorem Grows.refl (E : Env) : Grows E E := ⟨fun _ _ h => h, fun _ _ h => h, fun _ h => h⟩
theorem Grows.trans {E F G : Env} (h : Grows E F) (h' : Grows F G) : Grows E G :=
  ⟨fun _ _ x => h'.fields _ _ (h.fields _ _ x), fun _ _ x => h'.tydef _ _ (h.tydef _ _ x), fun _ x => h'.tags _ (h.tags _ x)⟩
theorem Grows.apart {E F : Env} (h : Grows E F) (ha : F.Apart) : E.Apart := fun x t hx hs => ha x t (h.tydef _ _ hx) (h.tags _ hs)

theorem grows_define {E : Env} {s : Sid} {fs : List (String × CTypes.T)} (h : E.fields s = none) : Grows E (E.define s fs) := by
  refine ⟨fun r gs hr => ?_, fun _ _ h => h, fun _ h => h⟩
  simp only [Env.define]
  split
  · rename_i hs; subst hs; rw [h] at hr; cases hr
  · exact hr
theorem grows_name {E : Env} {x : String} {t : CTypes.T} (h : E.tydef x = none) : Grows E (E.name x t) := by
  refine ⟨fun _ _ h => h, fun y u hy => ?_, fun _ h => h⟩
  simp only [Env.name]
  split
  · rename_i hs; subst hs; rw [h] at hy; cases hy
  · exact hy
theorem grows_addTag {E : Env} {s : String} : Grows E (E.addTag s) := by
  refine ⟨fun _ _ h => h, fun _ _ h => h, fun r hr => ?_⟩
  simp only [Env.addTag]
  split
  · rfl
  · exact hr

theorem Declares.grows {E E' : Env} {d : Decl} (h : Declares E d E') : Grows E E' := by
  cases h with
  | struct hn hm => exact (grows_define hn).trans grows_addTag
  | tagged hn hm hx => exact ((grows_define hn).trans grows_addTag).trans (grows_name hx)
  | untagged hn hm hx => exact (grows_define hn).trans (grows_name hx)
  | forward hx => exact Grows.trans (F := E.addTag _) grows_addTag (grows_name hx)
  | enum hx => exact grows_name hx
  | alias hb hx => exact grows_name hx

theorem Rep.not_blank {T : Table} {E : Env} (hE : ∀ s fs, E.fields s = some fs → fs ≠ []) {i : Nat} {t : CTypes.T} (h : Rep T E i t) :
    T[i]? ≠ some ({} : Ty) := by
  obtain ⟨e, h1, h2⟩ := h
  intro h3
  rw [h1, Option.some.injEq] at h3
  subst h3
  cases t with
  | void => exact h2.1 rfl
  | char => exact h2.1 rfl
  | bool => exact h2.1 rfl
  | int => exact h2.1 rfl
  | fn => exact h2
  | ptr _ => exact h2
  | arr _ _ => exact h2
  | struct s =>
    cases hf : E.fields s with
    | some fs =>
      have := Extent.pos' hE (h2.1 fs hf).2 (hE _ _ hf)
      exact absurd this (by decide)
    | none =>
      obtain ⟨g, _, h4, _⟩ := h2.2 hf
      obtain ⟨e, h5, _, h6⟩ := findType_tags h4
      rw [h1, Option.some.injEq] at h5
      subst h5
      cases h6

theorem Rep.move {T T' : Table} {E E' : Env} {i : Nat} {t : CTypes.T} (h : Rep T E i t) (hget : ∀ e, T[i]? = some e → T'[i]? = some e)
    (htag : ∀ g, findType T g .tags = some i → findType T' g .tags = some i) (hg : Grows E E')
    (hf : ∀ s, t = .struct s → E'.fields s = E.fields s) : Rep T' E' i t := by
  obtain ⟨e, h1, h2⟩ := h
  refine ⟨e, hget e h1, ?_⟩
  cases t with
  | void => exact h2
  | char => exact h2
  | bool => exact h2
  | int => exact h2
  | fn => exact h2
  | ptr _ => exact h2
  | arr _ _ => exact h2
  | struct s =>
    refine ⟨fun fs h => ?_, fun h => ?_⟩
    · rw [hf s rfl] at h
      exact ⟨(h2.1 fs h).1.mono hg, Extent.mono hg.fields (h2.1 fs h).2⟩
    · rw [hf s rfl] at h
      obtain ⟨g, h3, h4, h5⟩ := h2.2 h
      exact ⟨g, h3, htag g h4, h5⟩

theorem get_append {T B : List Ty} {i : Nat} {e : Ty} (h : T[i]? = some e) : (T ++ B)[i]? = some e := by
  rw [List.getElem?_append_left (by obtain ⟨h, _⟩ := List.getElem?_eq_some_iff.1 h; exact h)]; exact h

/-- A new entry without a name. -/
theorem Inv.blank {T : Table} {E : Env} (h : Inv T E) : Inv (T ++ [({} : Ty)]) E where
  names := fun x t hx => by
    obtain ⟨i, h1, h2⟩ := h.names x t hx
    exact ⟨i, findFrom_append h1 _, h2.move (fun e => get_append) (fun g hg => findFrom_append hg _) (.refl E) (fun _ _ => rfl)⟩
  tags := fun s hs => by
    obtain ⟨i, h1, h2⟩ := h.tags s hs
    exact ⟨i, findFrom_append h1 _, h2.move (fun e => get_append) (fun g hg => findFrom_append hg _) (.refl E) (fun _ _ => rfl)⟩
  freshN := fun x hx0 hx e he hn => by
    rcases List.mem_append.1 he with he | he
    · exact h.freshN x hx0 hx e he hn
    · rw [List.mem_singleton] at he
      subst he
      exact absurd hn.symm hx0
  freshT := fun s hs e he hn => by
    rcases List.mem_append.1 he with he | he
    · exact h.freshT s hs e he hn
    · rw [List.mem_singleton] at he
      subst he
      exact fun h => by cases h

theorem Inv.no_tag {T : Table} {E : Env} (h : Inv T E) {s : String} (hs : E.tags s = false) : ∀ B, findType (T ++ B) s .tags = findFrom s .tags T.length B := by
  intro B
  have := findFrom_miss (A := T) (i := 0) (x := s) (flag := .tags)
    (fun t ht hh => by
      by_cases hb : t.base = .struct
      · exact h.freshT s hs t ht hh.1 hb
      · exact hh.2.2 hb rfl) B
  rw [Nat.zero_add] at this
  exact this

/-- A new tag. -/
theorem Inv.addTag {T : Table} {E : Env} (h : Inv T E) {s : String} (hs : E.tags s = false) (hf : E.fields (.tag s) = none) :
    Inv (T ++ [{ name := s, base := .struct }]) (E.addTag s) where
  names := fun x t hx => by
    obtain ⟨i, h1, h2⟩ := h.names x t hx
    exact ⟨i, findFrom_append h1 _, h2.move (fun e => get_append) (fun g hg => findFrom_append hg _) grows_addTag (fun _ _ => rfl)⟩
  tags := fun g hg => by
    by_cases hgs : g = s
    · subst hgs
      have : findType (T ++ [({ name := g, base := .struct } : Ty)]) g .tags = some T.length := by
        rw [h.no_tag hs]; simp [findFrom]
      refine ⟨T.length, this, { name := g, base := .struct }, by simp, fun fs h => ?_, fun _ => ⟨g, rfl, this, rfl⟩⟩
      rw [show (E.addTag g).fields (.tag g) = E.fields (.tag g) from rfl, hf] at h
      cases h
    · simp only [Env.addTag, if_neg hgs] at hg
      obtain ⟨i, h1, h2⟩ := h.tags g hg
      exact ⟨i, findFrom_append h1 _, h2.move (fun e => get_append) (fun g hg => findFrom_append hg _) grows_addTag (fun _ _ => rfl)⟩
  freshN := fun x hx0 hx e he hn => by
    rcases List.mem_append.1 he with he | he
    · exact h.freshN x hx0 hx e he hn
    · rw [List.mem_singleton] at he
      subst he
      rfl
  freshT := fun g hg e he hn => by
    have hgs : g ≠ s := by
      intro hgs; subst hgs; simp [Env.addTag] at hg
    simp only [Env.addTag, if_neg hgs] at hg
    rcases List.mem_append.1 he with he | he
    · exact h.freshT g hg e he hn
    · rw [List.mem_singleton] at he
      subst he
      exact absurd hn.symm hgs

/-- A tag that is there, or is added. -/
theorem Inv.tagEntry {T : Table} {E : Env} (h : Inv T E) (hE : EnvOk E) (s : String) (hf : E.fields (.tag s) = none) :
    ∃ B, (Types.tagEntry T s { name := s, base := .struct }).1 = T ++ B ∧
      findType (T ++ B) s .tags = some (Types.tagEntry T s { name := s, base := .struct }).2 ∧ Inv (T ++ B) (E.addTag s) := by
  cases hs : E.tags s with
  | true =>
    obtain ⟨j, h1, _⟩ := h.tags s hs
    have e : E.addTag s = E := by
      cases E
      simp only [Env.addTag, Env.mk.injEq, true_and]
      funext r
      split
      · rename_i hr; subst hr; exact hs.symm
      · rfl
    refine ⟨[], ?_, ?_, ?_⟩
    · simp [Types.tagEntry, h1]
    · simp [Types.tagEntry, h1]
    · rw [List.append_nil, e]; exact h
  | false =>
    have h0 : findType T s .tags = none := by
      have := h.no_tag hs []
      rwa [List.append_nil] at this
    refine ⟨[{ name := s, base := .struct }], ?_, ?_, h.addTag hs hf⟩
    · simp [Types.tagEntry, h0]
    · rw [h.no_tag hs]; simp [Types.tagEntry, h0, findFrom]

/-- Definition of a structure with a tag. -/
theorem Inv.define {T : Table} {E : Env} (h : Inv T E) (hE : ∀ s fs, E.fields s = some fs → fs ≠ []) {s : String} {j : Nat}
    (hj : findType T s .tags = some j) (hs : E.tags s = true) (hf : E.fields (.tag s) = none) {fs : List (String × CTypes.T)} {e' : Ty}
    (hn : e'.name = s) (hb : e'.base = .struct) (ho : FieldsOk E 0 e'.fields fs) (hx : Extent E fs e'.size) :
    Inv (T.set j e') (E.define (.tag s) fs) := by
  obtain ⟨e, he, hen, heb⟩ := findType_tags hj
  have hlt : j < T.length := (List.getElem?_eq_some_iff.1 he).1
  have hfind : ∀ x flag, findType (T.set j e') x flag = findType T x flag := by
    intro x flag
    refine findFrom_set (e := e) (fun i r => ?_) he
    simp only [findFrom, hb, heb, hn, hen, if_true]
  have hg : Grows E (E.define (.tag s) fs) := grows_define hf
  -- the entry describes no other type
  have hsz : e.size = 0 := by
    obtain ⟨i, h1, e2, h2, h3⟩ := h.tags s hs
    rw [hj, Option.some.injEq] at h1
    subst h1
    rw [he, Option.some.injEq] at h2
    subst h2
    obtain ⟨_, _, _, h4⟩ := h3.2 hf
    exact h4
  have hrep : ∀ i t, Rep T E i t → Rep (T.set j e') (E.define (.tag s) fs) i t := by
    intro i t hr
    by_cases hts : t = .struct (.tag s)
    · subst hts
      have hij : i = j := by
        obtain ⟨e2, h2, h3⟩ := hr
        obtain ⟨g, h4, h5, _⟩ := h3.2 hf
        cases h4
        rw [hj, Option.some.injEq] at h5
        exact h5.symm
      subst hij
      refine ⟨e', by rw [List.getElem?_set_self hlt], fun gs hgs => ?_, fun h0 => ?_⟩
      · simp only [Env.define, if_true, Option.some.injEq] at hgs
        subst hgs
        exact ⟨ho.mono hg, Extent.mono hg.fields hx⟩
      · simp [Env.define] at h0
    · have hij : i ≠ j := by
        intro hij
        subst hij
        obtain ⟨e2, h2, h3⟩ := hr
        rw [he, Option.some.injEq] at h2
        subst h2
        cases t with
        | void => exact h3.2.1 heb
        | char => exact h3.2.1 heb
        | bool => exact h3.2.1 heb
        | int => exact h3.2.1 heb
        | fn => exact h3
        | ptr _ => exact h3
        | arr _ _ => exact h3
        | struct r =>
          cases hr : E.fields r with
          | some gs =>
            have := Extent.pos' hE (h3.1 gs hr).2 (hE _ _ hr)
            omega
          | none =>
            obtain ⟨g, h4, h5, _⟩ := h3.2 hr
            obtain ⟨e3, h6, h7, _⟩ := findType_tags h5
            rw [he, Option.some.injEq] at h6
            subst h6
            rw [hen] at h7
            subst h7
            exact hts (by rw [h4])
      refine hr.move (fun e2 h2 => ?_) (fun g hg => by rw [hfind]; exact hg) hg (fun r hr => ?_)
      · rw [List.getElem?_set_ne (Ne.symm hij)]; exact h2
      · subst hr
        simp only [Env.define]
        rw [if_neg]
        intro h; subst h; exact hts rfl
  refine ⟨fun x t hx => ?_, fun g hgt => ?_, fun x hx0 hx0' a ha han => ?_, fun g hgt a ha han => ?_⟩
  · obtain ⟨i, h1, h2⟩ := h.names x t hx
    exact ⟨i, by rw [hfind]; exact h1, hrep i t h2⟩
  · obtain ⟨i, h1, h2⟩ := h.tags g hgt
    exact ⟨i, by rw [hfind]; exact h1, hrep i _ h2⟩
  · rcases List.mem_or_eq_of_mem_set ha with ha | ha
    · exact h.freshN x hx0 hx0' a ha han
    · subst ha; exact hb
  · rcases List.mem_or_eq_of_mem_set ha with ha | ha
    · exact h.freshT g hgt a ha han
    · subst ha
      rw [hn] at han
      subst han
      have hgt' : E.tags s = false := hgt
      rw [hs] at hgt'; cases hgt'

/-- Definition of a structure without a tag. -/
theorem Inv.anon {T : Table} {E : Env} (h : Inv T E) {x : String} {fs : List (String × CTypes.T)} (hf : E.fields (.anon x) = none) :
    Inv T (E.define (.anon x) fs) := by
  have hg : Grows E (E.define (.anon x) fs) := grows_define hf
  have hrep : ∀ i t, Rep T E i t → Rep T (E.define (.anon x) fs) i t := by
    intro i t hr
    refine hr.move (fun _ h => h) (fun _ h => h) hg (fun r hrt => ?_)
    subst hrt
    simp only [Env.define]
    rw [if_neg]
    intro h0
    subst h0
    obtain ⟨e, _, h3⟩ := hr
    obtain ⟨g, h4, _⟩ := h3.2 hf
    cases h4
  refine ⟨fun y t hy => ?_, fun g hgt => ?_, h.freshN, h.freshT⟩
  · obtain ⟨i, h1, h2⟩ := h.names y t hy
    exact ⟨i, h1, hrep i t h2⟩
  · obtain ⟨i, h1, h2⟩ := h.tags g hgt
    exact ⟨i, h1, hrep i _ h2⟩

/-- The entry without a name gets one. -/
theorem Inv.name {T : Table} {E : Env} (h : Inv T E) (hE : EnvOk E) {i : Nat} (hi : T[i]? = some {}) {x : String} (hx0 : x ≠ "")
    (hx : E.tydef x = none) {e : Ty} (hn : e.name = x) (hb : e.base ≠ .struct) {t : CTypes.T} {k : Nat}
    (hk : (if e.base = .typedef ∧ e.size = 0 then e.baseStruct else some i) = some k)
    (hr : Rep (T.set i e) (E.name x t) k t) : Inv (T.set i e) (E.name x t) := by
  have hlt : i < T.length := (List.getElem?_eq_some_iff.1 hi).1
  have hg : Grows E (E.name x t) := grows_name hx
  have htags : ∀ s, findType (T.set i e) s .tags = findType T s .tags := by
    intro s
    refine findFrom_set (e := {}) (fun i r => ?_) hi
    simp only [findFrom, hb, if_true, if_false]
    simp
  have hnames : ∀ y, y ≠ "" → y ≠ x → findType (T.set i e) y .names = findType T y .names := by
    intro y hy0 hyx
    refine findFrom_set (e := {}) (fun i r => ?_) hi
    have h1 : ¬ x = y := fun h => hyx h.symm
    have h2 : ¬ "" = y := fun h => hy0 h.symm
    simp [findFrom, hb, hn, h1, h2]
  have hrep : ∀ j u, Rep T E j u → Rep (T.set i e) (E.name x t) j u := by
    intro j u hu
    have hij : j ≠ i := by
      intro hij; subst hij; exact hu.not_blank hE.fields hi
    refine hu.move (fun e2 h2 => ?_) (fun g hg => by rw [htags]; exact hg) hg (fun _ _ => rfl)
    rw [List.getElem?_set_ne (Ne.symm hij)]; exact h2
  refine ⟨fun y u hy => ?_, fun g hgt => ?_, fun y hy0 hy a ha han => ?_, fun g hgt a ha han => ?_⟩
  · by_cases hyx : y = x
    · subst hyx
      simp only [Env.name, if_true, Option.some.injEq] at hy
      subst hy
      refine ⟨k, ?_, hr⟩
      have e1 : T.set i e = T.take i ++ e :: T.drop (i + 1) := List.set_eq_take_append_cons_drop.trans (if_pos hlt)
      rw [e1, findType, findFrom_miss (fun a ha hh => ?_)]
      · have : 0 + (T.take i).length = i := by simp; omega
        rw [this]
        simp only [findFrom, hb, if_false, hn, if_true, reduceCtorEq]
        exact hk
      · have := h.freshN y hx0 hx a (List.mem_of_mem_take ha) hh.1
        exact hh.2.1 this rfl
    · have hy' : E.tydef y = some u := by simpa only [Env.name, if_neg hyx] using hy
      have hy0 : y ≠ "" := by
        intro h0; subst h0; rw [hE.unnamed.1] at hy'; cases hy'
      obtain ⟨j, h1, h2⟩ := h.names y u hy'
      exact ⟨j, by rw [hnames y hy0 hyx]; exact h1, hrep j u h2⟩
  · obtain ⟨j, h1, h2⟩ := h.tags g hgt
    exact ⟨j, by rw [htags]; exact h1, hrep j _ h2⟩
  · have hyx : y ≠ x := by
      intro hyx; subst hyx; simp [Env.name] at hy
    rcases List.mem_or_eq_of_mem_set ha with ha | ha
    · exact h.freshN y hy0 (by simpa only [Env.name, if_neg hyx] using hy) a ha han
    · subst ha
      rw [hn] at han
      exact absurd han.symm hyx
  · rcases List.mem_or_eq_of_mem_set ha with ha | ha
    · exact h.freshT g hgt a ha han
    · subst ha; exact hb

/-- A new entry at the end. -/
theorem Inv.append {T : Table} {E : Env} (h : Inv T E) (hE : EnvOk E) {x : String} (hx0 : x ≠ "") (hx : E.tydef x = none) {e : Ty}
    (hn : e.name = x) (hb : e.base ≠ .struct) (hb' : e.base ≠ .typedef) {t : CTypes.T} (hr : ∀ T' E' i, RepE T' E' i e t) :
    Inv (T ++ [e]) (E.name x t) := by
  have hset : (T ++ [({} : Ty)]).set T.length e = T ++ [e] := by simp
  have := h.blank.name hE (i := T.length) (by simp) hx0 hx hn hb (t := t) (k := T.length)
    (by rw [if_neg]; exact fun h => hb' h.1) ⟨e, by simp, hr _ _ _⟩
  rwa [hset] at this

theorem Extent.fields_pos {E : Env} (hE : EnvOk E) {ds : List Declr} {fs : List (String × CTypes.T)} (hm : Members E ds fs) {m : Nat} (h : Extent E fs m) :
    m ≠ 0 := by
  have := Extent.pos' hE.fields h hm.some
  omega

theorem EnvOk.declares {E E' : Env} (h : EnvOk E) {d : Decl} (hn : d.Named) (hd : Declares E d E') : EnvOk E' := by
  have tagc : ∀ {s : String}, E.tags s = true → ∀ g, (E.addTag g).tags s = true := by
    intro s hs g; simp only [Env.addTag]; exact ite_eq_left_iff.2 fun _ => hs
  cases hd with
  | @struct s ds fs hf hm =>
    refine ⟨fun r gs hr => ?_, fun g gs hr => ?_, h.unnamed.1, ?_⟩
    · simp only [Env.addTag, Env.define] at hr
      split at hr
      · cases hr; exact hm.some
      · exact h.fields _ _ hr
    · simp only [Env.addTag, Env.define] at hr ⊢
      split
      · rfl
      · rename_i hne
        rw [if_neg (fun h => hne (by cases h; rfl))] at hr
        exact h.tag _ _ hr
    · simp only [Env.addTag, Env.define]
      rw [if_neg (fun h => hn h.symm)]; exact h.unnamed.2
  | @tagged s x ds fs hf hm hx =>
    refine ⟨fun r gs hr => ?_, fun g gs hr => ?_, ?_, ?_⟩
    · simp only [Env.addTag, Env.define, Env.name] at hr
      split at hr
      · cases hr; exact hm.some
      · exact h.fields _ _ hr
    · simp only [Env.addTag, Env.define, Env.name] at hr ⊢
      split
      · rfl
      · rename_i hne
        rw [if_neg (fun h => hne (by cases h; rfl))] at hr
        exact h.tag _ _ hr
    · simp only [Env.name]
      rw [if_neg (fun h => hn.2 h.symm)]; exact h.unnamed.1
    · simp only [Env.addTag, Env.define, Env.name]
      rw [if_neg (fun h => hn.1 (by rw [← h]))]; exact h.unnamed.2
  | @untagged x ds fs hf hm hx =>
    refine ⟨fun r gs hr => ?_, fun g gs hr => ?_, ?_, h.unnamed.2⟩
    · simp only [Env.define, Env.name] at hr
      split at hr
      · cases hr; exact hm.some
      · exact h.fields _ _ hr
    · simp only [Env.define, Env.name, reduceCtorEq, if_false] at hr
      exact h.tag _ _ hr
    · simp only [Env.name]
      rw [if_neg (fun h => hn.2 h.symm)]; exact h.unnamed.1
  | @forward s x hx =>
    refine ⟨h.fields, fun g gs hr => tagc (h.tag _ _ hr) _, ?_, ?_⟩
    · simp only [Env.name]
      rw [if_neg (fun h => hn.2 h.symm)]; exact h.unnamed.1
    · simp only [Env.addTag, Env.name]
      rw [if_neg (fun h => hn.1 (by rw [← h]))]; exact h.unnamed.2
  | @enum items x hx =>
    refine ⟨h.fields, h.tag, ?_, h.unnamed.2⟩
    simp only [Env.name]
    rw [if_neg (fun h => hn h.symm)]; exact h.unnamed.1
  | @alias b x t hb hx =>
    refine ⟨h.fields, h.tag, ?_, h.unnamed.2⟩
    simp only [Env.name]
    rw [if_neg (fun h => hn h.symm)]; exact h.unnamed.1

theorem modify_eq {T : List Ty} {j : Nat} {e : Ty} (h : T[j]? = some e) (f : Ty → Ty) : T.modify j f = T.set j (f e) := by
  apply List.ext_getElem?
  intro i
  rw [List.getElem?_modify, List.getElem?_set]
  have hlt : j < T.length := (List.getElem?_eq_some_iff.1 h).1
  by_cases hij : j = i
  · subst hij; simp [hlt]; rw [(List.getElem?_eq_some_iff.1 h).2]
  · simp [hij]

/-- One declaration. -/
theorem Inv.declare {T : Table} {E E' : Env} (h : Inv T E) (hE : EnvOk E) {d : Decl} (hn : d.Named) (hd : Declares E d E') (ha : E'.Apart)
    (hs : ∀ b x, d = .typedefName b x → ∀ s, E'.tydef x ≠ some (.struct s)) : ∃ T', Types.declare T d = some T' ∧ Inv T' E' := by
  have haE : E.Apart := (Declares.grows hd).apart ha
  cases hd with
  | @struct s ds fs hf hm =>
    obtain ⟨B, hB1, hB2, hB3⟩ := h.tagEntry hE s hf
    -- the table in which the members are read
    have hrd : ∃ B', (Types.tagEntry T s { name := s }).1 = T ++ B' ∧ (Types.tagEntry T s { name := s }).2 = (Types.tagEntry T s { name := s, base := .struct }).2 ∧
        ∀ e'' : Ty, (Types.tagEntry T s { name := s }).1.set (Types.tagEntry T s { name := s }).2 e'' = (T ++ B).set (Types.tagEntry T s { name := s, base := .struct }).2 e'' := by
      unfold Types.tagEntry at hB1 ⊢
      cases hfd : findType T s .tags with
      | some j =>
        rw [hfd] at hB1
        simp only at hB1 ⊢
        exact ⟨[], by simp, trivial, fun _ => by rw [← hB1]⟩
      | none =>
        rw [hfd] at hB1
        simp only at hB1 ⊢
        exact ⟨_, rfl, trivial, fun _ => by rw [← hB1]; simp⟩
    obtain ⟨B', hB1', hB2', hB3'⟩ := hrd
    obtain ⟨vs, m, h1, h2, h3⟩ := readFields_ok h hE haE B' 0 hm.types hm.complete
    rw [← hB1'] at h1
    obtain ⟨e0, he0, _⟩ : ∃ e0, (Types.tagEntry T s { name := s }).1[(Types.tagEntry T s { name := s }).2]? = some e0 ∧ True := by
      unfold Types.tagEntry
      cases hfd : findType T s .tags with
      | some j =>
        obtain ⟨e, he, _⟩ := findType_tags hfd
        exact ⟨e, he, trivial⟩
      | none => exact ⟨{ name := s }, by simp, trivial⟩
    refine ⟨(T ++ B).set (Types.tagEntry T s { name := s, base := .struct }).2 { e0 with name := s, fields := vs, size := m, base := .struct }, ?_, ?_⟩
    · simp only [Types.declare, declStruct, h1, Option.map_some, Option.some.injEq]
      rw [modify_eq he0, hB3', Nat.zero_add]
    · exact hB3.define (E := E.addTag s) (by exact hE.fields) hB2 (by simp [Env.addTag]) hf rfl rfl
        (h2.mono grows_addTag) (Extent.mono grows_addTag.fields h3)
  | @tagged s x ds fs hf hm hx =>
    have hb := h.blank
    obtain ⟨B, hB1, hB2, hB3⟩ := hb.tagEntry hE s hf
    obtain ⟨vs, m, h1, h2, h3⟩ := readFields_ok hb hE haE B 0 hm.types hm.complete
    have hm0 := Extent.fields_pos hE hm h3
    obtain ⟨e0, he0, hen, heb⟩ := findType_tags hB2
    obtain ⟨j, hj⟩ : ∃ j, j = (Types.tagEntry (T ++ [({} : Ty)]) s { name := s, base := .struct }).2 := ⟨_, rfl⟩
    rw [← hj] at hB2 he0
    have hi : (T ++ [({} : Ty)] ++ B)[T.length]? = some {} := by simp
    have hij : j ≠ T.length := by
      intro hij; rw [hij, hi, Option.some.injEq] at he0; subst he0; cases heb
    have hd := hB3.define (E := E.addTag s) (by exact hE.fields) hB2 (by simp [Env.addTag]) hf (fs := fs)
      (e' := { name := s, base := .struct, size := m, fields := vs }) rfl rfl (h2.mono grows_addTag) (Extent.mono grows_addTag.fields h3)
    have hEd : EnvOk ((E.addTag s).define (.tag s) fs) := hE.declares (d := .struct s ds) (fun h => hn.1 (by rw [h])) (.struct hf hm)
    have hg : Grows E ((E.addTag s).define (.tag s) fs) := grows_addTag.trans (grows_define hf)
    have hg' : Grows E (((E.addTag s).define (.tag s) fs).name x (.struct (.tag s))) := hg.trans (grows_name hx)
    have := hd.name hEd (i := T.length) (by rw [List.getElem?_set_ne hij]; exact hi) hn.2 hx
      (e := { name := x, base := .typedef, size := m, fields := vs }) rfl (by simp) (t := .struct (.tag s)) (k := T.length)
      (by rw [if_neg]; exact fun h => hm0 h.2)
      ⟨{ name := x, base := .typedef, size := m, fields := vs }, by rw [List.getElem?_set_self]; simp,
        fun gs hgs => by
          simp only [Env.name, Env.define, if_true, Option.some.injEq] at hgs
          subst hgs
          exact ⟨h2.mono hg', Extent.mono hg'.fields h3⟩,
        fun h0 => by simp [Env.name, Env.define] at h0⟩
    refine ⟨_, ?_, this⟩
    have h1' : readFields (Types.tagEntry (T ++ [({} : Ty)]) s { name := s, base := .struct }).1 ds 0 = some (vs, 0 + m) := by
      rw [hB1]; exact h1
    simp only [Types.declare, declTypedefStruct, h1', Option.map_some, Option.some.injEq, Nat.zero_add]
    rw [hB1, ← hj, modify_eq hi, modify_eq (e := e0) (by rw [List.getElem?_set_ne (Ne.symm hij)]; exact he0), List.set_comm _ _ (Ne.symm hij)]
  | @untagged x ds fs hf hm hx =>
    have hb := h.blank
    obtain ⟨vs, m, h1, h2, h3⟩ := readFields_ok h hE haE [{}] 0 hm.types hm.complete
    have hm0 := Extent.fields_pos hE hm h3
    have hEd : EnvOk (E.define (.anon x) fs) := by
      refine ⟨fun r gs hr => ?_, fun g gs hr => ?_, hE.unnamed⟩
      · simp only [Env.define] at hr
        split at hr
        · cases hr; exact hm.some
        · exact hE.fields _ _ hr
      · simp only [Env.define, reduceCtorEq, if_false] at hr
        exact hE.tag _ _ hr
    have hg' : Grows E ((E.define (.anon x) fs).name x (.struct (.anon x))) := (grows_define hf).trans (grows_name hx)
    have := (hb.anon (fs := fs) hf).name hEd (i := T.length) (by simp) hn.2 hx
      (e := { name := x, base := .typedef, size := m, fields := vs }) rfl (by simp) (t := .struct (.anon x)) (k := T.length)
      (by rw [if_neg]; exact fun h => hm0 h.2)
      ⟨{ name := x, base := .typedef, size := m, fields := vs }, by rw [List.getElem?_set_self]; simp,
        fun gs hgs => by
          simp only [Env.name, Env.define, if_true, Option.some.injEq] at hgs
          subst hgs
          exact ⟨h2.mono hg', Extent.mono hg'.fields h3⟩,
        fun h0 => by simp [Env.name, Env.define] at h0⟩
    refine ⟨_, ?_, this⟩
    simp only [Types.declare, declTypedefStruct, h1, Option.map_some, Option.some.injEq, Nat.zero_add]
    rw [modify_eq (e := {}) (by simp)]
  | @forward s x hx =>
    have hb := h.blank
    have tagd : ∀ (hEt : Inv (T ++ [({} : Ty)]) E), ∃ B, (Types.tagEntry (T ++ [({} : Ty)]) s { name := s, base := .struct }).1 = (T ++ [({} : Ty)]) ++ B ∧
      findType ((T ++ [({} : Ty)]) ++ B) s .tags = some (Types.tagEntry (T ++ [({} : Ty)]) s { name := s, base := .struct }).2 ∧ Inv ((T ++ [({} : Ty)]) ++ B) (E.addTag s) := by
      intro hEt
      cases hst : E.tags s with
      | false =>
        refine hEt.tagEntry hE s ?_
        cases hfs : E.fields (.tag s) with
        | none => rfl
        | some fs => rw [hE.tag _ _ hfs] at hst; cases hst
      | true =>
        obtain ⟨j, h1, _⟩ := hEt.tags s hst
        have e : E.addTag s = E := by
          cases E
          simp only [Env.addTag, Env.mk.injEq, true_and]
          funext r
          split
          · rename_i hr; subst hr; exact hst.symm
          · rfl
        refine ⟨[], ?_, ?_, ?_⟩
        · simp only [Types.tagEntry, h1, List.append_nil]
        · simp only [Types.tagEntry, h1, List.append_nil]
        · rw [List.append_nil, e]; exact hEt
    obtain ⟨B, hB1, hB2, hB3⟩ := tagd hb
    obtain ⟨j, hj⟩ : ∃ j, j = (Types.tagEntry (T ++ [({} : Ty)]) s { name := s, base := .struct }).2 := ⟨_, rfl⟩
    obtain ⟨e0, he0, hen, heb⟩ := findType_tags hB2
    rw [← hj] at hB2 he0
    have hi : (T ++ [({} : Ty)] ++ B)[T.length]? = some {} := by simp
    have hij : j ≠ T.length := by
      intro hij; rw [hij, hi, Option.some.injEq] at he0; subst he0; cases heb
    have hEd : EnvOk (E.addTag s) := by
      refine ⟨hE.fields, fun g gs hr => grows_addTag.tags _ (hE.tag _ _ hr), hE.unnamed.1, ?_⟩
      simp only [Env.addTag]
      rw [if_neg (fun h => hn.1 (by rw [← h]))]; exact hE.unnamed.2
    have hrj : Rep (T ++ [({} : Ty)] ++ B) (E.addTag s) j (.struct (.tag s)) := by
      obtain ⟨j', h1, h2⟩ := hB3.tags s (by simp [Env.addTag])
      rw [hB2, Option.some.injEq] at h1
      subst h1
      exact h2
    obtain ⟨e, hee⟩ : ∃ e : Ty, e = { name := x, base := .typedef, baseStruct := some j } := ⟨_, rfl⟩
    have htags : ∀ g, findType ((T ++ [({} : Ty)] ++ B).set T.length e) g .tags = findType (T ++ [({} : Ty)] ++ B) g .tags := by
      intro g
      refine findFrom_set (e := {}) (fun i r => ?_) hi
      simp [findFrom, hee]
    have := hB3.name hEd hi hn.2 hx (e := e) (by rw [hee]) (by rw [hee]; simp) (t := .struct (.tag s)) (k := j)
      (by rw [hee]; simp)
      (hrj.move (fun e2 h2 => by rw [List.getElem?_set_ne (Ne.symm hij)]; exact h2) (fun g hg => by rw [htags]; exact hg)
        (grows_name hx) (fun _ _ => rfl))
    refine ⟨_, ?_, this⟩
    simp only [Types.declare, declTypedefStruct, Option.some.injEq]
    rw [hB1, ← hj, modify_eq hi, hee]
  | @enum items x hx =>
    exact ⟨_, rfl, h.append hE hn hx (e := { name := x, base := .int, size := 4 }) (t := .int) rfl (by simp) (by simp) fun _ _ _ => ⟨hn, by simp, by simp, rfl⟩⟩
  | @alias b x t hb hx =>
    obtain ⟨j, h1, h2⟩ := h.names b t hb
    obtain ⟨e, he, hr⟩ := h2
    have ht : ∀ s, t ≠ .struct s := by
      intro s hts
      exact hs b x rfl s (by simp [Env.name, hts])
    refine ⟨T ++ [{ name := x, base := e.base, size := e.size }], ?_, ?_⟩
    · simp only [Types.declare, declTypedefName]
      rw [show findType (T ++ [({} : Ty)]) b .names = some j from findFrom_append h1 _, Option.bind_some, he, Option.map_some]
    · cases t with
      | void => exact h.append hE hn hx (e := { name := x, base := e.base, size := e.size }) (t := .void) rfl hr.2.1 hr.2.2.1 fun _ _ _ => ⟨hn, hr.2⟩
      | char => exact h.append hE hn hx (e := { name := x, base := e.base, size := e.size }) (t := .char) rfl hr.2.1 hr.2.2.1 fun _ _ _ => ⟨hn, hr.2⟩
      | bool => exact h.append hE hn hx (e := { name := x, base := e.base, size := e.size }) (t := .bool) rfl hr.2.1 hr.2.2.1 fun _ _ _ => ⟨hn, hr.2⟩
      | int => exact h.append hE hn hx (e := { name := x, base := e.base, size := e.size }) (t := .int) rfl hr.2.1 hr.2.2.1 fun _ _ _ => ⟨hn, hr.2⟩
      | fn => exact hr.elim
      | ptr _ => exact hr.elim
      | arr _ _ => exact hr.elim
      | struct s => exact absurd rfl (ht s)

theorem envOk_init : EnvOk .init := ⟨fun _ _ h => (by cases h), fun _ _ h => (by cases h), by decide, rfl⟩

theorem inv_init : Inv builtin .init where
  names := fun x t hx => by
    simp only [Env.init] at hx
    split at hx
    · rename_i h; subst h; cases hx
      exact ⟨0, by decide, { name := "void" }, rfl, by decide, by decide, by decide, rfl⟩
    split at hx
    · rename_i h; subst h; cases hx
      exact ⟨1, by decide, { name := "char", base := .char, size := 1 }, rfl, by decide, by decide, by decide, rfl⟩
    split at hx
    · rename_i h; subst h; cases hx
      exact ⟨2, by decide, { name := "int", base := .int, size := 4 }, rfl, by decide, by decide, by decide, rfl⟩
    split at hx
    · rename_i h; subst h; cases hx
      exact ⟨3, by decide, { name := "_Bool", base := .char, size := 1 }, rfl, by decide, by decide, by decide, rfl⟩
    · cases hx
  tags := fun s hs => by cases hs
  freshN := fun x hx0 hx e he hn => by
    simp only [Env.init] at hx
    simp only [builtin, List.mem_cons, List.not_mem_nil, or_false] at he
    rcases he with rfl | rfl | rfl | rfl <;> (simp only at hn; subst hn; simp at hx)
  freshT := fun s _ e he _ hb => by
    simp only [builtin, List.mem_cons, List.not_mem_nil, or_false] at he
    rcases he with rfl | rfl | rfl | rfl <;> cases hb

theorem declares_append (T : Table) (d : Decl) : ∀ ds, declares T (ds ++ [d]) = (declares T ds).bind fun T' => declare T' d := by
  intro ds
  induction ds generalizing T with
  | nil =>
    simp only [List.nil_append, declares, Option.bind_some]
    cases declare T d <;> rfl
  | cons c ds ih =>
    simp only [List.cons_append, declares]
    cases declare T c with
    | none => rfl
    | some T' => simp only [Option.bind_some]; exact ih T'

theorem program_inv {ds : List Decl} {E : Env} (h : Program ds E) (ha : E.Apart) (hs : NoStructAlias ds E) :
    EnvOk E ∧ ∃ T, declares builtin ds = some T ∧ Inv T E := by
  induction h with
  | nil => exact ⟨envOk_init, builtin, rfl, inv_init⟩
  | @snoc ds d E E' h hn hd ih =>
    have hg := Declares.grows hd
    obtain ⟨hE, T, h1, h2⟩ := ih (hg.apart ha) (fun b x hbx s hx => hs b x (by simp [hbx]) s (hg.tydef _ _ hx))
    obtain ⟨T', h3, h4⟩ := h2.declare hE hn hd ha (fun b x hbx => hs b x (by simp [hbx]))
    exact ⟨hE.declares hn hd, T', by rw [declares_append, h1, Option.bind_some, h3], h4⟩

end Shecc.Types
