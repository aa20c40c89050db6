import Verif.Lemmas.Types2

/-!
# C76-C78: type declarations

After the declarations of types in a program, `sizeof` and the storage of variables have the sizes of the specification, members are
found at their offsets and do not overlap, and enumeration constants have their values.
-/

namespace Shecc.Props
open Shecc.Types CTypes

/-! ### Lemmas -/

theorem fieldsOk_find {E : Env} {a : Nat} {vs : List Var} {fs : List (String × CTypes.T)} (h : FieldsOk E a vs fs) {f : String} {o : Nat} {t : CTypes.T}
    (hm : MemberAt E a fs f o t) : ∃ v, vs.find? (fun v => v.name = f) = some v ∧ v.offset = o ∧ VarRep E v t := by
  induction h with
  | nil => cases hm
  | @cons a k v vs g t' fs hn hr ho hk r ih =>
    cases hm with
    | here => exact ⟨v, by simp [hn], ho, hr⟩
    | there hne hk' r' =>
      have := HasSize.fun' hk hk'
      subst this
      obtain ⟨w, h1, h2⟩ := ih r'
      refine ⟨w, ?_, h2⟩
      rw [List.find?_cons_of_neg (by simp [hn]; exact fun h => hne h.symm)]; exact h1

theorem fieldsOk_none {E : Env} {a : Nat} {vs : List Var} {fs : List (String × CTypes.T)} (h : FieldsOk E a vs fs) {f : String}
    (hm : f ∉ fs.map (·.1)) : vs.find? (fun v => v.name = f) = none := by
  induction h with
  | nil => rfl
  | @cons a k v vs g t' fs hn hr ho hk r ih =>
    simp only [List.map_cons, List.mem_cons, not_or] at hm
    rw [List.find?_cons_of_neg (by simp [hn]; exact fun h => hm.1 h.symm)]; exact ih hm.2

/-- Members that are found lie in the part of the structure that begins at `a`. -/
theorem fieldsOk_range {E : Env} {a m : Nat} {vs : List Var} {fs : List (String × CTypes.T)} (h : FieldsOk E a vs fs) (hx : Extent E fs m) {f : String}
    {v : Var} (hv : vs.find? (fun v => v.name = f) = some v) :
    ∃ t k, VarRep E v t ∧ HasSize E t k ∧ a ≤ v.offset ∧ v.offset + k ≤ a + m := by
  induction h generalizing m with
  | nil => cases hv
  | @cons a k w vs g t fs hn hr ho hk r ih =>
    cases hx with
    | @cons _ _ _ k' m' hk' hx' =>
      have := HasSize.fun' hk hk'
      subst this
      by_cases hf : w.name = f
      · rw [List.find?_cons_of_pos (by simp [hf])] at hv
        cases hv
        exact ⟨t, k, hr, hk, by omega, by omega⟩
      · rw [List.find?_cons_of_neg (by simp [hf])] at hv
        obtain ⟨u, j, h1, h2, h3, h4⟩ := ih hx' hv
        exact ⟨u, j, h1, h2, by omega, by omega⟩

theorem fieldsOk_apart {E : Env} {a m : Nat} {vs : List Var} {fs : List (String × CTypes.T)} (h : FieldsOk E a vs fs) (hx : Extent E fs m) {f g : String}
    {v w : Var} (hv : vs.find? (fun v => v.name = f) = some v) (hw : vs.find? (fun v => v.name = g) = some w) (hne : f ≠ g)
    {t u : CTypes.T} {k j : Nat} (ht : VarRep E v t) (hk : HasSize E t k) (hu : VarRep E w u) (hj : HasSize E u j)
    (hdet : ∀ {v : Var} {t t' : CTypes.T} {k k' : Nat}, VarRep E v t → HasSize E t k → VarRep E v t' → HasSize E t' k' → k = k') :
    v.offset + k ≤ w.offset ∨ w.offset + j ≤ v.offset := by
  induction h generalizing m with
  | nil => cases hv
  | @cons a k1 x vs g1 t1 fs hn hr ho hk1 r ih =>
    cases hx with
    | @cons _ _ _ k' m' hk' hx' =>
      by_cases hf : x.name = f
      · rw [List.find?_cons_of_pos (by simp [hf])] at hv
        cases hv
        rw [List.find?_cons_of_neg (by simp [hf, hne])] at hw
        obtain ⟨_, _, _, _, h3, _⟩ := fieldsOk_range r hx' hw
        have := hdet ht hk hr hk1
        omega
      · rw [List.find?_cons_of_neg (by simp [hf])] at hv
        by_cases hg : x.name = g
        · rw [List.find?_cons_of_pos (by simp [hg])] at hw
          cases hw
          obtain ⟨_, _, _, _, h3, _⟩ := fieldsOk_range r hx' hv
          have := hdet hu hj hr hk1
          omega
        · rw [List.find?_cons_of_neg (by simp [hg])] at hw
          exact ih hx' hv hw

theorem sizeVar_offset (T : Table) (v : Var) (o : Nat) : sizeVar T { v with offset := o } = sizeVar T v := rfl

theorem varRep_size {T : Table} {E : Env} (h : Inv T E) (hE : EnvOk E) (ha : E.Apart) {v : Var} {t : CTypes.T} {k : Nat} (hv : VarRep E v t)
    (hk : HasSize E t k) : sizeVar T v = some k := by
  obtain ⟨d, hd, hv⟩ := hv
  rw [hv, sizeVar_offset]
  exact h.sizeVar hE ha hd hk

/-- A complete structure type and its entry. -/
theorem struct_entry {T : Table} {E : Env} (h : Inv T E) (hE : EnvOk E) (ha : E.Apart) {sp : TSpec} {s : Sid} {fs : List (String × CTypes.T)}
    (hr : resolve E sp = some (.struct s)) (hf : E.fields s = some fs) :
    ∃ i e, findType T (specName sp) .all = some i ∧ T[i]? = some e ∧ e.size ≠ 0 ∧ FieldsOk E 0 e.fields fs ∧ Extent E fs e.size := by
  obtain ⟨i, h1, e, h2, h3⟩ := h.all_spec hE ha hr (by rintro g rfl; cases hr; exact hE.tag _ _ hf)
  obtain ⟨h4, h5⟩ := h3.1 fs hf
  have := Extent.pos' hE.fields h5 (hE.fields _ _ hf)
  exact ⟨i, e, h1, h2, by omega, h4, h5⟩

theorem findMember_eq {T : Table} {i : Nat} {e : Ty} (h : T[i]? = some e) (h0 : e.size ≠ 0) (f : String) :
    findMember T f i = e.fields.find? fun v => v.name = f := by
  simp only [findMember, h, Option.bind_some, if_neg h0]

/-! ### C76 -/

/-- After the declarations of a program, `sizeof (spec * ... *)` is the size of that type, and a variable of type `t` takes as many
bytes as `sizeof` says.  Full statement: without `Apart` and `NoStructAlias`, and also for pointers to structures of which nothing
is declared; `C76_name_space`, `C76_alias` and `C76_undeclared` show that it is false. -/
theorem C76_sizeof_partial {ds : List Decl} {E : Env} (h : Program ds E) (ha : E.Apart) (hs : NoStructAlias ds E) :
    ∃ T, declares builtin ds = some T ∧
      (∀ sp p t k, resolve E sp = some t → (∀ s, sp = .tag s → E.tags s = true) → HasSize E (pointers p t) k → sizeofType T sp p = some k) ∧
      ∀ d t k, Declr.type E d = some t → HasSize E t k → sizeVar T (readVar d) = some k := by
  obtain ⟨hE, T, h1, h2⟩ := program_inv h ha hs
  refine ⟨T, h1, ?_, fun d t k hd hk => h2.sizeVar hE ha hd hk⟩
  intro sp p t k hr hc hk
  have hfound : ∃ i, (∀ p, sizeofType T sp p = T[i]?.map fun (e : Ty) => if p ≠ 0 then 4 else e.size) ∧ Rep T E i t := by
    cases sp with
    | name x =>
      obtain ⟨i, h3, h4⟩ := h2.names x t hr
      exact ⟨i, fun p => by simp only [sizeofType, h3, Option.bind_some], h4⟩
    | tag s =>
      cases hr
      obtain ⟨i, h3, h4⟩ := h2.tags s (hc s rfl)
      exact ⟨i, fun p => by simp only [sizeofType, h3, Option.bind_some], h4⟩
  obtain ⟨i, h3, h4⟩ := hfound
  cases p with
  | zero =>
    obtain ⟨e, h5, h6⟩ := h4.size hk
    rw [h3, h5, Option.map_some, if_neg (by simp), h6]
  | succ p =>
    obtain ⟨e, h5, _⟩ := h4
    rw [h3, h5, Option.map_some, if_pos (by simp), pointers_size (Nat.succ_pos p) hk]

/-- In a complete structure type a member is found at its offset and with its type, and nothing else is found.  Full statement: as
for `C76_sizeof_partial`. -/
theorem C76_member_partial {ds : List Decl} {E : Env} (h : Program ds E) (ha : E.Apart) (hs : NoStructAlias ds E) :
    ∃ T, declares builtin ds = some T ∧
      ∀ sp s fs, resolve E sp = some (.struct s) → E.fields s = some fs → ∃ i, findType T (specName sp) .all = some i ∧
        (∀ f o t, MemberAt E 0 fs f o t →
          ∃ d v, Declr.type E d = some t ∧ findMember T f i = some v ∧ v = { readVar d with offset := o }) ∧
        ∀ f, f ∉ fs.map (·.1) → findMember T f i = none := by
  obtain ⟨hE, T, h1, h2⟩ := program_inv h ha hs
  refine ⟨T, h1, fun sp s fs hr hf => ?_⟩
  obtain ⟨i, e, h3, h4, h5, h6, _⟩ := struct_entry h2 hE ha hr hf
  refine ⟨i, h3, fun f o t hm => ?_, fun f hm => ?_⟩
  · obtain ⟨v, h7, h8, d, h9, h10⟩ := fieldsOk_find h6 hm
    exact ⟨d, v, h9, by rw [findMember_eq h4 h5, h7], by rw [← h8]; exact h10⟩
  · rw [findMember_eq h4 h5, fieldsOk_none h6 hm]

/-! ### C77 -/

/-- The storage of a structure holds its members, and no two of them overlap.  Full statement: as for `C76_sizeof_partial`. -/
theorem C77_members_apart_partial {ds : List Decl} {E : Env} (h : Program ds E) (ha : E.Apart) (hs : NoStructAlias ds E) :
    ∃ T, declares builtin ds = some T ∧
      ∀ sp s fs, resolve E sp = some (.struct s) → E.fields s = some fs →
        ∃ i n, findType T (specName sp) .all = some i ∧ sizeVar T (readVar { spec := sp, name := "" }) = some n ∧
          (∀ f v, findMember T f i = some v → ∃ k, sizeVar T v = some k ∧ 0 < k ∧ v.offset + k ≤ n) ∧
          ∀ f g v w k j, f ≠ g → findMember T f i = some v → findMember T g i = some w → sizeVar T v = some k → sizeVar T w = some j →
            v.offset + k ≤ w.offset ∨ w.offset + j ≤ v.offset := by
  obtain ⟨hE, T, h1, h2⟩ := program_inv h ha hs
  refine ⟨T, h1, fun sp s fs hr hf => ?_⟩
  obtain ⟨i, e, h3, h4, h5, h6, h7⟩ := struct_entry h2 hE ha hr hf
  refine ⟨i, e.size, h3, ?_, fun f v hv => ?_, fun f g v w k j hne hv hw hk hj => ?_⟩
  · refine h2.sizeVar hE ha (t := .struct s) ?_ (.struct hf h7)
    simp only [Declr.type, hr, Option.map_some, pointers]
  · rw [findMember_eq h4 h5] at hv
    obtain ⟨t, k, h8, h9, h10, h11⟩ := fieldsOk_range h6 h7 hv
    exact ⟨k, varRep_size h2 hE ha h8 h9, HasSize.pos' hE.fields h9, by omega⟩
  · rw [findMember_eq h4 h5] at hv hw
    obtain ⟨t, k', h8, h9, _⟩ := fieldsOk_range h6 h7 hv
    obtain ⟨u, j', h10, h11, _⟩ := fieldsOk_range h6 h7 hw
    rw [varRep_size h2 hE ha h8 h9, Option.some.injEq] at hk
    rw [varRep_size h2 hE ha h10 h11, Option.some.injEq] at hj
    subst hk hj
    refine fieldsOk_apart h6 h7 hv hw hne h8 h9 h10 h11 fun a b c d => ?_
    have := varRep_size h2 hE ha a b
    rw [varRep_size h2 hE ha c d, Option.some.injEq] at this
    exact this.symm

/-! ### C78 -/

theorem readEnum_eq : ∀ (items : List (String × Option Int)) (n : Int) (cs : List (String × BitVec 32)),
    readEnum (BitVec.ofInt 32 n) items cs = cs ++ (enumValues n items).map fun c => (c.1, BitVec.ofInt 32 c.2) := by
  intro items
  induction items with
  | nil => intro n cs; simp [readEnum, enumValues]
  | cons a items ih =>
    intro n cs
    obtain ⟨x, v⟩ := a
    cases v with
    | none =>
      simp only [readEnum, enumValues, Option.getD_none, List.map_cons]
      rw [show BitVec.ofInt 32 n + 1 = BitVec.ofInt 32 (n + 1) by rw [BitVec.ofInt_add]; rfl, ih]
      simp
    | some v =>
      simp only [readEnum, enumValues, Option.getD_some, List.map_cons]
      rw [show BitVec.ofInt 32 v + 1 = BitVec.ofInt 32 (v + 1) by rw [BitVec.ofInt_add]; rfl, ih]
      simp

/-- The constants of an `enum` declared after the constants `cs`: each name has its value, if it was not a constant before. -/
theorem C78_enum (cs : List (String × BitVec 32)) (items : List (String × Option Int)) (hd : (items.map (·.1)).Nodup)
    (hf : ∀ x ∈ items.map (·.1), x ∉ cs.map (·.1)) :
    (∀ x n, (x, n) ∈ enumValues 0 items → findConstant (readEnum 0 items cs) x = some (BitVec.ofInt 32 n)) ∧
    (∀ x, x ∉ items.map (·.1) → findConstant (readEnum 0 items cs) x = findConstant cs x) := by
  have hnames : ∀ n, (enumValues n items).map (·.1) = items.map (·.1) := by
    clear hd hf
    induction items with
    | nil => intro n; rfl
    | cons a items ih => intro n; simp [enumValues, ih]
  have e := readEnum_eq items 0 cs
  rw [show BitVec.ofInt 32 0 = 0 from rfl] at e
  rw [e]
  constructor
  · intro x n hx
    have hxi : x ∈ items.map (·.1) := by rw [← hnames 0]; exact List.mem_map.2 ⟨_, hx, rfl⟩
    have hxc := hf x hxi
    rw [findConstant, List.find?_append, List.find?_eq_none.2 (by
      intro c hc h; simp only [decide_eq_true_eq] at h; exact hxc (List.mem_map.2 ⟨c, hc, h⟩)), Option.none_or]
    have hn : ((enumValues 0 items).map (·.1)).Nodup := by rw [hnames]; exact hd
    generalize enumValues 0 items = l at hx hn
    induction l with
    | nil => cases hx
    | cons a l ih =>
      simp only [List.map_cons, List.nodup_cons] at hn
      simp only [List.map_cons]
      by_cases ha : a.1 = x
      · rw [List.find?_cons_of_pos (by simp [ha])]
        rcases List.mem_cons.1 hx with rfl | hx
        · rfl
        · exact absurd (List.mem_map.2 ⟨_, hx, rfl⟩) (by rw [← ha]; exact hn.1)
      · rw [List.find?_cons_of_neg (by simp [ha])]
        rcases List.mem_cons.1 hx with rfl | hx
        · exact absurd rfl ha
        · exact ih hx hn.2
  · intro x hx
    rw [findConstant, List.find?_append, findConstant]
    rw [← hnames 0] at hx
    rw [show ((enumValues 0 items).map fun c => (c.1, BitVec.ofInt 32 c.2)).find? (fun c => decide (c.1 = x)) = none from List.find?_eq_none.2 (by
      intro c hc h
      obtain ⟨c', hc', rfl⟩ := List.mem_map.1 hc
      simp only [decide_eq_true_eq] at h
      exact hx (List.mem_map.2 ⟨c', hc', h⟩))]
    rw [Option.or_none]

/-! ### The hypotheses are met -/

/-- `struct Node { int val; struct Node *next; char tag[3]; }; typedef struct Node Node; typedef enum { A, B = 5, C } kind_t;
typedef struct { Node head; kind_t k; char *names[2]; int (*cb)(); } List;` -/
def exDecls : List Decl :=
  [.struct "Node" [{ spec := .name "int", name := "val" }, { spec := .tag "Node", ptrs := 1, name := "next" },
     { spec := .name "char", form := .array 3, name := "tag" }],
   .typedefStruct (some "Node") none "Node",
   .typedefEnum [("A", none), ("B", some 5), ("C", none)] "kind_t",
   .typedefStruct none (some [{ spec := .name "Node", name := "head" }, { spec := .name "kind_t", name := "k" },
     { spec := .name "char", ptrs := 1, form := .array 2, name := "names" }, { spec := .name "int", form := .func, name := "cb" }]) "List"]

def exNode : List (String × CTypes.T) := [("val", .int), ("next", .ptr (.struct (.tag "Node"))), ("tag", .arr 3 .char)]
def exList : List (String × CTypes.T) := [("head", .struct (.tag "Node")), ("k", .int), ("names", .arr 2 (.ptr .char)), ("cb", .ptr .fn)]

def exEnv1 : Env := (Env.init.define (.tag "Node") exNode).addTag "Node"
def exEnv2 : Env := (exEnv1.addTag "Node").name "Node" (.struct (.tag "Node"))
def exEnv3 : Env := exEnv2.name "kind_t" .int
def exEnv : Env := (exEnv3.define (.anon "List") exList).name "List" (.struct (.anon "List"))

theorem exNode_extent {E : Env} : Extent E exNode 11 := .cons .int (.cons (.ptr _) (.cons (.arr (k := 1) (by decide) .char) .nil))

theorem exProgram : Program exDecls exEnv := by
  refine .snoc (ds := exDecls.take 3) (E := exEnv3) (.snoc (ds := exDecls.take 2) (E := exEnv2) (.snoc (ds := exDecls.take 1) (E := exEnv1)
    (.snoc (ds := []) .nil ?_ ?_) ?_ ?_) ?_ ?_) ?_ ?_
  · exact (by decide : "Node" ≠ "")
  · refine .struct (fs := exNode) rfl ⟨by decide, by decide, by decide, ?_⟩
    intro x hx
    simp only [exNode, List.mem_cons, List.not_mem_nil, or_false] at hx
    rcases hx with rfl | rfl | rfl
    · exact ⟨_, .int⟩
    · exact ⟨_, .ptr _⟩
    · exact ⟨_, .arr (by decide) .char⟩
  · exact ⟨by decide, by decide⟩
  · exact .forward (by decide)
  · exact (by decide : "kind_t" ≠ "")
  · exact .enum (by decide)
  · exact ⟨by decide, by decide⟩
  · refine .untagged (fs := exList) (by decide) ⟨by decide, by decide, by decide, ?_⟩ (by decide)
    intro x hx
    simp only [exList, List.mem_cons, List.not_mem_nil, or_false] at hx
    rcases hx with rfl | rfl | rfl | rfl
    · exact ⟨_, .struct (fs := exNode) (by decide) exNode_extent⟩
    · exact ⟨_, .int⟩
    · exact ⟨_, .arr (by decide) (.ptr _)⟩
    · exact ⟨_, .ptr _⟩

theorem exApart : exEnv.Apart := by
  intro x t hx ht
  have hxN : x = "Node" := by
    simp only [exEnv, exEnv3, exEnv2, exEnv1, Env.name, Env.define, Env.addTag, Env.init] at ht
    repeat (split at ht; · assumption)
    cases ht
  subst hxN
  have : exEnv.tydef "Node" = some (.struct (.tag "Node")) := by decide
  rw [this] at hx
  cases hx; rfl

theorem exNoAlias : NoStructAlias exDecls exEnv := by
  intro b x hbx
  simp [exDecls] at hbx

example : (∃ T, declares builtin exDecls = some T) ∧ HasSize exEnv (.struct (.anon "List")) 27 ∧
    MemberAt exEnv 0 exList "names" 15 (.arr 2 (.ptr .char)) := by
  refine ⟨?_, .struct (fs := exList) (by decide) (.cons (k := 11) (m := 16) (.struct (fs := exNode) (by decide) exNode_extent) (.cons (k := 4) (m := 12) .int
    (.cons (k := 8) (m := 4) (.arr (k := 4) (by decide) (.ptr _)) (.cons (k := 4) (m := 0) (.ptr _) .nil)))), ?_⟩
  · obtain ⟨T, h, _⟩ := C76_sizeof_partial exProgram exApart exNoAlias
    exact ⟨T, h⟩
  · exact .there (k := 11) (by decide) (.struct (fs := exNode) (by decide) exNode_extent) (.there (k := 4) (by decide) .int .here)

/-- What the model computes on it. -/
example : (declares builtin exDecls).bind (fun T => sizeofType T (.name "List") 0) = some 27 ∧
    (declares builtin exDecls).bind (fun T => (findType T "List" .all).bind fun i => (findMember T "names" i).map (·.offset)) = some 15 ∧
    (findConstant (readEnum 0 [("A", none), ("B", some 5), ("C", none)] [("Z", 3)]) "C") = some 6 := by decide

/-! ### What is false -/

/-- A type name that is another name for a type name of a structure has no members, and its size is lost if it was declared before
the members: `typedef struct { int a; } S; typedef S T;` -/
theorem C76_alias : ∃ ds E, Program ds E ∧ E.Apart ∧ E.tydef "T" = some (.struct (.anon "S")) ∧ E.fields (.anon "S") = some [("a", .int)] ∧
    ∃ T i, declares builtin ds = some T ∧ findType T "T" .all = some i ∧ findMember T "a" i = none := by
  refine ⟨[.typedefStruct none (some [{ spec := .name "int", name := "a" }]) "S", .typedefName "S" "T"],
    ((Env.init.define (.anon "S") [("a", .int)]).name "S" (.struct (.anon "S"))).name "T" (.struct (.anon "S")), ?_, ?_, by decide, by decide, ?_⟩
  · refine .snoc (ds := [_]) (.snoc (ds := []) .nil ⟨by decide, by decide⟩ (.untagged (by decide) ⟨by decide, by decide, by decide, ?_⟩ (by decide)))
      (by decide : "T" ≠ "") (.alias (by decide) (by decide))
    intro x hx
    simp only [List.mem_cons, List.not_mem_nil, or_false] at hx
    subst hx
    exact ⟨_, .int⟩
  · intro x t _ ht
    cases ht
  · exact ⟨_, 5, rfl, by decide, by decide⟩

/-- Tags are not a name space of their own: `typedef char foo; struct foo { int a; }; struct foo x;` gives `x` one byte. -/
theorem C76_name_space : ∃ ds E, Program ds E ∧ NoStructAlias ds E ∧ HasSize E (.struct (.tag "foo")) 4 ∧
    Declr.type E { spec := .tag "foo", name := "x" } = some (.struct (.tag "foo")) ∧
    ∃ T, declares builtin ds = some T ∧ sizeVar T (readVar { spec := .tag "foo", name := "x" }) = some 1 := by
  refine ⟨[.typedefName "char" "foo", .struct "foo" [{ spec := .name "int", name := "a" }]],
    ((Env.init.name "foo" .char).define (.tag "foo") [("a", .int)]).addTag "foo", ?_, ?_, .struct (fs := [("a", .int)]) (by decide) (.cons (k := 4) (m := 0) .int .nil), rfl, ?_⟩
  · refine .snoc (ds := [_]) (.snoc (ds := []) .nil (by decide : "foo" ≠ "") (.alias (by decide) (by decide)))
      (by decide : "foo" ≠ "") (.struct (by decide) ⟨by decide, by decide, by decide, ?_⟩)
    intro x hx
    simp only [List.mem_cons, List.not_mem_nil, or_false] at hx
    subst hx
    exact ⟨_, .int⟩
  · intro b x hbx s
    simp only [List.mem_cons, Decl.typedefName.injEq, List.not_mem_nil, or_false, reduceCtorEq] at hbx
    obtain ⟨rfl, rfl⟩ := hbx
    intro h
    have : (((Env.init.name "foo" .char).define (.tag "foo") [("a", .int)]).addTag "foo").tydef "foo" = some .char := by decide
    rw [this] at h
    cases h
  · exact ⟨_, rfl, by decide⟩

/-- `sizeof (struct s *)` is an error where the structure is not declared. -/
theorem C76_undeclared : HasSize Env.init (pointers 1 (.struct (.tag "s"))) 4 ∧ sizeofType builtin (.tag "s") 1 = none := ⟨.ptr _, by decide⟩

end Shecc.Props
