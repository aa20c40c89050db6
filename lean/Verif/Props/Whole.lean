import Verif.Props.Top
import Verif.Props.CBodyProg
import Verif.Props.GlobalInit
import Verif.Spec.CWhole

/-!
# From the text of a program to the executable (C100)
-/

namespace Shecc.Props
open CTypes CEval CSyntax CBody CUnit IrM
open Shecc.Top (Tab program kind Globals)
open CProg (Compiled)

/-! ### Global variables -/

mutual
theorem hasSize_grows {E F : Env} (hg : Types.Grows E F) : ∀ {t : T} {k : Nat}, HasSize E t k → HasSize F t k
  | _, _, .char => .char
  | _, _, .bool => .bool
  | _, _, .int => .int
  | _, _, .ptr t => .ptr t
  | _, _, .arr hn h => .arr hn (hasSize_grows hg h)
  | _, _, .struct hf h => .struct (hg.fields _ _ hf) (extent_grows hg h)
theorem extent_grows {E F : Env} (hg : Types.Grows E F) : ∀ {fs : List (String × T)} {k : Nat}, Extent E fs k → Extent F fs k
  | _, _, .nil => .nil
  | _, _, .cons h r => .cons (hasSize_grows hg h) (extent_grows hg r)
end

theorem type_grows {E F : Env} (hg : Types.Grows E F) {d : Declr} {t : T} (h : d.type E = some t) : d.type F = some t := by
  simp only [Declr.type, Option.map_eq_some_iff] at h ⊢
  obtain ⟨u, h1, h2⟩ := h
  refine ⟨u, ?_, h2⟩
  cases hs : d.spec <;> rw [hs] at h1
  · exact h1
  · exact hg.tydef _ _ h1

/-- Every global variable has a type with a size. -/
theorem vars_ok {base : Nat} {D D' : Decls} {l : List CUnit.Top} {ts : List Tk} (h : WTops base D l ts D') :
    ∀ x ∈ vars l, ∃ t k, x.1.2.type D'.E = some t ∧ HasSize D'.E t k ∧ x.1.2.form ≠ .func ∧ ∃ s, x.1.2.spec = .name s := by
  induction h with
  | nil => intro x hx; cases hx
  | @cons D D1 D2 y l tx tl h hr ih =>
    intro x hx
    rw [Top.vars_cons, List.mem_append] at hx
    rcases hx with hx | hx
    · cases h with
      | @var ty e td ti u k v hd hp ht hk hf hi =>
        simp only [vars, List.filterMap_cons, List.filterMap_nil, List.mem_singleton] at hx
        subst hx
        obtain ⟨hg, _⟩ := Top.wTops_grows hr
        exact ⟨u, k, type_grows hg ht, hasSize_grows hg hk, hp, by cases hd <;> exact ⟨_, rfl⟩⟩
      | type => simp [vars] at hx
      | proto => simp [vars] at hx
      | fn => simp [vars] at hx
    · exact ih x hx

/-- The storage of a variable of type `t` and size `k`: at least a word; an array has a word more. -/
def storage : T → Nat → Nat
  | .arr _ _, k => 4 + CGlobals.words k
  | _, k => CGlobals.words k

theorem pointers_arr {n m : Nat} {t u : T} (h : pointers n t = .arr m u) : n = 0 := by
  cases n with
  | zero => rfl
  | succ n => simp [pointers] at h

/-- No declared type name denotes an array. -/
theorem tydef_not_arr {ds : List Decl} {E : Env} (h : CTypes.Program ds E) : ∀ x n t, E.tydef x ≠ some (.arr n t) := by
  induction h with
  | nil =>
    intro x n t h
    simp only [Env.init] at h
    repeat' split at h
    all_goals cases h
  | @snoc ds d E E' h hn hd ih =>
    intro x n t hx
    cases hd <;> simp only [Env.name, Env.addTag, Env.define] at hx
    all_goals first
      | exact ih _ _ _ hx
      | (split at hx
         · first
           | (rename_i hb _ _; rw [hx] at hb; exact ih _ _ _ hb)
           | (cases hx; exact ih _ _ _ (by assumption))
           | cases hx
         · exact ih _ _ _ hx)

theorem program_grows {ds : List Decl} {E : Env} (h : CTypes.Program ds E) : Types.Grows .init E := by
  induction h with
  | nil => exact .refl _
  | snoc h hn hd ih => exact ih.trans (Types.Declares.grows hd)

theorem kind_ok {ds : List Decl} {E : Env} (hP : CTypes.Program ds E) (ha : E.Apart) (hs : NoStructAlias ds E) {Tb : Types.Table}
    (hT : Types.declares Types.builtin ds = some Tb) {d : Declr} {t : T} {k : Nat} (ht : d.type E = some t) (hk : HasSize E t k) (hf : d.form ≠ .func)
    (hsp : ∃ s, d.spec = .name s) : ∃ K, kind Tb (Types.readVar d) = some K ∧ CGlobals.room K = storage t k ∧ ((∃ n, K = .array n) ↔ ∃ n u, t = .arr n u) := by
  obtain ⟨hE, T', h1, hI⟩ := Types.program_inv hP ha hs
  rw [hT] at h1
  cases h1
  simp only [Declr.type, Option.map_eq_some_iff] at ht
  obtain ⟨b, hb, ht⟩ := ht
  have hbs : ∀ {k : Nat}, HasSize E b k → ∃ i e, Types.findType Tb (Types.specName d.spec) .all = some i ∧ Tb[i]? = some e ∧ e.size = k := by
    intro k hk
    obtain ⟨i, h3, h4⟩ := hI.all_spec hE ha hb (Types.base_tag hE hb hk)
    obtain ⟨e, h5, h6⟩ := h4.size hk
    exact ⟨i, e, h3, h5, h6⟩
  have hna : ∀ n u, b ≠ .arr n u := by
    intro n u e
    cases hsp : d.spec <;> rw [hsp] at hb
    · cases hb; cases e
    · exact tydef_not_arr hP _ _ _ (e ▸ hb)
  cases hform : d.form with
  | func => exact absurd hform hf
  | unsized =>
    rw [hform] at ht
    subst ht
    cases hk
    refine ⟨.word, ?_, rfl, ⟨fun ⟨n, h⟩ => (by cases h), fun ⟨n, u, h⟩ => (by cases h)⟩⟩
    simp [kind, Types.readVar, hform]
  | plain =>
    rw [hform] at ht
    subst ht
    by_cases hp : d.ptrs = 0
    · rw [hp] at hk ⊢
      simp only [pointers] at hk ⊢
      obtain ⟨i, e, h3, h4, h5⟩ := hbs hk
      have hst : storage b k = CGlobals.words k := by
        cases b <;> first | rfl | exact absurd rfl (hna _ _)
      rw [hst]
      by_cases hn : Types.specName d.spec ≠ "int" ∧ Types.specName d.spec ≠ "char" ∧ Types.specName d.spec ≠ "_Bool"
      · refine ⟨.struct k, ?_, rfl, ⟨fun ⟨n, h⟩ => (by cases h), fun ⟨n, u, h⟩ => absurd h (hna n u)⟩⟩
        simp [kind, Types.readVar, hform, hp, hn, h3, h4, h5]
      · refine ⟨.word, ?_, ?_, ⟨fun ⟨n, h⟩ => (by cases h), fun ⟨n, u, h⟩ => absurd h (hna n u)⟩⟩
        · simp only [kind, Types.readVar, hform, hp]
          simp [hn]
        · have hk4 : k ≤ 4 := by
            have hbt : b = .int ∨ b = .char ∨ b = .bool := by
              obtain ⟨s, hsp⟩ := hsp
              rw [hsp] at hb hn
              have hg := program_grows hP
              have hb' : E.tydef s = some b := hb
              simp only [Types.specName] at hn
              by_cases e1 : s = "int"
              · subst e1
                rw [hg.tydef "int" .int rfl] at hb'
                cases hb'
                exact .inl rfl
              · by_cases e2 : s = "char"
                · subst e2
                  rw [hg.tydef "char" .char rfl] at hb'
                  cases hb'
                  exact .inr (.inl rfl)
                · by_cases e3 : s = "_Bool"
                  · subst e3
                    rw [hg.tydef "_Bool" .bool rfl] at hb'
                    cases hb'
                    exact .inr (.inr rfl)
                  · exact absurd ⟨e1, e2, e3⟩ hn
            rcases hbt with rfl | rfl | rfl <;> cases hk <;> decide
          simp only [CGlobals.room, CGlobals.words, if_pos hk4]
    · obtain ⟨q, hq⟩ : ∃ q, d.ptrs = q + 1 := ⟨d.ptrs - 1, by omega⟩
      rw [hq] at hk ⊢
      cases hk
      refine ⟨.word, ?_, rfl, ⟨fun ⟨n, h⟩ => (by cases h), fun ⟨n, u, h⟩ => (by cases h)⟩⟩
      simp [kind, Types.readVar, hform, hq]
  | array n =>
    rw [hform] at ht
    subst ht
    cases hk with
    | @arr _ _ k hn hk =>
      by_cases hp : d.ptrs = 0
      · rw [hp] at hk ⊢
        obtain ⟨i, e, h3, h4, h5⟩ := hbs hk
        refine ⟨.array (n * k), ?_, ?_, ⟨fun _ => ⟨_, _, rfl⟩, fun _ => ⟨_, rfl⟩⟩⟩
        · simp [kind, Types.readVar, hform, hp, h3, h4, h5, Nat.pos_iff_ne_zero.1 hn]
        · simp only [CGlobals.room, storage, Nat.mul_comm]
      · obtain ⟨q, hq⟩ : ∃ q, d.ptrs = q + 1 := ⟨d.ptrs - 1, by omega⟩
        rw [hq] at hk ⊢
        cases hk
        refine ⟨.array (4 * n), ?_, ?_, ⟨fun _ => ⟨_, _, rfl⟩, fun _ => ⟨_, rfl⟩⟩⟩
        · simp [kind, Types.readVar, hform, hq, Nat.pos_iff_ne_zero.1 hn]
        · simp only [CGlobals.room, storage]

/-! ### The program -/

theorem get_mem {α : Type} {l : List α} {i : Nat} {x : α} (h : l[i]? = some x) : x ∈ l := List.mem_of_getElem? h

/-- The variables are initialised as the global block does it. -/
theorem started_initialised {base : Nat} {tops : List CUnit.Top} {ts : List Tk} {D : Decls} (hw : WProgram base tops ts D) (ha : D.E.Apart)
    (hna : NoStructAlias D.types D.E) {tab : Tab} (hR : Top.Rel D tab) (hv : tab.globals = vars tops) {V : RegAlloc.Vars} {K : Nat → GlobalInit.Kind}
    {ds : List GlobalInit.Decl} (hg : Globals tab V K ds) {ofs : Nat → Nat} {gp : Word} {addr : Nat → Word}
    (haddr : ∀ (i : Nat) d, ds[i]? = some d → addr i = gp + RegAlloc.num (ofs d.var)) {m m1 : Mem} (hs : Started D.E (vars tops) addr m m1) :
    CGlobals.Initialised V K ds ofs gp m m1 := by
  have key : ∀ (i : Nat) d, ds[i]? = some d → ∃ e v, (vars tops)[i]? = some (e, v) ∧ d.tmp.map V.initVal = v ∧
      ((∃ n, K d.var = .array n) ↔ ∃ n u, e.2.type D.E = some (.arr n u)) := by
    intro i d hd
    have hi : i < (vars tops).length := by
      rw [← hv, ← hg.all]; exact (List.getElem?_eq_some_iff.1 hd).1
    obtain ⟨⟨e, v⟩, hx⟩ : ∃ x, (vars tops)[i]? = some x := ⟨_, List.getElem?_eq_getElem hi⟩
    obtain ⟨h1, h2⟩ := hg.each i e v d (by rw [hv]; exact hx) hd
    obtain ⟨t, k, h3, h4, h5, h6⟩ := vars_ok hw.tops (e, v) (get_mem hx)
    obtain ⟨K', h7, _, h8⟩ := kind_ok hR.prog ha hna hR.types h3 h4 h5 h6
    rw [h1] at h7
    cases h7
    refine ⟨e, v, hx, h2, h8.trans ⟨fun ⟨n, u, h⟩ => ⟨n, u, h ▸ h3⟩, fun ⟨n, u, h⟩ => ⟨n, u, ?_⟩⟩⟩
    have h3' : e.2.type D.E = some t := h3
    rw [h] at h3'
    exact (Option.some.inj h3').symm
  have some_ : ∀ (i : Nat) d, ds[i]? = some d → ∀ a, CGlobals.initial V K a d ≠ none ↔ ((∃ n, K d.var = .array n) ∨ d.tmp ≠ none) := by
    intro i d hd a
    unfold CGlobals.initial
    cases hK : K d.var with
    | array n => simp
    | word => cases d.tmp <;> simp
    | struct n => cases d.tmp <;> simp
  refine ⟨fun d hd x hx => ?_, fun b hb => hs.rest b fun i e v hi hc k hk => ?_⟩
  · obtain ⟨i, hi⟩ := List.mem_iff_getElem?.1 hd
    obtain ⟨e, v, h1, h2, h3⟩ := key i d hi
    rw [← haddr i d hi] at hx ⊢
    unfold CGlobals.initial at hx
    cases hK : K d.var with
    | array n =>
      rw [hK] at hx
      cases hx
      obtain ⟨n', u, h4⟩ := h3.1 ⟨n, hK⟩
      exact hs.array i e v n' u h1 h4
    | word =>
      rw [hK] at hx
      cases ht : d.tmp with
      | none => rw [ht] at hx; cases hx
      | some x' =>
        rw [ht] at hx h2
        cases hx
        exact hs.init i e _ (by rw [h1, ← h2]; rfl)
    | struct n =>
      rw [hK] at hx
      cases ht : d.tmp with
      | none => rw [ht] at hx; cases hx
      | some x' =>
        rw [ht] at hx h2
        cases hx
        exact hs.init i e _ (by rw [h1, ← h2]; rfl)
  · have hlt : i < ds.length := by
      rw [hg.all, hv]; exact (List.getElem?_eq_some_iff.1 hi).1
    have hd : ds[i]? = some ds[i] := List.getElem?_eq_getElem hlt
    obtain ⟨e', v', h1, h2, h3⟩ := key i _ hd
    rw [hi] at h1
    cases h1
    rw [haddr i _ hd]
    refine hb _ (List.getElem_mem hlt) ?_ k hk
    refine (some_ i _ hd _).2 ?_
    rcases hc with hc | hc
    · right
      intro hn
      rw [hn] at h2
      exact hc h2.symm
    · exact .inl (h3.2 hc)

/-- The functions of the program, and the trees that the parser made of them. -/
theorem source_does {base : Nat} {tops : List CUnit.Top} {tab : Tab} (hall : Top.AllOk base (fns tops) tab.defs) {addr : Nat → Word}
    {alloc : String → Word → Nat → Word} {keep : String → Word → Prop} {g : String} {bf : BFn} (h : source tops addr alloc keep g = some bf) :
    ∃ d ∈ tab.defs, String.ofList d.name = g ∧ DoesTree bf d.body := by
  obtain ⟨f, h1, h2⟩ := Option.map_eq_some_iff.1 h
  have hn : String.ofList f.name = g := by simpa using List.find?_some h1
  obtain ⟨i, hi⟩ := List.mem_iff_getElem?.1 (List.mem_of_find?_eq_some h1)
  obtain ⟨hlen, hget⟩ := allOk_get hall
  have hlt : i < tab.defs.length := by rw [hlen]; exact (List.getElem?_eq_some_iff.1 hi).1
  have hd : tab.defs[i]? = some tab.defs[i] := List.getElem?_eq_getElem hlt
  have hok := hget i f _ hi hd
  refine ⟨_, List.getElem_mem hlt, by rw [hok.name, hn], ?_⟩
  subst h2
  obtain ⟨_, _, _, types, T, ts, nv', dt, dt', rest, st, n, g1, g2, g3, g4, g5, g6, g7, g8, g9⟩ := id hok
  exact ⟨f.nv, fun e he => g6 e (List.mem_append_right _ he), fnOk_does hok⟩

theorem C100_exits_partial {base : Nat} {tops : List CUnit.Top} {ts : List Tk} {D : Decls} (hw : WProgram base tops ts D) (ha : D.E.Apart)
    (hna : NoStructAlias D.types D.E) {n : Nat} {tab : Tab} (hread : program base n (ts ++ [(.eof, [])]) = some tab)
    {V : RegAlloc.Vars} {K : Nat → GlobalInit.Kind} {ds : List GlobalInit.Decl} {fin : RegAlloc.RA} {Pr : SsaProg.SrcProg} {sp0 : Word}
    (hg : Globals tab V K ds) {addr : Nat → Word} {alloc : String → Word → Nat → Word} {keep : String → Word → Prop}
    (haddr : ∀ (i : Nat) d, ds[i]? = some d → addr i = sp0 - RegAlloc.num fin.stack + RegAlloc.num (fin.offset d.var))
    (hs : ∀ g f bf d, g ≠ "__syscall" → Pr.fn g = some f → source tops addr alloc keep g = some bf → d ∈ tab.defs → String.ofList d.name = g →
      ∃ st, Compiled Pr (withTree bf d.body) f st)
    {m m' : Mem} {r : Option Word} (hx : CUnit.Exits D.E tops addr (source tops addr alloc keep) (sp0 - RegAlloc.num fin.stack) sp0 Pr m m' r) :
    SsaProg.Exits V K ds fin sp0 Pr m m' r := by
  obtain ⟨tab', ⟨_, hu⟩, hR, hv, hall⟩ := program_ok hw ha hna
  obtain rfl := hu n tab hread
  obtain ⟨m1, k, bf, h1, h2, h3⟩ := hx
  refine body_exits (fun g f bf hg hf hb => ?_) ⟨m1, k, bf, started_initialised hw ha hna hR hv hg haddr h1, h2, h3⟩
  obtain ⟨d, hd, hn, hdo⟩ := source_does hall hb
  obtain ⟨st, hc⟩ := hs g f bf d hg hf hb hd hn
  exact ⟨d.body, st, hdo, hc⟩

open Shecc.RegAlloc Shecc.GlobalInit CGlobals in
/-- **C100 (RISC-V).** From the text of a program to the executable.  The program is written as the tokens `ts` (`CUnit.WProgram`), of which the parser
makes the tables `tab`.  The global block is made of the variables in the tables (`Globals`), and the functions in the tables go through the
passes (`Compiled`), so that `Q` results, which is compiled, loaded at the code base and started.  If, executed as C prescribes, the program
initialises its variables and `main` returns `r` and leaves memory `m'` (`CUnit.Exits`), then the machine reaches `exit(r)`, with that memory outside
the stack.  Partial: as C95 and C99. -/
theorem C100_rv_partial {base : Nat} {tops : List CUnit.Top} {ts : List Tk} {D : Decls} (hw : WProgram base tops ts D) (ha : D.E.Apart)
    (hna : NoStructAlias D.types D.E) {n : Nat} {tab : Tab} (hread : program base n (ts ++ [(.eof, [])]) = some tab)
    (hard : Bool) (Q : Shecc.Prog) (F : Flat) (img : List CInt)
    (h : compile Riscv.target hard (Peep.prog Q) = some (F, img)) (hd : Q.DistinctBlocks) (c : RV32.Code) (hc : RV32.CodeAt c codeBase img)
    (t : RV32.State) (hpc : t.pc = codeBase)
    (V : Vars) (K : Nat → Kind) (ds : List GlobalInit.Decl) (fin : RA) (Pr : SsaProg.SrcProg) (W : SsaProg.Whole Q V K ds fin (t.get 2#5) Pr)
    (hv : Pr.byteVal = fun b => b.signExtend 32) (hda : Pr.dataAddr = codeBase + BitVec.ofNat 32 (4 * img.length))
    (hg : Globals tab V K ds) (addr : Nat → Word) (alloc : String → Word → Nat → Word) (keep : String → Word → Prop)
    (haddr : ∀ (i : Nat) d, ds[i]? = some d → addr i = t.get 2#5 - num fin.stack + num (fin.offset d.var))
    (hs : ∀ g f bf d, g ≠ "__syscall" → Pr.fn g = some f → source tops addr alloc keep g = some bf → d ∈ tab.defs → String.ofList d.name = g →
      ∃ st, Compiled Pr (withTree bf d.body) f st)
    (m' : Mem) (r : Option Word)
    (hx : CUnit.Exits D.E tops addr (source tops addr alloc keep) (t.get 2#5 - num fin.stack) (t.get 2#5) Pr t.mem m' r) :
    ∃ u, RV32.SysReaches c Pr.os t u ∧ RV32.step c u = .ecall u ∧ u.get 17#5 = 93#32 ∧ (∀ x, r = some x → u.get 10#5 = x) ∧
      SsaProg.Agree (SsaProg.stackBelow Pr (t.get 2#5 - num fin.stack)) m' u.mem :=
  C85_rv_partial hard Q F img h hd c hc t hpc V K ds fin Pr W hv hda m' r (C100_exits_partial hw ha hna hread hg haddr hs hx)

open Shecc.RegAlloc Shecc.GlobalInit CGlobals in
/-- **C100 (ARM).** The same for ARM. -/
theorem C100_arm_partial {base : Nat} {tops : List CUnit.Top} {ts : List Tk} {D : Decls} (hw : WProgram base tops ts D) (ha : D.E.Apart)
    (hna : NoStructAlias D.types D.E) {n : Nat} {tab : Tab} (hread : program base n (ts ++ [(.eof, [])]) = some tab)
    (hard : Bool) (Q : Shecc.Prog) (F : Flat) (img : List CInt)
    (h : compile Arm.target hard (Peep.prog Q) = some (F, img)) (hd : Q.DistinctBlocks) (hP : (Peep.prog Q).ArmOk) (c : ARM.Code) (hc : ARM.CodeAt c codeBase img)
    (t : ARM.State) (hpc : t.pc = codeBase)
    (V : Vars) (K : Nat → Kind) (ds : List GlobalInit.Decl) (fin : RA) (Pr : SsaProg.SrcProg) (W : SsaProg.Whole Q V K ds fin (t.get 13#4) Pr)
    (hv : Pr.byteVal = fun b => b.setWidth 32) (hda : Pr.dataAddr = codeBase + BitVec.ofNat 32 (4 * img.length))
    (hg : Globals tab V K ds) (addr : Nat → Word) (alloc : String → Word → Nat → Word) (keep : String → Word → Prop)
    (haddr : ∀ (i : Nat) d, ds[i]? = some d → addr i = t.get 13#4 - num fin.stack + num (fin.offset d.var))
    (hs : ∀ g f bf d, g ≠ "__syscall" → Pr.fn g = some f → source tops addr alloc keep g = some bf → d ∈ tab.defs → String.ofList d.name = g →
      ∃ st, Compiled Pr (withTree bf d.body) f st)
    (m' : Mem) (r : Option Word)
    (hx : CUnit.Exits D.E tops addr (source tops addr alloc keep) (t.get 13#4 - num fin.stack) (t.get 13#4) Pr t.mem m' r) :
    ∃ u, ARM.SysReaches c Pr.os t u ∧ ARM.step c u = .svc u ∧ u.get 7#4 = 1#32 ∧ (∀ x, r = some x → u.get 0#4 = x) ∧
      SsaProg.Agree (SsaProg.stackBelow Pr (t.get 13#4 - num fin.stack)) m' u.mem :=
  C85_arm_partial hard Q F img h hd hP c hc t hpc V K ds fin Pr W hv hda m' r (C100_exits_partial hw ha hna hread hg haddr hs hx)

open Shecc.RegAlloc Shecc.GlobalInit CGlobals in
/-- **C100, storage.** Each global variable of type `t` and size `k` has its own part of the global frame, of at least `k` bytes (an array: a word and at
least `k` bytes). -/
theorem C100_storage_partial {base : Nat} {tops : List CUnit.Top} {ts : List Tk} {D : Decls} (hw : WProgram base tops ts D) (ha : D.E.Apart)
    (hna : NoStructAlias D.types D.E) {n : Nat} {tab : Tab} (hread : program base n (ts ++ [(.eof, [])]) = some tab)
    {V : Vars} {K : Nat → Kind} {ds : List GlobalInit.Decl} (hP : Proper V K ds) (hg : Globals tab V K ds) :
    ∃ fin, allocGlobals V K ds = some fin ∧
      ∀ (i j : Nat) e v e' v' d d', (vars tops)[i]? = some (e, v) → (vars tops)[j]? = some (e', v') → ds[i]? = some d → ds[j]? = some d' →
        ∃ t k t' k', e.2.type D.E = some t ∧ HasSize D.E t k ∧ e'.2.type D.E = some t' ∧ HasSize D.E t' k' ∧ k ≤ storage t k ∧
          4 ≤ fin.offset d.var ∧ fin.offset d.var + storage t k ≤ fin.stack ∧
          (i ≠ j → fin.offset d.var + storage t k ≤ fin.offset d'.var ∨ fin.offset d'.var + storage t' k' ≤ fin.offset d.var) := by
  obtain ⟨fin, h1, h2, _⟩ := C84_globals V K ds hP
  obtain ⟨tab', ⟨_, hu⟩, hR, hv, hall⟩ := program_ok hw ha hna
  obtain rfl := hu n tab hread
  refine ⟨fin, h1, fun i j e v e' v' d d' hi hj hdi hdj => ?_⟩
  have key : ∀ (i : Nat) e v d, (vars tops)[i]? = some (e, v) → ds[i]? = some d → ∃ t k, e.2.type D.E = some t ∧ HasSize D.E t k ∧
      room (K d.var) = storage t k := by
    intro i e v d hi hd
    obtain ⟨t, k, h3, h4, h5, h6⟩ := vars_ok hw.tops (e, v) (get_mem hi)
    obtain ⟨K', h7, h8, _⟩ := kind_ok hR.prog ha hna hR.types h3 h4 h5 h6
    rw [(hg.each i e v d (by rw [hv]; exact hi) hd).1] at h7
    cases h7
    exact ⟨t, k, h3, h4, h8⟩
  obtain ⟨t, k, h3, h4, h5⟩ := key i e v d hi hdi
  obtain ⟨t', k', h6, h7, h8⟩ := key j e' v' d' hj hdj
  obtain ⟨h9, _, h10⟩ := h2.inside d (get_mem hdi)
  have hw : k ≤ words k := by unfold words; split <;> omega
  refine ⟨t, k, t', k', h3, h4, h6, h7, ?_, h9, by rw [← h5]; exact h10, fun hne => ?_⟩
  · cases t <;> simp only [storage] <;> omega
  · rw [← h5, ← h8]
    refine h2.disjoint d (get_mem hdi) d' (get_mem hdj) fun e => hne ?_
    have l1 := (List.getElem?_eq_some_iff.1 hdi)
    have l2 := (List.getElem?_eq_some_iff.1 hdj)
    obtain ⟨p1, q1⟩ := l1
    obtain ⟨p2, q2⟩ := l2
    have hpw := List.pairwise_iff_getElem.1 hP.distinct
    rcases Nat.lt_trichotomy i j with hlt | hlt | hlt
    · exact absurd (by rw [List.getElem_map, List.getElem_map, q1, q2]; exact e) (hpw i j (by simpa using p1) (by simpa using p2) hlt)
    · exact hlt
    · exact absurd (by rw [List.getElem_map, List.getElem_map, q1, q2]; exact e.symm) (hpw j i (by simpa using p2) (by simpa using p1) hlt)

end Shecc.Props
