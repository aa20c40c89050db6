import Verif.Lemmas.Top2
import Verif.Lemmas.TopFuel
import Verif.Props.Body
import Verif.Props.Types

/-!
# Reading declarations and whole programs
-/

namespace Shecc.Top
open CTypes CSyntax CBody CUnit
open Shecc.ExprGen (Conv)
open CArith (Word)

/-- The tables hold what has been declared. -/
structure Rel (D : Decls) (t : Tab) : Prop where
  prog : CTypes.Program D.types D.E
  types : Types.declares Types.builtin D.types = some t.types
  consts : t.consts = D.consts
  funcs : ∀ s, t.funcs.contains s = (D.fn s).isSome
  globals : t.globals.map (·.1) = D.globals
  data : t.data = D.data

theorem rel_init : Rel .init init where
  prog := .nil
  types := rfl
  consts := rfl
  funcs := by
    intro s
    generalize hc : "__syscall".toList = c
    simp only [init, Decls.init, hc, Decls.fn, List.contains_cons, List.contains_nil, Bool.or_false, List.find?_cons, List.find?_nil]
    by_cases h : s = c
    · subst h; simp
    · rw [beq_eq_false_iff_ne.2 h, decide_eq_false (fun e => h e.symm)]; rfl
  globals := rfl
  data := rfl

theorem declare_types (D : Decls) (s : List Char) (t : T) : (D.declare s t).types = D.types ∧ (D.declare s t).E = D.E ∧ (D.declare s t).consts = D.consts ∧
    (D.declare s t).globals = D.globals ∧ (D.declare s t).data = D.data ∧ (D.declare s t).bodies = D.bodies := by
  unfold Decls.declare
  split <;> exact ⟨rfl, rfl, rfl, rfl, rfl, rfl⟩

theorem rel_declare {D : Decls} {t : Tab} (h : Rel D t) (s : List Char) (u : T) : Rel (D.declare s u) (t.addFunc s) := by
  obtain ⟨e1, e2, e3, e4, e5, _⟩ := declare_types D s u
  refine ⟨by rw [e1, e2]; exact h.prog, by rw [e1]; exact h.types, by rw [e3]; exact h.consts, fun x => ?_, by rw [e4]; exact h.globals,
    by rw [e5]; exact h.data⟩
  have hs := h.funcs s
  have hx := h.funcs x
  simp only [Tab.addFunc]
  unfold Decls.declare
  cases hf : D.fn s with
  | some v =>
    rw [hf] at hs
    simp only [hs, Option.isSome_some, if_true]
    exact hx
  | none =>
    rw [hf] at hs
    simp only [hs, Option.isSome_none, if_false, Bool.false_eq_true]
    rw [List.contains_append, hx, Decls.fn, Decls.fn]
    simp only [List.find?_append, List.find?_cons, List.find?_nil, List.contains_cons, List.contains_nil, Bool.or_false]
    cases h1 : D.fns.find? fun f => decide (f.1 = x) with
    | some v => simp
    | none =>
      by_cases he : s = x
      · subst he; simp
      · rw [beq_eq_false_iff_ne.2 (fun e => he e.symm), decide_eq_false he]; rfl

theorem frame_ent {U : CBody.Unit} : ∀ {l : List Named} {k : Nat}, (∀ i e, l[i]? = some e → U.decl (k + i) = e.2) → (frame k l).map (Body.ent U) = numbered k l
  | [], _, _ => rfl
  | e :: l, k, h => by
    have h0 : U.decl k = e.2 := by simpa using h 0 e rfl
    simp only [frame, List.map_cons, numbered, Body.ent, h0]
    congr 1
    exact frame_ent (U := U) fun i x hx => by
      have := h (i + 1) x (by simpa using hx)
      rw [← this]; congr 1; omega

theorem frame_lt : ∀ {l : List Named} {k : Nat}, ∀ e ∈ frame k l, e.2 < k + l.length
  | [], _, e, h => by cases h
  | a :: l, k, e, h => by
    simp only [frame, List.mem_cons] at h
    rcases h with rfl | h
    · simp
    · have := frame_lt e h
      simp only [List.length_cons]; omega

theorem inside_glob {base : Nat} {D : Decls} {t : Tab} {ps : List Named} {U : CBody.Unit} (h : Rel D t) (hU : Inside base D ps U) :
    t.glob ps = Body.glob t.types U := by
  have hl : t.globals.length = D.globals.length := by rw [← h.globals, List.length_map]
  simp only [Tab.glob, Body.glob]
  congr 1
  · rw [hU.const, h.consts]; rfl
  · rw [hU.fn]; exact funext h.funcs
  · exact hU.macro_.symm
  · rw [hU.params, hl]
    refine (frame_ent fun i e he => hU.decl _ _ ?_).symm
    rw [List.getElem?_append_right (by omega)]
    rw [← he]; congr 1; omega
  · rw [hU.globals, h.globals]
    refine (frame_ent fun i e he => ?_).symm
    rw [Nat.zero_add]
    refine hU.decl _ _ ?_
    rw [List.getElem?_append_left (List.getElem?_eq_some_iff.1 he).1]
    exact he

theorem inside_lt {base : Nat} {D : Decls} {ps : List Named} {U : CBody.Unit} (hU : Inside base D ps U) :
    ∀ e ∈ U.params ++ U.globals, e.2 < D.globals.length + ps.length := by
  intro e he
  rw [hU.params, hU.globals] at he
  rcases List.mem_append.1 he with he | he
  · exact frame_lt e he
  · have := frame_lt e he; omega

/-- The function that was read is the one that was written. -/
structure FnOk (base : Nat) (f : FnDef) (d : Def) : Prop where
  name : d.name = f.name
  params : d.params = f.params
  nv : d.nv = f.nv
  read : ∃ types T ts nv' dt dt' rest st n, CTypes.Program types f.unit.E ∧ f.unit.E.Apart ∧ NoStructAlias types f.unit.E ∧
    Types.declares Types.builtin types = some T ∧ f.unit.base = base ∧ (∀ e ∈ f.unit.params ++ f.unit.globals, e.2 < f.nv) ∧ f.nv ≤ base ∧
    WItems f.unit [[]] f.nv f.body ts nv' dt dt' ∧
    Body.funcBody (Body.glob T f.unit) n base f.nv dt (p .open_curly :: ts ++ rest) = some (d.body, st, rest)

theorem global_id {base : Nat} {ty : List Char} {ts : List Tk} {t : Tab} : global_ base n ((.identifier, ty) :: ts) t = globalDecl base n ty ts t := rfl

theorem wDecl_head {d : Decl} {td : List Tk} (h : WDecl d td) : Head (fun k => k ≠ .identifier ∧ k ≠ .eof) td := by
  cases h <;> exact ⟨_, _, rfl, by decide⟩

theorem global_type {base n : Nat} {ts : List Tk} {t : Tab} (h : Head (fun k => k ≠ .identifier ∧ k ≠ .eof) ts) :
    global_ base n ts t = (typeDecl n ts).bind fun r => (t.addType r.1).map fun t => (t, r.2) := by
  obtain ⟨⟨k, x⟩, r, rfl, hk, _⟩ := h
  unfold global_
  split
  · rename_i heq; cases heq; exact absurd rfl hk
  · rfl

theorem wTop_head {base : Nat} {D D' : Decls} {x : CUnit.Top} {tx : List Tk} (h : WTop base D x tx D') : Head (· ≠ .eof) tx := by
  cases h with
  | type hw _ _ _ _ =>
    obtain ⟨t, r, rfl, h⟩ := wDecl_head hw
    exact ⟨t, r, rfl, h.2⟩
  | var => exact ⟨_, _, rfl, by simp⟩
  | proto hh => cases hh; exact ⟨_, _, rfl, by simp⟩
  | fn hh => cases hh; exact ⟨_, _, rfl, by simp⟩

theorem wTop_grows {base : Nat} {D D' : Decls} {x : CUnit.Top} {tx : List Tk} (h : WTop base D x tx D') :
    Types.Grows D.E D'.E ∧ ∀ d ∈ D.types, d ∈ D'.types := by
  cases h with
  | type hw hn hd hc hf => exact ⟨Types.Declares.grows hd, fun d h => List.mem_append_left _ h⟩
  | var => exact ⟨.refl _, fun d h => h⟩
  | @proto s t => obtain ⟨e1, e2, _⟩ := declare_types D s t; rw [e1, e2]; exact ⟨.refl _, fun d h => h⟩
  | @fn s t =>
    obtain ⟨e1, e2, _⟩ := declare_types D s t
    exact ⟨by simp only [e2]; exact .refl _, fun d h => by simp only [e1]; exact h⟩

/-- The head of a function. -/
theorem wHead_ok {D : Decls} {s : List Char} {u : T} {ps : List Named} {th : List Tk} (h : WHead D s u ps th) (r : List Tk) :
    ∃ ty td n0 q, th ++ r = (.identifier, ty) :: td ∧ Conv (fun n => inner n false (.name (String.ofList ty)) td)
      ((s, { spec := .name (String.ofList ty), ptrs := n0, form := .plain, name := String.ofList s }), p .open_bracket :: q) ∧
      Conv (fun n => params n false q) (ps, r) := by
  cases h with
  | @mk ty s n t u ps tp hu ht hr hp hd hf =>
    refine ⟨ty, _, n, tp ++ r, rfl, ?_, wParams_ok hp r⟩
    have := inner_var (sp := .name (String.ofList ty)) (s := s) (k := n) (rest := p .open_bracket :: (tp ++ r)) WForm.plain (by simp [p])
    simpa using this

theorem pointers_int {n : Nat} {t : T} (h : pointers n t = .int) : n = 0 := by
  cases n with
  | zero => rfl
  | succ n => simp [pointers] at h

theorem int_plain {E : Env} {d : Declr} (h : d.type E = some .int) : d.ptrs = 0 ∧ d.form = .plain := by
  simp only [Declr.type, Option.map_eq_some_iff] at h
  obtain ⟨t, _, h⟩ := h
  cases hf : d.form <;> rw [hf] at h <;> simp only [reduceCtorEq] at h
  exact ⟨pointers_int h, rfl⟩

theorem wTop_ok {base : Nat} {D D' : Decls} {x : CUnit.Top} {tx : List Tk} (h : WTop base D x tx D') (ha : D'.E.Apart) (hs : NoStructAlias D'.types D'.E)
    {t : Tab} (hR : Rel D t) (r : List Tk) :
    ∃ t', Conv (fun n => global_ base n (tx ++ r) t) (t', r) ∧ Rel D' t' ∧ t'.globals = t.globals ++ vars [x] ∧
      ((fns [x] = [] ∧ t'.defs = t.defs) ∨ ∃ f d, fns [x] = [f] ∧ t'.defs = t.defs ++ [d] ∧ FnOk base f d) := by
  cases h with
  | @type d _ E' hw hn hd hc hf =>
    have hP := Program.snoc hR.prog hn hd
    obtain ⟨_, T', h1, _⟩ := Types.program_inv hP ha hs
    rw [Types.declares_append, hR.types, Option.bind_some] at h1
    refine ⟨{ t with types := T', consts := t.consts ++ constants d }, ?_, ?_, ?_, .inl ⟨rfl, rfl⟩⟩
    · have hh : Head (fun k => k ≠ .identifier ∧ k ≠ .eof) (tx ++ r) := by
        obtain ⟨k, q, rfl, hk⟩ := wDecl_head hw
        exact ⟨k, q ++ r, rfl, hk⟩
      refine Conv.eq (fun n => global_type hh) (Conv.bind (wDecl_ok hw r) ⟨0, fun n _ => ?_⟩)
      simp only [Tab.addType, h1, Option.map_some]
      cases d <;> simp only [constants, List.append_nil]
      have e := Props.readEnum_eq (by assumption) 0 t.consts
      rw [show BitVec.ofInt 32 0 = 0 from rfl] at e
      rw [e]
    · exact ⟨hP, by simp only [Types.declares_append, hR.types, Option.bind_some, h1], by simp only [hR.consts], hR.funcs, hR.globals, hR.data⟩
    · simp [vars]
  | @var ty e td ti u k v hd hp ht hk hf hi =>
    refine ⟨t.addVar e v, ?_, ?_, rfl, .inl ⟨rfl, rfl⟩⟩
    · have hfn : (Types.readVar e.2).isFunc = false := by
        simp only [Types.readVar]
      simp only [List.cons_append, List.append_assoc, List.nil_append]
      refine Conv.eq (fun n => global_id) ?_
      unfold globalDecl
      cases hi with
      | none =>
        have h1 := wDeclr_ok hd (rest := p .semicolon :: r) (by simp [p])
        refine Conv.bind h1 ⟨0, fun n _ => ?_⟩
        simp only [p, hfn]
        try rfl
      | @some v ts hu hv =>
        subst hu
        obtain ⟨hp0, hpl⟩ := int_plain ht
        have h1 := wDeclr_ok hd (rest := p .assign :: (ts ++ p .semicolon :: r)) (by simp [p])
        refine Conv.bind h1 ?_
        refine Conv.eq (h := fun n => (initializer n (ts ++ p .semicolon :: r)).bind fun q => Body.expect .semicolon q.2 fun ts =>
          Option.some (t.addVar e (Option.some q.1), ts)) (fun n => ?_) (Conv.bind (wValue_ok hv r) ⟨0, fun n _ => expect_ok _ _ _ _⟩)
        simp only [p]
        rw [if_pos]
        simp [Types.readVar, hpl, hp0]
    · refine ⟨hR.prog, hR.types, hR.consts, hR.funcs, ?_, hR.data⟩
      simp only [Tab.addVar, List.map_append, hR.globals, List.map_cons, List.map_nil]
  | @proto s u ps th hh =>
    obtain ⟨ty, td, n0, q, he, h1, h2⟩ := wHead_ok hh (p .semicolon :: r)
    refine ⟨t.addFunc s, ?_, rel_declare hR s u, by simp [vars, Tab.addFunc], .inl ⟨rfl, rfl⟩⟩
    rw [List.append_assoc, List.singleton_append, he]
    refine Conv.eq (fun n => global_id) ?_
    unfold globalDecl
    refine Conv.bind h1 ?_
    exact Conv.bind h2 ⟨0, fun n _ => rfl⟩
  | @fn s u ps th tb U ss nv' d' hh hn hU hb =>
    obtain ⟨ty, td, n0, q, he, h1, h2⟩ := wHead_ok hh (p .open_curly :: (tb ++ r))
    obtain ⟨e1, e2, e3, e4, e5, e6⟩ := declare_types D s u
    have hR1 := rel_declare hR s u
    have hg := inside_glob hR1 hU
    have hUE : U.E = D.E := hU.E.trans e2
    have ha' : D.E.Apart := by simpa only [e2] using ha
    have hs' : NoStructAlias D.types D.E := by simpa only [e1, e2] using hs
    have hlt := inside_lt hU
    rw [e4] at hlt
    have hroom := hU.room
    rw [e4] at hroom
    have hbase := hU.below
    obtain ⟨tree, st, ⟨n1, hc1⟩, hu, hd1, hd2, hd3, _⟩ := Props.C96_body_partial hR.prog ha' hs' hR.types hUE (fun e he => by rw [hbase]; exact Nat.lt_of_lt_of_le (hlt e he) hroom)
      (by rw [hbase]; exact hroom) hb r
    rw [hbase] at hc1
    have hl : t.globals.length = D.globals.length := by rw [← hR.globals, List.length_map]
    refine ⟨{ t.addFunc s with data := st.data, defs := t.defs ++ [⟨s, ps, D.globals.length + ps.length, tree⟩] }, ?_, ?_, ?_,
      .inr ⟨_, _, rfl, rfl, rfl, rfl, rfl, D.types, t.types, tb, nv', D.data, d', r, st, n1, by simp only [hUE]; exact hR.prog, by simp only [hUE]; exact ha',
        by simp only [hUE]; exact hs', hR.types, hbase, hlt, hroom, hb, hc1⟩⟩
    · rw [List.append_assoc, List.cons_append, he]
      refine Conv.eq (fun n => global_id) ?_
      unfold globalDecl
      refine Conv.bind h1 ?_
      refine Conv.bind h2 ?_
      have hcv : Conv (fun n => Body.funcBody ((t.addFunc s).glob ps) n base (t.globals.length + ps.length) t.data (p .open_curly :: (tb ++ r))) (tree, st, r) := by
        refine ⟨n1, fun n hle => ?_⟩
        rw [hg, hl, hR.data]
        exact Fuel.funcBody _ hle _ _ _ _ _ hc1
      have := Conv.map hcv fun z => (({ t.addFunc s with data := z.2.1.data, defs := t.defs ++ [⟨s, ps, t.globals.length + ps.length, z.1⟩] } : Tab), z.2.2)
      rw [← hl]
      exact this
    · refine ⟨hR1.prog, hR1.types, hR1.consts, hR1.funcs, hR1.globals, hd1⟩
    · simp [vars, Tab.addFunc]

theorem wTops_grows {base : Nat} {D D' : Decls} {l : List CUnit.Top} {ts : List Tk} (h : WTops base D l ts D') :
    Types.Grows D.E D'.E ∧ ∀ d ∈ D.types, d ∈ D'.types := by
  induction h with
  | nil => exact ⟨.refl _, fun _ h => h⟩
  | cons h _ ih =>
    obtain ⟨h1, h2⟩ := wTop_grows h
    exact ⟨h1.trans ih.1, fun d hd => ih.2 d (h2 d hd)⟩

/-- Functions read and functions written, one by one. -/
def AllOk (base : Nat) : List FnDef → List Def → Prop
  | [], [] => True
  | f :: fs, d :: ds => FnOk base f d ∧ AllOk base fs ds
  | _, _ => False

theorem vars_cons (x : CUnit.Top) (l : List CUnit.Top) : vars (x :: l) = vars [x] ++ vars l := by
  simp only [vars, ← List.filterMap_append, List.singleton_append]
theorem fns_cons (x : CUnit.Top) (l : List CUnit.Top) : fns (x :: l) = fns [x] ++ fns l := by
  simp only [fns, ← List.filterMap_append, List.singleton_append]

theorem wTops_ok {base : Nat} {D D' : Decls} {l : List CUnit.Top} {ts : List Tk} (h : WTops base D l ts D') (hl : l ≠ []) (ha : D'.E.Apart)
    (hs : NoStructAlias D'.types D'.E) : ∀ {t : Tab}, Rel D t → ∀ (x : List Char) (r : List Tk),
    ∃ t' ds, Conv (fun n => loop base n (ts ++ (.eof, x) :: r) t) t' ∧ Rel D' t' ∧ t'.globals = t.globals ++ vars l ∧ t'.defs = t.defs ++ ds ∧
      AllOk base (fns l) ds := by
  induction h with
  | nil => exact absurd rfl hl
  | @cons D D1 D2 y l tx tl h hr ih =>
    intro t hR x r
    obtain ⟨hg1, hg2⟩ := wTops_grows hr
    obtain ⟨t1, h1, hR1, h2, h3⟩ := wTop_ok h (hg1.apart ha) (fun b z hbz s hz => hs b z (hg2 _ hbz) s (hg1.tydef _ _ hz)) hR (tl ++ (.eof, x) :: r)
    have hd : ∃ ds1, t1.defs = t.defs ++ ds1 ∧ ∀ fs ds, AllOk base fs ds → AllOk base (fns [y] ++ fs) (ds1 ++ ds) := by
      rcases h3 with ⟨h3, h4⟩ | ⟨f, d, h3, h4, h5⟩
      · exact ⟨[], by simp [h4], fun fs ds h => by rw [h3]; exact h⟩
      · exact ⟨[d], h4, fun fs ds h => by rw [h3]; exact ⟨h5, h⟩⟩
    obtain ⟨ds1, hd1, hd2⟩ := hd
    rw [vars_cons, fns_cons]
    rw [List.append_assoc]
    cases hr with
    | nil =>
      refine ⟨t1, ds1, ?_, hR1, by simpa [vars] using h2, hd1, by simpa [fns] using hd2 [] [] trivial⟩
      refine Conv.succ (fun n => by rw [loop]) (Conv.bind h1 ⟨0, fun n _ => rfl⟩)
    | @cons _ D3 _ y' l' tx' tl' h' hr' =>
      obtain ⟨t2, ds2, g1, g2, g3, g4, g5⟩ := ih (by simp) ha hs hR1 x r
      refine ⟨t2, ds1 ++ ds2, ?_, g2, by rw [g3, h2, List.append_assoc], by rw [g4, hd1, List.append_assoc], hd2 _ _ g5⟩
      refine Conv.succ (fun n => by rw [loop]) (Conv.bind h1 ?_)
      obtain ⟨⟨k, z⟩, q, e, hk⟩ := wTop_head h'
      refine Conv.eq (fun n => ?_) g1
      rw [e]
      simp only [List.cons_append]
      split
      · rename_i heq; cases heq; exact absurd rfl hk
      · rfl

end Shecc.Top
