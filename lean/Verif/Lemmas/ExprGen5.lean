import Verif.Lemmas.ExprGen4

/-!
# Translation of expressions: operands, expressions, arguments
-/

namespace Shecc.ExprGen
open CTypes CEval CSyntax CArith SsaSem
open Shecc.Ssa (Insn Op1)
open Shecc.Parser (POp prio getOperator operator)

variable {base : Nat} {T : Types.Table} {S : Scope}

theorem names_var {s : List Char} {x : Nat} (h : S.var s = some x) : (names T S).var s = some (x, Types.readVar (S.decl x)) := by
  simp only [names, h, Option.map_some]

theorem lvalue_of {N : Names} {eval : Bool} {x : Nat} {v : Types.Var} {ts rest : List Parser.T} {g g' : G} {st : LvSt} {y : LvSt × G × List Parser.T}
    (h : Conv (fun n => (lvStart N.types x v ts g).bind fun q => access N n q.1 q.2 ts) (st, g', rest))
    (h2 : Conv (fun n => if eval then lvEnd N n st g' rest else some (st, g', rest)) y) : Conv (fun n => lvalue N n eval x v ts g) y := by
  refine Conv.succ (h := fun n => ((lvStart N.types x v ts g).bind fun q => access N n q.1 q.2 ts).bind fun r =>
    if eval then lvEnd N n r.1 r.2.1 r.2.2 else some r) (fun n => ?_) (Conv.bind h h2)
  simp only [lvalue, Option.bind_assoc]

theorem operand_body {N : Names} {ts : List Parser.T} {g : G} {y : G × List Parser.T} (hm : ∀ s r, ts ≠ (.minus, s) :: r)
    (h : Conv (fun n => operandBody N n false ts g) y) : Conv (fun n => operand N n ts g) y := by
  refine Conv.succ (fun n => ?_) h
  cases ts with
  | nil => simp only [operand]
  | cons t r =>
    obtain ⟨t, s⟩ := t
    cases t with
    | minus => exact absurd rfl (hm s r)
    | _ => simp only [operand]

theorem named_operand {N : Names} {s : List Char} {ts : List Parser.T} {g : G} {y : G × List Parser.T} (h : Conv (fun n => named N n s ts g) y) :
    Conv (fun n => operand N n ((.identifier, s) :: ts) g) y := by
  refine operand_body (fun s r e => by cases e) (Conv.succ (h := fun n => (named N n s ts g).bind fun r => some r) (fun n => ?_) (Conv.bind h ?_))
  · simp only [operandBody]; rfl
  · exact Conv.const fun _ => rfl

theorem operand_named {N : Names} {s : List Char} {ts : List Parser.T} {g : G} {y : G × List Parser.T}
    (h : Conv (fun n => operand N n ((.identifier, s) :: ts) g) y) : Conv (fun n => named N n s ts g) y := by
  refine Conv.unsucc 2 (fun n => ?_) h
  simp only [operand, operandBody, Bool.false_eq_true, if_false]
  cases named N n s ts g <;> rfl

theorem not_open {fl : Bool} {rest : List Parser.T} (h : okHead fl rest = true) : ∀ s r, rest ≠ (.open_bracket, s) :: r := by
  rintro s r rfl
  simp [okHead, okTok] at h

theorem named_lv {s : List Char} {x : Nat} {ts rest : List Parser.T} {g g' : G} {st : LvSt} (hc : S.const s = none) (hv : S.var s = some x)
    (hr : ∀ s r, rest ≠ (.open_bracket, s) :: r)
    (h : Conv (fun n => lvalue (names T S) n true x (Types.readVar (S.decl x)) ts g) (st, g', rest)) : Conv (fun n => named (names T S) n s ts g) (g', rest) := by
  have hc' : (names T S).const s = none := hc
  obtain ⟨n0, h0⟩ := h
  refine ⟨n0 + 1, fun n hn => ?_⟩
  obtain ⟨m, rfl⟩ : ∃ m, n = m + 1 := ⟨n - 1, by omega⟩
  simp only [named, hc', names_var hv, h0 m (by omega), Option.bind_some]

/-- The lvalue is read as a value. -/
theorem comp_value (h : TOk T S.E) {st : LvSt} {l : Lv} {t t' : CTypes.T} {sp : TSpec} {b : CTypes.T} (hr : LvRel T S.E st l t false sp b)
    (ht : ValueType t t') {ts : List Tk} {d d1 : List Char} (hw : WLv S l t ts d d1) {g g1 : G} (hb : base ≤ g.next) (hc : Comp base g g1 (phLv S l t)) :
    ∃ g2, (if st.isRef then g1.un .read st.size else some g1) = some g2 ∧ g2.data = g1.data ∧ Comp base g g2 (phEx S (.lval l)) := by
  have href := lv_isRef h hr
  by_cases hf : st.isRef = true
  · rw [if_pos hf]
    rw [hf] at href
    have href : isVar l = false ∧ isArr t = false := by simpa using href.symm
    obtain ⟨g2, h1, h2, h3⟩ := hc.read hb st.size
    refine ⟨g2, h1, h2, h3.mono ?_⟩
    intro X w w' res he
    cases he with
    | lvar hl ht' =>
      rw [((evLv_type hw hl).2 _).1 rfl] at href
      simp [isVar] at href
    | lmem hl ht' hk hv =>
      have := (evLv_type hw hl).1
      subst this
      rw [lv_size h hr href.2 hk]
      exact ⟨_, _, ⟨_, hl, rfl⟩, hv, rfl⟩
    | larr hl _ =>
      have := (evLv_type hw hl).1
      subst this
      simp [isArr] at href
  · rw [if_neg hf]
    refine ⟨g1, rfl, rfl, hc.mono ?_⟩
    have hf : st.isRef = false := by simpa using hf
    rw [hf] at href
    intro X w w' res he
    cases he with
    | lvar hl ht' =>
      have := (evLv_type hw hl).1
      subst this
      exact ⟨_, hl, rfl⟩
    | lmem hl ht' hk =>
      obtain ⟨h1, h2⟩ := evLv_type hw hl
      subst h1
      exfalso
      cases l with
      | var x => exact absurd ((h2 x).2 rfl) (by simp)
      | _ => cases ht <;> simp [isVar, isArr] at href <;> exact ht'.elim
    | larr hl hd =>
      have := (evLv_type hw hl).1
      subst this
      cases hd with
      | arrVar => exact ⟨_, hl, rfl⟩
      | arrMem => exact ⟨_, hl, rfl⟩

/-- The lvalue is read as a pointer. -/
theorem comp_pointer (h : TOk T S.E) {st : LvSt} {l : Lv} {t u : CTypes.T} {sp : TSpec} {b : CTypes.T} (hr : LvRel T S.E st l t false sp b)
    (hu : PointsTo t u) {ts : List Tk} {d d1 : List Char} (hw : WLv S l t ts d d1) {g g1 : G} (hb : base ≤ g.next) (hc : Comp base g g1 (phLv S l t)) :
    ∃ g2, (if st.isRef then g1.un .read st.size else some g1) = some g2 ∧ g2.data = g1.data ∧ Comp base g g2 (phPt S l t u) := by
  have href := lv_isRef h hr
  have hf : fetch l t = st.isRef := by
    rw [href]
    cases hu <;> simp [fetch, isPtr, isArr]
  obtain ⟨g2, h1, h2, h3⟩ := comp_fetch hw hu hb hc
  rw [hf] at h1
  refine ⟨g2, ?_, h2, h3⟩
  rw [← h1]
  cases hs : st.isRef with
  | false => rfl
  | true =>
    have : st.size = 4 := by
      cases hu with
      | ptr u => exact lv_size h hr rfl (.ptr u)
      | arr n u => rw [hs] at href; simp [isArr] at href
    rw [this]

/-- A pointer and the indices that are added to it. -/
theorem lv_sum (h : TOk T S.E) {l : Lv} {t u : CTypes.T} {ts tss : List Tk} {es : Exs} {d d1 d2 : List Char} {k : Nat} (hw : WLv S l t ts d d1)
    (hl : RLv base T S l t ts d d1) (hp : PointsTo t u) (hk : HasSize S.E u k) (hs : RSum base T S es tss d1 d2)
    (hnil : isNil es = true → es = .nil ∧ tss = [] ∧ d2 = d1) (hplus : isNil es = false → ∃ r, tss = p .plus :: r)
    (hn : isNil es = true ∨ isPtr u = false) (hm : (∃ x, l = .var x) ∨ isArr t = true ∨ short es = true) :
    ∃ s x ts', ts = (.identifier, s) :: ts' ∧ S.const s = none ∧ S.var s = some x ∧ ∀ g rest, base ≤ g.next → g.data = d → okHead true rest = true →
      ∃ st sp b g2 sz, LvRel T S.E st l t false sp b ∧ g2.data = d2 ∧
        Conv (fun n => lvalue (names T S) n true x (Types.readVar (S.decl x)) (ts' ++ tss ++ rest) g) ({ st with size := sz }, g2, rest) ∧
        Comp base g g2 fun X w w' res => ∃ w1 r, phPt S l t u X w w1 r ∧ EvSum X.C S.E S.decl X.ρ (BitVec.ofNat 32 k) w1 r es w' res := by
  obtain ⟨s, x, ts', h1, h2, h3, hl⟩ := hl
  refine ⟨s, x, ts', h1, h2, h3, fun g rest hb hd hr => ?_⟩
  have hacc : isAccess (tss ++ rest) = false := by
    cases hi : isNil es with
    | true => rw [(hnil hi).2.1]; exact okHead_access hr
    | false => obtain ⟨r, rfl⟩ := hplus hi; rfl
  obtain ⟨st, sp, b, g1, e1, _, e2, e3, e4⟩ := hl g (tss ++ rest) hb hd
  rw [hacc] at e1
  obtain ⟨g2, f1, f2, f3⟩ := comp_pointer h e1 hp hw hb e3
  have hconv := e4 _ (access_end (names T S) hacc st g1)
  rw [← List.append_assoc] at hconv
  cases hi : isNil es with
  | true =>
    obtain ⟨n1, n2, n3⟩ := hnil hi
    subst n1 n2 n3
    refine ⟨st, sp, b, g2, st.size, e1, by rw [f2, e2], lvalue_of hconv ?_, f3.mono ?_⟩
    · exact lvEnd_end (names T S) (fl := true) hr (fun _ => rfl) f1
    · rintro X w w' res ⟨w1, r, hP, hE⟩
      cases hE
      exact hP
  | false =>
    have hu : isPtr u = false := by
      rcases hn with hn | hn
      · rw [hi] at hn; cases hn
      · exact hn
    have hsz := sum_size h e1 hp hk hu
    obtain ⟨g3, sz, s1, s2, s3⟩ := hs st g g1 g2 rest k _ hb (by rw [f2, e2]) hr hsz (Types.HasSize.pos' h.env.fields hk) f3 (by
      cases hir : st.isRef with
      | false => rw [hir] at f1; exact .inl ⟨rfl, by simpa using f1.symm⟩
      | true =>
        refine .inr ⟨rfl, ?_, hi, ?_⟩
        · rw [lv_isRef h e1] at hir
          rcases hm with ⟨y, rfl⟩ | hm | hm
          · simp [isVar] at hir
          · simp [hm] at hir
          · exact hm
        · rw [hir] at f1; simpa using f1)
    refine ⟨st, sp, b, g3, sz, e1, s2, lvalue_of hconv ?_, s3⟩
    refine Conv.succ (h := fun n => sums (names T S) n st g1 (tss ++ rest)) (fun n => ?_) s1
    obtain ⟨r, rfl⟩ := hplus hi
    simp only [if_true, List.cons_append, p, lvEnd]
    rw [if_pos (lv_points h e1 hp hk).1]

/-! ### Operands -/

theorem comp_num {g : G} (hb : base ≤ g.next) (v : Word) : Comp base g (g.const v) (phEx S (.num v)) := by
  refine (comp_const hb v).mono ?_
  intro X w w' res h
  cases h
  exact ⟨rfl, rfl⟩

theorem rOp_num {l : CExpr.Literal} {d : List Char} (hl : l.Valid) : ROp base T S (.num (BitVec.ofNat 32 l.val)) [(.numeric, l.spelling)] false d d := by
  intro g rest hb hd _
  refine ⟨g.const _, operand_body (fun s r e => by cases e) (Conv.const fun n => ?_), hd, comp_num hb _⟩
  simp only [List.cons_append, List.nil_append, operandBody, (Props.C47_literal l hl false).2, Option.map_some]
  rfl

theorem rOp_negNum {l : CExpr.Literal} {d : List Char} (hl : l.Valid) :
    ROp base T S (.num (-BitVec.ofNat 32 l.val)) [p .minus, (.numeric, l.spelling)] false d d := by
  intro g rest hb hd _
  refine ⟨g.const _, Conv.succ (h := fun n => operandBody (names T S) n true ((.numeric, l.spelling) :: rest) g) (fun n => ?_) (Conv.const fun n => ?_), hd, comp_num hb _⟩
  · simp only [List.cons_append, List.nil_append, p, operand]
  · simp only [operandBody, (Props.C47_literal l hl true).2, Option.map_some]
    rfl

theorem rOp_chr {c : Char} {d : List Char} : ROp base T S (.num (BitVec.ofNat 32 c.toNat)) [(.char, [c])] false d d := by
  intro g rest hb hd _
  refine ⟨g.const _, operand_body (fun s r e => by cases e) (Conv.const fun n => ?_), hd, comp_num hb _⟩
  simp only [List.cons_append, List.nil_append, operandBody, List.headD_cons]

theorem rOp_str {s d : List Char} (hs : '\x00' ∉ s) : ROp base T S (.str (BitVec.ofNat 32 d.length)) [(.string, s)] false d (d ++ s ++ ['\x00']) := by
  intro g rest hb hd _
  have htw : s.takeWhile (fun c => decide (c ≠ '\x00')) = s := by
    have : ∀ q : List Char, '\x00' ∉ q → q.takeWhile (fun c => decide (c ≠ '\x00')) = q := by
      intro q
      induction q with
      | nil => intro _; rfl
      | cons a q ih =>
        intro h
        simp only [List.mem_cons, not_or] at h
        rw [List.takeWhile_cons_of_pos (by simpa using fun e => h.1 e.symm), ih h.2]
    exact this s hs
  subst hd
  refine ⟨_, operand_body (fun s r e => by cases e) (Conv.const fun n => ?_), rfl, (comp_data hb (BitVec.ofNat 32 g.data.length) (g.data ++ s ++ ['\x00'])).mono ?_⟩
  · simp only [List.cons_append, List.nil_append, operandBody, htw]
  · intro X w w' res h
    cases h
    exact ⟨rfl, rfl⟩

theorem rOp_const {s : List Char} {v : Word} {d : List Char} (hc : S.const s = some v) : ROp base T S (.num v) [(.identifier, s)] false d d := by
  intro g rest hb hd _
  have hc' : (names T S).const s = some v := hc
  refine ⟨g.const v, named_operand (Conv.const fun n => ?_), hd, comp_num hb _⟩
  simp only [named, hc']
  rfl

theorem sizeof_size (h : TOk T S.E) {sp : TSpec} {t : CTypes.T} {n k : Nat} (hr : resolve S.E sp = some t) (hd : ∀ s, sp = .tag s → S.E.tags s = true)
    (hk : HasSize S.E (pointers n t) k) : Types.sizeofType T sp n = some k := by
  have hfound : ∃ i, (∀ q, Types.sizeofType T sp q = T[i]?.map fun (e : Types.Ty) => if q ≠ 0 then 4 else e.size) ∧ Types.Rep T S.E i t := by
    cases sp with
    | name x =>
      obtain ⟨i, h3, h4⟩ := h.inv.names x t hr
      exact ⟨i, fun q => by simp only [Types.sizeofType, h3, Option.bind_some], h4⟩
    | tag s =>
      cases hr
      obtain ⟨i, h3, h4⟩ := h.inv.tags s (hd s rfl)
      exact ⟨i, fun q => by simp only [Types.sizeofType, h3, Option.bind_some], h4⟩
  obtain ⟨i, h3, h4⟩ := hfound
  cases n with
  | zero =>
    obtain ⟨e, h5, h6⟩ := h4.size hk
    rw [h3, h5, Option.map_some, if_neg (by simp), h6]
  | succ n =>
    obtain ⟨e, h5, _⟩ := h4
    rw [h3, h5, Option.map_some, if_pos (by simp), Types.pointers_size (Nat.succ_pos n) hk]

theorem takeWhile_stars (n : Nat) (rest : List Parser.T) :
    (List.replicate n (p .asterisk) ++ p .close_bracket :: rest).takeWhile (fun t => decide (t.1 = .asterisk)) = List.replicate n (p .asterisk) := by
  induction n with
  | zero => simp [p]
  | succ n ih =>
    rw [List.replicate_succ, List.cons_append, List.takeWhile_cons_of_pos (by simp [p]), ih]

theorem sizeofToks_ok {sp : TSpec} {n k : Nat} (h : Types.sizeofType T sp n = some k) (rest : List Parser.T) :
    sizeofToks T (specToks sp ++ (List.replicate n (p .asterisk) ++ p .close_bracket :: rest)) = some (k, rest) := by
  cases sp <;> simp [specToks, sizeofToks, takeWhile_stars, h, p, String.ofList_toList]

theorem rOp_sizeof (h : TOk T S.E) {sp : TSpec} {t : CTypes.T} {n k : Nat} {d : List Char} (hr : resolve S.E sp = some t)
    (hd : ∀ s, sp = .tag s → S.E.tags s = true) (hk : HasSize S.E (pointers n t) k) :
    ROp base T S (.num (BitVec.ofNat 32 k)) ((.sizeof, "sizeof".toList) :: p .open_bracket :: specToks sp ++ List.replicate n (p .asterisk) ++ [p .close_bracket])
      false d d := by
  intro g rest hb hd' _
  refine ⟨g.const _, operand_body (fun s r e => by cases e) (Conv.const fun m => ?_), hd', comp_num hb _⟩
  have := sizeofToks_ok (sizeof_size h hr hd hk) rest
  simp only [List.cons_append, List.append_assoc, List.nil_append, p, operandBody] at this ⊢
  simp only [names]
  rw [this]
  rfl

theorem rOp_not {e : Ex} {ts : List Tk} {fl : Bool} {d d1 : List Char} {tok : Lex.Tok} {op : Op2} {o : UnOp}
    (ht : (tok = .log_not ∧ op = .log_not ∧ o = .lnot) ∨ (tok = .bit_not ∧ op = .bit_not ∧ o = .bnot)) (he : ROp base T S e ts fl d d1) :
    ROp base T S (.un o e) (p tok :: ts) fl d d1 := by
  intro g rest hb hd hr
  obtain ⟨g1, h1, h2, h3⟩ := he g rest hb hd hr
  have ho : IrM.binOf op = none ∧ IrM.unOf op = some o := by rcases ht with ⟨_, rfl, rfl⟩ | ⟨_, rfl, rfl⟩ <;> exact ⟨rfl, rfl⟩
  obtain ⟨g2, e1, e2, e3⟩ := h3.alu1 hb ho.1 ho.2
  refine ⟨g2, operand_body ?_ (Conv.succ (h := fun n => (operand (names T S) n (ts ++ rest) g).bind fun r => (r.1.un (.alu op) 0).map fun g => (g, r.2)) (fun n => ?_)
    (Conv.bind h1 ?_)), by rw [e2, h2], e3.mono ?_⟩
  · rintro s r e
    rcases ht with ⟨rfl, _, _⟩ | ⟨rfl, _, _⟩ <;> cases e
  · rcases ht with ⟨rfl, rfl, _⟩ | ⟨rfl, rfl, _⟩ <;> simp only [p, List.cons_append, operandBody]
  · simp only [e1, Option.map_some]
    exact Conv.const fun _ => rfl
  · intro X w w' res hev
    cases hev with
    | un he' => exact ⟨_, he', rfl⟩

theorem rOp_neg {e : Ex} {s : List Char} {ts : List Tk} {fl : Bool} {d d1 : List Char} (he : ROp base T S e ((.identifier, s) :: ts) fl d d1) :
    ROp base T S (.un .neg e) (p .minus :: (.identifier, s) :: ts) fl d d1 := by
  intro g rest hb hd hr
  obtain ⟨g1, h1, h2, h3⟩ := he g rest hb hd hr
  obtain ⟨g2, e1, e2, e3⟩ := h3.alu1 hb (op := .negate) (o := .neg) rfl rfl
  refine ⟨g2, Conv.succ (h := fun n => operandBody (names T S) n true ((.identifier, s) :: (ts ++ rest)) g) (fun n => ?_)
    (Conv.succ (h := fun n => (named (names T S) n s (ts ++ rest) g).bind fun r => (r.1.un (.alu .negate) 0).map fun g => (g, r.2)) (fun n => ?_)
      (Conv.bind (operand_named h1) ?_)), by rw [e2, h2], e3.mono ?_⟩
  · simp only [p, List.cons_append, operand]
  · simp only [operandBody, if_true]
  · simp only [e1, Option.map_some]
    exact Conv.const fun _ => rfl
  · intro X w w' res hev
    cases hev with
    | un he' => exact ⟨_, he', rfl⟩

theorem rOp_lval (h : TOk T S.E) {l : Lv} {t t' : CTypes.T} {ts : List Tk} {d d1 : List Char} (hw : WLv S l t ts d d1) (hl : RLv base T S l t ts d d1)
    (ht : ValueType t t') : ROp base T S (.lval l) ts (catches l t) d d1 := by
  obtain ⟨s, x, ts', rfl, h2, h3, hl⟩ := hl
  intro g rest hb hd hr
  obtain ⟨st, sp, b, g1, e1, _, e2, e3, e4⟩ := hl g rest hb hd
  rw [okHead_access hr] at e1
  obtain ⟨g2, f1, f2, f3⟩ := comp_value h e1 ht hw hb e3
  refine ⟨g2, named_operand (named_lv h2 h3 (not_open hr) (st := st) (lvalue_of (e4 _ (access_end _ (okHead_access hr) st g1)) ?_)), by rw [f2, e2], f3⟩
  exact lvEnd_end (names T S) hr (fun hv => lv_catches h e1 hv) f1

theorem rOp_addr (h : TOk T S.E) {l : Lv} {t : CTypes.T} {ts : List Tk} {d d1 : List Char} (hw : WLv S l t ts d d1) (hl : RLv base T S l t ts d d1)
    (ha : isArr t = false) : ROp base T S (.addr l) (p .ampersand :: ts) false d d1 := by
  obtain ⟨s, x, ts', rfl, h2, h3, hl⟩ := hl
  intro g rest hb hd hr
  obtain ⟨st, sp, b, g1, e1, _, e2, e3, e4⟩ := hl g rest hb hd
  rw [okHead_access hr] at e1
  obtain ⟨g2, f1, f2, f3⟩ := comp_place hw hb e3
  have href := lv_isRef h e1
  rw [ha] at href
  have hlv : Conv (fun n => lvalue (names T S) n false x (Types.readVar (S.decl x)) (ts' ++ rest) g) (st, g1, rest) :=
    lvalue_of (e4 _ (access_end _ (okHead_access hr) st g1)) (Conv.const fun _ => rfl)
  refine ⟨g2, operand_body (fun s r e => by cases e) (Conv.succ (h := fun n => (lvalue (names T S) n false x (Types.readVar (S.decl x)) (ts' ++ rest) g).bind fun r =>
    if r.1.isRef then some r.2 else (r.2.1.un .address_of 0).map fun g => (g, r.2.2)) (fun n => ?_) (Conv.bind hlv ?_)), by rw [f2, e2], f3.mono ?_⟩
  · simp only [p, List.cons_append, operandBody, names_var h3, Option.bind_some]
  · refine Conv.const fun _ => ?_
    simp only [href]
    cases hv : isVar l with
    | true =>
      rw [hv, if_pos rfl] at f1
      simp [f1]
    | false =>
      rw [hv] at f1
      simp at f1
      simp [f1]
  · intro X w w' res hev
    cases hev with
    | addr hl' _ =>
      have := (evLv_type hw hl').1
      subst this
      exact ⟨_, hl', rfl⟩
    | addrArr hl' =>
      have := (evLv_type hw hl').1
      subst this
      simp [isArr] at ha

theorem derefEnd_ok (h : TOk T S.E) {st : LvSt} {l : Lv} {t u : CTypes.T} {sp : TSpec} {b : CTypes.T} {k sz : Nat} {es : Exs} {ts : List Tk} {d d1 : List Char}
    (hw : WLv S l t ts d d1) (hr : LvRel T S.E st l t false sp b) (hu : PointsTo t u) (hk : HasSize S.E u k) (hi : isIndex l = false)
    (ha : isArr t = true → isPtr u = false) {g g2 : G} (hb : base ≤ g.next)
    (hc : Comp base g g2 fun X w w' res => ∃ w1 r, phPt S l t u X w w1 r ∧ EvSum X.C S.E S.decl X.ρ (BitVec.ofNat 32 k) w1 r es w' res) (rest : List Parser.T) :
    ∃ g3, derefEnd (names T S) { st with size := sz } g2 rest = some (g3, rest) ∧ g3.data = g2.data ∧ Comp base g g3 (phEx S (.deref l es)) := by
  obtain ⟨g3, h1, h2, h3⟩ := hc.read hb k
  refine ⟨g3, ?_, h2, h3.mono ?_⟩
  · unfold derefEnd
    have := deref_size h hr hu hk hi ha
    simp only [names] at this ⊢
    rw [this, Option.bind_some, h1, Option.map_some]
  · intro X w w' res hev
    cases hev with
    | deref hl' hr' hu' hk' hs' hv' =>
      have := (evLv_type hw hl').1
      subst this
      have := decay_points hu hr'
      subst this
      have := Types.HasSize.fun' hk hk'
      subst this
      exact ⟨_, _, ⟨_, _, ⟨_, hl', hr'⟩, hs'⟩, hv', rfl⟩

theorem rSum_nil {d : List Char} : RSum base T S .nil [] d d := by
  intro st g g0 g1 rest k P hb hd hr hk hk0 hc hcase
  rcases hcase with ⟨_, rfl⟩ | ⟨_, _, h, _⟩
  · refine ⟨g1, st.size, Conv.const fun n => ?_, hd, hc.mono ?_⟩
    · cases rest with
      | nil => simp only [List.append_nil, sums]
      | cons t r =>
        obtain ⟨t, s⟩ := t
        revert hr
        cases t <;> simp [okHead, okTok, sums]
    · rintro X w w' res ⟨w1, r, hP, hE⟩
      cases hE
      exact hP
  · simp [isNil] at h

theorem wSum_head {es : Exs} {ts : List Tk} {d d1 : List Char} (h : WSum S es ts d d1) :
    (isNil es = true → es = .nil ∧ ts = [] ∧ d1 = d) ∧ (isNil es = false → ∃ r, ts = p .plus :: r) := by
  cases h with
  | nil => exact ⟨fun _ => ⟨rfl, rfl, rfl⟩, fun h => by simp [isNil] at h⟩
  | cons => exact ⟨fun h => by simp [isNil] at h, fun _ => ⟨_, rfl⟩⟩

theorem rOp_deref (h : TOk T S.E) {l : Lv} {t u : CTypes.T} {ts : List Tk} {d d1 : List Char} {k : Nat} (hw : WLv S l t ts d d1)
    (hl : RLv base T S l t ts d d1) (hp : PointsTo t u) (hk : HasSize S.E u k) (hi : isIndex l = false) (ha : isArr t = true → isPtr u = false) :
    ROp base T S (.deref l .nil) (p .asterisk :: ts) true d d1 := by
  obtain ⟨s, x, ts', rfl, h2, h3, hl⟩ := lv_sum h hw hl hp hk rSum_nil (fun _ => ⟨rfl, rfl, rfl⟩) (fun h => by simp [isNil] at h) (.inl rfl) (.inr (.inr rfl))
  intro g rest hb hd hr
  obtain ⟨st, sp, b, g2, sz, e1, e2, e3, e4⟩ := hl g rest hb hd hr
  obtain ⟨g3, f1, f2, f3⟩ := derefEnd_ok h (sz := sz) hw e1 hp hk hi ha hb e4 rest
  refine ⟨g3, operand_body (fun s r e => by cases e) (Conv.succ (h := fun n => (lvalue (names T S) n true x (Types.readVar (S.decl x)) (ts' ++ [] ++ rest) g).bind fun r =>
    derefEnd (names T S) r.1 r.2.1 r.2.2) (fun n => ?_) (Conv.bind e3 ?_)), by rw [f2, e2], f3⟩
  · simp only [p, List.cons_append, operandBody, names_var h3, Option.bind_some, List.append_nil]
  · exact Conv.const fun _ => f1

theorem rOp_derefSum (h : TOk T S.E) {l : Lv} {t u : CTypes.T} {ts tss : List Tk} {es : Exs} {d d1 d2 : List Char} {k : Nat} (hw : WLv S l t ts d d1)
    (hl : RLv base T S l t ts d d1) (hp : PointsTo t u) (hk : HasSize S.E u k) (hi : isIndex l = false) (ha : isArr t = true → isPtr u = false)
    (hws : WSum S es tss d1 d2) (hs : RSum base T S es tss d1 d2) (hn : isNil es = true ∨ isPtr u = false)
    (hm : (∃ x, l = .var x) ∨ isArr t = true ∨ short es = true) :
    ROp base T S (.deref l es) (p .asterisk :: p .open_bracket :: ts ++ tss ++ [p .close_bracket]) false d d2 := by
  obtain ⟨s, x, ts', rfl, h2, h3, hl⟩ := lv_sum h hw hl hp hk hs (wSum_head hws).1 (wSum_head hws).2 hn hm
  intro g rest hb hd hr
  obtain ⟨st, sp, b, g2, sz, e1, e2, e3, e4⟩ := hl g (p .close_bracket :: rest) hb hd rfl
  obtain ⟨g3, f1, f2, f3⟩ := derefEnd_ok h (sz := sz) hw e1 hp hk hi ha hb e4 rest
  refine ⟨g3, operand_body (fun s r e => by cases e) ?_, by rw [f2, e2], f3⟩
  obtain ⟨n0, h0⟩ := e3
  refine ⟨n0 + 1, fun n hn => ?_⟩
  obtain ⟨m, rfl⟩ : ∃ m, n = m + 1 := ⟨n - 1, by omega⟩
  have := h0 m (by omega)
  simp only [p, List.append_assoc, List.cons_append, List.nil_append] at this ⊢
  simp only [operandBody, names_var h3, Option.bind_some, this]
  exact f1

theorem rOp_padd (h : TOk T S.E) {l : Lv} {t u : CTypes.T} {ts tss : List Tk} {es : Exs} {d d1 d2 : List Char} {k : Nat} (hw : WLv S l t ts d d1)
    (hl : RLv base T S l t ts d d1) (hp : PointsTo t u) (hk : HasSize S.E u k) (hu : isPtr u = false) (hws : WSum S es tss d1 d2)
    (hs : RSum base T S es tss d1 d2) (hm : (∃ x, l = .var x) ∨ isArr t = true ∨ short es = true) :
    ROp base T S (.padd l es) (ts ++ tss) true d d2 := by
  obtain ⟨s, x, ts', rfl, h2, h3, hl⟩ := lv_sum h hw hl hp hk hs (wSum_head hws).1 (wSum_head hws).2 (.inr hu) hm
  intro g rest hb hd hr
  obtain ⟨st, sp, b, g2, sz, e1, e2, e3, e4⟩ := hl g rest hb hd hr
  refine ⟨g2, named_operand (named_lv h2 h3 (not_open hr) e3), e2, e4.mono ?_⟩
  intro X w w' res hev
  cases hev with
  | padd hl' hr' hk' hs' =>
    have := (evLv_type hw hl').1
    subst this
    have := decay_points hp hr'
    subst this
    have := Types.HasSize.fun' hk hk'
    subst this
    exact ⟨_, _, ⟨_, hl', hr'⟩, hs'⟩

theorem rOp_paren {e : Ex} {ts : List Tk} {fl : Bool} {d d1 : List Char} (he : REx base T S 0 e ts fl d d1) :
    ROp base T S e (p .open_bracket :: ts ++ [p .close_bracket]) false d d1 := by
  intro g rest hb hd _
  obtain ⟨g1, h1, h2, h3⟩ := he.expr (rest := p .close_bracket :: rest) hb hd rfl rfl
  refine ⟨g1, operand_body (fun s r e => by cases e) ?_, h2, h3⟩
  obtain ⟨n0, h0⟩ := h1
  refine ⟨n0 + 1, fun n hn => ?_⟩
  obtain ⟨m, rfl⟩ : ∃ m, n = m + 1 := ⟨n - 1, by omega⟩
  have := h0 m (by omega)
  simp only [p, List.append_assoc, List.cons_append, List.nil_append] at this ⊢
  simp only [operandBody, Option.bind_some, this]

theorem rOp_call {f : List Char} {t : CTypes.T} {es : Exs} {ts : List Tk} {d d1 : List Char} (hc : S.const f = none) (hv : S.var f = none)
    (hf : S.fn f = some t) (hs : RArgs base T S es ts d d1) : ROp base T S (.call f es) ((.identifier, f) :: p .open_bracket :: ts) false d d1 := by
  intro g rest hb hd _
  obtain ⟨g1, m, h1, h2, h3⟩ := hs g rest 0 hb hd
  obtain ⟨a, e1, e2, e3⟩ := comp_call h3 hb f
  refine ⟨_, named_operand ?_, by rw [e2, h2], e3.mono ?_⟩
  · obtain ⟨n0, h0⟩ := h1
    refine ⟨n0 + 1, fun n hn => ?_⟩
    obtain ⟨j, rfl⟩ : ∃ j, n = j + 1 := ⟨n - 1, by omega⟩
    have := h0 j (by omega)
    have hc' : (names T S).const f = none := hc
    have hv' : (names T S).var f = none := by simp only [names, hv, Option.map_none]
    have hf' : (names T S).fn f = true := by simp only [names, hf, Option.isSome_some]
    have happ : ((p .open_bracket :: ts).append rest) = (.open_bracket, []) :: (ts ++ rest) := rfl
    simp only [named, hc', hv', hf', if_true, happ, this, Option.bind_some, Nat.zero_add, e1, Option.map_some]
  · intro X w w' res hev
    cases hev with
    | call hs' hc' => exact ⟨_, _, _, hs', hc', rfl⟩

theorem lvEnd_bracket (N : Names) (rest : List Parser.T) {st : LvSt} {g g' : G} (hg : (if st.isRef then g.un .read st.size else some g) = some g') :
    Conv (fun n => lvEnd N n st g (p .open_bracket :: rest)) (st, g', p .open_bracket :: rest) := by
  refine Conv.const fun n => ?_
  simp only [p, lvEnd, hg, Option.map_some]

theorem rOp_icall (h : TOk T S.E) {l : Lv} {es : Exs} {ts tss : List Tk} {d d1 d2 : List Char} (hw : WLv S l (.ptr .fn) ts d d1)
    (hl : RLv base T S l (.ptr .fn) ts d d1) (hs : RArgs base T S es tss d1 d2) : ROp base T S (.icall l es) (ts ++ p .open_bracket :: tss) false d d2 := by
  obtain ⟨s, x, ts', rfl, h2, h3, hl⟩ := hl
  intro g rest hb hd hr
  obtain ⟨st, sp, b, g1, e1, _, e2, e3, e4⟩ := hl g (p .open_bracket :: (tss ++ rest)) hb hd
  obtain ⟨g2, f1, f2, f3⟩ := comp_value h e1 (.ptr .fn) hw hb e3
  have hlv := lvalue_of (eval := true) (e4 _ (access_end _ rfl st g1)) (lvEnd_bracket (names T S) (tss ++ rest) f1)
  have hn := f3.next
  obtain ⟨g3, m, a1, a2, a3⟩ := hs g2 rest 0 (by omega) (by rw [f2, e2])
  obtain ⟨a, f, stk, c1, c2, c3, c4⟩ := comp_icall f3 a3 hb
  refine ⟨_, named_operand ?_, by rw [c3, a2], c4.mono ?_⟩
  · obtain ⟨n0, h0⟩ := hlv
    obtain ⟨n1, h1⟩ := a1
    refine ⟨n0 + n1 + 1, fun n hn => ?_⟩
    obtain ⟨j, rfl⟩ : ∃ j, n = j + 1 := ⟨n - 1, by omega⟩
    have h0 : lvalue (names T S) j true x (Types.readVar (S.decl x)) (ts' ++ p .open_bracket :: (tss ++ rest)) g = _ := h0 j (by omega)
    have h1 := h1 j (by omega)
    have hc' : (names T S).const s = none := h2
    have happ : List.append (List.append ts' (p .open_bracket :: tss)) rest = ts' ++ p .open_bracket :: (tss ++ rest) := by
      show (ts' ++ p .open_bracket :: tss) ++ rest = _
      simp
    simp only [named, hc', names_var h3]
    rw [happ, h0]
    simp only [h1, Option.bind_some, p, Option.bind_some, Nat.zero_add, c1, c2]
  · intro X w w' res hev
    cases hev with
    | icall hf hs' hc' => exact ⟨_, _, _, _, _, hf, hs', hc', rfl⟩

end Shecc.ExprGen
