import Verif.Lemmas.TopFuel
import Verif.Lemmas.Body5
import Verif.Spec.CUnit

/-!
# Reading declarators and declarations of types
-/

namespace Shecc.Top
open CTypes CSyntax CBody CUnit
open Shecc.ExprGen (Conv)
open Shecc.Body (stars)

theorem suffix_ok {f : Form} {tf rest : List Tk} (hf : WForm f tf) (hr : ∀ k r, rest ≠ (.open_square, k) :: r) :
    suffix (tf ++ rest) = some (f, rest) := by
  cases hf with
  | plain =>
    cases rest with
    | nil => rfl
    | cons t r =>
      obtain ⟨t, k⟩ := t
      cases t <;> first | rfl | exact absurd rfl (hr k r)
  | unsized => rfl
  | @array l hl hn =>
    have h1 := (Props.C47_literal l hl false).1
    simp only [p, List.cons_append, List.nil_append, suffix, Body.arraySize, h1, BitVec.toNat_ofNat]
    rw [Nat.mod_eq_of_lt (by omega), if_pos hn]
    rfl

/-- The head of the list of tokens. -/
def Head (P : Lex.Tok → Prop) (ts : List Tk) : Prop := ∃ t r, ts = t :: r ∧ P t.1

theorem drop_stars (k : Nat) {ts : List Tk} (h : Head (· ≠ .asterisk) ts) :
    ((List.replicate k (p .asterisk) ++ ts).takeWhile fun t => decide (t.1 = .asterisk)).length = k ∧ (List.replicate k (p .asterisk) ++ ts).drop k = ts := by
  obtain ⟨t, r, rfl, ht⟩ := h
  rw [stars k ht r]
  exact ⟨by simp, List.drop_left' (by simp)⟩

theorem inner_var {sp : TSpec} {s : List Char} {k : Nat} {f : Form} {tf rest : List Tk} (hf : WForm f tf) (hr : ∀ k r, rest ≠ (.open_square, k) :: r) :
    Conv (fun n => inner n false sp (List.replicate k (p .asterisk) ++ (.identifier, s) :: (tf ++ rest)))
      ((s, { spec := sp, ptrs := k, form := f, name := String.ofList s }), rest) := by
  refine Conv.const fun n => ?_
  obtain ⟨h1, h2⟩ := drop_stars k (ts := (.identifier, s) :: (tf ++ rest)) ⟨_, _, rfl, by simp⟩
  rw [inner]
  simp only [h1, h2, suffix_ok hf hr, Option.map_some, Bool.false_eq_true, if_false]

theorem inner_anon {sp : TSpec} {k : Nat} {f : Form} {tf rest : List Tk} (hf : WForm f tf) (hr : Head (fun t => t = .comma ∨ t = .close_bracket) rest) :
    Conv (fun n => inner n true sp (List.replicate k (p .asterisk) ++ (tf ++ rest)))
      (([], { spec := sp, ptrs := k, form := f, name := "" }), rest) := by
  refine Conv.const fun n => ?_
  obtain ⟨⟨t, x⟩, r, rfl, ht⟩ := hr
  have hs := suffix_ok (rest := (t, x) :: r) hf (by rintro k r h; cases h; rcases ht with h | h <;> cases h)
  have hh : Head (· ≠ .asterisk) (tf ++ (t, x) :: r) := by
    cases hf with
    | plain => exact ⟨_, _, rfl, by rcases ht with rfl | rfl <;> simp⟩
    | unsized => exact ⟨_, _, rfl, by simp [p]⟩
    | array hl hn => exact ⟨_, _, rfl, by simp [p]⟩
  obtain ⟨h1, h2⟩ := drop_stars k hh
  rw [inner]
  simp only [h1, h2]
  cases hf with
  | plain =>
    rcases ht with rfl | rfl <;> rfl
  | unsized => rfl
  | array hl hn =>
    simp only [p, List.cons_append, List.nil_append] at hs ⊢
    simp only [hs, Option.map_some, if_true]

theorem params_step {anon : Bool} {ty : List Char} {ts r : List Tk} {t : Tk} {e : Named} {l : List Named} {q : List Tk}
    (h : Conv (fun n => inner n anon (.name (String.ofList ty)) ts) (e, t :: r))
    (hr : (t.1 = .comma ∧ Conv (fun n => params n anon r) (l, q)) ∨ (t.1 = .close_bracket ∧ Conv (fun n => params n anon (t :: r)) (l, q))) :
    Conv (fun n => params n anon ((.identifier, ty) :: ts)) (e :: l, q) := by
  refine Conv.succ (fun n => by rw [params]) ?_
  refine Conv.bind h ?_
  obtain ⟨t, x⟩ := t
  rcases hr with ⟨rfl, hr⟩ | ⟨rfl, hr⟩
  · exact Conv.map hr _
  · exact Conv.map hr _

theorem wTypes_ok {ts : List Tk} (h : WTypes ts) : ∀ (t : Tk) (r : List Tk) (l : List Named) (q : List Tk),
    ((t.1 = .comma ∧ Conv (fun n => params n true r) (l, q)) ∨ (t.1 = .close_bracket ∧ Conv (fun n => params n true (t :: r)) (l, q))) →
    ∃ l', Conv (fun n => params n true (ts ++ t :: r)) (l', q) := by
  induction h with
  | @one ty k f tf hf =>
    intro t r l q hr
    have hh : Head (fun t => t = .comma ∨ t = .close_bracket) (t :: r) := ⟨t, r, rfl, hr.imp And.left And.left⟩
    have := params_step (inner_anon (sp := .name (String.ofList ty)) (k := k) hf hh) hr
    exact ⟨_, by simpa only [List.cons_append, List.append_assoc] using this⟩
  | @more ty k f tf ts hf h ih =>
    intro t r l q hr
    obtain ⟨l', h1⟩ := ih t r l q hr
    have hh : Head (fun t => t = .comma ∨ t = .close_bracket) (p .comma :: (ts ++ t :: r)) := ⟨_, _, rfl, .inl rfl⟩
    have := params_step (inner_anon (sp := .name (String.ofList ty)) (k := k) hf hh) (.inl ⟨rfl, h1⟩)
    exact ⟨_, by simpa only [List.cons_append, List.append_assoc] using this⟩

theorem params_close (anon : Bool) (x : List Char) (r : List Tk) : Conv (fun n => params n anon ((.close_bracket, x) :: r)) ([], r) :=
  Conv.const fun n => by rw [params]

theorem params_va (anon : Bool) (x y : List Char) (r : List Tk) : Conv (fun n => params n anon ((.elipsis, x) :: (.close_bracket, y) :: r)) ([], r) :=
  Conv.const fun n => by rw [params]

theorem wAnon_ok {ts : List Tk} (h : WAnon ts) (r : List Tk) : ∃ l, Conv (fun n => params n true (ts ++ r)) (l, r) := by
  cases h with
  | none => exact ⟨_, params_close _ _ _⟩
  | some h =>
    obtain ⟨l, h⟩ := wTypes_ok h (p .close_bracket) r [] r (.inr ⟨rfl, params_close _ _ _⟩)
    exact ⟨l, by simpa using h⟩
  | va h =>
    obtain ⟨l, h⟩ := wTypes_ok h (p .comma) (p .elipsis :: p .close_bracket :: r) [] r (.inl ⟨rfl, params_va _ _ _ _⟩)
    exact ⟨l, by simpa using h⟩

/-- A declarator, with what may follow it. -/
theorem wDeclr_ok {sp : TSpec} {e : Named} {td : List Tk} (h : WDeclr sp e td) {rest : List Tk} (hr : ∀ k r, rest ≠ (.open_square, k) :: r) :
    Conv (fun n => inner n false sp (td ++ rest)) (e, rest) := by
  cases h with
  | var hf => simpa using inner_var (sp := sp) hf hr
  | @func s k ta ha =>
    obtain ⟨l, h⟩ := wAnon_ok ha rest
    obtain ⟨h1, h2⟩ := drop_stars k (ts := p .open_bracket :: p .asterisk :: (.identifier, s) :: p .close_bracket :: p .open_bracket :: (ta ++ rest))
      ⟨_, _, rfl, by simp [p]⟩
    refine Conv.succ (h := fun n => (params n true (ta ++ rest)).map fun r => ((s, { spec := sp, ptrs := k, form := .func, name := String.ofList s }), r.2)) (fun n => ?_)
      (Conv.map h (fun (r : List Named × List Tk) => ((s, ({ spec := sp, ptrs := k, form := .func, name := String.ofList s } : Declr)), r.2)))
    simp only [List.append_assoc, List.cons_append]
    rw [inner]
    simp only [h1, h2]
    rfl

theorem expect_ok {α : Type} (t : Lex.Tok) (x : List Char) (ts : List Tk) (k : List Tk → Option α) : Body.expect t ((t, x) :: ts) k = k ts := by
  simp [Body.expect]

theorem fullDecl_ok {sp : TSpec} {e : Named} {ts td : List Tk} (hs : WSpec sp ts) (hd : WDeclr sp e td) {rest : List Tk} (hr : ∀ k r, rest ≠ (.open_square, k) :: r) :
    Conv (fun n => fullDecl n (ts ++ (td ++ rest))) (e, rest) := by
  cases hs with
  | tag => exact wDeclr_ok hd hr
  | name => exact wDeclr_ok hd hr

theorem wMembers_ok {ds : List Declr} {tm : List Tk} (h : WMembers ds tm) : ∀ r, Conv (fun n => members n (tm ++ r)) (ds, r) := by
  induction h with
  | @last sp e ts td hs hd =>
    intro r
    refine Conv.succ (fun n => by rw [members]) ?_
    have := fullDecl_ok hs hd (rest := p .semicolon :: p .close_curly :: r) (by simp [p])
    simp only [List.append_assoc, List.cons_append, List.nil_append]
    refine Conv.bind this ?_
    exact ⟨0, fun n _ => expect_ok _ _ _ _⟩
  | @more sp e ds ts td tm hs hd hm ih =>
    intro r
    refine Conv.succ (fun n => by rw [members]) ?_
    have := fullDecl_ok hs hd (rest := p .semicolon :: (tm ++ r)) (by simp [p])
    simp only [List.append_assoc, List.cons_append]
    refine Conv.bind this ?_
    have hnc : ∀ x y, tm ++ r ≠ (.close_curly, x) :: y := by
      intro x y
      cases hm with
      | last hs hd => cases hs <;> simp [kw]
      | more hs hd hm => cases hs <;> simp [kw]
    refine Conv.eq (h := fun n => (members n (tm ++ r)).map fun q => (e.2 :: q.1, q.2)) (fun n => ?_) (Conv.map (ih r) _)
    refine (expect_ok _ _ _ _).trans ?_
    dsimp only
    generalize tm ++ r = x at hnc ⊢
    match x, hnc with
    | [], _ => rfl
    | (t, y) :: x, hnc => cases t <;> first | rfl | exact absurd rfl (hnc y x)

theorem wEnum_ok {cs : List (String × Option Int)} {te : List Tk} (h : WEnum cs te) : ∀ r, Conv (fun n => enumItems n (te ++ r)) (cs, r) := by
  induction h with
  | @last c ts h =>
    intro r
    cases h with
    | next => exact Conv.const fun n => rfl
    | @val s l hl hr =>
      have h1 := (Props.C47_literal l hl false).1
      refine Conv.const fun n => ?_
      simp only [List.cons_append, List.nil_append, p]; rw [enumItems, h1]
      have : (BitVec.ofNat 32 l.val).toInt = (l.val : Int) := by
        rw [BitVec.toInt_eq_toNat_of_lt (by simp only [BitVec.toNat_ofNat]; omega), BitVec.toNat_ofNat, Nat.mod_eq_of_lt (by omega)]
      rw [this]
  | @more c cs ts tr h hr ih =>
    intro r
    cases h with
    | next =>
      refine Conv.succ (h := fun n => (enumItems n (tr ++ r)).map fun q => (_ :: q.1, q.2)) (fun n => ?_) (Conv.map (ih r) _)
      rfl
    | @val s l hl hv =>
      have h1 := (Props.C47_literal l hl false).1
      have : (BitVec.ofNat 32 l.val).toInt = (l.val : Int) := by
        rw [BitVec.toInt_eq_toNat_of_lt (by simp only [BitVec.toNat_ofNat]; omega), BitVec.toNat_ofNat, Nat.mod_eq_of_lt (by omega)]
      refine Conv.succ (h := fun n => (enumItems n (tr ++ r)).map fun q => (_ :: q.1, q.2)) (fun n => ?_) (Conv.map (ih r) _)
      simp only [List.cons_append, List.nil_append, p]; rw [enumItems, h1, this]

theorem wDecl_ok {d : Decl} {td : List Tk} (h : WDecl d td) (r : List Tk) : Conv (fun n => typeDecl n (td ++ r)) (d, r) := by
  cases h with
  | @struct s ds tm hm =>
    have h1 := wMembers_ok hm (p .semicolon :: r)
    simp only [List.append_assoc, List.cons_append, List.nil_append, kw, p, typeDecl] at h1 ⊢
    refine Conv.bind h1 ⟨0, fun n _ => expect_ok _ _ _ _⟩
  | @tagged s x ds tm hm =>
    have h1 := wMembers_ok hm ((.identifier, x) :: p .semicolon :: r)
    simp only [List.append_assoc, List.cons_append, List.nil_append, kw, p, typeDecl] at h1 ⊢
    refine Conv.bind h1 ⟨0, fun n _ => rfl⟩
  | @untagged x ds tm hm =>
    have h1 := wMembers_ok hm ((.identifier, x) :: p .semicolon :: r)
    simp only [List.append_assoc, List.cons_append, List.nil_append, kw, p, typeDecl] at h1 ⊢
    refine Conv.bind h1 ⟨0, fun n _ => rfl⟩
  | forward => exact ⟨0, fun n _ => rfl⟩
  | @enum cs x te he =>
    have h1 := wEnum_ok he ((.identifier, x) :: p .semicolon :: r)
    simp only [List.append_assoc, List.cons_append, List.nil_append, kw, p, typeDecl] at h1 ⊢
    refine Conv.bind h1 ⟨0, fun n _ => rfl⟩
  | alias => exact ⟨0, fun n _ => rfl⟩

/-! ### Parameters -/

theorem wParams1_ok {E : Env} {ps : List Named} {ts : List Tk} (h : WParams1 E ps ts) : ∀ (t : Tk) (r : List Tk) (q : List Tk),
    ((t.1 = .comma ∧ Conv (fun n => params n false r) ([], q)) ∨ (t.1 = .close_bracket ∧ Conv (fun n => params n false (t :: r)) ([], q))) →
    Conv (fun n => params n false (ts ++ t :: r)) (ps, q) := by
  induction h with
  | @one e te h =>
    intro t r q hr
    obtain ⟨hd, _, _⟩ := h
    refine params_step (wDeclr_ok hd ?_) hr
    rintro k r' h'
    cases h'
    rcases hr with ⟨h, _⟩ | ⟨h, _⟩ <;> cases h
  | @more e ps te ts h hr' ih =>
    intro t r q hr
    obtain ⟨hd, _, _⟩ := h
    simp only [List.cons_append, List.append_assoc]
    exact params_step (wDeclr_ok hd (by simp [p])) (.inl ⟨rfl, ih t r q hr⟩)

theorem wParams_ok {E : Env} {ps : List Named} {ts : List Tk} (h : WParams E ps ts) (r : List Tk) : Conv (fun n => params n false (ts ++ r)) (ps, r) := by
  cases h with
  | none => exact params_close _ _ _
  | some h => simpa using wParams1_ok h (p .close_bracket) r r (.inr ⟨rfl, params_close _ _ _⟩)
  | va h => simpa using wParams1_ok h (p .comma) (p .elipsis :: p .close_bracket :: r) r (.inl ⟨rfl, params_va _ _ _ _⟩)

end Shecc.Top
