import Verif.Lemmas.ExprGen7

/-!
# Expressions and assignments (C79-C81)

`names T S` (`Lemmas/ExprGen3`) is what the parser's tables say about the names of the scope `S`, for the type table `T`: the constants, the
variables as their declarations set them (`Types.readVar`), and the functions.
-/

namespace Shecc.Props
open CTypes CEval CSyntax CArith SsaSem
open Shecc.ExprGen
open Shecc.Ssa (Insn Op1)

theorem ends_ok {rest : List Tk} (h : Ends rest) (fl : Bool) : okHead fl rest = true ∧ Parser.getOperator rest = (none, rest) := by
  obtain ⟨k, s, r, rfl, hk⟩ := h
  simp only [List.mem_cons, List.not_mem_nil, or_false] at hk
  rcases hk with rfl | rfl | rfl | rfl | rfl | rfl | rfl <;> exact ⟨rfl, rfl⟩

theorem tOk_of {ds : List Decl} {E : Env} (h : Program ds E) (ha : E.Apart) (hs : NoStructAlias ds E) {T : Types.Table}
    (hT : Types.declares Types.builtin ds = some T) : TOk T E := by
  obtain ⟨hE, T', h1, h2⟩ := Types.program_inv h ha hs
  rw [hT] at h1
  cases h1
  exact ⟨h2, hE, ha⟩

/-! ### C79 -/

/-- The tokens of an expression (`CSyntax.WEx`) are read to the end, and the instructions that are emitted compute its value (`CEval.EvEx`) with its
effects, whatever the machine, the called functions and the values of the variables: afterwards the operand on top of the stack has the value, and
no variable that existed before has changed.  New temporaries with constants are distinct from each other and from those that existed.  Full
statement: for all expressions, without the restrictions marked `R` in `Spec/CSyntax` (the `C79_` theorems below show that it is false), and with
`&&`, `||`, `?:` (C73), `++`, `--`, macros and functions as values. -/
theorem C79_expression_partial {ds : List Decl} {E : Env} (h : Program ds E) (ha : E.Apart) (hs : NoStructAlias ds E) {T : Types.Table}
    (hT : Types.declares Types.builtin ds = some T) {S : Scope} (hS : S.E = E) {base : Nat} (hv : ∀ s x, S.var s = some x → x < base)
    {e : Ex} {t : CTypes.T} {ts rest : List Tk} {fl : Bool} {d d' : List Char} (hw : WEx S 0 e t ts fl d d') (hr : Ends rest)
    {g : G} (hb : base ≤ g.next) (hd : g.data = d) :
    ∃ g' n0 c r k, (∀ n, n0 ≤ n → expr (names T S) n (ts ++ rest) g = some (g', rest)) ∧
      g'.code = g.code ++ c ∧ g'.stack = r :: g.stack ∧ g'.data = d' ∧ g.next ≤ g'.next ∧
      g'.consts = k ++ g.consts ∧ (∀ p ∈ k, g.next ≤ p.1 ∧ p.1 < g'.next) ∧ (k.map (·.1)).Nodup ∧
      ∀ (M : Mach) (C : Lang M), Linked M C → (∀ x, base ≤ x → M.mem x = false) → ∀ cv : Nat → Word, (∀ p ∈ g'.consts, cv p.1 = p.2) →
        ∀ (ρ : Nat → Word) (w w' : M.World) (res : Res), EvEx C E S.decl ρ w e w' res →
          ∃ ρ', run M cv c (w, ρ) = some (w', ρ') ∧ (∀ x, x < g.next → ρ' x = ρ x) ∧ rdVar M (w', ρ') r = res.use ρ w' := by
  subst hS
  have hok := tOk_of h ha hs hT
  obtain ⟨h1, h2⟩ := ends_ok hr fl
  obtain ⟨g', ⟨n0, h3⟩, h4, c, r, h5, h6, _, h7⟩ := (wEx_ok hok hv hw).expr hb hd h1 h2
  obtain ⟨k, h8, h9, h10⟩ := h5.consts
  refine ⟨g', n0, c, r, k, h3, h5.code, h6, h4, h5.next, h8, h9, h10, ?_⟩
  intro M C L hm cv hcv ρ w w' res hev
  obtain ⟨ρ', e1, e2, e3⟩ := h7 { M := M, C := C, L := L, ρ := ρ, cv := cv, temps := hm } hcv w w' res ρ (Keeps.refl _ _) hev
  have hk : Keeps base ρ ρ' := fun x hx => e2 x (by omega)
  exact ⟨ρ', e1, e2, e3.rd { M := M, C := C, L := L, ρ := ρ, cv := cv, temps := hm } hk w'⟩

/-! ### C80 -/

theorem assignable_size {E : Env} {l : Lv} {t : CTypes.T} (ha : Assignable l t) : ∃ k, HasSize E t k := by
  cases t <;> first | exact ha.elim | exact ⟨_, .char⟩ | exact ⟨_, .int⟩ | exact ⟨_, .ptr _⟩

theorem wAsg_ok {base : Nat} {T : Types.Table} {S : Scope} (h : TOk T S.E) (hv : ∀ s x, S.var s = some x → x < base) {a : Asg} {ts : List Tk} {fl : Bool}
    {d d1 : List Char} (hw : WAsg S a ts fl d d1) : RAsg base T S a ts fl d d1 := by
  cases hw with
  | set hl he ha => exact rAsg_set h hv hl he ha
  | op hk hl he ha hc hi _ =>
    obtain ⟨k, hsz⟩ := assignable_size (E := S.E) ha
    exact rAsg_op h hv hk hl he ha hc hsz hi
  | incr hl ha hc hi =>
    obtain ⟨k, hsz⟩ := assignable_size (E := S.E) ha
    exact rAsg_step h hv true rfl hl ha hc hsz hi
  | decr hl ha hc hi =>
    obtain ⟨k, hsz⟩ := assignable_size (E := S.E) ha
    exact rAsg_step h hv false rfl hl ha hc hsz hi

/-- The tokens of an assignment statement (`CSyntax.WAsg`) are read to the end, and the instructions that are emitted change memory and variables as
the assignment does (`CEval.EvAsg`); nothing is left on the stack of operands.  Full statement: as for `C79_expression_partial`, and for assignments to
characters in variables, to truth values, to pointers to functions and to elements of what a pointer points to; the `C80_` theorems below show that it
is false. -/
theorem C80_assignment_partial {ds : List Decl} {E : Env} (h : Program ds E) (ha : E.Apart) (hs : NoStructAlias ds E) {T : Types.Table}
    (hT : Types.declares Types.builtin ds = some T) {S : Scope} (hS : S.E = E) {base : Nat} (hv : ∀ s x, S.var s = some x → x < base)
    {a : Asg} {ts rest : List Tk} {fl : Bool} {d d' : List Char} (hw : WAsg S a ts fl d d') (hr : Ends rest)
    {g : G} (hb : base ≤ g.next) (hd : g.data = d) :
    ∃ s ts' g' n0 c, ts = (.identifier, s) :: ts' ∧ (∀ n, n0 ≤ n → assignment (names T S) n s (ts' ++ rest) g = some (g', rest)) ∧
      g'.code = g.code ++ c ∧ g'.stack = g.stack ∧ g'.data = d' ∧ g.next ≤ g'.next ∧
      ∀ (M : Mach) (C : Lang M), Linked M C → (∀ x, base ≤ x → M.mem x = false) → ∀ cv : Nat → Word, (∀ p ∈ g'.consts, cv p.1 = p.2) →
        ∀ (ρ : Nat → Word) (w : M.World) (s' : State M), EvAsg C E S.decl ρ w a s' →
          ∃ ρ', run M cv c (w, ρ) = some (s'.1, ρ') ∧ ∀ x, x < g.next → ρ' x = s'.2 x := by
  subst hS
  have hok := tOk_of h ha hs hT
  obtain ⟨h1, h2⟩ := ends_ok hr fl
  obtain ⟨s, ts', h0, h3⟩ := wAsg_ok hok hv hw
  obtain ⟨g', ⟨n0, h4⟩, h5, c, h6, _, h7, h8⟩ := h3 g rest hb hd h1 h2
  refine ⟨s, ts', g', n0, c, h0, h4, h6.code, h7, h5, h6.next, ?_⟩
  intro M C L hm cv hcv ρ w s' hev
  obtain ⟨ρ', h9, _, h10⟩ := h8 { M := M, C := C, L := L, ρ := ρ, cv := cv, temps := hm } hcv w s' ρ (Keeps.refl _ _) hev
  exact ⟨ρ', h9, h10 rfl⟩

/-! ### C81 -/

theorem literalData_append (a b : List Tk) : literalData (a ++ b) = literalData a ++ literalData b := by
  induction a with
  | nil => rfl
  | cons t a ih =>
    obtain ⟨t, s⟩ := t
    cases t <;> simp [literalData, ih]

theorem literalOffsets_append (n : Nat) (a b : List Tk) : literalOffsets n (a ++ b) = literalOffsets n a ++ literalOffsets (n + (literalData a).length) b := by
  induction a generalizing n with
  | nil => rfl
  | cons t a ih =>
    obtain ⟨t, s⟩ := t
    cases t <;> simp [literalData, literalOffsets, ih]
    congr 1
    omega

/-- What is to be shown. -/
def Strs (ss : List Word) (ts : List Tk) (d d1 : List Char) : Prop := d1 = d ++ literalData ts ∧ ss = literalOffsets d.length ts

theorem Strs.append {ss ss' : List Word} {ts ts' : List Tk} {d d1 d2 : List Char} (h : Strs ss ts d d1) (h' : Strs ss' ts' d1 d2) :
    Strs (ss ++ ss') (ts ++ ts') d d2 := by
  obtain ⟨h1, h2⟩ := h
  obtain ⟨h1', h2'⟩ := h'
  subst h1 h2 h1' h2'
  exact ⟨by rw [literalData_append, List.append_assoc], by rw [literalOffsets_append, List.length_append]⟩

theorem Strs.tok {t : Lex.Tok} {s : List Char} (h : t ≠ .string) (d : List Char) : Strs [] [(t, s)] d d := by
  cases t <;> first | exact absurd rfl h | exact ⟨by simp [literalData], rfl⟩

theorem Strs.toks {ts : List Tk} (h : ∀ t ∈ ts, t.1 ≠ .string) (d : List Char) : Strs [] ts d d := by
  induction ts with
  | nil => exact ⟨by simp [literalData], rfl⟩
  | cons t ts ih => exact Strs.append (Strs.tok (t := t.1) (s := t.2) (h t (by simp)) d) (ih fun x hx => h x (by simp [hx]))

theorem Strs.pre {ss : List Word} {t : Tk} {ts : List Tk} {d d1 : List Char} (ht : t.1 ≠ .string) (h : Strs ss ts d d1) : Strs ss (t :: ts) d d1 :=
  Strs.append (Strs.tok (t := t.1) (s := t.2) ht d) h

theorem Strs.post {ss : List Word} {t : Tk} {ts : List Tk} {d d1 : List Char} (h : Strs ss ts d d1) (ht : t.1 ≠ .string) : Strs ss (ts ++ [t]) d d1 := by
  have := Strs.append h (Strs.tok (t := t.1) (s := t.2) ht d1)
  rwa [List.append_nil] at this

theorem opTok_string (o : BinOp) : opTok o ≠ .string := by cases o <;> simp [opTok]

mutual
theorem strs_lv {S : Scope} : ∀ {l : Lv} {t : CTypes.T} {ts : List Tk} {d d1 : List Char}, WLv S l t ts d d1 → Strs (stringsL l) ts d d1
  | _, _, _, _, _, .var _ _ _ _ => Strs.tok (by simp) _
  | _, _, _, _, _, .index hl _ he _ _ => by
    rw [List.append_assoc]
    exact (strs_lv hl).append (((strs_ex he).post (by simp [p])).pre (t := p .open_square) (by simp [p]))
  | _, _, _, _, _, .dot (f := f) hl _ _ => by
    have := (strs_lv hl).append (Strs.toks (ts := [p .dot, (.identifier, f.toList)]) (by simp [p]) _)
    rw [List.append_nil] at this
    exact this
  | _, _, _, _, _, .arrow (f := f) hl _ _ _ _ => by
    have := (strs_lv hl).append (Strs.toks (ts := [p .arrow, (.identifier, f.toList)]) (by simp [p]) _)
    rw [List.append_nil] at this
    exact this
theorem strs_op {S : Scope} : ∀ {e : Ex} {t : CTypes.T} {ts : List Tk} {fl : Bool} {d d1 : List Char}, WOp S e t ts fl d d1 → Strs (strings e) ts d d1
  | _, _, _, _, _, _, .num _ => Strs.tok (by simp) _
  | _, _, _, _, _, _, .negNum _ => Strs.toks (by simp [p]) _
  | _, _, _, _, _, _, .chr _ => Strs.tok (by simp) _
  | _, _, _, _, _, _, .str _ => ⟨by simp [literalData], rfl⟩
  | _, _, _, _, _, _, .const _ => Strs.tok (by simp) _
  | _, _, _, _, _, _, .sizeof (sp := sp) _ _ _ => by
    refine Strs.toks ?_ _
    intro t ht
    cases sp with
    | tag s =>
      simp only [specToks, p, List.mem_append, List.mem_cons, List.mem_replicate, List.not_mem_nil, or_false, List.cons_append] at ht
      rcases ht with rfl | rfl | ht
      · simp
      · simp
      · rcases ht with rfl | rfl | ((h | ⟨_, rfl⟩) | rfl) <;> first | exact h.elim | simp
    | name s =>
      simp only [specToks, p, List.mem_append, List.mem_cons, List.mem_replicate, List.not_mem_nil, or_false, List.cons_append] at ht
      rcases ht with rfl | rfl | ht
      · simp
      · simp
      · rcases ht with rfl | ((h | ⟨_, rfl⟩) | rfl) <;> first | exact h.elim | simp
  | _, _, _, _, _, _, .lnot he _ => (strs_op he).pre (by simp [p])
  | _, _, _, _, _, _, .bnot he => (strs_op he).pre (by simp [p])
  | _, _, _, _, _, _, .neg he => (strs_op he).pre (by simp [p])
  | _, _, _, _, _, _, .lval hl _ => strs_lv hl
  | _, _, _, _, _, _, .addr hl _ => (strs_lv hl).pre (by simp [p])
  | _, _, _, _, _, _, .deref hl _ _ _ _ _ _ => by
    have := (strs_lv hl).pre (t := p .asterisk) (by simp [p])
    simpa [strings, stringsS] using this
  | _, _, _, _, _, _, .derefSum hl _ _ _ _ _ _ hs _ _ =>
    (((strs_lv hl).append (strs_sum hs)).post (t := p .close_bracket) (by simp [p])).pre (t := p .open_bracket) (by simp [p]) |>.pre (t := p .asterisk) (by simp [p])
  | _, _, _, _, _, _, .padd hl _ _ _ hs _ _ => (strs_lv hl).append (strs_sum hs)
  | _, _, _, _, _, _, .paren he => ((strs_ex he).post (t := p .close_bracket) (by simp [p])).pre (t := p .open_bracket) (by simp [p])
  | _, _, _, _, _, _, .call _ _ _ hs => ((strs_args hs).pre (t := p .open_bracket) (by simp [p])).pre (by simp)
  | _, _, _, _, _, _, .icall hl hs => (strs_lv hl).append ((strs_args hs).pre (t := p .open_bracket) (by simp [p]))
theorem strs_ex {S : Scope} : ∀ {n : Nat} {e : Ex} {t : CTypes.T} {ts : List Tk} {fl : Bool} {d d1 : List Char}, WEx S n e t ts fl d d1 → Strs (strings e) ts d d1
  | _, _, _, _, _, _, _, .op he => strs_op he
  | _, _, _, _, _, _, _, .bin (o := o) _ _ ha hb _ _ => (strs_ex ha).append ((strs_ex hb).pre (t := p (opTok o)) (opTok_string o))
  | _, _, _, _, _, _, _, .shift (o := o) _ ha hb => (strs_op ha).append ((strs_op hb).pre (t := p (opTok o)) (opTok_string o))
theorem strs_sum {S : Scope} : ∀ {es : Exs} {ts : List Tk} {d d1 : List Char}, WSum S es ts d d1 → Strs (stringsS es) ts d d1
  | _, _, _, _, .nil => ⟨by simp [literalData], rfl⟩
  | _, _, _, _, .cons he hs _ => ((strs_op he).append (strs_sum hs)).pre (t := p .plus) (by simp [p])
theorem strs_args {S : Scope} : ∀ {es : Exs} {ts : List Tk} {d d1 : List Char}, WArgs S es ts d d1 → Strs (stringsS es) ts d d1
  | _, _, _, _, .nil => Strs.tok (by simp [p]) _
  | _, _, _, _, .last he => by
    have := (strs_ex he).post (t := p .close_bracket) (by simp [p])
    simpa [stringsS] using this
  | _, _, _, _, .cons he hs _ => (strs_ex he).append ((strs_args hs).pre (t := p .comma) (by simp [p]))
end

/-- The string literals of an expression are put into the constant data in order, each followed by a zero byte, after what was there, and the
values of the literals are their addresses.  (What C79 says about the values assumes `strings e`.) -/
theorem C81_strings {ds : List Decl} {E : Env} (h : Program ds E) (ha : E.Apart) (hs : NoStructAlias ds E) {T : Types.Table}
    (hT : Types.declares Types.builtin ds = some T) {S : Scope} (hS : S.E = E) {base : Nat} (hv : ∀ s x, S.var s = some x → x < base)
    {e : Ex} {t : CTypes.T} {ts rest : List Tk} {fl : Bool} {d d' : List Char} (hw : WEx S 0 e t ts fl d d') (hr : Ends rest)
    {g : G} (hb : base ≤ g.next) (hd : g.data = d) :
    ∃ g' n0, (∀ n, n0 ≤ n → expr (names T S) n (ts ++ rest) g = some (g', rest)) ∧ g'.data = g.data ++ literalData ts ∧
      strings e = literalOffsets g.data.length ts := by
  obtain ⟨g', n0, _, _, _, h1, _, _, h2, _⟩ := C79_expression_partial h ha hs hT hS hv hw hr hb hd
  obtain ⟨h3, h4⟩ := strs_ex hw
  subst hd
  exact ⟨g', n0, h1, by rw [h2, h3], h4⟩

end Shecc.Props
