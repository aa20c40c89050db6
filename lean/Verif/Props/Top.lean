import Verif.Lemmas.Top3
import Verif.Props.Lexer

/-!
# Whole programs (C99)
-/

namespace Shecc.Props
open CTypes CEval CSyntax CArith CBody CUnit
open Shecc.Top (Tab program)

/-- The statement tree does what the body of the function does, as in C96. -/
def Does (f : FnDef) (tree : CStmt.Stmts) : Prop :=
  ∀ (M : CRename.Mach) (H : CRename.Home Nat) (da : Word) (load : Nat → M.World → Word → Option Word) (C : CBody.Lang (machOf M H da load)),
    CBody.Linked M H da load C f.nv → tree.Ok H ∧
      ∀ (s s' : M.World × (Nat → Word)) (o : CStmt.Out), ExecAll C f.unit.E f.unit.decl f.body s o s' →
        ∃ ρ k, (∀ x, x < f.unit.base → ρ x = s'.2 x) ∧ ∀ n, k ≤ n → CStmt.execs M H n tree s = .ok o (s'.1, ρ)

theorem fnOk_does {base : Nat} {f : FnDef} {d : Top.Def} (h : Top.FnOk base f d) : Does f d.body := by
  obtain ⟨_, _, _, types, T, ts, nv', dt, dt', rest, st, n, h1, h2, h3, h4, rfl, h6, h7, h8, h9⟩ := h
  obtain ⟨tree, st', _, hu, _, _, _, hd⟩ := C96_body_partial h1 h2 h3 h4 rfl (fun e he => Nat.lt_of_lt_of_le (h6 e he) h7) h7 h8 rest
  have := hu n _ h9
  cases this
  exact hd

theorem allOk_get {base : Nat} : ∀ {fs : List FnDef} {ds : List Top.Def}, Top.AllOk base fs ds → ds.length = fs.length ∧
    ∀ (i : Nat) f d, fs[i]? = some f → ds[i]? = some d → Top.FnOk base f d
  | [], [], _ => ⟨rfl, fun i f d h => by simp at h⟩
  | f :: fs, d :: ds, ⟨h1, h2⟩ => by
    obtain ⟨h3, h4⟩ := allOk_get h2
    refine ⟨by simp [h3], fun i f' d' hf hd => ?_⟩
    cases i with
    | zero => simp at hf hd; subst hf hd; exact h1
    | succ i => simp at hf hd; exact h4 i f' d' hf hd

theorem program_ok {base : Nat} {tops : List CUnit.Top} {ts : List Tk} {D : Decls} (h : WProgram base tops ts D) (ha : D.E.Apart) (hs : NoStructAlias D.types D.E) :
    ∃ tab, ((∃ n, program base n (ts ++ [(.eof, [])]) = some tab) ∧ ∀ n r, program base n (ts ++ [(.eof, [])]) = some r → r = tab) ∧ Top.Rel D tab ∧
      tab.globals = vars tops ∧ Top.AllOk base (fns tops) tab.defs := by
  obtain ⟨t', ds, ⟨n0, h1⟩, h2, h3, h4, h5⟩ := Top.wTops_ok h.tops h.some ha hs Top.rel_init [] []
  have h4' : t'.defs = ds := h4
  refine ⟨t', ⟨⟨n0, h1 n0 (Nat.le_refl _)⟩, fun n r hr => ?_⟩, h2, h3, by rw [h4']; exact h5⟩
  have q := TopFuel.program base (Nat.le_max_left n n0) _ r hr
  exact Option.some.inj (q.symm.trans (h1 (max n n0) (Nat.le_max_right _ _)))

/-- The tokens of a program (`CUnit.WProgram`) are read to the end, if the bound on the depth of recursion is large enough, and never in another way.
Afterwards the tables hold the types, enumeration constants and string literals declared; the functions declared, and no others; the global
variables in order, with their initial values; and for each function with a body, in order, its name, its parameters, and a tree that does what
the body does (`Does`).  Full statement: for all programs, without the restrictions marked `R` in `Spec/CUnit`, and without `Apart` and
`NoStructAlias`. -/
theorem C99_program_partial {base : Nat} {tops : List CUnit.Top} {ts : List Tk} {D : Decls} (h : WProgram base tops ts D) (ha : D.E.Apart)
    (hs : NoStructAlias D.types D.E) :
    ∃ tab, (∃ n, program base n (ts ++ [(.eof, [])]) = some tab) ∧ (∀ n r, program base n (ts ++ [(.eof, [])]) = some r → r = tab) ∧
      Types.declares Types.builtin D.types = some tab.types ∧ (∀ s, Types.findConstant tab.consts (String.ofList s) = D.const s) ∧
      (∀ s, s ∈ tab.funcs ↔ (D.fn s).isSome) ∧ tab.data = D.data ∧ tab.globals = vars tops ∧ tab.defs.length = (fns tops).length ∧
      ∀ (i : Nat) (f : FnDef) (d : Top.Def), (fns tops)[i]? = some f → tab.defs[i]? = some d → d.name = f.name ∧ d.params = f.params ∧ Does f d.body := by
  obtain ⟨tab, ⟨h1, h2⟩, hR, h3, h4⟩ := program_ok h ha hs
  obtain ⟨h5, h6⟩ := allOk_get h4
  refine ⟨tab, h1, h2, hR.types, fun s => by rw [hR.consts]; rfl, fun s => ?_, hR.data, h3, h5, fun i f d hf hd => ?_⟩
  · rw [← hR.funcs, List.contains_iff_mem]
  · have := h6 i f d hf hd
    exact ⟨this.name, this.params, fnOk_does this⟩

open CLex Shecc.Lex in
/-- From the text: a text with these tokens, and blanks, comments and spliced lines between them (C43), is lexed and read as that program. -/
theorem C99_text_partial {base : Nat} {tops : List CUnit.Top} {D : Decls} (L : Lex.Env) (hE : L.nl = true) (hR : L.ret = none) (items : List Item) (fin : List Piece)
    (hf : ∀ p ∈ fin, PieceOk p) (hi : ∀ i ∈ items, (∀ p ∈ i.1, PieceOk p) ∧ TokenOk i.2 ∧ NotMacro L i.2)
    (hap : AllApart items fin) (hst : StartsAtToken (render items fin)) (h : WProgram base tops (items.map (·.2.value)) D) (ha : D.E.Apart)
    (hs : NoStructAlias D.types D.E) :
    ∃ toks tab n, Lex.lexAll L (items.length + 1) (render items fin) = some toks ∧ program base n toks = some tab ∧
      Types.declares Types.builtin D.types = some tab.types ∧ tab.globals = vars tops ∧ tab.defs.length = (fns tops).length ∧
      ∀ (i : Nat) (f : FnDef) (d : Top.Def), (fns tops)[i]? = some f → tab.defs[i]? = some d → d.name = f.name ∧ d.params = f.params ∧ Does f d.body := by
  obtain ⟨tab, ⟨n, h1⟩, _, h2, _, _, _, h3, h4, h5⟩ := C99_program_partial h ha hs
  exact ⟨_, tab, n, C43_lex_partial L hE hR items fin hf hi hap hst, h1, h2, h3, h4, h5⟩

/-! ### Where the parser differs from C -/

theorem never {base k : Nat} {ts : List Tk} (h : ∀ n, program base (n + k) ts = none) : ∀ n, program base n ts = none := by
  intro n
  cases hn : program base n ts with
  | none => rfl
  | some r =>
    have := TopFuel.program base (Nat.le_add_right n k) _ _ hn
    rw [h] at this
    cases this

def toks (s : String) : List Tk := (Lex.lexAll plainEnv 100 s.toList).getD []

end Shecc.Props
