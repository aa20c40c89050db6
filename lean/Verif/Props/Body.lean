import Verif.Lemmas.Body5
import Verif.Lemmas.Fuel

/-!
# Function bodies (C96)

`glob T U` (`Lemmas/Body1`) is what the parser's tables say about the names outside the body, for the type table `T`: the constants, functions
and macros, the parameters and the global variables as their declarations set them (`Types.readVar`).
-/

namespace Shecc.Props
open CTypes CEval CSyntax CArith CBody
open Shecc.Body (glob funcBody)

/-- The tokens of a function body (`CBody.WItems`) are read to the closing brace, if the bound on the depth of recursion
is large enough, and never in another way.  The statement tree that comes out does what the body
does (`CBody.ExecAll`), whatever the machine, the called functions and the values of the variables: for every execution of the body, of any
length, the tree has an execution with the same end and the same effects on the world and on every declared variable; temporaries are
numbered from `U.base` on.  Full statement: for all bodies, without the restrictions marked `R` in `Spec/CBody` and `Spec/CSyntax`, with
`?:`, prefix `++` and `--`, pointers to functions and macros, for local variables whose address is taken, and for executions that do not
end. -/
theorem C96_body_partial {ds : List Decl} {E : Env} (h : Program ds E) (ha : E.Apart) (hs : NoStructAlias ds E) {T : Types.Table}
    (hT : Types.declares Types.builtin ds = some T) {U : CBody.Unit} (hU : U.E = E) (hp : ∀ e ∈ U.params ++ U.globals, e.2 < U.base)
    {nv nv' : Nat} (hn : nv ≤ U.base) {ss : CBody.Stmts} {ts : List Tk} {d d' : List Char} (hw : WItems U [[]] nv ss ts nv' d d') (rest : List Tk) :
    ∃ tree st, (∃ n, funcBody (glob T U) n U.base nv d (p .open_curly :: ts ++ rest) = some (tree, st, rest)) ∧
      (∀ n r, funcBody (glob T U) n U.base nv d (p .open_curly :: ts ++ rest) = some r → r = (tree, st, rest)) ∧
      st.data = d' ∧ st.nv = nv' ∧ U.base ≤ st.next ∧
      ∀ (M : CRename.Mach) (H : CRename.Home Nat) (da : Word) (load : Nat → M.World → Word → Option Word) (C : CBody.Lang (machOf M H da load)),
        CBody.Linked M H da load C nv → tree.Ok H ∧
          ∀ (s s' : M.World × (Nat → Word)) (o : CStmt.Out), ExecAll C U.E U.decl ss s o s' →
            ∃ ρ k, (∀ x, x < U.base → ρ x = s'.2 x) ∧ ∀ n, k ≤ n → CStmt.execs M H n tree s = .ok o (s'.1, ρ) := by
  subst hU
  have hok := tOk_of h ha hs hT
  have hb : Body.Below U.base ([[]] ++ [U.params, U.globals]) := by
    intro f hf e he
    simp only [List.singleton_append, List.mem_cons, List.not_mem_nil, or_false] at hf
    rcases hf with rfl | rfl | rfl
    · cases he
    · exact hp e (List.mem_append_left _ he)
    · exact hp e (List.mem_append_right _ he)
  obtain ⟨S, next', fs', ⟨n0, h1⟩, h2, h3, h4, h5⟩ := Body.wItems_ok (⟨hok, hn, rfl⟩ : Body.Setup T U U.base nv) hw U.base rest (Nat.le_refl _) (Nat.le_refl _) hb
  refine ⟨S, Body.stOf U next' d' fs' nv', ⟨n0, h1 n0 (Nat.le_refl _)⟩, fun n r hr => ?_, rfl, rfl, h2, fun M H da load C K => ?_⟩
  · have q1 := Fuel.funcBody (glob T U) (Nat.le_max_left n n0) U.base nv d _ r hr
    exact Option.some.inj (q1.symm.trans (h1 (max n n0) (Nat.le_max_right _ _)))
  · obtain ⟨h6, h7⟩ := h5 ⟨M, H, da, load, C, K⟩
    refine ⟨h6, fun s s' o he => ?_⟩
    obtain ⟨⟨w, ρ⟩, k, ⟨rfl, hk⟩, h8⟩ := h7 s o s' s he ⟨rfl, fun _ _ => rfl⟩
    exact ⟨ρ, k, hk, h8⟩

end Shecc.Props
