import Verif.Lemmas.RaSource2
import Verif.Props.Cfg
import Verif.Props.RaFn
import Verif.Spec.SsaProgram

/-!
# C86: the analyses supply what register allocation relies on
-/

namespace Shecc.Props
open Shecc Shecc.Ssa Shecc.RegAlloc IrM SrcBlock RaLink RaFn RaSource CGraph

/-- **C86.** For every function in SSA form whose control flow has not changed since the block order was computed, whose blocks can all
reach the end of the function and in which few variables are pending at a time: block order, liveness analysis and the recorded last
uses are what register allocation relies on (C82). Partial: the order is the one of the function as it is, while dead-code
elimination may remove branches after it was computed; and the condition on the number of pending variables. -/
theorem C86_analyses_partial {V : Vars} {F : RegAlloc.Fn} {params exitPrev : List Nat} {entry : Nat} {rest : List Nat} {use : Nat → Int}
    (S : SsaFn V F params exitPrev entry rest use) (M : Moderate V F params entry rest use) (A : Analysed V F params entry rest use) :
    ∃ live, FnOk V F params exitPrev entry rest use live :=
  ⟨_, RaSource.fnOk S M A⟩

/-- Consequently (C83, C85): the allocator's output for such a function is one that the theorems on whole programs are about. -/
theorem C86_allocated_partial {gofs : Nat → Nat} {f : SsaProg.SrcFn} {exitPrev : List Nat} {use : Nat → Int} {st0 fin : RA}
    {codes : List (Nat × List Ph2Ir)} (S : SsaFn f.vars f.F f.params exitPrev f.entry f.rest use)
    (M : Moderate f.vars f.F f.params f.entry f.rest use) (A : Analysed f.vars f.F f.params f.entry f.rest use)
    (h4 : st0.stack = 4) (hc : st0.consumed = use) (hl : ∀ v, f.vars.isGlobal v = false → st0.offset v = 0)
    (hg : ∀ v, f.vars.isGlobal v = true → st0.offset v = gofs v ∧ gofs v ≠ 0)
    (ha : allocBlocks f.vars f.F [] (f.entry :: f.rest) (fnStart f.params false st0) = some (codes, fin))
    (hs : fin.stack = f.size) (ho : fin.offset = f.ofs) :
    ∃ live, SsaProg.Allocated gofs f exitPrev use live st0 fin codes :=
  ⟨_, RaSource.fnOk S M A, h4, hc, hl, hg, ha, hs, ho⟩

/-- For every finite control-flow graph the analyses come to an end. -/
theorem C86_analyses_terminate (V : Vars) (F : RegAlloc.Fn) (params : List Nat) (entry : Nat) (univ : List Nat) (he : entry ∈ univ)
    (hx : F.fnExit ∈ univ) (hc : ∀ b ∈ univ, ∀ n ∈ succs F b, n ∈ univ) (hn : ∀ b, b ∉ univ → succs F b = []) :
    ∃ F' rest use, F'.insns = F.insns ∧ F'.fnExit = F.fnExit ∧
      (∀ b, (F'.block b).next = (F.block b).next ∧ (F'.block b).then_ = (F.block b).then_ ∧ (F'.block b).else_ = (F.block b).else_) ∧
      Analysed V F' params entry rest use := by
  obtain ⟨rpo, l, hl, hh, _⟩ := C51_layout (succs F) entry univ he hc
  obtain ⟨rest, rfl⟩ : ∃ rest, l = entry :: rest := by
    cases l with
    | nil => simp at hh
    | cons a l => simp at hh; exact ⟨l, by rw [hh]⟩
  let prev : Nat → List Nat := fun a => univ.filter fun b => decide (a ∈ succs F b)
  have hprev : ∀ a b, b ∈ prev a ↔ a ∈ succs F b := by
    intro a b
    simp only [prev, List.mem_filter, decide_eq_true_eq]
    refine ⟨fun h => h.2, fun h => ⟨?_, h⟩⟩
    by_cases hb : b ∈ univ
    · exact hb
    · rw [hn b hb] at h; simp at h
  have hpr : (cfgOf F entry prev).preds = prev := by
    funext a
    unfold Cfg.Graph.preds cfgOf
    by_cases h : a = F.fnExit
    · simp [h]
    · simp only [h, if_false]
      cases (F.block a).next <;> rfl
  obtain ⟨rpo2, order, hl2, _⟩ := C51_layout prev F.fnExit univ hx (by
    intro x _ y hy
    exact (List.mem_filter.1 hy).1)
  let f := liveFn V F params entry prev
  have hs : f.g.succs = succs F := cfgOf_succs F entry prev
  let vars : List Nat := univ.flatMap fun b => (F.insns b).flatMap fun i => i.rs1.toList ++ i.rs2.toList
  have hv : ∀ b x, CLive.LiveAtEnd f b x → x ∈ vars := by
    rintro b x ⟨c, hcb, m, d, hp, ⟨⟨xs, i, ys, hi, hu, _⟩, _⟩, _⟩
    rw [hs] at hcb hp
    have hcu : c ∈ univ := by
      by_cases hb : b ∈ univ
      · exact hc b hb c hcb
      · rw [hn b hb] at hcb; simp at hcb
    have hdu : d ∈ univ := by
      have key : ∀ c q d, Path (succs F) c q d → c ∈ univ → d ∈ univ := by
        intro c q d hp
        induction hp with
        | nil => exact id
        | cons h _ ih => exact fun hcu => ih (hc _ hcu _ h)
      exact key _ _ _ hp hcu
    have hi' : (F.insns d).map insnOf = xs ++ i :: ys := hi
    have him : i ∈ (F.insns d).map insnOf := by rw [hi']; simp
    obtain ⟨j, hj, rfl⟩ := List.mem_map.1 him
    refine List.mem_flatMap.2 ⟨d, hdu, List.mem_flatMap.2 ⟨j, hj, ?_⟩⟩
    have hu' : j.rs1 = some x ∨ j.rs2 = some x := hu
    rcases hu' with h | h <;> simp [h]
  obtain ⟨L, hL, _⟩ := C53_liveness_sound f order vars hv
  let F' : RegAlloc.Fn := { F with
    rpo := rpo
    block := fun b => { F.block b with liveOut := L b, killed := (Live.genKill (liveFn V F params entry fun _ => []) b).2 } }
  refine ⟨F', rest, Live.consumed (liveFn V F params entry fun _ => []) (entry :: rest) (fun _ => -1), rfl, rfl,
    fun b => ⟨rfl, rfl, rfl⟩, ?_, ?_, fun b _ => rfl, fun _ => -1, fun _ _ => rfl, fun v => ⟨Int.le_refl _, fun _ => rfl⟩⟩
  · refine ⟨univ.length, ?_⟩
    rw [cfgOf_succs]
    exact hl
  · refine ⟨prev, rpo2, order, univ.length, _, L, fun a b _ => hprev a b, ?_, hL, fun b => rfl⟩
    have : (cfgOf F' entry prev).preds = prev := hpr
    rw [this]
    exact hl2

end Shecc.Props
