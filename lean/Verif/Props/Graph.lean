import Verif.Lemmas.StmtShape2
import Verif.Lemmas.StmtWays2
import Verif.Lemmas.StmtOut
import Verif.Lemmas.RenameSome
import Verif.Props.StmtExample
import Verif.Props.SsaExec

/-!
# C103: the graph built for a function
-/

namespace Shecc.Props
open Shecc.Stmt Shecc.Cfg
open CRename (Ins Mach Home)
open CStmt

/-! ### The graph -/

section
variable {H : Home Nat}

theorem reach_last {succ : Nat → List Nat} {a b : Nat} (h : CGraph.Reach succ a b) : b = a ∨ ∃ c, CGraph.Reach succ a c ∧ b ∈ succ c := by
  obtain ⟨l, p⟩ := h
  induction p with
  | nil => exact .inl rfl
  | @cons a c b l h p ih =>
    right
    rcases ih with rfl | ⟨d, hd, hb⟩
    · exact ⟨a, Cfg.Reach.refl _, h⟩
    · exact ⟨d, Cfg.Reach.step h hd, hb⟩

theorem mem_succs {P : PS} {g : Graph} (hg : g.block = P.block) (a b : Nat) : b ∈ g.succs a ↔ ∃ k, ptr k (P.block a) = some b := by
  unfold Graph.succs
  rw [hg]
  simp only [List.mem_append, Option.mem_toList]
  constructor
  · rintro ((h | h) | h)
    · exact ⟨.next, h⟩
    · exact ⟨.then_, h⟩
    · exact ⟨.else_, h⟩
  · rintro ⟨k, hk⟩
    cases k
    · exact .inl (.inl hk)
    · exact .inl (.inr hk)
    · exact .inr hk

theorem lowerFn_walk {R : Nat → Prop} {body : Stmts} (hb : body.Ok H) (fl : (∀ b, R b) ∨ body.Flows) {P : PS} (hP : lowerFn body = some P) :
    In P ∧ (Cl R P → R 0 → ∀ q a, a ∈ (P.block q).prev → R a) := by
  obtain ⟨s0, hs0⟩ : ∃ s0 : PS, s0 = { n := 2, block := fun _ => {}, code := fun _ => [], brk := [], cont := [], se := [], exit := 1 } :=
    ⟨_, rfl⟩
  unfold lowerFn at hP
  simp only [← hs0, Option.map_eq_some_iff] at hP
  obtain ⟨⟨s1, q⟩, h1, h2⟩ := hP
  have i0 : In s0 := by
    rw [hs0]
    refine ⟨Nat.le_refl _, rfl, ?_, fun _ _ => ⟨rfl, rfl⟩, (fun _ h => by cases h), (fun _ h => by cases h)⟩
    intro b k q hq
    cases k <;> cases hq
  have p0 : ∀ b, (s0.block b).prev = [] := by rw [hs0]; exact fun _ => rfl
  have n0 : s0.n = 2 := by rw [hs0]
  have t0 : Tr R 0 [0] s0 [0] s0 [0] := Tr.refl i0 fun b hb => by
    rw [List.mem_singleton.1 hb]
    exact ⟨Nat.le_refl _, by omega, .inl (by simp)⟩
  obtain ⟨B', w⟩ := lowerSs_walk (H := H) body hb fl (by omega) t0 (bb := some 0) (fun b hb => by cases hb; simp) h1
  have key : ∀ {B}, Tr R 0 [0] s0 [0] P B → In P ∧ (Cl R P → R 0 → ∀ q a, a ∈ (P.block q).prev → R a) := by
    intro B t
    refine ⟨t.inn, fun cl h0 q a ha => ?_⟩
    rcases (t.live cl (fun a ha => by rw [List.mem_singleton.1 ha]; exact h0)).2 q a ha with h | h
    · rw [p0] at h; cases h
    · exact h
  cases q with
  | none =>
    simp only at h2
    subst h2
    exact key w.tr
  | some z =>
    simp only at h2
    subst h2
    exact key (w.tr.jump (w.cur z rfl) ⟨by have := w.tr.n; omega, .inr ⟨rfl, rfl⟩⟩)

/-- **C103** (partial: for bodies within `Stmts.Ok`).  The graph of a function has the blocks `0, …, n-1`: every edge leads from one of
them to one of them, none leads to the entry, and only a plain edge (no branch) leads to the exit, which is empty and has no
successor. An edge is in the list of predecessors of its target. -/
theorem C103_graph_partial {body : Stmts} (hb : body.Ok H) {P : PS} (hP : lowerFn body = some P) {g : Graph} (hg : g.block = P.block) :
    (∀ a b, b ∈ g.succs a → a < P.n ∧ b < P.n ∧ b ≠ 0) ∧ (∀ a b, b ∈ g.succs a ↔ a ∈ g.preds b) ∧ g.preds 0 = [] ∧
      g.succs 1 = [] ∧ P.code 1 = [] ∧ ∀ a, (g.block a).then_ ≠ some 1 ∧ (g.block a).else_ ≠ some 1 := by
  obtain ⟨⟨c1, o1⟩, hy, ⟨_, hf⟩, _⟩ := lowerFn_ok calc_basic hb hP
  obtain ⟨i, _⟩ := lowerFn_walk (R := fun _ => True) hb (.inl fun _ => trivial) hP
  have he : ∀ a b, b ∈ g.succs a → a < P.n ∧ b < P.n ∧ b ≠ 0 := by
    intro a b h
    obtain ⟨k, hk⟩ := (mem_succs hg a b).1 h
    obtain ⟨h1, h2⟩ := i.target a k b hk
    refine ⟨?_, h1, by omega⟩
    apply Classical.byContradiction
    intro hn
    obtain ⟨_, o⟩ := hf a (by omega)
    cases k
    · rw [show ptr .next (P.block a) = (P.block a).next from rfl, o.next] at hk; cases hk
    · rw [show ptr .then_ (P.block a) = (P.block a).then_ from rfl, o.then_] at hk; cases hk
    · rw [show ptr .else_ (P.block a) = (P.block a).else_ from rfl, o.else_] at hk; cases hk
  have hs : ∀ a b, b ∈ g.succs a ↔ a ∈ g.preds b := by
    intro a b
    rw [mem_succs hg, hy a b, Graph.preds, hg]
  refine ⟨he, hs, ?_, ?_, c1, ?_⟩
  · exact List.eq_nil_iff_forall_not_mem.2 fun a ha => (he a 0 ((hs a 0).2 ha)).2.2 rfl
  · unfold Graph.succs
    rw [hg, o1.next, o1.then_, o1.else_]
    rfl
  · intro a
    rw [hg]
    constructor
    · intro h
      rcases (i.target a .then_ 1 h).2 with h | ⟨h, _⟩
      · omega
      · cases h
    · intro h
      rcases (i.target a .else_ 1 h).2 with h | ⟨h, _⟩
      · omega
      · cases h

/-- **C103** (partial as above).  A branch or a `return` can only be the last instruction of its block; after a branch there is no
plain edge, and the only edge after a `return` leads to the exit. -/
theorem C103_ends_partial {body : Stmts} (hb : body.Ok H) {P : PS} (hP : lowerFn body = some P) {b : Nat} {xs ys : List (Ins Nat)} {i : Ins Nat}
    (h : P.code b = xs ++ i :: ys) (ho : i.op = .branch ∨ i.op = .ret) :
    ys = [] ∧ i.rd = none ∧ (i.op = .branch ∧ (P.block b).next = none ∨
      i.op = .ret ∧ (P.block b).next = some 1 ∧ (P.block b).then_ = none ∧ (P.block b).else_ = none) := by
  obtain ⟨_, _, ⟨⟨he, hx⟩, _⟩, _⟩ := lowerFn_ok calc_basic hb hP
  rcases he b xs i ys h with k | k
  · unfold Simple simple at k
    rcases ho with ho | ho <;> (rw [ho] at k; cases k)
  · rw [hx] at k
    exact k

/-- **C103** (partial as above).  From every block that can be reached, other than the exit, control goes on: along its plain edge, or
along two edges of which the branch that ends the block chooses one. -/
theorem C103_ways_partial {body : Stmts} (hb : body.Ok H) {P : PS} (hP : lowerFn body = some P) {g : Graph} (hg : g.block = P.block)
    {b : Nat} (h : CGraph.Reach g.succs 0 b) (hne : b ≠ 1) :
    (∃ c, (g.block b).next = some c) ∨ (g.block b).next = none ∧ (∃ c, (g.block b).then_ = some c) ∧ (∃ c, (g.block b).else_ = some c) ∧
      ∃ xs i, P.code b = xs ++ [i] ∧ i.op = .branch := by
  obtain ⟨_, hs, _⟩ := C103_graph_partial hb hP hg
  have hin : b = 0 ∨ (P.block b).prev ≠ [] := by
    rcases reach_last h with h | ⟨a, _, ha⟩
    · exact .inl h
    · right
      have := (hs a b).1 ha
      rw [Graph.preds, hg] at this
      intro h0
      rw [h0] at this
      cases this
  rcases lowerFn_ways hb hP b hin hne with k | ⟨k1, k2, i, hi, ho⟩
  · left
    rw [hg]
    exact Option.ne_none_iff_exists'.1 k
  · right
    obtain ⟨xs, ys, e⟩ := List.append_of_mem hi
    obtain ⟨rfl, _, e2⟩ := C103_ends_partial hb hP e (.inl ho)
    rw [hg]
    refine ⟨?_, Option.ne_none_iff_exists'.1 k1, Option.ne_none_iff_exists'.1 k2, xs, i, e, ho⟩
    rcases e2 with ⟨_, h⟩ | ⟨h, _⟩
    · exact h
    · rw [ho] at h; cases h

/-- **C103** (partial as above, and the condition of every `do` and the increment of every `for` can be reached).  Every block from
which an edge leads can itself be reached from the entry. -/
theorem C103_reachable_partial {body : Stmts} (hb : body.Ok H) (fl : body.Flows) {P : PS} (hP : lowerFn body = some P) {g : Graph}
    (hg : g.block = P.block) {a b : Nat} (h : b ∈ g.succs a) : CGraph.Reach g.succs 0 a := by
  obtain ⟨_, hs, _⟩ := C103_graph_partial hb hP hg
  refine (lowerFn_walk (R := CGraph.Reach g.succs 0) hb (.inr fl) hP).2 ?_ (Cfg.Reach.refl _) b a ?_
  · intro a q ha hq
    exact Cfg.Reach.trans ha (Cfg.Reach.one ((hs a q).2 (by rw [Graph.preds, hg]; exact hq)))
  · have := (hs a b).1 h
    rwa [Graph.preds, hg] at this

/-- **C103** (partial: as above).  From every block that can be reached, the exit can be reached: no loop can be entered that has no way
out, not even `while (1);` or `for (;;);`, which are compiled with a test. -/
theorem C103_exit_reachable_partial {body : Stmts} (hb : body.Ok H) {P : PS} (hP : lowerFn body = some P) {g : Graph} (hg : g.block = P.block)
    {b : Nat} (h : CGraph.Reach g.succs 0 b) : CGraph.Reach g.succs b 1 := by
  obtain ⟨_, hs, _⟩ := C103_graph_partial hb hP hg
  have hin : b = 0 ∨ (P.block b).prev ≠ [] := by
    rcases reach_last h with h | ⟨a, _, ha⟩
    · exact .inl h
    · right
      have := (hs a b).1 ha
      rw [Graph.preds, hg] at this
      intro h0
      rw [h0] at this
      cases this
  have hto : ∀ c, To (Ed P) [] c → CGraph.Reach g.succs c 1 := by
    intro c k
    induction k with
    | here h => cases h
    | exit => exact Cfg.Reach.refl _
    | on e _ ih => exact Cfg.Reach.trans (Cfg.Reach.one ((hs _ _).2 (by rw [Graph.preds, hg]; exact e))) ih
  exact hto b ((lowerFn_outs hb hP).1 b hin)

/-- **C103** (partial: as above).  A block has a plain edge or the two edges of a branch, never both. -/
theorem C103_forks_partial {body : Stmts} (hb : body.Ok H) {P : PS} (hP : lowerFn body = some P) {g : Graph} (hg : g.block = P.block)
    {b : Nat} (h : (g.block b).then_ ≠ none ∨ (g.block b).else_ ≠ none) :
    (g.block b).next = none ∧ ∃ xs i, P.code b = xs ++ [i] ∧ i.op = .branch := by
  rw [hg] at h
  obtain ⟨i, hi, ho⟩ := (lowerFn_outs hb hP).2 b h
  obtain ⟨xs, ys, e⟩ := List.append_of_mem hi
  obtain ⟨rfl, _, e2⟩ := C103_ends_partial hb hP e (.inl ho)
  rw [hg]
  rcases e2 with ⟨_, h⟩ | ⟨h, _⟩
  · exact ⟨h, xs, i, e, ho⟩
  · rw [ho] at h; cases h

/-- **C103** (partial as above).  The graph is as the construction of SSA form needs it. -/
theorem C103_linked_partial {body : Stmts} (hb : body.Ok H) (fl : body.Flows) {P : PS} (hP : lowerFn body = some P) {f : SsaBuild.Fn}
    (hf : f.Holds P) : f.Linked := by
  obtain ⟨_, hs, h0, _⟩ := C103_graph_partial hb hP hf.block
  refine ⟨hs, by rw [hf.entry]; exact h0, ?_⟩
  intro b _ q hq
  rw [hf.entry]
  exact C103_reachable_partial hb fl hP hf.block ((hs q b).2 hq)

theorem holds_plain {body : Stmts} (hb : body.Ok H) {P : PS} (hP : lowerFn body = some P) {f : SsaBuild.Fn} (hf : f.Holds P)
    (hn : ∀ b, ∀ i ∈ f.code b, ∀ v, i.rd = some v → f.isFunc v = false) : f.Plain := by
  obtain ⟨_, _, ⟨⟨he, _⟩, _⟩, _⟩ := lowerFn_ok calc_basic hb hP
  refine ⟨?_, ?_, hn⟩
  · intro b i hi ho
    rw [hf.code] at hi
    obtain ⟨xs, ys, e⟩ := List.append_of_mem hi
    rcases he b xs i ys e with k | ⟨_, _, ⟨k, _⟩ | ⟨k, _⟩⟩
    · unfold Simple simple at k
      rw [ho] at k
      cases k
    · rw [ho] at k; cases k
    · rw [ho] at k; cases k
  · intro b i hi ho
    rw [hf.code] at hi
    obtain ⟨xs, ys, e⟩ := List.append_of_mem hi
    exact (C103_ends_partial hb hP e (.inl ho)).2.1

/-- **C103** (partial as above).  SSA construction of such a function finds its dominators, frontiers and names without following a
null pointer, provided its parameters are not globals and every name used is declared. -/
theorem C103_ssa_partial {body : Stmts} (hb : body.Ok H) (fl : body.Flows) {P : PS} (hP : lowerFn body = some P) {f : SsaBuild.Fn}
    (hf : f.Holds P) (hg : ∀ p ∈ f.params, f.isGlobal p = false) (hd : f.Declared) {n : Nat} (hn : 8 * P.n + 4 ≤ n) :
    ∃ r, SsaBuild.ssaBuild f n = some r := by
  obtain ⟨u1, u2, u3, _⟩ := blocksOf_ok calc_basic hb hP hf
  exact SsaBuild.ssaBuild_succeeds (C103_linked_partial hb fl hP hf) u1 u2 (Nat.le_trans u3 hn) hg hd

end

/-! ### A predecessor that cannot be reached -/

section
variable {rpo : Nat → Nat} {preds : Nat → List Nat}

/-- Immediate dominators have an immediate dominator. -/
def Chained (idom : Nat → Option Nat) : Prop := ∀ x y, idom x = some y → (idom y).isSome = true

theorem intersect_chained {idom : Nat → Option Nat} (hc : Chained idom) {n i j r : Nat} (hi : (idom i).isSome = true)
    (hj : (idom j).isSome = true) (h : intersect rpo idom n i j = some r) : (idom r).isSome = true := by
  induction n generalizing i j with
  | zero => cases h
  | succ n ih =>
    unfold intersect at h
    split at h
    · cases h; exact hi
    · split at h
      · split at h
        · cases h
        · rename_i i' e
          exact ih (hc _ _ e) hj h
      · split at h
        · split at h
          · cases h
          · rename_i j' e
            exact ih hi (hc _ _ e) h
        · cases h

theorem mergePreds_chained {idom : Nat → Option Nat} (hc : Chained idom) {n : Nat} {ps : List Nat} {p r : Nat} (hp : (idom p).isSome = true)
    (h : mergePreds rpo idom n ps p = some r) : (idom r).isSome = true := by
  induction ps generalizing p with
  | nil => cases h; exact hp
  | cons q ps ih =>
    unfold mergePreds at h
    split at h
    · exact ih hp h
    · split at h
      · exact ih hp h
      · rename_i x e
        split at h
        · cases h
        · rename_i r' e'
          exact ih (intersect_chained hc (by rw [e]; rfl) hp e') h

theorem newIdom_chained {idom : Nat → Option Nat} (hc : Chained idom) {n : Nat} {ps : List Nat} {r : Nat} (h : newIdom rpo idom n ps = some r) :
    (idom r).isSome = true := by
  unfold newIdom at h
  split at h
  · cases h
  · rename_i p e
    exact mergePreds_chained hc (by have := List.find?_some e; exact this) h

theorem idomPass_chained {n : Nat} {order : List Nat} {idom : Nat → Option Nat} {r : (Nat → Option Nat) × Bool} (hc : Chained idom)
    (h : idomPass rpo preds n order idom = some r) : Chained r.1 ∧ ∀ x, x ∉ order → r.1 x = idom x := by
  induction order generalizing idom r with
  | nil => cases h; exact ⟨hc, fun _ _ => rfl⟩
  | cons b bs ih =>
    unfold idomPass at h
    split at h
    · cases h
    · rename_i p e
      split at h
      · obtain ⟨h1, h2⟩ := ih hc h
        exact ⟨h1, fun x hx => h2 x fun hm => hx (List.mem_cons_of_mem _ hm)⟩
      · split at h
        · cases h
        · rename_i idom' _ e'
          cases h
          have hc' : Chained (fun x => if x = b then some p else idom x) := by
            intro x y hxy
            have hp := newIdom_chained hc e
            simp only at hxy ⊢
            split
            · rfl
            · split at hxy
              · cases hxy; exact hp
              · exact hc x y hxy
          obtain ⟨h1, h2⟩ := ih hc' e'
          refine ⟨h1, fun x hx => ?_⟩
          have := h2 x fun hm => hx (List.mem_cons_of_mem _ hm)
          simp only at this ⊢
          rw [this, if_neg]
          rintro rfl
          exact hx (List.mem_cons_self ..)

theorem idomLoop_chained {n : Nat} {order : List Nat} {k : Nat} {idom r : Nat → Option Nat} (hc : Chained idom)
    (h : idomLoop rpo preds n order k idom = some r) : Chained r ∧ ∀ x, x ∉ order → r x = idom x := by
  induction k generalizing idom with
  | zero => cases h
  | succ k ih =>
    unfold idomLoop at h
    split at h
    · cases h
    · rename_i idom' e
      obtain ⟨h1, h2⟩ := idomPass_chained hc e
      obtain ⟨h3, h4⟩ := ih h1 h
      exact ⟨h3, fun x hx => (h4 x hx).trans (h2 x hx)⟩
    · rename_i idom' e
      cases h
      exact idomPass_chained hc e

theorem bbDf_none {idom : Nat → Option Nat} {n b q : Nat} {ps : List Nat} (hq : q ∈ ps) (hi : idom q = none) (hb : idom b ≠ some q) :
    bbDf idom n b ps = none := by
  have hw : dfWalk idom (idom b) n q = none := by
    cases n with
    | zero => rfl
    | succ n =>
      unfold dfWalk
      rw [if_neg (fun h => hb h.symm), hi]
  induction ps with
  | nil => cases hq
  | cons p ps ih =>
    unfold bbDf
    rcases List.mem_cons.1 hq with rfl | hq
    · rw [hw]
    · split
      · rfl
      · rw [ih hq]; rfl

theorem buildDf_none {idom : Nat → Option Nat} {n b q : Nat} {bs : List Nat} (hbs : b ∈ bs) (hq : q ∈ preds b) (hi : idom q = none)
    (hb : idom b ≠ some q) : buildDf idom preds n bs = none := by
  induction bs with
  | nil => cases hbs
  | cons c bs ih =>
    unfold buildDf
    rcases List.mem_cons.1 hbs with rfl | h
    · rw [bbDf_none hq hi hb]
    · split
      · rfl
      · rw [ih h]; rfl

end

/-- **C103**.  What happens otherwise: if a block that can be reached has a predecessor that cannot, then whatever the size of the
function the construction of SSA form gives no result: `bb_build_df` (src/ssa.c:239-242) follows the null `idom` of that predecessor. -/
theorem C103_unreachable_predecessor {f : SsaBuild.Fn} (hs : ∀ a b, b ∈ f.g.succs a ↔ a ∈ f.g.preds b) {b q : Nat}
    (hb : CGraph.Reach f.g.succs f.g.entry b) (hq : q ∈ f.g.preds b) (hn : ¬ CGraph.Reach f.g.succs f.g.entry q) (n : Nat) :
    SsaBuild.ssaBuild f n = none := by
  unfold SsaBuild.ssaBuild
  split
  · rename_i vis post rpo l h1 h2
    split
    · rfl
    · rename_i idom h3
      have hdf : buildDf idom f.g.preds n post = none := by
        obtain ⟨O, order, hl, _⟩ := order_of_buildRpo hs h2
        obtain ⟨vis', post', hd, _, hlp, _⟩ := buildRpo_eq h2
        rw [h1] at hd
        cases hd
        have hqe : q ≠ f.g.entry := fun h => hn (h ▸ Cfg.Reach.refl _)
        have c0 : Chained (fun b => if b = f.g.entry then some f.g.entry else none) := by
          intro x y h
          simp only at h ⊢
          split at h
          · cases h; rw [if_pos rfl]; rfl
          · cases h
        unfold buildIdom at h3
        obtain ⟨hc, ho⟩ := idomLoop_chained c0 h3
        have hql : q ∉ l := fun h => hn ((O.mem q).1 h)
        have hq0 : idom q = none := by
          rw [ho q (fun h => hql (List.mem_of_mem_tail h))]
          exact if_neg hqe
        have hbp : b ∈ post := by
          have := (O.mem b).2 hb
          rw [hlp] at this
          exact List.mem_reverse.1 this
        refine buildDf_none hbp hq hq0 fun h => ?_
        have := hc b q h
        rw [hq0] at this
        cases this
      split
      · rename_i e
        rw [hdf] at e
        cases e
      · rfl
  · rfl

/-! ### Examples -/

/-- The sample of C73, with all kinds of statements, satisfies the conditions. -/
theorem sample_flows : sample.Ok calcHome ∧ sample.Flows ∧ (lowerFn sample).map (·.n) = some 34 := by
  refine ⟨?_, ?_, by decide +kernel⟩
  · simp [sample, seqS, Stmts.Ok, Stmt.Ok, Cases.Ok, Label.Ok, Expr.Plain, Expr.Good, CStmt.Simple, CStmt.simple, Exprs.Good, Ors.Good, Ands.Good, Expr.noSe,
      Exprs.noSe, Ors.noSe, Ands.noSe, setE, vE, kE, binE, constIns, moveIns, calcHome, Tmp.Ok, Expr.straight, Exprs.straight, optCode,
      Expr.code, Exprs.code, Expr.res, Stmt.conts, Stmts.conts, Cases.conts]
  · simp [sample, seqS, Stmts.Flows, Stmt.Flows, Cases.Flows, Stmt.falls, Stmts.falls, Cases.falls, Stmt.brks, Stmts.brks, Cases.brks, Stmt.conts,
      Stmts.conts, Cases.conts]

/-- `while (1) { for (;;) x = 1; }` and `x = 2;` behind it. -/
def endless : Stmts := seqS [.while_ (kE 1 10) (.block (seqS [.for_ none none 11 none (.expr (setE 0 (kE 1 12)))])), .expr (setE 0 (kE 2 13))]

/-- Though it does not end, the exit can be reached in its graph from every block that can be reached. -/
example : ∃ P, endless.Ok calcHome ∧ lowerFn endless = some P ∧ P.n = 11 ∧
    ∀ b, CGraph.Reach (Graph.succs ⟨P.block, 0, 1⟩) 0 b → CGraph.Reach (Graph.succs ⟨P.block, 0, 1⟩) b 1 := by
  have ok : endless.Ok calcHome := by
    simp [endless, seqS, Stmts.Ok, Stmt.Ok, Expr.Plain, Expr.Good, CStmt.Simple, CStmt.simple, Exprs.Good, Expr.noSe,
      Exprs.noSe, setE, kE, constIns, moveIns, calcHome, Expr.straight, Exprs.straight, optCode, Expr.code, Exprs.code, Expr.res, Stmt.conts, Stmts.conts, Cases.conts, Stmt.completes, Stmts.completes]
  have hn : (lowerFn endless).map (·.n) = some 11 := by decide +kernel
  obtain ⟨P, hP, hn⟩ := Option.map_eq_some_iff.1 hn
  exact ⟨P, ok, hP, hn, fun b h => C103_exit_reachable_partial ok hP (g := ⟨P.block, 0, 1⟩) rfl h⟩

/-- A function with a given graph and code, and the variables 0, …, k-1 as parameters. -/
def fnOf (k : Nat) (P : PS) : SsaBuild.Fn where
  g := ⟨P.block, 0, 1⟩
  code := P.code
  params := List.range k
  isGlobal := fun _ => false
  isFunc := fun _ => false
  isJoin := fun _ => false
  inScope := fun _ _ => true
  isDecl := fun _ _ => false

theorem fnOf_declared {k : Nat} {P : PS} (h : ∀ b, ∀ i ∈ P.code b, ∀ v, CRename.Uses i v → v < k) : (fnOf k P).Declared where
  use := fun b v xs i ys _ _ hc hu => .inl <| by
    refine List.mem_range.2 (h b i ?_ v ?_)
    · rw [show P.code b = xs ++ i :: ys from hc]; simp
    · rcases hu with h | ⟨h, _⟩
      · exact .inl h
      · exact .inr h
  phi := fun b v q _ _ _ _ ⟨c, _, xs, i, ys, hc, hu, _⟩ => .inl <| by
    refine List.mem_range.2 (h c i ?_ v hu)
    rw [show P.code c = xs ++ i :: ys from hc]; simp

/-- SSA construction of the sample succeeds. -/
example : ∃ P r, lowerFn sample = some P ∧ SsaBuild.ssaBuild (fnOf 60 P) 276 = some r := by
  obtain ⟨h1, h2, h3⟩ := sample_flows
  obtain ⟨P, hP, hn⟩ := Option.map_eq_some_iff.1 h3
  have key : (lowerFn sample).all (fun P => (List.range 34).all fun b => (P.code b).all fun i => i.rs1.all (· < 60) && i.rs2.all (· < 60)) = true := by
    decide +kernel
  have hd : ∀ b, ∀ i ∈ P.code b, ∀ v, CRename.Uses i v → v < 60 := by
    intro b i hi v hv
    rw [hP] at key
    simp only [Option.all_some, List.all_eq_true, List.mem_range, Bool.and_eq_true] at key
    by_cases hb : b < 34
    · obtain ⟨k1, k2⟩ := key b hb i hi
      rcases hv with hv | hv
      · rw [hv] at k1; simpa using k1
      · rw [hv] at k2; simpa using k2
    · obtain ⟨_, _, ⟨_, hf⟩, _⟩ := lowerFn_ok calc_basic h1 hP
      rw [(hf b (by omega)).1] at hi
      cases hi
  obtain ⟨r, hr⟩ := C103_ssa_partial h1 h2 hP (f := fnOf 60 P) ⟨rfl, rfl, rfl, rfl⟩ (fun _ _ => rfl) (fnOf_declared hd) (n := 276) (by omega)
  exact ⟨P, r, hP, hr⟩

theorem reach_within {succ : Nat → List Nat} {l : List Nat} {a b : Nat} (ha : a ∈ l) (h : ∀ x ∈ l, ∀ y ∈ succ x, y ∈ l)
    (hr : CGraph.Reach succ a b) : b ∈ l := by
  obtain ⟨p, hp⟩ := hr
  induction hp with
  | nil => exact ha
  | cons h1 _ ih => exact ih (h _ ha _ h1)

/-- `do { return 1; } while (x);` and `for (;; x = 1) return 1;` -/
def deadDo : Stmts := seqS [.doWhile (.block (seqS [.ret (some (kE 1 10))])) (vE 0)]
def deadFor : Stmts := seqS [.for_ none none 12 (some (setE 0 (kE 1 11))) (.ret (some (kE 1 10)))]

def deadDoPS : PS := (lowerFn deadDo).get (by decide +kernel)
def deadForPS : PS := (lowerFn deadFor).get (by decide +kernel)

/-- **C103**.  The condition on `do` and `for` is needed: for these two functions, which C accepts and which return 1, the construction
of SSA form follows a null pointer. -/
theorem C103_dead_loops :
    (deadDo.Ok calcHome ∧ returned 9 deadDo (start fun _ => 1) = some 1 ∧
      ∃ P, lowerFn deadDo = some P ∧ ∀ f : SsaBuild.Fn, f.Holds P → ∀ n, SsaBuild.ssaBuild f n = none) ∧
    (deadFor.Ok calcHome ∧ returned 9 deadFor (start fun _ => 1) = some 1 ∧
      ∃ P, lowerFn deadFor = some P ∧ ∀ f : SsaBuild.Fn, f.Holds P → ∀ n, SsaBuild.ssaBuild f n = none) := by
  have okd : deadDo.Ok calcHome := by
    simp [deadDo, seqS, Stmts.Ok, Stmt.Ok, Expr.Plain, Expr.Good, CStmt.Simple, CStmt.simple, Exprs.Good, Expr.noSe,
      Exprs.noSe, vE, kE, constIns]
  have okf : deadFor.Ok calcHome := by
    simp [deadFor, seqS, Stmts.Ok, Stmt.Ok, Expr.Plain, Expr.Good, CStmt.Simple, CStmt.simple, Exprs.Good, Expr.noSe,
      Exprs.noSe, setE, kE, constIns, moveIns, calcHome, Expr.straight, Exprs.straight, optCode, Expr.code, Exprs.code, Expr.res]
  have hd : lowerFn deadDo = some deadDoPS := (Option.some_get _).symm
  have hf : lowerFn deadFor = some deadForPS := (Option.some_get _).symm
  have go : ∀ {P : PS} {f : SsaBuild.Fn}, f.Holds P → ∀ a, f.g.succs a = Graph.succs ⟨P.block, 0, 1⟩ a := by
    intro P f h a
    unfold Graph.succs
    rw [h.block]
  refine ⟨⟨okd, by decide +kernel, _, hd, fun f h n => ?_⟩, ⟨okf, by decide +kernel, _, hf, fun f h n => ?_⟩⟩
  · have hs := (C103_graph_partial okd hd h.block).2.1
    refine C103_unreachable_predecessor hs (b := 1) (q := 4) ?_ ((hs 4 1).1 ?_) ?_ n
    · rw [h.entry]
      refine Cfg.Reach.trans (b := 2) (Cfg.Reach.one ?_) (Cfg.Reach.one ?_) <;> (rw [go h]; decide +kernel)
    · rw [go h]; decide +kernel
    · rw [h.entry]
      intro hr
      have : 4 ∈ [0, 2, 1] := reach_within (by decide) (fun x hx y hy => by
        rw [go h] at hy
        revert y
        revert x
        decide +kernel) hr
      revert this
      decide
  · have hs := (C103_graph_partial okf hf h.block).2.1
    refine C103_unreachable_predecessor hs (b := 3) (q := 5) ?_ ((hs 5 3).1 ?_) ?_ n
    · rw [h.entry]
      refine Cfg.Reach.trans (b := 2) (Cfg.Reach.one ?_) (Cfg.Reach.one ?_) <;> (rw [go h]; decide +kernel)
    · rw [go h]; decide +kernel
    · rw [h.entry]
      intro hr
      have : 5 ∈ [0, 2, 3, 6, 4, 1] := reach_within (by decide) (fun x hx y hy => by
        rw [go h] at hy
        revert y
        revert x
        decide +kernel) hr
      revert this
      decide

end Shecc.Props
