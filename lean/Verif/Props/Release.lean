import Verif.Lemmas.Release

/-!
# C105: what the compiler allocates is released exactly once
-/

namespace Shecc.Props
open Shecc.Release

def raws (l : List Nat) : Cells := l.map fun p => (p, Obj.raw)

/-- Everything that lives on the heap, in the order in which `global_release` frees it, then what it does not free. -/
def liveCells (G : Ptrs) (bl : List Nat) (e b : Nat) (ch : Shecc.CInt → List Nd) (ia ba : List AB) (sz cap el : Nat)
    (leaked : List Nat) : Cells :=
  blockCells bl e ++ (raws [G.macros] ++ (mapCells G.funcs b ch ++ (raws [G.types, G.gir, G.pir] ++
    (arenaCells G.insns ia ++ (arenaCells G.bbs ba ++ (raws [G.flat, G.lut] ++ (sourceCells G.source sz cap el ++
      (raws [G.aliases, G.consts, G.code, G.data, G.header, G.symtab, G.strtab, G.sect] ++ raws leaked))))))))

/-- State after `n` steps; `e`: the unset field `next` of the last scope. -/
structure RInv (w : World) (n e : Nat) (bl : List Nat) (b : Nat) (ch : Shecc.CInt → List Nd) (ia ba : List AB) (sz cap el : Nat) : Prop where
  rep : Rep w.s.h (liveCells w.G bl e b ch ia ba sz cap el w.leaked)
  head : w.G.head = bl.headD 0
  tail : w.G.tail = bl.getLastD 0
  ia0 : ia ≠ []
  ba0 : ba ≠ []
  blN : bl.length ≤ n
  chN : ∀ i, (ch i).length ≤ n
  iaN : ia.length ≤ n
  baN : ba.length ≤ n

theorem pull (A X B : Cells) : List.Perm (A ++ (X ++ B)) (X ++ (A ++ B)) := by
  rw [← List.append_assoc, ← List.append_assoc]
  exact List.perm_append_comm.append_right _

theorem malloc_snoc {E : Env} (ok : E.Ok) {s : St} {L : Cells} (r : Rep s.h L) (o : Obj) :
    ∃ p s', malloc E o s = (p, s') ∧ Rep s'.h (L ++ [(p, o)]) := by
  obtain ⟨p, s', e, _, r'⟩ := malloc_rep ok r o
  exact ⟨p, s', e, r'.perm (List.perm_append_comm (l₁ := [(p, o)]))⟩

/-- what a command does to the table of functions -/
def FnStep (E : Env) (h : Heap) (c : Cmd) (ch ch' : Shecc.CInt → List Nd) : Prop := match c with
  | .func name => (Globals.hashmap_get E.sx (abs ch) name ≠ 0 ∧ ch' = ch) ∨
      (Globals.hashmap_get E.sx (abs ch) name = 0 ∧ ∃ p, p ≠ 0 ∧ h p = none ∧ abs ch' = Globals.hashmap_put E.sx (abs ch) name p)
  | _ => ch' = ch

theorem release_init {E : Env} (ok : E.Ok) {fuel : Nat} (hf : 0 < fuel) :
    ∃ G s b ch ia ba sz cap el, init E fuel = some (G, s) ∧ RInv ⟨G, s, []⟩ 1 0 [] b ch ia ba sz cap el ∧
      ∃ h, FnStep E h (.func []) (fun _ => []) ch := by
  have r0 : Rep (fun _ => none) [] := ⟨List.nodup_nil, (fun _ h => by cases h), fun p o => ⟨(fun h => by cases h), (fun h => by cases h)⟩⟩
  obtain ⟨macros, s1, e1, r1⟩ := malloc_snoc ok (s := ⟨fun _ => none, 0⟩) r0 .raw
  obtain ⟨funcs, b, s2, e2, r2⟩ := mapCreate_rep ok r1
  obtain ⟨types, s3, e3, r3⟩ := malloc_snoc ok r2 .raw
  obtain ⟨gir, s4, e4, r4⟩ := malloc_snoc ok r3 .raw
  obtain ⟨pir, s5, e5, r5⟩ := malloc_snoc ok r4 .raw
  obtain ⟨insns, x, s6, e6, r6⟩ := arenaInit_rep ok Globals.DEFAULT_ARENA_SIZE r5
  obtain ⟨bbs, y, s7, e7, r7⟩ := arenaInit_rep ok Globals.DEFAULT_ARENA_SIZE r6
  obtain ⟨flat, s8, e8, r8⟩ := malloc_snoc ok r7 .raw
  obtain ⟨lut, s9, e9, r9⟩ := malloc_snoc ok r8 .raw
  obtain ⟨source, el, s10, e10, r10⟩ := sourceCreate_rep ok 524288 r9
  obtain ⟨aliases, s11, e11, r11⟩ := malloc_snoc ok r10 .raw
  obtain ⟨consts, s12, e12, r12⟩ := malloc_snoc ok r11 .raw
  obtain ⟨code, s13, e13, r13⟩ := malloc_snoc ok r12 .raw
  obtain ⟨data, s14, e14, r14⟩ := malloc_snoc ok r13 .raw
  obtain ⟨header, s15, e15, r15⟩ := malloc_snoc ok r14 .raw
  obtain ⟨symtab, s16, e16, r16⟩ := malloc_snoc ok r15 .raw
  obtain ⟨strtab, s17, e17, r17⟩ := malloc_snoc ok r16 .raw
  obtain ⟨sect, s18, e18, r18⟩ := malloc_snoc ok r17 .raw
  obtain ⟨G, hG⟩ : ∃ G : Ptrs, G = { macros := macros, funcs := funcs, types := types, gir := gir, pir := pir, insns := insns, bbs := bbs, flat := flat, lut := lut, source := source, aliases := aliases, consts := consts, code := code, data := data, header := header, symtab := symtab, strtab := strtab, sect := sect } := ⟨_, rfl⟩
  have r19 : Rep s18.h (liveCells G [] 0 b (fun _ => []) [x] [y] 0 524288 el []) := by
    have := r18
    simp only [List.append_assoc, List.nil_append, List.cons_append] at this
    rw [hG]
    simp only [liveCells, raws, blockCells, List.map_cons, List.map_nil, List.nil_append, List.append_assoc, List.cons_append, List.append_nil]
    exact this
  have r20 := r19.perm (pull (blockCells [] 0 ++ raws [G.macros]) (mapCells G.funcs b fun _ => []) _)
  obtain ⟨ch, s19, e19, r21, hl, hs⟩ := addFunc_rep ok (fuel := fuel) [] r20 (fun i => by simpa using hf)
  refine ⟨G, s19, b, ch, [x], [y], 0, 524288, el, ?_, ⟨?_, ?_, ?_, by simp, by simp, by simp, fun i => hl i, by simp, by simp⟩, _, hs⟩
  · unfold init
    simp only [e1, e2, e3, e4, e5, e6, e7, e8, e9, e10, e11, e12, e13, e14, e15, e16, e17, e18]
    rw [← hG, e19]
    rfl
  · exact r21.perm (pull (blockCells [] 0 ++ raws [G.macros]) _ _).symm
  · rw [hG]; rfl
  · rw [hG]; rfl

theorem step_exec {E : Env} (ok : E.Ok) {w : World} {n e fuel : Nat} {bl : List Nat} {b : Nat} {ch : Shecc.CInt → List Nd} {ia ba : List AB}
    {sz cap el : Nat} (i : RInv w n e bl b ch ia ba sz cap el) (hf : n < fuel) (c : Cmd) :
    ∃ w' e' bl' ch' ia' ba' sz' cap' el', exec E fuel w c = some w' ∧ RInv w' (n + 1) e' bl' b ch' ia' ba' sz' cap' el' ∧
      (e' = e ∨ e' = E.junk w.s.time) ∧
      w'.leaked.length = w.leaked.length + (match c with | .leak => 1 | _ => 0) ∧ FnStep E w.s.h c ch ch' := by
  obtain ⟨rep, head, tail, ia0, ba0, blN, chN, iaN, baN⟩ := i
  have chN' : ∀ i, (ch i).length ≤ n + 1 := fun i => Nat.le_succ_of_le (chN i)
  cases c with
  | block =>
    obtain ⟨p, s', e1, r1⟩ := addBlock_rep ok (G := w.G) rep head tail
    refine ⟨{ w with G := { w.G with head := (bl ++ [p]).headD 0, tail := p }, s := s' }, E.junk w.s.time, bl ++ [p], ch, ia, ba, sz, cap, el,
      by simp only [exec, e1, Option.map_some], ⟨r1, rfl, by simp, ia0, ba0, by simp; omega, chN', by omega, by omega⟩, Or.inr rfl, rfl, rfl⟩
  | func name =>
    have r1 : Rep w.s.h ((blockCells bl e ++ raws [w.G.macros]) ++ (mapCells w.G.funcs b ch ++ (raws [w.G.types, w.G.gir, w.G.pir] ++
        (arenaCells w.G.insns ia ++ (arenaCells w.G.bbs ba ++ (raws [w.G.flat, w.G.lut] ++ (sourceCells w.G.source sz cap el ++
        (raws [w.G.aliases, w.G.consts, w.G.code, w.G.data, w.G.header, w.G.symtab, w.G.strtab, w.G.sect] ++ raws w.leaked)))))))) := by
      have := rep
      simp only [liveCells, List.append_assoc] at this ⊢
      exact this
    obtain ⟨ch', s', e1, r2, hl, hs⟩ := addFunc_rep ok (fuel := fuel) name (r1.perm (pull _ _ _)) (fun i => Nat.lt_of_le_of_lt (chN i) hf)
    refine ⟨{ w with s := s' }, e, bl, ch', ia, ba, sz, cap, el, by simp only [exec, e1, Option.map_some],
      ⟨?_, head, tail, ia0, ba0, by omega, fun i => Nat.le_trans (hl i) (Nat.succ_le_succ (chN i)), by omega, by omega⟩, Or.inl rfl,rfl, hs⟩
    have r3 := r2.perm (pull _ _ _).symm
    rw [List.append_assoc] at r3
    exact r3
  | insn size =>
    have r1 : Rep w.s.h ((blockCells bl e ++ (raws [w.G.macros] ++ (mapCells w.G.funcs b ch ++ raws [w.G.types, w.G.gir, w.G.pir]))) ++
        (arenaCells w.G.insns ia ++ (arenaCells w.G.bbs ba ++ (raws [w.G.flat, w.G.lut] ++ (sourceCells w.G.source sz cap el ++
        (raws [w.G.aliases, w.G.consts, w.G.code, w.G.data, w.G.header, w.G.symtab, w.G.strtab, w.G.sect] ++ raws w.leaked)))))) := by
      have := rep
      simp only [liveCells, List.append_assoc] at this ⊢
      exact this
    obtain ⟨l', s', e1, ne, hl, r2⟩ := arenaAlloc_rep ok size (fuel := fuel) (r1.perm (pull _ _ _)) ia0 (by omega)
    refine ⟨{ w with s := s' }, e, bl, ch, l', ba, sz, cap, el, by simp only [exec, e1, Option.map_some],
      ⟨?_, head, tail, ne, ba0, by omega, chN', by omega, by omega⟩, Or.inl rfl, rfl, rfl⟩
    have r3 := r2.perm (pull _ _ _).symm
    simp only [liveCells, List.append_assoc] at r3 ⊢
    exact r3
  | bb size =>
    have r1 : Rep w.s.h ((blockCells bl e ++ (raws [w.G.macros] ++ (mapCells w.G.funcs b ch ++ (raws [w.G.types, w.G.gir, w.G.pir] ++
        arenaCells w.G.insns ia)))) ++ (arenaCells w.G.bbs ba ++ (raws [w.G.flat, w.G.lut] ++ (sourceCells w.G.source sz cap el ++
        (raws [w.G.aliases, w.G.consts, w.G.code, w.G.data, w.G.header, w.G.symtab, w.G.strtab, w.G.sect] ++ raws w.leaked))))) := by
      have := rep
      simp only [liveCells, List.append_assoc] at this ⊢
      exact this
    obtain ⟨l', s', e1, ne, hl, r2⟩ := arenaAlloc_rep ok size (fuel := fuel) (r1.perm (pull _ _ _)) ba0 (by omega)
    refine ⟨{ w with s := s' }, e, bl, ch, ia, l', sz, cap, el, by simp only [exec, e1, Option.map_some],
      ⟨?_, head, tail, ia0, ne, by omega, chN', by omega, by omega⟩, Or.inl rfl, rfl, rfl⟩
    have r3 := r2.perm (pull _ _ _).symm
    simp only [liveCells, List.append_assoc] at r3 ⊢
    exact r3
  | push =>
    have r1 : Rep w.s.h ((blockCells bl e ++ (raws [w.G.macros] ++ (mapCells w.G.funcs b ch ++ (raws [w.G.types, w.G.gir, w.G.pir] ++
        (arenaCells w.G.insns ia ++ (arenaCells w.G.bbs ba ++ raws [w.G.flat, w.G.lut])))))) ++ (sourceCells w.G.source sz cap el ++
        (raws [w.G.aliases, w.G.consts, w.G.code, w.G.data, w.G.header, w.G.symtab, w.G.strtab, w.G.sect] ++ raws w.leaked))) := by
      have := rep
      simp only [liveCells, List.append_assoc] at this ⊢
      exact this
    obtain ⟨sz', cap', el', s', e1, r2⟩ := sourcePush_rep ok (r1.perm (pull _ _ _))
    refine ⟨{ w with s := s' }, e, bl, ch, ia, ba, sz', cap', el', by simp only [exec, e1, Option.map_some],
      ⟨?_, head, tail, ia0, ba0, by omega, chN', by omega, by omega⟩, Or.inl rfl, rfl, rfl⟩
    have r3 := r2.perm (pull _ _ _).symm
    simp only [liveCells, List.append_assoc] at r3 ⊢
    exact r3
  | leak =>
    obtain ⟨p, s', e1, _, r1⟩ := malloc_rep ok rep .raw
    refine ⟨{ w with s := s', leaked := p :: w.leaked }, e, bl, ch, ia, ba, sz, cap, el, by simp only [exec, e1],
      ⟨?_, head, tail, ia0, ba0, by omega, chN', by omega, by omega⟩, Or.inl rfl, rfl, rfl⟩
    obtain ⟨A, hA⟩ : ∃ A, A = blockCells bl e ++ (raws [w.G.macros] ++ (mapCells w.G.funcs b ch ++ (raws [w.G.types, w.G.gir, w.G.pir] ++
        (arenaCells w.G.insns ia ++ (arenaCells w.G.bbs ba ++ (raws [w.G.flat, w.G.lut] ++ (sourceCells w.G.source sz cap el ++
        raws [w.G.aliases, w.G.consts, w.G.code, w.G.data, w.G.header, w.G.symtab, w.G.strtab, w.G.sect]))))))) := ⟨_, rfl⟩
    have h1 : ∀ lk, liveCells w.G bl e b ch ia ba sz cap el lk = A ++ raws lk := by
      intro lk
      rw [hA]
      simp only [liveCells, List.append_assoc]
    rw [h1] at r1
    show Rep s'.h (liveCells w.G bl e b ch ia ba sz cap el (p :: w.leaked))
    rw [h1]
    exact r1.perm (pull A [(p, .raw)] (raws w.leaked)).symm

/-- how many objects a history allocates that nothing releases -/
def leaks (cs : List Cmd) : Nat := (cs.map fun c => match c with | .leak => 1 | _ => 0).sum

theorem step_execs {E : Env} (ok : E.Ok) {fuel : Nat} : ∀ (cs : List Cmd) {w : World} {n e : Nat} {bl : List Nat} {b : Nat}
    {ch : Shecc.CInt → List Nd} {ia ba : List AB} {sz cap el : Nat}, RInv w n e bl b ch ia ba sz cap el → n + cs.length ≤ fuel →
    ∃ w' e' bl' ch' ia' ba' sz' cap' el', execs E fuel cs w = some w' ∧ RInv w' (n + cs.length) e' bl' b ch' ia' ba' sz' cap' el' ∧
      (e' = e ∨ ∃ t, e' = E.junk t) ∧ w'.leaked.length = w.leaked.length + leaks cs
  | [], w, n, e, bl, b, ch, ia, ba, sz, cap, el, i, _ => ⟨w, e, bl, ch, ia, ba, sz, cap, el, rfl, i, Or.inl rfl, rfl⟩
  | c :: cs, w, n, e, bl, b, ch, ia, ba, sz, cap, el, i, hf => by
    simp only [List.length_cons] at hf
    obtain ⟨w1, e1, bl1, ch1, ia1, ba1, sz1, cap1, el1, h1, i1, he1, hl1, _⟩ := step_exec ok i (fuel := fuel) (by omega) c
    obtain ⟨w2, e2, bl2, ch2, ia2, ba2, sz2, cap2, el2, h2, i2, he2, hl2⟩ := step_execs ok (fuel := fuel) cs i1 (by omega)
    have hlen : n + 1 + cs.length = n + (c :: cs).length := by simp only [List.length_cons]; omega
    rw [hlen] at i2
    refine ⟨w2, e2, bl2, ch2, ia2, ba2, sz2, cap2, el2, by simp only [execs, h1, Option.bind_some, h2], i2, ?_, ?_⟩
    · rcases he2 with h | h
      · rcases he1 with h' | h'
        · exact Or.inl (h.trans h')
        · exact Or.inr ⟨_, h.trans h'⟩
      · exact Or.inr h
    · rw [hl2, hl1]
      simp only [leaks, List.map_cons, List.sum_cons]
      omega

theorem release_rep {w : World} {n : Nat} {bl : List Nat} {b : Nat} {ch : Shecc.CInt → List Nd} {ia ba : List AB} {sz cap el fuel : Nat}
    (i : RInv w n 0 bl b ch ia ba sz cap el) (hf : n < fuel) :
    ∃ h', release fuel w.G w.s.h = some h' ∧ Rep h' (raws w.leaked) := by
  obtain ⟨rep, head, tail, ia0, ba0, blN, chN, iaN, baN⟩ := i
  obtain ⟨h1, e1, r1⟩ := freeBlocks_rep (fuel := fuel) rep (by omega)
  obtain ⟨h2, e2, r2⟩ := frees_rep r1
  obtain ⟨h3, e3, r3⟩ := mapFree_rep (fuel := fuel) r2 (fun i => Nat.lt_of_le_of_lt (chN i) hf)
  obtain ⟨h4, e4, r4⟩ := frees_rep r3
  obtain ⟨h5, e5, r5⟩ := arenaFree_rep (fuel := fuel) r4 (by omega)
  obtain ⟨h6, e6, r6⟩ := arenaFree_rep (fuel := fuel) r5 (by omega)
  obtain ⟨h7, e7, r7⟩ := frees_rep r6
  obtain ⟨h8, e8, r8⟩ := sourceRelease_rep r7
  obtain ⟨h9, e9, r9⟩ := frees_rep r8
  refine ⟨h9, ?_, r9⟩
  unfold release
  rw [head]
  simp only [e1, e2, e3, e4, e5, e6, e7, e8, e9, Option.bind_some]

/-- **C105.** Whatever the compiler allocates between start and end - scopes, functions (again or new), instructions, basic
blocks, bytes of code - and wherever the allocator puts it, no read, write or `free` on the way touches memory at which
nothing lives. -/
theorem C105_allocate {E : Env} (ok : E.Ok) (cs : List Cmd) {fuel : Nat} (hf : cs.length < fuel) :
    ∃ w, run E fuel cs = some w ∧ w.leaked.length = leaks cs := by
  obtain ⟨G, s, b, ch, ia, ba, sz, cap, el, e1, i, _⟩ := release_init ok (fuel := fuel) (by omega)
  obtain ⟨w, _, _, _, _, _, _, _, _, e2, _, _, hl⟩ := step_execs ok (fuel := fuel) cs i (by omega)
  exact ⟨w, by simp only [run, e1, Option.bind_some, e2], by rw [hl]; simp⟩

/-- **C105.** If memory from `malloc` reads as zero, `global_release` then frees every object once: no `free` or read
touches memory at which nothing lives, and afterwards exactly those objects live that no function of the compiler
releases. -/
theorem C105_release_partial {E : Env} (ok : E.Ok) (hz : ∀ t, E.junk t = 0) (cs : List Cmd) {fuel : Nat} (hf : cs.length + 1 < fuel) :
    ∃ w h', run E fuel cs = some w ∧ release fuel w.G w.s.h = some h' ∧ (∀ p, h' p ≠ none ↔ p ∈ w.leaked) ∧
      w.leaked.Nodup ∧ w.leaked.length = leaks cs := by
  obtain ⟨G, s, b, ch, ia, ba, sz, cap, el, e1, i, _⟩ := release_init ok (fuel := fuel) (by omega)
  obtain ⟨w, e', bl', ch', ia', ba', sz', cap', el', e2, i', he, hl⟩ := step_execs ok (fuel := fuel) cs i (by omega)
  have : e' = 0 := he.elim id fun ⟨t, h⟩ => h.trans (hz t)
  subst this
  obtain ⟨h', e3, r⟩ := release_rep i' (fuel := fuel) (by omega)
  refine ⟨w, h', by simp only [run, e1, Option.bind_some, e2], e3, ?_, ?_, by rw [hl]; simp⟩
  · intro p
    constructor
    · intro hp
      obtain ⟨o, ho⟩ := Option.ne_none_iff_exists'.mp hp
      obtain ⟨q, hq, e⟩ := List.mem_map.mp ((r.get p o).mp ho)
      cases e
      exact hq
    · intro hp
      rw [r.read (p := p) (o := .raw) (List.mem_map.mpr ⟨p, hp, rfl⟩)]
      exact Option.some_ne_none _
  · have := r.nodup
    simpa only [raws, List.map_map, Function.comp_def, List.map_id'] using this

theorem freeBlocks_lost {e : Nat} (h0 : e ≠ 0) : ∀ {l : List Nat} {fuel : Nat} {h : Heap} {R : Cells}, Rep h (blockCells l e ++ R) →
    h e = none → freeBlocks fuel (l.headD e) h = none
  | _, 0, _, _, _, _ => rfl
  | [], n + 1, h, R, _, hn => by
    show freeBlocks (n + 1) e h = none
    simp only [freeBlocks, if_neg h0, hn]
  | p :: l, n + 1, h, R, r, hn => by
    have hp : h p = some (.block (l.headD e)) := r.read (List.mem_cons_self)
    have hp0 : p ≠ 0 := r.nonzero (o := .block (l.headD e)) (List.mem_cons_self)
    obtain ⟨h1, e1, r1⟩ := r.free
    have hn1 : h1 e = none := by
      have := e1
      simp only [free, if_neg hp0, hp, Option.some.injEq] at this
      rw [← this]
      dsimp only
      split
      · rfl
      · exact hn
    show freeBlocks (n + 1) p h = _
    simp only [freeBlocks, if_neg hp0, hp, e1, Option.bind_some]
    exact freeBlocks_lost h0 r1 hn1

theorem execs_append (E : Env) (fuel : Nat) : ∀ (cs ds : List Cmd) (w : World),
    execs E fuel (cs ++ ds) w = (execs E fuel cs w).bind (execs E fuel ds)
  | [], ds, w => rfl
  | c :: cs, ds, w => by
    simp only [List.cons_append, execs]
    cases exec E fuel w c with
    | none => rfl
    | some w1 => simp only [Option.bind_some, execs_append E fuel cs ds w1]

/-- **C105 fails in general.** `add_block` leaves the field `next` of the new scope as `malloc` found it, and
`global_release` follows it: if what is there is neither zero nor the address of a live object, the release of every
program touches memory at which nothing lives. -/
theorem C105_unset_next {E : Env} (ok : E.Ok) (cs : List Cmd) {fuel : Nat} (hf : cs.length + 1 < fuel) :
    ∃ w w', run E fuel cs = some w ∧ run E fuel (cs ++ [.block]) = some w' ∧
      (E.junk w.s.time ≠ 0 → w'.s.h (E.junk w.s.time) = none → ∀ f, release f w'.G w'.s.h = none) := by
  obtain ⟨G, s, b, ch, ia, ba, sz, cap, el, e1, i, _⟩ := release_init ok (fuel := fuel) (by omega)
  obtain ⟨w, e', bl', ch', ia', ba', sz', cap', el', e2, i', he, hl⟩ := step_execs ok (fuel := fuel) cs i (by omega)
  obtain ⟨p, s', e3, r1⟩ := addBlock_rep ok (G := w.G) i'.rep i'.head i'.tail
  refine ⟨w, { w with G := { w.G with head := (bl' ++ [p]).headD 0, tail := p }, s := s' },
    by simp only [run, e1, Option.bind_some, e2], ?_, ?_⟩
  · have h1 := execs_append E fuel cs [.block] ⟨G, s, []⟩
    simp only [run, e1, Option.bind_some, h1, e2, execs, exec, e3, Option.map_some]
  · intro h0 hn f
    have h2 : (bl' ++ [p]).headD 0 = (bl' ++ [p]).headD (E.junk w.s.time) := by cases bl' <;> rfl
    unfold release
    dsimp only
    rw [h2, freeBlocks_lost h0 r1 hn]
    rfl

/-! ## Examples -/

/-- An allocator that takes the addresses 10, 11, 12, ... as long as they are free; `j` is found in what it returns. -/
noncomputable def counting (j : Nat) : Env where
  alloc t h := match h (t + 10) with
    | none => t + 10
    | some _ => open Classical in if e : ∃ p, p ≠ 0 ∧ h p = none then e.choose else 0
  junk _ := j
  sx c := c.signExtend 32

/-! ## The table of functions -/

/-- the address the table gives for a name -/
def tableGet (E : Env) (ch : Shecc.CInt → List Nd) (k : Globals.CStr) : Nat := Globals.hashmap_get E.sx (abs ch) k

theorem chainGet_snoc (k k' : Globals.CStr) (v : Nat) : ∀ l : List (Globals.CStr × Nat), (∀ x ∈ l, x.2 ≠ 0) →
    Globals.chainGet k' (l ++ [(k, v)]) = if Globals.chainGet k' l ≠ 0 then Globals.chainGet k' l else if k = k' then v else 0
  | [], _ => by simp [Globals.chainGet]
  | (a, b) :: l, h => by
    have hb : b ≠ 0 := h (a, b) List.mem_cons_self
    have := chainGet_snoc k k' v l fun x hx => h x (List.mem_cons_of_mem _ hx)
    have e1 : Globals.chainGet k' ((a, b) :: l) = if a = k' then b else Globals.chainGet k' l := rfl
    have e2 : Globals.chainGet k' ((a, b) :: l ++ [(k, v)]) = if a = k' then b else Globals.chainGet k' (l ++ [(k, v)]) := rfl
    rw [e2]
    by_cases e : a = k'
    · rw [if_pos e] at e1 ⊢
      rw [if_pos (by rw [e1]; exact hb), e1]
    · rw [if_neg e] at e1 ⊢
      simp only [e1]
      exact this

/-- `N`: the names registered so far. -/
structure TableKnown (E : Env) (N : Globals.CStr → Prop) (ch : Shecc.CInt → List Nd) : Prop where
  nz : ∀ i, ∀ x ∈ (abs ch).buckets i, x.2 ≠ 0
  mem : ∀ k, tableGet E ch k ≠ 0 ↔ N k
  inj : ∀ k k', tableGet E ch k ≠ 0 → tableGet E ch k = tableGet E ch k' → k = k'

theorem table_step {E : Env} {N : Globals.CStr → Prop} {ch ch' : Shecc.CInt → List Nd} {h : Heap} {c : Cmd} (kn : TableKnown E N ch)
    (live : ∀ k, tableGet E ch k ≠ 0 → h (tableGet E ch k) ≠ none) (st : FnStep E h c ch ch') :
    TableKnown E (fun k => N k ∨ c = .func k) ch' ∧ ∀ k, tableGet E ch k ≠ 0 → tableGet E ch' k = tableGet E ch k := by
  have same : ch' = ch → (∀ k, c = .func k → N k) →
      TableKnown E (fun k => N k ∨ c = .func k) ch' ∧ ∀ k, tableGet E ch k ≠ 0 → tableGet E ch' k = tableGet E ch k := by
    rintro rfl hc
    exact ⟨⟨kn.nz, fun k => (kn.mem k).trans ⟨Or.inl, fun h => h.elim id (hc k)⟩, kn.inj⟩, fun _ _ => rfl⟩
  cases c with
  | func name =>
    rcases st with ⟨h0, rfl⟩ | ⟨h0, p, p0, hp, ha⟩
    · exact same rfl fun k hk => by
        injection hk with hk
        subst hk
        exact (kn.mem _).mp h0
    · have get : ∀ k, tableGet E ch' k = if tableGet E ch k ≠ 0 then tableGet E ch k else if name = k then p else 0 := by
        intro k
        unfold tableGet
        rw [ha]
        unfold Globals.hashmap_get Globals.hashmap_put
        dsimp only
        by_cases hi : Globals.hashmap_hash_index E.sx (abs ch).size k = Globals.hashmap_hash_index E.sx (abs ch).size name
        · rw [if_pos hi, ← hi]
          exact chainGet_snoc name k p _ (kn.nz _)
        · rw [if_neg hi]
          have : name ≠ k := fun e => hi (by rw [e])
          rw [if_neg this]
          split
          · rfl
          · next h => exact Classical.not_not.mp h
      have fresh : ∀ k, tableGet E ch k ≠ p := fun k e => by
        have := live k (by rw [e]; exact p0)
        rw [e] at this
        exact this hp
      have h0' : tableGet E ch name = 0 := h0
      refine ⟨⟨?_, ?_, ?_⟩, fun k hk => by rw [get, if_pos hk]⟩
      · rw [ha]
        intro i x hx
        unfold Globals.hashmap_put at hx
        dsimp only at hx
        split at hx
        · rcases List.mem_append.mp hx with hx | hx
          · exact kn.nz _ x hx
          · rw [List.mem_singleton.mp hx]
            exact p0
        · exact kn.nz _ x hx
      · intro k
        rw [get]
        by_cases hk : tableGet E ch k = 0
        · rw [if_neg (fun h => h hk)]
          constructor
          · intro h
            by_cases e : name = k
            · exact Or.inr (by rw [e])
            · rw [if_neg e] at h
              exact absurd rfl h
          · rintro (h | h)
            · exact absurd hk ((kn.mem k).mpr h)
            · injection h with h
              rw [if_pos h]
              exact p0
        · rw [if_pos hk]
          exact ⟨fun _ => Or.inl ((kn.mem k).mp hk), fun _ => hk⟩
      · intro k k'
        rw [get, get]
        by_cases hk : tableGet E ch k = 0
        · rw [if_neg (fun h => h hk)]
          by_cases e : name = k
          · rw [if_pos e]
            intro _
            by_cases hk' : tableGet E ch k' = 0
            · rw [if_neg (fun h => h hk')]
              by_cases e' : name = k'
              · intro _
                rw [← e, e']
              · rw [if_neg e']
                exact fun h => absurd h p0
            · rw [if_pos hk']
              exact fun h => absurd h.symm (fresh k')
          · rw [if_neg e]
            exact fun h => absurd rfl h
        · rw [if_pos hk]
          intro _
          by_cases hk' : tableGet E ch k' = 0
          · rw [if_neg (fun h => h hk')]
            by_cases e' : name = k'
            · rw [if_pos e']
              exact fun h => absurd h (fresh k)
            · rw [if_neg e']
              exact fun h => absurd h hk
          · rw [if_pos hk']
            exact fun h => kn.inj k k' hk h
  | block => exact same st fun k h => by cases h
  | insn _ => exact same st fun k h => by cases h
  | bb _ => exact same st fun k h => by cases h
  | push => exact same st fun k h => by cases h
  | leak => exact same st fun k h => by cases h

/-- What `hashmap_get` reads is what the table says, and it lives. -/
theorem rinv_get {E : Env} {w : World} {n e fuel : Nat} {bl : List Nat} {b : Nat} {ch : Shecc.CInt → List Nd} {ia ba : List AB}
    {sz cap el : Nat} (i : RInv w n e bl b ch ia ba sz cap el) (hf : n < fuel) (k : Globals.CStr) :
    mapGet E fuel w.G.funcs k w.s.h = some (tableGet E ch k) ∧ (tableGet E ch k ≠ 0 → w.s.h (tableGet E ch k) = some .raw) := by
  have r1 : Rep w.s.h ((blockCells bl e ++ raws [w.G.macros]) ++ (mapCells w.G.funcs b ch ++ (raws [w.G.types, w.G.gir, w.G.pir] ++
      (arenaCells w.G.insns ia ++ (arenaCells w.G.bbs ba ++ (raws [w.G.flat, w.G.lut] ++ (sourceCells w.G.source sz cap el ++
      (raws [w.G.aliases, w.G.consts, w.G.code, w.G.data, w.G.header, w.G.symtab, w.G.strtab, w.G.sect] ++ raws w.leaked)))))))) := by
    have := i.rep
    simp only [liveCells, List.append_assoc] at this ⊢
    exact this
  have r2 := r1.perm (pull _ _ _)
  obtain ⟨v, e1, hv, hg⟩ := mapGet_rep (E := E) k r2 (fun j => Nat.lt_of_le_of_lt (i.chN j) hf)
  subst hg
  exact ⟨e1, fun h => r2.read (hv h)⟩

theorem table_execs {E : Env} (ok : E.Ok) {fuel : Nat} : ∀ (cs : List Cmd) {w : World} {n e : Nat} {bl : List Nat} {b : Nat}
    {ch : Shecc.CInt → List Nd} {ia ba : List AB} {sz cap el : Nat} {N : Globals.CStr → Prop}, RInv w n e bl b ch ia ba sz cap el →
    TableKnown E N ch → n + cs.length ≤ fuel →
    ∃ w' e' bl' ch' ia' ba' sz' cap' el', execs E fuel cs w = some w' ∧ RInv w' (n + cs.length) e' bl' b ch' ia' ba' sz' cap' el' ∧
      TableKnown E (fun k => N k ∨ .func k ∈ cs) ch' ∧ ∀ k, tableGet E ch k ≠ 0 → tableGet E ch' k = tableGet E ch k
  | [], w, n, e, bl, b, ch, ia, ba, sz, cap, el, N, i, kn, _ =>
    ⟨w, e, bl, ch, ia, ba, sz, cap, el, rfl, i, ⟨kn.nz, fun k => (kn.mem k).trans ⟨Or.inl, fun h => h.elim id fun h => by cases h⟩, kn.inj⟩,
      fun _ _ => rfl⟩
  | c :: cs, w, n, e, bl, b, ch, ia, ba, sz, cap, el, N, i, kn, hf => by
    simp only [List.length_cons] at hf
    obtain ⟨w1, e1, bl1, ch1, ia1, ba1, sz1, cap1, el1, h1, i1, _, _, st⟩ := step_exec ok i (fuel := fuel) (by omega) c
    obtain ⟨kn1, st1⟩ := table_step kn (fun k hk => by rw [(rinv_get (E := E) i (Nat.lt_succ_self n) k).2 hk]; exact Option.some_ne_none _) st
    obtain ⟨w2, e2, bl2, ch2, ia2, ba2, sz2, cap2, el2, h2, i2, kn2, st2⟩ := table_execs ok (fuel := fuel) cs i1 kn1 (by omega)
    have hlen : n + 1 + cs.length = n + (c :: cs).length := by simp only [List.length_cons]; omega
    rw [hlen] at i2
    refine ⟨w2, e2, bl2, ch2, ia2, ba2, sz2, cap2, el2, by simp only [execs, h1, Option.bind_some, h2], i2,
      ⟨kn2.nz, fun k => (kn2.mem k).trans ?_, kn2.inj⟩, fun k hk => ?_⟩
    · rw [List.mem_cons, or_assoc, eq_comm (a := c)]
    · have := st1 k hk
      rw [st2 k (by rw [this]; exact hk), this]

/-- **C105.** The table of functions, at the level of memory: after any history of allocations, `hashmap_get` of a name
gives NULL for exactly those names that were never passed to `add_func` (`global_init` passes the empty one); otherwise
the address of an object that lives; two names never the same; and the address of a name stays what it is, whatever is
allocated afterwards. -/
theorem C105_functions {E : Env} (ok : E.Ok) (cs ds : List Cmd) {fuel : Nat} (hf : cs.length + ds.length + 1 < fuel) :
    ∃ w w', run E fuel cs = some w ∧ run E fuel (cs ++ ds) = some w' ∧ ∃ find : Globals.CStr → Nat,
      (∀ k, mapGet E fuel w.G.funcs k w.s.h = some (find k)) ∧
      (∀ k, find k ≠ 0 ↔ k = [] ∨ .func k ∈ cs) ∧
      (∀ k, find k ≠ 0 → w.s.h (find k) = some .raw ∧ w'.s.h (find k) = some .raw ∧
        mapGet E fuel w'.G.funcs k w'.s.h = some (find k)) ∧
      ∀ k k', find k ≠ 0 → find k = find k' → k = k' := by
  obtain ⟨G, s, b, ch, ia, ba, sz, cap, el, e1, i, h, st⟩ := release_init ok (fuel := fuel) (by omega)
  have kn0 : TableKnown E (fun _ => False) (fun _ => []) := by
    have hz : ∀ k, tableGet E (fun _ => []) k = 0 := fun k => rfl
    exact ⟨(fun i x hx => by cases hx), (fun k => ⟨fun h => h (hz k), False.elim⟩), fun k _ h => absurd (hz k) h⟩
  obtain ⟨kn, _⟩ := table_step kn0 (fun k hk => absurd rfl hk) st
  obtain ⟨w, _, _, ch1, _, _, _, _, _, e2, i1, kn1, _⟩ := table_execs ok (fuel := fuel) cs i kn (by omega)
  obtain ⟨w', _, _, ch2, _, _, _, _, _, e3, i2, kn2, st2⟩ := table_execs ok (fuel := fuel) ds i1 kn1 (by omega)
  refine ⟨w, w', by simp only [run, e1, Option.bind_some, e2], by
    simp only [run, e1, Option.bind_some, execs_append, e2, e3], tableGet E ch1,
    fun k => (rinv_get i1 (by omega) k).1, fun k => (kn1.mem k).trans ?_, fun k hk => ?_, kn1.inj⟩
  · constructor
    · rintro ((h | h) | h)
      · exact h.elim
      · injection h with h
        exact Or.inl h.symm
      · exact Or.inr h
    · rintro (h | h)
      · exact Or.inl (Or.inr (by rw [h]))
      · exact Or.inr h
  · have h2 := st2 k hk
    have h3 := rinv_get (E := E) i2 (fuel := fuel) (by omega) k
    rw [h2] at h3
    exact ⟨(rinv_get (E := E) i1 (Nat.lt_succ_self _) k).2 hk, h3.2 hk, h3.1⟩

theorem counting_ok (j : Nat) : (counting j).Ok := by
  intro t h he
  simp only [counting]
  split
  · next e => exact ⟨by omega, e⟩
  · rw [dif_pos he]
    exact he.choose_spec

/-- two scopes, two functions (one declared twice), a large and a small request, a byte and two objects that leak -/
def releaseHistory : List Cmd :=
  [.block, .func [109#8], .leak, .block, .func [103#8], .insn 300000, .bb 96, .push, .func [109#8], .leak]

example : ∃ w h', run (counting 0) 100 releaseHistory = some w ∧ release 100 w.G w.s.h = some h' ∧
    (∀ p, h' p ≠ none ↔ p ∈ w.leaked) ∧ w.leaked.Nodup ∧ w.leaked.length = 2 :=
  C105_release_partial (counting_ok 0) (fun _ => rfl) releaseHistory (by decide)

/-- With 7 in the memory that `malloc` returns the release of a program with one scope goes wrong. -/
theorem C105_unset_next_witness : ∃ E : Env, E.Ok ∧ ∃ w, run E 100 [.block] = some w ∧ ∀ f, release f w.G w.s.h = none := by
  refine ⟨counting 7, counting_ok 7, ?_⟩
  obtain ⟨w, w', e1, e2, h⟩ := C105_unset_next (counting_ok 7) [] (fuel := 100) (by decide)
  refine ⟨w', e2, h (show 7 ≠ 0 by decide) ?_⟩
  have hk : (run (counting 7) 100 [.block]).map (fun w => (w.s.h 7).isNone) = some true := by
    exact rfl
  have e2' : run (counting 7) 100 [.block] = some w' := e2
  rw [e2', Option.map_some, Option.some.injEq] at hk
  exact Option.isNone_iff_eq_none.mp hk

end Shecc.Props
