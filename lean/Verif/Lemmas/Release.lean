import Verif.Model.Release
import Verif.Props.Tables

/-! # Memory of `src/globals.c`: which objects live on the heap -/

namespace Shecc.Release
open Globals (CStr hashmap_hash_index round_up_pow2 DEFAULT_ARENA_SIZE)

abbrev Cells := List (Nat × Obj)

/-- Exactly the listed objects live on the heap. -/
structure Rep (h : Heap) (L : Cells) : Prop where
  nodup : (L.map Prod.fst).Nodup
  pos : ∀ c ∈ L, c.1 ≠ 0
  get : ∀ p o, h p = some o ↔ (p, o) ∈ L

theorem Rep.perm {h : Heap} {L L' : Cells} (r : Rep h L) (q : List.Perm L L') : Rep h L' :=
  ⟨(q.map Prod.fst).nodup r.nodup, fun c hc => r.pos c (q.mem_iff.mpr hc), fun p o => (r.get p o).trans q.mem_iff⟩

theorem Rep.read {h : Heap} {L : Cells} (r : Rep h L) {p : Nat} {o : Obj} (m : (p, o) ∈ L) : h p = some o := (r.get p o).mpr m

theorem Rep.nonzero {h : Heap} {L : Cells} (r : Rep h L) {p : Nat} {o : Obj} (m : (p, o) ∈ L) : p ≠ 0 := r.pos _ m

theorem Rep.free {h : Heap} {p : Nat} {o : Obj} {L : Cells} (r : Rep h ((p, o) :: L)) :
    ∃ h', free p h = some h' ∧ Rep h' L := by
  have hp := r.read (List.mem_cons_self)
  have h0 := r.nonzero (List.mem_cons_self)
  refine ⟨fun q => if q = p then none else h q, by simp only [Release.free, if_neg h0, hp], ?_, fun c hc => r.pos c (List.mem_cons_of_mem _ hc), ?_⟩
  · have := r.nodup
    simp only [List.map_cons, List.nodup_cons] at this
    exact this.2
  · intro q o'
    have nd := r.nodup
    simp only [List.map_cons, List.nodup_cons] at nd
    by_cases e : q = p
    · subst e
      simp only [if_true]
      exact ⟨(fun h => by cases h), fun m => absurd (List.mem_map_of_mem (f := Prod.fst) m) nd.1⟩
    · simp only [if_neg e]
      rw [r.get q o']
      simp only [List.mem_cons, Prod.mk.injEq]
      exact ⟨fun h => h.elim (fun h => absurd h.1 e) id, Or.inr⟩

theorem Rep.write {h : Heap} {p : Nat} {o : Obj} {L : Cells} (r : Rep h ((p, o) :: L)) (o' : Obj) :
    Rep (put h p o') ((p, o') :: L) := by
  have nd := r.nodup
  simp only [List.map_cons, List.nodup_cons] at nd
  refine ⟨by simpa only [List.map_cons, List.nodup_cons] using nd, ?_, ?_⟩
  · intro c hc
    rcases List.mem_cons.mp hc with rfl | hc
    · exact r.nonzero (List.mem_cons_self)
    · exact r.pos c (List.mem_cons_of_mem _ hc)
  · intro q o2
    unfold put
    by_cases e : q = p
    · subst e
      simp only [if_true, Option.some.injEq, List.mem_cons, Prod.mk.injEq, true_and]
      exact ⟨fun h => Or.inl h.symm, fun h => h.elim Eq.symm
        fun m => absurd (List.mem_map_of_mem (f := Prod.fst) m) nd.1⟩
    · simp only [if_neg e]
      rw [r.get q o2]
      simp only [List.mem_cons, Prod.mk.injEq, e, false_and, false_or]

theorem put_same {h : Heap} {p : Nat} {o : Obj} (e : h p = some o) : put h p o = h := by
  funext q
  unfold put
  by_cases hq : q = p
  · subst hq; rw [if_pos rfl, e]
  · rw [if_neg hq]

theorem Rep.new {h : Heap} {L : Cells} (r : Rep h L) {p : Nat} (h0 : p ≠ 0) (hp : h p = none) (o : Obj) :
    Rep (put h p o) ((p, o) :: L) := by
  have fresh : p ∉ L.map Prod.fst := by
    intro m
    obtain ⟨c, hc, rfl⟩ := List.mem_map.mp m
    have := r.read (p := c.1) (o := c.2) hc
    rw [hp] at this
    cases this
  refine ⟨by simp only [List.map_cons, List.nodup_cons]; exact ⟨fresh, r.nodup⟩, ?_, ?_⟩
  · intro c hc
    rcases List.mem_cons.mp hc with rfl | hc
    · exact h0
    · exact r.pos c hc
  · intro q o'
    unfold put
    by_cases e : q = p
    · subst e
      simp only [if_true, Option.some.injEq, List.mem_cons, Prod.mk.injEq, true_and]
      exact ⟨fun h => Or.inl h.symm, fun h => h.elim Eq.symm fun m => absurd (List.mem_map_of_mem (f := Prod.fst) m) fresh⟩
    · simp only [if_neg e]
      rw [r.get q o']
      simp only [List.mem_cons, Prod.mk.injEq, e, false_and, false_or]

/-- There is always a free address. -/
theorem Rep.room {h : Heap} {L : Cells} (r : Rep h L) : ∃ p, p ≠ 0 ∧ h p = none := by
  have hb : ∀ (l : List Nat), ∃ b, ∀ x ∈ l, x < b := by
    intro l
    induction l with
    | nil => exact ⟨0, fun _ h => by cases h⟩
    | cons a l ih =>
      obtain ⟨b, hb⟩ := ih
      refine ⟨max b (a + 1), fun x hx => ?_⟩
      rcases List.mem_cons.mp hx with rfl | hx
      · omega
      · have := hb x hx; omega
  obtain ⟨b, hb⟩ := hb (L.map Prod.fst)
  refine ⟨b + 1, by omega, ?_⟩
  cases hp : h (b + 1) with
  | none => rfl
  | some o =>
    have := hb (b + 1) (List.mem_map_of_mem (f := Prod.fst) ((r.get _ _).mp hp))
    omega

/-- The allocator returns addresses at which nothing lives, as long as there are any. -/
def Env.Ok (E : Env) : Prop :=
  ∀ t h, (∃ p, p ≠ 0 ∧ h p = none) → E.alloc t h ≠ 0 ∧ h (E.alloc t h) = none

theorem malloc_new {E : Env} (ok : E.Ok) {s : St} {L : Cells} (r : Rep s.h L) (o : Obj) :
    ∃ p s', malloc E o s = (p, s') ∧ (p ≠ 0 ∧ s.h p = none) ∧ Rep s'.h ((p, o) :: L) := by
  obtain ⟨h0, hp⟩ := ok s.time s.h r.room
  exact ⟨_, _, rfl, ⟨h0, hp⟩, r.new h0 hp o⟩

theorem malloc_rep {E : Env} (ok : E.Ok) {s : St} {L : Cells} (r : Rep s.h L) (o : Obj) :
    ∃ p s', malloc E o s = (p, s') ∧ p ≠ 0 ∧ Rep s'.h ((p, o) :: L) := by
  obtain ⟨p, s', e, h, r⟩ := malloc_new ok r o
  exact ⟨p, s', e, h.1, r⟩

/-! ## Lists of objects -/

/-- the blocks of `BLOCKS` -/
def blockCells : List Nat → Nat → Cells
  | [], _ => []
  | p :: l, e => (p, .block (l.headD e)) :: blockCells l e

structure AB where
  p : Nat
  m : Nat
  cap : Nat
  off : Nat

def hd (l : List AB) (e : Nat) : Nat := match l with | [] => e | x :: _ => x.p

/-- the blocks of an arena -/
def abCells : List AB → Nat → Cells
  | [], _ => []
  | x :: l, e => (x.m, .raw) :: (x.p, .ablock x.m x.cap x.off (hd l e)) :: abCells l e

structure Nd where
  p : Nat
  k : Nat
  s : CStr
  v : Nat

def nh (l : List Nd) : Nat := match l with | [] => 0 | x :: _ => x.p

/-- the nodes of a chain, their keys and values -/
def chainCells : List Nd → Cells
  | [] => []
  | x :: l => (x.k, .str x.s) :: (x.v, .raw) :: (x.p, .node x.k x.v (nh l)) :: chainCells l

theorem blockCells_append (A B : List Nat) (e : Nat) :
    blockCells (A ++ B) e = blockCells A (B.headD e) ++ blockCells B e := by
  induction A with
  | nil => rfl
  | cons a A ih =>
    simp only [List.cons_append, blockCells, ih]
    congr 3
    cases A <;> rfl

/-! ## Releasing -/

theorem frees_rep : ∀ {l : List Nat} {h : Heap} {R : Cells}, Rep h (l.map (fun p => (p, Obj.raw)) ++ R) →
    ∃ h', frees l h = some h' ∧ Rep h' R
  | [], h, R, r => ⟨h, rfl, r⟩
  | p :: l, h, R, r => by
    obtain ⟨h1, e1, r1⟩ := r.free
    obtain ⟨h2, e2, r2⟩ := frees_rep r1
    exact ⟨h2, by simp only [frees, e1, Option.bind_some, e2], r2⟩

theorem freeBlocks_rep : ∀ {l : List Nat} {fuel : Nat} {h : Heap} {R : Cells}, Rep h (blockCells l 0 ++ R) → l.length < fuel →
    ∃ h', freeBlocks fuel (l.headD 0) h = some h' ∧ Rep h' R
  | [], n + 1, h, R, r, _ => ⟨h, rfl, r⟩
  | p :: l, n + 1, h, R, r, hn => by
    have hp : h p = some (.block (l.headD 0)) := r.read (List.mem_cons_self)
    have h0 : p ≠ 0 := r.nonzero (o := .block (l.headD 0)) (List.mem_cons_self)
    obtain ⟨h1, e1, r1⟩ := r.free
    obtain ⟨h2, e2, r2⟩ := freeBlocks_rep (fuel := n) r1 (by simp only [List.length_cons] at hn; omega)
    refine ⟨h2, ?_, r2⟩
    show freeBlocks (n + 1) p h = _
    simp only [freeBlocks, if_neg h0, hp, e1, Option.bind_some, e2]

theorem freeABlocks_rep : ∀ {l : List AB} {fuel : Nat} {h : Heap} {R : Cells}, Rep h (abCells l 0 ++ R) → l.length < fuel →
    ∃ h', freeABlocks fuel (hd l 0) h = some h' ∧ Rep h' R
  | [], n + 1, h, R, r, _ => ⟨h, rfl, r⟩
  | x :: l, n + 1, h, R, r, hn => by
    have m : (x.p, Obj.ablock x.m x.cap x.off (hd l 0)) ∈ abCells (x :: l) 0 ++ R :=
      List.mem_cons_of_mem _ (List.mem_cons_self)
    have hp := r.read m
    have h0 := r.nonzero m
    obtain ⟨h1, e1, r1⟩ := r.free
    obtain ⟨h2, e2, r2⟩ := r1.free
    obtain ⟨h3, e3, r3⟩ := freeABlocks_rep (fuel := n) r2 (by simp only [List.length_cons] at hn; omega)
    refine ⟨h3, ?_, r3⟩
    show freeABlocks (n + 1) x.p h = _
    simp only [freeABlocks, if_neg h0, hp, e1, Option.bind_some, e2, e3]

/-- an arena with its blocks -/
def arenaCells (a : Nat) (l : List AB) : Cells := abCells l 0 ++ [(a, .arena (hd l 0))]

theorem arenaFree_rep {a : Nat} {l : List AB} {fuel : Nat} {h : Heap} {R : Cells} (r : Rep h (arenaCells a l ++ R))
    (hn : l.length < fuel) : ∃ h', arenaFree fuel a h = some h' ∧ Rep h' R := by
  have hp : h a = some (.arena (hd l 0)) := r.read (List.mem_append_left _ (List.mem_append_right _ (List.mem_cons_self)))
  unfold arenaCells at r
  rw [List.append_assoc] at r
  obtain ⟨h1, e1, r1⟩ := freeABlocks_rep r hn
  obtain ⟨h2, e2, r2⟩ := Rep.free r1
  exact ⟨h2, by simp only [arenaFree, hp, e1, Option.bind_some, e2], r2⟩

theorem freeChain_rep : ∀ {l : List Nd} {fuel : Nat} {h : Heap} {R : Cells}, Rep h (chainCells l ++ R) → l.length < fuel →
    ∃ h', freeChain fuel (nh l) h = some h' ∧ Rep h' R
  | [], n + 1, h, R, r, _ => ⟨h, rfl, r⟩
  | x :: l, n + 1, h, R, r, hn => by
    have m : (x.p, Obj.node x.k x.v (nh l)) ∈ chainCells (x :: l) ++ R :=
      List.mem_cons_of_mem _ (List.mem_cons_of_mem _ (List.mem_cons_self))
    have hp := r.read m
    have h0 := r.nonzero m
    obtain ⟨h1, e1, r1⟩ := r.free
    obtain ⟨h2, e2, r2⟩ := r1.free
    obtain ⟨h3, e3, r3⟩ := r2.free
    obtain ⟨h4, e4, r4⟩ := freeChain_rep (fuel := n) r3 (by simp only [List.length_cons] at hn; omega)
    refine ⟨h4, ?_, r4⟩
    show freeChain (n + 1) x.p h = _
    simp only [freeChain, if_neg h0, hp, e1, Option.bind_some, e2, e3, e4]

/-- the chains with indices in a list -/
def chainsCells (ch : CInt → List Nd) (is : List Nat) : Cells := is.flatMap fun i => chainCells (ch (BitVec.ofNat 32 i))

theorem freeBuckets_rep {ch : CInt → List Nd} {map b : Nat} {size : CInt} {fuel : Nat} (hf : ∀ i, (ch i).length < fuel) :
    ∀ (left i : Nat) {h : Heap} {R : Cells},
      Rep h (chainsCells ch (List.range' i left) ++ R) → (b, Obj.buckets fun i => nh (ch i)) ∈ R →
      (map, Obj.map size b) ∈ R → ∃ h', freeBuckets fuel map left i h = some h' ∧ Rep h' R
  | 0, i, h, R, r, _, _ => ⟨h, rfl, r⟩
  | left + 1, i, h, R, r, hb, hm => by
    have e : chainsCells ch (List.range' i (left + 1)) ++ R =
        chainCells (ch (BitVec.ofNat 32 i)) ++ (chainsCells ch (List.range' (i + 1) left) ++ R) := by
      simp only [chainsCells, List.range'_succ, List.flatMap_cons, List.append_assoc]
    have h1 := r.read (List.mem_append_right _ hm)
    have h2 := r.read (List.mem_append_right _ hb)
    rw [e] at r
    obtain ⟨h3, e3, r3⟩ := freeChain_rep r (hf _)
    obtain ⟨h4, e4, r4⟩ := freeBuckets_rep hf left (i + 1) r3 hb hm
    exact ⟨h4, by simp only [freeBuckets, h1, h2, e3, Option.bind_some, e4], r4⟩

/-- the map of the functions: its chains, its buckets and itself -/
def mapCells (map b : Nat) (ch : CInt → List Nd) : Cells :=
  chainsCells ch (List.range 512) ++ [(b, .buckets fun i => nh (ch i)), (map, .map 512 b)]

theorem mapFree_rep {map b : Nat} {ch : CInt → List Nd} {fuel : Nat} {h : Heap} {R : Cells} (r : Rep h (mapCells map b ch ++ R))
    (hf : ∀ i, (ch i).length < fuel) : ∃ h', mapFree fuel map h = some h' ∧ Rep h' R := by
  have m : (map, Obj.map 512 b) ∈ mapCells map b ch ++ R := by simp [mapCells]
  have hp := r.read m
  have h0 := r.nonzero m
  unfold mapCells at r
  rw [List.append_assoc, List.range_eq_range'] at r
  obtain ⟨h1, e1, r1⟩ := freeBuckets_rep (map := map) (b := b) (size := 512) hf 512 0 r (by simp) (by simp)
  obtain ⟨h2, e2, r2⟩ := Rep.free r1
  obtain ⟨h3, e3, r3⟩ := Rep.free r2
  have hs : (512 : CInt).toInt.toNat = 512 := by decide
  exact ⟨h3, by simp only [mapFree, if_neg h0, hp, hs, e1, Option.bind_some, e2, e3], r3⟩

/-- the source buffer -/
def sourceCells (p size cap e : Nat) : Cells := [(e, .raw), (p, .source size cap e)]

theorem sourceRelease_rep {p size cap e : Nat} {h : Heap} {R : Cells} (r : Rep h (sourceCells p size cap e ++ R)) :
    ∃ h', sourceRelease p h = some h' ∧ Rep h' R := by
  have m : (p, Obj.source size cap e) ∈ sourceCells p size cap e ++ R := by simp [sourceCells]
  have hp := r.read m
  have h0 := r.nonzero m
  obtain ⟨h2, e2, r2⟩ := Rep.free r
  obtain ⟨h3, e3, r3⟩ := Rep.free r2
  exact ⟨h3, by simp only [sourceRelease, if_neg h0, hp, Option.bind_some, e2, e3], r3⟩


/-! ## Allocating -/

theorem addBlock_rep {E : Env} (ok : E.Ok) {G : Ptrs} {s : St} {l : List Nat} {e0 : Nat} {R : Cells} (r : Rep s.h (blockCells l e0 ++ R))
    (hh : G.head = l.headD 0) (ht : G.tail = l.getLastD 0) :
    ∃ p s', addBlock E G s = some ({ G with head := (l ++ [p]).headD 0, tail := p }, s') ∧
      Rep s'.h (blockCells (l ++ [p]) (E.junk s.time) ++ R) := by
  obtain ⟨p, s', e, h0, r'⟩ := malloc_rep ok r (.block (E.junk s.time))
  refine ⟨p, ?_⟩
  unfold addBlock
  simp only [e]
  cases hl : l with
  | nil =>
    subst hl
    refine ⟨s', by rw [if_pos (show G.head = 0 from hh)]; rfl, r'⟩
  | cons a t =>
    have ne : l ≠ [] := by rw [hl]; exact List.cons_ne_nil _ _
    obtain ⟨A, z, hA⟩ : ∃ A z, l = A ++ [z] := ⟨l.dropLast, l.getLast ne, (List.dropLast_concat_getLast ne).symm⟩
    have hz : G.tail = z := by rw [ht, hA]; simp
    have hne : G.head ≠ 0 := by
      rw [hh, hl]
      exact r.nonzero (o := .block (t.headD e0)) (by rw [hl]; exact List.mem_cons_self)
    rw [← hl]
    have q : List.Perm ((p, Obj.block (E.junk s.time)) :: (blockCells l e0 ++ R)) ((z, Obj.block e0) :: (blockCells A z ++ ((p, Obj.block (E.junk s.time)) :: R))) := by
      rw [hA, blockCells_append]
      show List.Perm ((p, Obj.block (E.junk s.time)) :: ((blockCells A z ++ [(z, Obj.block e0)]) ++ R)) _
      rw [List.append_assoc]
      refine (List.Perm.cons _ List.perm_middle).trans ((List.Perm.swap _ _ _).trans (List.Perm.cons _ List.perm_middle.symm))
    have r2 := r'.perm q
    have hzr := r2.read List.mem_cons_self
    have r3 := r2.write (.block p)
    refine ⟨{ s' with h := put s'.h z (.block p) }, ?_, ?_⟩
    · rw [if_neg hne, hz, hzr]
      have : (l ++ [p]).headD 0 = G.head := by rw [hh, hl]; rfl
      rw [this]
    · refine r3.perm ?_
      rw [hA, List.append_assoc, blockCells_append]
      show List.Perm _ ((blockCells A z ++ [(z, Obj.block p), (p, .block (E.junk s.time))]) ++ R)
      rw [List.append_assoc]
      exact List.perm_middle.symm

theorem arenaBlockCreate_rep {E : Env} (ok : E.Ok) (cap : Nat) {s : St} {R : Cells} (r : Rep s.h R) :
    ∃ p m s', arenaBlockCreate E cap s = (p, s') ∧ Rep s'.h ((m, .raw) :: (p, .ablock m cap 0 0) :: R) := by
  obtain ⟨p, s1, e1, h1, r1⟩ := malloc_rep ok r (.ablock 0 0 0 0)
  obtain ⟨m, s2, e2, h2, r2⟩ := malloc_rep ok r1 .raw
  refine ⟨p, m, { s2 with h := put s2.h p (.ablock m cap 0 0) }, by simp only [arenaBlockCreate, e1, e2], ?_⟩
  exact ((r2.perm (List.Perm.swap _ _ _)).write (.ablock m cap 0 0)).perm (List.Perm.swap _ _ _)

theorem arenaInit_rep {E : Env} (ok : E.Ok) (cap : Nat) {s : St} {L : Cells} (r : Rep s.h L) :
    ∃ a x s', arenaInit E cap s = (a, s') ∧ Rep s'.h (L ++ arenaCells a [x]) := by
  obtain ⟨a, s1, e1, h1, r1⟩ := malloc_rep ok r (.arena 0)
  obtain ⟨p, m, s2, e2, r2⟩ := arenaBlockCreate_rep ok cap r1
  refine ⟨a, ⟨p, m, cap, 0⟩, { s2 with h := put s2.h a (.arena p) }, by simp only [arenaInit, e1, e2], ?_⟩
  have q : ∀ o : Obj, List.Perm ((m, Obj.raw) :: (p, .ablock m cap 0 0) :: (a, o) :: L) ((a, o) :: (L ++ [(m, .raw), (p, .ablock m cap 0 0)])) := by
    intro o
    refine List.Perm.trans (l₂ := (a, o) :: ([(m, .raw), (p, .ablock m cap 0 0)] ++ L)) ?_ (List.Perm.cons _ List.perm_append_comm)
    exact (List.Perm.cons _ (List.Perm.swap _ _ _)).trans (List.Perm.swap _ _ _)
  have r3 := (r2.perm (q _)).write (.arena p)
  refine r3.perm ?_
  show List.Perm ((a, Obj.arena p) :: _) (L ++ ([(m, .raw), (p, .ablock m cap 0 0)] ++ [(a, .arena p)]))
  rw [← List.append_assoc]
  exact List.perm_append_comm (l₁ := [(a, Obj.arena p)])

theorem arenaWalk_rep {E : Env} (ok : E.Ok) (size : Nat) : ∀ {l : List AB} {x : AB} {fuel : Nat} {s : St} {R : Cells},
    Rep s.h (abCells (x :: l) 0 ++ R) → l.length < fuel →
    ∃ y l' s', arenaWalk E size fuel x.p s = some s' ∧ y.p = x.p ∧ l'.length ≤ l.length + 1 ∧ Rep s'.h (abCells (y :: l') 0 ++ R)
  | l, x, n + 1, s, R, r, hn => by
    have m : (x.p, Obj.ablock x.m x.cap x.off (hd l 0)) ∈ abCells (x :: l) 0 ++ R :=
      List.mem_cons_of_mem _ (List.mem_cons_self)
    have hp := r.read m
    have r1 : Rep s.h ((x.p, Obj.ablock x.m x.cap x.off (hd l 0)) :: (x.m, .raw) :: (abCells l 0 ++ R)) := r.perm (List.Perm.swap _ _ _)
    unfold arenaWalk
    simp only [hp]
    by_cases hfit : x.off + size ≤ x.cap
    · rw [if_pos hfit]
      exact ⟨⟨x.p, x.m, x.cap, x.off + size⟩, l, _, rfl, rfl, Nat.le_succ _,
        (r1.write (.ablock x.m x.cap (x.off + size) (hd l 0))).perm (List.Perm.swap _ _ _)⟩
    · rw [if_neg hfit]
      cases l with
      | nil =>
        rw [if_pos (show hd [] 0 = 0 from rfl)]
        obtain ⟨p, mm, s2, e2, r2⟩ := arenaBlockCreate_rep ok (if size > DEFAULT_ARENA_SIZE then size else DEFAULT_ARENA_SIZE) r1
        simp only [e2]
        have q : ∀ o o' : Obj, List.Perm ((mm, Obj.raw) :: (p, o') :: (x.p, o) :: (x.m, .raw) :: R)
            ((x.p, o) :: (p, o') :: (mm, .raw) :: (x.m, .raw) :: R) := by
          intro o o'
          refine (List.Perm.swap _ _ _).trans ((List.Perm.cons _ (List.Perm.swap _ _ _)).trans (List.Perm.swap _ _ _))
        have r3 := (r2.perm (q _ _)).write (.ablock x.m x.cap x.off p)
        have r4 := r3.perm (List.Perm.swap _ _ _)
        have hr := r4.read List.mem_cons_self
        have r5 := r4.write (.ablock mm (if size > DEFAULT_ARENA_SIZE then size else DEFAULT_ARENA_SIZE) (0 + size) 0)
        rw [hr]
        refine ⟨⟨x.p, x.m, x.cap, x.off⟩,
          [⟨p, mm, if size > DEFAULT_ARENA_SIZE then size else DEFAULT_ARENA_SIZE, 0 + size⟩], _, rfl, rfl,
          Nat.le_refl _, r5.perm ?_⟩
        show List.Perm ((p, _) :: (x.p, _) :: (mm, Obj.raw) :: (x.m, .raw) :: R)
          ((x.m, .raw) :: (x.p, _) :: (mm, .raw) :: (p, _) :: R)
        refine (List.Perm.cons _ ((List.Perm.cons _ (List.Perm.swap _ _ _)).trans (List.Perm.swap _ _ _))).trans
          ((List.Perm.swap _ _ _).trans (List.Perm.cons _ ((List.Perm.swap _ _ _).trans (List.Perm.cons _ (List.Perm.swap _ _ _)))))
      | cons z t =>
        have hz : z.p ≠ 0 := r.nonzero (o := .ablock z.m z.cap z.off (hd t 0)) (by simp [abCells])
        rw [if_neg (show hd (z :: t) 0 ≠ 0 from hz)]
        have q : ∀ X : Cells, List.Perm ((x.p, Obj.ablock x.m x.cap x.off (hd (z :: t) 0)) :: (x.m, .raw) :: (X ++ R))
            (X ++ ((x.p, Obj.ablock x.m x.cap x.off (hd (z :: t) 0)) :: (x.m, .raw) :: R)) := by
          intro X
          have := List.perm_append_comm (l₁ := [(x.p, Obj.ablock x.m x.cap x.off (hd (z :: t) 0)), (x.m, .raw)]) (l₂ := X)
          have := this.append_right R
          rw [List.append_assoc, List.append_assoc] at this
          exact this
        obtain ⟨y, l', s', e, hy, hl, r2⟩ := arenaWalk_rep ok size (fuel := n) (r1.perm (q _)) (by simp only [List.length_cons] at hn; omega)
        refine ⟨x, y :: l', s', e, rfl, by simp only [List.length_cons]; omega, ?_⟩
        refine (r2.perm (q _).symm).perm ?_
        show List.Perm _ ((x.m, Obj.raw) :: (x.p, .ablock x.m x.cap x.off y.p) :: (abCells (y :: l') 0 ++ R))
        rw [hy]
        exact List.Perm.swap _ _ _

theorem arenaAlloc_rep {E : Env} (ok : E.Ok) (size : Nat) {l : List AB} {a fuel : Nat} {s : St} {R : Cells}
    (r : Rep s.h (arenaCells a l ++ R)) (ne : l ≠ []) (hn : l.length ≤ fuel) :
    ∃ l' s', arenaAlloc E fuel a size s = some s' ∧ l' ≠ [] ∧ l'.length ≤ l.length + 1 ∧ Rep s'.h (arenaCells a l' ++ R) := by
  have hp : s.h a = some (.arena (hd l 0)) := r.read (List.mem_append_left _ (List.mem_append_right _ (List.mem_cons_self)))
  cases l with
  | nil => exact absurd rfl ne
  | cons x t =>
    have r1 : Rep s.h (abCells (x :: t) 0 ++ ([(a, .arena x.p)] ++ R)) := by
      rw [← List.append_assoc]; exact r
    obtain ⟨y, l', s', e, hy, hl, r2⟩ := arenaWalk_rep ok size (fuel := fuel) r1 (by simp only [List.length_cons] at hn; omega)
    refine ⟨y :: l', s', by unfold arenaAlloc; rw [hp]; exact e, List.cons_ne_nil _ _, by simp only [List.length_cons]; omega, ?_⟩
    rw [← List.append_assoc] at r2
    show Rep s'.h ((abCells (y :: l') 0 ++ [(a, .arena y.p)]) ++ R)
    rw [hy]
    exact r2

theorem sourceCreate_rep {E : Env} (ok : E.Ok) (cap : Nat) {s : St} {L : Cells} (r : Rep s.h L) :
    ∃ a e s', sourceCreate E cap s = (a, s') ∧ Rep s'.h (L ++ sourceCells a 0 cap e) := by
  obtain ⟨a, s1, e1, h1, r1⟩ := malloc_rep ok r (.source 0 cap 0)
  obtain ⟨e, s2, e2, h2, r2⟩ := malloc_rep ok r1 .raw
  refine ⟨a, e, { s2 with h := put s2.h a (.source 0 cap e) }, by simp only [sourceCreate, e1, e2], ?_⟩
  exact (((r2.perm (List.Perm.swap _ _ _)).write (.source 0 cap e)).perm (List.Perm.swap _ _ _)).perm
    (List.perm_append_comm (l₁ := [(e, Obj.raw), (a, .source 0 cap e)]))

theorem sourcePush_rep {E : Env} (ok : E.Ok) {s : St} {p size cap e : Nat} {R : Cells}
    (r : Rep s.h (sourceCells p size cap e ++ R)) :
    ∃ size' cap' e' s', sourcePush E p s = some s' ∧ Rep s'.h (sourceCells p size' cap' e' ++ R) := by
  have m : (p, Obj.source size cap e) ∈ sourceCells p size cap e ++ R := by simp [sourceCells]
  have hp := r.read m
  have he : s.h e = some .raw := r.read List.mem_cons_self
  have r1 : Rep s.h ((p, Obj.source size cap e) :: (e, .raw) :: R) := r.perm (List.Perm.swap _ _ _)
  unfold sourcePush
  simp only [hp]
  by_cases hlt : size < cap
  · rw [if_pos hlt, he]
    exact ⟨_, _, _, _, rfl, (r1.write (.source (size + 1) cap e)).perm (List.Perm.swap _ _ _)⟩
  · rw [if_neg hlt]
    obtain ⟨n, s2, e2, h2, r2⟩ := malloc_rep ok r .raw
    have r3 : Rep s2.h ((e, Obj.raw) :: (n, .raw) :: (p, .source size cap e) :: R) := r2.perm (List.Perm.swap _ _ _)
    have he2 := r3.read List.mem_cons_self
    obtain ⟨h3, e3, r4⟩ := r3.free
    simp only [e2, he2, e3]
    exact ⟨_, _, _, _, rfl, ((r4.perm (List.Perm.swap _ _ _)).write (.source (size + 1) (2 * cap) n)).perm (List.Perm.swap _ _ _)⟩

/-! ## The map -/

/-- what the nodes of a chain say: keys and values -/
def said (l : List Nd) : List (CStr × Nat) := l.map fun x => (x.s, x.v)

theorem chainFind_rep {key : CStr} : ∀ {l : List Nd} {fuel : Nat} {h : Heap} {R : Cells}, Rep h (chainCells l ++ R) →
    l.length < fuel → ∃ v, chainFind key fuel (nh l) h = some v ∧ (v ≠ 0 → (v, Obj.raw) ∈ chainCells l) ∧
      v = Globals.chainGet key (said l)
  | [], n + 1, h, R, r, _ => ⟨0, rfl, fun h => absurd rfl h, rfl⟩
  | x :: l, n + 1, h, R, r, hn => by
    have m : (x.p, Obj.node x.k x.v (nh l)) ∈ chainCells (x :: l) ++ R :=
      List.mem_cons_of_mem _ (List.mem_cons_of_mem _ (List.mem_cons_self))
    have hp := r.read m
    have h0 := r.nonzero m
    have hk : h x.k = some (.str x.s) := r.read List.mem_cons_self
    have hs : Globals.chainGet key (said (x :: l)) = if x.s = key then x.v else Globals.chainGet key (said l) := rfl
    rw [hs]
    show ∃ v, chainFind key (n + 1) x.p h = some v ∧ _
    unfold chainFind
    simp only [if_neg h0, hp, hk]
    by_cases e : x.s = key
    · rw [if_pos e, if_pos e]
      exact ⟨_, rfl, fun _ => List.mem_cons_of_mem _ List.mem_cons_self, rfl⟩
    · rw [if_neg e, if_neg e]
      have q : List.Perm (chainCells (x :: l) ++ R)
          (chainCells l ++ ([(x.k, .str x.s), (x.v, .raw), (x.p, .node x.k x.v (nh l))] ++ R)) := by
        rw [← List.append_assoc]
        exact (List.perm_append_comm (l₁ := [(x.k, Obj.str x.s), (x.v, .raw), (x.p, .node x.k x.v (nh l))])).append_right R
      obtain ⟨v, e, hv, hg⟩ := chainFind_rep (key := key) (fuel := n) (r.perm q) (by simp only [List.length_cons] at hn; omega)
      exact ⟨v, e, fun h => List.mem_cons_of_mem _ (List.mem_cons_of_mem _ (List.mem_cons_of_mem _ (hv h))), hg⟩

theorem nodeNew_rep {E : Env} (ok : E.Ok) (key : CStr) (val : Nat) {s : St} {R : Cells} (r : Rep s.h R) :
    ∃ p k s', nodeNew E key val s = (p, s') ∧ Rep s'.h ((k, .str key) :: (p, .node k val 0) :: R) := by
  obtain ⟨p, s1, e1, h1, r1⟩ := malloc_rep ok r (.node 0 0 0)
  obtain ⟨k, s2, e2, h2, r2⟩ := malloc_rep ok r1 (.str key)
  exact ⟨p, k, { s2 with h := put s2.h p (.node k val 0) }, by simp only [nodeNew, e1, e2],
    ((r2.perm (List.Perm.swap _ _ _)).write (.node k val 0)).perm (List.Perm.swap _ _ _)⟩

/-- The value is an object of its own before it enters the chain. -/
theorem chainPut_rep {E : Env} (ok : E.Ok) (key : CStr) (val : Nat) : ∀ {l : List Nd} {x : Nd} {fuel : Nat} {s : St} {R : Cells},
    Rep s.h (chainCells (x :: l) ++ ((val, .raw) :: R)) → l.length < fuel →
    ∃ y s', chainPut E key val fuel x.p s = some s' ∧ (y.v = val ∧ y.s = key) ∧ Rep s'.h (chainCells (x :: l ++ [y]) ++ R)
  | l, x, n + 1, s, R, r, hn => by
    have m : (x.p, Obj.node x.k x.v (nh l)) ∈ chainCells (x :: l) ++ ((val, .raw) :: R) :=
      List.mem_cons_of_mem _ (List.mem_cons_of_mem _ (List.mem_cons_self))
    have hp := r.read m
    unfold chainPut
    simp only [hp]
    cases l with
    | nil =>
      rw [if_pos (show nh [] = 0 from rfl)]
      obtain ⟨p, k, s2, e2, r2⟩ := nodeNew_rep ok key val r
      simp only [e2]
      have q : ∀ o : Obj, List.Perm
          ((k, Obj.str key) :: (p, .node k val 0) :: (x.k, .str x.s) :: (x.v, .raw) :: (x.p, o) :: (val, .raw) :: R)
          ((x.p, o) :: (x.k, .str x.s) :: (x.v, .raw) :: (k, .str key) :: (val, .raw) :: (p, .node k val 0) :: R) := by
        intro o
        classical
        refine List.perm_iff_count.mpr fun a => ?_
        simp only [List.count_cons]
        omega
      have r3 := (r2.perm (q _)).write (.node x.k x.v p)
      refine ⟨⟨p, k, key, val⟩, _, rfl, ⟨rfl, rfl⟩, r3.perm ?_⟩
      show List.Perm _ ((x.k, Obj.str x.s) :: (x.v, .raw) :: (x.p, .node x.k x.v p) :: (k, .str key) :: (val, .raw) :: (p, .node k val 0) :: R)
      exact (List.Perm.swap _ _ _).trans (List.Perm.cons _ (List.Perm.swap _ _ _))
    | cons z t =>
      have hz : z.p ≠ 0 := r.nonzero (o := .node z.k z.v (nh t)) (by simp [chainCells])
      rw [if_neg (show nh (z :: t) ≠ 0 from hz)]
      have q : ∀ X Y : Cells, List.Perm ([(x.k, Obj.str x.s), (x.v, .raw), (x.p, .node x.k x.v z.p)] ++ (X ++ Y))
          (X ++ ([(x.k, Obj.str x.s), (x.v, .raw), (x.p, .node x.k x.v z.p)] ++ Y)) := by
        intro X Y
        have := (List.perm_append_comm (l₁ := [(x.k, Obj.str x.s), (x.v, .raw), (x.p, .node x.k x.v z.p)]) (l₂ := X)).append_right Y
        rw [List.append_assoc, List.append_assoc] at this
        exact this
      have r1 : Rep s.h (chainCells (z :: t) ++ ((val, .raw) :: ([(x.k, Obj.str x.s), (x.v, .raw), (x.p, .node x.k x.v z.p)] ++ R))) := by
        refine (r.perm (q (chainCells (z :: t)) ((val, .raw) :: R))).perm (List.Perm.append_left _ ?_)
        exact List.perm_middle (l₁ := [(x.k, Obj.str x.s), (x.v, .raw), (x.p, .node x.k x.v z.p)])
      obtain ⟨y, s', e, hy, r2⟩ := chainPut_rep ok key val (fuel := n) r1 (by simp only [List.length_cons] at hn; omega)
      exact ⟨y, s', e, hy, r2.perm (q _ _).symm⟩

theorem mem_chain : ∀ {l : List Nd} {y : Nd}, y ∈ l → (y.v, Obj.raw) ∈ chainCells l
  | x :: l, y, h => by
    rcases List.mem_cons.mp h with rfl | h
    · exact List.mem_cons_of_mem _ List.mem_cons_self
    · exact List.mem_cons_of_mem _ (List.mem_cons_of_mem _ (List.mem_cons_of_mem _ (mem_chain h)))

/-- Only one chain differs. -/
theorem focus {i : CInt} (hi : i.toNat < 512) (ch : CInt → List Nd) : ∃ R : Cells, ∀ ch' : CInt → List Nd,
    (∀ j, j ≠ i → ch' j = ch j) → List.Perm (chainsCells ch' (List.range 512)) (chainCells (ch' i) ++ R) := by
  obtain ⟨A, B, hAB⟩ := List.append_of_mem (List.mem_range.mpr hi)
  have nd := List.nodup_range (n := 512)
  rw [hAB] at nd ⊢
  have hne : ∀ j, j ∈ A ∨ j ∈ B → j < 512 ∧ j ≠ i.toNat := by
    intro j hj
    refine ⟨List.mem_range.mp (by rw [hAB]; simp only [List.mem_append, List.mem_cons]; exact hj.elim Or.inl fun h => Or.inr (Or.inr h)), ?_⟩
    rintro rfl
    rw [List.nodup_append] at nd
    rcases hj with h | h
    · exact nd.2.2 _ h _ List.mem_cons_self rfl
    · exact (List.nodup_cons.mp nd.2.1).1 h
  refine ⟨chainsCells ch A ++ chainsCells ch B, fun ch' h => ?_⟩
  have heq : ∀ X : List Nat, (∀ j ∈ X, j ∈ A ∨ j ∈ B) → chainsCells ch' X = chainsCells ch X := by
    intro X hX
    unfold chainsCells
    rw [List.flatMap_def, List.flatMap_def]
    refine congrArg List.flatten (List.map_congr_left fun j hj => ?_)
    have := hne j (hX j hj)
    rw [h]
    intro e
    have : (BitVec.ofNat 32 j).toNat = i.toNat := by rw [e]
    simp only [BitVec.toNat_ofNat] at this
    omega
  have hii : BitVec.ofNat 32 i.toNat = i := by simp
  have e : chainsCells ch' (A ++ i.toNat :: B) = chainsCells ch A ++ (chainCells (ch' i) ++ chainsCells ch B) := by
    rw [← heq A fun j h => Or.inl h, ← heq B fun j h => Or.inr h]
    simp only [chainsCells, List.flatMap_append, List.flatMap_cons, hii]
  rw [e, ← List.append_assoc, ← List.append_assoc]
  exact (List.perm_append_comm).append_right _

theorem index_lt (sx : BitVec 8 → CInt) (key : CStr) : (hashmap_hash_index sx 512 key).toNat < 512 := by
  have := Shecc.Props.C27_index sx key 9 (by omega)
  have e : (BitVec.ofNat 32 (2 ^ 9)) = (512 : CInt) := by decide
  rw [e] at this
  have h := BitVec.toInt_eq_toNat_cond (hashmap_hash_index sx 512 key)
  have hl := (hashmap_hash_index sx 512 key).isLt
  split at h <;> omega

/-- The map that the memory holds, as the model of lists (Verif/Model/Globals.lean) sees it. -/
def abs (ch : CInt → List Nd) : Globals.HashMap := ⟨512, fun i => said (ch i)⟩

theorem mapGet_rep {E : Env} {map b : Nat} {ch : CInt → List Nd} {fuel : Nat} {h : Heap} {R : Cells} (key : CStr)
    (r : Rep h (mapCells map b ch ++ R)) (hf : ∀ i, (ch i).length < fuel) :
    ∃ v, mapGet E fuel map key h = some v ∧ (v ≠ 0 → (v, Obj.raw) ∈ mapCells map b ch ++ R) ∧
      v = Globals.hashmap_get E.sx (abs ch) key := by
  have hp := r.read (p := map) (o := .map 512 b) (by simp [mapCells])
  have hb := r.read (p := b) (o := .buckets fun i => nh (ch i)) (by simp [mapCells])
  obtain ⟨R', hR⟩ := focus (index_lt E.sx key) ch
  have q := hR ch fun _ _ => rfl
  have q' : List.Perm (mapCells map b ch ++ R) (chainCells (ch (hashmap_hash_index E.sx 512 key)) ++
      (R' ++ ([(b, .buckets fun i => nh (ch i)), (map, .map 512 b)] ++ R))) := by
    unfold mapCells
    refine ((q.append_right _).append_right R).trans ?_
    simp only [List.append_assoc]
    exact List.Perm.refl _
  obtain ⟨v, e, hv, hg⟩ := chainFind_rep (key := key) (r.perm q') (hf _)
  refine ⟨v, by simp only [mapGet, hp, hb, e], fun h => q'.mem_iff.mpr (List.mem_append_left _ (hv h)), hg⟩

theorem mapPut_rep {E : Env} (ok : E.Ok) {map b : Nat} {ch : CInt → List Nd} {fuel : Nat} {s : St} {R : Cells} (key : CStr) (val : Nat)
    (r : Rep s.h (mapCells map b ch ++ ((val, .raw) :: R))) (hf : ∀ i, (ch i).length ≤ fuel) :
    ∃ ch' s', mapPut E fuel map key val s = some s' ∧ Rep s'.h (mapCells map b ch' ++ R) ∧
      (∀ i, (ch' i).length ≤ (ch i).length + 1) ∧ (val, Obj.raw) ∈ mapCells map b ch' ++ R ∧
      abs ch' = Globals.hashmap_put E.sx (abs ch) key val := by
  have hp := r.read (p := map) (o := .map 512 b) (by simp [mapCells])
  have hb := r.read (p := b) (o := .buckets fun i => nh (ch i)) (by simp [mapCells])
  obtain ⟨ix, hix⟩ : ∃ ix, ix = hashmap_hash_index E.sx 512 key := ⟨_, rfl⟩
  have hlt := index_lt E.sx key
  rw [← hix] at hlt
  obtain ⟨R', hR⟩ := focus hlt ch
  have q' : ∀ (ch' : CInt → List Nd) (R : Cells), (∀ j, j ≠ ix → ch' j = ch j) →
      List.Perm (mapCells map b ch' ++ R) (chainCells (ch' ix) ++
        (R' ++ ([(b, .buckets fun i => nh (ch' i)), (map, .map 512 b)] ++ R))) := by
    intro ch' R h
    unfold mapCells
    refine (((hR ch' h).append_right _).append_right R).trans ?_
    simp only [List.append_assoc]
    exact List.Perm.refl _
  unfold mapPut
  simp only [hp, hb, ← hix]
  have hlen : ∀ (y : Nd) i, ((fun i => if i = ix then ch ix ++ [y] else ch i) i).length ≤ (ch i).length + 1 := by
    intro y i
    dsimp only
    split
    · next h => rw [h]; simp
    · omega
  have habs : ∀ y : Nd, y.v = val → y.s = key →
      abs (fun i => if i = ix then ch ix ++ [y] else ch i) = Globals.hashmap_put E.sx (abs ch) key val := by
    intro y hv hs
    unfold abs Globals.hashmap_put
    rw [← hix]
    congr 1
    funext i
    by_cases h : i = ix
    · subst h
      simp [said, hv, hs]
    · simp [h]
  cases hc : ch ix with
  | nil =>
    rw [if_pos (show nh [] = 0 from rfl)]
    obtain ⟨p, k, s2, e2, r2⟩ := nodeNew_rep ok key val r
    simp only [e2]
    obtain ⟨y, hy⟩ : ∃ y : Nd, y = ⟨p, k, key, val⟩ := ⟨_, rfl⟩
    obtain ⟨c2, hc2⟩ : ∃ c2 : CInt → List Nd, c2 = fun i => if i = ix then ch ix ++ [y] else ch i := ⟨_, rfl⟩
    have hm : (val, Obj.raw) ∈ mapCells map b c2 ++ R := by
      have h1 := q' c2 R (fun j hj => by rw [hc2]; exact if_neg hj)
      refine h1.mem_iff.mpr (List.mem_append_left _ ?_)
      have h2 : c2 ix = ch ix ++ [y] := by rw [hc2]; exact if_pos rfl
      rw [h2]
      have : y.v = val := by rw [hy]
      rw [← this]
      exact mem_chain (by simp)
    suffices hs : Rep (put s2.h b (.buckets fun i => if i = ix then p else nh (ch i))) (mapCells map b c2 ++ R) from
      ⟨c2, _, rfl, hs, by rw [hc2]; exact hlen y, hm, by rw [hc2]; exact habs y (by rw [hy]) (by rw [hy])⟩
    rw [hc2, hy]
    have r3 := r2.perm (List.Perm.cons _ (List.Perm.cons _ (q' ch _ fun _ _ => rfl)))
    rw [hc] at r3
    have q3 : ∀ o : Obj, List.Perm ((k, Obj.str key) :: (p, .node k val 0) :: (chainCells [] ++
        (R' ++ ([(b, o), (map, .map 512 b)] ++ ((val, .raw) :: R)))))
        ((b, o) :: ([(k, .str key), (val, .raw), (p, .node k val 0)] ++ (R' ++ ([(map, .map 512 b)] ++ R)))) := by
      intro o
      classical
      refine List.perm_iff_count.mpr fun a => ?_
      simp only [chainCells, List.count_cons, List.count_append, List.count_nil]
      omega
    have q4 : ∀ o : Obj, List.Perm
        ((b, o) :: ([(k, .str key), (val, .raw), (p, .node k val 0)] ++ (R' ++ ([(map, .map 512 b)] ++ R))))
        ([(k, .str key), (val, .raw), (p, .node k val 0)] ++ (R' ++ ([(b, o), (map, .map 512 b)] ++ R))) := by
      intro o
      classical
      refine List.perm_iff_count.mpr fun a => ?_
      simp only [List.count_cons, List.count_append, List.count_nil]
      omega
    have r4 := (r3.perm (q3 _)).write (.buckets fun i => if i = ix then p else nh (ch i))
    have r5 := r4.perm (q4 _)
    refine r5.perm (List.Perm.symm ?_)
    have hq := q' (fun i => if i = ix then ch ix ++ [⟨p, k, key, val⟩] else ch i) R (fun j hj => if_neg hj)
    refine hq.trans ?_
    have e1 : (fun i => nh (if i = ix then ch ix ++ [⟨p, k, key, val⟩] else ch i)) = fun i => if i = ix then p else nh (ch i) := by
      funext i
      by_cases h : i = ix
      · rw [if_pos h, if_pos h, hc]; rfl
      · rw [if_neg h, if_neg h]
    rw [e1, if_pos rfl, hc]
    exact List.Perm.refl _
  | cons x t =>
    have r3 := r.perm (q' ch _ fun _ _ => rfl)
    rw [hc] at r3
    have hx : x.p ≠ 0 := r3.nonzero (o := .node x.k x.v (nh t)) (by simp [chainCells])
    rw [if_neg (show nh (x :: t) ≠ 0 from hx)]
    have q3 : List.Perm (chainCells (x :: t) ++ (R' ++ ([(b, .buckets fun i => nh (ch i)), (map, .map 512 b)] ++ ((val, .raw) :: R))))
        (chainCells (x :: t) ++ ((val, .raw) :: (R' ++ ([(b, .buckets fun i => nh (ch i)), (map, .map 512 b)] ++ R)))) := by
      refine List.Perm.append_left _ ?_
      rw [← List.append_assoc, ← List.append_assoc]
      exact List.perm_middle
    obtain ⟨y, s', e, hy, r4⟩ := chainPut_rep ok key val (fuel := fuel) (r3.perm q3) (by have := hf ix; rw [hc] at this; simp only [List.length_cons] at this; omega)
    refine ⟨fun i => if i = ix then ch ix ++ [y] else ch i, s', e, ?_, hlen _,
      (q' (fun i => if i = ix then ch ix ++ [y] else ch i) R fun j hj => if_neg hj).mem_iff.mpr
        (List.mem_append_left _ (by rw [if_pos rfl, ← hy.1]; exact mem_chain (by simp))), habs y hy.1 hy.2⟩
    refine r4.perm (List.Perm.symm ?_)
    refine (q' _ R (fun j hj => if_neg hj)).trans ?_
    have e1 : (fun i => nh (if i = ix then ch ix ++ [y] else ch i)) = fun i => nh (ch i) := by
      funext i
      by_cases h : i = ix
      · rw [if_pos h, h, hc]; rfl
      · rw [if_neg h]
    rw [e1, if_pos rfl, hc]

theorem mapCreate_rep {E : Env} (ok : E.Ok) {s : St} {L : Cells} (r : Rep s.h L) :
    ∃ m b s', mapCreate E 512 s = (m, s') ∧ Rep s'.h (L ++ mapCells m b fun _ => []) := by
  obtain ⟨m, s1, e1, h1, r1⟩ := malloc_rep ok r (.map 0 0)
  obtain ⟨b, s2, e2, h2, r2⟩ := malloc_rep ok r1 (.buckets fun _ => 0)
  refine ⟨m, b, { s2 with h := put s2.h m (.map (round_up_pow2 512) b) }, by simp only [mapCreate, e1, e2], ?_⟩
  have e : round_up_pow2 512 = 512 := by decide
  rw [e]
  have hc : ∀ l : List Nat, chainsCells (fun _ => []) l = [] := by
    intro l
    simp [chainsCells, chainCells]
  unfold mapCells
  rw [hc, List.nil_append]
  exact (((r2.perm (List.Perm.swap _ _ _)).write (.map 512 b)).perm (List.Perm.swap _ _ _)).perm
    (List.perm_append_comm (l₁ := [(b, Obj.buckets fun _ => 0), (m, .map 512 b)]))

theorem addFunc_rep {E : Env} (ok : E.Ok) {G : Ptrs} {b : Nat} {ch : CInt → List Nd} {fuel : Nat} {s : St} {R : Cells} (name : CStr)
    (r : Rep s.h (mapCells G.funcs b ch ++ R)) (hf : ∀ i, (ch i).length < fuel) :
    ∃ ch' s', addFunc E fuel G name s = some s' ∧ Rep s'.h (mapCells G.funcs b ch' ++ R) ∧
      ((∀ i, (ch' i).length ≤ (ch i).length + 1) ∧
      ((Globals.hashmap_get E.sx (abs ch) name ≠ 0 ∧ ch' = ch) ∨
        (Globals.hashmap_get E.sx (abs ch) name = 0 ∧ ∃ p, p ≠ 0 ∧ s.h p = none ∧
          abs ch' = Globals.hashmap_put E.sx (abs ch) name p))) := by
  obtain ⟨v, e, hv, hg⟩ := mapGet_rep (E := E) name r hf
  unfold addFunc
  simp only [e, Option.bind_some]
  by_cases h0 : v = 0
  · rw [if_neg (fun h => h h0)]
    obtain ⟨p, s1, e1, h1, r1⟩ := malloc_new ok r .raw
    obtain ⟨ch', s2, e2, r2, hl, hm, ha⟩ := mapPut_rep ok name p (r1.perm List.perm_middle.symm) fun i => Nat.le_of_lt (hf i)
    have hp := r2.read hm
    simp only [e1, e2, Option.bind_some, hp]
    refine ⟨ch', _, rfl, ?_, hl, Or.inr ⟨hg.symm.trans h0, p, h1.1, h1.2, ha⟩⟩
    show Rep (put s2.h p .raw) _
    rw [put_same hp]
    exact r2
  · have hp := r.read (hv h0)
    rw [if_pos h0]
    simp only [hp]
    refine ⟨ch, _, rfl, ?_, fun i => Nat.le_succ _, Or.inl ⟨fun h => h0 (hg.trans h), rfl⟩⟩
    show Rep (put s.h v .raw) _
    rw [put_same hp]
    exact r

end Shecc.Release
