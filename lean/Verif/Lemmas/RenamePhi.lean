import Verif.Lemmas.RenameTree

/-!
# Lemmas on `solve_globals` and `solve_phi_insertion`
-/

namespace Shecc.SsaBuild
open Shecc.Cfg CGraph
open CRename

/-! ### `solve_globals` -/

theorem mem_addGl {kill gl : List Nat} {x : Option Nat} {v : Nat} :
    v ∈ (match x with | none => gl | some u => if u ∈ kill then gl else if u ∈ gl then gl else gl ++ [u]) ↔
      v ∈ gl ∨ (x = some v ∧ v ∉ kill) := by
  cases x with
  | none => simp
  | some u =>
    simp only [Option.some.injEq]
    split
    · rename_i h
      constructor
      · exact Or.inl
      · rintro (h' | ⟨rfl, h'⟩)
        · exact h'
        · exact absurd h h'
    · rename_i h
      split
      · rename_i h2
        constructor
        · exact Or.inl
        · rintro (h' | ⟨rfl, h'⟩)
          · exact h'
          · exact h2
      · simp only [List.mem_append, List.mem_singleton]
        constructor
        · rintro (h' | rfl)
          · exact Or.inl h'
          · exact Or.inr ⟨rfl, h⟩
        · rintro (h' | ⟨rfl, h'⟩)
          · exact Or.inl h'
          · exact Or.inr rfl

theorem nodup_addGl {kill gl : List Nat} {x : Option Nat} (hn : gl.Nodup) :
    (match x with | none => gl | some u => if u ∈ kill then gl else if u ∈ gl then gl else gl ++ [u]).Nodup := by
  cases x with
  | none => exact hn
  | some u =>
    simp only
    split
    · exact hn
    · split
      · exact hn
      · rename_i h
        rw [List.nodup_append]
        refine ⟨hn, by simp, ?_⟩
        intro a ha c hc
        simp only [List.mem_singleton] at hc
        subst hc
        rintro rfl
        exact h ha

theorem scanBlock_ok : ∀ (is : List (Ins Nat)) (kill gl : List Nat), gl.Nodup →
    (scanBlock is kill gl).Nodup ∧ (∀ v ∈ gl, v ∈ scanBlock is kill gl) ∧
    ∀ v, v ∉ kill → ReadsFirst v is → v ∈ scanBlock is kill gl := by
  intro is
  induction is with
  | nil =>
    intro kill gl hn
    refine ⟨hn, fun _ h => h, ?_⟩
    rintro v _ ⟨xs, i, ys, h, _⟩
    simp at h
  | cons i is ih =>
    intro kill gl hn
    rw [scanBlock]
    simp only
    have hn2 := nodup_addGl (kill := kill) (x := i.rs2) (nodup_addGl (kill := kill) (x := i.rs1) hn)
    obtain ⟨h1, h2, h3⟩ := ih (kill ++ i.rd.toList) _ hn2
    refine ⟨h1, fun v hv => h2 v (mem_addGl.2 (Or.inl (mem_addGl.2 (Or.inl hv)))), ?_⟩
    rintro v hk ⟨xs, k, ys, he, hu, hx⟩
    cases xs with
    | nil =>
      simp only [List.nil_append, List.cons.injEq] at he
      obtain ⟨rfl, rfl⟩ := he
      apply h2
      rcases hu with hu | hu
      · exact mem_addGl.2 (Or.inl (mem_addGl.2 (Or.inr ⟨hu, hk⟩)))
      · exact mem_addGl.2 (Or.inr ⟨hu, hk⟩)
    | cons x xs =>
      simp only [List.cons_append, List.cons.injEq] at he
      obtain ⟨rfl, rfl⟩ := he
      refine h3 v ?_ ⟨xs, k, ys, rfl, hu, fun y hy => hx y (List.mem_cons_of_mem _ hy)⟩
      have := hx i (List.mem_cons_self ..)
      simp only [List.mem_append, Option.mem_toList, not_or]
      exact ⟨hk, this⟩

theorem solveGlobals_ok (f : Fn) : ∀ (bs gl : List Nat), gl.Nodup →
    (solveGlobals f bs gl).Nodup ∧ (∀ v ∈ gl, v ∈ solveGlobals f bs gl) ∧
    ∀ b ∈ bs, ∀ v, ReadsFirst v (f.code b) → v ∈ solveGlobals f bs gl := by
  intro bs
  induction bs with
  | nil => intro gl hn; exact ⟨hn, fun _ h => h, fun _ h => by cases h⟩
  | cons b bs ih =>
    intro gl hn
    rw [solveGlobals]
    obtain ⟨s1, s2, s3⟩ := scanBlock_ok (f.code b) [] gl hn
    obtain ⟨h1, h2, h3⟩ := ih _ s1
    refine ⟨h1, fun v hv => h2 v (s2 v hv), ?_⟩
    intro x hx v hr
    simp only [List.mem_cons] at hx
    rcases hx with rfl | hx
    · exact h2 v (s3 v (by simp) hr)
    · exact h3 x hx v hr

theorem liveIn_global (f : Fn) {post : List Nat} (hpost : ∀ x, x ∈ post ↔ Reach f.g.succs f.g.entry x) {v b : Nat}
    (h : LiveIn f.g.succs f.code v b) : Reach f.g.succs f.g.entry b → v ∈ solveGlobals f post [] := by
  induction h with
  | here h => intro hb; exact (solveGlobals_ok f post [] List.nodup_nil).2.2 _ ((hpost _).2 hb) v h
  | later hs _ _ ih => intro hb; exact ih (Reach.trans hb (Reach.one hs))

/-! ### `solve_phi_insertion` -/

theorem upd_self {α : Type} (f : Nat → α) (k : Nat) (x : α) : upd f k x k = x := by simp [upd]

theorem upd_ne {α : Type} (f : Nat → α) {j k : Nat} (x : α) (h : j ≠ k) : upd f k x j = f j := by simp [upd, h]

structure FrontOk (f : Fn) (v : Nat) (bs : List Nat) (phi : Nat → List Nat) (wl : List Nat) (phi' : Nat → List Nat) (wl' : List Nat) :
    Prop where
  other : ∀ u b, u ≠ v → (u ∈ phi' b ↔ u ∈ phi b)
  nodup : (∀ b, (phi b).Nodup) → ∀ b, (phi' b).Nodup
  mono : ∀ b, v ∈ phi b → v ∈ phi' b
  all : ∀ b ∈ bs, allowed f v b = true → v ∈ phi' b
  sound : ∀ b, v ∈ phi' b → v ∈ phi b ∨ (b ∈ bs ∧ allowed f v b = true)
  ext : ∃ e, wl' = wl ++ e ∧ ∀ b ∈ e, v ∈ phi' b ∧ b ∈ bs
  join : f.isJoin v = true → wl' = wl
  plain : f.isJoin v = false → ∀ b, v ∈ phi' b → v ∈ phi b ∨ b ∈ wl'
  wlNodup : wl.Nodup → wl'.Nodup

theorem frontierLoop_ok (f : Fn) (v : Nat) : ∀ (bs : List Nat) (phi : Nat → List Nat) (wl : List Nat),
    FrontOk f v bs phi wl (frontierLoop f v bs phi wl).1 (frontierLoop f v bs phi wl).2 := by
  intro bs
  induction bs with
  | nil =>
    intro phi wl
    exact ⟨fun _ _ _ => Iff.rfl, fun h => h, fun _ h => h, fun _ h => (by cases h), fun _ h => Or.inl h,
      ⟨[], (by simp [frontierLoop]), fun _ h => (by cases h)⟩, fun _ => rfl, fun _ _ h => Or.inl h, fun h => h⟩
  | cons b bs ih =>
    intro phi wl
    rw [frontierLoop]
    by_cases ha : allowed f v b = true
    · rw [if_pos ha]
      by_cases hv : v ∈ phi b
      · rw [if_pos hv]
        have I := ih phi wl
        refine ⟨I.other, I.nodup, I.mono, ?_, ?_, ?_, I.join, I.plain, I.wlNodup⟩
        · intro x hx h
          simp only [List.mem_cons] at hx
          rcases hx with rfl | hx
          · exact I.mono x hv
          · exact I.all x hx h
        · intro x hx
          rcases I.sound x hx with h | ⟨h1, h2⟩
          · exact Or.inl h
          · exact Or.inr ⟨List.mem_cons_of_mem _ h1, h2⟩
        · obtain ⟨e, h1, h2⟩ := I.ext
          exact ⟨e, h1, fun x hx => ⟨(h2 x hx).1, List.mem_cons_of_mem _ (h2 x hx).2⟩⟩
      · rw [if_neg hv]
        simp only
        -- the phi is inserted
        have step : ∀ wl1 : List Nat, (f.isJoin v = true → wl1 = wl) → (f.isJoin v = false → b ∈ wl1) →
            (∃ e, wl1 = wl ++ e ∧ ∀ x ∈ e, x = b) → (wl.Nodup → wl1.Nodup) →
            FrontOk f v (b :: bs) phi wl (frontierLoop f v bs (upd phi b (v :: phi b)) wl1).1
              (frontierLoop f v bs (upd phi b (v :: phi b)) wl1).2 := by
          intro wl1 hj hp he hnd
          have I := ih (upd phi b (v :: phi b)) wl1
          have hvb : v ∈ (frontierLoop f v bs (upd phi b (v :: phi b)) wl1).1 b := I.mono b (by rw [upd_self]; simp)
          refine ⟨?_, ?_, ?_, ?_, ?_, ?_, ?_, ?_, fun h => I.wlNodup (hnd h)⟩
          · intro u x hu
            rw [I.other u x hu]
            by_cases hx : x = b
            · subst hx; rw [upd_self]; simp [hu]
            · rw [upd_ne _ _ hx]
          · intro h x
            refine I.nodup ?_ x
            intro y
            by_cases hy : y = b
            · subst hy; rw [upd_self]; exact List.nodup_cons.2 ⟨hv, h y⟩
            · rw [upd_ne _ _ hy]; exact h y
          · intro x hx
            refine I.mono x ?_
            by_cases hxb : x = b
            · subst hxb; rw [upd_self]; simp
            · rw [upd_ne _ _ hxb]; exact hx
          · intro x hx h
            simp only [List.mem_cons] at hx
            rcases hx with rfl | hx
            · exact hvb
            · exact I.all x hx h
          · intro x hx
            by_cases hxb : x = b
            · subst hxb; exact Or.inr ⟨List.mem_cons_self .., ha⟩
            · rcases I.sound x hx with h | ⟨h1, h2⟩
              · rw [upd_ne _ _ hxb] at h; exact Or.inl h
              · exact Or.inr ⟨List.mem_cons_of_mem _ h1, h2⟩
          · obtain ⟨e, h1, h2⟩ := I.ext
            obtain ⟨e0, h3, h4⟩ := he
            refine ⟨e0 ++ e, by rw [h1, h3, List.append_assoc], ?_⟩
            intro x hx
            rw [List.mem_append] at hx
            rcases hx with hx | hx
            · rw [h4 x hx]; exact ⟨hvb, List.mem_cons_self ..⟩
            · exact ⟨(h2 x hx).1, List.mem_cons_of_mem _ (h2 x hx).2⟩
          · intro h; rw [I.join h, hj h]
          · intro h x hx
            obtain ⟨e, h1, _⟩ := I.ext
            rcases I.plain h x hx with h' | h'
            · by_cases hxb : x = b
              · subst hxb
                right
                rw [h1]
                exact List.mem_append.2 (Or.inl (hp h))
              · rw [upd_ne _ _ hxb] at h'; exact Or.inl h'
            · exact Or.inr h'
        split
        · rename_i hj
          exact step wl (fun _ => rfl) (fun h => by rw [hj] at h; cases h) ⟨[], by simp, fun _ h => by cases h⟩ (fun h => h)
        · rename_i hj
          refine step _ (fun h => absurd h hj) (fun _ => ?_) ?_ ?_
          · split
            · assumption
            · simp
          · split
            · exact ⟨[], by simp, fun _ h => by cases h⟩
            · exact ⟨[b], rfl, fun x hx => by simpa using hx⟩
          · intro hnd
            split
            · exact hnd
            · rename_i hb
              rw [List.nodup_append]
              refine ⟨hnd, by simp, ?_⟩
              intro a ha' c hc
              simp only [List.mem_singleton] at hc
              subst hc
              rintro rfl
              exact hb ha'
    · rw [if_neg ha]
      have I := ih phi wl
      refine ⟨I.other, I.nodup, I.mono, ?_, ?_, ?_, I.join, I.plain, I.wlNodup⟩
      · intro x hx h
        simp only [List.mem_cons] at hx
        rcases hx with rfl | hx
        · exact absurd h ha
        · exact I.all x hx h
      · intro x hx
        rcases I.sound x hx with h | ⟨h1, h2⟩
        · exact Or.inl h
        · exact Or.inr ⟨List.mem_cons_of_mem _ h1, h2⟩
      · obtain ⟨e, h1, h2⟩ := I.ext
        exact ⟨e, h1, fun x hx => ⟨(h2 x hx).1, List.mem_cons_of_mem _ (h2 x hx).2⟩⟩

/-- What the work list leaves behind for one variable. -/
structure PhiOk (f : Fn) (df : Nat → List Nat) (v : Nat) (ref : List Nat) (phi : Nat → List Nat) : Prop where
  closed : ∀ q b, (q ∈ ref ∨ (f.isJoin v = false ∧ v ∈ phi q)) → b ∈ df q → allowed f v b = true → v ∈ phi b
  sound : ∀ P : Nat → Prop, (∀ q b, (q ∈ ref ∨ (f.isJoin v = false ∧ P q)) → b ∈ df q → allowed f v b = true → P b) →
    ∀ b, v ∈ phi b → P b

structure WorkInv (f : Fn) (df : Nat → List Nat) (v : Nat) (ref : List Nat) (i : Nat) (phi : Nat → List Nat) (wl : List Nat) : Prop where
  done : ∀ q ∈ wl.take i, ∀ b ∈ df q, allowed f v b = true → v ∈ phi b
  refs : ∃ e, wl = ref ++ e ∧ ∀ q ∈ e, v ∈ phi q
  join : f.isJoin v = true → wl = ref
  plain : f.isJoin v = false → ∀ b, v ∈ phi b → b ∈ wl
  sound : ∀ P : Nat → Prop, (∀ q b, (q ∈ ref ∨ (f.isJoin v = false ∧ P q)) → b ∈ df q → allowed f v b = true → P b) →
    ∀ b, v ∈ phi b → P b

theorem WorkInv.step {f : Fn} {df : Nat → List Nat} {v : Nat} {ref : List Nat} {i : Nat} {phi : Nat → List Nat} {wl : List Nat}
    (I : WorkInv f df v ref i phi wl) {b : Nat} (hb : wl[i]? = some b) {phi' : Nat → List Nat} {wl' : List Nat}
    (F : FrontOk f v (df b) phi wl phi' wl') : WorkInv f df v ref (i + 1) phi' wl' := by
  obtain ⟨e, he, hex⟩ := F.ext
  obtain ⟨e0, he0, hex0⟩ := I.refs
  have hi : i < wl.length := by
    rw [List.getElem?_eq_some_iff] at hb
    exact hb.1
  have hbm : b ∈ wl := List.mem_of_getElem? hb
  refine ⟨?_, ?_, ?_, ?_, ?_⟩
  · intro q hq x hx ha
    rw [he, List.take_append_of_le_length (by omega), List.take_add_one, hb] at hq
    rw [List.mem_append] at hq
    rcases hq with hq | hq
    · exact F.mono x (I.done q hq x hx ha)
    · simp only [Option.toList_some, List.mem_singleton] at hq
      subst hq
      exact F.all x hx ha
  · refine ⟨e0 ++ e, by rw [he, he0, List.append_assoc], ?_⟩
    intro q hq
    rw [List.mem_append] at hq
    rcases hq with hq | hq
    · exact F.mono q (hex0 q hq)
    · exact (hex q hq).1
  · intro h; rw [F.join h, I.join h]
  · intro h x hx
    rcases F.plain h x hx with h' | h'
    · rw [he]; exact List.mem_append.2 (Or.inl (I.plain h x h'))
    · exact h'
  · intro P hP x hx
    rcases F.sound x hx with h | ⟨h, ha⟩
    · exact I.sound P hP x h
    · refine hP b x ?_ h ha
      rw [he0, List.mem_append] at hbm
      rcases hbm with h' | h'
      · exact Or.inl h'
      · right
        constructor
        · cases hj : f.isJoin v with
          | false => rfl
          | true =>
            exfalso
            have := I.join hj
            rw [he0] at this
            have : e0 = [] := by simpa using this
            rw [this] at h'
            cases h'
        · exact I.sound P hP b (hex0 b h')

theorem workLoop_ok {f : Fn} {df : Nat → List Nat} {v : Nat} {ref : List Nat} : ∀ (n i : Nat) (phi : Nat → List Nat) (wl : List Nat)
    {phi' : Nat → List Nat}, WorkInv f df v ref i phi wl → workLoop f df v n i phi wl = some phi' →
    PhiOk f df v ref phi' ∧ (∀ u b, u ≠ v → (u ∈ phi' b ↔ u ∈ phi b)) ∧ ((∀ b, (phi b).Nodup) → ∀ b, (phi' b).Nodup) := by
  intro n
  induction n with
  | zero => intro i phi wl phi' _ h; cases h
  | succ n ih =>
    intro i phi wl phi' I h
    rw [workLoop] at h
    split at h
    · rename_i hn
      simp only [Option.some.injEq] at h
      subst h
      refine ⟨⟨?_, I.sound⟩, fun _ _ _ => Iff.rfl, fun h => h⟩
      intro q b hq hb ha
      have hle : wl.length ≤ i := by simpa using hn
      have hqw : q ∈ wl := by
        rcases hq with hq | ⟨h1, h2⟩
        · obtain ⟨e, he, _⟩ := I.refs
          rw [he]
          exact List.mem_append.2 (Or.inl hq)
        · exact I.plain h1 q h2
      exact I.done q (by rw [List.take_of_length_le hle]; exact hqw) b hb ha
    · rename_i b hb
      have F := frontierLoop_ok f v (df b) phi wl
      obtain ⟨h1, h2, h3⟩ := ih _ _ _ (I.step hb F) h
      refine ⟨h1, fun u x hu => (h2 u x hu).trans (F.other u x hu), fun hn => h3 (F.nodup hn)⟩

/-- The loop ends: every block enters the work list at most once. -/
theorem workLoop_some {f : Fn} {df : Nat → List Nat} {v : Nat} {univ : List Nat} (hu : ∀ q, ∀ b ∈ df q, b ∈ univ) :
    ∀ (n i : Nat) (phi : Nat → List Nat) (wl : List Nat), wl.Nodup → (∀ q ∈ wl, q ∈ univ) → univ.length < n + i →
    i ≤ wl.length → ∃ phi', workLoop f df v n i phi wl = some phi' := by
  intro n
  induction n with
  | zero =>
    intro i phi wl hnd hs hn hi
    have := Cfg.nodup_length_le hnd hs
    omega
  | succ n ih =>
    intro i phi wl hnd hs hn hi
    rw [workLoop]
    split
    · exact ⟨_, rfl⟩
    · rename_i b hb
      have F := frontierLoop_ok f v (df b) phi wl
      obtain ⟨e, he, hex⟩ := F.ext
      have hlt : i < wl.length := by
        rw [List.getElem?_eq_some_iff] at hb
        exact hb.1
      refine ih _ _ _ (F.wlNodup hnd) ?_ (by omega) ?_
      · intro q hq
        rw [he, List.mem_append] at hq
        rcases hq with hq | hq
        · exact hs q hq
        · exact hu b q (hex q hq).2
      · rw [he, List.length_append]; omega

theorem PhiOk.congr {f : Fn} {df : Nat → List Nat} {v : Nat} {ref : List Nat} {phi phi' : Nat → List Nat}
    (h : PhiOk f df v ref phi) (e : ∀ b, v ∈ phi' b ↔ v ∈ phi b) : PhiOk f df v ref phi' := by
  refine ⟨?_, ?_⟩
  · intro q b hq
    rw [e] at *
    exact h.closed q b hq
  · intro P hP b hb
    rw [e] at hb
    exact h.sound P hP b hb

theorem insertPhis_ok {f : Fn} {df : Nat → List Nat} {order : List Nat} {n : Nat} : ∀ (vs : List Nat) (phi : Nat → List Nat)
    {phi' : Nat → List Nat}, vs.Nodup → (∀ v ∈ vs, ∀ b, v ∉ phi b) → insertPhis f df order n vs phi = some phi' →
    (∀ v ∈ vs, PhiOk f df v (refBlocks f order v) phi') ∧ (∀ u b, u ∉ vs → (u ∈ phi' b ↔ u ∈ phi b)) ∧
    ((∀ b, (phi b).Nodup) → ∀ b, (phi' b).Nodup) := by
  intro vs
  induction vs with
  | nil =>
    intro phi phi' _ _ h
    simp only [insertPhis, Option.some.injEq] at h
    subst h
    exact ⟨fun _ h => (by cases h), fun _ _ _ => Iff.rfl, fun h => h⟩
  | cons v vs ih =>
    intro phi phi' hnd hno h
    rw [insertPhis] at h
    rw [List.nodup_cons] at hnd
    split at h
    · cases h
    · rename_i phi1 h1
      have hv := hno v (List.mem_cons_self ..)
      have I0 : WorkInv f df v (refBlocks f order v) 0 phi (refBlocks f order v) :=
        ⟨fun q hq => (by simp at hq), ⟨[], (by simp), fun _ h => (by cases h)⟩, fun _ => rfl,
          fun _ b hb => absurd hb (hv b), fun _ _ b hb => absurd hb (hv b)⟩
      obtain ⟨a1, a2, a3⟩ := workLoop_ok n 0 phi _ I0 h1
      obtain ⟨b1, b2, b3⟩ := ih phi1 hnd.2 (by
        intro u hu b
        rw [a2 u b (fun e => hnd.1 (e ▸ hu))]
        exact hno u (List.mem_cons_of_mem _ hu) b) h
      refine ⟨?_, ?_, fun hn => b3 (a3 hn)⟩
      · intro u hu
        simp only [List.mem_cons] at hu
        rcases hu with rfl | hu
        · exact a1.congr (fun b => b2 u b hnd.1)
        · exact b1 u hu
      · intro u b hu
        simp only [List.mem_cons, not_or] at hu
        rw [b2 u b hu.2, a2 u b hu.1]

theorem insertPhis_some {f : Fn} {df : Nat → List Nat} {order : List Nat} {n : Nat} {univ : List Nat}
    (hu : ∀ q, ∀ b ∈ df q, b ∈ univ) (ho : order.Nodup) (hs : ∀ q ∈ order, q ∈ univ) (hn : univ.length < n) :
    ∀ (vs : List Nat) (phi : Nat → List Nat), ∃ phi', insertPhis f df order n vs phi = some phi' := by
  intro vs
  induction vs with
  | nil => intro phi; exact ⟨phi, rfl⟩
  | cons v vs ih =>
    intro phi
    rw [insertPhis]
    obtain ⟨phi1, h1⟩ := workLoop_some (f := f) (v := v) hu n 0 phi (refBlocks f order v) (ho.filter _)
      (fun q hq => hs q (List.mem_filter.1 hq).1) (by omega) (Nat.zero_le _)
    rw [h1]
    exact ih phi1

theorem mem_refBlocks {f : Fn} {order : List Nat} {v q : Nat} : q ∈ refBlocks f order v ↔ q ∈ order ∧ Assigns v (f.code q) := by
  unfold refBlocks Assigns
  simp [List.mem_filter]

end Shecc.SsaBuild
