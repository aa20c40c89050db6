import Verif.Lemmas.ExprGen1
import Verif.Spec.CStmt

/-!
# Translation of expressions: the code that is emitted
-/

namespace Shecc.ExprGen
open CEval CArith SsaSem
open Shecc.Ssa (Insn Op1)

/-- The result is the same from some bound on. -/
def Conv {α : Type} (f : Nat → Option α) (x : α) : Prop := ∃ n0, ∀ n, n0 ≤ n → f n = some x

theorem Conv.succ {α : Type} {f h : Nat → Option α} {x : α} (he : ∀ n, f (n + 1) = h n) (hc : Conv h x) : Conv f x := by
  obtain ⟨n0, hn⟩ := hc
  refine ⟨n0 + 1, fun n hle => ?_⟩
  obtain ⟨m, rfl⟩ : ∃ m, n = m + 1 := ⟨n - 1, by omega⟩
  rw [he]; exact hn m (by omega)

theorem Conv.const {α : Type} {f : Nat → Option α} {x : α} (he : ∀ n, f (n + 1) = some x) : Conv f x :=
  Conv.succ he ⟨0, fun _ _ => rfl⟩

theorem Conv.bind {α β : Type} {f : Nat → Option α} {k : Nat → α → Option β} {a : α} {x : β} (h1 : Conv f a) (h2 : Conv (fun n => k n a) x) :
    Conv (fun n => (f n).bind (k n)) x := by
  obtain ⟨n1, h1⟩ := h1
  obtain ⟨n2, h2⟩ := h2
  refine ⟨max n1 n2, fun n hn => ?_⟩
  simp only [h1 n (by omega), Option.bind_some]
  exact h2 n (by omega)

theorem Conv.eq {α : Type} {f h : Nat → Option α} {x : α} (he : ∀ n, f n = h n) (hc : Conv h x) : Conv f x := by
  have : f = h := funext he
  rw [this]; exact hc

theorem Conv.uniq {α : Type} {f : Nat → Option α} {x y : α} (h1 : Conv f x) (h2 : Conv f y) : x = y := by
  obtain ⟨n1, h1⟩ := h1
  obtain ⟨n2, h2⟩ := h2
  have a := h1 (max n1 n2) (by omega)
  have b := h2 (max n1 n2) (by omega)
  rw [a] at b; exact Option.some.inj b

/-- A machine, a language on it, the values of the variables, and the constants of the temporaries. -/
structure Ctx (base : Nat) where
  M : Mach
  C : Lang M
  L : Linked M C
  ρ : Nat → Word
  cv : Nat → Word
  temps : ∀ x, base ≤ x → M.mem x = false

variable {base : Nat}

def Keeps (n : Nat) (ρ ρ' : Nat → Word) : Prop := ∀ x, x < n → ρ' x = ρ x

theorem Keeps.refl (n : Nat) (ρ : Nat → Word) : Keeps n ρ ρ := fun _ _ => rfl
theorem Keeps.trans {n m : Nat} {a b c : Nat → Word} (h1 : Keeps n a b) (h2 : Keeps m b c) (hm : n ≤ m) : Keeps n a c :=
  fun x hx => (h2 x (by omega)).trans (h1 x hx)

def upd (ρ : Nat → Word) (n : Nat) (v : Word) : Nat → Word := fun u => if u = n then v else ρ u

theorem keeps_upd {n m : Nat} (ρ : Nat → Word) (v : Word) (h : n ≤ m) : Keeps n ρ (upd ρ m v) := by
  intro x hx
  simp only [upd]
  rw [if_neg (by omega)]

/-- The variable `r` holds the operand. -/
def Val (base n : Nat) (ρ : Nat → Word) (r : Nat) : Res → Prop
  | .var x => r = x ∧ x < base
  | .val v => base ≤ r ∧ r < n ∧ ρ r = v

theorem Val.mono {n m : Nat} {ρ ρ' : Nat → Word} {r : Nat} {res : Res} (h : Val base n ρ r res) (hk : Keeps n ρ ρ') (hn : n ≤ m) : Val base m ρ' r res := by
  cases res with
  | var x => exact h
  | val v => exact ⟨h.1, by have := h.2.1; omega, by rw [hk r h.2.1]; exact h.2.2⟩

theorem Val.rd (X : Ctx base) {n : Nat} {ρ' : Nat → Word} {r : Nat} {res : Res} (h : Val base n ρ' r res) (hk : Keeps base X.ρ ρ') (w : X.M.World) :
    rdVar X.M (w, ρ') r = res.use X.ρ w := by
  cases res with
  | var x =>
    obtain ⟨rfl, hx⟩ := h
    simp only [Res.use, rdVar]
    rw [hk r hx]
  | val v =>
    simp only [Res.use, rdVar, X.temps r h.1]
    exact h.2.2

theorem run_append (M : Mach) (cv : Nat → Word) : ∀ (a b : List Insn) (s : State M), run M cv (a ++ b) s = (run M cv a s).bind (run M cv b)
  | [], _, _ => rfl
  | i :: a, b, s => by
    simp only [List.cons_append, run, Option.bind_assoc]
    congr 1
    funext s'
    exact run_append M cv a b s'

theorem run_one (M : Mach) (cv : Nat → Word) (i : Insn) (s : State M) : run M cv [i] s = step M cv i s := by
  simp only [run]
  cases step M cv i s <;> rfl

theorem wrVar_temp (X : Ctx base) {n : Nat} (hn : base ≤ n) (w : X.M.World) (ρ : Nat → Word) (v : Word) : wrVar X.M (w, ρ) n v = (w, upd ρ n v) := by
  simp only [wrVar, X.temps n hn]
  rfl

/-! ### Extension of the state -/

/-- `g'` has the instructions `c` more than `g`. -/
structure Ext (g g' : G) (c : List Insn) : Prop where
  ops : ∀ i ∈ c, CStmt.simple i.op i.rd.isSome = true
  code : g'.code = g.code ++ c
  next : g.next ≤ g'.next
  consts : ∃ k, g'.consts = k ++ g.consts ∧ (∀ p ∈ k, g.next ≤ p.1 ∧ p.1 < g'.next) ∧ (k.map (·.1)).Nodup

theorem Ext.refl (g g' : G) (h1 : g'.code = g.code) (h2 : g'.next = g.next) (h3 : g'.consts = g.consts) : Ext g g' [] :=
  ⟨by simp, by simp [h1], by omega, [], by simp [h3], by simp, by simp⟩

theorem Ext.trans {g g1 g2 : G} {c c' : List Insn} (h1 : Ext g g1 c) (h2 : Ext g1 g2 c') : Ext g g2 (c ++ c') := by
  obtain ⟨k, hk1, hk2, hk3⟩ := h1.consts
  obtain ⟨k', hk1', hk2', hk3'⟩ := h2.consts
  have hn := h1.next
  have hn' := h2.next
  refine ⟨fun i hi => (List.mem_append.1 hi).elim (h1.ops i) (h2.ops i), by rw [h2.code, h1.code, List.append_assoc], by omega, k' ++ k, by rw [hk1', hk1, List.append_assoc], ?_, ?_⟩
  · intro p hp
    rcases List.mem_append.1 hp with hp | hp
    · have := hk2' p hp; omega
    · have := hk2 p hp; omega
  · rw [List.map_append, List.nodup_append]
    refine ⟨hk3', hk3, fun a ha b hb => ?_⟩
    obtain ⟨p, hp, rfl⟩ := List.mem_map.1 ha
    obtain ⟨q, hq, rfl⟩ := List.mem_map.1 hb
    have := hk2' p hp
    have := hk2 q hq
    omega

theorem Ext.sub {g g' : G} {c : List Insn} (h : Ext g g' c) {p : Nat × BitVec 32} (hp : p ∈ g.consts) : p ∈ g'.consts := by
  obtain ⟨k, hk, _⟩ := h.consts
  rw [hk]; exact List.mem_append_right _ hp

/-- The constants are known. -/
def Knows (X : Ctx base) (g : G) : Prop := ∀ p ∈ g.consts, X.cv p.1 = p.2

/-- What the evaluation of a phrase may be. -/
abbrev Phrase (base : Nat) := (X : Ctx base) → X.M.World → X.M.World → Res → Prop

/-- The code between `g` and `g'` evaluates the phrase and leaves the operand on the stack. -/
def Comp (base : Nat) (g g' : G) (P : Phrase base) : Prop :=
  ∃ c r, Ext g g' c ∧ g'.stack = r :: g.stack ∧ (r < base ∨ r < g'.next) ∧ ∀ X : Ctx base, Knows X g' → ∀ w w' res ρ1, Keeps base X.ρ ρ1 → P X w w' res →
    ∃ ρ2, run X.M X.cv c (w, ρ1) = some (w', ρ2) ∧ Keeps g.next ρ1 ρ2 ∧ Val base g'.next ρ2 r res

theorem Comp.mono {g g' : G} {P Q : Phrase base} (h : Comp base g g' P) (hpq : ∀ X w w' res, Q X w w' res → P X w w' res) : Comp base g g' Q := by
  obtain ⟨c, r, h1, h2, hlt, h3⟩ := h
  exact ⟨c, r, h1, h2, hlt, fun X hX w w' res ρ1 hk hq => h3 X hX w w' res ρ1 hk (hpq X w w' res hq)⟩

theorem Comp.next {g g' : G} {P : Phrase base} (h : Comp base g g' P) : g.next ≤ g'.next := by
  obtain ⟨_, _, h, _⟩ := h; exact h.next

theorem comp_var {g : G} {x : Nat} (hx : x < base) : Comp base g { g with stack := x :: g.stack } fun _ w w' res => w' = w ∧ res = .var x := by
  refine ⟨[], x, Ext.refl _ _ rfl rfl rfl, rfl, .inl hx, ?_⟩
  rintro X _ w w' res ρ1 _ ⟨rfl, rfl⟩
  exact ⟨ρ1, rfl, Keeps.refl _ _, rfl, hx⟩

theorem ext_load (g : G) (op : Op1) (hop : CStmt.simple op true = true) (v : BitVec 32) : Ext g (g.load op v) [{ op := op, rd := some g.next }] := by
  refine ⟨by simpa using hop, rfl, Nat.le_succ _, [(g.next, v)], rfl, ?_, by simp⟩
  intro p hp
  simp only [List.mem_singleton] at hp
  subst hp
  exact ⟨Nat.le_refl _, Nat.lt_succ_self _⟩

theorem comp_const {g : G} (hb : base ≤ g.next) (v : Word) : Comp base g (g.const v) fun _ w w' res => w' = w ∧ res = .val v := by
  refine ⟨_, g.next, ext_load g _ (by simp) v, rfl, .inr (Nat.lt_succ_self _), ?_⟩
  rintro X hX w w' res ρ1 _ ⟨rfl, rfl⟩
  have hcv : X.cv g.next = v := hX (g.next, v) (by simp [G.const, G.load])
  refine ⟨upd ρ1 g.next v, ?_, keeps_upd _ _ (Nat.le_refl _), hb, Nat.lt_succ_self _, by simp [upd]⟩
  rw [run_one]
  simp only [step, hcv, wrVar_temp X hb]

theorem comp_data {g : G} (hb : base ≤ g.next) (v : Word) (s : List Char) :
    Comp base g { g.load .load_data_address v with data := s } fun X w w' res => w' = w ∧ res = .val (X.M.dataAddr + v) := by
  refine ⟨[{ op := .load_data_address, rd := some g.next }], g.next, (have h := ext_load g .load_data_address (by simp) v; ⟨h.1, h.2, h.3, h.4⟩), rfl, .inr (Nat.lt_succ_self _), ?_⟩
  rintro X hX w w' res ρ1 _ ⟨rfl, rfl⟩
  have hcv : X.cv g.next = v := hX (g.next, v) (by simp [G.load])
  refine ⟨upd ρ1 g.next (X.M.dataAddr + v), ?_, keeps_upd _ _ (Nat.le_refl _), hb, Nat.lt_succ_self _, by simp [upd]⟩
  rw [run_one]
  simp only [step, hcv, wrVar_temp X hb]

/-- One operand. -/
theorem Comp.un {g g1 : G} {P : Phrase base} (h : Comp base g g1 P) (hb : base ≤ g.next) (op : Op1) (hop : CStmt.simple op true = true) (sz : Nat) {Q : Phrase base}
    (hq : ∀ X w w' res, Q X w w' res → ∃ r v, P X w w' r ∧ res = .val v ∧
      ∀ ρ' a, Keeps base X.ρ ρ' → Val base g1.next ρ' a r → step X.M X.cv { op := op, rd := some g1.next, rs1 := some a, sz := sz } (w', ρ') =
        some (wrVar X.M (w', ρ') g1.next v)) :
    ∃ g2, g1.un op sz = some g2 ∧ g2.data = g1.data ∧ Comp base g g2 Q := by
  obtain ⟨c, r, h1, h2, _, h3⟩ := h
  refine ⟨{ g1 with
    code := g1.code ++ [{ op := op, rd := some g1.next, rs1 := some r, sz := sz }]
    next := g1.next + 1
    stack := g1.next :: g.stack }, by simp only [G.un, h2], rfl, c ++ [{ op := op, rd := some g1.next, rs1 := some r, sz := sz }], g1.next, ?_, rfl, .inr (Nat.lt_succ_self _), ?_⟩
  · exact h1.trans ⟨by simpa using hop, rfl, Nat.le_succ _, [], rfl, by simp, by simp⟩
  · intro X hX w w' res ρ1 hk hQ
    obtain ⟨r', v, hP, rfl, hs⟩ := hq X w w' res hQ
    obtain ⟨ρ2, h4, h5, h6⟩ := h3 X hX w w' r' ρ1 hk hP
    have hn := h1.next
    refine ⟨upd ρ2 g1.next v, ?_, h5.trans (keeps_upd _ _ (Nat.le_refl _)) hn, by omega, Nat.lt_succ_self _, by simp [upd]⟩
    rw [run_append, h4, Option.bind_some, run_one, hs ρ2 r (hk.trans h5 hb) h6, wrVar_temp X (by omega)]

theorem Comp.read {g g1 : G} {P : Phrase base} (h : Comp base g g1 P) (hb : base ≤ g.next) (k : Nat) :
    ∃ g2, g1.un .read k = some g2 ∧ g2.data = g1.data ∧ Comp base g g2 fun X w w' res => ∃ r v, P X w w' r ∧ X.M.load k w' (r.use X.ρ w') = some v ∧ res = .val v := by
  refine h.un hb .read (by simp) k ?_
  rintro X w w' res ⟨r, v, hp, hl, rfl⟩
  refine ⟨r, v, hp, rfl, fun ρ' a hk hv => ?_⟩
  simp only [step, hv.rd X hk, hl, Option.map_some]

theorem Comp.addr {g g1 : G} {P : Phrase base} (h : Comp base g g1 P) (hb : base ≤ g.next) (k : Nat) :
    ∃ g2, g1.un .address_of k = some g2 ∧ g2.data = g1.data ∧ Comp base g g2 fun X w w' res => ∃ x, P X w w' (.var x) ∧ res = .val (X.M.addrOf x) := by
  refine h.un hb .address_of (by simp) k ?_
  rintro X w w' res ⟨x, hp, rfl⟩
  refine ⟨.var x, _, hp, rfl, fun ρ' a hk hv => ?_⟩
  obtain ⟨rfl, _⟩ := hv
  simp only [step]

theorem Comp.alu1 {g g1 : G} {P : Phrase base} (h : Comp base g g1 P) (hb : base ≤ g.next) {op : Op2} {o : UnOp} (ho : IrM.binOf op = none)
    (ho' : IrM.unOf op = some o) :
    ∃ g2, g1.un (.alu op) 0 = some g2 ∧ g2.data = g1.data ∧ Comp base g g2 fun X w w' res => ∃ r, P X w w' r ∧ res = .val (CArith.un o (r.use X.ρ w')) := by
  refine h.un hb (.alu op) (by simp) 0 ?_
  rintro X w w' res ⟨r, hp, rfl⟩
  refine ⟨r, _, hp, rfl, fun ρ' a hk hv => ?_⟩
  simp only [step, ho, ho', hv.rd X hk]

/-- Two operands. -/
theorem Comp.alu2 {g g1 g2 : G} {P Q : Phrase base} (h : Comp base g g1 P) (h' : Comp base g1 g2 Q) (hb : base ≤ g.next) {op : Op2} {o : BinOp}
    (ho : IrM.binOf op = some o) :
    ∃ g3, g2.bin op = some g3 ∧ g3.data = g2.data ∧ Comp base g g3 fun X w w' res =>
      ∃ w1 ra rb v, P X w w1 ra ∧ Q X w1 w' rb ∧ CArith.bin o (ra.use X.ρ w') (rb.use X.ρ w') = some v ∧ res = .val v := by
  obtain ⟨c, a, h1, h2, _, h3⟩ := h
  obtain ⟨c', b, h1', h2', _, h3'⟩ := h'
  refine ⟨{ g2 with
    code := g2.code ++ [{ op := .alu op, rd := some g2.next, rs1 := some a, rs2 := some b }]
    next := g2.next + 1
    stack := g2.next :: g.stack }, by simp only [G.bin, h2', h2], rfl,
    (c ++ c') ++ [{ op := .alu op, rd := some g2.next, rs1 := some a, rs2 := some b }], g2.next, ?_, rfl, .inr (Nat.lt_succ_self _), ?_⟩
  · exact (h1.trans h1').trans ⟨by simp, rfl, Nat.le_succ _, [], rfl, by simp, by simp⟩
  · rintro X hX w w' res ρ1 hk ⟨w1, ra, rb, v, hP, hQ, hv, rfl⟩
    have hn := h1.next
    have hn' := h1'.next
    obtain ⟨ρ2, h4, h5, h6⟩ := h3 X (fun p hp => hX p (h1'.sub hp)) w w1 ra ρ1 hk hP
    have hk2 := hk.trans h5 hb
    obtain ⟨ρ3, h4', h5', h6'⟩ := h3' X hX w1 w' rb ρ2 hk2 hQ
    have hk3 := hk2.trans h5' (by omega)
    refine ⟨upd ρ3 g2.next v, ?_, (h5.trans h5' hn).trans (keeps_upd _ _ (Nat.le_refl _)) (by omega), by omega, Nat.lt_succ_self _, by simp [upd]⟩
    rw [run_append, run_append, h4, Option.bind_some, h4', Option.bind_some, run_one]
    simp only [step, ho, (h6.mono h5' hn').rd X hk3, h6'.rd X hk3, hv, Option.map_some, wrVar_temp X (show base ≤ g2.next by omega)]

/-- Two phrases one after the other. -/
theorem Comp.pair {g g1 g2 : G} {P Q : Phrase base} (h : Comp base g g1 P) (h' : Comp base g1 g2 Q) (hb : base ≤ g.next) :
    ∃ c r r', Ext g g2 c ∧ g2.stack = r' :: r :: g.stack ∧ ∀ X : Ctx base, Knows X g2 → ∀ w w1 w' ra rb ρ1, Keeps base X.ρ ρ1 → P X w w1 ra → Q X w1 w' rb →
      ∃ ρ2, run X.M X.cv c (w, ρ1) = some (w', ρ2) ∧ Keeps g.next ρ1 ρ2 ∧ Val base g2.next ρ2 r ra ∧ Val base g2.next ρ2 r' rb := by
  obtain ⟨c, a, h1, h2, _, h3⟩ := h
  obtain ⟨c', b, h1', h2', _, h3'⟩ := h'
  refine ⟨c ++ c', a, b, h1.trans h1', by rw [h2', h2], ?_⟩
  intro X hX w w1 w' ra rb ρ1 hk hP hQ
  have hn := h1.next
  have hn' := h1'.next
  obtain ⟨ρ2, h4, h5, h6⟩ := h3 X (fun p hp => hX p (h1'.sub hp)) w w1 ra ρ1 hk hP
  obtain ⟨ρ3, h4', h5', h6'⟩ := h3' X hX w1 w' rb ρ2 (hk.trans h5 hb) hQ
  exact ⟨ρ3, by rw [run_append, h4, Option.bind_some, h4'], h5.trans h5' hn, h6.mono h5' hn', h6'⟩

/-- Multiplication of an index by the size of an element and addition to an address. -/
theorem Comp.scaleAdd {g g1 g2 : G} {P Q : Phrase base} (h : Comp base g g1 P) (h' : Comp base g1 g2 Q) (hb : base ≤ g.next) (k : Nat) (m : Bool)
    (hm : m = false → k = 1) : ∃ g3, scaleAdd m k g2 = some g3 ∧ g3.data = g2.data ∧ Comp base g g3 fun X w w' res =>
      ∃ w1 ra rb, P X w w1 ra ∧ Q X w1 w' rb ∧ res = .val (ra.use X.ρ w' + rb.use X.ρ w' * BitVec.ofNat 32 k) := by
  have hn := h.next
  have hn' := h'.next
  cases m with
  | false =>
    have := hm rfl
    subst this
    obtain ⟨g3, e1, e2, e3⟩ := h.alu2 h' hb (op := .add) (o := .add) rfl
    refine ⟨g3, by simp [ExprGen.scaleAdd, e1], e2, e3.mono ?_⟩
    rintro X w w' res ⟨w1, ra, rb, hp, hq, rfl⟩
    exact ⟨w1, ra, rb, _, hp, hq, by simp [bin], rfl⟩
  | true =>
    obtain ⟨g3, e1, e2, e3⟩ := h'.alu2 (comp_const (base := base) (g := g2) (by omega) (BitVec.ofNat 32 k)) (by omega) (op := .mul) (o := .mul) rfl
    obtain ⟨g4, f1, f2, f3⟩ := h.alu2 e3 hb (op := .add) (o := .add) rfl
    refine ⟨g4, by simp [ExprGen.scaleAdd, e1, f1], by rw [f2, e2]; rfl, f3.mono ?_⟩
    rintro X w w' res ⟨w1, ra, rb, hp, hq, rfl⟩
    exact ⟨w1, ra, .val (rb.use X.ρ w' * BitVec.ofNat 32 k), _, hp, ⟨w', rb, .val (BitVec.ofNat 32 k), _, hq, ⟨rfl, rfl⟩, rfl, rfl⟩, by simp [bin, Res.use], rfl⟩

end Shecc.ExprGen
