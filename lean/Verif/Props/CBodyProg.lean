import Verif.Props.Body
import Verif.Props.CProgram
import Verif.Spec.CBodyProg

/-!
# From the text of the functions to the executable (C97)
-/

namespace Shecc.Props
open CTypes CEval CSyntax CBody IrM
open Shecc.Body (glob funcBody)
open CProg (World SFn Compiled)

/-- The function with its body as the tree that was read. -/
def withTree (bf : BFn) (tree : CStmt.Stmts) : SFn where
  body := tree
  params := bf.params
  void := bf.void
  isGlobal := bf.isGlobal
  gaddr := bf.gaddr
  alloc := fun sp x _ => bf.alloc sp x
  keep := bf.keep

/-- The body of the function is written as the tokens `ts` say; the parser makes `tree` of them.  Parameters and global variables have lower
numbers than local variables, and these lower ones than temporaries. -/
structure Parsed (E : Env) (T : Types.Table) (bf : BFn) (tree : CStmt.Stmts) (ts : List Tk) : Prop where
  env : bf.unit.E = E
  read : ∃ nv nv' d d' rest st n, (∀ e ∈ bf.unit.params ++ bf.unit.globals, e.2 < nv) ∧ nv ≤ bf.unit.base ∧ WItems bf.unit [[]] nv bf.body ts nv' d d' ∧
    funcBody (glob T bf.unit) n bf.unit.base nv d (p .open_curly :: ts ++ rest) = some (tree, st, rest)

theorem push_args (w : World) (vs : List Word) : vs.foldl (fun (w : World) v => { w with args := w.args ++ [v] }) w = { w with args := w.args ++ vs } := by
  induction vs generalizing w with
  | nil => simp
  | cons v vs ih => simp [ih]

theorem ite_none_some {α : Type} {c : Prop} {_ : Decidable c} {a b : α} (h : (if c then some a else none) = some b) : c ∧ a = b := by
  by_cases hc : c
  · rw [if_pos hc] at h; exact ⟨hc, Option.some.inj h⟩
  · rw [if_neg hc] at h; cases h

/-- The machine does what the language says. -/
noncomputable def lang_linked (C : SrcBlock.Ctx) (alloc : Nat → Word) (keep : Word → Prop) (H : CRename.Home Nat) {nv : Nat} (hn : ∀ x, nv ≤ x → H.mem x = false) :
    CBody.Linked (bmach C alloc keep) H C.dataAddr (loadAt C) (lang C alloc keep H) nv where
  std := {
    const := fun _ _ _ _ _ => rfl
    data := fun _ _ _ _ _ => rfl
    move := fun _ _ _ _ _ => rfl
    addr := fun _ _ _ _ _ => rfl
    read := by
      intro k st x b w
      simp only [bmach, CProg.mach, CProg.act, loadAt, Option.bind_some]
      by_cases h1 : k = 4 ∧ SrcBlock.Vis C x 4
      · rw [if_pos h1, if_pos h1]; rfl
      · rw [if_neg h1, if_neg h1]
        by_cases h2 : k = 1 ∧ SrcBlock.Vis C x 1
        · rw [if_pos h2, if_pos h2]; rfl
        · rw [if_neg h2, if_neg h2]; rfl
    bin := by
      intro op o k st x y w ho
      simp only [bmach, CProg.mach, CProg.act, ho, Option.bind_some]
    un := by
      intro op o k st x b w ho hu
      simp only [bmach, CProg.mach, CProg.act, ho, hu, Option.map_some] }
  expr := {
    push := fun (w : World) v => { w with args := w.args ++ [v] }
    push_get := fun _ _ _ => rfl
    push_ok := fun _ _ _ _ => ⟨0, rfl⟩
    call_ok := by
      intro f vs w w2 v h
      have h' : (callAt C f vs w).bind (fun q => q.2.map fun r => (q.1, r)) = some (w2, v) := h
      obtain ⟨⟨w1, r⟩, h1, h2⟩ := Option.bind_eq_some_iff.1 h'
      obtain ⟨v', h3, h4⟩ := Option.map_eq_some_iff.1 h2
      cases h4
      obtain rfl : r = some v := h3
      clear h2 h h'
      obtain ⟨mem, args, ret, result, script⟩ := w
      match script, h1 with
      | (m, r) :: rest, h1 =>
        simp only [callAt] at h1
        obtain ⟨⟨ha, hc⟩, h5⟩ := ite_none_some h1
        cases h5
        subst ha
        refine ⟨⟨m, [], some v, result, rest⟩, 0, ?_, fun _ => rfl⟩
        have e := push_args ⟨mem, [], ret, result, (m, some v) :: rest⟩ vs
        refine (congrArg (fun q : World => CProg.act C (fun x _ => alloc x) keep ⟨.call, 0, String.ofList f⟩ none none q) e).trans ?_
        simp only [CProg.act, List.nil_append]
        rw [if_pos hc]
        rfl
    icall_ok := by
      intro a vs w w2 v h
      cases h
    write_ok := by
      intro x y k a v w w' h
      refine ⟨0, ?_⟩
      have h' : storeAt C keep k w a v = some w' := h
      show CProg.act C (fun x _ => alloc x) keep ⟨.write, k, ""⟩ (some a) (some v) w = _
      simp only [storeAt] at h'
      simp only [CProg.act, Option.bind_some]
      by_cases h1 : k = 4 ∧ SrcBlock.Vis C a 4 ∧ ∀ g, keep g → load32 (store32 w.mem a v) g = load32 w.mem g
      · rw [if_pos h1] at h' ⊢; cases h'; rfl
      · rw [if_neg h1] at h' ⊢
        obtain ⟨h2, h3⟩ := ite_none_some h'
        rw [if_pos h2]; cases h3; rfl }
  scall := by
    intro f vs w w2 h
    have h' : (callAt C f vs w).map (·.1) = some w2 := h
    obtain ⟨⟨w1, r⟩, h1, h2⟩ := Option.map_eq_some_iff.1 h'
    cases h2
    clear h h'
    obtain ⟨mem, args, ret, result, script⟩ := w
    match script, h1 with
    | (m, r') :: rest, h1 =>
      simp only [callAt] at h1
      obtain ⟨⟨ha, hc⟩, h5⟩ := ite_none_some h1
      cases h5
      subst ha
      refine ⟨0, ?_⟩
      have e := push_args ⟨mem, [], ret, result, (m, r) :: rest⟩ vs
      refine (congrArg (fun q : World => CProg.act C (fun x _ => alloc x) keep ⟨.call, 0, String.ofList f⟩ none none q) e).trans ?_
      simp only [CProg.act, List.nil_append]
      rw [if_pos hc]
      rfl
  ret := fun _ _ => ⟨0, rfl⟩
  alloc := fun _ _ => rfl
  outside := hn

/-- The tree does what the body of the function does (C96). -/
def DoesTree (bf : BFn) (tree : CStmt.Stmts) : Prop :=
  ∃ nv, (∀ e ∈ bf.unit.globals, e.2 < nv) ∧
    ∀ (M : CRename.Mach) (H : CRename.Home Nat) (da : Word) (load : Nat → M.World → Word → Option Word) (C : CBody.Lang (machOf M H da load)),
      CBody.Linked M H da load C nv → tree.Ok H ∧
        ∀ (s s' : M.World × (Nat → Word)) (o : CStmt.Out), ExecAll C bf.unit.E bf.unit.decl bf.body s o s' →
          ∃ ρ k, (∀ x, x < bf.unit.base → ρ x = s'.2 x) ∧ ∀ n, k ≤ n → CStmt.execs M H n tree s = .ok o (s'.1, ρ)

theorem parsed_does {ds : List Decl} {E : Env} (h : Program ds E) (ha : E.Apart) (hs : NoStructAlias ds E) {T : Types.Table}
    (hT : Types.declares Types.builtin ds = some T) {bf : BFn} {tree : CStmt.Stmts} {ts : List Tk} (hp : Parsed E T bf tree ts) : DoesTree bf tree := by
  obtain ⟨hE, nv, nv', d, d', rest, st1, n0, hb, hbase, hw, hread⟩ := hp
  obtain ⟨tree', st2, _, hread', _, _, _, hdo⟩ := C96_body_partial h ha hs hT hE (fun e he => Nat.lt_of_lt_of_le (hb e he) hbase) hbase hw rest
  obtain rfl : tree' = tree := by
    have q2 := hread' _ _ hread
    cases q2
    rfl
  exact ⟨nv, fun e he => hb e (List.mem_append_right _ he), hdo⟩

/-- Functions and calls, for trees that do what the bodies do. -/
theorem body_calls {Pr : SsaProg.SrcProg} {src : String → Option BFn}
    (hc : ∀ g f bf, g ≠ "__syscall" → Pr.fn g = some f → src g = some bf → ∃ tree st, DoesTree bf tree ∧ Compiled Pr (withTree bf tree) f st) :
    ∀ (n : Nat) (hid : Word → Prop) (sp : Word) (g : String) (args : List Word) (m m' : Mem) (r : Option Word),
      CBody.Call Pr src n hid sp g args m m' r → SsaProg.Call Pr n hid sp g args m m' r := by
  intro n
  induction n with
  | zero => intro hid sp g args m m' r h; exact h
  | succ n ih =>
    intro hid sp g args m m' r h1
    rw [CBody.Call] at h1
    rw [SsaProg.Call]
    obtain ⟨h1, h2⟩ := h1
    refine ⟨h1, ?_⟩
    by_cases hg : g = "__syscall"
    · rw [if_pos hg] at h2 ⊢
      exact h2
    · rw [if_neg hg] at h2 ⊢
      obtain ⟨f, bf, hf, hsf, hlen, hroom, h2⟩ := h2
      obtain ⟨tree, st, ⟨nv, hb, hdo⟩, K⟩ := hc g f bf hg hf hsf
      refine ⟨f, hf, by rw [hlen, K.numbers, List.length_map]; rfl, hroom, ?_⟩
      intro μ hμ
      obtain ⟨e, script, o, w, e', hp, hx, hr, hm⟩ := h2 μ hμ
      have hout : ∀ x, nv ≤ x → bf.home.mem x = false := by
        intro x hx
        show (bf.unit.globals.any fun e => e.2 == x) = false
        rw [List.any_eq_false]
        intro e he
        have := hb e he
        simp only [beq_iff_eq]
        omega
      obtain ⟨_, hdo⟩ := hdo _ _ _ _ _ (lang_linked _ (bf.alloc _) bf.keep bf.home hout)
      obtain ⟨ρ, k, _, hk⟩ := hdo _ _ _ hx
      obtain ⟨s, s1, s2, s3, s4⟩ := C95_function_partial K _ _ _ (hk k (Nat.le_refl _)) hr
      exact ⟨s, w.mem, s1, s2, by rw [s3]; exact hp, exec_call (fun g a m m' r h => ih _ _ g a m m' r h) s4, hm⟩

theorem body_exits {Pr : SsaProg.SrcProg} {src : String → Option BFn}
    (hc : ∀ g f bf, g ≠ "__syscall" → Pr.fn g = some f → src g = some bf → ∃ tree st, DoesTree bf tree ∧ Compiled Pr (withTree bf tree) f st)
    {V : RegAlloc.Vars} {K : Nat → GlobalInit.Kind} {gs : List GlobalInit.Decl} {fin : RegAlloc.RA} {sp0 : Word} {m m' : Mem} {r : Option Word}
    (hx : CBody.Exits V K gs fin sp0 Pr src m m' r) : SsaProg.Exits V K gs fin sp0 Pr m m' r := by
  obtain ⟨m1, n, bf, h1, h2, h3⟩ := hx
  cases n with
  | zero => exact absurd h3 (by rw [CBody.Call]; exact id)
  | succ n =>
    have h4 := h3
    rw [CBody.Call] at h4
    obtain ⟨_, h4⟩ := h4
    rw [if_neg (by decide)] at h4
    obtain ⟨f, bf', hf, hsf, hlen, _⟩ := h4
    rw [h2] at hsf
    cases hsf
    obtain ⟨tree, st, _, K'⟩ := hc "main" f bf (by decide) hf h2
    refine ⟨m1, n + 1, f, h1, hf, ?_⟩
    have : f.params.length = bf.params.length := by rw [K'.numbers, List.length_map]; rfl
    rw [this]
    exact body_calls hc _ _ _ _ _ _ _ _ h3

/-- **C97, functions and calls** (partial as C95 and C96). -/
theorem C97_calls_partial {ds : List Decl} {E : Env} (h : Program ds E) (ha : E.Apart) (hs : NoStructAlias ds E) {T : Types.Table}
    (hT : Types.declares Types.builtin ds = some T) {Pr : SsaProg.SrcProg} {src : String → Option BFn}
    (hc : ∀ g f bf, g ≠ "__syscall" → Pr.fn g = some f → src g = some bf → ∃ ts tree st, Parsed E T bf tree ts ∧ Compiled Pr (withTree bf tree) f st) :
    ∀ (n : Nat) (hid : Word → Prop) (sp : Word) (g : String) (args : List Word) (m m' : Mem) (r : Option Word),
      CBody.Call Pr src n hid sp g args m m' r → SsaProg.Call Pr n hid sp g args m m' r :=
  body_calls fun g f bf h1 h2 h3 => by
    obtain ⟨ts, tree, st, h4, h5⟩ := hc g f bf h1 h2 h3
    exact ⟨tree, st, parsed_does h ha hs hT h4, h5⟩

theorem C97_exits_partial {ds : List Decl} {E : Env} (h : Program ds E) (ha : E.Apart) (hs : NoStructAlias ds E) {T : Types.Table}
    (hT : Types.declares Types.builtin ds = some T) {Pr : SsaProg.SrcProg} {src : String → Option BFn}
    (hc : ∀ g f bf, g ≠ "__syscall" → Pr.fn g = some f → src g = some bf → ∃ ts tree st, Parsed E T bf tree ts ∧ Compiled Pr (withTree bf tree) f st)
    {V : RegAlloc.Vars} {K : Nat → GlobalInit.Kind} {gs : List GlobalInit.Decl} {fin : RegAlloc.RA} {sp0 : Word} {m m' : Mem} {r : Option Word}
    (hx : CBody.Exits V K gs fin sp0 Pr src m m' r) : SsaProg.Exits V K gs fin sp0 Pr m m' r :=
  body_exits (fun g f bf h1 h2 h3 => by
    obtain ⟨ts, tree, st, h4, h5⟩ := hc g f bf h1 h2 h3
    exact ⟨tree, st, parsed_does h ha hs hT h4, h5⟩) hx

open Shecc.RegAlloc Shecc.GlobalInit CGlobals in
/-- **C97 (RISC-V).** From the text to the executable.  The bodies of the functions are written as tokens (`CBody.WItems`), of which the parser
makes trees and the following passes make `Q`; `Q` is compiled, loaded at the code base and started.  If the global variables are initialised
and `main`, executed as C prescribes (`CBody.ExecAll`: statements, expressions, scopes, types, calls), returns `r` and leaves memory `m'`, then the
machine reaches `exit(r)`, with that memory outside the stack.  Partial: as C95 and C96. -/
theorem C97_rv_partial {tds : List CTypes.Decl} {E : Env} (hp : Program tds E) (ha : E.Apart) (hna : NoStructAlias tds E) {T : Types.Table}
    (hT : Types.declares Types.builtin tds = some T) (hard : Bool) (Q : Shecc.Prog) (F : Flat) (img : List CInt)
    (h : compile Riscv.target hard (Peep.prog Q) = some (F, img)) (hd : Q.DistinctBlocks) (c : RV32.Code) (hc : RV32.CodeAt c codeBase img)
    (t : RV32.State) (hpc : t.pc = codeBase)
    (V : Vars) (K : Nat → Kind) (ds : List GlobalInit.Decl) (fin : RA) (Pr : SsaProg.SrcProg) (W : SsaProg.Whole Q V K ds fin (t.get 2#5) Pr)
    (hv : Pr.byteVal = fun b => b.signExtend 32) (hda : Pr.dataAddr = codeBase + BitVec.ofNat 32 (4 * img.length))
    (src : String → Option BFn)
    (hs : ∀ g f bf, g ≠ "__syscall" → Pr.fn g = some f → src g = some bf → ∃ ts tree st, Parsed E T bf tree ts ∧ Compiled Pr (withTree bf tree) f st)
    (m' : Mem) (r : Option Word) (hx : CBody.Exits V K ds fin (t.get 2#5) Pr src t.mem m' r) :
    ∃ u, RV32.SysReaches c Pr.os t u ∧ RV32.step c u = .ecall u ∧ u.get 17#5 = 93#32 ∧ (∀ x, r = some x → u.get 10#5 = x) ∧
      SsaProg.Agree (SsaProg.stackBelow Pr (t.get 2#5 - num fin.stack)) m' u.mem :=
  C85_rv_partial hard Q F img h hd c hc t hpc V K ds fin Pr W hv hda m' r (C97_exits_partial hp ha hna hT hs hx)

open Shecc.RegAlloc Shecc.GlobalInit CGlobals in
/-- **C97 (ARM).** The same for ARM. -/
theorem C97_arm_partial {tds : List CTypes.Decl} {E : Env} (hp : Program tds E) (ha : E.Apart) (hna : NoStructAlias tds E) {T : Types.Table}
    (hT : Types.declares Types.builtin tds = some T) (hard : Bool) (Q : Shecc.Prog) (F : Flat) (img : List CInt)
    (h : compile Arm.target hard (Peep.prog Q) = some (F, img)) (hd : Q.DistinctBlocks) (hP : (Peep.prog Q).ArmOk) (c : ARM.Code) (hc : ARM.CodeAt c codeBase img)
    (t : ARM.State) (hpc : t.pc = codeBase)
    (V : Vars) (K : Nat → Kind) (ds : List GlobalInit.Decl) (fin : RA) (Pr : SsaProg.SrcProg) (W : SsaProg.Whole Q V K ds fin (t.get 13#4) Pr)
    (hv : Pr.byteVal = fun b => b.setWidth 32) (hda : Pr.dataAddr = codeBase + BitVec.ofNat 32 (4 * img.length))
    (src : String → Option BFn)
    (hs : ∀ g f bf, g ≠ "__syscall" → Pr.fn g = some f → src g = some bf → ∃ ts tree st, Parsed E T bf tree ts ∧ Compiled Pr (withTree bf tree) f st)
    (m' : Mem) (r : Option Word) (hx : CBody.Exits V K ds fin (t.get 13#4) Pr src t.mem m' r) :
    ∃ u, ARM.SysReaches c Pr.os t u ∧ ARM.step c u = .svc u ∧ u.get 7#4 = 1#32 ∧ (∀ x, r = some x → u.get 0#4 = x) ∧
      SsaProg.Agree (SsaProg.stackBelow Pr (t.get 13#4 - num fin.stack)) m' u.mem :=
  C85_arm_partial hard Q F img h hd hP c hc t hpc V K ds fin Pr W hv hda m' r (C97_exits_partial hp ha hna hT hs hx)

end Shecc.Props
