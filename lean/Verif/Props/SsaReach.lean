import Verif.Props.RaReach
import Verif.Props.SsaProgram

/-!
# C92: a program gets to the system calls it makes
-/

namespace Shecc.Props
open Shecc Shecc.Ssa Shecc.RegAlloc IrM SrcBlock RaFn RaLink SsaProg

theorem reach_mono {C : Ctx} {h : Word → Prop} (hh : ∀ a, h a → C.hidden a) {F : RegAlloc.Fn} {T : String → List Word → Mem → Prop} {b : Nat}
    {s : St} (hx : Reach C F T b s) : Reach (rehide C h) F T b s := by
  induction hx with
  | next hr hn hne _ ih => exact .next (srun_mono hh hr) hn hne ih
  | branch hi ho ha hr hn hne _ ih => exact .branch (C := rehide C h) hi ho ha (srun_mono hh hr) hn hne ih
  | call hi ho hr ht => exact .call hi ho (srun_mono hh hr) ht

section
variable {A : Abi} {P : Program} {sys gp : Word} {gofs : Nat → Nat} {Pr : SrcProg} {T : (Word → Prop) → List Word → Mem → Prop}

theorem reaches_addr (L : Linked A P sys gp gofs Pr) {n : Nat} {hid : Word → Prop} {sp : Word} {g : String} {args : List Word} {m : Mem}
    (h : Reaches Pr T n hid sp g args m) : ∃ a, A.funcAddr g = some a := by
  cases n with
  | zero => exact h.elim
  | succ n =>
    unfold Reaches at h
    by_cases hg : g = "__syscall"
    · subst hg; exact ⟨sys, L.sys⟩
    · rw [if_neg hg] at h
      obtain ⟨f, hf, _⟩ := h
      obtain ⟨_, _, _, _, _, _, _, _, a, _, _, _, ha, _⟩ := L.fn g f hf hg
      exact ⟨a, ha⟩

theorem reaches_arity {n : Nat} {hid : Word → Prop} {sp : Word} {g : String} {args : List Word} {m : Mem}
    (h : Reaches Pr T n hid sp g args m) : args.length ≤ arity Pr g := by
  cases n with
  | zero => exact h.elim
  | succ n =>
    unfold Reaches at h
    unfold arity
    by_cases hg : g = "__syscall"
    · rw [if_pos hg] at h ⊢
      exact h.2.1
    · rw [if_neg hg] at h ⊢
      obtain ⟨f, hf, hl, _⟩ := h
      rw [hf, hl]
      exact Nat.le_refl _

/-- The machine is at the system call that `T` describes: the number and the arguments are in registers, and memory is as in the
source as far as it is visible. -/
def AtSystemCall (sys : Word) (T : (Word → Prop) → List Word → Mem → Prop) (t : State) : Prop :=
  ∃ hid args m, t.pc = sys ∧ 1 ≤ args.length ∧ args.length ≤ 7 ∧ (∀ k, k < args.length → t.reg (r3 k) = args.getD k 0) ∧
    Agree hid m t.mem ∧ t.ra.toNat % 4 = 0 ∧ T hid args m

/-- **C92, programs**: for every program whose functions were allocated and placed, every function, all arguments and every depth: when the
source gets to a system call, so does the machine, with the same number, the same arguments and the same visible memory - whether or
not that system call, and the functions that are active, ever return. -/
theorem C92_program_partial (L : Linked A P sys gp gofs Pr) : ∀ (n : Nat) {hid : Word → Prop} {sp : Word} {g : String} {args : List Word} {m : Mem},
    Reaches Pr T n hid sp g args m → StackAt Pr hid sp → ∀ {a ra : Word} {t : State}, A.funcAddr g = some a → ra.toNat % 4 = 0 →
    Called Pr hid sp gp a ra args m t → ∃ u, XRun A P Pr.os sys t u ∧ AtSystemCall sys T u := by
  intro n
  induction n with
  | zero => intro hid sp g args m h; exact h.elim
  | succ n ih =>
    intro hid sp g args m hc S a ra t hga hal ht
    unfold Reaches at hc
    by_cases hg : g = "__syscall"
    · rw [if_pos hg] at hc
      subst hg
      rw [L.sys] at hga
      cases hga
      exact ⟨t, .refl t, hid, args, m, ht.pc, hc.1, hc.2.1, ht.args, ht.mem, by rw [ht.ra]; exact hal, hc.2.2⟩
    · rw [if_neg hg] at hc
      obtain ⟨f, hf, hlen, hr, hex⟩ := hc
      obtain ⟨hgl, exitPrev, use, live, st0, fin, codes, codes', a', start, H, htidy, ha', hdef, hlaid⟩ := L.fn g f hf hg
      rw [hga] at ha'
      cases ha'
      have hF := H.frame
      have hofs := fin_globals H
      have hi := inside_toNat (f := f) (sp := sp) (by omega)
      have hlt := sp.isLt
      -- the frame is allocated
      have hra : A.raSlot (num f.size) = 0 ∨ A.raSlot (num f.size) = num f.size :=
        L.abi.raSlot.imp (fun h => h _) (fun h => h _)
      let μ : Mem := store32 t.mem (inside f sp + A.raSlot (num f.size)) ra
      have hμ : ∀ b, (¬ (Pr.lo ≤ b.toNat ∧ b.toNat < sp.toNat)) → μ b = t.mem b := by
        intro b hb
        refine store32_ne _ _ (fun k hk e => hb ?_)
        have := ra_byte hF hr S hra hk
        rw [e]
        exact ⟨this.1, this.2.1⟩
      have hagree : Agree hid m μ := by
        intro b hb
        rw [hμ b (fun h => hb (S.below b h.1 h.2))]
        exact ht.mem b hb
      obtain ⟨s, hs, hsa, hsp, hx⟩ := hex μ hagree
      let t1 : State := { t with
        callee := none
        ra := ra
        sp := inside f sp
        mem := μ
        pc := start }
      have hstep : IrM.Step A { op := .define, src0 := num f.size } start t t1 := by
        have := IrM.Step.define (A := A) (ir := { op := .define, src0 := num f.size }) (nxt := start) (s := t) rfl
        rw [ht.sp, ht.ra] at this
        exact this
      have hrun1 : XRun A P Pr.os sys t t1 := run_one (by rw [ht.pc]; exact hdef) hstep
      -- the body, up to the call
      have hx2 := reach_mono (h := ownHidden Pr f (inside f sp)) (fun b hb => own_sub hF hr S hb) hx
      have hok : CallOk A P sys gp Pr n := fun hc S _ _ _ h1 h2 h3 => C83_program_partial L hc S h1 h2 h3
      obtain ⟨t2, hrun2, ir, nxt, args', m', hp, hop, hpre, hT⟩ := C92_function_partial (t := t1) L.abi.divLocal
        (by rw [H.ofs]; exact setup_of L hF hgl hofs S hr) (by rw [H.ofs]; exact calls_of L hok hF S hr)
        (fun _ _ _ _ _ h => call_arity h) (fun _ _ _ h => reaches_arity h) H.ok H.stack4 H.consumed H.locals
        (fun v hv => by rw [(H.globals v hv).1]; exact (H.globals v hv).2) H.alloc htidy hlaid hx2
        ⟨rfl, ht.gp, fun b _ => by rw [hs], hsa, by
          intro k p hp
          have hk := (List.getElem?_eq_some_iff.1 hp).1
          rw [ht.args k (by omega), ← hsp]
          simp [hp]⟩ rfl
      -- the call
      obtain ⟨q1, q2, q3, q4, q5⟩ := hpre
      obtain ⟨b, hb⟩ := reaches_addr L hT
      have S' := stack_in hF hr S
      obtain ⟨u, hrun3, hu⟩ := ih hT S' (t := { t2 with callee := none, ra := nxt, pc := b }) hb (L.aligned _ _ _ hp)
        ⟨rfl, rfl, q1, q2, q5, fun c hc => q3 c (fun h => hc (own_sub hF hr S h))⟩
      exact ⟨u, run_trans hrun1 (run_trans hrun2 (run_trans (run_one hp (.call hop hb)) hrun3)), hu⟩

end
end Shecc.Props
