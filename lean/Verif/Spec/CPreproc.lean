/-!
# Specification: conditional groups

A source text as nested conditional groups (C99 6.10.1): of each group exactly the part after the first true condition, or else
the `#else` part, is processed.  `D` is the state of the macro definitions, `α` the pieces of ordinary text.
-/

namespace CPreproc

mutual
/-- A sequence of pieces of text, changes of the definitions (`#define`, `#undef`) and conditional groups. -/
inductive Prog (D α : Type)
  | done
  | text (a : α) (next : Prog D α)
  | change (f : D → D) (next : Prog D α)
  /-- `#if c` (or `#ifdef`, `#ifndef`), its part, the remaining parts up to `#endif`, and what follows -/
  | group (c : D → Bool) (body : Prog D α) (rest : Chain D α) (next : Prog D α)
/-- The parts after the first one. -/
inductive Chain (D α : Type)
  | endif
  | els (body : Prog D α)
  | elif (c : D → Bool) (body : Prog D α) (rest : Chain D α)
end

mutual
/-- The text that is compiled, and the definitions afterwards. -/
def Prog.meaning {D α : Type} : Prog D α → D → D × List α
  | .done, d => (d, [])
  | .text a k, d => ((k.meaning d).1, a :: (k.meaning d).2)
  | .change f k, d => k.meaning (f d)
  | .group c b r k, d =>
    let x := if c d then b.meaning d else r.meaning d
    ((k.meaning x.1).1, x.2 ++ (k.meaning x.1).2)
def Chain.meaning {D α : Type} : Chain D α → D → D × List α
  | .endif, d => (d, [])
  | .els b, d => b.meaning d
  | .elif c b r, d => if c d then b.meaning d else r.meaning d
end

/-- No conditional group inside. -/
def Prog.Flat {D α : Type} : Prog D α → Prop
  | .done => True
  | .text _ k => k.Flat
  | .change _ k => k.Flat
  | .group .. => False

def Chain.Flat {D α : Type} : Chain D α → Prop
  | .endif => True
  | .els b => b.Flat
  | .elif _ b r => b.Flat ∧ r.Flat

/-- Groups are not nested. -/
def Prog.Unnested {D α : Type} : Prog D α → Prop
  | .done => True
  | .text _ k => k.Unnested
  | .change _ k => k.Unnested
  | .group _ b r k => b.Flat ∧ r.Flat ∧ k.Unnested

mutual
/-- Nesting is confined to parts that are processed and are the last of their group. -/
def Prog.Tame {D α : Type} : Prog D α → D → Prop
  | .done, _ => True
  | .text _ k, d => k.Tame d
  | .change f k, d => k.Tame (f d)
  | .group c b r k, d =>
    (if c d then b.Tame d ∧ r.Flat ∧ (b.Flat ∨ r = .endif) else b.Flat ∧ r.Tame d) ∧
      k.Tame (if c d then b.meaning d else r.meaning d).1
def Chain.Tame {D α : Type} : Chain D α → D → Prop
  | .endif, _ => True
  | .els b, d => b.Tame d
  | .elif c b r, d => if c d then b.Tame d ∧ r.Flat ∧ (b.Flat ∨ r = .endif) else b.Flat ∧ r.Tame d
end

end CPreproc
