import Verif.Model.Body
import Verif.Model.GlobalInit

/-!
# Model of the parser outside function bodies (src/parser.c:522-604, 2079-2349, 3144-3392, src/globals.c:562-614)

The functions read the tokens of a whole source text in which directives and macros have been carried out (`Model/Preproc`,
`Model/Macro`), and keep what `TYPES`, `CONSTANTS`, `FUNCS_MAP` and the global block hold.  A type declaration is first read as a
declaration of `Spec/CTypes`, then entered into the tables (`Model/Types`); the C code does both in one pass, but reading does not depend
on the tables.  Function bodies are read by `Model/Body`.  `none` stands for `error`, a crash, or a write outside an array.  Not modelled:
the limits on the number of types, constants, functions, parameters and variables; names longer than their buffers; memory that was never
written is zero.  `n` bounds the depth of recursion.
-/

namespace Shecc.Top
open Shecc.Parser (T POp getOperator readNumericConstant infixExpr evalImm)
open Shecc.Body (expect arraySize)
open CTypes (TSpec Form Declr Decl)

/-- A declared name with its declarator. -/
abbrev Named := List Char × Declr

/-! ### Declarators -/

/-- What may follow the name (src/parser.c:553-570). -/
def suffix : List T → Option (Form × List T)
  | (.open_square, _) :: (.numeric, k) :: (.close_square, _) :: ts => (arraySize k).map fun k => (.array k, ts)
  | (.open_square, _) :: (.close_square, _) :: ts => some (.unsized, ts)
  | (.open_square, _) :: _ => none
  | ts => some (.plain, ts)

mutual
/-- `read_inner_var_decl` (src/parser.c:522-572), behind the type; an anonymous parameter has no name (`anon`). -/
def inner : Nat → Bool → TSpec → List T → Option (Named × List T)
  | 0, _, _, _ => none
  | n + 1, anon, sp, ts =>
    let k := (ts.takeWhile fun t => t.1 = .asterisk).length
    match ts.drop k with
    | (.open_bracket, _) :: (.asterisk, _) :: (.identifier, s) :: (.close_bracket, _) :: (.open_bracket, _) :: ts =>
      (params n true ts).map fun r => ((s, { spec := sp, ptrs := k, form := .func, name := String.ofList s }), r.2)
    | (.open_bracket, _) :: _ => none
    | (.identifier, s) :: ts =>
      if anon then none
      else (suffix ts).map fun r => ((s, { spec := sp, ptrs := k, form := r.1, name := String.ofList s }), r.2)
    | ts => if anon then (suffix ts).map fun r => (([], { spec := sp, ptrs := k, form := r.1, name := "" }), r.2) else none

/-- `read_parameter_list_decl` (src/parser.c:589-604), behind the opening parenthesis; commas are optional there. -/
def params : Nat → Bool → List T → Option (List Named × List T)
  | 0, _, _ => none
  | n + 1, anon, ts =>
    match ts with
    | (.identifier, ty) :: ts =>
      (inner n anon (.name (String.ofList ty)) ts).bind fun r =>
        (params n anon (match r.2 with
          | (.comma, _) :: ts => ts
          | ts => ts)).map fun q => (r.1 :: q.1, q.2)
    | (.elipsis, _) :: (.close_bracket, _) :: ts => some ([], ts)
    | (.close_bracket, _) :: ts => some ([], ts)
    | _ => none
end

/-- `read_full_var_decl` (src/parser.c:574-580) of a member. -/
def fullDecl (n : Nat) : List T → Option (Named × List T)
  | (.struct, _) :: (.identifier, s) :: ts => inner n false (.tag (String.ofList s)) ts
  | (.identifier, s) :: ts => inner n false (.name (String.ofList s)) ts
  | _ => none

/-! ### Types -/

/-- The members of a structure (src/parser.c:3234-3240, 3287-3293), to the closing brace. -/
def members : Nat → List T → Option (List Declr × List T)
  | 0, _ => none
  | n + 1, ts =>
    (fullDecl n ts).bind fun r => expect .semicolon r.2 fun ts =>
      match ts with
      | (.close_curly, _) :: ts => some ([r.1.2], ts)
      | ts => (members n ts).map fun q => (r.1.2 :: q.1, q.2)

/-- The constants of an enumeration (src/parser.c:3253-3261), to the closing brace. -/
def enumItems : Nat → List T → Option (List (String × Option Int) × List T)
  | 0, _ => none
  | n + 1, ts =>
    let next := fun (c : String × Option Int) (ts : List T) =>
      match ts with
      | (.comma, _) :: ts => (enumItems n ts).map fun q => (c :: q.1, q.2)
      | (.close_curly, _) :: ts => some ([c], ts)
      | _ => none
    match ts with
    | (.identifier, s) :: (.assign, _) :: (.numeric, k) :: ts => next (String.ofList s, some (readNumericConstant k).toInt) ts
    | (.identifier, _) :: (.assign, _) :: _ => none
    | (.identifier, s) :: ts => next (String.ofList s, none) ts
    | _ => none

/-- The name and the semicolon at the end of a `typedef`. -/
def typedefEnd (ts : List T) (k : String → Decl) : Option (Decl × List T) :=
  match ts with
  | (.identifier, x) :: (.semicolon, _) :: ts => some (k (String.ofList x), ts)
  | _ => none

/-- The type declarations of `read_global_statement` (src/parser.c:3222-3328). -/
def typeDecl (n : Nat) : List T → Option (Decl × List T)
  | (.struct, _) :: (.identifier, s) :: (.open_curly, _) :: ts =>
    (members n ts).bind fun r => expect .semicolon r.2 fun ts => some (.struct (String.ofList s) r.1, ts)
  | (.typedef, _) :: (.enum, _) :: (.open_curly, _) :: ts =>
    (enumItems n ts).bind fun r => typedefEnd r.2 fun x => .typedefEnum r.1 x
  | (.typedef, _) :: (.struct, _) :: (.identifier, s) :: (.open_curly, _) :: ts =>
    (members n ts).bind fun r => typedefEnd r.2 fun x => .typedefStruct (some (String.ofList s)) (some r.1) x
  | (.typedef, _) :: (.struct, _) :: (.identifier, s) :: ts => typedefEnd ts fun x => .typedefStruct (some (String.ofList s)) none x
  | (.typedef, _) :: (.struct, _) :: (.open_curly, _) :: ts =>
    (members n ts).bind fun r => typedefEnd r.2 fun x => .typedefStruct none (some r.1) x
  | (.typedef, _) :: (.identifier, b) :: ts => typedefEnd ts fun x => .typedefName (String.ofList b) x
  | _ => none

/-! ### Initial values of global variables -/

/-- `read_primary_constant` (src/parser.c:2079-2100); the buffer has 10 characters. -/
def primary : Nat → List T → Option (BitVec 32 × List T)
  | 0, _ => none
  | n + 1, ts =>
    let unsigned := fun (ts : List T) =>
      match ts with
      | (.open_bracket, _) :: ts => (primary n ts).bind fun r => expect .close_bracket r.2 fun ts => some (r.1, ts)
      | (.numeric, s) :: ts => if s.length < 10 then some (readNumericConstant s, ts) else none
      | (.char, s) :: ts => some (BitVec.ofNat 32 (s.headD '\x00').toNat, ts)
      | _ => none
    match ts with
    | (.minus, _) :: ts => (unsigned ts).map fun r => (-1 * r.1, r.2)
    | ts => unsigned ts

/-- The operators and operands behind the first operand, as far as they go (src/parser.c:2197-2198, 2222-2223, 2287-2291). -/
def operands : Nat → List T → Option (List (POp × BitVec 32) × List T)
  | 0, _ => none
  | n + 1, ts =>
    match getOperator ts with
    | (some op, ts) => (primary n ts).bind fun r => (operands n r.2).map fun q => ((op, r.1) :: q.1, q.2)
    | (none, ts) => some ([], ts)

/-- `read_global_assignment` (src/parser.c:2184-2349) with `eval_ternary_imm` (src/parser.c:2167-2182): the value.  An expression with the
two-stack algorithm (`Model/Parser`); before `?` it is a condition: if it is zero, tokens are skipped up to the next colon, else
tokens are skipped from the colon up to the next semicolon. -/
def initializer : Nat → List T → Option (BitVec 32 × List T)
  | 0, _ => none
  | n + 1, ts =>
    (primary n ts).bind fun a => (operands n a.2).bind fun r => (infixExpr evalImm a.1 r.1).bind fun v =>
      match r.2 with
      | (.question, _) :: ts =>
        if v = 0 then
          match ts.dropWhile fun t => t.1 ≠ .colon with
          | _ :: ts => initializer n ts
          | [] => none
        else (initializer n ts).bind fun q => expect .colon q.2 fun ts => some (q.1, ts.dropWhile fun t => t.1 ≠ .semicolon)
      | ts => some (v, ts)

/-! ### The program -/

/-- A function definition: its name, its parameters, how many variables were declared before its local variables, and the statements of its
body. -/
structure Def where
  name : List Char
  params : List Named
  nv : Nat
  body : CStmt.Stmts

/-- The tables: `TYPES`; `CONSTANTS`; the names in `FUNCS_MAP`; the variables of the global block in the order of their declaration, with
their initial values; `elf_data`; the function definitions. -/
structure Tab where
  types : Types.Table
  consts : List (String × BitVec 32)
  funcs : List (List Char)
  globals : List (Named × Option (BitVec 32))
  data : List Char
  defs : List Def

/-- The tables at the beginning (src/parser.c:3339-3371). -/
def init : Tab where
  types := Types.builtin
  consts := []
  funcs := ["__syscall".toList]
  globals := []
  data := []
  defs := []

/-- Variables numbered from `k` on. -/
def numbered (k : Nat) : List Named → List Body.Entry
  | [] => []
  | e :: l => (e.1, k, Types.readVar e.2) :: numbered (k + 1) l

/-- What the tables say to the parser of function bodies. -/
def Tab.glob (t : Tab) (ps : List Named) : Body.Glob where
  types := t.types
  const := fun s => Types.findConstant t.consts (String.ofList s)
  fn := fun s => t.funcs.contains s
  macro_ := fun _ => false
  params := numbered t.globals.length ps
  globals := numbered 0 (t.globals.map (·.1))

/-- `add_func` (src/globals.c:562-581). -/
def Tab.addFunc (t : Tab) (s : List Char) : Tab := { t with funcs := if t.funcs.contains s then t.funcs else t.funcs ++ [s] }

/-- `add_type` and what follows (src/parser.c:3222-3328). -/
def Tab.addType (t : Tab) (d : Decl) : Option Tab :=
  (Types.declare t.types d).map fun T =>
    match d with
    | .typedefEnum items _ => { t with types := T, consts := Types.readEnum 0 items t.consts }
    | _ => { t with types := T }

/-- A global variable (src/parser.c:3165-3166, 3195-3213). -/
def Tab.addVar (t : Tab) (e : Named) (v : Option (BitVec 32)) : Tab := { t with globals := t.globals ++ [(e, v)] }

variable (base : Nat)

/-- `read_global_decl` (src/parser.c:3164-3214).  The declaration of a pointer to a function takes an operand from the empty operand stack. -/
def globalDecl (n : Nat) (ty : List Char) (ts : List T) (t : Tab) : Option (Tab × List T) :=
  (inner n false (.name (String.ofList ty)) ts).bind fun d =>
    match d.2 with
    | (.open_bracket, _) :: ts =>
      (params n false ts).bind fun ps =>
        let t1 := t.addFunc d.1.1
        match ps.2 with
        | (.semicolon, _) :: ts => some (t1, ts)
        | ts =>
          let nv := t.globals.length + ps.1.length
          (Body.funcBody (t1.glob ps.1) n base nv t.data ts).map fun r =>
            ({ t1 with data := r.2.1.data, defs := t.defs ++ [⟨d.1.1, ps.1, nv, r.1⟩] }, r.2.2)
    | (.assign, _) :: ts =>
      let v := Types.readVar d.1.2
      if v.isPtr = 0 ∧ v.arraySize = 0 ∧ v.isFunc = false then
        (initializer n ts).bind fun r => expect .semicolon r.2 fun ts => some (t.addVar d.1 (some r.1), ts)
      else none
    | (.semicolon, _) :: ts => if (Types.readVar d.1.2).isFunc then none else some (t.addVar d.1 none, ts)
    | _ => none

/-- `read_global_statement` (src/parser.c:3216-3333). -/
def global_ (n : Nat) (ts : List T) (t : Tab) : Option (Tab × List T) :=
  match ts with
  | (.identifier, ty) :: ts => globalDecl base n ty ts t
  | ts => (typeDecl n ts).bind fun r => (t.addType r.1).map fun t => (t, r.2)

/-- The loop of `parse_internal` (src/parser.c:3383-3387). -/
def loop : Nat → List T → Tab → Option Tab
  | 0, _, _ => none
  | n + 1, ts, t =>
    (global_ base n ts t).bind fun r =>
      match r.2 with
      | (.eof, _) :: _ => some r.1
      | ts => loop n ts r.1

/-- `parse_internal` (src/parser.c:3335-3388): the tokens of a program. -/
def program (n : Nat) (ts : List T) : Option Tab := loop base n ts init

/-- The storage `reg_alloc` gives a global variable (src/reg-alloc.c:248-277), by the types at the end of the program; `none`: a null pointer. -/
def kind (T : Types.Table) (v : Types.Var) : Option GlobalInit.Kind :=
  let size := (Types.findType T v.typeName .all).bind fun i => T[i]?.map (·.size)
  if v.arraySize ≠ 0 then
    if v.isPtr ≠ 0 then some (.array (4 * v.arraySize)) else size.map fun k => .array (v.arraySize * k)
  else if v.isPtr ≠ 0 then some .word
  else if v.typeName ≠ "int" ∧ v.typeName ≠ "char" ∧ v.typeName ≠ "_Bool" then size.map fun k => .struct k
  else some .word

/-- The declarations `ds` of the global block were made of the global variables: one for each, in the order of the program, with a temporary that
holds the initial value if there is one (src/parser.c:3195-3196, 2203-2216; `Model/GlobalInit`). -/
structure Globals (t : Tab) (V : RegAlloc.Vars) (K : Nat → GlobalInit.Kind) (ds : List GlobalInit.Decl) : Prop where
  all : ds.length = t.globals.length
  each : ∀ (i : Nat) (e : Named) (v : Option (BitVec 32)) (d : GlobalInit.Decl), t.globals[i]? = some (e, v) → ds[i]? = some d →
    kind t.types (Types.readVar e.2) = some (K d.var) ∧ d.tmp.map V.initVal = v

end Shecc.Top
