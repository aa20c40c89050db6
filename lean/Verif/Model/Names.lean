import Verif.Model.LibcIo

/-!
# Model of the generated names of `src/parser.c`

`gen_name` and `gen_label`, src/parser.c:12-26, on the `sprintf` of shecc's own library.  Every caller copies the text out
of `global_str_buf` at once.
-/

namespace Shecc.Names
open Shecc.Libc

/-- `global_var_idx`, `global_label_idx` (src/parser.c:12-13) and the memory. -/
structure St where
  vars : CInt
  labels : CInt
  m : Mem

/-- `gen_name`, src/parser.c:16-20.  `buf`: the address of `global_str_buf`; `fmt`: of the literal ".t%d". -/
def genName (fuel buf fmt : Nat) (s : St) : Option St :=
  (sprintf fuel s.m buf fmt fun _ => s.vars).map fun r => { s with vars := s.vars + 1, m := r.1 }

/-- `gen_label`, src/parser.c:22-26.  `fmt`: the address of the literal ".label.%d". -/
def genLabel (fuel buf fmt : Nat) (s : St) : Option St :=
  (sprintf fuel s.m buf fmt fun _ => s.labels).map fun r => { s with labels := s.labels + 1, m := r.1 }

end Shecc.Names
