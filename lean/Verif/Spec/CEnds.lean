import Verif.Model.Lexer

/-!
# Specification: reading ends

The tokens that calls of the lexer yield one after another, and loops that read tokens up to one they look for.
-/

namespace CEnds
open Shecc.Lex

/-- How a text ends: at its end (where the position is then `s`), or with a failure. -/
inductive End
  | eof (s : Src)
  | err

/-- A call of the lexer at this position: the step limit of the model is beyond the text. -/
def token (E : Env) (s : Src) : Res := lex E (s.length + 1) s

/-- Calls one after another: each token with the position behind it, and how it ends. -/
inductive Scan (E : Env) : Src → List (Tok × Src) → End → Prop
  | eof {s r : Src} {str : List Char} : token E s = .tok .eof str r → Scan E s [] (.eof r)
  | err {s : Src} : token E s = .err → Scan E s [] .err
  | tok {s r : Src} {t : Tok} {str : List Char} {l : List (Tok × Src)} {e : End} : t ≠ .eof → token E s = .tok t str r → Scan E r l e →
      Scan E s ((t, r) :: l) e

end CEnds
