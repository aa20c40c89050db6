import Verif.Model.Lexer

/-!
# Model of the loops that skip tokens

`while (!lex_peek(T, NULL)) next_token = lex_token();` and the like: up to `#elif`, `#else` or `#endif` (src/parser.c:329-336), to `>` of an
`#include` (src/parser.c:374-376), to `#endif` (src/parser.c:456-458), to the colon or the semicolon in the initial value of a global
variable (src/parser.c:2170-2172, 2178-2180), over an argument of a macro (src/parser.c:924-927, 3081-3083), and to the end of the line of a
macro definition (src/lexer.c:632-639).
-/

namespace Shecc.Lex

/-- What became of a loop. -/
inductive Skipped
  /-- it ended with this token at this position -/
  | done (t : Tok) (s : Src)
  /-- `error` -/
  | err
  /-- it had not ended after the number of turns given -/
  | more
  deriving DecidableEq

/-- `n` turns of the loop; the text is at `s`, and `next_token` is `t`; `stop`: the condition under which it ends. -/
def skip (E : Env) (stop : Tok → Src → Bool) : Nat → Tok → Src → Skipped
  | 0, _, _ => .more
  | n + 1, t, s =>
    if stop t s then .done t s
    else
      match lex E (s.length + 1) s with
      | .tok t' _ s' => skip E stop n t' s'
      | .err => .err
      | .limit => .more

/-- `cppd_control_flow_skip_lines` (src/parser.c:329-336). -/
def stopIf (t : Tok) (_ : Src) : Bool := t = .cppd_elif || t = .cppd_else || t = .cppd_endif

/-- The rest of `#if` behind the branch taken (src/parser.c:456-458). -/
def stopEndif (t : Tok) (_ : Src) : Bool := t = .cppd_endif

/-- `#include <` (src/parser.c:374-376). -/
def stopGt (t : Tok) (_ : Src) : Bool := t = .gt

/-- `eval_ternary_imm` (src/parser.c:2170-2172). -/
def stopColon (t : Tok) (_ : Src) : Bool := t = .colon

/-- `eval_ternary_imm` (src/parser.c:2178-2180). -/
def stopSemicolon (t : Tok) (_ : Src) : Bool := t = .semicolon

/-- An argument of a macro (src/parser.c:924-927, 3081-3083). -/
def stopArg (t : Tok) (_ : Src) : Bool := t = .comma || t = .close_bracket

/-- `skip_macro_body` (src/lexer.c:632-639). -/
def stopLine (_ : Tok) (s : Src) : Bool := isNewline (hd s)

end Shecc.Lex
