/-!
# Model of src/lexer.c

The source buffer from the current position on is a list of characters; `next_char` is its head, 0 at the end of the
text (`SOURCE` is zero-terminated).  `macro_return_idx` is `none` for 0 and otherwise the text from that index on.
Token buffers (`token_str[MAX_TOKEN_LEN]`) are unbounded lists here: the code does not check their bound.
-/

namespace Shecc.Lex

abbrev Src := List Char

/-- `token_t` (src/lexer.c:11-89). -/
inductive Tok
  | start | numeric | identifier | comma | string | char | open_bracket | close_bracket | open_curly | close_curly
  | open_square | close_square | asterisk | divide | mod | bit_or | bit_xor | bit_not | log_and | log_or | log_not
  | lt | gt | le | ge | lshift | rshift | dot | arrow | plus | minus | minuseq | pluseq | asteriskeq | divideeq | modeq
  | lshifteq | rshifteq | xoreq | oreq | andeq | eq | noteq | assign | increment | decrement | question | colon
  | semicolon | eof | ampersand | return_ | if_ | else_ | while_ | for_ | do_ | typedef | enum | struct | sizeof | elipsis
  | switch | case_ | break_ | default | continue_
  | cppd_include | cppd_define | cppd_undef | cppd_error | cppd_if | cppd_elif | cppd_else | cppd_endif | cppd_ifdef
  | cppd_ifndef
  deriving DecidableEq, Repr

/-- `next_char` -/
def hd : Src → Char
  | [] => '\x00'
  | c :: _ => c

/-- `is_whitespace` (src/lexer.c:103-106). -/
def isWhitespace (c : Char) : Bool := c = ' ' || c = '\t'

/-- `is_newline` (src/lexer.c:116-119). -/
def isNewline (c : Char) : Bool := c = '\r' || c = '\n'

/-- `is_digit` (src/lexer.c:128-131). -/
def isDigit (c : Char) : Bool := '0' ≤ c && c ≤ '9'

/-- `is_alnum` (src/lexer.c:122-126). -/
def isAlnum (c : Char) : Bool := ('a' ≤ c && c ≤ 'z') || ('A' ≤ c && c ≤ 'Z') || ('0' ≤ c && c ≤ '9') || c = '_'

/-- `is_hex` (src/lexer.c:133-137): note the `x`. -/
def isHex (c : Char) : Bool := ('0' ≤ c && c ≤ '9') || ('a' ≤ c && c ≤ 'f') || c = 'x' || ('A' ≤ c && c ≤ 'F')

/-- `is_numeric` (src/lexer.c:139-154). -/
def isNumeric (b : List Char) : Bool :=
  let hex := b.length > 2 && b.take 2 == ['0', 'x']
  b.all fun c => if hex then isHex c else isDigit c

/-- `skip_whitespace` (src/lexer.c:156-171), with `is_linebreak` (src/lexer.c:111-114) inlined; `nl` is `skip_newline`. -/
def skipWs (nl : Bool) : Src → Src
  | [] => []
  | '\\' :: '\n' :: r => skipWs nl r
  | c :: r => if isWhitespace c || (nl && isNewline c) then skipWs nl r else c :: r

/-- `read_char` (src/lexer.c:173-180). -/
def readChar (skip nl : Bool) (s : Src) : Src := if skip then skipWs nl s.tail else s.tail

/-- Escapes of strings and characters (src/lexer.c:320-334, 352-366). -/
def escape : Char → Option Char
  | 'n' => some '\n'
  | '"' => some '"'
  | 'r' => some '\r'
  | '\'' => some '\''
  | 't' => some '\t'
  | '\\' => some '\\'
  | '0' => some '\x00'
  | _ => none

/-- The string loop (src/lexer.c:318-343) from the character read next; `buf` is `token_str[0..i)` reversed.  `none`:
abort, or running off the end of the buffer. -/
def strLoop (buf : List Char) (special : Bool) : Src → Option (List Char × Src)
  | [] => none
  | c :: r =>
    if c = '"' ∧ special = false then some (buf.reverse, r)
    else
      match buf with
      | '\\' :: b =>
        match escape c with
        | none => none
        | some e => strLoop (e :: b) (c = '\\') r
      | _ => strLoop (c :: buf) (c = '\\') r

/-- The comment loop (src/lexer.c:225-234), from just after the character before: `some` the text after `*/`, `none` if the
end of the text is reached. -/
def commentLoop : Src → Option Src
  | [] => none
  | c :: r =>
    if c = '*' then
      match r with
      | [] => none
      | c' :: r' => if c' = '/' then some r' else commentLoop r'
    else commentLoop r

/-- Directive names (src/lexer.c:202-221). -/
def directive (s : String) : Option Tok :=
  if s = "#include" then some .cppd_include
  else if s = "#define" then some .cppd_define
  else if s = "#undef" then some .cppd_undef
  else if s = "#error" then some .cppd_error
  else if s = "#if" then some .cppd_if
  else if s = "#elif" then some .cppd_elif
  else if s = "#ifdef" then some .cppd_ifdef
  else if s = "#ifndef" then some .cppd_ifndef
  else if s = "#else" then some .cppd_else
  else if s = "#endif" then some .cppd_endif
  else none

/-- Keywords (src/lexer.c:548-577). -/
def keyword (s : String) : Option Tok :=
  if s = "if" then some .if_
  else if s = "while" then some .while_
  else if s = "for" then some .for_
  else if s = "do" then some .do_
  else if s = "else" then some .else_
  else if s = "return" then some .return_
  else if s = "typedef" then some .typedef
  else if s = "enum" then some .enum
  else if s = "struct" then some .struct
  else if s = "sizeof" then some .sizeof
  else if s = "switch" then some .switch
  else if s = "case" then some .case_
  else if s = "break" then some .break_
  else if s = "default" then some .default
  else if s = "continue" then some .continue_
  else none

/-- What a call reads besides the text: `aliasing`, the alias table (`find_alias`), `skip_newline`, `macro_return_idx`. -/
structure Env where
  aliasing : Bool
  alias : List Char → Option (List Char)
  nl : Bool
  ret : Option Src

inductive Res
  /-- token, its text, the source from the new position on -/
  | tok (t : Tok) (str : List Char) (rest : Src)
  /-- `error` or `abort` -/
  | err
  /-- the model's step limit is reached (never for limits above the text length if `ret = none`) -/
  | limit
  deriving DecidableEq, Repr

/-- Identifiers and keywords (src/lexer.c:539-600) given the identifier read and the text after it. -/
def lexWord (E : Env) (w : List Char) (rest : Src) : Res :=
  match keyword (String.ofList w) with
  | some t => .tok t w rest
  | none =>
    if E.aliasing then
      match E.alias w with
      | some a =>
        if isNumeric a then .tok .numeric a rest
        else if a = "_Bool".toList then .tok .identifier a rest
        else .tok .string a rest
      | none => .tok .identifier w rest
    else .tok .identifier w rest

/-- `lex_token_internal` (src/lexer.c:190-625).  `n` bounds the recursive calls after comments and at newlines. -/
def lex (E : Env) : Nat → Src → Res
  | 0, _ => .limit
  | n + 1, s =>
    -- the two ways to advance: `read_char(true)` and `read_char(false)`
    let rd := fun s => readChar true E.nl s
    let rf := fun (s : Src) => s.tail
    let sk := fun s => skipWs E.nl s
    match s with
    | [] => .tok .eof [] []
    | c :: r =>
    if c = '#' then
      let w := r.takeWhile isAlnum
      match directive (String.ofList ('#' :: w)) with
      | some t => .tok t ('#' :: w) (sk (r.dropWhile isAlnum))
      | none => .err
    else if c = '/' then
      let s := rd s
      if hd s = '*' then
        match commentLoop s.tail with
        | some r => lex E n (sk r)
        | none => .err
      else if hd s = '/' then
        -- `do read_char(false) while (next_char && !is_newline(next_char))`
        lex E n (s.tail.dropWhile fun c => !isNewline c)
      else if hd s = '=' then .tok .divideeq [] (rd s)
      else .tok .divide [] s
    else if isDigit c then
      .tok .numeric (c :: r.takeWhile isHex) (sk (r.dropWhile isHex))
    else if c = '(' then .tok .open_bracket [] (rd s)
    else if c = ')' then .tok .close_bracket [] (rd s)
    else if c = '{' then .tok .open_curly [] (rd s)
    else if c = '}' then .tok .close_curly [] (rd s)
    else if c = '[' then .tok .open_square [] (rd s)
    else if c = ']' then .tok .close_square [] (rd s)
    else if c = ',' then .tok .comma [] (rd s)
    else if c = '^' then
      let s := rd s
      if hd s = '=' then .tok .xoreq [] (rd s) else .tok .bit_xor [] s
    else if c = '~' then .tok .bit_not [] (rd s)
    else if c = '"' then
      match strLoop [] false r with
      | some (str, r) => .tok .string str (sk r)
      | none => .err
    else if c = '\'' then
      match r with
      | [] => .err
      | '\\' :: r =>
        match r with
        | [] => .err
        | c :: r =>
          match escape c with
          | none => .err
          | some e => if hd (sk r) = '\'' then .tok .char [e] (rd (sk r)) else .err
      | c :: r => if hd (sk r) = '\'' then .tok .char [c] (rd (sk r)) else .err
    else if c = '*' then
      let s := rd s
      if hd s = '=' then .tok .asteriskeq [] (rd s) else .tok .asterisk [] s
    else if c = '&' then
      let s := rf s
      if hd s = '&' then .tok .log_and [] (rd s)
      else if hd s = '=' then .tok .andeq [] (rd s)
      else .tok .ampersand [] (sk s)
    else if c = '|' then
      let s := rf s
      if hd s = '|' then .tok .log_or [] (rd s)
      else if hd s = '=' then .tok .oreq [] (rd s)
      else .tok .bit_or [] (sk s)
    else if c = '<' then
      let s := rf s
      if hd s = '=' then .tok .le [] (rd s)
      else if hd s = '<' then
        let s := rd s
        if hd s = '=' then .tok .lshifteq [] (rd s) else .tok .lshift [] s
      else .tok .lt [] (sk s)
    else if c = '%' then
      let s := rd s
      if hd s = '=' then .tok .modeq [] (rd s) else .tok .mod [] s
    else if c = '>' then
      let s := rf s
      if hd s = '=' then .tok .ge [] (rd s)
      else if hd s = '>' then
        let s := rd s
        if hd s = '=' then .tok .rshifteq [] (rd s) else .tok .rshift [] s
      else .tok .gt [] (sk s)
    else if c = '!' then
      let s := rf s
      if hd s = '=' then .tok .noteq [] (rd s) else .tok .log_not [] (sk s)
    else if c = '.' then
      let s := rf s
      if hd s = '.' then
        let s := rf s
        if hd s = '.' then .tok .elipsis [] (rd s) else .err
      else .tok .dot [] (sk s)
    else if c = '-' then
      let s := rd s
      if hd s = '>' then .tok .arrow [] (rd s)
      else if hd s = '-' then .tok .decrement [] (rd s)
      else if hd s = '=' then .tok .minuseq [] (rd s)
      else .tok .minus [] (sk s)
    else if c = '+' then
      let s := rf s
      if hd s = '+' then .tok .increment [] (rd s)
      else if hd s = '=' then .tok .pluseq [] (rd s)
      else .tok .plus [] (sk s)
    else if c = ';' then .tok .semicolon [] (rd s)
    else if c = '?' then .tok .question [] (rd s)
    else if c = ':' then .tok .colon [] (rd s)
    else if c = '=' then
      let s := rf s
      if hd s = '=' then .tok .eq [] (rd s) else .tok .assign [] (sk s)
    else if isAlnum c then
      lexWord E (c :: r.takeWhile isAlnum) (sk (r.dropWhile isAlnum))
    else if c = '\n' then
      match E.ret with
      | some m => lex E n m
      | none => lex E n (rd s)
    else if c = '\x00' then .tok .eof [] s
    else .err

/-- Lexing a whole text: the parser's calls, with the kind of call (aliasing or not) fixed; stops at the end of file. -/
def lexAll (E : Env) : Nat → Src → Option (List (Tok × List Char))
  | 0, _ => none
  | n + 1, s =>
    match lex E (s.length + 1) s with
    | .tok .eof _ _ => some [(.eof, [])]
    | .tok t str rest => (lexAll E n rest).map ((t, str) :: ·)
    | _ => none

end Shecc.Lex
