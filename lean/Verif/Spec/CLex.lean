import Verif.Model.Lexer

/-!
# Specification: the lexical grammar

Tokens with their spelling in the source text, separators (blanks, spliced lines, comments), and when two neighbours
run together.  Only the names of the token kinds are shared with the model.
-/

namespace CLex
open Shecc.Lex (Tok)

/-- Punctuators and operators. -/
def puncts : List (Tok × String) :=
  [(.comma, ","), (.open_bracket, "("), (.close_bracket, ")"), (.open_curly, "{"), (.close_curly, "}"),
   (.open_square, "["), (.close_square, "]"), (.asterisk, "*"), (.divide, "/"), (.mod, "%"), (.bit_or, "|"),
   (.bit_xor, "^"), (.bit_not, "~"), (.log_and, "&&"), (.log_or, "||"), (.log_not, "!"), (.lt, "<"), (.gt, ">"),
   (.le, "<="), (.ge, ">="), (.lshift, "<<"), (.rshift, ">>"), (.dot, "."), (.arrow, "->"), (.plus, "+"), (.minus, "-"),
   (.minuseq, "-="), (.pluseq, "+="), (.asteriskeq, "*="), (.divideeq, "/="), (.modeq, "%="), (.lshifteq, "<<="),
   (.rshifteq, ">>="), (.xoreq, "^="), (.oreq, "|="), (.andeq, "&="), (.eq, "=="), (.noteq, "!="), (.assign, "="),
   (.increment, "++"), (.decrement, "--"), (.question, "?"), (.colon, ":"), (.semicolon, ";"), (.ampersand, "&"),
   (.elipsis, "...")]

def keywords : List (Tok × String) :=
  [(.if_, "if"), (.while_, "while"), (.for_, "for"), (.do_, "do"), (.else_, "else"), (.return_, "return"),
   (.typedef, "typedef"), (.enum, "enum"), (.struct, "struct"), (.sizeof, "sizeof"), (.switch, "switch"),
   (.case_, "case"), (.break_, "break"), (.default, "default"), (.continue_, "continue")]

def directives : List (Tok × String) :=
  [(.cppd_include, "#include"), (.cppd_define, "#define"), (.cppd_undef, "#undef"), (.cppd_error, "#error"),
   (.cppd_if, "#if"), (.cppd_elif, "#elif"), (.cppd_else, "#else"), (.cppd_endif, "#endif"), (.cppd_ifdef, "#ifdef"),
   (.cppd_ifndef, "#ifndef")]

def wordChars : List Char :=
  "abcdefghijklmnopqrstuvwxyzABCDEFGHIJKLMNOPQRSTUVWXYZ0123456789_".toList
def digits : List Char := "0123456789".toList
/-- what may follow the first digit of a number -/
def numChars : List Char := "0123456789abcdefABCDEFx".toList

inductive Token
  | punct (t : Tok) (sp : String)
  | keyword (t : Tok) (sp : String)
  | directive (t : Tok) (sp : String)
  | ident (w : List Char)
  | num (w : List Char)
  | str (s : List Char)
  | chr (c : Char)

/-- How a character is written inside a string or character constant. -/
def escChar : Char → List Char
  | '\n' => ['\\', 'n']
  | '"' => ['\\', '"']
  | '\r' => ['\\', 'r']
  | '\'' => ['\\', '\'']
  | '\t' => ['\\', 't']
  | '\\' => ['\\', '\\']
  | '\x00' => ['\\', '0']
  | c => [c]

def Token.spelling : Token → List Char
  | .punct _ sp | .keyword _ sp | .directive _ sp => sp.toList
  | .ident w | .num w => w
  | .str s => '"' :: s.flatMap escChar ++ ['"']
  | .chr c => '\'' :: escChar c ++ ['\'']

def Token.Valid : Token → Prop
  | .punct t sp => (t, sp) ∈ puncts
  | .keyword t sp => (t, sp) ∈ keywords
  | .directive t sp => (t, sp) ∈ directives
  | .ident w => w ≠ [] ∧ (∀ c ∈ w, c ∈ wordChars) ∧ (∀ c, w.head? = some c → c ∉ digits) ∧
      ∀ p ∈ keywords, p.2.toList ≠ w
  | .num w => (∃ c r, w = c :: r ∧ c ∈ digits) ∧ ∀ c ∈ w, c ∈ numChars
  | .str _ => True
  | .chr _ => True

/-- The kind and text a lexer must report. -/
def Token.value : Token → Tok × List Char
  | .punct t _ => (t, [])
  | .keyword t sp => (t, sp.toList)
  | .directive t sp => (t, sp.toList)
  | .ident w => (.identifier, w)
  | .num w => (.numeric, w)
  | .str s => (.string, s)
  | .chr c => (.char, [c])

/-- Writing `c` directly after the token would make a longer token or start a comment. -/
def Token.Glues : Token → Char → Prop
  | .punct t sp, c => (∃ p ∈ puncts, (sp.toList ++ [c]) <+: p.2.toList) ∨ (t = .divide ∧ (c = '/' ∨ c = '*'))
  | .keyword _ _, c | .directive _ _, c | .ident _, c => c ∈ wordChars
  | .num _, c => c ∈ numChars
  | .str _, _ | .chr _, _ => False

/-- Separators. -/
inductive Piece
  | blank (c : Char)
  /-- backslash, newline -/
  | splice
  /-- `/* text */` -/
  | block (text : List Char)
  /-- `// text` and newline -/
  | line (text : List Char)

def Piece.text : Piece → List Char
  | .blank c => [c]
  | .splice => ['\\', '\n']
  | .block t => '/' :: '*' :: (t ++ ['*', '/'])
  | .line t => '/' :: '/' :: (t ++ ['\n'])

def blanks : List Char := [' ', '\t', '\r', '\n']

/-- `*/` does not occur in `t`. -/
def NoClose (t : List Char) : Prop := ∀ a b, t ≠ a ++ '*' :: '/' :: b

def Piece.Valid : Piece → Prop
  | .blank c => c ∈ blanks
  | .splice => True
  | .block t => NoClose (t ++ ['*']) ∧ '\x00' ∉ t
  | .line t => '\x00' ∉ t ∧ '\n' ∉ t ∧ '\r' ∉ t ∧ t.getLast? ≠ some '\\'

/-- A separator and the token after it. -/
abbrev Item := List Piece × Token

def sepText (ps : List Piece) : List Char := ps.flatMap Piece.text

/-- The source text for a list of items and a final separator. -/
def render : List Item → List Piece → List Char
  | [], fin => sepText fin
  | (ps, t) :: rest, fin => sepText ps ++ (t.spelling ++ render rest fin)

/-- The text after leading blanks and spliced lines. -/
def dropBlanks : List Char → List Char
  | [] => []
  | '\\' :: '\n' :: r => dropBlanks r
  | c :: r => if c ∈ blanks then dropBlanks r else c :: r

/-- The text does not begin with a blank or a spliced line. -/
def StartsAtToken (x : List Char) : Prop := dropBlanks x = x

/-- Number of `*` at the end of the text. -/
def trailingStars (t : List Char) : Nat := (t.reverse.takeWhile (· = '*')).length

/-- Operators after which this lexer looks past blanks for a continuation (C44). -/
def blankBlind : List Tok := [.divide, .bit_xor, .asterisk, .mod, .lshift, .rshift, .minus]

/-- The token cannot merge with the text after it. -/
def Apart (t : Token) (x : List Char) : Prop :=
  (∀ c, x.head? = some c → ¬ t.Glues c) ∧
  (∀ k sp, t = .punct k sp → k ∈ blankBlind → ∀ c, (dropBlanks x).head? = some c → ¬ t.Glues c)

/-- No neighbours merge anywhere in the text. -/
def AllApart : List Item → List Piece → Prop
  | [], _ => True
  | (_, t) :: rest, fin => Apart t (render rest fin) ∧ AllApart rest fin

end CLex
