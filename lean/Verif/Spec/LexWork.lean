import Verif.Spec.Effort
import Verif.Spec.Work
/-
How much work the lexer does, and with it a whole run: specification for C81.
-/
namespace Mofmt

/-- Calls of `peek` and `next` in `accept` (lexing.rs:130-138). -/
def acceptWork (cs : Text) (s : LexS) : Nat := if (s.accept cs).1 then 2 else 1

/-- Calls of `peek` and `next` in a loop that runs while the next character is in a class (e.g. lexing.rs:142-149). -/
def skipWork (p : Char → Bool) : Text → Nat
  | c :: cs => if p c then 2 + skipWork p cs else 1
  | [] => 1

/-- Work of a scan that tries to accept one of some characters after the other and then makes a token
(lexing.rs:190-239); making a token counts as one. -/
def acceptsWork : List Text → LexS → Nat
  | [], _ => 1
  | cs :: rest, s => acceptWork cs s + if (s.accept cs).1 then 1 else acceptsWork rest s

/-- Work of `lex_string` (lexing.rs:242-252) -/
def stringWork : Text → Nat
  | '\\' :: _ :: cs => 2 + stringWork cs
  | '\\' :: [] => 2 + stringWork []
  | '"' :: _ => 2
  | _ :: cs => 1 + stringWork cs
  | [] => 2

/-- Work of `lex_qident` (lexing.rs:255-272) -/
def qidentWork : Text → Nat
  | '\\' :: _ :: cs => 2 + qidentWork cs
  | '\\' :: [] => 2 + qidentWork []
  | '\'' :: _ => 2
  | c :: cs => if isWordChar c || qidentAllowed.contains c then 1 + qidentWork cs else 2
  | [] => 2

/-- Work of `lex_blockcomment` (lexing.rs:299-313): after a `*` the next character is looked at. -/
def blockWork : Text → Nat
  | '*' :: '/' :: _ => 4
  | '*' :: [] => 3
  | '*' :: cs => 2 + blockWork cs
  | _ :: cs => 1 + blockWork cs
  | [] => 2

/-- Work of `lex_slash` and `lex_linecomment` (lexing.rs:275-296) -/
def slashWork (s : LexS) : Nat :=
  1 + match s.peek with
  | some c =>
    if c = '/' then skipWork (fun c => !(c == '\r' || c == '\n')) s.chars + 1
    else if c = '*' then blockWork s.chars
    else 1
  | none => 1

/-- Work of `lex_numeral` (lexing.rs:329-345) after the digits and the point -/
def exponentWork (s : LexS) : Nat :=
  acceptWork c!"eE" s +
    (if (s.accept c!"eE").1 then
      acceptWork c!"+-" (s.accept c!"eE").2 + skipWork isDigit ((s.accept c!"eE").2.accept c!"+-").2.chars
    else 0) + 1

/-- Work of `lex_numeral` (lexing.rs:329-345) -/
def numeralWork (s : LexS) : Nat :=
  skipWork isDigit s.chars + acceptWork c!"." s.acceptDigits +
    if (s.acceptDigits.accept c!".").1 then
      skipWork isDigit (s.acceptDigits.accept c!".").2.chars + exponentWork (s.acceptDigits.accept c!".").2.acceptDigits
    else exponentWork (s.acceptDigits.accept c!".").2

/-- Work of `lex_nondigit` (lexing.rs:348-417): the word is compared with every keyword. -/
def wordWork (s : LexS) : Nat := skipWork isWordChar s.chars + keywords.length + 1

/-- Work of `lex_source` (lexing.rs:152-187) and of `lex_space` (lexing.rs:316-326) -/
def sourceWork : Nat → LexS → Nat
  | 0, _ => 0
  | n + 1, s =>
    match s.peek with
    | none => 1
    | some c =>
      1 + match c with
      | ';' => 1
      | ',' => 1
      | '+' => 1
      | '-' => 1
      | '*' => 1
      | '^' => 1
      | '(' => 1
      | '{' => 1
      | '[' => 1
      | ')' => 1
      | '}' => 1
      | ']' => 1
      | ':' => acceptsWork [c!"="] s.next
      | '=' => acceptsWork [c!"="] s.next
      | '<' => acceptsWork [c!">", c!"="] s.next
      | '>' => acceptsWork [c!"="] s.next
      | '.' => acceptsWork [c!"+", c!"-", c!"*", c!"/", c!"^"] s.next
      | '"' => stringWork s.next.chars
      | '\'' => qidentWork s.next.chars
      | '/' => slashWork s.next
      | c =>
        if isWs c then skipWork isWs s.next.chars + sourceWork n (skipWhile isWs s.next.chars s.next).jump
        else if isDigit c then numeralWork s.next
        else if isAlpha c || c == '_' then wordWork s.next
        else 1

/-- Work of `tokenize` (lexing.rs:66-70) -/
def tokenizeWork (name src : Text) : Nat → LexS → Nat
  | 0, _ => 0
  | n + 1, s =>
    if s.atEof then 0
    else sourceWork 2 s + match lexSource name src 2 s with
      | .ok s => tokenizeWork name src n s
      | _ => 0

/-- Work of `lex` (lexing.rs:5-9): how often it looks at or takes a character, makes a token or a message, or compares a word
with a keyword. -/
def lexWork (name src : Text) : Nat := tokenizeWork name src (src.length + 2) (LexS.init src)

/-- Work of the library for a file: of the lexer, of the parser (C75), of building the tree, which is one step for each event,
of the formatter (C80), and of the printer, which takes every marker and writes the output. -/
def fileWork (name src : Text) (p : Parsed) (t : Tree) (ms : List Marker) (out : Text) : Nat :=
  lexWork name src + steps name p.tokens Grammar.body (parseFuel p.tokens.length) (.call .StoredDefinition) PState.init +
    p.events.length + formatWork t p.comments + ms.length + out.length

end Mofmt
