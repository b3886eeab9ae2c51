import Verif.Model.Token
/-
The lexer. Source: /repo/src/parser/lexing.rs

Rust's `Peekable<CharIndices>` is modelled by the list of remaining characters together with the
byte index of the next one.  Byte offsets are kept exactly as in the code (`pos = i + 1`), and
slicing the source at an offset that is not a character boundary is an explicit panic.
-/
namespace Mofmt

/-- Ways in which the program can abort. -/
inductive Panic where
  /-- `&source[a..b]` with `a > b`, out of range or not on a character boundary -/
  | slice
  /-- failed `assert!` -/
  | assert
  /-- parsing.rs:193-203 `blowup` ("Parser stuck") -/
  | stuck
  /-- `unwrap` on `None` -/
  | unwrap
  /-- `unreachable!()` or `panic!("cannot parse error node")` -/
  | unreachable
  /-- unsigned subtraction below zero (panics in debug builds, wraps in release builds) -/
  | underflow
  /-- reading a directory or writing a file failed -/
  | io
  deriving DecidableEq, Repr

/-- Result of running a piece of the program: a value, a panic, or the interpreter's fuel ran out. -/
inductive Res (α : Type) where
  | ok (a : α)
  | panic (p : Panic)
  | fuel
  deriving DecidableEq, Repr

namespace Res
/-- Sequencing: stop at the first panic. -/
@[inline] def bind {α β : Type} : Res α → (α → Res β) → Res β
  | ok a, f => f a
  | panic p, _ => panic p
  | fuel, _ => fuel
instance : Monad Res where
  pure := ok
  bind := bind
end Res

/-- `char::is_ascii_whitespace` -/
def isWs (c : Char) : Bool := c == ' ' || c == '\t' || c == '\n' || c == '\x0c' || c == '\r'
/-- `char::is_ascii_digit` -/
def isDigit (c : Char) : Bool := 48 ≤ c.toNat && c.toNat ≤ 57
/-- `char::is_ascii_alphabetic` -/
def isAlpha (c : Char) : Bool :=
  (97 ≤ c.toNat && c.toNat ≤ 122) || (65 ≤ c.toNat && c.toNat ≤ 90)
/-- `char::is_ascii_alphanumeric` or `_`; lexing.rs:262, 350 -/
def isWordChar (c : Char) : Bool := isAlpha c || isDigit c || c == '_'

/-- `char::len_utf8` -/
def utf8Len (c : Char) : Nat :=
  if c.toNat < 0x80 then 1 else if c.toNat < 0x800 then 2 else if c.toNat < 0x10000 then 3 else 4

/-- Number of bytes of a text. -/
def byteLen : Text → Nat
  | [] => 0
  | c :: cs => utf8Len c + byteLen cs

/-- Drop exactly `n` bytes, `none` when `n` is not a character boundary. -/
def dropBytes : Text → Nat → Option Text
  | cs, 0 => some cs
  | [], _ + 1 => none
  | c :: cs, n + 1 => if utf8Len c ≤ n + 1 then dropBytes cs (n + 1 - utf8Len c) else none

/-- Take exactly `n` bytes, `none` when `n` is not a character boundary. -/
def takeBytes : Text → Nat → Option Text
  | _, 0 => some []
  | [], _ + 1 => none
  | c :: cs, n + 1 =>
    if utf8Len c ≤ n + 1 then (takeBytes cs (n + 1 - utf8Len c)).map (c :: ·) else none

/-- `&source[a..b]` -/
def slice (src : Text) (a b : Nat) : Option Text :=
  if a ≤ b then (dropBytes src a).bind (takeBytes · (b - a)) else none

/-- lexing.rs:13-34 `struct Lexer` (without the immutable `name` and `source`). -/
structure LexS where
  /-- characters not yet consumed -/
  chars : Text
  /-- byte index of the next character -/
  off : Nat
  start : Pos
  cur : Pos
  tokens : List Token
  comments : List Token
  errors : List Text
  count : Nat
  atEof : Bool
  deriving DecidableEq, Repr

/-- lexing.rs:43-63 `Lexer::new` -/
def LexS.init (src : Text) : LexS :=
  { chars := src, off := 0, start := ⟨0, 1, 1⟩, cur := ⟨0, 1, 1⟩, tokens := [], comments := [],
    errors := [], count := 0, atEof := false }

/-- lexing.rs:73-75 `peek` -/
def LexS.peek (s : LexS) : Option Char := s.chars.head?

/-- lexing.rs:78-94 `next`, the state after it. The returned character is `peek` before it. -/
def LexS.next (s : LexS) : LexS :=
  match s.chars with
  | c :: cs =>
    { s with
      chars := cs
      off := s.off + utf8Len c
      cur := { pos := s.off + 1
               line := if c == '\n' then s.cur.line + 1 else s.cur.line
               col := if c == '\n' then 1 else s.cur.col + 1 } }
  | [] => { s with atEof := true }

/-- lexing.rs:125-127 `jump` -/
def LexS.jump (s : LexS) : LexS := { s with start := s.cur }

/-- lexing.rs:97-114 `generate_token` -/
def genToken (src : Text) (kind : Tok) (s : LexS) : Res LexS :=
  match slice src s.start.pos s.cur.pos with
  | none => .panic .slice
  | some text =>
    let token : Token := { idx := s.count, text, kind, start := s.start, stop := s.cur }
    let s :=
      if kind = .LineComment ∨ kind = .BlockComment then
        { s with comments := s.comments ++ [token] }
      else
        { s with tokens := s.tokens ++ [token] }
    .ok { s with count := s.count + 1 }.jump

/-- lexing.rs:117-122 `generate_error` -/
def genError (name : Text) (msg : Text) (s : LexS) : Res LexS :=
  .ok { s with errors := s.errors ++ [errorText name s.start msg] }.jump

/-- lexing.rs:130-138 `accept`: was a character accepted, and the state after it -/
def LexS.accept (cs : Text) (s : LexS) : Bool × LexS :=
  match s.peek with
  | some c => if cs.contains c then (true, s.next) else (false, s)
  | none => (false, s)

/-- Consume characters while `p` holds for the peeked one. `cs` is always `s.chars`. -/
def skipWhile (p : Char → Bool) : Text → LexS → LexS
  | c :: cs, s => if p c then skipWhile p cs s.next else s
  | [], s => s

/-- lexing.rs:142-149 `accept_digits` -/
def LexS.acceptDigits (s : LexS) : LexS := skipWhile isDigit s.chars s

/-- lexing.rs:190-195 `lex_colon` -/
def lexColon (src : Text) (s : LexS) : Res LexS :=
  match s.accept c!"=" with
  | (true, s) => genToken src .Assign s
  | (false, s) => genToken src .Colon s

/-- lexing.rs:198-203 `lex_equal` -/
def lexEqual (src : Text) (s : LexS) : Res LexS :=
  match s.accept c!"=" with
  | (true, s) => genToken src .Eq s
  | (false, s) => genToken src .Equal s

/-- lexing.rs:206-214 `lex_lesser` -/
def lexLesser (src : Text) (s : LexS) : Res LexS :=
  match s.accept c!">" with
  | (true, s) => genToken src .Neq s
  | (false, s) =>
    match s.accept c!"=" with
    | (true, s) => genToken src .Leq s
    | (false, s) => genToken src .Les s

/-- lexing.rs:217-222 `lex_greater` -/
def lexGreater (src : Text) (s : LexS) : Res LexS :=
  match s.accept c!"=" with
  | (true, s) => genToken src .Geq s
  | (false, s) => genToken src .Gre s

/-- lexing.rs:225-239 `lex_dot` -/
def lexDot (src : Text) (s : LexS) : Res LexS :=
  match s.accept c!"+" with
  | (true, s) => genToken src .DotPlus s
  | (false, s) =>
    match s.accept c!"-" with
    | (true, s) => genToken src .DotMinus s
    | (false, s) =>
      match s.accept c!"*" with
      | (true, s) => genToken src .DotStar s
      | (false, s) =>
        match s.accept c!"/" with
        | (true, s) => genToken src .DotSlash s
        | (false, s) =>
          match s.accept c!"^" with
          | (true, s) => genToken src .DotFlex s
          | (false, s) => genToken src .Dot s

/-- lexing.rs:242-252 `lex_string`; the list argument is `s.chars`. -/
def lexString (name src : Text) : Text → LexS → Res LexS
  | '\\' :: _ :: cs, s => lexString name src cs s.next.next
  | '\\' :: [], s => lexString name src [] s.next.next
  | '"' :: _, s => genToken src .String s.next
  | _ :: cs, s => lexString name src cs s.next
  | [], s => genError name c!"unclosed string" s.next

/-- lexing.rs:256 `ALLOWED` -/
def qidentAllowed : Text := c!"!#$%&()*+,-./:;<>=?@[]^{}|~ \""

/-- lexing.rs:255-272 `lex_qident`; the list argument is `s.chars`. -/
def lexQident (name src : Text) : Text → LexS → Res LexS
  | '\\' :: _ :: cs, s => lexQident name src cs s.next.next
  | '\\' :: [], s => lexQident name src [] s.next.next
  | '\'' :: _, s => genToken src .Identifier s.next
  | c :: cs, s =>
    if isWordChar c || qidentAllowed.contains c then lexQident name src cs s.next
    else genError name (c!"unexpected character inside Q-IDENT: '" ++ [c] ++ c!"'") s.next
  | [], s => genError name c!"unclosed Q-IDENT" s.next

/-- lexing.rs:288-296 `lex_linecomment` -/
def lexLineComment (src : Text) (s : LexS) : Res LexS :=
  genToken src .LineComment (skipWhile (fun c => !(c == '\r' || c == '\n')) s.chars s)

/-- lexing.rs:299-313 `lex_blockcomment`; the list argument is `s.chars`. -/
def lexBlockComment (name src : Text) : Text → LexS → Res LexS
  | '*' :: '/' :: _, s => genToken src .BlockComment s.next.next
  | '*' :: [], s => genError name c!"unclosed block comment" s.next
  | _ :: cs, s => lexBlockComment name src cs s.next
  | [], s => genError name c!"unclosed block comment" s.next

/-- lexing.rs:275-285 `lex_slash` -/
def lexSlash (name src : Text) (s : LexS) : Res LexS :=
  match s.peek with
  | some c =>
    if c = '/' then lexLineComment src s
    else if c = '*' then lexBlockComment name src s.chars s
    else genToken src .Slash s
  | none => genToken src .Slash s

/-- lexing.rs:329-345 `lex_numeral` -/
def lexNumeral (src : Text) (s : LexS) : Res LexS :=
  match s.acceptDigits.accept c!"." with
  | (false, s) =>
    match s.accept c!"eE" with
    | (false, s) => genToken src .UInt s
    | (true, s) => genToken src .UReal (s.accept c!"+-").2.acceptDigits
  | (true, s) =>
    match s.acceptDigits.accept c!"eE" with
    | (true, s) => genToken src .UReal (s.accept c!"+-").2.acceptDigits
    | (false, s) => genToken src .UReal s

/-- lexing.rs:356-415, the keyword table of `lex_nondigit` in source order -/
def keywords : List (Text × Tok) := [
  (c!"not", .Not),
  (c!"and", .And),
  (c!"or", .Or),
  (c!"in", .In),
  (c!"for", .For),
  (c!"if", .If),
  (c!"else", .Else),
  (c!"elseif", .ElseIf),
  (c!"then", .Then),
  (c!"when", .When),
  (c!"elsewhen", .ElseWhen),
  (c!"while", .While),
  (c!"loop", .Loop),
  (c!"break", .Break),
  (c!"return", .Return),
  (c!"partial", .Partial),
  (c!"class", .Class),
  (c!"operator", .Operator),
  (c!"expandable", .Expandable),
  (c!"model", .Model),
  (c!"function", .Function),
  (c!"record", .Record),
  (c!"type", .TypeKw),
  (c!"block", .Block),
  (c!"connector", .Connector),
  (c!"package", .Package),
  (c!"pure", .Pure),
  (c!"impure", .Impure),
  (c!"end", .End),
  (c!"der", .Der),
  (c!"connect", .Connect),
  (c!"initial", .Initial),
  (c!"equation", .Equation),
  (c!"algorithm", .Algorithm),
  (c!"extends", .Extends),
  (c!"import", .Import),
  (c!"public", .Public),
  (c!"protected", .Protected),
  (c!"within", .Within),
  (c!"final", .Final),
  (c!"encapsulated", .Encapsulated),
  (c!"enumeration", .Enumeration),
  (c!"input", .Input),
  (c!"output", .Output),
  (c!"redeclare", .Redeclare),
  (c!"inner", .Inner),
  (c!"outer", .Outer),
  (c!"replaceable", .Replaceable),
  (c!"constrainedby", .Constrainedby),
  (c!"flow", .Flow),
  (c!"stream", .Stream),
  (c!"discrete", .Discrete),
  (c!"parameter", .Parameter),
  (c!"constant", .Constant),
  (c!"each", .Each),
  (c!"annotation", .Annotation),
  (c!"external", .External),
  (c!"true", .Bool),
  (c!"false", .Bool)]

/-- lexing.rs:356-416, the `match` of `lex_nondigit` -/
def wordKind (w : Text) : Tok := ((keywords.find? (·.1 == w)).map (·.2)).getD .Identifier

/-- lexing.rs:348-417 `lex_nondigit` -/
def lexNondigit (src : Text) (s : LexS) : Res LexS :=
  let s := skipWhile isWordChar s.chars s
  match slice src s.start.pos s.cur.pos with
  | none => .panic .slice
  | some word => genToken src (wordKind word) s

/-- lexing.rs:152-187 `lex_source` together with lexing.rs:316-326 `lex_space`, which calls it
again after a run of whitespace; the number bounds this recursion (2 is always enough). -/
def lexSource (name src : Text) : Nat → LexS → Res LexS
  | 0, _ => .fuel
  | n + 1, s =>
    match s.peek with
    | none => .ok s.next
    | some c =>
      let s := s.next
      match c with
      | ';' => genToken src .Semicolon s
      | ',' => genToken src .Comma s
      | '+' => genToken src .Plus s
      | '-' => genToken src .Minus s
      | '*' => genToken src .Star s
      | '^' => genToken src .Flex s
      | '(' => genToken src .LParen s
      | '{' => genToken src .LCurly s
      | '[' => genToken src .LBracket s
      | ')' => genToken src .RParen s
      | '}' => genToken src .RCurly s
      | ']' => genToken src .RBracket s
      | ':' => lexColon src s
      | '=' => lexEqual src s
      | '<' => lexLesser src s
      | '>' => lexGreater src s
      | '.' => lexDot src s
      | '"' => lexString name src s.chars s
      | '\'' => lexQident name src s.chars s
      | '/' => lexSlash name src s
      | c =>
        if isWs c then lexSource name src n (skipWhile isWs s.chars s).jump
        else if isDigit c then lexNumeral src s
        else if isAlpha c || c == '_' then lexNondigit src s
        else genError name (c!"unexpected character: '" ++ [c] ++ c!"'") s

/-- lexing.rs:66-70 `tokenize`; the number bounds the iterations of the loop. -/
def tokenize (name src : Text) : Nat → LexS → Res LexS
  | 0, _ => .fuel
  | n + 1, s =>
    if s.atEof then .ok s
    else (lexSource name src 2 s).bind (tokenize name src n)

/-- What `lex` returns: tokens, comments, errors. -/
structure Lexed where
  tokens : List Token
  comments : List Token
  errors : List Text
  deriving DecidableEq, Repr

/-- lexing.rs:5-9 `lex` -/
def lex (name src : Text) : Res Lexed :=
  (tokenize name src (src.length + 2) (LexS.init src)).bind fun s =>
    .ok ⟨s.tokens, s.comments, s.errors⟩

end Mofmt
