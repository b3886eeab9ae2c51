import Verif.Model.Token
/-
Specification of the lexical level: the spelling of every kind of token, and positions in a text.
Independent of the lexer.
-/
namespace Mofmt.Lexical

/-- ASCII whitespace. -/
def ws (c : Char) : Bool := c = ' ' ∨ c = '\t' ∨ c = '\n' ∨ c = '\x0c' ∨ c = '\r'
def digit (c : Char) : Bool := '0' ≤ c ∧ c ≤ '9'
def letter (c : Char) : Bool := ('a' ≤ c ∧ c ≤ 'z') ∨ ('A' ≤ c ∧ c ≤ 'Z')
/-- Characters of words after the first one. -/
def wordChar (c : Char) : Bool := letter c || digit c || c = '_'
def wordStart (c : Char) : Bool := letter c || c = '_'

/-- Kinds with exactly one spelling. -/
def spelling : Tok → Option Text
  | .Comma => c!"," | .Dot => c!"." | .Semicolon => c!";" | .Colon => c!":"
  | .LParen => c!"(" | .RParen => c!")" | .LCurly => c!"{" | .RCurly => c!"}"
  | .LBracket => c!"[" | .RBracket => c!"]" | .Equal => c!"=" | .Assign => c!":="
  | .Plus => c!"+" | .Minus => c!"-" | .Star => c!"*" | .Slash => c!"/" | .Flex => c!"^"
  | .DotPlus => c!".+" | .DotMinus => c!".-" | .DotStar => c!".*" | .DotSlash => c!"./"
  | .DotFlex => c!".^" | .Gre => c!">" | .Geq => c!">=" | .Les => c!"<" | .Leq => c!"<="
  | .Neq => c!"<>" | .Eq => c!"=="
  | .Not => c!"not" | .And => c!"and" | .Or => c!"or" | .In => c!"in" | .For => c!"for"
  | .If => c!"if" | .Else => c!"else" | .ElseIf => c!"elseif" | .Then => c!"then"
  | .When => c!"when" | .ElseWhen => c!"elsewhen" | .While => c!"while" | .Loop => c!"loop"
  | .Break => c!"break" | .Return => c!"return" | .Partial => c!"partial" | .Class => c!"class"
  | .Operator => c!"operator" | .Expandable => c!"expandable" | .Model => c!"model"
  | .Function => c!"function" | .Record => c!"record" | .TypeKw => c!"type" | .Block => c!"block"
  | .Connector => c!"connector" | .Package => c!"package" | .Pure => c!"pure"
  | .Impure => c!"impure" | .Initial => c!"initial" | .Equation => c!"equation"
  | .Algorithm => c!"algorithm" | .Extends => c!"extends" | .Import => c!"import"
  | .Public => c!"public" | .Protected => c!"protected" | .Within => c!"within"
  | .Final => c!"final" | .Encapsulated => c!"encapsulated" | .Enumeration => c!"enumeration"
  | .Input => c!"input" | .Output => c!"output" | .Redeclare => c!"redeclare" | .Inner => c!"inner"
  | .Outer => c!"outer" | .Replaceable => c!"replaceable" | .Constrainedby => c!"constrainedby"
  | .Flow => c!"flow" | .Stream => c!"stream" | .Discrete => c!"discrete"
  | .Parameter => c!"parameter" | .Constant => c!"constant" | .Each => c!"each"
  | .Annotation => c!"annotation" | .External => c!"external" | .End => c!"end" | .Der => c!"der"
  | .Connect => c!"connect"
  | .EOF | .LineComment | .BlockComment | .Identifier | .String | .UInt | .UReal | .Bool => none

/-- A word: a letter or underscore, then letters, digits, underscores. -/
def isWord : Text → Bool
  | [] => false
  | c :: cs => wordStart c && cs.all wordChar

/-- A reserved word. -/
def reserved (t : Text) : Prop :=
  t = c!"true" ∨ t = c!"false" ∨ ∃ k, spelling k = some t

/-- What follows the opening quote of a string: escapes and other characters up to the closing quote. -/
def stringTail : Text → Bool
  | '\\' :: _ :: cs => stringTail cs
  | '"' :: cs => cs.isEmpty
  | _ :: cs => stringTail cs
  | [] => false

/-- Characters allowed in a quoted identifier besides letters, digits, underscore and escapes. -/
def quotedChar (c : Char) : Bool := wordChar c || c!"!#$%&()*+,-./:;<>=?@[]^{}|~ \"".contains c

/-- What follows the opening quote of a quoted identifier. -/
def quotedTail : Text → Bool
  | '\\' :: _ :: cs => quotedTail cs
  | '\'' :: cs => cs.isEmpty
  | c :: cs => quotedChar c && quotedTail cs
  | [] => false

/-- The first `*/` of the text is at its end. -/
def commentTail : Text → Bool
  | '*' :: '/' :: cs => cs.isEmpty
  | _ :: cs => commentTail cs
  | [] => false

/-- Fractional part: nothing, or a dot and digits. -/
def Fraction (t : Text) : Prop := t = [] ∨ ∃ ds : Text, t = '.' :: ds ∧ ds.all digit = true
/-- Exponent: nothing, or `e`, an optional sign and digits. -/
def Exponent (t : Text) : Prop := t = [] ∨ ∃ (e : Char) (sg ds : Text), t = e :: (sg ++ ds) ∧
  (e = 'e' ∨ e = 'E') ∧ (sg = [] ∨ sg = ['+'] ∨ sg = ['-']) ∧ ds.all digit = true

/-- The texts of each kind of token. -/
def Class (k : Tok) (t : Text) : Prop :=
  match k with
  | .EOF => False
  | .Bool => t = c!"true" ∨ t = c!"false"
  | .Identifier => (isWord t = true ∧ ¬ reserved t) ∨ ∃ b, t = '\'' :: b ∧ quotedTail b = true
  | .String => ∃ b, t = '"' :: b ∧ stringTail b = true
  | .UInt => t ≠ [] ∧ t.all digit = true
  | .UReal => ∃ ds fr ex : Text, t = ds ++ fr ++ ex ∧ ds ≠ [] ∧ ds.all digit = true ∧ Fraction fr ∧
      Exponent ex ∧ (fr ≠ [] ∨ ex ≠ [])
  | .LineComment => ∃ b : Text, t = '/' :: '/' :: b ∧ '\n' ∉ b ∧ '\r' ∉ b
  | .BlockComment => ∃ b, t = '/' :: '*' :: b ∧ commentTail ('*' :: b) = true
  | k => spelling k = some t

/-- Number of bytes of the UTF-8 encoding. -/
def bytes (t : Text) : Nat := (t.map fun c => c.utf8Size).sum

/-- Number of newlines. -/
def newlines (t : Text) : Nat := t.count '\n'

/-- Column reached after a text: one plus the number of characters since the last newline. -/
def column (t : Text) : Nat := (t.reverse.takeWhile (· != '\n')).length + 1

/-- The position reached after a text: bytes, line and column. -/
def position (t : Text) : Pos := ⟨bytes t, 1 + newlines t, column t⟩

/-- Comments are kept apart from the other tokens. -/
def isComment (t : Token) : Bool := t.kind = .LineComment ∨ t.kind = .BlockComment

/-- All characters are ASCII. -/
def ascii (t : Text) : Bool := t.all fun c => c.toNat < 128

end Mofmt.Lexical
