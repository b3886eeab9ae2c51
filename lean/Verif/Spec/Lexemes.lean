import Verif.Spec.Lexical
/-
How a text divides into tokens and errors, stated without a lexer: white space, then the longest token
that starts there, and so on.
-/
namespace Mofmt.Lexical

/-- `t`, followed by `r`, cannot be made longer: no token starts with `t` and goes on into `r`. -/
def Longest (t r : Text) : Prop := ∀ u v : Text, u ≠ [] → r = u ++ v → ∀ k, ¬ Class k (t ++ u)

/-- What may stand between the quotes of a quoted identifier. -/
def quotedBody : Text → Bool
  | '\\' :: _ :: cs => quotedBody cs
  | c :: cs => quotedChar c && quotedBody cs
  | [] => true

/-- The pieces of a text. -/
inductive Chunk where
  /-- a token or a comment -/
  | token (k : Tok) (t : Text)
  /-- a character that starts no token -/
  | stray (c : Char)
  /-- a quoted identifier with a character that may not stand in it -/
  | broken (b : Text) (c : Char)
  /-- a string, a quoted identifier, a comment without an end -/
  | openString (b : Text)
  | openQuoted (b : Text)
  | openComment (b : Text)
  deriving DecidableEq, Repr

def Chunk.text : Chunk → Text
  | .token _ t => t
  | .stray c => [c]
  | .broken b c => '\'' :: b ++ [c]
  | .openString b => '"' :: b
  | .openQuoted b => '\'' :: b
  | .openComment b => '/' :: '*' :: b

/-- The piece may stand directly before the text `r`. -/
def Chunk.Before (r : Text) : Chunk → Prop
  | .token k t => Class k t ∧ Longest t r ∧ (k = .Slash → r.head? ≠ some '*')
  | .stray c => ws c = false ∧ ∀ k t, ¬ Class k (c :: t)
  | .broken b c => quotedBody b = true ∧ quotedChar c = false ∧ c ≠ '\'' ∧ c ≠ '\\'
  | .openString b => r = [] ∧ ∀ p q, b = p ++ q → stringTail p = false
  | .openQuoted b => r = [] ∧ (quotedBody b = true ∨ ∃ m, b = m ++ ['\\'] ∧ quotedBody m = true)
  | .openComment b => r = [] ∧ ∀ p q, '*' :: b ≠ p ++ '*' :: '/' :: q

/-- The text consists of these pieces, each preceded by the given white space. -/
inductive Divided : Text → List (Text × Chunk) → Prop
  | done {w : Text} : w.all ws = true → Divided w []
  | next {w r : Text} {p : Chunk} {ps : List (Text × Chunk)} : w.all ws = true → p.Before r →
      Divided r ps → Divided (w ++ p.text ++ r) ((w, p) :: ps)

/-- The text ends with an ASCII character. -/
def endsAscii (t : Text) : Bool := t.getLast?.all fun c => c.toNat < 128

/-- A token ends with a character that is not ASCII, or follows an error that does (`after`) without
white space between them. -/
def awkward (after : Bool) : List (Text × Chunk) → Bool
  | [] => false
  | (w, .token _ t) :: ps => after && w.isEmpty || !endsAscii t || awkward false ps
  | (_, p) :: ps => awkward (!endsAscii p.text) ps

/-- The tokens and comments with their numbers and positions, after the text `pre` with `i` of them. -/
def lexemes (pre : Text) (i : Nat) : List (Text × Chunk) → List Token
  | [] => []
  | (w, .token k t) :: ps =>
    ⟨i, t, k, position (pre ++ w), position (pre ++ w ++ t)⟩ :: lexemes (pre ++ w ++ t) (i + 1) ps
  | (w, p) :: ps => lexemes (pre ++ w ++ p.text) i ps

/-- What is reported about a piece. -/
def Chunk.problem : Chunk → Option Text
  | .token _ _ => none
  | .stray c => c!"unexpected character: '" ++ [c] ++ c!"'"
  | .broken _ c => c!"unexpected character inside Q-IDENT: '" ++ [c] ++ c!"'"
  | .openString _ => c!"unclosed string"
  | .openQuoted _ => c!"unclosed Q-IDENT"
  | .openComment _ => c!"unclosed block comment"

/-- The messages: file, line and column of the beginning of the piece, and the problem. -/
def problems (name pre : Text) : List (Text × Chunk) → List Text
  | [] => []
  | (w, p) :: ps => (match p.problem with
    | none => []
    | some m => [errorText name (position (pre ++ w)) m]) ++ problems name (pre ++ w ++ p.text) ps

end Mofmt.Lexical
