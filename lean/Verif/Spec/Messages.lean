import Verif.Model.Token
/-
What the messages of the parser say, stated without the parser.
-/
namespace Mofmt

/-- The kind of the token at place `i`; `EOF` behind the last token. -/
def kindNo (toks : List Token) (i : Nat) : Tok := ((toks[i]?).map (·.kind)).getD .EOF

/-- The token whose position is given for place `i`: the token there or, behind the last token, the last one. -/
def Shown (toks : List Token) (i : Nat) (t : Token) : Prop :=
  toks[i]? = some t ∨ (toks.length ≤ i ∧ toks.getLast? = some t)

/-- A complaint about an unexpected token. -/
structure Complaint where
  /-- what is said after the name of the token -/
  text : Text
  /-- is the named token the one whose position is given (0) or the next one (1)? -/
  ahead : Nat
  /-- the kinds of tokens that would have been right -/
  wanted : List Tok

/-- The complaints of the parser. -/
def complaints : List Complaint := [
  ⟨c!"' used as a class prefix", 0,
    [.Class, .Model, .Block, .TypeKw, .Package, .Record, .Connector, .Function, .Expandable, .Operator, .Pure, .Impure]⟩,
  ⟨c!"': doesn't match any type of class specifier", 0, [.Extends, .Identifier]⟩,
  ⟨c!"' following 'initial'. Expected 'equation' or 'algorithm'", 1, [.Equation, .Algorithm]⟩,
  ⟨c!"' after element list inside composition. Expected 'protected', 'public', 'initial', 'equation', 'algorithm', 'external', 'annotation' or 'end'.",
    0, [.Protected, .Public, .Initial, .Equation, .Algorithm, .External, .Annotation, .End]⟩,
  ⟨c!"' after '.'. Expected identifier or '{'", 1, [.Identifier, .LCurly]⟩]

/-- The message tells the truth: it names the kind of the token it is about, that is not the kind it asks for,
and it gives the position of that token (or of the one before it; at the end of the file, of the last token). -/
inductive Truthful (name : Text) (toks : List Token) : Text → Prop
  | expected {i : Nat} {t : Token} {k : Tok} (at_ : Shown toks i t) (ne : kindNo toks i ≠ k) :
    Truthful name toks (errorText name t.start (c!"expected " ++ k.debug ++ c!", found " ++ (kindNo toks i).debug))
  | unexpected {i : Nat} {t : Token} {c : Complaint} (at_ : toks[i]? = some t) (known : c ∈ complaints)
    (ne : kindNo toks (i + c.ahead) ∉ c.wanted) :
    Truthful name toks (errorText name t.start (c!"unexpected token '" ++ (kindNo toks (i + c.ahead)).debug ++ c.text))

end Mofmt
