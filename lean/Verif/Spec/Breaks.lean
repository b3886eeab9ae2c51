import Verif.Spec.Output
import Verif.Spec.Grammar
/-
Specification: line breaks with empty lines.
-/
namespace Mofmt

/-- a line end, an empty line if wanted, and indentation -/
def lineStart (eol : Text) (n : Nat) (empty : Bool) : Text := (if empty then eol ++ eol else eol) ++ blanks (2 * n)

/-- Lexemes on lines of their own.  `line` is the line on which the lexeme before ends in the source.  An empty line
stands before a lexeme if and only if there is at least one in the source. -/
def OwnLines (eol : Text) (n : Nat) : Nat → List (Text × Token) → Prop
  | _, [] => True
  | line, x :: xs => x.1 = lineStart eol n (x.2.start.line - line > 1) ∧ OwnLines eol n x.2.stop.line xs

/-- the line on which a token ends; the file begins with line 1 -/
def lineAtEnd : Option Token → Nat
  | none => 1
  | some t => t.stop.line

/-- What stands before a token that begins a line at indentation level `n`, after the token `prev` (if any).
Comments that begin on the line of the previous token come first; they stay on its line.  The other comments
have lines of their own, and so has the token.  There are three sorts of breaks.
`Legal`: empty lines of the source are kept, but no more than one in a place.
`Required`: an empty line ends the line of the previous token.
`Illegal`: there is no empty line just before the token. -/
def Breaks (eol : Text) (b : Blank) (n : Nat) (prev : Option Token) (g : Group) : Prop :=
  let line := lineAtEnd prev
  ∃ inl own, g.comments = inl ++ own ∧
    (∀ c ∈ inl, c.2.start.line = line ∧ SameLine c.1) ∧ (∀ c ∈ own, c.2.start.line ≠ line) ∧
    match b with
    | .Legal => OwnLines eol n line (own ++ [(g.white, g.tok)])
    | .Required => match own ++ [(g.white, g.tok)] with
      | [] => False
      | x :: xs => x.1 = lineStart eol n true ∧ OwnLines eol n x.2.stop.line xs
    | .Illegal => OwnLines eol n line own ∧ g.white = lineStart eol n false

/-- A token and the next one in the output, with what stands between them. -/
def Follows (gs : List Group) (prev : Option Token) (g : Group) : Prop :=
  ∃ a b, gs = a ++ g :: b ∧ (a.map (·.tok)).getLast? = prev

/-- the binary operators of productions (`+` and `-` only if something stands before them) -/
def operatorIn : SK → Sym → Bool
  | .LogicalExpression, .t .Or => true
  | .LogicalTerm, .t .And => true
  | .Relation, .n .RelationalOperator => true
  | .ArithmeticExpression, .n .AddOperator => true
  | .Term, .n .MulOperator => true
  | .Factor, .t .Flex => true
  | .Factor, .t .DotFlex => true
  | _, _ => false

/-- The line breaks that do not depend on the line breaks of the source: in a production, before a child, after the
child before it (`none`: the first child). -/
def breakBefore : SK → Option Sym → Sym → Option Blank
  -- class definitions
  | .StoredDefinition, some (.t .Semicolon), .n .ClassDefinition => some .Legal
  | .StoredDefinition, _, .t .Final => some .Legal
  | .LongClassSpecifier, _, .n .DescriptionString => some .Illegal
  | .LongClassSpecifier, _, .t .End => some .Required
  -- sections
  | .Composition, _, .n .ElementList => some .Required
  | .Composition, _, .n .EquationSection => some .Required
  | .Composition, _, .n .AlgorithmSection => some .Required
  | .Composition, _, .n .ExternalFunctionCall => some .Required
  | .Composition, _, .t .Public => some .Required
  | .Composition, _, .t .Protected => some .Required
  | .Composition, _, .t .External => some .Required
  | .Composition, some (.t .External), .n .AnnotationClause => some .Illegal
  | .Composition, some (.n .LanguageSpecification), .n .AnnotationClause => some .Illegal
  | .Composition, some (.n .ExternalFunctionCall), .n .AnnotationClause => some .Illegal
  | .Composition, _, .n .AnnotationClause => some .Required
  -- elements, equations and statements
  | .ElementList, some _, .n .Element => some .Legal
  | .EquationSection, some (.t .Equation), .n .Equation => some .Required
  | .EquationSection, some _, .n .Equation => some .Legal
  | .AlgorithmSection, some (.t .Algorithm), .n .Statement => some .Required
  | .AlgorithmSection, some _, .n .Statement => some .Legal
  | .IfEquation, _, .n .Equation | .ForEquation, _, .n .Equation | .WhenEquation, _, .n .Equation => some .Legal
  | .IfStatement, _, .n .Statement | .ForStatement, _, .n .Statement | .WhileStatement, _, .n .Statement
  | .WhenStatement, _, .n .Statement => some .Legal
  | .IfEquation, _, .t .ElseIf | .IfEquation, _, .t .Else | .IfEquation, _, .t .End => some .Legal
  | .IfStatement, _, .t .ElseIf | .IfStatement, _, .t .Else | .IfStatement, _, .t .End => some .Legal
  | .WhenEquation, _, .t .ElseWhen | .WhenEquation, _, .t .End => some .Legal
  | .WhenStatement, _, .t .ElseWhen | .WhenStatement, _, .t .End => some .Legal
  | .ForEquation, _, .t .End | .ForStatement, _, .t .End | .WhileStatement, _, .t .End => some .Legal
  -- descriptions, annotations and constraining clauses
  | .Description, some _, .n .AnnotationClause => some .Illegal
  | .Description, _, _ => none
  | .ElementModification, _, .n .DescriptionString => some .Illegal
  | _, _, .n .Description => some .Illegal
  | _, _, .n .ConstrainingClause => some .Illegal
  | .ExtendsClause, _, .n .AnnotationClause => some .Illegal
  | _, _, _ => none

end Mofmt
