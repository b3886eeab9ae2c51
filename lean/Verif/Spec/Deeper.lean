import Verif.Spec.Whole
/-
Specification: the same text at another indentation.
-/
namespace Mofmt

/-- a piece of output, printed `j` levels deeper -/
def Piece.deeper (j : Nat) : Piece → Piece
  | .nl n => .nl (n + j)
  | .bl n => .bl (n + j)
  | p => p

/-- The text of some pieces, printed `j` levels deeper: every line but the first one starts with `j` indentations more.
(Lines that begin within a comment or a string stay as they are.) -/
def textAt (eol : Text) (j : Nat) (ps : List Piece) : Text := piecesText eol (ps.map (Piece.deeper j))

/-- The productions whose layout does not depend on what they stand in: neither operands, which may belong to an expression that
is wrapped before, nor lists, which may be on several lines because of what they stand in. -/
def selfContained (k : SK) : Bool := match k with
  | .StoredDefinition | .SimpleExpression | .LogicalExpression | .LogicalTerm | .LogicalFactor | .Relation | .ArithmeticExpression
  | .Term | .Factor | .Primary | .OutputExpressionList | .Expression
  | .EnumList | .ExpressionList | .ArrayArguments | .ImportList | .ArgumentOrInheritanceModificationList | .ArgumentList
  | .FunctionArguments | .FunctionArgumentsNonFirst | .NamedArguments | .ArrayArgumentsNonFirst => false
  | _ => true

end Mofmt
