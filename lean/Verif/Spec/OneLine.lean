import Verif.Spec.Grammar
import Verif.Spec.Output
/-
Specification: the text of an expression on one line.  Blanks stand around binary operators, around the keywords of
an `if` expression, around `in`, `for` and `=`, after commas and semicolons; nowhere else.
-/
namespace Mofmt

/-- kinds of trees of which expressions consist -/
def lineKinds : List SK := [
  .ForIndices, .ForIndex, .Expression, .SimpleExpression, .LogicalExpression, .LogicalTerm, .LogicalFactor, .Relation,
  .RelationalOperator, .ArithmeticExpression, .AddOperator, .Term, .MulOperator, .Factor, .Primary, .TypeSpecifier,
  .Name, .ComponentReference, .FunctionCallArgs, .FunctionArguments, .FunctionArgumentsNonFirst, .ArrayArguments,
  .ArrayArgumentsNonFirst, .NamedArguments, .NamedArgument, .FunctionArgument, .FunctionPartialApplication,
  .OutputExpressionList, .ExpressionList, .ArraySubscripts, .Subscript]

/-- Is there a blank before the child `s` of a tree of kind `k`? `second`: is it the second child; `prev`: the child
before it. -/
def blankBefore (k : SK) (second : Bool) (prev : Option Sym) (s : Sym) : Bool :=
  match k, prev with
  -- `(a, , b)`, and `( , a)`
  | .OutputExpressionList, .none => s == .t .Comma
  | _, .none => false
  -- no blank after a sign
  | .ArithmeticExpression, some p => !(second && p == .n .AddOperator)
  | .Expression, _ | .SimpleExpression, _ | .LogicalExpression, _ | .LogicalTerm, _ | .LogicalFactor, _ | .Relation, _
  | .Term, _ | .Factor, _ | .NamedArgument, _ => true
  | .ForIndex, some p => s == .t .In || p == .t .In
  | .FunctionPartialApplication, _ => s == .n .TypeSpecifier
  | _, some p => p == .t .Comma || p == .t .Semicolon || p == .t .For || s == .t .For

/-- Is there a blank after the last child? Only after the comma in `(a, )`. -/
def blankAfter (k : SK) (last : Sym) : Bool := k == .OutputExpressionList && last == .t .Comma

/-- one blank or nothing -/
def optBlank (b : Bool) : Text := if b then [' '] else []

mutual
/-- the text of a tree on one line -/
def Tree.oneLine : Tree → Text
  | .tok t => t.text
  | .node k cs => oneLineF k 0 .none cs
/-- the text of the children from position `i` on -/
def oneLineF (k : SK) (i : Nat) (prev : Option Sym) : List Tree → Text
  | [] => match prev with
    | .none => []
    | some p => optBlank (blankAfter k p)
  | c :: cs => optBlank (blankBefore k (i == 1) prev c.sym) ++ c.oneLine ++ oneLineF k (i + 1) (some c.sym) cs
end

/-- The expressions, and parts of them that are printed the same way wherever they stand. (Not the lists of arguments,
elements, expressions and outputs, which are laid out by the expression around them.) -/
def wholeKinds : List SK := [
  .ForIndices, .ForIndex, .Expression, .SimpleExpression, .LogicalExpression, .LogicalTerm, .LogicalFactor, .Relation,
  .RelationalOperator, .ArithmeticExpression, .AddOperator, .Term, .MulOperator, .Factor, .Primary, .TypeSpecifier,
  .Name, .ComponentReference, .FunctionCallArgs, .NamedArgument, .FunctionArgument, .FunctionPartialApplication,
  .ArraySubscripts, .Subscript]

/-- all tokens are on line `l` -/
def OnLine (l : Nat) (ts : List Token) : Prop := ∀ t ∈ ts, t.start.line = l ∧ t.stop.line = l

/-- The tokens `ts` stand one after another in the output, with no comments and no line breaks in between, and their
text from the first to the last character is `x`. -/
def PrintedAs (gs : List Group) (ts : List Token) (x : Text) : Prop :=
  ∃ a g ms b, gs = a ++ g :: ms ++ b ∧ (g :: ms).map (·.tok) = ts ∧
    (∀ h ∈ ms, h.comments = [] ∧ SameLine h.white) ∧ g.tok.text ++ groupsText ms = x

end Mofmt
