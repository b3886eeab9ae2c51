import Verif.Spec.Breaks
/-
Specification: indentation levels.
-/
namespace Mofmt

/-- the productions that make up an expression -/
def exprPart : SK → Bool
  | .Expression | .SimpleExpression | .LogicalExpression | .LogicalTerm | .LogicalFactor | .Relation
  | .ArithmeticExpression | .Term | .Factor | .Primary | .OutputExpressionList => true
  | _ => false

/-- The child is a part of the same expression: operands, and the expressions in parentheses. -/
def chainChild : SK → Sym → Bool
  | .Expression, .n .SimpleExpression => true
  | .SimpleExpression, .n .LogicalExpression => true
  | .LogicalExpression, .n .LogicalTerm => true
  | .LogicalTerm, .n .LogicalFactor => true
  | .LogicalFactor, .n .Relation => true
  | .Relation, .n .ArithmeticExpression => true
  | .ArithmeticExpression, .n .Term => true
  | .Term, .n .Factor => true
  | .Factor, .n .Primary => true
  | .Primary, .n .OutputExpressionList => true
  | .OutputExpressionList, .n .Expression => true
  | _, _ => false

/-- Is the operator `o`, a child of a production, between operands on different lines? -/
def wrapsAt (k : SK) (prev : Option Tree) (o : Tree) (next : Option Tree) : Bool :=
  operatorIn k o.sym && match prev.bind Tree.end?, next.bind Tree.start? with
    | some e, some s => decide (s.start.line > e.stop.line)
    | _, _ => false

mutual
/-- Does the source wrap the expression at a binary operator?  Arguments, subscripts and the branches of conditional
expressions are other expressions. -/
def Tree.wraps : Tree → Bool
  | .tok _ => false
  | .node k cs => wrapsF k none cs
/-- `Tree.wraps` for the children from some child on; `prev`: the child before -/
def wrapsF (k : SK) : Option Tree → List Tree → Bool
  | _, [] => false
  | prev, c :: cs => (wrapsAt k prev c cs.head? || (chainChild k c.sym && c.wraps)) || wrapsF k (some c) cs
end

/-- The left-hand side of an equation, and the list before `:=` in a statement: the indentation of their wrapped
expressions is not undone. -/
def leakChild : SK → Sym → Bool
  | .Equation, .n .SimpleExpression => true
  | .Statement, .n .OutputExpressionList => true
  | _, _ => false

mutual
/-- the number of indentations that are not undone -/
def Tree.leaks : Tree → Nat
  | .tok _ => 0
  | .node k cs => leaksF k cs
/-- `Tree.leaks` for some children of a production -/
def leaksF (k : SK) : List Tree → Nat
  | [] => 0
  | c :: cs => c.leaks + (if leakChild k c.sym && c.wraps then 1 else 0) + leaksF k cs
end

/-- Do the trees begin and end on different lines? -/
def spansLines (cs : List Tree) : Bool := match (leavesF cs).head?, (leavesF cs).getLast? with
  | some a, some b => decide (a.start.line < b.stop.line)
  | _, _ => false

/-- the line of the first token of a kind among the children of a production -/
def lineOfTok (k : Tok) : List Tree → Option Nat
  | [] => none
  | .tok t :: cs => if t.kind = k then some t.start.line else lineOfTok k cs
  | .node _ _ :: cs => lineOfTok k cs

/-- Are the brackets on different lines? -/
def bracketsApart (op cl : Tok) (cs : List Tree) : Bool := match lineOfTok op cs, lineOfTok cl cs with
  | some a, some b => decide (a < b)
  | _, _ => false

/-- the brackets of a production -/
def bracketsOf : SK → Tok × Tok
  | .ImportClause => (.LCurly, .RCurly)
  | _ => (.LParen, .RParen)

mutual
/-- Does a production of a kind occur? -/
def Tree.occurs (k : SK) : Tree → Bool
  | .tok _ => false
  | .node k' cs => k' == k || occursF k cs
def occursF (k : SK) : List Tree → Bool
  | [] => false
  | t :: ts => t.occurs k || occursF k ts
end

/-- the children of a production -/
def Tree.kids : Tree → List Tree
  | .tok _ => []
  | .node _ cs => cs

/-- The rules for indentation: by how many levels a child `s` of a production `k` is indented, the child before it being
`p`.  `spread`: the production has several children, and spans several lines; `apart`: its brackets are on different
lines; `described`: a description occurs in the child; `longIf`: the child is a conditional expression on several lines. -/
def extraIn (k : SK) (p : Option Sym) (s : Sym) (spread apart described longIf : Bool) : Nat :=
  match k, s with
  -- everything in these productions is indented
  | .ClassModification, _ | .ClassOrInheritanceModification, _ | .FunctionCallArgs, _ | .ArraySubscripts, _
  | .ConnectEquation, _ | .ExternalFunctionCall, _ | .DescriptionString, _ | .EquationSection, _ | .AlgorithmSection, _ => 1
  -- the contents of classes and sections
  | .Composition, .n .ElementList | .Composition, .n .ExternalFunctionCall => 1
  | .Composition, .n .AnnotationClause => match p with
    | some (.t .External) | some (.n .LanguageSpecification) | some (.n .ExternalFunctionCall) => 2
    | _ => 1
  | .IfEquation, .n .Equation | .ForEquation, .n .Equation | .WhenEquation, .n .Equation => 1
  | .IfStatement, .n .Statement | .ForStatement, .n .Statement | .WhileStatement, .n .Statement
  | .WhenStatement, .n .Statement => 1
  -- descriptions, annotations and constraining clauses
  | .LongClassSpecifier, .n .DescriptionString | .ElementModification, .n .DescriptionString => 1
  | _, .n .Description | _, .n .ConstrainingClause => 1
  | .ExtendsClause, .n .AnnotationClause => 1
  -- lists
  | .ComponentList, _ => if spread then 1 else 0
  | .ShortClassSpecifier, .n .EnumList => if apart || described then 1 else 0
  | .ImportClause, .n .ImportList | .ImportClause, .t .RCurly => if apart then 1 else 0
  | .DerClassSpecifier, .n .TypeSpecifier | .DerClassSpecifier, .t .Comma | .DerClassSpecifier, .t .RParen => 1
  | .DerClassSpecifier, .t .Identifier => if p.isSome then 1 else 0
  | .Primary, .n .ArrayArguments | .Primary, .n .ExpressionList | .Primary, .t .Semicolon => 1
  -- conditional expressions
  | .Expression, .n .Expression => match p with
    | some (.t .Then) | some (.t .Else) => 1
    | _ => 0
  | .Modification, .n .ModificationExpression | .Equation, .n .Expression | .Statement, .n .Expression
  | .NamedArgument, .n .FunctionArgument => if longIf then 1 else 0
  | _, _ => 0

/-- by how many levels the child `c` is indented in a production with the children `pre ++ c :: post` -/
def extra (k : SK) (pre : List Tree) (c : Tree) (post : List Tree) : Nat :=
  let all := pre ++ c :: post
  extraIn k (pre.getLast?.map Tree.sym) c.sym (spansLines all && decide (all.length > 1))
    (bracketsApart (bracketsOf k).1 (bracketsOf k).2 all) (occursF .Description c.kids)
    (spansLines [c] && decide ((c.leaves.head?.map Token.kind) = some .If))

/-- Is there a wrap at an operator among the children `pre` or at `c`?  `prev`: the child before. -/
def wrapsTo (k : SK) : Option Tree → List Tree → Tree → List Tree → Bool
  | prev, [], c, post => wrapsAt k prev c post.head?
  | prev, d :: pre, c, post =>
    wrapsAt k prev d (pre ++ [c]).head? || (chainChild k d.sym && d.wraps) || wrapsTo k (some d) pre c post

/-- Is the expression wrapped at `c` or before?  `w`: has it been wrapped before the production begins? -/
def wrappedAt (k : SK) (w : Bool) (pre : List Tree) (c : Tree) (post : List Tree) : Bool :=
  exprPart k && (w || wrapsTo k none pre c post)

/-- The level of the child `c` of a production at the level `n`: the level of the production, increased by the rules above,
by one if the expression to which the child belongs has just been wrapped for the first time, and by the indentations that
have not been undone in the children before. -/
def levelIn (k : SK) (n : Nat) (w : Bool) (pre : List Tree) (c : Tree) (post : List Tree) : Nat :=
  n + extra k pre c post + (if wrappedAt k w pre c post && !w then 1 else 0) + leaksF k pre

/-- `Level tree s n w`: the part `s` of the tree is at the indentation level `n`; `w`: it belongs to an expression that
has been wrapped before. -/
inductive Level (tree : Tree) : Tree → Nat → Bool → Prop
  | root : Level tree tree 0 false
  | child {k pre c post n w} : Level tree (.node k (pre ++ c :: post)) n w →
      Level tree c (levelIn k n w pre c post) (chainChild k c.sym && wrappedAt k w pre c post)

end Mofmt
