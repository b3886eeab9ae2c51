import Verif.Spec.Layout
import Verif.Spec.Indent
/-
Specification: the whole formatted text, as a function of the syntax tree and the comments.

The layout is given by two tables: what stands between two neighbouring children of a production (`gapIn`), and by how
much a child is indented (`extraIn`).  Both refer to a few facts about the source, above all whether the items of a list
are on lines of their own (`brokenIn`).
-/
namespace Mofmt

/-- Are the items of a production put on lines of their own?  `m`: the answer for the list to which the production
belongs. -/
def brokenIn (k : SK) (m : Bool) (all : List Tree) : Bool := match k with
  -- parts of lists
  | .FunctionArguments | .FunctionArgumentsNonFirst | .ArrayArguments | .ArrayArgumentsNonFirst | .NamedArguments => m
  -- lists: if they, or what contains them, were on several lines
  | .EnumList | .ImportList | .ArgumentOrInheritanceModificationList | .ArgumentList | .ExpressionList =>
    m || spansLines all
  -- lists with brackets, and others
  | .ClassModification => spansLines all || occursF .DescriptionString all || occursF .Description all
  | .ClassOrInheritanceModification => spansLines all && decide (all.length > 2)
  | .ComponentList => spansLines all && decide (all.length > 1)
  | .ConnectEquation | .Expression | .Primary | .FunctionCallArgs | .ArraySubscripts | .DescriptionString => spansLines all
  | .ShortClassSpecifier | .DerClassSpecifier | .ExternalFunctionCall | .ImportClause | .FunctionPartialApplication =>
    bracketsApart (bracketsOf k).1 (bracketsOf k).2 all
  | _ => false

/-- Is the list `s`, a child of a production, put on several lines because of the production?  `broken`: see `brokenIn`;
`described`: a description occurs in the child; `single`: the production has three children. -/
def passedIn (k : SK) (s : Sym) (broken described single : Bool) : Bool := match k, s with
  | .ShortClassSpecifier, .n .EnumList => broken || described
  | .Primary, .n .ExpressionList => broken && single
  | .Primary, .n .ArrayArguments
  | .ExternalFunctionCall, .n .ExpressionList
  | .ImportClause, .n .ImportList
  | .ClassOrInheritanceModification, .n .ArgumentOrInheritanceModificationList
  | .ClassModification, .n .ArgumentList
  | .FunctionCallArgs, .n .FunctionArguments
  | .FunctionArguments, .n .FunctionArgumentsNonFirst
  | .FunctionArguments, .n .NamedArguments
  | .FunctionArgumentsNonFirst, .n .FunctionArgumentsNonFirst
  | .FunctionArgumentsNonFirst, .n .NamedArguments
  | .ArrayArguments, .n .ArrayArgumentsNonFirst
  | .ArrayArgumentsNonFirst, .n .ArrayArgumentsNonFirst
  | .NamedArguments, .n .NamedArguments
  | .FunctionPartialApplication, .n .NamedArguments => broken
  | _, _ => false

/-- What the table of gaps depends on. -/
structure Facts where
  /-- the items are on lines of their own -/
  broken : Bool
  /-- the items of the child are on lines of their own because of the production -/
  passed : Bool
  /-- the child is a conditional expression on several lines -/
  longIf : Bool
  /-- the child is an operator between operands on different lines -/
  wraps : Bool
  /-- the child is not the first lexeme of the file -/
  late : Bool
  /-- the child before ends with a comma -/
  comma : Bool
  /-- the child is the second one -/
  second : Bool

/-- a line break or a blank -/
def breakOrSpace (b : Bool) : Gap := if b then .brk .Illegal else .space
/-- a line break or nothing -/
def breakOrNone (b : Bool) : Gap := if b then .brk .Illegal else .none

/-- Keywords and `=` with blanks around them, commas, brackets: what stands before a child `s` of a production, after the
child `p` (`none`: the first child), where no rule of `breakBefore` applies. -/
def spaceIn (k : SK) (p : Option Sym) (s : Sym) (f : Facts) : Gap := match k with
  -- binary operators; a sign before the first operand is not separated from it
  | .LogicalExpression | .LogicalTerm | .Relation | .ArithmeticExpression | .Term | .Factor => match p with
    | some q => if operatorIn k s then breakOrSpace f.wraps else if operatorIn k q && !f.second then .space else .none
    | none => .none
  -- all children are separated by blanks
  | .ClassDefinition | .ClassPrefixes | .TypePrefix | .ComponentClause1 | .ShortClassDefinition | .SimpleExpression =>
    if p.isSome then .space else .none
  -- a blank after every keyword
  | .Element | .ExtendsClause | .ConstrainingClause | .ElementModificationOrReplaceable | .ElementRedeclaration
  | .ElementReplaceable | .ConditionAttribute | .AnnotationClause | .ForIndices | .LogicalFactor => match p with
    | some (.t _) => .space
    | _ => .none
  | .StoredDefinition => match p, s with
    | some (.t .Within), _ | some (.t .Final), _ => .space
    | _, .t .Within => breakOrNone f.late
    | _, _ => .none
  | .LongClassSpecifier => match p with
    | some (.t .End) | some (.t .Extends) => .space
    | _ => .none
  | .ShortClassSpecifier => match p, s with
    | some (.t .Equal), _ | _, .t .Equal | some (.n .BasePrefix), _ => .space
    | _, .n .EnumList => breakOrNone f.passed
    | _, _ => .none
  | .DerClassSpecifier => match p, s with
    | some (.t .Equal), _ | _, .t .Equal => .space
    | _, .n .TypeSpecifier => breakOrNone f.broken
    | some (.t .Comma), .t .Identifier => breakOrSpace f.broken
    | _, _ => .none
  | .Composition => match s with
    | .n .LanguageSpecification => .space
    | _ => .none
  | .InheritanceModification => match p with
    | some (.t .Break) => .space
    | _ => .none
  | .EquationSection | .AlgorithmSection => match p with
    | some (.t .Initial) => .space
    | _ => .none
  | .ComponentClause => match p with
    | some (.n .TypePrefix) => .space
    | _ => .none
  | .ComponentDeclaration => match s with
    | .n .ConditionAttribute => .space
    | _ => .none
  -- equations, statements, bindings
  | .Modification => match s with
    | .t _ => .space
    | .n .ModificationExpression => breakOrSpace f.longIf
    | _ => .none
  | .Equation => match s with
    | .t .Equal => .space
    | .n .Expression => breakOrSpace f.longIf
    | _ => .none
  | .Statement => match p, s with
    | _, .t .Assign | some (.t .Assign), .n .ComponentReference => .space
    | _, .n .Expression => breakOrSpace f.longIf
    | some (.n .OutputExpressionList), _ => if f.comma then .space else .none
    | _, _ => .none
  | .NamedArgument => match s with
    | .t .Equal => .space
    | .n .FunctionArgument => breakOrSpace f.longIf
    | _ => .none
  | .IfEquation | .IfStatement | .ForEquation | .ForStatement | .WhileStatement | .WhenEquation | .WhenStatement =>
    match p, s with
    | some (.n .Expression), _ | _, .n .Expression | some (.n .ForIndices), _ | _, .n .ForIndices
    | some (.t .End), _ => .space
    | _, _ => .none
  | .ForIndex => match p, s with
    | _, .t .In | some (.t .In), _ => .space
    | _, _ => .none
  -- conditional expressions
  | .Expression => match p, s with
    | some (.t .Then), _ | some (.t .Else), _ | _, .t .ElseIf | _, .t .Else => breakOrSpace f.broken
    | some _, _ => .space
    | _, _ => .none
  -- lists
  | .EnumList | .ArgumentList | .ArgumentOrInheritanceModificationList | .ExpressionList | .ImportList => match p with
    | some (.t .Comma) => breakOrSpace f.broken
    | _ => .none
  | .ComponentList => match s with
    | .n _ => breakOrSpace f.broken
    | _ => .none
  | .FunctionArguments | .FunctionArgumentsNonFirst | .ArrayArguments | .ArrayArgumentsNonFirst | .NamedArguments =>
    match p, s with
    | some (.t .For), _ => .space
    | _, .t .For | _, .n .FunctionArgumentsNonFirst | _, .n .ArrayArgumentsNonFirst => breakOrSpace f.broken
    | some (.t .Comma), .n .NamedArguments => if k = .NamedArguments then breakOrSpace f.broken else .none
    | _, _ => .none
  | .OutputExpressionList => match p, s with
    | some (.t .Comma), _ | none, .t .Comma => .space
    | _, _ => .none
  | .ResultReference => match p with
    | some (.t .Comma) => .space
    | _ => .none
  -- brackets
  | .ExternalFunctionCall => match p, s with
    | some (.t .Equal), _ | _, .t .Equal => .space
    | some (.t .LParen), .n _ => breakOrNone f.broken
    | _, _ => .none
  | .ImportClause => match p, s with
    | some (.t .Import), _ | some (.t .Equal), _ | _, .t .Equal => .space
    | some (.t .LCurly), _ => breakOrNone f.broken
    | _, _ => .none
  | .FunctionPartialApplication => match p, s with
    | _, .n .TypeSpecifier => .space
    | some (.t .LParen), .n _ => breakOrNone f.broken
    | _, _ => .none
  | .ClassOrInheritanceModification | .ClassModification | .FunctionCallArgs => match p, s with
    | some (.t .LParen), .n _ => breakOrNone f.broken
    | _, _ => .none
  | .ConnectEquation => match p with
    | some (.t .LParen) => breakOrNone f.broken
    | some (.t .Comma) => breakOrSpace f.broken
    | _ => .none
  | .ArraySubscripts => match p with
    | some (.t .LBracket) => breakOrNone f.broken
    | some (.t .Comma) => breakOrSpace f.broken
    | _ => .none
  | .Primary => match p, s with
    | some (.t .LCurly), .n _ | some (.t .LBracket), .n _ => breakOrNone f.broken
    | some (.t .Semicolon), _ => breakOrSpace f.broken
    | some (.n .OutputExpressionList), _ => if f.comma then .space else .none
    | _, _ => .none
  | .DescriptionString => match p, s with
    | _, .t .Plus => breakOrSpace f.broken
    | some (.t .Plus), _ => .space
    | _, _ => .none
  | _ => .none

/-- What stands before a child `s` of a production, after the child `p`. -/
def gapIn (k : SK) (p : Option Sym) (s : Sym) (f : Facts) : Gap := match breakBefore k p s with
  | some b => .brk b
  | none => spaceIn k p s f

/-- the list `c` is put on several lines because of the production -/
def passedAt (k : SK) (m : Bool) (pre : List Tree) (c : Tree) (post : List Tree) : Bool :=
  let all := pre ++ c :: post
  passedIn k c.sym (brokenIn k m all) (occursF .Description c.kids) (all.length == 3)

/-- what stands before the child `c` in a production with the children `pre ++ c :: post` -/
def gapAt (k : SK) (m : Bool) (pre : List Tree) (c : Tree) (post : List Tree) : Gap :=
  gapIn k (pre.getLast?.map Tree.sym) c.sym {
    broken := brokenIn k m (pre ++ c :: post)
    passed := passedAt k m pre c post
    longIf := spansLines [c] && decide ((c.leaves.head?.map Token.kind) = some .If)
    wraps := wrapsAt k pre.getLast? c post.head?
    late := match c.leaves.head? with
      | some t => decide (t.idx > 0)
      | none => false
    comma := decide ((pre.getLast?.bind fun d => d.kids.getLast?.map Tree.sym) = some (.t .Comma))
    second := pre.length == 1 }

/-- a gap at a level -/
def Gap.at (n : Nat) : Gap → Dec
  | .none => .none
  | .space => .space
  | .brk b => .brk b n

/-- the first decision that is one -/
def Dec.or : Dec → Dec → Dec
  | .none, d => d
  | d, _ => d

mutual
/-- The tokens of a tree with what stands before them.  `n`, `w`: see `Level`; `m`: see `brokenIn`; `d`: what stands
before the tree. -/
def Tree.layout (n : Nat) (w m : Bool) (d : Dec) : Tree → List (Dec × Token)
  | .tok t => [(d, t)]
  | .node k cs => layoutF k n w m [] d cs
/-- the same for the children of a production that come after `pre` -/
def layoutF (k : SK) (n : Nat) (w m : Bool) (pre : List Tree) (d : Dec) : List Tree → List (Dec × Token)
  | [] => []
  | c :: cs =>
    let l := levelIn k n w pre c cs
    c.layout l (chainChild k c.sym && wrappedAt k w pre c cs) (passedAt k m pre c cs) (d.or ((gapAt k m pre c cs).at l)) ++
      layoutF k n w m (pre ++ [c]) .none cs
end

/-- the layout of a file -/
def Tree.wholeLayout (tree : Tree) : List (Dec × Token) := tree.layout 0 false false .none

/-- the text of a file with its comments, ended by a line end -/
def Tree.wholeText (eol : Text) (comments : List Token) (tree : Tree) : Text :=
  piecesText eol ((LS.init comments).run tree.wholeLayout).out.reverse ++ eol

end Mofmt
