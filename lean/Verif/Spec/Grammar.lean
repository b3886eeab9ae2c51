import Verif.Spec.Forest
/-
Specification: the concrete grammar of Modelica (Modelica Language Specification, appendix A "Modelica
Concrete Syntax"), written as one regular expression over tokens and productions for every production.
Nothing here refers to the parser.

The expressions describe trees from which productions without tokens have been removed, so a production
that may be empty (`base_prefix`, `element_list`, `comment`, ...) is optional wherever it occurs.
Deviations of the code from the appendix are marked `-- deviation`.
-/
namespace Mofmt

/-- One child of a tree: a token of some kind or a production of some kind. -/
inductive Sym where
  | t (k : Tok)
  | n (k : SK)
  deriving DecidableEq, Repr, Inhabited

/-- Regular expressions. -/
inductive RE where
  | none
  | eps
  | sym (a : Sym)
  | alt (a b : RE)
  | seq (a b : RE)
  | star (a : RE)
  deriving DecidableEq, Repr, Inhabited

/-- The words a regular expression stands for. -/
inductive Lang : RE → List Sym → Prop where
  | eps : Lang .eps []
  | sym (a : Sym) : Lang (.sym a) [a]
  | altL {a b : RE} {u : List Sym} : Lang a u → Lang (.alt a b) u
  | altR {a b : RE} {u : List Sym} : Lang b u → Lang (.alt a b) u
  | seq {a b : RE} {u v : List Sym} : Lang a u → Lang b v → Lang (.seq a b) (u ++ v)
  | starNil {a : RE} : Lang (.star a) []
  | starCons {a : RE} {u v : List Sym} : Lang a u → Lang (.star a) v → Lang (.star a) (u ++ v)

/-- the child as a symbol -/
def Tree.sym : Tree → Sym
  | .tok t => .t t.kind
  | .node k _ => .n k

namespace Gram

def T (k : Tok) : RE := .sym (.t k)
def N (k : SK) : RE := .sym (.n k)
/-- one after the other -/
def cat : List RE → RE
  | [] => .eps
  | [r] => r
  | r :: rs => .seq r (cat rs)
/-- one of them -/
def any : List RE → RE
  | [] => .none
  | [r] => r
  | r :: rs => .alt r (any rs)
/-- one of the tokens -/
def anyT (ks : List Tok) : RE := any (ks.map T)
def opt (r : RE) : RE := .alt r .eps
def many (r : RE) : RE := .star r
/-- `r { sep r }` -/
def sepBy (sep : Tok) (r : RE) : RE := .seq r (.star (.seq (T sep) r))

/-- The right-hand sides of the productions. -/
def spec : SK → RE
  | .Error => .none
  | .StoredDefinition => cat [
      opt (cat [T .Within, opt (N .Name), T .Semicolon]),
      many (cat [opt (T .Final), N .ClassDefinition, T .Semicolon])]
  | .ClassDefinition => cat [opt (T .Encapsulated), N .ClassPrefixes, N .ClassSpecifier]
  | .ClassPrefixes => cat [
      opt (T .Partial),
      any [
        T .Class, T .Model, T .Block, T .TypeKw, T .Package, T .Connector,
        cat [T .Expandable, T .Connector],
        T .Record,
        cat [T .Operator, opt (any [T .Record, T .Function])],
        cat [any [T .Pure, T .Impure], opt (T .Operator), T .Function],
        T .Function]]
  | .ClassSpecifier => any [N .LongClassSpecifier, N .ShortClassSpecifier, N .DerClassSpecifier]
  | .LongClassSpecifier => cat [
      any [T .Identifier, cat [T .Extends, T .Identifier, opt (N .ClassModification)]],
      opt (N .DescriptionString), opt (N .Composition), T .End, T .Identifier]
  | .ShortClassSpecifier => cat [
      T .Identifier, T .Equal,
      any [
        cat [opt (N .BasePrefix), N .TypeSpecifier, opt (N .ArraySubscripts),
          opt (N .ClassModification)],
        cat [T .Enumeration, T .LParen, opt (any [N .EnumList, T .Colon]), T .RParen]],
      opt (N .Description)]
  | .DerClassSpecifier => cat [
      T .Identifier, T .Equal, T .Der, T .LParen, N .TypeSpecifier, T .Comma,
      sepBy .Comma (T .Identifier), T .RParen, opt (N .Description)]
  | .BasePrefix => opt (any [T .Input, T .Output])
  | .EnumList => sepBy .Comma (N .EnumerationLiteral)
  | .EnumerationLiteral => cat [T .Identifier, opt (N .Description)]
  | .Composition => cat [
      opt (N .ElementList),
      many (any [
        cat [any [T .Public, T .Protected], opt (N .ElementList)],
        N .EquationSection,
        N .AlgorithmSection]),
      opt (cat [T .External, opt (N .LanguageSpecification), opt (N .ExternalFunctionCall),
        opt (N .AnnotationClause), T .Semicolon]),
      opt (cat [N .AnnotationClause, T .Semicolon])]
  | .LanguageSpecification => T .String
  | .ExternalFunctionCall => cat [
      opt (cat [N .ComponentReference, T .Equal]),
      T .Identifier, T .LParen, opt (N .ExpressionList), T .RParen]
  | .ElementList => many (cat [N .Element, T .Semicolon])
  | .Element => any [
      N .ImportClause,
      N .ExtendsClause,
      cat [
        opt (T .Redeclare), opt (T .Final), opt (T .Inner), opt (T .Outer),
        any [
          any [N .ClassDefinition, N .ComponentClause],
          cat [T .Replaceable, any [N .ClassDefinition, N .ComponentClause],
            opt (cat [N .ConstrainingClause, opt (N .Description)])]]]]
  | .ImportClause => cat [
      T .Import,
      any [
        cat [T .Identifier, T .Equal, N .Name],
        cat [N .Name, opt (any [
          T .DotStar,
          cat [T .Dot, T .LCurly, N .ImportList, T .RCurly]])]],
      opt (N .Description)]
  | .ImportList => sepBy .Comma (T .Identifier)
  | .ExtendsClause => cat [
      T .Extends, N .TypeSpecifier, opt (N .ClassOrInheritanceModification),
      opt (N .AnnotationClause)]
  | .ConstrainingClause => cat [T .Constrainedby, N .TypeSpecifier, opt (N .ClassModification)]
  | .ClassOrInheritanceModification => cat [
      T .LParen, opt (N .ArgumentOrInheritanceModificationList), T .RParen]
  | .ArgumentOrInheritanceModificationList =>
      sepBy .Comma (any [N .Argument, N .InheritanceModification])
  | .InheritanceModification => cat [T .Break, any [N .ConnectEquation, T .Identifier]]
  | .ComponentClause => cat [
      opt (N .TypePrefix), N .TypeSpecifier, opt (N .ArraySubscripts), N .ComponentList]
  | .TypePrefix => cat [
      opt (any [T .Flow, T .Stream]),
      opt (any [T .Discrete, T .Parameter, T .Constant]),
      opt (any [T .Input, T .Output])]
  | .ComponentList => sepBy .Comma (N .ComponentDeclaration)
  | .ComponentDeclaration => cat [
      N .Declaration, opt (N .ConditionAttribute), opt (N .Description)]
  | .ConditionAttribute => cat [T .If, N .Expression]
  | .Declaration => cat [T .Identifier, opt (N .ArraySubscripts), opt (N .Modification)]
  | .Modification => any [
      cat [N .ClassModification, opt (cat [T .Equal, N .ModificationExpression])],
      cat [T .Equal, N .ModificationExpression],
      cat [T .Assign, N .ModificationExpression]]
  | .ModificationExpression => any [N .Expression, T .Break]
  | .ClassModification => cat [T .LParen, opt (N .ArgumentList), T .RParen]
  | .ArgumentList => sepBy .Comma (N .Argument)
  | .Argument => any [N .ElementModificationOrReplaceable, N .ElementRedeclaration]
  | .ElementModificationOrReplaceable => cat [
      opt (T .Each), opt (T .Final), any [N .ElementModification, N .ElementReplaceable]]
  | .ElementModification => cat [
      N .Name, opt (N .Modification), opt (N .DescriptionString)]
  | .ElementRedeclaration => cat [
      T .Redeclare, opt (T .Each), opt (T .Final),
      any [any [N .ShortClassDefinition, N .ComponentClause1], N .ElementReplaceable]]
  | .ElementReplaceable => cat [
      T .Replaceable, any [N .ShortClassDefinition, N .ComponentClause1],
      opt (N .ConstrainingClause)]
  | .ComponentClause1 => cat [
      opt (N .TypePrefix), N .TypeSpecifier, N .ComponentDeclaration1]
  | .ComponentDeclaration1 => cat [N .Declaration, opt (N .Description)]
  | .ShortClassDefinition => cat [N .ClassPrefixes, N .ShortClassSpecifier]
  | .EquationSection => cat [
      opt (T .Initial), T .Equation, many (cat [N .Equation, T .Semicolon])]
  | .AlgorithmSection => cat [
      opt (T .Initial), T .Algorithm, many (cat [N .Statement, T .Semicolon])]
  | .Equation => cat [
      any [
        -- deviation: the right-hand side is optional, so `component_reference function_call_args`
        -- is accepted as a simple expression, and so is any other simple expression
        cat [N .SimpleExpression, opt (cat [T .Equal, N .Expression])],
        N .IfEquation, N .ForEquation, N .ConnectEquation, N .WhenEquation],
      opt (N .Description)]
  | .Statement => cat [
      any [
        cat [N .ComponentReference, any [cat [T .Assign, N .Expression], N .FunctionCallArgs]],
        cat [T .LParen, opt (N .OutputExpressionList), T .RParen, T .Assign,
          N .ComponentReference, N .FunctionCallArgs],
        T .Break, T .Return,
        N .IfStatement, N .ForStatement, N .WhileStatement, N .WhenStatement],
      opt (N .Description)]
  | .IfEquation => cat [
      T .If, N .Expression, T .Then, many (cat [N .Equation, T .Semicolon]),
      many (cat [T .ElseIf, N .Expression, T .Then, many (cat [N .Equation, T .Semicolon])]),
      opt (cat [T .Else, many (cat [N .Equation, T .Semicolon])]),
      T .End, T .If]
  | .IfStatement => cat [
      T .If, N .Expression, T .Then, many (cat [N .Statement, T .Semicolon]),
      many (cat [T .ElseIf, N .Expression, T .Then, many (cat [N .Statement, T .Semicolon])]),
      opt (cat [T .Else, many (cat [N .Statement, T .Semicolon])]),
      T .End, T .If]
  | .ForEquation => cat [
      T .For, N .ForIndices, T .Loop, many (cat [N .Equation, T .Semicolon]), T .End, T .For]
  | .ForStatement => cat [
      T .For, N .ForIndices, T .Loop, many (cat [N .Statement, T .Semicolon]), T .End, T .For]
  | .ForIndices => sepBy .Comma (N .ForIndex)
  | .ForIndex => cat [T .Identifier, opt (cat [T .In, N .Expression])]
  | .WhileStatement => cat [
      T .While, N .Expression, T .Loop, many (cat [N .Statement, T .Semicolon]), T .End, T .While]
  | .WhenEquation => cat [
      T .When, N .Expression, T .Then, many (cat [N .Equation, T .Semicolon]),
      many (cat [T .ElseWhen, N .Expression, T .Then, many (cat [N .Equation, T .Semicolon])]),
      T .End, T .When]
  | .WhenStatement => cat [
      T .When, N .Expression, T .Then, many (cat [N .Statement, T .Semicolon]),
      many (cat [T .ElseWhen, N .Expression, T .Then, many (cat [N .Statement, T .Semicolon])]),
      T .End, T .When]
  | .ConnectEquation => cat [
      T .Connect, T .LParen, N .ComponentReference, T .Comma, N .ComponentReference, T .RParen]
  | .Expression => any [
      N .SimpleExpression,
      cat [T .If, N .Expression, T .Then, N .Expression,
        many (cat [T .ElseIf, N .Expression, T .Then, N .Expression]),
        T .Else, N .Expression]]
  | .SimpleExpression => cat [
      N .LogicalExpression,
      opt (cat [T .Colon, N .LogicalExpression, opt (cat [T .Colon, N .LogicalExpression])])]
  | .LogicalExpression => sepBy .Or (N .LogicalTerm)
  | .LogicalTerm => sepBy .And (N .LogicalFactor)
  | .LogicalFactor => cat [opt (T .Not), N .Relation]
  | .Relation => cat [
      N .ArithmeticExpression, opt (cat [N .RelationalOperator, N .ArithmeticExpression])]
  | .RelationalOperator => anyT [.Les, .Leq, .Gre, .Geq, .Eq, .Neq]
  | .ArithmeticExpression => cat [
      opt (N .AddOperator), N .Term, many (cat [N .AddOperator, N .Term])]
  | .AddOperator => anyT [.Plus, .Minus, .DotPlus, .DotMinus]
  | .Term => cat [N .Factor, many (cat [N .MulOperator, N .Factor])]
  | .MulOperator => anyT [.Star, .Slash, .DotStar, .DotSlash]
  | .Factor => cat [N .Primary, opt (cat [anyT [.Flex, .DotFlex], N .Primary])]
  | .Primary => any [
      anyT [.UInt, .UReal, .String, .Bool, .End],
      cat [N .ComponentReference, opt (N .FunctionCallArgs)],
      cat [anyT [.Der, .Initial, .Pure], N .FunctionCallArgs],
      cat [T .LParen, opt (N .OutputExpressionList), T .RParen, opt (N .ArraySubscripts)],
      cat [T .LBracket, sepBy .Semicolon (N .ExpressionList), T .RBracket],
      cat [T .LCurly, N .ArrayArguments, T .RCurly]]
  | .TypeSpecifier => cat [opt (T .Dot), N .Name]
  | .Name => sepBy .Dot (T .Identifier)
  | .ComponentReference => cat [
      opt (T .Dot), sepBy .Dot (cat [T .Identifier, opt (N .ArraySubscripts)])]
  | .ResultReference => any [
      N .ComponentReference,
      cat [T .Der, T .LParen, N .ComponentReference, opt (cat [T .Comma, T .UInt]), T .RParen]]
  | .FunctionCallArgs => cat [T .LParen, opt (N .FunctionArguments), T .RParen]
  | .FunctionArguments => any [
      cat [N .Expression, opt (any [
        cat [T .Comma, N .FunctionArgumentsNonFirst], cat [T .For, N .ForIndices]])],
      cat [N .FunctionPartialApplication, opt (cat [T .Comma, N .FunctionArgumentsNonFirst])],
      N .NamedArguments]
  | .FunctionArgumentsNonFirst => any [
      cat [N .FunctionArgument, opt (cat [T .Comma, N .FunctionArgumentsNonFirst])],
      N .NamedArguments]
  | .ArrayArguments => cat [N .Expression, opt (any [
      cat [T .Comma, N .ArrayArgumentsNonFirst], cat [T .For, N .ForIndices]])]
  | .ArrayArgumentsNonFirst => cat [
      N .Expression, opt (cat [T .Comma, N .ArrayArgumentsNonFirst])]
  | .NamedArguments => cat [N .NamedArgument, opt (cat [T .Comma, N .NamedArguments])]
  | .NamedArgument => cat [T .Identifier, T .Equal, N .FunctionArgument]
  | .FunctionArgument => any [N .FunctionPartialApplication, N .Expression]
  | .FunctionPartialApplication => cat [
      T .Function, N .TypeSpecifier, T .LParen, opt (N .NamedArguments), T .RParen]
  | .OutputExpressionList => cat [
      opt (N .Expression), many (cat [T .Comma, opt (N .Expression)])]
  | .ExpressionList => sepBy .Comma (N .Expression)
  | .ArraySubscripts => cat [T .LBracket, sepBy .Comma (N .Subscript), T .RBracket]
  | .Subscript => any [T .Colon, N .Expression]
  | .Description => cat [opt (N .DescriptionString), opt (N .AnnotationClause)]
  | .DescriptionString => opt (sepBy .Plus (T .String))
  | .AnnotationClause => cat [T .Annotation, N .ClassModification]

end Gram

mutual
/-- Every production of the tree has the children its right-hand side allows. -/
def Tree.Conforms : Tree → Prop
  | .tok _ => True
  | .node k cs => Lang (Gram.spec k) (cs.map Tree.sym) ∧ ConformsF cs
/-- Every production of the forest has the children its right-hand side allows. -/
def ConformsF : List Tree → Prop
  | [] => True
  | t :: ts => t.Conforms ∧ ConformsF ts
end

end Mofmt
