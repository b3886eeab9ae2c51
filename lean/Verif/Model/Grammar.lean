import Verif.Model.Parser
/-
The grammar functions. Source: /repo/src/parser/parsing.rs:253-1546

One definition per Rust function, in source order.  Each is the body of the function between
`let mark = p.enter()` and `p.exit(mark, SyntaxKind::X)`; these two calls belong to `Cmd.call X`.
A `match p.nth(n)` is `.look n` followed by a chain of `.ifk` (one per arm).
-/
namespace Mofmt
namespace Grammar

/-- parsing.rs:255-264 `SECTION_BREAKERS` -/
def sectionBreakers : List Tok :=
  [.Protected, .Public, .Initial, .Equation, .Algorithm, .End, .Annotation, .External]

/-- parsing.rs:265-279 `CLASS_PREFS` -/
def classPrefs : List Tok :=
  [.Partial, .Class, .Model, .Record, .Function, .Block, .TypeKw, .Operator, .Connector,
   .Package, .Pure, .Impure, .Expandable]

/-- parsing.rs:1189-1196 `RELOPS` -/
def relOps : List Tok := [.Les, .Leq, .Gre, .Geq, .Eq, .Neq]

/-- parsing.rs:1215-1220 `ADDOPS` -/
def addOps : List Tok := [.Plus, .DotPlus, .Minus, .DotMinus]

/-- parsing.rs:1242-1247 `MULOPS` -/
def mulOps : List Tok := [.Star, .DotStar, .Slash, .DotSlash]

/-- `while p.consume(k) && !p.eof() { c }` -/
def sepLoop (k : Tok) (c : Cmd) : Cmd := .while (.and (.consume k) (.not .eof)) c

/-- `while !p.check_any(&ks) && !p.eof() { c }` (also written with `&`) -/
def untilLoop (ks : List Tok) (c : Cmd) : Cmd := .while (.and (.not (.checkAny ks)) (.not .eof)) c

/-- parsing.rs:283-297 `stored_definition` -/
def storedDefinition : Cmd := blk [
  .when (.consume .Within) (blk [
    .when (.not (.check .Semicolon)) (.call .Name),
    .expect .Semicolon]),
  .while (.not .eof) (blk [
    .eval (.consume .Final),
    .call .ClassDefinition,
    .expect .Semicolon])]

/-- parsing.rs:301-307 `class_definition` -/
def classDefinition : Cmd := blk [
  .eval (.consume .Encapsulated),
  .call .ClassPrefixes,
  .call .ClassSpecifier]

/-- parsing.rs:309-345 `class_prefixes` -/
def classPrefixes : Cmd := blk [
  .eval (.consume .Partial),
  .look 0,
  .ifk [.Class, .Model, .Block, .TypeKw, .Package, .Record, .Connector, .Function]
    .advance
  <| .ifk [.Expandable]
    (blk [.advance, .expect .Connector])
  <| .ifk [.Operator]
    (blk [.advance, .when (.not (.consume .Record)) (.eval (.consume .Function))])
  <| .ifk [.Pure, .Impure]
    (blk [.advance, .eval (.consume .Operator), .expect .Function])
  <| .advErr 0 c!"unexpected token '" c!"' used as a class prefix"]

/-- parsing.rs:347-366 `class_specifier` -/
def classSpecifier : Cmd := .ite (.check .Extends)
    (.call .LongClassSpecifier)
  <| .ite (.check .Identifier)
    (.ite (.not (.nthIs 1 .Equal))
      (.call .LongClassSpecifier)
    <| .ite (.nthIs 2 .Der)
      (.call .DerClassSpecifier)
      (.call .ShortClassSpecifier))
  <| .advErr 0 c!"unexpected token '" c!"': doesn't match any type of class specifier"

/-- parsing.rs:368-383 `long_class_specifier` -/
def longClassSpecifier : Cmd := blk [
  .ite (.consume .Extends)
    (blk [.expect .Identifier, .when (.check .LParen) (.call .ClassModification)])
    (.expect .Identifier),
  .call .DescriptionString,
  .call .Composition,
  .expect .End,
  .expect .Identifier]

/-- parsing.rs:385-407 `short_class_specifier` -/
def shortClassSpecifier : Cmd := blk [
  .expect .Identifier,
  .expect .Equal,
  .ite (.consume .Enumeration)
    (blk [
      .expect .LParen,
      .when (.and (.not (.consume .Colon)) (.check .Identifier)) (.call .EnumList),
      .expect .RParen])
    (blk [
      .call .BasePrefix,
      .call .TypeSpecifier,
      .when (.check .LBracket) (.call .ArraySubscripts),
      .when (.check .LParen) (.call .ClassModification)]),
  .call .Description]

/-- parsing.rs:409-424 `der_class_specifier` -/
def derClassSpecifier : Cmd := blk [
  .expect .Identifier,
  .expect .Equal,
  .expect .Der,
  .expect .LParen,
  .call .TypeSpecifier,
  .expect .Comma,
  .expect .Identifier,
  sepLoop .Comma (.expect .Identifier),
  .expect .RParen,
  .call .Description]

/-- parsing.rs:426-432 `base_prefix` -/
def basePrefix : Cmd := .when (.not (.consume .Input)) (.eval (.consume .Output))

/-- parsing.rs:434-441 `enum_list` -/
def enumList : Cmd := blk [
  .call .EnumerationLiteral,
  sepLoop .Comma (.call .EnumerationLiteral)]

/-- parsing.rs:443-448 `enumeration_literal` -/
def enumerationLiteral : Cmd := blk [
  .expect .Identifier,
  .call .Description]

/-- parsing.rs:450-505 `composition` -/
def composition : Cmd := blk [
  .call .ElementList,
  untilLoop [.External, .Annotation, .End] (blk [
    .look 0,
    .ifk [.Public, .Protected]
      (blk [.advance, .call .ElementList])
    <| .ifk [.Initial]
      (blk [
        .look 1,
        .ifk [.Equation] (.call .EquationSection)
        <| .ifk [.Algorithm] (.call .AlgorithmSection)
        <| .advErr 1 c!"unexpected token '"
            c!"' following 'initial'. Expected 'equation' or 'algorithm'"])
    <| .ifk [.Equation] (.call .EquationSection)
    <| .ifk [.Algorithm] (.call .AlgorithmSection)
    <| .advErr 0 c!"unexpected token '"
        c!"' after element list inside composition. Expected 'protected', 'public', 'initial', 'equation', 'algorithm', 'external', 'annotation' or 'end'."]),
  .when (.consume .External) (blk [
    .when (.check .String) (.call .LanguageSpecification),
    .when (.checkAny [.Dot, .Identifier]) (.call .ExternalFunctionCall),
    .when (.check .Annotation) (.call .AnnotationClause),
    .expect .Semicolon]),
  .when (.check .Annotation) (blk [
    .call .AnnotationClause,
    .expect .Semicolon])]

/-- parsing.rs:507-511 `language_specification` -/
def languageSpecification : Cmd := .expect .String

/-- parsing.rs:513-526 `external_function_call` -/
def externalFunctionCall : Cmd := blk [
  .when (.not (.nthIs 1 .LParen)) (blk [
    .call .ComponentReference,
    .expect .Equal]),
  .expect .Identifier,
  .expect .LParen,
  .when (.not (.check .RParen)) (.call .ExpressionList),
  .expect .RParen]

/-- parsing.rs:528-535 `element_list` -/
def elementList : Cmd := untilLoop sectionBreakers (blk [
    .call .Element,
    .expect .Semicolon])

/-- parsing.rs:537-565 `element` -/
def element : Cmd := .ite (.check .Import)
    (.call .ImportClause)
  <| .ite (.check .Extends)
    (.call .ExtendsClause)
  <| blk [
    .eval (.consume .Redeclare),
    .eval (.consume .Final),
    .eval (.consume .Inner),
    .eval (.consume .Outer),
    .ite (.consume .Replaceable)
      (blk [
        .ite (.or (.checkAny classPrefs) (.check .Encapsulated))
          (.call .ClassDefinition)
          (.call .ComponentClause),
        .when (.check .Constrainedby) (blk [
          .call .ConstrainingClause,
          .call .Description])])
    <| .ite (.or (.checkAny classPrefs) (.check .Encapsulated))
      (.call .ClassDefinition)
      (.call .ComponentClause)]

/-- parsing.rs:567-584 `import_clause` -/
def importClause : Cmd := blk [
  .expect .Import,
  .ite (.nthIs 1 .Equal)
    (blk [.expect .Identifier, .advance, .call .Name])
    (blk [
      .call .Name,
      .when (.and (.not (.consume .DotStar)) (.consume .Dot)) (blk [
        .expect .LCurly,
        .call .ImportList,
        .expect .RCurly])]),
  .call .Description]

/-- parsing.rs:586-593 `import_list` -/
def importList : Cmd := blk [
  .expect .Identifier,
  sepLoop .Comma (.expect .Identifier)]

/-- parsing.rs:597-608 `extends_clause` -/
def extendsClause : Cmd := blk [
  .expect .Extends,
  .call .TypeSpecifier,
  .when (.check .LParen) (.call .ClassOrInheritanceModification),
  .when (.check .Annotation) (.call .AnnotationClause)]

/-- parsing.rs:610-618 `constraining_clause` -/
def constrainingClause : Cmd := blk [
  .expect .Constrainedby,
  .call .TypeSpecifier,
  .when (.check .LParen) (.call .ClassModification)]

/-- parsing.rs:620-628 `class_or_inheritance_modification` -/
def classOrInheritanceModification : Cmd := blk [
  .expect .LParen,
  .when (.not (.consume .RParen)) (blk [
    .call .ArgumentOrInheritanceModificationList,
    .expect .RParen])]

/-- parsing.rs:630-645 `argument_or_inheritance_modification_list` -/
def argumentOrInheritanceModificationList : Cmd := blk [
  .ite (.check .Break) (.call .InheritanceModification) (.call .Argument),
  sepLoop .Comma
    (.ite (.check .Break) (.call .InheritanceModification) (.call .Argument))]

/-- parsing.rs:647-656 `inheritance_modification` -/
def inheritanceModification : Cmd := blk [
  .expect .Break,
  .ite (.check .Connect) (.call .ConnectEquation) (.expect .Identifier)]

/-- parsing.rs:660-669 `component_clause` -/
def componentClause : Cmd := blk [
  .call .TypePrefix,
  .call .TypeSpecifier,
  .when (.check .LBracket) (.call .ArraySubscripts),
  .call .ComponentList]

/-- parsing.rs:671-683 `type_prefix` -/
def typePrefix : Cmd := blk [
  .when (.not (.consume .Flow)) (.eval (.consume .Stream)),
  .when (.and (.not (.consume .Discrete)) (.not (.consume .Parameter)))
    (.eval (.consume .Constant)),
  .when (.not (.consume .Input)) (.eval (.consume .Output))]

/-- parsing.rs:685-692 `component_list` -/
def componentList : Cmd := blk [
  .call .ComponentDeclaration,
  sepLoop .Comma (.call .ComponentDeclaration)]

/-- parsing.rs:694-702 `component_declaration` -/
def componentDeclaration : Cmd := blk [
  .call .Declaration,
  .when (.check .If) (.call .ConditionAttribute),
  .call .Description]

/-- parsing.rs:704-709 `condition_attribute` -/
def conditionAttribute : Cmd := blk [
  .expect .If,
  .call .Expression]

/-- parsing.rs:711-725 `declaration` -/
def declaration : Cmd := blk [
  .expect .Identifier,
  .when (.check .LBracket) (.call .ArraySubscripts),
  .when (.checkAny [.LParen, .Equal, .Assign]) (.call .Modification)]

/-- parsing.rs:729-741 `modification` -/
def modification : Cmd := .ite (.checkAny [.Equal, .Assign])
    (blk [.advance, .call .ModificationExpression])
    (blk [
      .call .ClassModification,
      .when (.consume .Equal) (.call .ModificationExpression)])

/-- parsing.rs:743-749 `modification_expression` -/
def modificationExpression : Cmd := .when (.not (.consume .Break)) (.call .Expression)

/-- parsing.rs:751-759 `class_modification` -/
def classModification : Cmd := blk [
  .expect .LParen,
  .when (.not (.consume .RParen)) (blk [
    .call .ArgumentList,
    .expect .RParen])]

/-- parsing.rs:761-768 `argument_list` -/
def argumentList : Cmd := blk [
  .call .Argument,
  sepLoop .Comma (.call .Argument)]

/-- parsing.rs:770-778 `argument` -/
def argument : Cmd := .ite (.check .Redeclare)
    (.call .ElementRedeclaration)
    (.call .ElementModificationOrReplaceable)

/-- parsing.rs:780-790 `element_modification_or_replaceable` -/
def elementModificationOrReplaceable : Cmd := blk [
  .eval (.consume .Each),
  .eval (.consume .Final),
  .ite (.check .Replaceable) (.call .ElementReplaceable) (.call .ElementModification)]

/-- parsing.rs:792-804 `element_modification` -/
def elementModification : Cmd := blk [
  .call .Name,
  .when (.checkAny [.LParen, .Equal, .Assign]) (.call .Modification),
  .call .DescriptionString]

/-- parsing.rs:806-819 `element_redeclaration` -/
def elementRedeclaration : Cmd := blk [
  .expect .Redeclare,
  .eval (.consume .Each),
  .eval (.consume .Final),
  .ite (.checkAny classPrefs)
    (.call .ShortClassDefinition)
  <| .ite (.check .Replaceable)
    (.call .ElementReplaceable)
    (.call .ComponentClause1)]

/-- parsing.rs:821-833 `element_replaceable` -/
def elementReplaceable : Cmd := blk [
  .expect .Replaceable,
  .ite (.checkAny classPrefs) (.call .ShortClassDefinition) (.call .ComponentClause1),
  .when (.check .Constrainedby) (.call .ConstrainingClause)]

/-- parsing.rs:835-841 `component_clause1` -/
def componentClause1 : Cmd := blk [
  .call .TypePrefix,
  .call .TypeSpecifier,
  .call .ComponentDeclaration1]

/-- parsing.rs:843-848 `component_declaration1` -/
def componentDeclaration1 : Cmd := blk [
  .call .Declaration,
  .call .Description]

/-- parsing.rs:850-855 `short_class_definition` -/
def shortClassDefinition : Cmd := blk [
  .call .ClassPrefixes,
  .call .ShortClassSpecifier]

/-- parsing.rs:859-868 `equation_section` -/
def equationSection : Cmd := blk [
  .eval (.consume .Initial),
  .expect .Equation,
  untilLoop sectionBreakers (blk [
    .call .Equation,
    .expect .Semicolon])]

/-- parsing.rs:870-879 `algorithm_section` -/
def algorithmSection : Cmd := blk [
  .eval (.consume .Initial),
  .expect .Algorithm,
  untilLoop sectionBreakers (blk [
    .call .Statement,
    .expect .Semicolon])]

/-- parsing.rs:881-901 `equation` -/
def equation : Cmd := blk [
  .look 0,
  .ifk [.If] (.call .IfEquation)
  <| .ifk [.For] (.call .ForEquation)
  <| .ifk [.When] (.call .WhenEquation)
  <| .ifk [.Connect] (.call .ConnectEquation)
  <| blk [
    .call .SimpleExpression,
    .when (.consume .Equal) (.call .Expression)],
  .call .Description]

/-- parsing.rs:903-930 `statement` -/
def statement : Cmd := blk [
  .look 0,
  .ifk [.If] (.call .IfStatement)
  <| .ifk [.For] (.call .ForStatement)
  <| .ifk [.While] (.call .WhileStatement)
  <| .ifk [.When] (.call .WhenStatement)
  <| .ifk [.Break, .Return] .advance
  <| .ifk [.LParen]
    (blk [
      .advance,
      .call .OutputExpressionList,
      .expect .RParen,
      .expect .Assign,
      .call .ComponentReference,
      .call .FunctionCallArgs])
  <| blk [
    .call .ComponentReference,
    .ite (.consume .Assign) (.call .Expression) (.call .FunctionCallArgs)],
  .call .Description]

/-- parsing.rs:932-969 `if_equation` -/
def ifEquation : Cmd := blk [
  .expect .If,
  .call .Expression,
  .expect .Then,
  untilLoop [.ElseIf, .Else, .End] (blk [
    .call .Equation,
    .expect .Semicolon]),
  untilLoop [.Else, .End] (blk [
    .expect .ElseIf,
    .call .Expression,
    .expect .Then,
    untilLoop [.ElseIf, .Else, .End] (blk [
      .call .Equation,
      .expect .Semicolon])]),
  .when (.consume .Else)
    (.while (.and (.not (.check .End)) (.not .eof)) (blk [
      .call .Equation,
      .expect .Semicolon])),
  .expect .End,
  .expect .If]

/-- parsing.rs:971-1008 `if_statement` -/
def ifStatement : Cmd := blk [
  .expect .If,
  .call .Expression,
  .expect .Then,
  untilLoop [.ElseIf, .Else, .End] (blk [
    .call .Statement,
    .expect .Semicolon]),
  untilLoop [.Else, .End] (blk [
    .expect .ElseIf,
    .call .Expression,
    .expect .Then,
    untilLoop [.ElseIf, .Else, .End] (blk [
      .call .Statement,
      .expect .Semicolon])]),
  .when (.consume .Else)
    (.while (.and (.not (.check .End)) (.not .eof)) (blk [
      .call .Statement,
      .expect .Semicolon])),
  .expect .End,
  .expect .If]

/-- parsing.rs:1010-1022 `for_equation` -/
def forEquation : Cmd := blk [
  .expect .For,
  .call .ForIndices,
  .expect .Loop,
  .while (.and (.not (.check .End)) (.not .eof)) (blk [
    .call .Equation,
    .expect .Semicolon]),
  .expect .End,
  .expect .For]

/-- parsing.rs:1024-1036 `for_statement` -/
def forStatement : Cmd := blk [
  .expect .For,
  .call .ForIndices,
  .expect .Loop,
  .while (.and (.not (.check .End)) (.not .eof)) (blk [
    .call .Statement,
    .expect .Semicolon]),
  .expect .End,
  .expect .For]

/-- parsing.rs:1038-1045 `for_indices` -/
def forIndices : Cmd := blk [
  .call .ForIndex,
  sepLoop .Comma (.call .ForIndex)]

/-- parsing.rs:1047-1054 `for_index` -/
def forIndex : Cmd := blk [
  .expect .Identifier,
  .when (.consume .In) (.call .Expression)]

/-- parsing.rs:1056-1068 `while_statement` -/
def whileStatement : Cmd := blk [
  .expect .While,
  .call .Expression,
  .expect .Loop,
  .while (.and (.not (.check .End)) (.not .eof)) (blk [
    .call .Statement,
    .expect .Semicolon]),
  .expect .End,
  .expect .While]

/-- parsing.rs:1070-1091 `when_equation` -/
def whenEquation : Cmd := blk [
  .expect .When,
  .call .Expression,
  .expect .Then,
  untilLoop [.ElseWhen, .End] (blk [
    .call .Equation,
    .expect .Semicolon]),
  .while (.and (.not (.check .End)) (.not .eof)) (blk [
    .expect .ElseWhen,
    .call .Expression,
    .expect .Then,
    untilLoop [.ElseWhen, .End] (blk [
      .call .Equation,
      .expect .Semicolon])]),
  .expect .End,
  .expect .When]

/-- parsing.rs:1093-1114 `when_statement` -/
def whenStatement : Cmd := blk [
  .expect .When,
  .call .Expression,
  .expect .Then,
  untilLoop [.ElseWhen, .End] (blk [
    .call .Statement,
    .expect .Semicolon]),
  .while (.and (.not (.check .End)) (.not .eof)) (blk [
    .expect .ElseWhen,
    .call .Expression,
    .expect .Then,
    untilLoop [.ElseWhen, .End] (blk [
      .call .Statement,
      .expect .Semicolon])]),
  .expect .End,
  .expect .When]

/-- parsing.rs:1116-1125 `connect_equation` -/
def connectEquation : Cmd := blk [
  .expect .Connect,
  .expect .LParen,
  .call .ComponentReference,
  .expect .Comma,
  .call .ComponentReference,
  .expect .RParen]

/-- parsing.rs:1129-1149 `expression` -/
def expression : Cmd := blk [
  .look 0,
  .ifk [.If]
    (blk [
      .advance,
      .call .Expression,
      .expect .Then,
      .call .Expression,
      .while (.and (.not (.check .Else)) (.not .eof)) (blk [
        .expect .ElseIf,
        .call .Expression,
        .expect .Then,
        .call .Expression]),
      .expect .Else,
      .call .Expression])
    (.call .SimpleExpression)]

/-- parsing.rs:1151-1161 `simple_expression` -/
def simpleExpression : Cmd := blk [
  .call .LogicalExpression,
  .when (.consume .Colon) (blk [
    .call .LogicalExpression,
    .when (.consume .Colon) (.call .LogicalExpression)])]

/-- parsing.rs:1163-1170 `logical_expression` -/
def logicalExpression : Cmd := blk [
  .call .LogicalTerm,
  sepLoop .Or (.call .LogicalTerm)]

/-- parsing.rs:1172-1179 `logical_term` -/
def logicalTerm : Cmd := blk [
  .call .LogicalFactor,
  sepLoop .And (.call .LogicalFactor)]

/-- parsing.rs:1181-1186 `logical_factor` -/
def logicalFactor : Cmd := blk [
  .eval (.consume .Not),
  .call .Relation]

/-- parsing.rs:1188-1204 `relation` -/
def relation : Cmd := blk [
  .call .ArithmeticExpression,
  .when (.checkAny relOps) (blk [
    .call .RelationalOperator,
    .call .ArithmeticExpression])]

/-- parsing.rs:1206-1212 `relational_operator` -/
def relationalOperator : Cmd := .advance

/-- parsing.rs:1214-1231 `arithmetic_expression` -/
def arithmeticExpression : Cmd := blk [
  .when (.checkAny addOps) (.call .AddOperator),
  .call .Term,
  .while (.and (.checkAny addOps) (.not .eof)) (blk [
    .call .AddOperator,
    .call .Term])]

/-- parsing.rs:1233-1239 `add_operator` -/
def addOperator : Cmd := .advance

/-- parsing.rs:1241-1255 `term` -/
def term : Cmd := blk [
  .call .Factor,
  .while (.and (.checkAny mulOps) (.not .eof)) (blk [
    .call .MulOperator,
    .call .Factor])]

/-- parsing.rs:1257-1263 `mul_operator` -/
def mulOperator : Cmd := .advance

/-- parsing.rs:1265-1273 `factor` -/
def factor : Cmd := blk [
  .call .Primary,
  .when (.checkAny [.Flex, .DotFlex]) (blk [
    .advance,
    .call .Primary])]

/-- parsing.rs:1275-1316 `primary` -/
def primary : Cmd := blk [
  .look 0,
  .ifk [.UReal, .UInt, .String, .Bool, .End]
    .advance
  <| .ifk [.LParen]
    (blk [
      .advance,
      .call .OutputExpressionList,
      .expect .RParen,
      .when (.check .LBracket) (.call .ArraySubscripts)])
  <| .ifk [.LBracket]
    (blk [
      .advance,
      .call .ExpressionList,
      sepLoop .Semicolon (.call .ExpressionList),
      .expect .RBracket])
  <| .ifk [.LCurly]
    (blk [
      .advance,
      .call .ArrayArguments,
      .expect .RCurly])
  <| .ifk [.Der, .Initial, .Pure]
    (blk [
      .advance,
      .call .FunctionCallArgs])
  <| blk [
    .call .ComponentReference,
    .when (.check .LParen) (.call .FunctionCallArgs)]]

/-- parsing.rs:1318-1323 `type_specifier` -/
def typeSpecifier : Cmd := blk [
  .eval (.consume .Dot),
  .call .Name]

/-- parsing.rs:1325-1342 `name`
The `break` on `.` followed by `{` is part of the loop condition: the loop goes on when `nth(1)` is
an identifier or is not `{`; the last `nth` result then selects the branch, as in the code. -/
def name : Cmd := blk [
  .expect .Identifier,
  .while (.and (.and (.check .Dot) (.not .eof))
      (.or (.nthIs 1 .Identifier) (.not (.nthIs 1 .LCurly))))
    (.ifk [.Identifier]
      (blk [.advance, .advance])
      (.advErr 1 c!"unexpected token '" c!"' after '.'. Expected identifier or '{'"))]

/-- parsing.rs:1344-1358 `component_reference` -/
def componentReference : Cmd := blk [
  .eval (.consume .Dot),
  .expect .Identifier,
  .when (.check .LBracket) (.call .ArraySubscripts),
  sepLoop .Dot (blk [
    .expect .Identifier,
    .when (.check .LBracket) (.call .ArraySubscripts)])]

/-- parsing.rs:1360-1373 `result_reference` -/
def resultReference : Cmd := .ite (.consume .Der)
    (blk [
      .expect .LParen,
      .call .ComponentReference,
      .when (.consume .Comma) (.expect .UInt),
      .expect .RParen])
    (.call .ComponentReference)

/-- parsing.rs:1375-1383 `function_call_args` -/
def functionCallArgs : Cmd := blk [
  .expect .LParen,
  .when (.not (.consume .RParen)) (blk [
    .call .FunctionArguments,
    .expect .RParen])]

/-- parsing.rs:1385-1403 `function_arguments` -/
def functionArguments : Cmd := .ite (.nthIs 1 .Equal)
    (.call .NamedArguments)
  <| .ite (.not (.check .Function))
    (blk [
      .call .Expression,
      .ite (.consume .Comma)
        (.call .FunctionArgumentsNonFirst)
        (.when (.consume .For) (.call .ForIndices))])
    (blk [
      .call .FunctionPartialApplication,
      .when (.consume .Comma) (.call .FunctionArgumentsNonFirst)])

/-- parsing.rs:1405-1416 `function_arguments_non_first` -/
def functionArgumentsNonFirst : Cmd := .ite (.nthIs 1 .Equal)
    (.call .NamedArguments)
    (blk [
      .call .FunctionArgument,
      .when (.consume .Comma) (.call .FunctionArgumentsNonFirst)])

/-- parsing.rs:1418-1427 `array_arguments` -/
def arrayArguments : Cmd := blk [
  .call .Expression,
  .ite (.consume .Comma)
    (.call .ArrayArgumentsNonFirst)
    (.when (.consume .For) (.call .ForIndices))]

/-- parsing.rs:1429-1436 `array_arguments_non_first` -/
def arrayArgumentsNonFirst : Cmd := blk [
  .call .Expression,
  .when (.consume .Comma) (.call .ArrayArgumentsNonFirst)]

/-- parsing.rs:1438-1445 `named_arguments` -/
def namedArguments : Cmd := blk [
  .call .NamedArgument,
  .when (.consume .Comma) (.call .NamedArguments)]

/-- parsing.rs:1447-1453 `named_argument` -/
def namedArgument : Cmd := blk [
  .expect .Identifier,
  .expect .Equal,
  .call .FunctionArgument]

/-- parsing.rs:1455-1463 `function_argument` -/
def functionArgument : Cmd := .ite (.check .Function) (.call .FunctionPartialApplication) (.call .Expression)

/-- parsing.rs:1465-1475 `function_partial_application` -/
def functionPartialApplication : Cmd := blk [
  .expect .Function,
  .call .TypeSpecifier,
  .expect .LParen,
  .when (.check .Identifier) (.call .NamedArguments),
  .expect .RParen]

/-- parsing.rs:1477-1492 `output_expression_list` -/
def outputExpressionList : Cmd := .when (.not (.check .RParen)) (blk [
    .when (.not (.checkAny [.RParen, .Comma])) (.call .Expression),
    sepLoop .Comma
      (.when (.not (.checkAny [.RParen, .Comma])) (.call .Expression))])

/-- parsing.rs:1494-1501 `expression_list` -/
def expressionList : Cmd := blk [
  .call .Expression,
  sepLoop .Comma (.call .Expression)]

/-- parsing.rs:1503-1512 `array_subscripts` -/
def arraySubscripts : Cmd := blk [
  .expect .LBracket,
  .call .Subscript,
  sepLoop .Comma (.call .Subscript),
  .expect .RBracket]

/-- parsing.rs:1514-1520 `subscript` -/
def subscript : Cmd := .when (.not (.consume .Colon)) (.call .Expression)

/-- parsing.rs:1522-1529 `description` -/
def description : Cmd := blk [
  .call .DescriptionString,
  .when (.check .Annotation) (.call .AnnotationClause)]

/-- parsing.rs:1531-1539 `description_string` -/
def descriptionString : Cmd := .when (.consume .String) (sepLoop .Plus (.expect .String))

/-- parsing.rs:1541-1546 `annotation_clause` -/
def annotationClause : Cmd := blk [
  .expect .Annotation,
  .call .ClassModification]

/-- parsing.rs:34-127, the dispatch of `Parser::parse`, and the target of every call. -/
def body : SK → Cmd
  | .Error => .unreachable
  | .StoredDefinition => storedDefinition
  | .ClassDefinition => classDefinition
  | .ClassPrefixes => classPrefixes
  | .ClassSpecifier => classSpecifier
  | .LongClassSpecifier => longClassSpecifier
  | .ShortClassSpecifier => shortClassSpecifier
  | .DerClassSpecifier => derClassSpecifier
  | .BasePrefix => basePrefix
  | .EnumList => enumList
  | .EnumerationLiteral => enumerationLiteral
  | .Composition => composition
  | .LanguageSpecification => languageSpecification
  | .ExternalFunctionCall => externalFunctionCall
  | .ElementList => elementList
  | .Element => element
  | .ImportClause => importClause
  | .ImportList => importList
  | .ExtendsClause => extendsClause
  | .ConstrainingClause => constrainingClause
  | .ClassOrInheritanceModification => classOrInheritanceModification
  | .ArgumentOrInheritanceModificationList => argumentOrInheritanceModificationList
  | .InheritanceModification => inheritanceModification
  | .ComponentClause => componentClause
  | .TypePrefix => typePrefix
  | .ComponentList => componentList
  | .ComponentDeclaration => componentDeclaration
  | .ConditionAttribute => conditionAttribute
  | .Declaration => declaration
  | .Modification => modification
  | .ModificationExpression => modificationExpression
  | .ClassModification => classModification
  | .ArgumentList => argumentList
  | .Argument => argument
  | .ElementModificationOrReplaceable => elementModificationOrReplaceable
  | .ElementModification => elementModification
  | .ElementRedeclaration => elementRedeclaration
  | .ElementReplaceable => elementReplaceable
  | .ComponentClause1 => componentClause1
  | .ComponentDeclaration1 => componentDeclaration1
  | .ShortClassDefinition => shortClassDefinition
  | .EquationSection => equationSection
  | .AlgorithmSection => algorithmSection
  | .Equation => equation
  | .Statement => statement
  | .IfEquation => ifEquation
  | .IfStatement => ifStatement
  | .ForEquation => forEquation
  | .ForStatement => forStatement
  | .ForIndices => forIndices
  | .ForIndex => forIndex
  | .WhileStatement => whileStatement
  | .WhenEquation => whenEquation
  | .WhenStatement => whenStatement
  | .ConnectEquation => connectEquation
  | .Expression => expression
  | .SimpleExpression => simpleExpression
  | .LogicalExpression => logicalExpression
  | .LogicalTerm => logicalTerm
  | .LogicalFactor => logicalFactor
  | .Relation => relation
  | .RelationalOperator => relationalOperator
  | .ArithmeticExpression => arithmeticExpression
  | .AddOperator => addOperator
  | .Term => term
  | .MulOperator => mulOperator
  | .Factor => factor
  | .Primary => primary
  | .TypeSpecifier => typeSpecifier
  | .Name => name
  | .ComponentReference => componentReference
  | .ResultReference => resultReference
  | .FunctionCallArgs => functionCallArgs
  | .FunctionArguments => functionArguments
  | .FunctionArgumentsNonFirst => functionArgumentsNonFirst
  | .ArrayArguments => arrayArguments
  | .ArrayArgumentsNonFirst => arrayArgumentsNonFirst
  | .NamedArguments => namedArguments
  | .NamedArgument => namedArgument
  | .FunctionArgument => functionArgument
  | .FunctionPartialApplication => functionPartialApplication
  | .OutputExpressionList => outputExpressionList
  | .ExpressionList => expressionList
  | .ArraySubscripts => arraySubscripts
  | .Subscript => subscript
  | .Description => description
  | .DescriptionString => descriptionString
  | .AnnotationClause => annotationClause

end Grammar

/-- Fuel that always suffices (proved in Proofs/Termination): linear in the number of tokens. -/
def parseFuel (n : Nat) : Nat := 4000 * (101 * (n + 1) + 1)

/-- parsing.rs:7-15 `events`: the events in order and the errors. -/
def events (name : Text) (toks : List Token) (entry : SK) : Res (List Event × List Text) :=
  (run name toks Grammar.body (parseFuel toks.length) (.call entry) PState.init).bind fun s =>
    .ok (s.evs.reverse, s.errors)

/-- parser.rs:17-22 `struct ParsedModelica` -/
structure Parsed where
  tokens : List Token
  comments : List Token
  events : List Event
  errors : List Text
  deriving DecidableEq, Repr

/-- parser.rs:25-35 `parse` -/
def parse (name src : Text) (entry : SK) : Res Parsed :=
  (lex name src).bind fun l =>
    (events name l.tokens entry).bind fun (evs, errs) =>
      .ok { tokens := l.tokens, comments := l.comments, events := evs, errors := l.errors ++ errs }

end Mofmt
