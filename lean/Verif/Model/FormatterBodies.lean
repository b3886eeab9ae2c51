import Verif.Model.Formatter
/-
The formatting functions. Source: /repo/src/formatter/formatting.rs:14-113, 218-2197

One definition per Rust function, in source order.  Arms that the code selects by `tok.kind` or
`tree.kind` are Lean functions of the kind; everything else is written in `FCmd`.
-/
namespace Mofmt
namespace Fmt

/-- call of the formatting function for `k` on the current subtree -/
def go (k : SK) : FCmd := .call k .false .false .false false
/-- the same with an `is_multiline` argument -/
def goM (k : SK) (m : FCond) : FCmd := .call k m .false .false false
/-- `wrapped = k(f, tree, wrapped)` -/
def goW (k : SK) : FCmd := .call k .false (.reg .w) .false true

/-- The frequent block `push(Indent); handle_break(tree.start(), Illegal); k(f, tree); push(Dedent)`,
e.g. formatting.rs:294-299. -/
def indented (k : SK) : FCmd := fblk [.indent, .brk .cur .Illegal, go k, .dedent]

/-- The block around multiline `if` expressions, formatting.rs:921-930, 1193-1202, 1240-1249,
2009-2017. -/
def multilineIf (k : SK) : FCmd := fblk [
  .set .x (.and .curMulti (.curStartIs .If)),
  .when (.reg .x) .indent,
  .bos (.reg .x) .cur,
  go k,
  .when (.reg .x) .dedent]

/-- The wrapping block of binary operators, e.g. formatting.rs:1605-1614. -/
def wrapBefore : FCmd := .when .nextTree (fblk [
  .set .x .nextBelow,
  .when (.and (.reg .x) (.not (.reg .w))) .indent,
  .when (.not (.reg .w)) (.set .w (.reg .x)),
  .bos (.reg .x) .cur])

/-- formatting.rs:218-245 `stored_definition` -/
def storedDefinition : FBody where
  onTree := fun
    | .Name => go .Name
    | .ClassDefinition => fblk [
        .when (.prevTok .Semicolon) (.brk .cur .Legal),
        go .ClassDefinition]
    | _ => .unreachable
  onTok := fun kind => fblk [
    if kind = .Final then .brk .cur .Legal
    else if kind = .Within then .when .tokIdxPos (.brk .cur .Illegal)
    else .skip,
    .tok,
    if kind = .Final ∨ kind = .Within then .space else .skip]

/-- formatting.rs:247-264 `class_definition` -/
def classDefinition : FBody where
  onTree := fun
    | .ClassSpecifier => fblk [.space, go .ClassSpecifier]
    | .ClassPrefixes => go .ClassPrefixes
    | _ => .unreachable
  onTok := fun _ => fblk [.tok, .space]

/-- formatting.rs:266-275 `class_prefixes` -/
def classPrefixes : FBody where
  onTree := fun _ => .skip
  onTok := fun _ => fblk [.when (.idxGt 0) .space, .tok]

/-- formatting.rs:277-288 `class_specifier` -/
def classSpecifier : FBody where
  onTree := fun
    | .LongClassSpecifier => go .LongClassSpecifier
    | .ShortClassSpecifier => go .ShortClassSpecifier
    | .DerClassSpecifier => go .DerClassSpecifier
    | _ => .unreachable
  onTok := fun _ => .skip

/-- formatting.rs:290-316 `long_class_specifier` -/
def longClassSpecifier : FBody where
  onTree := fun
    | .DescriptionString => indented .DescriptionString
    | .ClassModification => go .ClassModification
    | .Composition => go .Composition
    | _ => .unreachable
  onTok := fun kind => fblk [
    if kind = .End then .brk .cur .Required else .skip,
    .tok,
    if kind = .End ∨ kind = .Extends then .space else .skip]

/-- formatting.rs:318-382 `short_class_specifier` -/
def shortClassSpecifier : FBody where
  pre := .set .m (.parenMulti .LParen .RParen)
  onTree := fun
    | .BasePrefix => fblk [.set .x .curEmpty, go .BasePrefix, .when (.not (.reg .x)) .space]
    | .TypeSpecifier => go .TypeSpecifier
    | .ArraySubscripts => go .ArraySubscripts
    | .ClassModification => go .ClassModification
    | .EnumList => fblk [
        .when (.not (.reg .m)) (.set .m (.curHas .Description)),
        .when (.reg .m) (fblk [.indent, .brk .cur .Illegal]),
        goM .EnumList (.reg .m),
        .when (.reg .m) .dedent]
    | .Description => indented .Description
    | _ => .unreachable
  onTok := fun kind => fblk [
    if kind = .Equal then .space else .skip,
    .tok,
    if kind = .Equal then .space else .skip]

/-- formatting.rs:384-435 `der_class_specifier` -/
def derClassSpecifier : FBody where
  pre := .set .m (.parenMulti .LParen .RParen)
  onTree := fun
    | .TypeSpecifier => fblk [.when (.reg .m) (.brk .cur .Illegal), go .TypeSpecifier]
    | .Description => indented .Description
    | _ => .unreachable
  onTok := fun kind => fblk [
    if kind = .Equal then .space
    else if kind = .Identifier then .when (.prevTok .Comma) (.bos (.reg .m) .cur)
    else .skip,
    .tok,
    if kind = .Equal then .space
    else if kind = .LParen then .indent
    else if kind = .RParen then .dedent
    else .skip]

/-- formatting.rs:437-443 `base_prefix` -/
def basePrefix : FBody where
  onTree := fun _ => .skip
  onTok := fun _ => .tok

/-- formatting.rs:445-461 `enum_list` -/
def enumList : FBody where
  pre := .when (.not (.reg .m)) (.set .m .treeMulti)
  onTree := fun _ => go .EnumerationLiteral
  onTok := fun _ => fblk [.tok, .when .nextTreeU (.bos (.reg .m) .next)]

/-- formatting.rs:463-475 `enumeration_literal` -/
def enumerationLiteral : FBody where
  onTree := fun _ => indented .Description
  onTok := fun _ => .tok

/-- formatting.rs:477-553 `composition` -/
def composition : FBody where
  onTree := fun kind => fblk [
    (match kind with
    | .ElementList => fblk [.indent, .brk .cur .Required, go .ElementList, .dedent]
    | .EquationSection => fblk [.brk .cur .Required, go .EquationSection]
    | .AlgorithmSection => fblk [.brk .cur .Required, go .AlgorithmSection]
    | .LanguageSpecification => fblk [.space, go .LanguageSpecification]
    | .ExternalFunctionCall =>
        fblk [.indent, .brk .cur .Required, go .ExternalFunctionCall, .dedent]
    | .AnnotationClause => fblk [
        .indent,
        .set .x (.or (.prevTok .External)
          (.and (.prevRuleIn [.LanguageSpecification, .ExternalFunctionCall])
            (.not (.prevTok .Semicolon)))),
        .when (.reg .x) .indent,
        .ite (.not (.reg .x)) (.brk .cur .Required) (.brk .cur .Illegal),
        go .AnnotationClause,
        .dedent,
        .when (.reg .x) .dedent]
    | _ => .unreachable),
    .setPrevRule]
  onTok := fun kind => fblk [
    if [Tok.Protected, .Public, .External].contains kind then .brk .cur .Required else .skip,
    .tok]

/-- formatting.rs:555-561 `language_specification` -/
def languageSpecification : FBody where
  onTree := fun _ => .skip
  onTok := fun _ => .tok

/-- formatting.rs:563-605 `external_function_call` -/
def externalFunctionCall : FBody where
  pre := fblk [.indent, .set .m (.parenMulti .LParen .RParen)]
  onTree := fun
    | .ComponentReference => go .ComponentReference
    | .ExpressionList => goM .ExpressionList (.reg .m)
    | _ => .unreachable
  onTok := fun kind => fblk [
    if kind = .Equal then .space else .skip,
    .tok,
    if kind = .Equal then .space
    else if kind = .LParen then .when (.reg .m) (.when .nextTreeU (.brk .next .Illegal))
    else .skip]
  post := .dedent

/-- formatting.rs:607-619 `element_list` -/
def elementList : FBody where
  onTree := fun _ => fblk [.when (.prevTok .Semicolon) (.brk .cur .Legal), go .Element]
  onTok := fun _ => .tok

/-- formatting.rs:621-649 `element` -/
def element : FBody where
  onTree := fun
    | .ImportClause => go .ImportClause
    | .ExtendsClause => go .ExtendsClause
    | .ClassDefinition => go .ClassDefinition
    | .ComponentClause => go .ComponentClause
    | .ConstrainingClause => indented .ConstrainingClause
    | .Description => indented .Description
    | _ => .unreachable
  onTok := fun _ => fblk [.tok, .space]

/-- formatting.rs:651-700 `import_clause` -/
def importClause : FBody where
  pre := .set .m (.parenMulti .LCurly .RCurly)
  onTree := fun
    | .Name => go .Name
    | .ImportList => goM .ImportList (.reg .m)
    | .Description => indented .Description
    | _ => .unreachable
  onTok := fun kind => fblk [
    if kind = .Equal then .space else .skip,
    .tok,
    if kind = .Import ∨ kind = .Equal then .space
    else if kind = .LCurly then
      .when (.reg .m) (fblk [.indent, .when .nextTreeU (.brk .next .Illegal)])
    else if kind = .RCurly then .when (.reg .m) .dedent
    else .skip]

/-- formatting.rs:702-714 `import_list` -/
def importList : FBody where
  pre := .when (.not (.reg .m)) (.set .m .treeMulti)
  onTree := fun _ => .skip
  onTok := fun kind => fblk [
    if kind = .Identifier then .when (.idxGt 1) (.bos (.reg .m) .cur) else .skip,
    .tok]

/-- formatting.rs:716-738 `extends_clause` -/
def extendsClause : FBody where
  onTree := fun
    | .TypeSpecifier => go .TypeSpecifier
    | .ClassOrInheritanceModification => go .ClassOrInheritanceModification
    | .AnnotationClause => indented .AnnotationClause
    | _ => .unreachable
  onTok := fun _ => fblk [.tok, .space]

/-- formatting.rs:740-754 `constraining_clause` -/
def constrainingClause : FBody where
  onTree := fun
    | .TypeSpecifier => go .TypeSpecifier
    | .ClassModification => go .ClassModification
    | _ => .unreachable
  onTok := fun _ => fblk [.tok, .space]

/-- formatting.rs:756-775 `class_or_inheritance_modification` -/
def classOrInheritanceModification : FBody where
  pre := fblk [.indent, .set .m (.and .treeMulti (.lenGt 2))]
  onTree := fun _ => goM .ArgumentOrInheritanceModificationList (.reg .m)
  onTok := fun kind => fblk [
    .tok,
    if kind = .LParen then .when (.reg .m) (.when .nextTreeU (.brk .next .Illegal)) else .skip]
  post := .dedent

/-- formatting.rs:777-801 `argument_or_inheritance_modification_list` -/
def argumentOrInheritanceModificationList : FBody where
  pre := .when (.not (.reg .m)) (.set .m .treeMulti)
  onTree := fun
    | .Argument => go .Argument
    | .InheritanceModification => go .InheritanceModification
    | _ => .unreachable
  onTok := fun _ => fblk [.tok, .when .nextTreeU (.bos (.reg .m) .next)]

/-- formatting.rs:803-816 `inheritance_modification` -/
def inheritanceModification : FBody where
  onTree := fun _ => go .ConnectEquation
  onTok := fun kind => fblk [.tok, if kind = .Break then .space else .skip]

/-- formatting.rs:818-836 `component_clause` -/
def componentClause : FBody where
  onTree := fun
    | .TypePrefix => fblk [.set .x .curEmpty, go .TypePrefix, .when (.not (.reg .x)) .space]
    | .TypeSpecifier => go .TypeSpecifier
    | .ArraySubscripts => go .ArraySubscripts
    | .ComponentList => go .ComponentList
    | _ => .unreachable
  onTok := fun _ => .skip

/-- formatting.rs:838-847 `type_prefix` -/
def typePrefix : FBody where
  onTree := fun _ => .skip
  onTok := fun _ => fblk [.when (.idxGt 0) .space, .tok]

/-- formatting.rs:849-867 `component_list` -/
def componentList : FBody where
  pre := fblk [
    .set .m .treeMulti,
    .when (.and (.reg .m) (.lenGt 1)) .indent]
  onTree := fun _ => fblk [.bos (.and (.reg .m) (.lenGt 1)) .cur, go .ComponentDeclaration]
  onTok := fun _ => .tok
  post := .when (.and (.reg .m) (.lenGt 1)) .dedent

/-- formatting.rs:869-888 `component_declaration` -/
def componentDeclaration : FBody where
  onTree := fun
    | .Declaration => go .Declaration
    | .ConditionAttribute => fblk [.space, go .ConditionAttribute]
    | .Description => indented .Description
    | _ => .unreachable
  onTok := fun _ => .skip

/-- formatting.rs:890-900 `condition_attribute` -/
def conditionAttribute : FBody where
  onTree := fun _ => go .Expression
  onTok := fun _ => fblk [.tok, .space]

/-- formatting.rs:902-913 `declaration` -/
def declaration : FBody where
  onTree := fun
    | .ArraySubscripts => go .ArraySubscripts
    | .Modification => go .Modification
    | _ => .unreachable
  onTok := fun _ => .tok

/-- formatting.rs:915-940 `modification` -/
def modification : FBody where
  onTree := fun
    | .ClassModification => go .ClassModification
    | .ModificationExpression => multilineIf .ModificationExpression
    | _ => .unreachable
  onTok := fun _ => fblk [.space, .tok]

/-- formatting.rs:942-949 `modification_expression` -/
def modificationExpression : FBody where
  onTree := fun _ => go .Expression
  onTok := fun _ => .tok

/-- formatting.rs:951-972 `class_modification` -/
def classModification : FBody where
  pre := fblk [
    .indent,
    .set .m (.or .treeMulti (.or (.treeHas .DescriptionString) (.treeHas .Description)))]
  onTree := fun _ => goM .ArgumentList (.reg .m)
  onTok := fun kind => fblk [
    .tok,
    if kind = .LParen then .when (.reg .m) (.when .nextTreeU (.brk .next .Illegal)) else .skip]
  post := .dedent

/-- formatting.rs:974-990 `argument_list` -/
def argumentList : FBody where
  pre := .when (.not (.reg .m)) (.set .m .treeMulti)
  onTree := fun _ => go .Argument
  onTok := fun _ => fblk [.tok, .when .nextTreeU (.bos (.reg .m) .next)]

/-- formatting.rs:992-1004 `argument` -/
def argument : FBody where
  onTree := fun
    | .ElementModificationOrReplaceable => go .ElementModificationOrReplaceable
    | .ElementRedeclaration => go .ElementRedeclaration
    | _ => .unreachable
  onTok := fun _ => .skip

/-- formatting.rs:1006-1020 `element_modification_or_replaceable` -/
def elementModificationOrReplaceable : FBody where
  onTree := fun
    | .ElementModification => go .ElementModification
    | .ElementReplaceable => go .ElementReplaceable
    | _ => .unreachable
  onTok := fun _ => fblk [.tok, .space]

/-- formatting.rs:1022-1038 `element_modification` -/
def elementModification : FBody where
  onTree := fun
    | .Name => go .Name
    | .Modification => go .Modification
    | .DescriptionString => indented .DescriptionString
    | _ => .unreachable
  onTok := fun _ => .skip

/-- formatting.rs:1040-1055 `element_redeclaration` -/
def elementRedeclaration : FBody where
  onTree := fun
    | .ShortClassDefinition => go .ShortClassDefinition
    | .ComponentClause1 => go .ComponentClause1
    | .ElementReplaceable => go .ElementReplaceable
    | _ => .unreachable
  onTok := fun _ => fblk [.tok, .space]

/-- formatting.rs:1057-1077 `element_replaceable` -/
def elementReplaceable : FBody where
  onTree := fun
    | .ShortClassDefinition => go .ShortClassDefinition
    | .ComponentClause1 => go .ComponentClause1
    | .ConstrainingClause => indented .ConstrainingClause
    | _ => .unreachable
  onTok := fun _ => fblk [.tok, .space]

/-- formatting.rs:1079-1099 `component_clause1` -/
def componentClause1 : FBody where
  onTree := fun
    | .TypePrefix => go .TypePrefix
    | .TypeSpecifier => fblk [.when (.lenGt 2) .space, go .TypeSpecifier]
    | .ComponentDeclaration1 => fblk [.space, go .ComponentDeclaration1]
    | _ => .unreachable
  onTok := fun _ => .skip

/-- formatting.rs:1101-1116 `component_declaration1` -/
def componentDeclaration1 : FBody where
  onTree := fun
    | .Declaration => go .Declaration
    | .Description => indented .Description
    | _ => .unreachable
  onTok := fun _ => .skip

/-- formatting.rs:1118-1131 `short_class_definition` -/
def shortClassDefinition : FBody where
  onTree := fun
    | .ClassPrefixes => go .ClassPrefixes
    | .ShortClassSpecifier => fblk [.space, go .ShortClassSpecifier]
    | _ => .unreachable
  onTok := fun _ => .skip

/-- formatting.rs:1133-1158 `equation_section` -/
def equationSection : FBody where
  pre := .indent
  onTree := fun _ => fblk [
    .ite (.prevTok .Equation) (.brk .cur .Required) (.brk .cur .Legal),
    go .Equation]
  onTok := fun kind => fblk [.tok, if kind = .Initial then .space else .skip]
  post := .dedent

/-- formatting.rs:1160-1185 `algorithm_section` -/
def algorithmSection : FBody where
  pre := .indent
  onTree := fun _ => fblk [
    .ite (.prevTok .Algorithm) (.brk .cur .Required) (.brk .cur .Legal),
    go .Statement]
  onTok := fun kind => fblk [.tok, if kind = .Initial then .space else .skip]
  post := .dedent

/-- formatting.rs:1187-1227 `equation` -/
def equation : FBody where
  onTree := fun
    | .SimpleExpression => go .SimpleExpression
    | .Expression => multilineIf .Expression
    | .IfEquation => go .IfEquation
    | .ForEquation => go .ForEquation
    | .ConnectEquation => go .ConnectEquation
    | .WhenEquation => go .WhenEquation
    | .ComponentReference => go .ComponentReference
    | .FunctionCallArgs => go .FunctionCallArgs
    | .Description => indented .Description
    | _ => .unreachable
  onTok := fun kind => fblk [if kind = .Equal then .space else .skip, .tok]

/-- formatting.rs:1229-1274 `statement` -/
def statement : FBody where
  onTree := fun
    | .ComponentReference => fblk [.when (.prevTok .Assign) .space, go .ComponentReference]
    | .Expression => multilineIf .Expression
    | .FunctionCallArgs => go .FunctionCallArgs
    | .OutputExpressionList => go .OutputExpressionList
    | .IfStatement => go .IfStatement
    | .ForStatement => go .ForStatement
    | .WhileStatement => go .WhileStatement
    | .WhenStatement => go .WhenStatement
    | .Description => indented .Description
    | _ => .unreachable
  onTok := fun kind => fblk [if kind = .Assign then .space else .skip, .tok]

/-- formatting.rs:1276-1309 `if_equation` -/
def ifEquation : FBody where
  onTree := fun
    | .Expression => fblk [.space, go .Expression, .space]
    | .Equation => fblk [.indent, .brk .cur .Legal, go .Equation, .dedent]
    | _ => .unreachable
  onTok := fun kind => fblk [
    if kind = .If then .when (.prevTok .End) .space
    else if kind = .ElseIf ∨ kind = .Else ∨ kind = .End then .brk .cur .Legal
    else .skip,
    .tok]

/-- formatting.rs:1311-1344 `if_statement` -/
def ifStatement : FBody where
  onTree := fun
    | .Expression => fblk [.space, go .Expression, .space]
    | .Statement => fblk [.indent, .brk .cur .Legal, go .Statement, .dedent]
    | _ => .unreachable
  onTok := fun kind => fblk [
    if kind = .If then .when (.prevTok .End) .space
    else if kind = .ElseIf ∨ kind = .Else ∨ kind = .End then .brk .cur .Legal
    else .skip,
    .tok]

/-- formatting.rs:1346-1373 `for_equation` -/
def forEquation : FBody where
  onTree := fun
    | .ForIndices => fblk [.space, go .ForIndices, .space]
    | .Equation => fblk [.indent, .brk .cur .Legal, go .Equation, .dedent]
    | _ => .unreachable
  onTok := fun kind => fblk [
    if kind = .For then .when (.prevTok .End) .space
    else if kind = .End then .brk .cur .Legal
    else .skip,
    .tok]

/-- formatting.rs:1375-1402 `for_statement` -/
def forStatement : FBody where
  onTree := fun
    | .ForIndices => fblk [.space, go .ForIndices, .space]
    | .Statement => fblk [.indent, .brk .cur .Legal, go .Statement, .dedent]
    | _ => .unreachable
  onTok := fun kind => fblk [
    if kind = .For then .when (.prevTok .End) .space
    else if kind = .End then .brk .cur .Legal
    else .skip,
    .tok]

/-- formatting.rs:1404-1414 `for_indices` -/
def forIndices : FBody where
  onTree := fun _ => go .ForIndex
  onTok := fun _ => fblk [.tok, .space]

/-- formatting.rs:1416-1432 `for_index` -/
def forIndex : FBody where
  onTree := fun _ => go .Expression
  onTok := fun kind => fblk [
    if kind = .In then .space else .skip,
    .tok,
    if kind = .In then .space else .skip]

/-- formatting.rs:1434-1461 `while_statement` -/
def whileStatement : FBody where
  onTree := fun
    | .Expression => fblk [.space, go .Expression, .space]
    | .Statement => fblk [.indent, .brk .cur .Legal, go .Statement, .dedent]
    | _ => .unreachable
  onTok := fun kind => fblk [
    if kind = .While then .when (.prevTok .End) .space
    else if kind = .End then .brk .cur .Legal
    else .skip,
    .tok]

/-- formatting.rs:1463-1490 `when_equation` -/
def whenEquation : FBody where
  onTree := fun
    | .Expression => fblk [.space, go .Expression, .space]
    | .Equation => fblk [.indent, .brk .cur .Legal, go .Equation, .dedent]
    | _ => .unreachable
  onTok := fun kind => fblk [
    if kind = .When then .when (.prevTok .End) .space
    else if kind = .ElseWhen ∨ kind = .End then .brk .cur .Legal
    else .skip,
    .tok]

/-- formatting.rs:1492-1519 `when_statement` -/
def whenStatement : FBody where
  onTree := fun
    | .Expression => fblk [.space, go .Expression, .space]
    | .Statement => fblk [.indent, .brk .cur .Legal, go .Statement, .dedent]
    | _ => .unreachable
  onTok := fun kind => fblk [
    if kind = .When then .when (.prevTok .End) .space
    else if kind = .ElseWhen ∨ kind = .End then .brk .cur .Legal
    else .skip,
    .tok]

/-- formatting.rs:1521-1540 `connect_equation` -/
def connectEquation : FBody where
  pre := fblk [.set .m .treeMulti, .indent]
  onTree := fun _ => fblk [
    .ite (.idxEq 2) (.when (.reg .m) (.brk .cur .Illegal)) (.bos (.reg .m) .cur),
    go .ComponentReference]
  onTok := fun _ => .tok
  post := .dedent

/-- formatting.rs:1542-1583 `expression`
The results of nested calls are ignored except for `simple_expression`. -/
def expression : FBody where
  pre := fblk [.set .m .treeMulti, .set .c .false]
  onTree := fun
    | .Expression => fblk [
        .ite (.reg .c) (.bos (.reg .m) .cur) .space,
        go .Expression,
        .ite (.reg .c) (fblk [.dedent, .when .nextTok (.bos (.reg .m) .next)]) .space,
        .set .c .false]
    | .SimpleExpression => goW .SimpleExpression
    | _ => .unreachable
  onTok := fun kind => fblk [
    .tok,
    if kind = .Then ∨ kind = .Else then fblk [.set .c (.not .false), .indent] else .skip]
  post := .when (.and (.reg .w) (.not (.reg .o))) .dedent

/-- formatting.rs:1585-1597 `simple_expression` -/
def simpleExpression : FBody where
  onTree := fun _ => goW .LogicalExpression
  onTok := fun _ => fblk [.space, .tok, .space]

/-- formatting.rs:1599-1621 `logical_expression` -/
def logicalExpression : FBody where
  onTree := fun _ => goW .LogicalTerm
  onTok := fun _ => fblk [wrapBefore, .tok, .space]

/-- formatting.rs:1623-1645 `logical_term` -/
def logicalTerm : FBody where
  onTree := fun _ => goW .LogicalFactor
  onTok := fun _ => fblk [wrapBefore, .tok, .space]

/-- formatting.rs:1647-1658 `logical_factor` -/
def logicalFactor : FBody where
  onTree := fun _ => goW .Relation
  onTok := fun _ => fblk [.tok, .space]

/-- formatting.rs:1660-1683 `relation` -/
def relation : FBody where
  onTree := fun kind =>
    if kind = .RelationalOperator then fblk [wrapBefore, go .RelationalOperator, .space]
    else goW .ArithmeticExpression
  onTok := fun _ => .skip

/-- formatting.rs:1685-1691 `relational_operator` -/
def relationalOperator : FBody where
  onTree := fun _ => .skip
  onTok := fun _ => .tok

/-- formatting.rs:1693-1720 `arithmetic_expression` -/
def arithmeticExpression : FBody where
  onTree := fun kind =>
    if kind = .AddOperator then fblk [
      .when (.idxGt 0) wrapBefore,
      go .AddOperator,
      .when (.idxGt 0) .space]
    else goW .Term
  onTok := fun _ => .skip

/-- formatting.rs:1722-1728 `add_operator` -/
def addOperator : FBody where
  onTree := fun _ => .skip
  onTok := fun _ => .tok

/-- formatting.rs:1730-1753 `term` -/
def term : FBody where
  onTree := fun kind =>
    if kind = .MulOperator then fblk [wrapBefore, go .MulOperator, .space]
    else goW .Factor
  onTok := fun _ => .skip

/-- formatting.rs:1755-1761 `mul_operator` -/
def mulOperator : FBody where
  onTree := fun _ => .skip
  onTok := fun _ => .tok

/-- formatting.rs:1763-1785 `factor` -/
def factor : FBody where
  onTree := fun _ => goW .Primary
  onTok := fun _ => fblk [wrapBefore, .tok, .space]

/-- formatting.rs:1787-1841 `primary` -/
def primary : FBody where
  pre := .set .m .treeMulti
  onTok := fun
    | .UInt | .UReal | .String | .Bool | .Der | .Initial | .Pure | .End => .tok
    | .Semicolon => fblk [.tok, .when .nextTreeU (.bos (.reg .m) .next)]
    | .LCurly | .LBracket => fblk [
        .tok,
        .indent,
        .when (.reg .m) (.when .nextTreeU (.brk .next .Illegal))]
    | .RCurly | .RBracket => fblk [.dedent, .tok]
    | .LParen | .RParen => .tok
    | _ => .unreachable
  onTree := fun
    | .ComponentReference => go .ComponentReference
    | .FunctionCallArgs => go .FunctionCallArgs
    | .ArraySubscripts => go .ArraySubscripts
    | .ArrayArguments => goM .ArrayArguments (.reg .m)
    | .ExpressionList => goM .ExpressionList (.and (.reg .m) (.lenEq 3))
    | .OutputExpressionList => goW .OutputExpressionList
    | _ => .unreachable

/-- formatting.rs:1843-1850 `type_specifier` -/
def typeSpecifier : FBody where
  onTree := fun _ => go .Name
  onTok := fun _ => .tok

/-- formatting.rs:1852-1858 `name` -/
def name : FBody where
  onTree := fun _ => .skip
  onTok := fun _ => .tok

/-- formatting.rs:1860-1867 `component_reference` -/
def componentReference : FBody where
  onTree := fun _ => go .ArraySubscripts
  onTok := fun _ => .tok

/-- formatting.rs:1869-1882 `result_reference` -/
def resultReference : FBody where
  onTree := fun _ => go .ComponentReference
  onTok := fun kind => fblk [.tok, if kind = .Comma then .space else .skip]

/-- formatting.rs:1884-1903 `function_call_args` -/
def functionCallArgs : FBody where
  pre := fblk [.set .m .treeMulti, .indent]
  onTok := fun kind => fblk [
    .tok,
    if kind = .LParen then .when (.reg .m) (.when .nextTreeU (.brk .next .Illegal)) else .skip]
  onTree := fun _ => goM .FunctionArguments (.reg .m)
  post := .dedent

/-- formatting.rs:1905-1930 `function_arguments` -/
def functionArguments : FBody where
  onTree := fun
    | .Expression => go .Expression
    | .FunctionPartialApplication => go .FunctionPartialApplication
    | .ForIndices => go .ForIndices
    | .FunctionArgumentsNonFirst => fblk [
        .bos (.reg .m) .cur,
        goM .FunctionArgumentsNonFirst (.reg .m)]
    | .NamedArguments => goM .NamedArguments (.reg .m)
    | _ => .unreachable
  onTok := fun kind =>
    if kind = .For then fblk [.bos (.reg .m) .cur, .tok, .space] else .tok

/-- formatting.rs:1932-1947 `function_arguments_non_first` -/
def functionArgumentsNonFirst : FBody where
  onTree := fun
    | .FunctionArgument => go .FunctionArgument
    | .FunctionArgumentsNonFirst => fblk [
        .bos (.reg .m) .cur,
        goM .FunctionArgumentsNonFirst (.reg .m)]
    | .NamedArguments => goM .NamedArguments (.reg .m)
    | _ => .unreachable
  onTok := fun _ => .tok

/-- formatting.rs:1949-1972 `array_arguments` -/
def arrayArguments : FBody where
  onTree := fun
    | .Expression => go .Expression
    | .ArrayArgumentsNonFirst => fblk [
        .bos (.reg .m) .cur,
        goM .ArrayArgumentsNonFirst (.reg .m)]
    | .ForIndices => go .ForIndices
    | _ => .unreachable
  onTok := fun kind =>
    if kind = .For then fblk [.bos (.reg .m) .cur, .tok, .space] else .tok

/-- formatting.rs:1974-1988 `array_arguments_non_first` -/
def arrayArgumentsNonFirst : FBody where
  onTree := fun
    | .Expression => go .Expression
    | .ArrayArgumentsNonFirst => fblk [
        .bos (.reg .m) .cur,
        goM .ArrayArgumentsNonFirst (.reg .m)]
    | _ => .unreachable
  onTok := fun _ => .tok

/-- formatting.rs:1990-2004 `named_arguments` -/
def namedArguments : FBody where
  onTree := fun
    | .NamedArgument => go .NamedArgument
    | .NamedArguments => fblk [
        .bos (.reg .m) .cur,
        goM .NamedArguments (.reg .m)]
    | _ => .unreachable
  onTok := fun _ => .tok

/-- formatting.rs:2006-2025 `named_argument` -/
def namedArgument : FBody where
  onTree := fun _ => multilineIf .FunctionArgument
  onTok := fun kind => fblk [if kind = .Equal then .space else .skip, .tok]

/-- formatting.rs:2027-2037 `function_argument` -/
def functionArgument : FBody where
  onTree := fun
    | .FunctionPartialApplication => go .FunctionPartialApplication
    | .Expression => go .Expression
    | _ => .unreachable
  onTok := fun _ => .skip

/-- formatting.rs:2039-2077 `function_partial_application` -/
def functionPartialApplication : FBody where
  pre := .set .m (.parenMulti .LParen .RParen)
  onTree := fun
    | .TypeSpecifier => fblk [.space, go .TypeSpecifier]
    | .NamedArguments => goM .NamedArguments (.reg .m)
    | _ => .unreachable
  onTok := fun kind => fblk [
    .tok,
    if kind = .LParen then .when (.reg .m) (.when .nextTreeU (.brk .next .Illegal)) else .skip]

/-- formatting.rs:2079-2093 `output_expression_list` -/
def outputExpressionList : FBody where
  onTree := fun _ => .call .Expression .false (.reg .w) (.not .false) true
  onTok := fun _ => fblk [.when (.prevTok .LParen) .space, .tok, .space]

/-- formatting.rs:2095-2113 `expression_list` -/
def expressionList : FBody where
  pre := .when (.not (.reg .m)) (.set .m .treeMulti)
  onTree := fun _ => go .Expression
  onTok := fun _ => fblk [.tok, .when .nextTreeU (.bos (.reg .m) .next)]

/-- formatting.rs:2115-2138 `array_subscripts` -/
def arraySubscripts : FBody where
  pre := fblk [.indent, .set .m .treeMulti]
  onTree := fun _ => go .Subscript
  onTok := fun kind => fblk [
    .tok,
    if kind = .LBracket then
      .ite (.reg .m) (.when .nextTreeU (.brk .next .Illegal)) .skip
    else if kind = .Comma then .when .nextTreeU (.bos (.reg .m) .next)
    else .skip]
  post := .dedent

/-- formatting.rs:2140-2147 `subscript` -/
def subscript : FBody where
  onTree := fun _ => go .Expression
  onTok := fun _ => .tok

/-- formatting.rs:2149-2164 `description` -/
def description : FBody where
  onTree := fun
    | .DescriptionString => go .DescriptionString
    | .AnnotationClause => fblk [
        .when (.idxGt 0) (.brk .cur .Illegal),
        go .AnnotationClause]
    | _ => .unreachable
  onTok := fun _ => .skip

/-- formatting.rs:2166-2183 `description_string` -/
def descriptionString : FBody where
  pre := fblk [.set .m .treeMulti, .indent]
  onTree := fun _ => .skip
  onTok := fun
    | .Plus => fblk [.bos (.reg .m) .cur, .tok, .space]
    | .String => .tok
    | _ => .unreachable
  post := .dedent

/-- formatting.rs:2185-2197 `annotation_clause` -/
def annotationClause : FBody where
  onTok := fun _ => fblk [.tok, .space]
  onTree := fun _ => go .ClassModification

/-- The formatting function of every kind. `Error` has none (formatting.rs:110). -/
def body : SK → FBody
  | .Error => { onTok := fun _ => .unreachable, onTree := fun _ => .unreachable }
  | .StoredDefinition => storedDefinition
  | .ClassDefinition => classDefinition
  | .ClassPrefixes => classPrefixes
  | .ClassSpecifier => classSpecifier
  | .LongClassSpecifier => longClassSpecifier
  | .ShortClassSpecifier => shortClassSpecifier
  | .DerClassSpecifier => derClassSpecifier
  | .BasePrefix => basePrefix
  | .EnumList => enumList
  | .EnumerationLiteral => enumerationLiteral
  | .Composition => composition
  | .LanguageSpecification => languageSpecification
  | .ExternalFunctionCall => externalFunctionCall
  | .ElementList => elementList
  | .Element => element
  | .ImportClause => importClause
  | .ImportList => importList
  | .ExtendsClause => extendsClause
  | .ConstrainingClause => constrainingClause
  | .ClassOrInheritanceModification => classOrInheritanceModification
  | .ArgumentOrInheritanceModificationList => argumentOrInheritanceModificationList
  | .InheritanceModification => inheritanceModification
  | .ComponentClause => componentClause
  | .TypePrefix => typePrefix
  | .ComponentList => componentList
  | .ComponentDeclaration => componentDeclaration
  | .ConditionAttribute => conditionAttribute
  | .Declaration => declaration
  | .Modification => modification
  | .ModificationExpression => modificationExpression
  | .ClassModification => classModification
  | .ArgumentList => argumentList
  | .Argument => argument
  | .ElementModificationOrReplaceable => elementModificationOrReplaceable
  | .ElementModification => elementModification
  | .ElementRedeclaration => elementRedeclaration
  | .ElementReplaceable => elementReplaceable
  | .ComponentClause1 => componentClause1
  | .ComponentDeclaration1 => componentDeclaration1
  | .ShortClassDefinition => shortClassDefinition
  | .EquationSection => equationSection
  | .AlgorithmSection => algorithmSection
  | .Equation => equation
  | .Statement => statement
  | .IfEquation => ifEquation
  | .IfStatement => ifStatement
  | .ForEquation => forEquation
  | .ForStatement => forStatement
  | .ForIndices => forIndices
  | .ForIndex => forIndex
  | .WhileStatement => whileStatement
  | .WhenEquation => whenEquation
  | .WhenStatement => whenStatement
  | .ConnectEquation => connectEquation
  | .Expression => expression
  | .SimpleExpression => simpleExpression
  | .LogicalExpression => logicalExpression
  | .LogicalTerm => logicalTerm
  | .LogicalFactor => logicalFactor
  | .Relation => relation
  | .RelationalOperator => relationalOperator
  | .ArithmeticExpression => arithmeticExpression
  | .AddOperator => addOperator
  | .Term => term
  | .MulOperator => mulOperator
  | .Factor => factor
  | .Primary => primary
  | .TypeSpecifier => typeSpecifier
  | .Name => name
  | .ComponentReference => componentReference
  | .ResultReference => resultReference
  | .FunctionCallArgs => functionCallArgs
  | .FunctionArguments => functionArguments
  | .FunctionArgumentsNonFirst => functionArgumentsNonFirst
  | .ArrayArguments => arrayArguments
  | .ArrayArgumentsNonFirst => arrayArgumentsNonFirst
  | .NamedArguments => namedArguments
  | .NamedArgument => namedArgument
  | .FunctionArgument => functionArgument
  | .FunctionPartialApplication => functionPartialApplication
  | .OutputExpressionList => outputExpressionList
  | .ExpressionList => expressionList
  | .ArraySubscripts => arraySubscripts
  | .Subscript => subscript
  | .Description => description
  | .DescriptionString => descriptionString
  | .AnnotationClause => annotationClause

end Fmt

/-- formatting.rs:14-113 `format`; the arguments `wrapped`, `is_multiline`, `in_oel` are `false`. -/
def format (t : Tree) (comments : List Token) : Res (List Marker) :=
  match t with
  | .tok _ => .panic .unreachable
  | .node .Error _ => .ok []
  | .node k cs => (fmtTree Fmt.body k {} (.node k cs) (FState.init comments)).bind fun (_, s) =>
      .ok s.marks.reverse

end Mofmt
