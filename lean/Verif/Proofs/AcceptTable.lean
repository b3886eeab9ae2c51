import Verif.Proofs.Accept
/-
The tables for the symbolic execution in Accept.lean, and its result.
-/
namespace Mofmt
namespace Acc

/-- first tokens of a production, as a bit mask over `Tok.all` -/
def fstTab : SK → KSet
  | .Error => 0x0
  | .StoredDefinition => 0x701fff00000000000
  | .ClassDefinition => 0x401fff00000000000
  | .ClassPrefixes => 0x1fff00000000000
  | .ClassSpecifier => 0x10000001000000000000000
  | .LongClassSpecifier => 0x10000001000000000000000
  | .ShortClassSpecifier => 0x10000000000000000000000
  | .DerClassSpecifier => 0x10000000000000000000000
  | .BasePrefix => 0x300000000000000000
  | .EnumList => 0x10000000000000000000000
  | .EnumerationLiteral => 0x10000000000000000000000
  | .Composition => 0x106fbf6fffff00000000004
  | .LanguageSpecification => 0x20000000000000000000000
  | .ExternalFunctionCall => 0x10000000000000000000004
  | .ElementList => 0x100fbf631fff00000000004
  | .Element => 0x100fbf631fff00000000004
  | .ImportClause => 0x2000000000000000
  | .ImportList => 0x10000000000000000000000
  | .ExtendsClause => 0x1000000000000000
  | .ConstrainingClause => 0x4000000000000000000
  | .ClassOrInheritanceModification => 0x20
  | .ArgumentOrInheritanceModificationList => 0x10102420000040000000000
  | .InheritanceModification => 0x40000000000
  | .ComponentClause => 0x100f8300000000000000004
  | .TypePrefix => 0xf8300000000000000000
  | .ComponentList => 0x10000000000000000000000
  | .ComponentDeclaration => 0x10000000000000000000000
  | .ConditionAttribute => 0x400000000
  | .Declaration => 0x10000000000000000000000
  | .Modification => 0x1820
  | .ModificationExpression => 0x1f18000002800404200c62a4
  | .ClassModification => 0x20
  | .ArgumentList => 0x10102420000000000000000
  | .Argument => 0x10102420000000000000000
  | .ElementModificationOrReplaceable => 0x10102020000000000000000
  | .ElementModification => 0x10000000000000000000000
  | .ElementRedeclaration => 0x400000000000000000
  | .ElementReplaceable => 0x2000000000000000000
  | .ComponentClause1 => 0x100f8300000000000000004
  | .ComponentDeclaration1 => 0x10000000000000000000000
  | .ShortClassDefinition => 0x1fff00000000000
  | .EquationSection => 0x600000000000000
  | .AlgorithmSection => 0xa00000000000000
  | .Equation => 0x1f38000002800046200c62a4
  | .Statement => 0x100000000000d4600000024
  | .IfEquation => 0x400000000
  | .IfStatement => 0x400000000
  | .ForEquation => 0x200000000
  | .ForStatement => 0x200000000
  | .ForIndices => 0x10000000000000000000000
  | .ForIndex => 0x10000000000000000000000
  | .WhileStatement => 0x10000000000
  | .WhenEquation => 0x4000000000
  | .WhenStatement => 0x4000000000
  | .ConnectEquation => 0x2000000000000000000000
  | .Expression => 0x1f18000002800004200c62a4
  | .SimpleExpression => 0x1f18000002800000200c62a4
  | .LogicalExpression => 0x1f18000002800000200c62a4
  | .LogicalTerm => 0x1f18000002800000200c62a4
  | .LogicalFactor => 0x1f18000002800000200c62a4
  | .Relation => 0x1f18000002800000000c62a4
  | .RelationalOperator => 0x1f800000
  | .ArithmeticExpression => 0x1f18000002800000000c62a4
  | .AddOperator => 0xc6000
  | .Term => 0x1f18000002800000000002a4
  | .MulOperator => 0x318000
  | .Factor => 0x1f18000002800000000002a4
  | .Primary => 0x1f18000002800000000002a4
  | .TypeSpecifier => 0x10000000000000000000004
  | .Name => 0x10000000000000000000000
  | .ComponentReference => 0x10000000000000000000004
  | .ResultReference => 0x11000000000000000000004
  | .FunctionCallArgs => 0x20
  | .FunctionArguments => 0x1f18000002820004200c62a4
  | .FunctionArgumentsNonFirst => 0x1f18000002820004200c62a4
  | .ArrayArguments => 0x1f18000002800004200c62a4
  | .ArrayArgumentsNonFirst => 0x1f18000002800004200c62a4
  | .NamedArguments => 0x10000000000000000000000
  | .NamedArgument => 0x10000000000000000000000
  | .FunctionArgument => 0x1f18000002820004200c62a4
  | .FunctionPartialApplication => 0x2000000000000
  | .OutputExpressionList => 0x1f18000002800004200c62a6
  | .ExpressionList => 0x1f18000002800004200c62a4
  | .ArraySubscripts => 0x200
  | .Subscript => 0x1f18000002800004200c62b4
  | .Description => 0x20200000000000000000000
  | .DescriptionString => 0x20000000000000000000000
  | .AnnotationClause => 0x200000000000000000000

/-- tokens that may follow a production; `EOF` is the end of the input -/
def folTab : SK → KSet
  | .Error => 0x1
  | .StoredDefinition => 0x1
  | .ClassDefinition => 0x4000000000000000009
  | .ClassPrefixes => 0x10000001000000000000001
  | .ClassSpecifier => 0x4000000000000000009
  | .LongClassSpecifier => 0x4000000000000000009
  | .ShortClassSpecifier => 0x400000000000000004b
  | .DerClassSpecifier => 0x4000000000000000009
  | .BasePrefix => 0x10000000000000000000005
  | .EnumList => 0x41
  | .EnumerationLiteral => 0x43
  | .Composition => 0x800000000000000000001
  | .LanguageSpecification => 0x1020000000000000000000d
  | .ExternalFunctionCall => 0x200000000000000000009
  | .ElementList => 0xe0000ce00000000000001
  | .Element => 0x9
  | .ImportClause => 0x9
  | .ImportList => 0x101
  | .ExtendsClause => 0x9
  | .ConstrainingClause => 0x2020000000000000000004b
  | .ClassOrInheritanceModification => 0x200000000000000000009
  | .ArgumentOrInheritanceModificationList => 0x41
  | .InheritanceModification => 0x43
  | .ComponentClause => 0x4000000000000000009
  | .TypePrefix => 0x10000000000000000000005
  | .ComponentList => 0x4000000000000000009
  | .ComponentDeclaration => 0x400000000000000000b
  | .ConditionAttribute => 0x2020400000000000000000b
  | .Declaration => 0x2020400000000040000004b
  | .Modification => 0x2020400000000040000004b
  | .ModificationExpression => 0x2020400000000040000004b
  | .ClassModification => 0x30efff6fffff0040000084f
  | .ArgumentList => 0x41
  | .Argument => 0x43
  | .ElementModificationOrReplaceable => 0x43
  | .ElementModification => 0x43
  | .ElementRedeclaration => 0x43
  | .ElementReplaceable => 0x43
  | .ComponentClause1 => 0x4000000000000000043
  | .ComponentDeclaration1 => 0x4000000000000000043
  | .ShortClassDefinition => 0x4000000000000000043
  | .EquationSection => 0xe0000ce00000000000001
  | .AlgorithmSection => 0xe0000ce00000000000001
  | .Equation => 0x9
  | .Statement => 0x9
  | .IfEquation => 0x20200000000000000000009
  | .IfStatement => 0x20200000000000000000009
  | .ForEquation => 0x20200000000000000000009
  | .ForStatement => 0x20200000000000000000009
  | .ForIndices => 0x20000000141
  | .ForIndex => 0x20000000143
  | .WhileStatement => 0x20200000000000000000009
  | .WhenEquation => 0x20200000000000000000009
  | .WhenStatement => 0x20200000000000000000009
  | .ConnectEquation => 0x2020000000000000000004b
  | .Expression => 0x20204000000023e0000054b
  | .SimpleExpression => 0x20204000000023e00000d4b
  | .LogicalExpression => 0x20204000000023e00000d5b
  | .LogicalTerm => 0x20204000000023e80000d5b
  | .LogicalFactor => 0x20204000000023ec0000d5b
  | .Relation => 0x20204000000023ec0000d5b
  | .RelationalOperator => 0x1f18000002800000000c62a5
  | .ArithmeticExpression => 0x20204000000023edf800d5b
  | .AddOperator => 0x1f18000002800000000002a5
  | .Term => 0x20204000000023edf8c6d5b
  | .MulOperator => 0x1f18000002800000000002a5
  | .Factor => 0x20204000000023edfbded5b
  | .Primary => 0x20204000000023edfffed5b
  | .TypeSpecifier => 0x3020400000000000000026b
  | .Name => 0x30204000000000000101a6f
  | .ComponentReference => 0x20204000000023edffffd7b
  | .ResultReference => 0x1
  | .FunctionCallArgs => 0x20204000000023edfffed5b
  | .FunctionArguments => 0x41
  | .FunctionArgumentsNonFirst => 0x41
  | .ArrayArguments => 0x101
  | .ArrayArgumentsNonFirst => 0x101
  | .NamedArguments => 0x41
  | .NamedArgument => 0x43
  | .FunctionArgument => 0x43
  | .FunctionPartialApplication => 0x43
  | .OutputExpressionList => 0x40
  | .ExpressionList => 0x449
  | .ArraySubscripts => 0x30204000000023edffffd7f
  | .Subscript => 0x403
  | .Description => 0x400000000000000004b
  | .DescriptionString => 0x10efff6fffff0000000004f
  | .AnnotationClause => 0x400000000000000004b

/-- lookaheads since the last token was passed when the production is entered, at most -/
def enTab : SK → Nat
  | .ClassDefinition => 12
  | .ClassPrefixes => 13
  | .ClassSpecifier => 2
  | .LongClassSpecifier => 5
  | .ShortClassSpecifier => 6
  | .DerClassSpecifier => 6
  | .BasePrefix => 1
  | .EnumList => 2
  | .EnumerationLiteral => 2
  | .Composition => 2
  | .LanguageSpecification => 1
  | .ExternalFunctionCall => 2
  | .ElementList => 2
  | .Element => 3
  | .ImportClause => 4
  | .ExtendsClause => 5
  | .ConstrainingClause => 15
  | .ClassOrInheritanceModification => 4
  | .ArgumentOrInheritanceModificationList => 1
  | .InheritanceModification => 2
  | .ComponentClause => 12
  | .TypePrefix => 12
  | .ComponentList => 4
  | .ComponentDeclaration => 4
  | .ConditionAttribute => 11
  | .Declaration => 4
  | .Modification => 4
  | .ClassModification => 5
  | .ArgumentList => 1
  | .Argument => 2
  | .ElementModificationOrReplaceable => 3
  | .ElementModification => 6
  | .ElementRedeclaration => 3
  | .ElementReplaceable => 6
  | .ComponentClause1 => 4
  | .ComponentDeclaration1 => 3
  | .ShortClassDefinition => 3
  | .EquationSection => 6
  | .AlgorithmSection => 6
  | .Equation => 1
  | .Statement => 1
  | .IfEquation => 2
  | .IfStatement => 2
  | .ForEquation => 2
  | .ForStatement => 2
  | .WhileStatement => 2
  | .WhenEquation => 2
  | .WhenStatement => 2
  | .ConnectEquation => 2
  | .Expression => 3
  | .SimpleExpression => 4
  | .LogicalExpression => 4
  | .LogicalTerm => 4
  | .LogicalFactor => 4
  | .Relation => 5
  | .RelationalOperator => 7
  | .ArithmeticExpression => 5
  | .AddOperator => 6
  | .Term => 6
  | .MulOperator => 5
  | .Factor => 6
  | .Primary => 6
  | .TypeSpecifier => 19
  | .Name => 20
  | .ComponentReference => 7
  | .FunctionCallArgs => 3
  | .FunctionArguments => 1
  | .NamedArguments => 2
  | .NamedArgument => 2
  | .FunctionArgument => 1
  | .FunctionPartialApplication => 3
  | .ExpressionList => 1
  | .ArraySubscripts => 4
  | .Description => 11
  | .DescriptionString => 11
  | .AnnotationClause => 13
  | _ => 0

/-- the same when a production with tokens is left -/
def exTab : SK → Nat
  | .ClassDefinition => 7
  | .ClassPrefixes => 2
  | .ClassSpecifier => 7
  | .ShortClassSpecifier => 7
  | .DerClassSpecifier => 2
  | .EnumList => 3
  | .EnumerationLiteral => 2
  | .Composition => 4
  | .ElementList => 1
  | .Element => 15
  | .ImportClause => 7
  | .ImportList => 1
  | .ExtendsClause => 5
  | .ConstrainingClause => 4
  | .ArgumentOrInheritanceModificationList => 14
  | .ComponentClause => 14
  | .TypePrefix => 5
  | .ComponentList => 14
  | .ComponentDeclaration => 13
  | .ConditionAttribute => 10
  | .Declaration => 10
  | .Modification => 10
  | .ModificationExpression => 10
  | .ArgumentList => 14
  | .Argument => 13
  | .ElementModificationOrReplaceable => 13
  | .ElementModification => 11
  | .ElementRedeclaration => 13
  | .ElementReplaceable => 13
  | .ComponentClause1 => 12
  | .ComponentDeclaration1 => 12
  | .ShortClassDefinition => 7
  | .EquationSection => 1
  | .AlgorithmSection => 1
  | .Equation => 13
  | .Statement => 12
  | .ForIndices => 11
  | .ForIndex => 10
  | .Expression => 10
  | .SimpleExpression => 10
  | .LogicalExpression => 9
  | .LogicalTerm => 8
  | .LogicalFactor => 7
  | .Relation => 7
  | .ArithmeticExpression => 6
  | .Term => 5
  | .Factor => 4
  | .Primary => 3
  | .TypeSpecifier => 3
  | .Name => 3
  | .ComponentReference => 2
  | .ResultReference => 2
  | .FunctionArguments => 12
  | .FunctionArgumentsNonFirst => 11
  | .ArrayArguments => 12
  | .ArrayArgumentsNonFirst => 11
  | .NamedArguments => 11
  | .NamedArgument => 10
  | .FunctionArgument => 10
  | .OutputExpressionList => 11
  | .ExpressionList => 11
  | .Subscript => 10
  | .Description => 2
  | .DescriptionString => 1
  | _ => 0

/-- lookaheads made by a production without tokens, at most -/
def emTab : SK → Nat
  | .StoredDefinition => 1
  | .BasePrefix => 2
  | .Composition => 4
  | .ElementList => 1
  | .TypePrefix => 7
  | .OutputExpressionList => 1
  | .Description => 2
  | .DescriptionString => 1
  | _ => 0

def tab : Tab := { fst := fstTab, fol := folTab, en := enTab, ex := exTab, em := emTab }

theorem ok_all (k : SK) : ok tab k = true := by
  cases k <;> decide +kernel

end Acc
end Mofmt
