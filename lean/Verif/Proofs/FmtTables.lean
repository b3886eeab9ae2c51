import Verif.Proofs.FmtAbs
/-
Tables for the symbolic execution of the formatting functions: computed by a fixed point iteration,
checked in FmtFull and FmtFlat by evaluation in the kernel.  Sets of kinds are bit masks (bit `Tok.ctorIdx`).
-/
namespace Mofmt
namespace FmtTab

abbrev R : Gap := .brk .Required
abbrev L : Gap := .brk .Legal
abbrev I : Gap := .brk .Illegal

/-- One set of kinds for every gap. -/
structure Gaps where
  none : KSet
  space : KSet
  required : KSet
  legal : KSet
  illegal : KSet

def Gaps.get (g : Gaps) : Gap → KSet
  | .none => g.none
  | .space => g.space
  | .brk .Required => g.required
  | .brk .Legal => g.legal
  | .brk .Illegal => g.illegal

def look [DecidableEq α] (a : α) : List (α × List β) → List β
  | [] => []
  | (x, y) :: l => if x = a then y else look a l

/-- How the formatting functions are called. -/
def fullEntry : SK → List (Args × Gap × KSet)
  | .Factor => [(⟨false, true, false⟩, .none, 811040), (⟨false, false, false⟩, L, 2370821947400),
      (⟨false, false, false⟩, .space, 2190428993562), (⟨false, false, false⟩, I, 171798698666),
      (⟨false, false, false⟩, R, 288230376151711744), (⟨false, true, false⟩, .space, 4290633746),
      (⟨false, false, false⟩, .none, 811680)]
  | .ArgumentOrInheritanceModificationList => [(⟨false, false, false⟩, .none, 32), (⟨true, false,
      false⟩, I, 32)]
  | .WhileStatement => [(⟨false, false, false⟩, R, 576460752303423488), (⟨false, false, false⟩,
      L, 2370821947400)]
  | .ArrayArguments => [(⟨true, false, false⟩, I, 128), (⟨false, false, false⟩, .none, 128)]
  | .ClassModification => [(⟨false, false, false⟩, .space, 2417851639229258349412352), (⟨false,
      false, false⟩, .none, 309485009821345068724782080)]
  | .Term => [(⟨false, false, false⟩, .space, 2190425749530), (⟨false, true, false⟩, .none,
      811040), (⟨false, false, false⟩, R, 288230376151711744), (⟨false, false, false⟩, L,
      2370821947400), (⟨false, false, false⟩, .none, 811680), (⟨false, false, false⟩, I,
      171798698666), (⟨false, true, false⟩, .space, 4287389714)]
  | .ComponentDeclaration => [(⟨false, false, false⟩, .space, 309485009821345068724782082),
      (⟨false, false, false⟩, I, 309485009821345068724782082)]
  | .NamedArguments => [(⟨true, false, false⟩, I, 34), (⟨false, false, false⟩, .space, 2),
      (⟨false, false, false⟩, .none, 32)]
  | .AlgorithmSection => [(⟨false, false, false⟩, R, 928455044163784389911642184)]
  | .Element => [(⟨false, false, false⟩, R, 928455043299093261456506944), (⟨false, false, false⟩,
      L, 8)]
  | .LogicalTerm => [(⟨false, true, false⟩, .space, 2147483666), (⟨false, false, false⟩, .space,
      2188285843482), (⟨false, false, false⟩, .none, 672), (⟨false, true, false⟩, .none, 32),
      (⟨false, false, false⟩, L, 2370821947400), (⟨false, false, false⟩, R, 288230376151711744),
      (⟨false, false, false⟩, I, 171798698666)]
  | .AddOperator => [(⟨false, false, false⟩, .none, 672), (⟨false, false, false⟩, .space,
      9603706711018616354290802010), (⟨false, false, false⟩, R, 288230376151711744), (⟨false,
      false, false⟩, L, 2370821947400), (⟨false, false, false⟩, I, 9603706711018614335664562154)]
  | .AnnotationClause => [(⟨false, false, false⟩, R, 928455044163784389911642184), (⟨false,
      false, false⟩, I, 9608542414297087274864608576)]
  | .ComponentReference => [(⟨false, false, false⟩, I, 171798698666), (⟨false, false, false⟩, L,
      2370821947400), (⟨false, false, false⟩, .space, 2190433318938), (⟨false, false, false⟩, R,
      623805723785839782603522048), (⟨false, false, false⟩, .none, 811680)]
  | .Expression => [(⟨false, false, false⟩, I, 171798698666), (⟨false, true, true⟩, .space, 2),
      (⟨false, true, true⟩, .none, 32), (⟨false, false, true⟩, .space, 2), (⟨false, false,
      false⟩, .space, 2186138359818), (⟨false, false, false⟩, .none, 672), (⟨false, false, true⟩,
      .none, 32)]
  | .ForIndices => [(⟨false, false, false⟩, .space, 8589934592)]
  | .LogicalExpression => [(⟨false, false, false⟩, L, 2370821947400), (⟨false, false, false⟩,
      .space, 2186138359834), (⟨false, false, false⟩, .none, 672), (⟨false, false, false⟩, I,
      171798698666), (⟨false, false, false⟩, R, 288230376151711744), (⟨false, true, false⟩,
      .none, 32), (⟨false, true, false⟩, .space, 18)]
  | .SimpleExpression => [(⟨false, false, false⟩, I, 171798698666), (⟨false, false, false⟩, R,
      288230376151711744), (⟨false, false, false⟩, L, 2370821947400), (⟨false, true, false⟩,
      .none, 32), (⟨false, false, false⟩, .none, 672), (⟨false, false, false⟩, .space,
      2186138359818), (⟨false, true, false⟩, .space, 2)]
  | .FunctionPartialApplication => [(⟨false, false, false⟩, I, 2082), (⟨false, false, false⟩,
      .space, 2050), (⟨false, false, false⟩, .none, 32)]
  | .ElementReplaceable => [(⟨false, false, false⟩, .none, 32), (⟨false, false, false⟩, .space,
      1210143304723494005112834), (⟨false, false, false⟩, I, 34)]
  | .ForEquation => [(⟨false, false, false⟩, R, 288230376151711744), (⟨false, false, false⟩, L,
      2370821947400)]
  | .FunctionArguments => [(⟨false, false, false⟩, .none, 32), (⟨true, false, false⟩, I, 32)]
  | .TypeSpecifier => [(⟨false, false, false⟩, I, 32), (⟨false, false, false⟩, .none, 32),
      (⟨false, false, false⟩, L, 8), (⟨false, false, false⟩, R, 928455043299093261456506944),
      (⟨false, false, false⟩, .space, 2417594538296680975960064)]
  | .EnumerationLiteral => [(⟨false, false, false⟩, I, 34), (⟨false, false, false⟩, .none, 32),
      (⟨false, false, false⟩, .space, 2)]
  | .FunctionArgumentsNonFirst => [(⟨false, false, false⟩, .space, 2), (⟨true, false, false⟩, I, 2)]
  | .ElementModificationOrReplaceable => [(⟨false, false, false⟩, .none, 32), (⟨false, false,
      false⟩, I, 34), (⟨false, false, false⟩, .space, 2)]
  | .ForIndex => [(⟨false, false, false⟩, .space, 8589934594)]
  | .Name => [(⟨false, false, false⟩, .none, 36), (⟨false, false, false⟩, I, 34), (⟨false, false,
      false⟩, L, 8), (⟨false, false, false⟩, .space, 2417615290883763899205634), (⟨false, false,
      false⟩, R, 928455043299093261456506944)]
  | .ClassOrInheritanceModification => [(⟨false, false, false⟩, .none, 309485009821345068724781056)]
  | .Primary => [(⟨false, false, false⟩, L, 2370821947400), (⟨false, false, false⟩, I,
      171798698666), (⟨false, false, false⟩, R, 288230376151711744), (⟨false, false, false⟩,
      .space, 2190433318938), (⟨false, true, false⟩, .none, 811040), (⟨false, true, false⟩,
      .space, 4294959122), (⟨false, false, false⟩, .none, 811680)]
  | .ImportClause => [(⟨false, false, false⟩, R, 928455043299093261456506944), (⟨false, false,
      false⟩, L, 8)]
  | .Relation => [(⟨false, false, false⟩, .space, 2189896456218), (⟨false, false, false⟩, L,
      2370821947400), (⟨false, true, false⟩, .none, 32), (⟨false, false, false⟩, .none, 672),
      (⟨false, true, false⟩, .space, 3758096402), (⟨false, false, false⟩, R, 288230376151711744),
      (⟨false, false, false⟩, I, 171798698666)]
  | .ShortClassDefinition => [(⟨false, false, false⟩, .space, 1219588037689233295540224)]
  | .NamedArgument => [(⟨false, false, false⟩, .none, 32), (⟨false, false, false⟩, I, 34),
      (⟨false, false, false⟩, .space, 2)]
  | .InheritanceModification => [(⟨false, false, false⟩, .none, 32), (⟨false, false, false⟩,
      .space, 2), (⟨false, false, false⟩, I, 34)]
  | .OutputExpressionList => [(⟨false, true, false⟩, .none, 32), (⟨false, false, false⟩, .none, 32)]
  | .RelationalOperator => [(⟨false, false, false⟩, I, 9603706711018614163865863488), (⟨false,
      false, false⟩, .space, 9603706711018614163865863488)]
  | .LogicalFactor => [(⟨false, false, false⟩, .space, 2189359585306), (⟨false, true, false⟩,
      .none, 32), (⟨false, false, false⟩, L, 2370821947400), (⟨false, false, false⟩, R,
      288230376151711744), (⟨false, false, false⟩, I, 171798698666), (⟨false, false, false⟩,
      .none, 672), (⟨false, true, false⟩, .space, 3221225490)]
  | .ArraySubscripts => [(⟨false, false, false⟩, .none, 309485009821345068724781120)]
  | .EnumList => [(⟨true, false, false⟩, I, 32), (⟨false, false, false⟩, .none, 32)]
  | .Subscript => [(⟨false, false, false⟩, .none, 512), (⟨false, false, false⟩, .space, 2),
      (⟨false, false, false⟩, I, 514)]
  | .ConnectEquation => [(⟨false, false, false⟩, .space, 4398046511104), (⟨false, false, false⟩,
      L, 2370821947400), (⟨false, false, false⟩, R, 288230376151711744)]
  | .ClassPrefixes => [(⟨false, false, false⟩, L, 8), (⟨false, false, false⟩, .space,
      1226745374389832601567232), (⟨false, false, false⟩, R, 928455043299093261456506944),
      (⟨false, false, false⟩, .none, 1)]
  | .Declaration => [(⟨false, false, false⟩, I, 309485009821345068724782082), (⟨false, false,
      false⟩, .space, 309485009821345068724782082)]
  | .FunctionCallArgs => [(⟨false, false, false⟩, .none, 328827823115323120614900736)]
  | .ImportList => [(⟨true, false, false⟩, I, 128), (⟨false, false, false⟩, .none, 128)]
  | .TypePrefix => [(⟨false, false, false⟩, R, 928455043299093261456506944), (⟨false, false,
      false⟩, L, 8), (⟨false, false, false⟩, .space, 1226671587413537763360768)]
  | .ModificationExpression => [(⟨false, false, false⟩, .space, 6144), (⟨false, false, false⟩, I,
      6144)]
  | .ElementList => [(⟨false, false, false⟩, R, 928455043299093261456506944)]
  | .ExpressionList => [(⟨false, false, false⟩, .space, 8), (⟨false, false, false⟩, .none, 544),
      (⟨false, false, false⟩, I, 520), (⟨true, false, false⟩, I, 544)]
  | .EquationSection => [(⟨false, false, false⟩, R, 928455044163784389911642184)]
  | .StoredDefinition => [(⟨false, false, false⟩, .none, 1)]
  | .Statement => [(⟨false, false, false⟩, L, 2370821947400), (⟨false, false, false⟩, R,
      576460752303423488)]
  | .ClassSpecifier => [(⟨false, false, false⟩, .space, 35852875158519808)]
  | .IfEquation => [(⟨false, false, false⟩, R, 288230376151711744), (⟨false, false, false⟩, L,
      2370821947400)]
  | .Equation => [(⟨false, false, false⟩, L, 2370821947400), (⟨false, false, false⟩, R,
      288230376151711744)]
  | .DescriptionString => [(⟨false, false, false⟩, I, 9603706711018628758165783872)]
  | .LongClassSpecifier => [(⟨false, false, false⟩, .space, 35852875158519808)]
  | .ElementRedeclaration => [(⟨false, false, false⟩, .space, 2), (⟨false, false, false⟩, .none,
      32), (⟨false, false, false⟩, I, 34)]
  | .WhenEquation => [(⟨false, false, false⟩, L, 2370821947400), (⟨false, false, false⟩, R,
      288230376151711744)]
  | .ArithmeticExpression => [(⟨false, false, false⟩, I, 171798698666), (⟨false, true, false⟩,
      .none, 32), (⟨false, true, false⟩, .space, 4286578706), (⟨false, false, false⟩, .space,
      2190424938522), (⟨false, false, false⟩, .none, 672), (⟨false, false, false⟩, L,
      2370821947400), (⟨false, false, false⟩, R, 288230376151711744)]
  | .ArrayArgumentsNonFirst => [(⟨true, false, false⟩, I, 2), (⟨false, false, false⟩, .space, 2)]
  | .ForStatement => [(⟨false, false, false⟩, L, 2370821947400), (⟨false, false, false⟩, R,
      576460752303423488)]
  | .BasePrefix => [(⟨false, false, false⟩, .space, 2048)]
  | .DerClassSpecifier => [(⟨false, false, false⟩, .space, 35852875158519808)]
  | .ShortClassSpecifier => [(⟨false, false, false⟩, .space, 35852875158519808)]
  | .MulOperator => [(⟨false, false, false⟩, .space, 9603706711018614163865863488), (⟨false,
      false, false⟩, I, 9603706711018614163865863488)]
  | .ComponentClause => [(⟨false, false, false⟩, .space, 17745767798908588654592), (⟨false,
      false, false⟩, R, 928455043299093261456506944), (⟨false, false, false⟩, L, 8)]
  | .Modification => [(⟨false, false, false⟩, .none, 309485009821345068724782080)]
  | .Composition => [(⟨false, false, false⟩, .none, 928455029464035206174343232)]
  | .IfStatement => [(⟨false, false, false⟩, R, 576460752303423488), (⟨false, false, false⟩, L,
      2370821947400)]
  | .ClassDefinition => [(⟨false, false, false⟩, .space, 17745767798908588654592), (⟨false,
      false, false⟩, L, 8), (⟨false, false, false⟩, R, 928455043299093261456506944), (⟨false,
      false, false⟩, .none, 1)]
  | .ConditionAttribute => [(⟨false, false, false⟩, .space, 9603706711018618561912374592)]
  | .WhenStatement => [(⟨false, false, false⟩, R, 576460752303423488), (⟨false, false, false⟩, L,
      2370821947400)]
  | .ElementModification => [(⟨false, false, false⟩, .space, 1208962713102776593809410), (⟨false,
      false, false⟩, .none, 32), (⟨false, false, false⟩, I, 34)]
  | .ComponentDeclaration1 => [(⟨false, false, false⟩, .space, 309485009821345068724781056)]
  | .ExtendsClause => [(⟨false, false, false⟩, L, 8), (⟨false, false, false⟩, R,
      928455043299093261456506944)]
  | .FunctionArgument => [(⟨false, false, false⟩, I, 2050), (⟨false, false, false⟩, .space, 2050)]
  | .Argument => [(⟨false, false, false⟩, .space, 2), (⟨false, false, false⟩, .none, 32),
      (⟨false, false, false⟩, I, 34)]
  | .ConstrainingClause => [(⟨false, false, false⟩, I, 9603706711018618561912374592)]
  | .ArgumentList => [(⟨true, false, false⟩, I, 32), (⟨false, false, false⟩, .none, 32)]
  | .ExternalFunctionCall => [(⟨false, false, false⟩, R, 623805722921148654148386816)]
  | .ComponentClause1 => [(⟨false, false, false⟩, .space, 1219588037689233295540224)]
  | .ComponentList => [(⟨false, false, false⟩, .none, 309485009821345068724782080)]
  | .LanguageSpecification => [(⟨false, false, false⟩, .space, 4835703278458516698824704)]
  | .Description => [(⟨false, false, false⟩, I, 9603706711018628758165783872)]
  | _ => []

/-- How the formatting functions return. -/
def fullExit : SK → List (Args × List Ex)
  | .Factor => [(⟨false, true, false⟩, [⟨true, .none, 9603706711018614163865863488, 0, 0⟩]),
      (⟨false, false, false⟩, [⟨false, .none, 9603706711018614163865863488, 0, 0⟩, ⟨true, .none,
      9603706711018614163865863488, 1, 0⟩])]
  | .ArgumentOrInheritanceModificationList => [(⟨false, false, false⟩, [⟨false, .none,
      9603706711018618561912374592, 0, 0⟩]), (⟨true, false, false⟩, [⟨false, .none,
      9603706711018618561912374592, 0, 0⟩])]
  | .WhileStatement => [(⟨false, false, false⟩, [⟨false, .none, 1099511627776, 0, 0⟩])]
  | .ArrayArguments => [(⟨true, false, false⟩, [⟨false, .none, 9603706711018614163865863488, 0,
      0⟩]), (⟨false, false, false⟩, [⟨false, .none, 9603706711018614163865863488, 0, 0⟩])]
  | .ClassModification => [(⟨false, false, false⟩, [⟨false, .none, 64, 0, 0⟩])]
  | .Term => [(⟨false, false, false⟩, [⟨false, .none, 9603706711018614163865863488, 0, 0⟩, ⟨true,
      .none, 9603706711018614163865863488, 1, 0⟩]), (⟨false, true, false⟩, [⟨true, .none,
      9603706711018614163865863488, 0, 0⟩])]
  | .ComponentDeclaration => [(⟨false, false, false⟩, [⟨false, .none,
      9603706711018618561912374592, 0, 0⟩])]
  | .NamedArguments => [(⟨true, false, false⟩, [⟨false, .none, 9603706711018614163865863488, 0,
      0⟩]), (⟨false, false, false⟩, [⟨false, .none, 9603706711018614163865863488, 0, 0⟩])]
  | .AlgorithmSection => [(⟨false, false, false⟩, [⟨false, .none, 576460752303423496, 0, 0⟩])]
  | .Element => [(⟨false, false, false⟩, [⟨false, .none, 9603706711018618561913423168, 0, 0⟩])]
  | .LogicalTerm => [(⟨false, true, false⟩, [⟨true, .none, 9603706711018614163865863488, 0, 0⟩]),
      (⟨false, false, false⟩, [⟨false, .none, 9603706711018614163865863488, 0, 0⟩, ⟨true, .none,
      9603706711018614163865863488, 1, 0⟩])]
  | .AddOperator => [(⟨false, false, false⟩, [⟨false, .none, 811008, 0, 0⟩])]
  | .AnnotationClause => [(⟨false, false, false⟩, [⟨false, .none, 64, 0, 0⟩])]
  | .ComponentReference => [(⟨false, false, false⟩, [⟨false, .none, 309485009821345068724782080,
      0, 0⟩])]
  | .Expression => [(⟨false, false, true⟩, [⟨false, .none, 9603706711018614163865863488, 0, 0⟩,
      ⟨true, .none, 9603706711018614163865863488, 1, 0⟩]), (⟨false, false, false⟩, [⟨false,
      .none, 9603706711018614163865863488, 0, 0⟩, ⟨true, .none, 9603706711018614163865863488, 0,
      0⟩]), (⟨false, true, true⟩, [⟨true, .none, 9603706711018614163865863488, 0, 0⟩])]
  | .ForIndices => [(⟨false, false, false⟩, [⟨false, .none, 9603706711018614163865863488, 0, 0⟩])]
  | .LogicalExpression => [(⟨false, true, false⟩, [⟨true, .none, 9603706711018614163865863488, 0,
      0⟩]), (⟨false, false, false⟩, [⟨false, .none, 9603706711018614163865863488, 0, 0⟩, ⟨true,
      .none, 9603706711018614163865863488, 1, 0⟩])]
  | .SimpleExpression => [(⟨false, true, false⟩, [⟨true, .none, 9603706711018614163865863488, 0,
      0⟩]), (⟨false, false, false⟩, [⟨false, .none, 9603706711018614163865863488, 0, 0⟩, ⟨true,
      .none, 9603706711018614163865863488, 1, 0⟩])]
  | .FunctionPartialApplication => [(⟨false, false, false⟩, [⟨false, .none, 64, 0, 0⟩])]
  | .ElementReplaceable => [(⟨false, false, false⟩, [⟨false, .none, 9603706711018618561912374592,
      0, 0⟩])]
  | .ForEquation => [(⟨false, false, false⟩, [⟨false, .none, 8589934592, 0, 0⟩])]
  | .FunctionArguments => [(⟨false, false, false⟩, [⟨false, .none, 9603706711018614163865863488,
      0, 0⟩]), (⟨true, false, false⟩, [⟨false, .none, 9603706711018614163865863488, 0, 0⟩])]
  | .TypeSpecifier => [(⟨false, false, false⟩, [⟨false, .none, 309485009821345068724781056, 0, 0⟩])]
  | .EnumerationLiteral => [(⟨false, false, false⟩, [⟨false, .none, 928455029464035206174343232,
      0, 0⟩])]
  | .FunctionArgumentsNonFirst => [(⟨true, false, false⟩, [⟨false, .none,
      9603706711018614163865863488, 0, 0⟩]), (⟨false, false, false⟩, [⟨false, .none,
      9603706711018614163865863488, 0, 0⟩])]
  | .ElementModificationOrReplaceable => [(⟨false, false, false⟩, [⟨false, .none,
      9603706711018618561912374592, 0, 0⟩])]
  | .ForIndex => [(⟨false, false, false⟩, [⟨false, .none, 9603706711018614163865863488, 0, 0⟩])]
  | .Name => [(⟨false, false, false⟩, [⟨false, .none, 309485009821345068724781056, 0, 0⟩])]
  | .ClassOrInheritanceModification => [(⟨false, false, false⟩, [⟨false, .none, 64, 0, 0⟩])]
  | .Primary => [(⟨false, true, false⟩, [⟨true, .none, 9603706711018614163865863488, 0, 0⟩]),
      (⟨false, false, false⟩, [⟨false, .none, 9603706711018614163865863488, 0, 0⟩, ⟨true, .none,
      1088, 1, 0⟩])]
  | .ImportClause => [(⟨false, false, false⟩, [⟨false, .none, 928455029464035206175392064, 0, 0⟩])]
  | .Relation => [(⟨false, false, false⟩, [⟨false, .none, 9603706711018614163865863488, 0, 0⟩,
      ⟨true, .none, 9603706711018614163865863488, 1, 0⟩]), (⟨false, true, false⟩, [⟨true, .none,
      9603706711018614163865863488, 0, 0⟩])]
  | .ShortClassDefinition => [(⟨false, false, false⟩, [⟨false, .none,
      928455029464035206174344256, 0, 0⟩])]
  | .NamedArgument => [(⟨false, false, false⟩, [⟨false, .none, 9603706711018614163865863488, 0,
      0⟩])]
  | .InheritanceModification => [(⟨false, false, false⟩, [⟨false, .none,
      309485009821345068724781120, 0, 0⟩])]
  | .OutputExpressionList => [(⟨false, false, false⟩, [⟨false, .space, 2, 0, 0⟩, ⟨false, .none,
      9603706711018614163865863488, 0, 0⟩, ⟨true, .space, 2, 1, 0⟩, ⟨true, .none,
      9603706711018614163865863488, 1, 0⟩]), (⟨false, true, false⟩, [⟨true, .space, 2, 0, 0⟩,
      ⟨true, .none, 9603706711018614163865863488, 0, 0⟩])]
  | .RelationalOperator => [(⟨false, false, false⟩, [⟨false, .none, 528482304, 0, 0⟩])]
  | .LogicalFactor => [(⟨false, true, false⟩, [⟨true, .none, 9603706711018614163865863488, 0,
      0⟩]), (⟨false, false, false⟩, [⟨false, .none, 9603706711018614163865863488, 0, 0⟩, ⟨true,
      .none, 9603706711018614163865863488, 1, 0⟩])]
  | .ArraySubscripts => [(⟨false, false, false⟩, [⟨false, .none, 1024, 0, 0⟩])]
  | .EnumList => [(⟨false, false, false⟩, [⟨false, .none, 928455029464035206174343232, 0, 0⟩]),
      (⟨true, false, false⟩, [⟨false, .none, 928455029464035206174343232, 0, 0⟩])]
  | .Subscript => [(⟨false, false, false⟩, [⟨false, .none, 9603706711018614163865863504, 0, 0⟩])]
  | .ConnectEquation => [(⟨false, false, false⟩, [⟨false, .none, 64, 0, 0⟩])]
  | .ClassPrefixes => [(⟨false, false, false⟩, [⟨false, .none, 35852875158519808, 0, 0⟩])]
  | .Declaration => [(⟨false, false, false⟩, [⟨false, .none, 9603706711018618561912374592, 0, 0⟩])]
  | .FunctionCallArgs => [(⟨false, false, false⟩, [⟨false, .none, 64, 0, 0⟩])]
  | .ImportList => [(⟨true, false, false⟩, [⟨false, .none, 309485009821345068724781056, 0, 0⟩]),
      (⟨false, false, false⟩, [⟨false, .none, 309485009821345068724781056, 0, 0⟩])]
  | .TypePrefix => [(⟨false, false, false⟩, [⟨false, .none, 1172032331467210071474176, 0, 0⟩])]
  | .ModificationExpression => [(⟨false, false, false⟩, [⟨false, .none,
      9603706711018618561912374592, 0, 0⟩])]
  | .ElementList => [(⟨false, false, false⟩, [⟨false, .none, 8, 0, 0⟩])]
  | .ExpressionList => [(⟨false, false, false⟩, [⟨false, .none, 9603706711018614163865863488, 0,
      0⟩]), (⟨true, false, false⟩, [⟨false, .none, 9603706711018614163865863488, 0, 0⟩])]
  | .EquationSection => [(⟨false, false, false⟩, [⟨false, .none, 288230376151711752, 0, 0⟩])]
  | .StoredDefinition => [(⟨false, false, false⟩, [⟨false, .none, 8, 0, 0⟩])]
  | .Statement => [(⟨false, false, false⟩, [⟨false, .none, 9603706711018628758164735296, 0, 0⟩])]
  | .ClassSpecifier => [(⟨false, false, false⟩, [⟨false, .none, 928455029464035206174344256, 0,
      0⟩])]
  | .IfEquation => [(⟨false, false, false⟩, [⟨false, .none, 17179869184, 0, 0⟩])]
  | .Equation => [(⟨false, false, false⟩, [⟨false, .none, 9603706711018614464513574208, 0, 0⟩])]
  | .DescriptionString => [(⟨false, false, false⟩, [⟨false, .none, 618970019642690137449562112,
      0, 0⟩])]
  | .LongClassSpecifier => [(⟨false, false, false⟩, [⟨false, .none, 309485009821345068724781056,
      0, 0⟩])]
  | .ElementRedeclaration => [(⟨false, false, false⟩, [⟨false, .none,
      9603706711018618561912374592, 0, 0⟩])]
  | .WhenEquation => [(⟨false, false, false⟩, [⟨false, .none, 274877906944, 0, 0⟩])]
  | .ArithmeticExpression => [(⟨false, true, false⟩, [⟨true, .none, 9603706711018614163865863488,
      0, 0⟩]), (⟨false, false, false⟩, [⟨false, .none, 9603706711018614163865863488, 0, 0⟩,
      ⟨true, .none, 9603706711018614163865863488, 1, 0⟩])]
  | .ArrayArgumentsNonFirst => [(⟨true, false, false⟩, [⟨false, .none,
      9603706711018614163865863488, 0, 0⟩]), (⟨false, false, false⟩, [⟨false, .none,
      9603706711018614163865863488, 0, 0⟩])]
  | .ForStatement => [(⟨false, false, false⟩, [⟨false, .none, 8589934592, 0, 0⟩])]
  | .BasePrefix => [(⟨false, false, false⟩, [⟨false, .none, 885443715538058477568, 0, 0⟩])]
  | .DerClassSpecifier => [(⟨false, false, false⟩, [⟨false, .none, 618970019642690137449562176,
      0, 0⟩])]
  | .ShortClassSpecifier => [(⟨false, false, false⟩, [⟨false, .none, 928455029464035206174344256,
      0, 0⟩])]
  | .MulOperator => [(⟨false, false, false⟩, [⟨false, .none, 3244032, 0, 0⟩])]
  | .ComponentClause => [(⟨false, false, false⟩, [⟨false, .none, 9603706711018618561912374592, 0,
      0⟩])]
  | .Modification => [(⟨false, false, false⟩, [⟨false, .none, 9603706711018618561912374592, 0, 0⟩])]
  | .Composition => [(⟨false, false, false⟩, [⟨false, .none, 14699749183737298952, 0, 0⟩])]
  | .IfStatement => [(⟨false, false, false⟩, [⟨false, .none, 17179869184, 0, 0⟩])]
  | .ClassDefinition => [(⟨false, false, false⟩, [⟨false, .none, 928455029464035206174344256, 0,
      0⟩])]
  | .ConditionAttribute => [(⟨false, false, false⟩, [⟨false, .none, 9603706711018614163865863488,
      0, 0⟩])]
  | .WhenStatement => [(⟨false, false, false⟩, [⟨false, .none, 274877906944, 0, 0⟩])]
  | .ElementModification => [(⟨false, false, false⟩, [⟨false, .none,
      9603706711018618561912374592, 0, 0⟩])]
  | .ComponentDeclaration1 => [(⟨false, false, false⟩, [⟨false, .none,
      9603706711018618561912374592, 0, 0⟩])]
  | .ExtendsClause => [(⟨false, false, false⟩, [⟨false, .none, 309485009821345068724781120, 0, 0⟩])]
  | .FunctionArgument => [(⟨false, false, false⟩, [⟨false, .none, 9603706711018614163865863488,
      0, 0⟩])]
  | .Argument => [(⟨false, false, false⟩, [⟨false, .none, 9603706711018618561912374592, 0, 0⟩])]
  | .ConstrainingClause => [(⟨false, false, false⟩, [⟨false, .none, 309485009821345068724781120,
      0, 0⟩])]
  | .ArgumentList => [(⟨false, false, false⟩, [⟨false, .none, 9603706711018618561912374592, 0,
      0⟩]), (⟨true, false, false⟩, [⟨false, .none, 9603706711018618561912374592, 0, 0⟩])]
  | .ExternalFunctionCall => [(⟨false, false, false⟩, [⟨false, .none, 64, 0, 0⟩])]
  | .ComponentClause1 => [(⟨false, false, false⟩, [⟨false, .none, 9603706711018618561912374592,
      0, 0⟩])]
  | .ComponentList => [(⟨false, false, false⟩, [⟨false, .none, 9603706711018618561912374592, 0,
      0⟩])]
  | .LanguageSpecification => [(⟨false, false, false⟩, [⟨false, .none,
      618970019642690137449562112, 0, 0⟩])]
  | .Description => [(⟨false, false, false⟩, [⟨false, .none, 618970019642690137449562176, 0, 0⟩])]
  | _ => []

/-- The kinds that may precede a token, by what stands between them. -/
def fullOk : Tok → Gaps
  | .Comma => ⟨9603706711018618561912374608, 34, 0, 0, 0⟩
  | .Dot => ⟨309485009821345068725593760, 2417594538298871409276954, 933290747442242906610466880,
      2370821947400, 171798698666⟩
  | .Semicolon => ⟨9608542414297087274864608576, 18446744073709551616, 0, 0, 0⟩
  | .Colon => ⟨544, 9603706711018614163865863490, 0, 0, 514⟩
  | .LParen => ⟨367513596916943843882722976, 2417851639231448782731290, 864691128455135232,
      2370821947400, 171798698666⟩
  | .RParen => ⟨9603706711018618561912374640, 2, 0, 0, 0⟩
  | .LCurly => ⟨811684, 2190433318938, 288230376151711744, 2370821947400, 171798698666⟩
  | .RCurly => ⟨9603706711018614163865863488, 0, 0, 0, 0⟩
  | .LBracket => ⟨309485009821345068725592800, 2190433318938, 288230376151711744, 2370821947400,
      171798698666⟩
  | .RBracket => ⟨9603706711018614163865863504, 0, 0, 0, 0⟩
  | .Equal => ⟨0, 9603706711018614163865863488, 0, 0, 0⟩
  | .Assign => ⟨0, 309485009821345068724782144, 0, 0, 0⟩
  | .Plus => ⟨672, 9603706711018616354290802010, 288230376151711744, 2370821947400,
      9603706711018614335664562154⟩
  | .Minus => ⟨672, 9603706711018616354290802010, 288230376151711744, 2370821947400,
      9603706711018614335664562154⟩
  | .Star => ⟨0, 9603706711018614163865863488, 0, 0, 9603706711018614163865863488⟩
  | .Slash => ⟨0, 9603706711018614163865863488, 0, 0, 9603706711018614163865863488⟩
  | .Flex => ⟨0, 9603706711018614163865863488, 0, 0, 9603706711018614163865863488⟩
  | .DotPlus => ⟨672, 9603706711018616354290802010, 288230376151711744, 2370821947400,
      9603706711018614335664562154⟩
  | .DotMinus => ⟨672, 9603706711018616354290802010, 288230376151711744, 2370821947400,
      9603706711018614335664562154⟩
  | .DotStar => ⟨309485009821345068724781056, 9603706711018614163865863488, 0, 0,
      9603706711018614163865863488⟩
  | .DotSlash => ⟨0, 9603706711018614163865863488, 0, 0, 9603706711018614163865863488⟩
  | .DotFlex => ⟨0, 9603706711018614163865863488, 0, 0, 9603706711018614163865863488⟩
  | .Gre => ⟨0, 9603706711018614163865863488, 0, 0, 9603706711018614163865863488⟩
  | .Geq => ⟨0, 9603706711018614163865863488, 0, 0, 9603706711018614163865863488⟩
  | .Les => ⟨0, 9603706711018614163865863488, 0, 0, 9603706711018614163865863488⟩
  | .Leq => ⟨0, 9603706711018614163865863488, 0, 0, 9603706711018614163865863488⟩
  | .Neq => ⟨0, 9603706711018614163865863488, 0, 0, 9603706711018614163865863488⟩
  | .Eq => ⟨0, 9603706711018614163865863488, 0, 0, 9603706711018614163865863488⟩
  | .Not => ⟨672, 2189359585306, 288230376151711744, 2370821947400, 171798698666⟩
  | .And => ⟨0, 9603706711018614163865863488, 0, 0, 9603706711018614163865863488⟩
  | .Or => ⟨0, 9603706711018614163865863488, 0, 0, 9603706711018614163865863488⟩
  | .In => ⟨0, 309485009821345068724781056, 0, 0, 0⟩
  | .For => ⟨0, 9603706711018614163865863488, 864691128455135232, 2370821947400,
      9603706711018614163865863488⟩
  | .If => ⟨672, 9603706711018620748050734410, 864691128455135232, 2370821947400, 171798698666⟩
  | .Else => ⟨0, 9603706711018614163865863488, 0, 137438953480, 9603706711018614163865863488⟩
  | .ElseIf => ⟨0, 9603706711018614163865863488, 0, 137438953480, 9603706711018614163865863488⟩
  | .Then => ⟨0, 9603706711018614163865863488, 0, 0, 0⟩
  | .When => ⟨0, 9671406556917033397649408, 864691128455135232, 2370821947400, 0⟩
  | .ElseWhen => ⟨0, 0, 0, 137438953480, 0⟩
  | .While => ⟨0, 9671406556917033397649408, 576460752303423488, 2370821947400, 0⟩
  | .Loop => ⟨0, 9603706711018614163865863488, 0, 0, 0⟩
  | .Break => ⟨32, 6146, 576460752303423488, 2370821947400, 6178⟩
  | .Return => ⟨0, 0, 576460752303423488, 2370821947400, 0⟩
  | .Partial => ⟨1, 1226745374389832601567232, 928455043299093261456506944, 8, 0⟩
  | .Class => ⟨1, 1226745374407424787611648, 928455043299093261456506944, 8, 0⟩
  | .Operator => ⟨1, 1226745482493815844503552, 928455043299093261456506944, 8, 0⟩
  | .Expandable => ⟨1, 1226745374407424787611648, 928455043299093261456506944, 8, 0⟩
  | .Model => ⟨1, 1226745374407424787611648, 928455043299093261456506944, 8, 0⟩
  | .Function => ⟨33, 1226745482564184588683266, 928455043299093261456506944, 8, 2082⟩
  | .Record => ⟨1, 1226745374477793531789312, 928455043299093261456506944, 8, 0⟩
  | .TypeKw => ⟨1, 1226745374407424787611648, 928455043299093261456506944, 8, 0⟩
  | .Block => ⟨1, 1226745374407424787611648, 928455043299093261456506944, 8, 0⟩
  | .Connector => ⟨1, 1226745374548162275966976, 928455043299093261456506944, 8, 0⟩
  | .Package => ⟨1, 1226745374407424787611648, 928455043299093261456506944, 8, 0⟩
  | .Pure => ⟨811681, 1226745374409615220930586, 928455043587323637608218688, 2370821947400,
      171798698666⟩
  | .Impure => ⟨1, 1226745374407424787611648, 928455043299093261456506944, 8, 0⟩
  | .Initial => ⟨811680, 2190433318938, 928455044163784389911642184, 2370821947400, 171798698666⟩
  | .Equation => ⟨0, 144115188075855872, 928455044163784389911642184, 0, 0⟩
  | .Algorithm => ⟨0, 144115188075855872, 928455044163784389911642184, 0, 0⟩
  | .Extends => ⟨0, 35852875158519808, 928455043299093261456506944, 8, 0⟩
  | .Import => ⟨0, 0, 928455043299093261456506944, 8, 0⟩
  | .Public => ⟨0, 0, 928455044163784389911642184, 0, 0⟩
  | .Protected => ⟨0, 0, 928455044163784389911642184, 0, 0⟩
  | .Within => ⟨1, 0, 0, 0, 1⟩
  | .Final => ⟨32, 1210106411235346586009602, 928455043299093261456506944, 9, 34⟩
  | .Encapsulated => ⟨1, 17745767798908588654592, 928455043299093261456506944, 8, 0⟩
  | .Enumeration => ⟨0, 2048, 0, 0, 0⟩
  | .Input => ⟨0, 2397818475165209776359424, 928455043299093261456506944, 8, 0⟩
  | .Output => ⟨0, 2397818475165209776359424, 928455043299093261456506944, 8, 0⟩
  | .Redeclare => ⟨32, 2, 928455043299093261456506944, 8, 34⟩
  | .Inner => ⟨0, 1217485108864830406656, 928455043299093261456506944, 8, 0⟩
  | .Outer => ⟨0, 3578668350299653013504, 928455043299093261456506944, 8, 0⟩
  | .Replaceable => ⟨32, 1217226854447798472933378, 928455043299093261456506944, 8, 34⟩
  | .Constrainedby => ⟨0, 0, 0, 0, 9603706711018618561912374592⟩
  | .Flow => ⟨0, 1226671587413537763360768, 928455043299093261456506944, 8, 0⟩
  | .Stream => ⟨0, 1226671587413537763360768, 928455043299093261456506944, 8, 0⟩
  | .Discrete => ⟨0, 1340008383002409248489472, 928455043299093261456506944, 8, 0⟩
  | .Parameter => ⟨0, 1340008383002409248489472, 928455043299093261456506944, 8, 0⟩
  | .Constant => ⟨0, 1340008383002409248489472, 928455043299093261456506944, 8, 0⟩
  | .Each => ⟨32, 1180591620717411303426, 0, 0, 34⟩
  | .Annotation => ⟨0, 0, 928455044163784389911642184, 0, 9608542414297087274864608576⟩
  | .External => ⟨0, 0, 928455044163784389911642184, 0, 0⟩
  | .End => ⟨811680, 2190433318938, 928455044163784389911642184, 2370821947400, 171798698666⟩
  | .Der => ⟨811680, 2190433318938, 288230376151711744, 2370821947400, 171798698666⟩
  | .Connect => ⟨0, 4398046511104, 288230376151711744, 2370821947400, 0⟩
  | .Identifier => ⟨811684, 321574031704442388296498202, 933290747442242906610466880,
      2370821947400, 309485009821345240523480746⟩
  | .String => ⟨811680, 4835703278460707132143642, 288230376151711744, 2370821947400,
      9603706711018628929964482538⟩
  | .UInt => ⟨811680, 2190433318938, 288230376151711744, 2370821947400, 171798698666⟩
  | .UReal => ⟨811680, 2190433318938, 288230376151711744, 2370821947400, 171798698666⟩
  | .Bool => ⟨811680, 2190433318938, 288230376151711744, 2370821947400, 171798698666⟩
  | _ => ⟨0, 0, 0, 0, 0⟩

/-- The same for files without wrapped operators. -/
def flatEntry : SK → List (Args × Gap × KSet)
  | .ArgumentOrInheritanceModificationList => [(⟨false, false, false⟩, .none, 32), (⟨true, false,
      false⟩, I, 32)]
  | .WhileStatement => [(⟨false, false, false⟩, R, 576460752303423488), (⟨false, false, false⟩,
      L, 2370821947400)]
  | .ArrayArguments => [(⟨true, false, false⟩, I, 128), (⟨false, false, false⟩, .none, 128)]
  | .ClassModification => [(⟨false, false, false⟩, .space, 2417851639229258349412352), (⟨false,
      false, false⟩, .none, 309485009821345068724782080)]
  | .Term => [(⟨false, false, false⟩, .space, 2190425749530), (⟨false, false, false⟩, R,
      288230376151711744), (⟨false, false, false⟩, L, 2370821947400), (⟨false, false, false⟩,
      .none, 811680), (⟨false, false, false⟩, I, 171798698666)]
  | .ComponentDeclaration => [(⟨false, false, false⟩, .space, 309485009821345068724782082),
      (⟨false, false, false⟩, I, 309485009821345068724782082)]
  | .NamedArguments => [(⟨true, false, false⟩, I, 34), (⟨false, false, false⟩, .space, 2),
      (⟨false, false, false⟩, .none, 32)]
  | .AlgorithmSection => [(⟨false, false, false⟩, R, 928455044163784389911642184)]
  | .Element => [(⟨false, false, false⟩, R, 928455043299093261456506944), (⟨false, false, false⟩,
      L, 8)]
  | .AddOperator => [(⟨false, false, false⟩, .none, 672), (⟨false, false, false⟩, .space,
      9603706711018616354290802010), (⟨false, false, false⟩, R, 288230376151711744), (⟨false,
      false, false⟩, L, 2370821947400), (⟨false, false, false⟩, I, 171798698666)]
  | .AnnotationClause => [(⟨false, false, false⟩, R, 928455044163784389911642184), (⟨false,
      false, false⟩, I, 9608542414297087274864608576)]
  | .ComponentReference => [(⟨false, false, false⟩, I, 171798698666), (⟨false, false, false⟩, L,
      2370821947400), (⟨false, false, false⟩, .space, 2190433318938), (⟨false, false, false⟩, R,
      623805723785839782603522048), (⟨false, false, false⟩, .none, 811680)]
  | .Expression => [(⟨false, false, false⟩, I, 171798698666), (⟨false, false, true⟩, .space, 2),
      (⟨false, false, false⟩, .space, 2186138359818), (⟨false, false, false⟩, .none, 672),
      (⟨false, false, true⟩, .none, 32)]
  | .ForIndices => [(⟨false, false, false⟩, .space, 8589934592)]
  | .LogicalExpression => [(⟨false, false, false⟩, L, 2370821947400), (⟨false, false, false⟩,
      .space, 2186138359834), (⟨false, false, false⟩, .none, 672), (⟨false, false, false⟩, I,
      171798698666), (⟨false, false, false⟩, R, 288230376151711744)]
  | .SimpleExpression => [(⟨false, false, false⟩, I, 171798698666), (⟨false, false, false⟩, R,
      288230376151711744), (⟨false, false, false⟩, L, 2370821947400), (⟨false, false, false⟩,
      .none, 672), (⟨false, false, false⟩, .space, 2186138359818)]
  | .LogicalTerm => [(⟨false, false, false⟩, .space, 2188285843482), (⟨false, false, false⟩,
      .none, 672), (⟨false, false, false⟩, L, 2370821947400), (⟨false, false, false⟩, R,
      288230376151711744), (⟨false, false, false⟩, I, 171798698666)]
  | .FunctionPartialApplication => [(⟨false, false, false⟩, I, 2082), (⟨false, false, false⟩,
      .space, 2050), (⟨false, false, false⟩, .none, 32)]
  | .ElementReplaceable => [(⟨false, false, false⟩, .none, 32), (⟨false, false, false⟩, .space,
      1210143304723494005112834), (⟨false, false, false⟩, I, 34)]
  | .ForEquation => [(⟨false, false, false⟩, R, 288230376151711744), (⟨false, false, false⟩, L,
      2370821947400)]
  | .FunctionArguments => [(⟨false, false, false⟩, .none, 32), (⟨true, false, false⟩, I, 32)]
  | .TypeSpecifier => [(⟨false, false, false⟩, I, 32), (⟨false, false, false⟩, .none, 32),
      (⟨false, false, false⟩, L, 8), (⟨false, false, false⟩, R, 928455043299093261456506944),
      (⟨false, false, false⟩, .space, 2417594538296680975960064)]
  | .EnumerationLiteral => [(⟨false, false, false⟩, I, 34), (⟨false, false, false⟩, .none, 32),
      (⟨false, false, false⟩, .space, 2)]
  | .FunctionArgumentsNonFirst => [(⟨false, false, false⟩, .space, 2), (⟨true, false, false⟩, I, 2)]
  | .ElementModificationOrReplaceable => [(⟨false, false, false⟩, .none, 32), (⟨false, false,
      false⟩, I, 34), (⟨false, false, false⟩, .space, 2)]
  | .ForIndex => [(⟨false, false, false⟩, .space, 8589934594)]
  | .Name => [(⟨false, false, false⟩, .none, 36), (⟨false, false, false⟩, I, 34), (⟨false, false,
      false⟩, L, 8), (⟨false, false, false⟩, .space, 2417615290883763899205634), (⟨false, false,
      false⟩, R, 928455043299093261456506944)]
  | .ClassOrInheritanceModification => [(⟨false, false, false⟩, .none, 309485009821345068724781056)]
  | .Primary => [(⟨false, false, false⟩, L, 2370821947400), (⟨false, false, false⟩, I,
      171798698666), (⟨false, false, false⟩, R, 288230376151711744), (⟨false, false, false⟩,
      .space, 2190433318938), (⟨false, false, false⟩, .none, 811680)]
  | .ImportClause => [(⟨false, false, false⟩, R, 928455043299093261456506944), (⟨false, false,
      false⟩, L, 8)]
  | .Relation => [(⟨false, false, false⟩, .space, 2189896456218), (⟨false, false, false⟩, L,
      2370821947400), (⟨false, false, false⟩, .none, 672), (⟨false, false, false⟩, R,
      288230376151711744), (⟨false, false, false⟩, I, 171798698666)]
  | .ShortClassDefinition => [(⟨false, false, false⟩, .space, 1219588037689233295540224)]
  | .NamedArgument => [(⟨false, false, false⟩, .none, 32), (⟨false, false, false⟩, I, 34),
      (⟨false, false, false⟩, .space, 2)]
  | .InheritanceModification => [(⟨false, false, false⟩, .none, 32), (⟨false, false, false⟩,
      .space, 2), (⟨false, false, false⟩, I, 34)]
  | .LogicalFactor => [(⟨false, false, false⟩, .space, 2189359585306), (⟨false, false, false⟩, L,
      2370821947400), (⟨false, false, false⟩, R, 288230376151711744), (⟨false, false, false⟩, I,
      171798698666), (⟨false, false, false⟩, .none, 672)]
  | .ArraySubscripts => [(⟨false, false, false⟩, .none, 309485009821345068724781120)]
  | .EnumList => [(⟨true, false, false⟩, I, 32), (⟨false, false, false⟩, .none, 32)]
  | .Subscript => [(⟨false, false, false⟩, .none, 512), (⟨false, false, false⟩, .space, 2),
      (⟨false, false, false⟩, I, 514)]
  | .ConnectEquation => [(⟨false, false, false⟩, .space, 4398046511104), (⟨false, false, false⟩,
      L, 2370821947400), (⟨false, false, false⟩, R, 288230376151711744)]
  | .ClassPrefixes => [(⟨false, false, false⟩, L, 8), (⟨false, false, false⟩, .space,
      1226745374389832601567232), (⟨false, false, false⟩, R, 928455043299093261456506944),
      (⟨false, false, false⟩, .none, 1)]
  | .Declaration => [(⟨false, false, false⟩, I, 309485009821345068724782082), (⟨false, false,
      false⟩, .space, 309485009821345068724782082)]
  | .Factor => [(⟨false, false, false⟩, L, 2370821947400), (⟨false, false, false⟩, .space,
      2190428993562), (⟨false, false, false⟩, I, 171798698666), (⟨false, false, false⟩, R,
      288230376151711744), (⟨false, false, false⟩, .none, 811680)]
  | .FunctionCallArgs => [(⟨false, false, false⟩, .none, 328827823115323120614900736)]
  | .ImportList => [(⟨true, false, false⟩, I, 128), (⟨false, false, false⟩, .none, 128)]
  | .TypePrefix => [(⟨false, false, false⟩, R, 928455043299093261456506944), (⟨false, false,
      false⟩, L, 8), (⟨false, false, false⟩, .space, 1226671587413537763360768)]
  | .ModificationExpression => [(⟨false, false, false⟩, .space, 6144), (⟨false, false, false⟩, I,
      6144)]
  | .ElementList => [(⟨false, false, false⟩, R, 928455043299093261456506944)]
  | .ExpressionList => [(⟨false, false, false⟩, .space, 8), (⟨false, false, false⟩, .none, 544),
      (⟨false, false, false⟩, I, 520), (⟨true, false, false⟩, I, 544)]
  | .EquationSection => [(⟨false, false, false⟩, R, 928455044163784389911642184)]
  | .StoredDefinition => [(⟨false, false, false⟩, .none, 1)]
  | .Statement => [(⟨false, false, false⟩, L, 2370821947400), (⟨false, false, false⟩, R,
      576460752303423488)]
  | .ClassSpecifier => [(⟨false, false, false⟩, .space, 35852875158519808)]
  | .IfEquation => [(⟨false, false, false⟩, R, 288230376151711744), (⟨false, false, false⟩, L,
      2370821947400)]
  | .Equation => [(⟨false, false, false⟩, L, 2370821947400), (⟨false, false, false⟩, R,
      288230376151711744)]
  | .DescriptionString => [(⟨false, false, false⟩, I, 9603706711018628758165783872)]
  | .LongClassSpecifier => [(⟨false, false, false⟩, .space, 35852875158519808)]
  | .ElementRedeclaration => [(⟨false, false, false⟩, .space, 2), (⟨false, false, false⟩, .none,
      32), (⟨false, false, false⟩, I, 34)]
  | .WhenEquation => [(⟨false, false, false⟩, L, 2370821947400), (⟨false, false, false⟩, R,
      288230376151711744)]
  | .ArithmeticExpression => [(⟨false, false, false⟩, I, 171798698666), (⟨false, false, false⟩,
      .space, 2190424938522), (⟨false, false, false⟩, .none, 672), (⟨false, false, false⟩, L,
      2370821947400), (⟨false, false, false⟩, R, 288230376151711744)]
  | .ArrayArgumentsNonFirst => [(⟨true, false, false⟩, I, 2), (⟨false, false, false⟩, .space, 2)]
  | .ForStatement => [(⟨false, false, false⟩, L, 2370821947400), (⟨false, false, false⟩, R,
      576460752303423488)]
  | .BasePrefix => [(⟨false, false, false⟩, .space, 2048)]
  | .DerClassSpecifier => [(⟨false, false, false⟩, .space, 35852875158519808)]
  | .ShortClassSpecifier => [(⟨false, false, false⟩, .space, 35852875158519808)]
  | .MulOperator => [(⟨false, false, false⟩, .space, 9603706711018614163865863488)]
  | .ComponentClause => [(⟨false, false, false⟩, .space, 17745767798908588654592), (⟨false,
      false, false⟩, R, 928455043299093261456506944), (⟨false, false, false⟩, L, 8)]
  | .Modification => [(⟨false, false, false⟩, .none, 309485009821345068724782080)]
  | .RelationalOperator => [(⟨false, false, false⟩, .space, 9603706711018614163865863488)]
  | .Composition => [(⟨false, false, false⟩, .none, 928455029464035206174343232)]
  | .IfStatement => [(⟨false, false, false⟩, R, 576460752303423488), (⟨false, false, false⟩, L,
      2370821947400)]
  | .ClassDefinition => [(⟨false, false, false⟩, .space, 17745767798908588654592), (⟨false,
      false, false⟩, L, 8), (⟨false, false, false⟩, R, 928455043299093261456506944), (⟨false,
      false, false⟩, .none, 1)]
  | .ConditionAttribute => [(⟨false, false, false⟩, .space, 9603706711018618561912374592)]
  | .WhenStatement => [(⟨false, false, false⟩, R, 576460752303423488), (⟨false, false, false⟩, L,
      2370821947400)]
  | .ElementModification => [(⟨false, false, false⟩, .space, 1208962713102776593809410), (⟨false,
      false, false⟩, .none, 32), (⟨false, false, false⟩, I, 34)]
  | .ComponentDeclaration1 => [(⟨false, false, false⟩, .space, 309485009821345068724781056)]
  | .ExtendsClause => [(⟨false, false, false⟩, L, 8), (⟨false, false, false⟩, R,
      928455043299093261456506944)]
  | .FunctionArgument => [(⟨false, false, false⟩, I, 2050), (⟨false, false, false⟩, .space, 2050)]
  | .Argument => [(⟨false, false, false⟩, .space, 2), (⟨false, false, false⟩, .none, 32),
      (⟨false, false, false⟩, I, 34)]
  | .ConstrainingClause => [(⟨false, false, false⟩, I, 9603706711018618561912374592)]
  | .ArgumentList => [(⟨true, false, false⟩, I, 32), (⟨false, false, false⟩, .none, 32)]
  | .ExternalFunctionCall => [(⟨false, false, false⟩, R, 623805722921148654148386816)]
  | .ComponentClause1 => [(⟨false, false, false⟩, .space, 1219588037689233295540224)]
  | .ComponentList => [(⟨false, false, false⟩, .none, 309485009821345068724782080)]
  | .LanguageSpecification => [(⟨false, false, false⟩, .space, 4835703278458516698824704)]
  | .OutputExpressionList => [(⟨false, false, false⟩, .none, 32)]
  | .Description => [(⟨false, false, false⟩, I, 9603706711018628758165783872)]
  | _ => []

/-- The same for files without wrapped operators. -/
def flatExit : SK → List (Args × List Ex)
  | .ArgumentOrInheritanceModificationList => [(⟨false, false, false⟩, [⟨false, .none,
      9603706711018618561912374592, 0, 0⟩]), (⟨true, false, false⟩, [⟨false, .none,
      9603706711018618561912374592, 0, 0⟩])]
  | .WhileStatement => [(⟨false, false, false⟩, [⟨false, .none, 1099511627776, 0, 0⟩])]
  | .ArrayArguments => [(⟨true, false, false⟩, [⟨false, .none, 9603706711018614163865863488, 0,
      0⟩]), (⟨false, false, false⟩, [⟨false, .none, 9603706711018614163865863488, 0, 0⟩])]
  | .ClassModification => [(⟨false, false, false⟩, [⟨false, .none, 64, 0, 0⟩])]
  | .Term => [(⟨false, false, false⟩, [⟨false, .none, 9603706711018614163865863488, 0, 0⟩])]
  | .ComponentDeclaration => [(⟨false, false, false⟩, [⟨false, .none,
      9603706711018618561912374592, 0, 0⟩])]
  | .NamedArguments => [(⟨true, false, false⟩, [⟨false, .none, 9603706711018614163865863488, 0,
      0⟩]), (⟨false, false, false⟩, [⟨false, .none, 9603706711018614163865863488, 0, 0⟩])]
  | .AlgorithmSection => [(⟨false, false, false⟩, [⟨false, .none, 576460752303423496, 0, 0⟩])]
  | .Element => [(⟨false, false, false⟩, [⟨false, .none, 9603706711018618561913423168, 0, 0⟩])]
  | .AddOperator => [(⟨false, false, false⟩, [⟨false, .none, 811008, 0, 0⟩])]
  | .AnnotationClause => [(⟨false, false, false⟩, [⟨false, .none, 64, 0, 0⟩])]
  | .ComponentReference => [(⟨false, false, false⟩, [⟨false, .none, 309485009821345068724782080,
      0, 0⟩])]
  | .Expression => [(⟨false, false, true⟩, [⟨false, .none, 9603706711018614163865863488, 0, 0⟩]),
      (⟨false, false, false⟩, [⟨false, .none, 9603706711018614163865863488, 0, 0⟩])]
  | .ForIndices => [(⟨false, false, false⟩, [⟨false, .none, 9603706711018614163865863488, 0, 0⟩])]
  | .LogicalExpression => [(⟨false, false, false⟩, [⟨false, .none, 9603706711018614163865863488,
      0, 0⟩])]
  | .SimpleExpression => [(⟨false, false, false⟩, [⟨false, .none, 9603706711018614163865863488,
      0, 0⟩])]
  | .LogicalTerm => [(⟨false, false, false⟩, [⟨false, .none, 9603706711018614163865863488, 0, 0⟩])]
  | .FunctionPartialApplication => [(⟨false, false, false⟩, [⟨false, .none, 64, 0, 0⟩])]
  | .ElementReplaceable => [(⟨false, false, false⟩, [⟨false, .none, 9603706711018618561912374592,
      0, 0⟩])]
  | .ForEquation => [(⟨false, false, false⟩, [⟨false, .none, 8589934592, 0, 0⟩])]
  | .FunctionArguments => [(⟨false, false, false⟩, [⟨false, .none, 9603706711018614163865863488,
      0, 0⟩]), (⟨true, false, false⟩, [⟨false, .none, 9603706711018614163865863488, 0, 0⟩])]
  | .TypeSpecifier => [(⟨false, false, false⟩, [⟨false, .none, 309485009821345068724781056, 0, 0⟩])]
  | .EnumerationLiteral => [(⟨false, false, false⟩, [⟨false, .none, 928455029464035206174343232,
      0, 0⟩])]
  | .FunctionArgumentsNonFirst => [(⟨true, false, false⟩, [⟨false, .none,
      9603706711018614163865863488, 0, 0⟩]), (⟨false, false, false⟩, [⟨false, .none,
      9603706711018614163865863488, 0, 0⟩])]
  | .ElementModificationOrReplaceable => [(⟨false, false, false⟩, [⟨false, .none,
      9603706711018618561912374592, 0, 0⟩])]
  | .ForIndex => [(⟨false, false, false⟩, [⟨false, .none, 9603706711018614163865863488, 0, 0⟩])]
  | .Name => [(⟨false, false, false⟩, [⟨false, .none, 309485009821345068724781056, 0, 0⟩])]
  | .ClassOrInheritanceModification => [(⟨false, false, false⟩, [⟨false, .none, 64, 0, 0⟩])]
  | .Primary => [(⟨false, false, false⟩, [⟨false, .none, 9603706711018614163865863488, 0, 0⟩])]
  | .ImportClause => [(⟨false, false, false⟩, [⟨false, .none, 928455029464035206175392064, 0, 0⟩])]
  | .Relation => [(⟨false, false, false⟩, [⟨false, .none, 9603706711018614163865863488, 0, 0⟩])]
  | .ShortClassDefinition => [(⟨false, false, false⟩, [⟨false, .none,
      928455029464035206174344256, 0, 0⟩])]
  | .NamedArgument => [(⟨false, false, false⟩, [⟨false, .none, 9603706711018614163865863488, 0,
      0⟩])]
  | .InheritanceModification => [(⟨false, false, false⟩, [⟨false, .none,
      309485009821345068724781120, 0, 0⟩])]
  | .LogicalFactor => [(⟨false, false, false⟩, [⟨false, .none, 9603706711018614163865863488, 0,
      0⟩])]
  | .ArraySubscripts => [(⟨false, false, false⟩, [⟨false, .none, 1024, 0, 0⟩])]
  | .EnumList => [(⟨false, false, false⟩, [⟨false, .none, 928455029464035206174343232, 0, 0⟩]),
      (⟨true, false, false⟩, [⟨false, .none, 928455029464035206174343232, 0, 0⟩])]
  | .Subscript => [(⟨false, false, false⟩, [⟨false, .none, 9603706711018614163865863504, 0, 0⟩])]
  | .ConnectEquation => [(⟨false, false, false⟩, [⟨false, .none, 64, 0, 0⟩])]
  | .ClassPrefixes => [(⟨false, false, false⟩, [⟨false, .none, 35852875158519808, 0, 0⟩])]
  | .Declaration => [(⟨false, false, false⟩, [⟨false, .none, 9603706711018618561912374592, 0, 0⟩])]
  | .Factor => [(⟨false, false, false⟩, [⟨false, .none, 9603706711018614163865863488, 0, 0⟩])]
  | .FunctionCallArgs => [(⟨false, false, false⟩, [⟨false, .none, 64, 0, 0⟩])]
  | .ImportList => [(⟨true, false, false⟩, [⟨false, .none, 309485009821345068724781056, 0, 0⟩]),
      (⟨false, false, false⟩, [⟨false, .none, 309485009821345068724781056, 0, 0⟩])]
  | .TypePrefix => [(⟨false, false, false⟩, [⟨false, .none, 1172032331467210071474176, 0, 0⟩])]
  | .ModificationExpression => [(⟨false, false, false⟩, [⟨false, .none,
      9603706711018618561912374592, 0, 0⟩])]
  | .ElementList => [(⟨false, false, false⟩, [⟨false, .none, 8, 0, 0⟩])]
  | .ExpressionList => [(⟨false, false, false⟩, [⟨false, .none, 9603706711018614163865863488, 0,
      0⟩]), (⟨true, false, false⟩, [⟨false, .none, 9603706711018614163865863488, 0, 0⟩])]
  | .EquationSection => [(⟨false, false, false⟩, [⟨false, .none, 288230376151711752, 0, 0⟩])]
  | .StoredDefinition => [(⟨false, false, false⟩, [⟨false, .none, 8, 0, 0⟩])]
  | .Statement => [(⟨false, false, false⟩, [⟨false, .none, 9603706711018628758164735296, 0, 0⟩])]
  | .ClassSpecifier => [(⟨false, false, false⟩, [⟨false, .none, 928455029464035206174344256, 0,
      0⟩])]
  | .IfEquation => [(⟨false, false, false⟩, [⟨false, .none, 17179869184, 0, 0⟩])]
  | .Equation => [(⟨false, false, false⟩, [⟨false, .none, 9603706711018614464513574208, 0, 0⟩])]
  | .DescriptionString => [(⟨false, false, false⟩, [⟨false, .none, 618970019642690137449562112,
      0, 0⟩])]
  | .LongClassSpecifier => [(⟨false, false, false⟩, [⟨false, .none, 309485009821345068724781056,
      0, 0⟩])]
  | .ElementRedeclaration => [(⟨false, false, false⟩, [⟨false, .none,
      9603706711018618561912374592, 0, 0⟩])]
  | .WhenEquation => [(⟨false, false, false⟩, [⟨false, .none, 274877906944, 0, 0⟩])]
  | .ArithmeticExpression => [(⟨false, false, false⟩, [⟨false, .none,
      9603706711018614163865863488, 0, 0⟩])]
  | .ArrayArgumentsNonFirst => [(⟨true, false, false⟩, [⟨false, .none,
      9603706711018614163865863488, 0, 0⟩]), (⟨false, false, false⟩, [⟨false, .none,
      9603706711018614163865863488, 0, 0⟩])]
  | .ForStatement => [(⟨false, false, false⟩, [⟨false, .none, 8589934592, 0, 0⟩])]
  | .BasePrefix => [(⟨false, false, false⟩, [⟨false, .none, 885443715538058477568, 0, 0⟩])]
  | .DerClassSpecifier => [(⟨false, false, false⟩, [⟨false, .none, 618970019642690137449562176,
      0, 0⟩])]
  | .ShortClassSpecifier => [(⟨false, false, false⟩, [⟨false, .none, 928455029464035206174344256,
      0, 0⟩])]
  | .MulOperator => [(⟨false, false, false⟩, [⟨false, .none, 3244032, 0, 0⟩])]
  | .ComponentClause => [(⟨false, false, false⟩, [⟨false, .none, 9603706711018618561912374592, 0,
      0⟩])]
  | .Modification => [(⟨false, false, false⟩, [⟨false, .none, 9603706711018618561912374592, 0, 0⟩])]
  | .RelationalOperator => [(⟨false, false, false⟩, [⟨false, .none, 528482304, 0, 0⟩])]
  | .Composition => [(⟨false, false, false⟩, [⟨false, .none, 14699749183737298952, 0, 0⟩])]
  | .IfStatement => [(⟨false, false, false⟩, [⟨false, .none, 17179869184, 0, 0⟩])]
  | .ClassDefinition => [(⟨false, false, false⟩, [⟨false, .none, 928455029464035206174344256, 0,
      0⟩])]
  | .ConditionAttribute => [(⟨false, false, false⟩, [⟨false, .none, 9603706711018614163865863488,
      0, 0⟩])]
  | .WhenStatement => [(⟨false, false, false⟩, [⟨false, .none, 274877906944, 0, 0⟩])]
  | .ElementModification => [(⟨false, false, false⟩, [⟨false, .none,
      9603706711018618561912374592, 0, 0⟩])]
  | .ComponentDeclaration1 => [(⟨false, false, false⟩, [⟨false, .none,
      9603706711018618561912374592, 0, 0⟩])]
  | .ExtendsClause => [(⟨false, false, false⟩, [⟨false, .none, 309485009821345068724781120, 0, 0⟩])]
  | .FunctionArgument => [(⟨false, false, false⟩, [⟨false, .none, 9603706711018614163865863488,
      0, 0⟩])]
  | .Argument => [(⟨false, false, false⟩, [⟨false, .none, 9603706711018618561912374592, 0, 0⟩])]
  | .ConstrainingClause => [(⟨false, false, false⟩, [⟨false, .none, 309485009821345068724781120,
      0, 0⟩])]
  | .ArgumentList => [(⟨false, false, false⟩, [⟨false, .none, 9603706711018618561912374592, 0,
      0⟩]), (⟨true, false, false⟩, [⟨false, .none, 9603706711018618561912374592, 0, 0⟩])]
  | .ExternalFunctionCall => [(⟨false, false, false⟩, [⟨false, .none, 64, 0, 0⟩])]
  | .ComponentClause1 => [(⟨false, false, false⟩, [⟨false, .none, 9603706711018618561912374592,
      0, 0⟩])]
  | .ComponentList => [(⟨false, false, false⟩, [⟨false, .none, 9603706711018618561912374592, 0,
      0⟩])]
  | .LanguageSpecification => [(⟨false, false, false⟩, [⟨false, .none,
      618970019642690137449562112, 0, 0⟩])]
  | .OutputExpressionList => [(⟨false, false, false⟩, [⟨false, .space, 2, 0, 0⟩, ⟨false, .none,
      9603706711018614163865863488, 0, 0⟩])]
  | .Description => [(⟨false, false, false⟩, [⟨false, .none, 618970019642690137449562176, 0, 0⟩])]
  | _ => []

/-- The same for files without wrapped operators. -/
def flatOk : Tok → Gaps
  | .Comma => ⟨9603706711018618561912374608, 34, 0, 0, 0⟩
  | .Dot => ⟨309485009821345068725593760, 2417594538298871409276954, 933290747442242906610466880,
      2370821947400, 171798698666⟩
  | .Semicolon => ⟨9608542414297087274864608576, 18446744073709551616, 0, 0, 0⟩
  | .Colon => ⟨544, 9603706711018614163865863490, 0, 0, 514⟩
  | .LParen => ⟨367513596916943843882722976, 2417851639231448782731290, 864691128455135232,
      2370821947400, 171798698666⟩
  | .RParen => ⟨9603706711018618561912374640, 2, 0, 0, 0⟩
  | .LCurly => ⟨811684, 2190433318938, 288230376151711744, 2370821947400, 171798698666⟩
  | .RCurly => ⟨9603706711018614163865863488, 0, 0, 0, 0⟩
  | .LBracket => ⟨309485009821345068725592800, 2190433318938, 288230376151711744, 2370821947400,
      171798698666⟩
  | .RBracket => ⟨9603706711018614163865863504, 0, 0, 0, 0⟩
  | .Equal => ⟨0, 9603706711018614163865863488, 0, 0, 0⟩
  | .Assign => ⟨0, 309485009821345068724782144, 0, 0, 0⟩
  | .Plus => ⟨672, 9603706711018616354290802010, 288230376151711744, 2370821947400,
      618970019642690309248260778⟩
  | .Minus => ⟨672, 9603706711018616354290802010, 288230376151711744, 2370821947400, 171798698666⟩
  | .Star => ⟨0, 9603706711018614163865863488, 0, 0, 0⟩
  | .Slash => ⟨0, 9603706711018614163865863488, 0, 0, 0⟩
  | .Flex => ⟨0, 9603706711018614163865863488, 0, 0, 0⟩
  | .DotPlus => ⟨672, 9603706711018616354290802010, 288230376151711744, 2370821947400, 171798698666⟩
  | .DotMinus => ⟨672, 9603706711018616354290802010, 288230376151711744, 2370821947400,
      171798698666⟩
  | .DotStar => ⟨309485009821345068724781056, 9603706711018614163865863488, 0, 0, 0⟩
  | .DotSlash => ⟨0, 9603706711018614163865863488, 0, 0, 0⟩
  | .DotFlex => ⟨0, 9603706711018614163865863488, 0, 0, 0⟩
  | .Gre => ⟨0, 9603706711018614163865863488, 0, 0, 0⟩
  | .Geq => ⟨0, 9603706711018614163865863488, 0, 0, 0⟩
  | .Les => ⟨0, 9603706711018614163865863488, 0, 0, 0⟩
  | .Leq => ⟨0, 9603706711018614163865863488, 0, 0, 0⟩
  | .Neq => ⟨0, 9603706711018614163865863488, 0, 0, 0⟩
  | .Eq => ⟨0, 9603706711018614163865863488, 0, 0, 0⟩
  | .Not => ⟨672, 2189359585306, 288230376151711744, 2370821947400, 171798698666⟩
  | .And => ⟨0, 9603706711018614163865863488, 0, 0, 0⟩
  | .Or => ⟨0, 9603706711018614163865863488, 0, 0, 0⟩
  | .In => ⟨0, 309485009821345068724781056, 0, 0, 0⟩
  | .For => ⟨0, 9603706711018614163865863488, 864691128455135232, 2370821947400,
      9603706711018614163865863488⟩
  | .If => ⟨672, 9603706711018620748050734410, 864691128455135232, 2370821947400, 171798698666⟩
  | .Else => ⟨0, 9603706711018614163865863488, 0, 137438953480, 9603706711018614163865863488⟩
  | .ElseIf => ⟨0, 9603706711018614163865863488, 0, 137438953480, 9603706711018614163865863488⟩
  | .Then => ⟨0, 9603706711018614163865863488, 0, 0, 0⟩
  | .When => ⟨0, 9671406556917033397649408, 864691128455135232, 2370821947400, 0⟩
  | .ElseWhen => ⟨0, 0, 0, 137438953480, 0⟩
  | .While => ⟨0, 9671406556917033397649408, 576460752303423488, 2370821947400, 0⟩
  | .Loop => ⟨0, 9603706711018614163865863488, 0, 0, 0⟩
  | .Break => ⟨32, 6146, 576460752303423488, 2370821947400, 6178⟩
  | .Return => ⟨0, 0, 576460752303423488, 2370821947400, 0⟩
  | .Partial => ⟨1, 1226745374389832601567232, 928455043299093261456506944, 8, 0⟩
  | .Class => ⟨1, 1226745374407424787611648, 928455043299093261456506944, 8, 0⟩
  | .Operator => ⟨1, 1226745482493815844503552, 928455043299093261456506944, 8, 0⟩
  | .Expandable => ⟨1, 1226745374407424787611648, 928455043299093261456506944, 8, 0⟩
  | .Model => ⟨1, 1226745374407424787611648, 928455043299093261456506944, 8, 0⟩
  | .Function => ⟨33, 1226745482564184588683266, 928455043299093261456506944, 8, 2082⟩
  | .Record => ⟨1, 1226745374477793531789312, 928455043299093261456506944, 8, 0⟩
  | .TypeKw => ⟨1, 1226745374407424787611648, 928455043299093261456506944, 8, 0⟩
  | .Block => ⟨1, 1226745374407424787611648, 928455043299093261456506944, 8, 0⟩
  | .Connector => ⟨1, 1226745374548162275966976, 928455043299093261456506944, 8, 0⟩
  | .Package => ⟨1, 1226745374407424787611648, 928455043299093261456506944, 8, 0⟩
  | .Pure => ⟨811681, 1226745374409615220930586, 928455043587323637608218688, 2370821947400,
      171798698666⟩
  | .Impure => ⟨1, 1226745374407424787611648, 928455043299093261456506944, 8, 0⟩
  | .Initial => ⟨811680, 2190433318938, 928455044163784389911642184, 2370821947400, 171798698666⟩
  | .Equation => ⟨0, 144115188075855872, 928455044163784389911642184, 0, 0⟩
  | .Algorithm => ⟨0, 144115188075855872, 928455044163784389911642184, 0, 0⟩
  | .Extends => ⟨0, 35852875158519808, 928455043299093261456506944, 8, 0⟩
  | .Import => ⟨0, 0, 928455043299093261456506944, 8, 0⟩
  | .Public => ⟨0, 0, 928455044163784389911642184, 0, 0⟩
  | .Protected => ⟨0, 0, 928455044163784389911642184, 0, 0⟩
  | .Within => ⟨1, 0, 0, 0, 1⟩
  | .Final => ⟨32, 1210106411235346586009602, 928455043299093261456506944, 9, 34⟩
  | .Encapsulated => ⟨1, 17745767798908588654592, 928455043299093261456506944, 8, 0⟩
  | .Enumeration => ⟨0, 2048, 0, 0, 0⟩
  | .Input => ⟨0, 2397818475165209776359424, 928455043299093261456506944, 8, 0⟩
  | .Output => ⟨0, 2397818475165209776359424, 928455043299093261456506944, 8, 0⟩
  | .Redeclare => ⟨32, 2, 928455043299093261456506944, 8, 34⟩
  | .Inner => ⟨0, 1217485108864830406656, 928455043299093261456506944, 8, 0⟩
  | .Outer => ⟨0, 3578668350299653013504, 928455043299093261456506944, 8, 0⟩
  | .Replaceable => ⟨32, 1217226854447798472933378, 928455043299093261456506944, 8, 34⟩
  | .Constrainedby => ⟨0, 0, 0, 0, 9603706711018618561912374592⟩
  | .Flow => ⟨0, 1226671587413537763360768, 928455043299093261456506944, 8, 0⟩
  | .Stream => ⟨0, 1226671587413537763360768, 928455043299093261456506944, 8, 0⟩
  | .Discrete => ⟨0, 1340008383002409248489472, 928455043299093261456506944, 8, 0⟩
  | .Parameter => ⟨0, 1340008383002409248489472, 928455043299093261456506944, 8, 0⟩
  | .Constant => ⟨0, 1340008383002409248489472, 928455043299093261456506944, 8, 0⟩
  | .Each => ⟨32, 1180591620717411303426, 0, 0, 34⟩
  | .Annotation => ⟨0, 0, 928455044163784389911642184, 0, 9608542414297087274864608576⟩
  | .External => ⟨0, 0, 928455044163784389911642184, 0, 0⟩
  | .End => ⟨811680, 2190433318938, 928455044163784389911642184, 2370821947400, 171798698666⟩
  | .Der => ⟨811680, 2190433318938, 288230376151711744, 2370821947400, 171798698666⟩
  | .Connect => ⟨0, 4398046511104, 288230376151711744, 2370821947400, 0⟩
  | .Identifier => ⟨811684, 321574031704442388296498202, 933290747442242906610466880,
      2370821947400, 309485009821345240523480746⟩
  | .String => ⟨811680, 4835703278460707132143642, 288230376151711744, 2370821947400,
      9603706711018628929964482538⟩
  | .UInt => ⟨811680, 2190433318938, 288230376151711744, 2370821947400, 171798698666⟩
  | .UReal => ⟨811680, 2190433318938, 288230376151711744, 2370821947400, 171798698666⟩
  | .Bool => ⟨811680, 2190433318938, 288230376151711744, 2370821947400, 171798698666⟩
  | _ => ⟨0, 0, 0, 0, 0⟩

end FmtTab

open FmtTab

/-- What holds for all files. -/
def fullTabs : Tabs where
  flat := false
  entry := fullEntry
  exit := fun k a => look a (fullExit k)
  ok := fun k g => (fullOk k).get g

/-- What holds for files without wrapped operators. -/
def flatTabs : Tabs where
  flat := true
  entry := flatEntry
  exit := fun k a => look a (flatExit k)
  ok := fun k g => (flatOk k).get g

end Mofmt
