/-
Tokens, syntax kinds and basic text.
Sources: /repo/src/parser/tokens.rs, /repo/src/parser/syntax.rs, /repo/src/parser/events.rs
-/
namespace Mofmt

/-- Text is a list of Unicode scalar values; Rust's `String`/`str` are its UTF-8 encodings. -/
abbrev Text := List Char

/-- `c!"abc"` is the list `['a', 'b', 'c']`. -/
macro:max "c!" s:str : term => do
  let cs := s.getString.toList.map fun c => Lean.Syntax.mkCharLit c
  `([$(cs.toArray),*])

/-- tokens.rs:7-101 `enum ModelicaToken` (`Type` is called `TypeKw`, a Lean keyword otherwise). -/
inductive Tok where
  | EOF | Comma | Dot | Semicolon | Colon | LParen | RParen | LCurly
  | RCurly | LBracket | RBracket | Equal | Assign | Plus | Minus | Star
  | Slash | Flex | DotPlus | DotMinus | DotStar | DotSlash | DotFlex | Gre
  | Geq | Les | Leq | Neq | Eq | Not | And | Or
  | In | For | If | Else | ElseIf | Then | When | ElseWhen
  | While | Loop | Break | Return | Partial | Class | Operator | Expandable
  | Model | Function | Record | TypeKw | Block | Connector | Package | Pure
  | Impure | Initial | Equation | Algorithm | Extends | Import | Public | Protected
  | Within | Final | Encapsulated | Enumeration | Input | Output | Redeclare | Inner
  | Outer | Replaceable | Constrainedby | Flow | Stream | Discrete | Parameter | Constant
  | Each | Annotation | External | End | Der | Connect | LineComment | BlockComment
  | Identifier | String | UInt | UReal | Bool
  deriving DecidableEq, Repr, Inhabited

/-- All token kinds, in declaration order. -/
def Tok.all : List Tok :=
  [.EOF, .Comma, .Dot, .Semicolon, .Colon, .LParen, .RParen, .LCurly,
   .RCurly, .LBracket, .RBracket, .Equal, .Assign, .Plus, .Minus, .Star,
   .Slash, .Flex, .DotPlus, .DotMinus, .DotStar, .DotSlash, .DotFlex, .Gre,
   .Geq, .Les, .Leq, .Neq, .Eq, .Not, .And, .Or,
   .In, .For, .If, .Else, .ElseIf, .Then, .When, .ElseWhen,
   .While, .Loop, .Break, .Return, .Partial, .Class, .Operator, .Expandable,
   .Model, .Function, .Record, .TypeKw, .Block, .Connector, .Package, .Pure,
   .Impure, .Initial, .Equation, .Algorithm, .Extends, .Import, .Public, .Protected,
   .Within, .Final, .Encapsulated, .Enumeration, .Input, .Output, .Redeclare, .Inner,
   .Outer, .Replaceable, .Constrainedby, .Flow, .Stream, .Discrete, .Parameter, .Constant,
   .Each, .Annotation, .External, .End, .Der, .Connect, .LineComment, .BlockComment,
   .Identifier, .String, .UInt, .UReal, .Bool]

/-- tokens.rs:103-201 `Debug` rendering of a token kind (quirks `'.''` and `for'` included). -/
def Tok.debug : Tok → Text
  | .EOF => c!"EOF"
  | .Comma => c!"','"
  | .Dot => c!"'.''"
  | .Semicolon => c!"';'"
  | .Colon => c!"':'"
  | .LParen => c!"'('"
  | .RParen => c!"')'"
  | .LCurly => c!"'{'"
  | .RCurly => c!"'}'"
  | .LBracket => c!"'['"
  | .RBracket => c!"']'"
  | .Equal => c!"'='"
  | .Assign => c!"':='"
  | .Plus => c!"'+'"
  | .Minus => c!"'-'"
  | .Star => c!"'*'"
  | .Slash => c!"'/'"
  | .Flex => c!"'^'"
  | .DotPlus => c!"'.+'"
  | .DotMinus => c!"'.-'"
  | .DotStar => c!"'.*'"
  | .DotSlash => c!"'./'"
  | .DotFlex => c!"'.^'"
  | .Gre => c!"'>'"
  | .Geq => c!"'>='"
  | .Les => c!"'<'"
  | .Leq => c!"'<='"
  | .Neq => c!"'<>'"
  | .Eq => c!"'=='"
  | .Not => c!"'not'"
  | .And => c!"'and'"
  | .Or => c!"'or'"
  | .In => c!"'in'"
  | .For => c!"for'"
  | .If => c!"'if'"
  | .Else => c!"'else'"
  | .ElseIf => c!"'elseif'"
  | .Then => c!"'then'"
  | .When => c!"'when'"
  | .ElseWhen => c!"'elsewhen'"
  | .While => c!"'while'"
  | .Loop => c!"'loop'"
  | .Break => c!"'break'"
  | .Return => c!"'return'"
  | .Partial => c!"'partial'"
  | .Class => c!"'class'"
  | .Operator => c!"'operator'"
  | .Expandable => c!"'expandable'"
  | .Model => c!"'model'"
  | .Function => c!"'function'"
  | .Record => c!"'record'"
  | .TypeKw => c!"'type'"
  | .Block => c!"'block'"
  | .Connector => c!"'connector'"
  | .Package => c!"'package'"
  | .Pure => c!"'pure'"
  | .Impure => c!"'impure'"
  | .Initial => c!"'initial'"
  | .Equation => c!"'equation'"
  | .Algorithm => c!"'algorithm'"
  | .Extends => c!"'extends'"
  | .Import => c!"'import'"
  | .Public => c!"'public'"
  | .Protected => c!"'protected'"
  | .Within => c!"'within'"
  | .Final => c!"'final'"
  | .Encapsulated => c!"'encapsulated'"
  | .Enumeration => c!"'enumeration'"
  | .Input => c!"'input'"
  | .Output => c!"'output'"
  | .Redeclare => c!"'redeclare'"
  | .Inner => c!"'inner'"
  | .Outer => c!"'outer'"
  | .Replaceable => c!"'replaceable'"
  | .Constrainedby => c!"'constrainedby'"
  | .Flow => c!"'flow'"
  | .Stream => c!"'stream'"
  | .Discrete => c!"'discrete'"
  | .Parameter => c!"'parameter'"
  | .Constant => c!"'constant'"
  | .Each => c!"'each'"
  | .Annotation => c!"'annotation'"
  | .External => c!"'external'"
  | .End => c!"'end'"
  | .Der => c!"'der'"
  | .Connect => c!"'connect'"
  | .LineComment => c!"LINE COMMENT"
  | .BlockComment => c!"BLOCK COMMENT"
  | .Identifier => c!"IDENTIFIER"
  | .String => c!"STRING"
  | .UInt => c!"UNSIGNED INTEGER"
  | .UReal => c!"UNSIGNED REAL"
  | .Bool => c!"'true' or 'false'"

/-- syntax.rs `enum SyntaxKind`. -/
inductive SK where
  | Error | StoredDefinition | ClassDefinition | ClassPrefixes
  | ClassSpecifier | LongClassSpecifier | ShortClassSpecifier | DerClassSpecifier
  | BasePrefix | EnumList | EnumerationLiteral | Composition
  | LanguageSpecification | ExternalFunctionCall | ElementList | Element
  | ImportClause | ImportList | ExtendsClause | ConstrainingClause
  | ClassOrInheritanceModification | ArgumentOrInheritanceModificationList | InheritanceModification | ComponentClause
  | TypePrefix | ComponentList | ComponentDeclaration | ConditionAttribute
  | Declaration | Modification | ModificationExpression | ClassModification
  | ArgumentList | Argument | ElementModificationOrReplaceable | ElementModification
  | ElementRedeclaration | ElementReplaceable | ComponentClause1 | ComponentDeclaration1
  | ShortClassDefinition | EquationSection | AlgorithmSection | Equation
  | Statement | IfEquation | IfStatement | ForEquation
  | ForStatement | ForIndices | ForIndex | WhileStatement
  | WhenEquation | WhenStatement | ConnectEquation | Expression
  | SimpleExpression | LogicalExpression | LogicalTerm | LogicalFactor
  | Relation | RelationalOperator | ArithmeticExpression | AddOperator
  | Term | MulOperator | Factor | Primary
  | TypeSpecifier | Name | ComponentReference | ResultReference
  | FunctionCallArgs | FunctionArguments | FunctionArgumentsNonFirst | ArrayArguments
  | ArrayArgumentsNonFirst | NamedArguments | NamedArgument | FunctionArgument
  | FunctionPartialApplication | OutputExpressionList | ExpressionList | ArraySubscripts
  | Subscript | Description | DescriptionString | AnnotationClause
  deriving DecidableEq, Repr, Inhabited

/-- All syntax kinds, in declaration order. -/
def SK.all : List SK :=
  [.Error, .StoredDefinition, .ClassDefinition, .ClassPrefixes,
   .ClassSpecifier, .LongClassSpecifier, .ShortClassSpecifier, .DerClassSpecifier,
   .BasePrefix, .EnumList, .EnumerationLiteral, .Composition,
   .LanguageSpecification, .ExternalFunctionCall, .ElementList, .Element,
   .ImportClause, .ImportList, .ExtendsClause, .ConstrainingClause,
   .ClassOrInheritanceModification, .ArgumentOrInheritanceModificationList, .InheritanceModification, .ComponentClause,
   .TypePrefix, .ComponentList, .ComponentDeclaration, .ConditionAttribute,
   .Declaration, .Modification, .ModificationExpression, .ClassModification,
   .ArgumentList, .Argument, .ElementModificationOrReplaceable, .ElementModification,
   .ElementRedeclaration, .ElementReplaceable, .ComponentClause1, .ComponentDeclaration1,
   .ShortClassDefinition, .EquationSection, .AlgorithmSection, .Equation,
   .Statement, .IfEquation, .IfStatement, .ForEquation,
   .ForStatement, .ForIndices, .ForIndex, .WhileStatement,
   .WhenEquation, .WhenStatement, .ConnectEquation, .Expression,
   .SimpleExpression, .LogicalExpression, .LogicalTerm, .LogicalFactor,
   .Relation, .RelationalOperator, .ArithmeticExpression, .AddOperator,
   .Term, .MulOperator, .Factor, .Primary,
   .TypeSpecifier, .Name, .ComponentReference, .ResultReference,
   .FunctionCallArgs, .FunctionArguments, .FunctionArgumentsNonFirst, .ArrayArguments,
   .ArrayArgumentsNonFirst, .NamedArguments, .NamedArgument, .FunctionArgument,
   .FunctionPartialApplication, .OutputExpressionList, .ExpressionList, .ArraySubscripts,
   .Subscript, .Description, .DescriptionString, .AnnotationClause]

/-- tokens.rs:211-215 `struct Position`. -/
structure Pos where
  pos : Nat
  line : Nat
  col : Nat
  deriving DecidableEq, Repr, Inhabited

/-- tokens.rs:228-239 `struct Token`. -/
structure Token where
  idx : Nat
  text : Text
  kind : Tok
  start : Pos
  stop : Pos
  deriving DecidableEq, Repr, Inhabited

/-- events.rs `enum SyntaxEvent`. -/
inductive Event where
  | enter (k : SK)
  | exit
  | advance
  deriving DecidableEq, Repr, Inhabited

/-- Decimal rendering of a number, as `{}` in `format!`. -/
def natText (n : Nat) : Text := Nat.toDigits 10 n

/-- lexing.rs:119, parsing.rs:224-238: `format!("{}:{}:{}: {}", name, line, col, msg)`. -/
def errorText (name : Text) (p : Pos) (msg : Text) : Text :=
  name ++ c!":" ++ natText p.line ++ c!":" ++ natText p.col ++ c!": " ++ msg

end Mofmt
