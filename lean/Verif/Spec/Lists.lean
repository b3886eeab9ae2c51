import Verif.Spec.Whole
/-
Specification: the items of lists (code-style.md, "Function calls, arrays, matrices, modifications, lists").
-/
namespace Mofmt

/-- the productions between the brackets of a list and its items -/
def listPart : SK → Bool
  | .FunctionArguments | .FunctionArgumentsNonFirst | .NamedArguments | .ArrayArguments | .ArrayArgumentsNonFirst
  | .ArgumentList | .ArgumentOrInheritanceModificationList | .ExpressionList | .EnumList | .ImportList => true
  | _ => false

mutual
/-- the items of a list to which the tree belongs -/
def Tree.itemsIn : Tree → List Tree
  | .tok t => if t.kind = .Identifier ∨ t.kind = .For then [.tok t] else []
  | .node k cs => if listPart k then itemsF cs else if k = .ForIndices then [] else [.node k cs]
/-- `Tree.itemsIn` for several trees -/
def itemsF : List Tree → List Tree
  | [] => []
  | c :: cs => c.itemsIn ++ itemsF cs
end

/-- the opening bracket of a list -/
def opensIn : SK → Sym → Bool
  | .FunctionCallArgs, .t .LParen | .ClassModification, .t .LParen | .ClassOrInheritanceModification, .t .LParen
  | .ConnectEquation, .t .LParen | .ExternalFunctionCall, .t .LParen | .FunctionPartialApplication, .t .LParen
  | .DerClassSpecifier, .t .LParen | .ShortClassSpecifier, .t .LParen
  | .ImportClause, .t .LCurly | .Primary, .t .LCurly
  | .ArraySubscripts, .t .LBracket | .Primary, .t .LBracket => true
  | _, _ => false

/-- the closing bracket of a list -/
def closesIn : SK → Sym → Bool
  | .FunctionCallArgs, .t .RParen | .ClassModification, .t .RParen | .ClassOrInheritanceModification, .t .RParen
  | .ConnectEquation, .t .RParen | .ExternalFunctionCall, .t .RParen | .FunctionPartialApplication, .t .RParen
  | .DerClassSpecifier, .t .RParen | .ShortClassSpecifier, .t .RParen
  | .ImportClause, .t .RCurly | .Primary, .t .RCurly
  | .ArraySubscripts, .t .RBracket | .Primary, .t .RBracket => true
  | _, _ => false

/-- what is between the brackets of a list; lists of components have no brackets -/
def inside (k : SK) (cs : List Tree) : List Tree :=
  if k = .ComponentList then cs
  else ((cs.dropWhile fun c => !opensIn k c.sym).drop 1).takeWhile fun c => !closesIn k c.sym

/-- is it a production? -/
def Tree.isNode : Tree → Bool
  | .tok _ => false
  | .node _ _ => true

/-- The items of a list: arguments of functions, expressions, subscripts, modifications, names.  `for` of an array
comprehension counts as an item; a matrix with several rows is a list of rows. -/
def listItems (k : SK) (cs : List Tree) : List Tree :=
  if k = .Primary ∧ cs.length > 3 then (inside k cs).filter Tree.isNode else itemsF (inside k cs)

/-- Are the items of a list put on lines of their own? -/
def listWrapped (k : SK) (cs : List Tree) : Bool := match k with
  -- the brackets are on different lines
  | .FunctionCallArgs | .ArraySubscripts | .Primary | .ConnectEquation | .ClassOrInheritanceModification => spansLines cs
  | .ExternalFunctionCall | .FunctionPartialApplication | .DerClassSpecifier => bracketsApart .LParen .RParen cs
  | .ImportClause => bracketsApart .LCurly .RCurly cs
  -- or there are descriptions, which are on lines of their own
  | .ShortClassSpecifier => bracketsApart .LParen .RParen cs || occursF .Description (inside k cs)
  | .ClassModification => spansLines cs || occursF .DescriptionString cs || occursF .Description cs
  -- several components
  | .ComponentList => spansLines cs && decide (cs.length > 1)
  | _ => false

/-- The part `it` begins a line of the output (`b = true`), or it stands on the line of the token before it, with no
comment in between. -/
def Stands (eol : Text) (gs : List Group) (b : Bool) (it : Tree) : Prop :=
  ∃ x prev g, it.start? = some x ∧ g.tok = x ∧ Follows gs prev g ∧
    if b then ∃ n, Breaks eol .Illegal n prev g else g.comments = [] ∧ SameLine g.white

end Mofmt
