import Verif.Spec.Indent
import Verif.Spec.Blanks
/-
When two parts of a file look the same to what is around them (C76).
-/
namespace Mofmt
open Lexical

/-- the last of the pieces is a token and not a comment -/
def endsInCode (ps : List (Text × Chunk)) : Prop :=
  ∃ qs w k t, ps = qs ++ [(w, .token k t)] ∧ k ≠ .LineComment ∧ k ≠ .BlockComment

/-- a conditional expression on several lines -/
def Tree.condWide (t : Tree) : Bool := spansLines [t] && decide ((t.leaves.head?.map Token.kind) = some .If)

/-- the productions that can be conditional expressions where the layout depends on it -/
def condSym : Sym → Bool
  | .n .ModificationExpression | .n .Expression | .n .FunctionArgument => true
  | _ => false

/-- two trees look the same from outside: the layout of what is around them is the same -/
structure Looks (x y : Tree) : Prop where
  sym : x.sym = y.sym
  head : x.leaves.head?.map (fun t => t.start.line) = y.leaves.head?.map (fun t => t.start.line)
  ifs : condSym x.sym = true → x.condWide = y.condWide
  within : x.sym = .t .Within → x = y
  last : x.leaves.getLast?.map (fun t => t.stop.line) = y.leaves.getLast?.map (fun t => t.stop.line)
  first : x.start?.map (fun t => t.start.line) = y.start?.map (fun t => t.start.line)
  final : x.end?.map (fun t => t.stop.line) = y.end?.map (fun t => t.stop.line)
  wraps : x.wraps = y.wraps
  leaks : x.leaks = y.leaks
  desc : ∀ k, k = .Description ∨ k = .DescriptionString → x.occurs k = y.occurs k
  kids : occursF .Description x.kids = occursF .Description y.kids
  comma : (x.kids.getLast?.map Tree.sym = some (.t .Comma)) = (y.kids.getLast?.map Tree.sym = some (.t .Comma))

end Mofmt
