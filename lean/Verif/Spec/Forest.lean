import Verif.Model.Tree
/-
Specification: what it means that a list of events describes a syntax tree.
Nothing here refers to the parser.
-/
namespace Mofmt

mutual
/-- The events that describe a tree. -/
def Tree.evs : Tree → List Event
  | .tok _ => [.advance]
  | .node k cs => .enter k :: (evsF cs ++ [.exit])
/-- The events that describe a forest. -/
def evsF : List Tree → List Event
  | [] => []
  | t :: ts => t.evs ++ evsF ts
end

mutual
/-- The tokens of a tree from left to right. -/
def Tree.leaves : Tree → List Token
  | .tok t => [t]
  | .node _ cs => leavesF cs
/-- The tokens of a forest from left to right. -/
def leavesF : List Tree → List Token
  | [] => []
  | t :: ts => t.leaves ++ leavesF ts
end

mutual
/-- Does an `Error` production occur? -/
def Tree.hasError : Tree → Bool
  | .tok _ => false
  | .node k cs => k == .Error || hasErrorF cs
/-- Does an `Error` production occur in the forest? -/
def hasErrorF : List Tree → Bool
  | [] => false
  | t :: ts => t.hasError || hasErrorF ts
end

mutual
/-- Does the tree contain a production without children (the root included)? -/
def Tree.hasEmpty : Tree → Bool
  | .tok _ => false
  | .node _ cs => cs.isEmpty || hasEmptyF cs
/-- Does the forest contain a production without children? -/
def hasEmptyF : List Tree → Bool
  | [] => false
  | t :: ts => t.hasEmpty || hasEmptyF ts
end

mutual
/-- The tree without the productions that contain no token. -/
def Tree.pruned : Tree → List Tree
  | .tok t => [.tok t]
  | .node k cs => match pruneF cs with
    | [] => []
    | c :: cs => [.node k (c :: cs)]
/-- The forest without the productions that contain no token. -/
def pruneF : List Tree → List Tree
  | [] => []
  | t :: ts => t.pruned ++ pruneF ts
end

end Mofmt
