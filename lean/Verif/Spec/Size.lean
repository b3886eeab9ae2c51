import Verif.Model.Tree
/-
Specification: the size of a tree.
-/
namespace Mofmt

mutual
/-- the number of productions of a tree -/
def Tree.nodes : Tree → Nat
  | .tok _ => 0
  | .node _ cs => 1 + nodesF cs
/-- the number of productions of a forest -/
def nodesF : List Tree → Nat
  | [] => 0
  | t :: ts => t.nodes + nodesF ts
end

end Mofmt
