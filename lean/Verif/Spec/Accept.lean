import Verif.Spec.Grammar
/-
Specification: grammatical texts.  A token list is grammatical when it is the sequence of leaves of a
tree that conforms to the grammar.  The parser is known to refuse a few of them: an equation that starts
with `end` or, directly in an equation section, with `initial`.
Nothing here refers to the parser.
-/
namespace Mofmt

/-- May a production of kind `k` directly inside a production of kind `p` start with such a token? -/
def opens (p k : SK) (x : Tok) : Bool :=
  !(k == .Equation && (x == .End || (p == .EquationSection && x == .Initial)))

/-- `opens` for a child of `p`. -/
def Tree.startsOk (p : SK) : Tree → Bool
  | .tok _ => true
  | .node k cs => match leavesF cs with
    | [] => true
    | t :: _ => opens p k t.kind

mutual
/-- No equation of the tree starts with `end`, none directly in an equation section with `initial`. -/
def Tree.Opens : Tree → Prop
  | .tok _ => True
  | .node p cs => (∀ c ∈ cs, c.startsOk p = true) ∧ OpensF cs
/-- The same for the trees of a forest. -/
def OpensF : List Tree → Prop
  | [] => True
  | t :: ts => t.Opens ∧ OpensF ts
end

/-- `cs` is a reading of the tokens as a production of kind `k`: the children conform to the grammar, no
production among them is without tokens, and their leaves are the tokens. -/
structure Reading (k : SK) (toks : List Token) (cs : List Tree) : Prop where
  conforms : (Tree.node k cs).Conforms
  full : hasEmptyF cs = false
  leaves : leavesF cs = toks

end Mofmt
