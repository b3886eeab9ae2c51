import Verif.Spec.Output
/-
Lists that cannot stay on one line.

Descriptions, description strings and constraining clauses are put on lines of their own. Where a list that
contains one of them is written on one line, the list is printed on several lines, and on the next run other
parts of it move to lines of their own. Trees in which this does not happen are settled.
-/
namespace Mofmt

/-- kinds that are put on a line of their own -/
def forcedKinds : List SK := [.Description, .DescriptionString, .ConstrainingClause]

/-- contains nothing that is put on a line of its own -/
def Unforced (cs : List Tree) : Prop := ∀ k ∈ forcedKinds, containsKind k cs = false

/-- the lists concerned: several components, modifications of base classes, and modifications in which there is a
constraining clause, but no description -/
def settledAt (k : SK) (cs : List Tree) : Prop :=
  match k with
  | .ComponentList => cs.length > 1 → isMultiline cs = .ok false → Unforced cs
  | .ClassOrInheritanceModification => isMultiline cs = .ok false → Unforced cs
  | .ClassModification => isMultiline cs = .ok false → containsKind .DescriptionString cs = false →
      containsKind .Description cs = false → Unforced cs
  | _ => True

mutual
/-- every such list is on several lines, or contains nothing that is put on a line of its own -/
def Tree.Settled : Tree → Prop
  | .tok _ => True
  | .node k cs => settledAt k cs ∧ SettledF cs
/-- the same for several trees -/
def SettledF : List Tree → Prop
  | [] => True
  | c :: cs => c.Settled ∧ SettledF cs
end

/-- A source whose layout is kept: line comments and comments with line breaks inside end their lines, and the
lists are settled. -/
structure Steady (p : Parsed) : Prop where
  line : LineCommentsEnd p.comments
  long : LongCommentsEnd p.tokens p.comments
  lists : ∀ t, buildTree p.tokens p.events = .ok t → t.Settled

end Mofmt
