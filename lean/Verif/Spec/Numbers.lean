import Verif.Spec.Whole
import Verif.Spec.Size
import Verif.Spec.Output
/-
Specification: the sizes of texts and of layouts.
-/
namespace Mofmt

/-- the length of the texts of some tokens or comments -/
def textSize (ts : List Token) : Nat := (ts.map fun t => t.text.length).sum

/-- the number of steps by which the markers increase the indentation -/
def indents (ms : List Marker) : Nat := (ms.filter fun m => decide (m = .indent)).length

/-- the number of steps by which the markers decrease the indentation -/
def dedents (ms : List Marker) : Nat := (ms.filter fun m => decide (m = .dedent)).length

/-- the line breaks of the layout are at the level `n` at most -/
def LevelsTo (n : Nat) (ds : List (Dec × Token)) : Prop := ∀ b l t, (Dec.brk b l, t) ∈ ds → l ≤ n

end Mofmt
