import Verif.Spec.Lexemes
/-
Texts that differ only in their white space.
-/
namespace Mofmt.Lexical

/-- A text cut at its white space twice: the white space of one text, the white space of the other one,
and the piece that follows both. -/
abbrev Twice := List (Text × Text × Chunk)

/-- The division of the first text. -/
def Twice.first (l : Twice) : List (Text × Chunk) := l.map fun x => (x.1, x.2.2)
/-- The division of the second text. -/
def Twice.second (l : Twice) : List (Text × Chunk) := l.map fun x => (x.2.1, x.2.2)

/-- No line break in both, or one in both, or several in both. -/
def sameBreaks (w w' : Text) : Prop := min 2 (newlines w) = min 2 (newlines w')

instance (w w' : Text) : Decidable (sameBreaks w w') := inferInstanceAs (Decidable (_ = _))

/-- The text with the given white space and pieces, and white space at the end. -/
def spread (ps : List (Text × Chunk)) (tail : Text) : Text := ps.flatMap (fun x => x.1 ++ x.2.text) ++ tail

/-- After the piece `p`, `w'` may be written in the place of `w`: it is white space, it is not empty unless `w` is,
and after a comment to the end of the line it starts with a line end. -/
def replaces (p : Chunk) (w w' : Text) : Prop :=
  w'.all ws = true ∧ (w' = [] → w = []) ∧
    ∀ t, p = .token .LineComment t → ∀ c ∈ w'.head?, c = '\n' ∨ c = '\r'

/-- The white space after the piece `p` and after each of the others may be replaced. -/
def respaced : Chunk → Twice → Text → Prop
  | p, [], tail => replaces p [] tail
  | p, (w, w', q) :: l, tail => replaces p w w' ∧ respaced q l tail

/-- Newlines as on Windows. -/
def crlf (t : Text) : Text := t.flatMap fun c => if c = '\n' then ['\r', '\n'] else [c]

end Mofmt.Lexical
