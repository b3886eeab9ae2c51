import Verif.Model.Printer
import Verif.Model.Grammar
import Verif.Spec.Lexical
/-
Specification: the formatted text as a sequence of tokens, each with what stands before it: white space and
comments.  Apart from `Formatted`, nothing here refers to the program.
-/
namespace Mofmt

/-- The source is accepted, and `out` is what is written back: the printed text and a line end. -/
structure Formatted (eol name src : Text) (p : Parsed) (out : Text) : Prop where
  parsed : parse name src .StoredDefinition = .ok p
  accepted : p.errors = []
  text : ∃ t, prettyPrint eol p.tokens p.comments p.events = .ok t ∧ out = t ++ eol

/-- `n` blanks -/
def blanks (n : Nat) : Text := List.replicate n ' '

/-- The end-of-line conventions. -/
def IsEol (eol : Text) : Prop := eol = c!"\n" ∨ eol = c!"\r\n"

/-- White space with one line break, or with an empty line, then an even number of blanks. -/
def LineBreak (eol w : Text) : Prop :=
  ∃ n, w = eol ++ blanks (2 * n) ∨ w = eol ++ eol ++ blanks (2 * n)

/-- White space without line break: nothing or one blank. -/
def SameLine (w : Text) : Prop := w = [] ∨ w = [' ']

/-- A token of the output with the comments printed before it, each with the white space before it. -/
structure Group where
  comments : List (Text × Token)
  white : Text
  tok : Token

/-- white space and text of lexemes -/
def lexemesText (l : List (Text × Token)) : Text := l.flatMap fun x => x.1 ++ x.2.text

/-- the lexemes of a group with their white space -/
def Group.lexemes (g : Group) : List (Text × Token) := g.comments ++ [(g.white, g.tok)]

/-- the lexemes of the groups with their white space -/
def groupLexemes (gs : List Group) : List (Text × Token) := gs.flatMap Group.lexemes

/-- the text of the groups -/
def groupsText (gs : List Group) : Text := lexemesText (groupLexemes gs)

/-- The comments whose index is at least `i` and less than `j`: those between two tokens. -/
def commentsFrom (i j : Nat) (comments : List Token) : List Token :=
  comments.filter fun c => decide (i ≤ c.idx ∧ c.idx < j)

/-- A property of every group, together with the token before it (if any). -/
def EachGroup (P : Option Token → Group → Prop) : Option Token → List Group → Prop
  | _, [] => True
  | prev, g :: gs => P prev g ∧ EachGroup P (some g.tok) gs

/-- the index from which on comments stand after the token -/
def indexAfter : Option Token → Nat
  | none => 0
  | some t => t.idx + 1

/-- `s` is the tree itself or a part of it. -/
inductive Part (s : Tree) : Tree → Prop where
  | here : Part s s
  | there {k cs c} : c ∈ cs → Part s c → Part s (.node k cs)

/-- A text whose characters are marked: do they belong to a token or comment? -/
def marked (ls : List (Text × Token)) (eol : Text) : List (Char × Bool) :=
  (ls.flatMap fun x => x.1.map (·, false) ++ x.2.text.map (·, true)) ++ eol.map (·, false)

/-- Every line comment ends its line: the comments after it start on later lines.  This fails only if a
carriage return without line feed stands after the comment, because it ends the comment but not the line. -/
def LineCommentsEnd (comments : List Token) : Prop :=
  ∀ c ∈ comments, c.kind = .LineComment → ∀ c' ∈ comments, c.idx < c'.idx → c.stop.line < c'.start.line

/-- Every comment with a line break inside ends its line: what comes after it starts on a later line. -/
def LongCommentsEnd (tokens comments : List Token) : Prop :=
  ∀ c ∈ comments, 0 < Lexical.newlines c.text → ∀ x ∈ tokens ++ comments, c.idx < x.idx → c.stop.line < x.start.line

/-- kind and text of a token -/
def kindText (t : Token) : Tok × Text := (t.kind, t.text)

/-- Every carriage return is followed by a line feed. -/
def NoLoneCr (src : Text) : Prop := ∀ a b : Text, src = a ++ '\r' :: b → b.head? = some '\n'

mutual
/-- the tree with changed tokens -/
def Tree.map (f : Token → Token) : Tree → Tree
  | .tok t => .tok (f t)
  | .node k cs => .node k (mapTrees f cs)
def mapTrees (f : Token → Token) : List Tree → List Tree
  | [] => []
  | t :: ts => t.map f :: mapTrees f ts
end

/-- the token without its place in the text -/
def bare (t : Token) : Token := ⟨0, t.text, t.kind, ⟨0, 0, 0⟩, ⟨0, 0, 0⟩⟩

/-- the token without columns and byte offsets -/
def lined (t : Token) : Token := ⟨t.idx, t.text, t.kind, ⟨0, t.start.line, 0⟩, ⟨0, t.stop.line, 0⟩⟩

end Mofmt
