import Verif.Model.Printer
import Verif.Spec.Forest
/-
Specification: what a layout of a token sequence is, and which text it stands for when comments are
put in.  Nothing here refers to the formatting functions.

A layout assigns to every token a decision about what stands between it and the previous token.
-/
namespace Mofmt

/-- The decision before a token: nothing, one blank, or a line break of one of three sorts (line break;
line break that keeps one empty line of the source; empty line) with an indentation level. -/
inductive Dec where
  | none
  | space
  | brk (b : Blank) (n : Nat)
  deriving DecidableEq, Repr

/-- A decision without the indentation level. -/
inductive Gap where
  | none
  | space
  | brk (b : Blank)
  deriving DecidableEq, Repr

def Dec.gap : Dec → Gap
  | .none => .none
  | .space => .space
  | .brk b _ => .brk b

/-- Pieces of output: a blank, a line end with indentation, an empty line with indentation, a token or
comment. -/
inductive Piece where
  | sp
  | nl (n : Nat)
  | bl (n : Nat)
  | txt (t : Token)
  deriving DecidableEq, Repr

/-- the text of a piece -/
def Piece.text (eol : Text) : Piece → Text
  | .sp => [' ']
  | .nl n => eol ++ indentText n
  | .bl n => eol ++ eol ++ indentText n
  | .txt t => t.text

/-- the text of a sequence of pieces -/
def piecesText (eol : Text) : List Piece → Text
  | [] => []
  | p :: ps => p.text eol ++ piecesText eol ps

/-- Comments that stay on the line of the previous token, each after a blank (the first one not, if
nothing precedes it). -/
def inlinePieces (first : Bool) : List Token → List Piece
  | [] => []
  | c :: cs => (if first then [] else [.sp]) ++ .txt c :: inlinePieces false cs

/-- the line end between something ending at `line` and something beginning at line `x` -/
def gapPiece (n x line : Nat) : Piece := if x - line > 1 then .bl n else .nl n

/-- Comments on lines of their own; `g`: does a line end precede the first one? -/
def ownPieces (n : Nat) (g : Bool) (line : Nat) : List Token → List Piece
  | [] => []
  | c :: cs => (if g then [gapPiece n c.start.line line] else []) ++
      .txt c :: ownPieces n true c.stop.line cs

/-- the line on which the last comment ends -/
def lastLine (line : Nat) : List Token → Nat
  | [] => line
  | c :: cs => lastLine c.stop.line cs

/-- The pieces of a line break before `tok` with the comments `taken`, after a token that ends at
`line`. -/
def breakPieces (first : Bool) (taken : List Token) (line : Nat) (b : Blank) (n : Nat) (tok : Token) :
    List Piece :=
  let own := taken.filter (fun c => !(c.start.line == line))
  inlinePieces first (taken.filter (fun c => c.start.line == line)) ++
  match b with
  | .Required => .bl n :: (ownPieces n false line own ++
      if own.isEmpty then [] else [gapPiece n tok.start.line (lastLine line own)])
  | .Legal => ownPieces n true line own ++ [gapPiece n tok.start.line (lastLine line own)]
  | .Illegal => ownPieces n true line own ++ [.nl n]

/-- A partly laid out file. -/
structure LS where
  /-- output so far, newest first -/
  out : List Piece
  /-- comments not yet passed -/
  comments : List Token
  /-- line on which the last token ends in the source -/
  line : Nat
  /-- kind of the last token -/
  kind : Tok

def LS.init (comments : List Token) : LS := { out := [], comments, line := 1, kind := .EOF }

/-- carry out the decision before the token that heads the list -/
def LS.dec (d : Dec) (todo : List Token) (L : LS) : LS :=
  match d, todo with
  | .none, _ => L
  | .space, _ => { L with out := .sp :: L.out }
  | .brk b n, t :: _ =>
    { L with
      out := (breakPieces L.out.isEmpty (L.comments.takeWhile (·.idx < t.idx)) L.line b n t).reverse ++ L.out
      comments := L.comments.dropWhile (·.idx < t.idx) }
  | .brk _ _, [] => L

/-- put the token; comments before it that are still there are lost -/
def LS.emit (t : Token) (L : LS) : LS :=
  { out := .txt t :: L.out
    comments := L.comments.dropWhile (·.idx < t.idx)
    line := t.stop.line
    kind := t.kind }

/-- lay out one token -/
def LS.step (L : LS) (x : Dec × Token) : LS := (L.dec x.1 [x.2]).emit x.2

/-- lay out a token sequence -/
def LS.run (L : LS) (ds : List (Dec × Token)) : LS := ds.foldl LS.step L

/-! ### Wrapped operators -/

/-- productions with binary operators -/
def binKind : SK → Bool
  | .LogicalExpression | .LogicalTerm | .Relation | .ArithmeticExpression | .Term | .Factor => true
  | _ => false

/-- The first token of every child begins on the line on which the child two places before it ends: no
operand stands on another line than the operand before it. -/
def flatPairs : List Tree → Prop
  | x :: o :: y :: rest =>
    (∀ e s, x.end? = some e → y.start? = some s → s.start.line ≤ e.stop.line) ∧ flatPairs (o :: y :: rest)
  | _ => True

mutual
/-- No binary operator of the tree has its operands on different lines. -/
def Tree.NoWrap : Tree → Prop
  | .tok _ => True
  | .node k cs => (binKind k = true → flatPairs cs) ∧ NoWrapF cs
/-- No binary operator of the forest has its operands on different lines. -/
def NoWrapF : List Tree → Prop
  | [] => True
  | t :: ts => t.NoWrap ∧ NoWrapF ts
end

end Mofmt
