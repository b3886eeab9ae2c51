import Verif.Model.Cli
/-
Concrete inputs used to show that hypotheses can be met.
-/
namespace Mofmt

/-! ### Examples used as witnesses -/

/-- A small correct file. -/
def exGood : Text := c!"model A\n  Real x;\nequation\n  x = 1;\nend A;\n"
/-- A file with a syntax error that the parser recovers from. -/
def exBad : Text := c!"model A\n  Real x\nend A;\n"
/-- A file with a syntax error marked by an `Error` production. -/
def exErrNode : Text := c!"foo A end A;"

/-- The tokens of a text (none if the lexer panics). -/
def toksOf (src : Text) : List Token :=
  match lex c!"f" src with
  | .ok l => l.tokens
  | _ => []

/-- The events of a text, if the parser returns. -/
def eventsOf (src : Text) (k : SK) : Option (List Event × List Text) :=
  match events c!"f" (toksOf src) k with
  | .ok r => some r
  | _ => none

end Mofmt
