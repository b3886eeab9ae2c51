import Verif.Model.FormatterBodies
/-
The printer and the library entry points.
Sources: /repo/src/formatter/printing.rs, /repo/src/lib.rs
-/
namespace Mofmt

/-- printing.rs:40, the indentation of a line: two spaces per level -/
def indentText : Nat → Text
  | 0 => []
  | n + 1 => ' ' :: ' ' :: indentText n

/-- printing.rs:3-10, 21-44 `print` and `print_marker`: the text for the markers, `n` being
`self.indent`. `eol` is the constant `EOL` (printing.rs:23), `"\r\n"` on Windows and `"\n"` else. -/
def printMarks (eol : Text) : List Marker → Nat → Res Text
  | [], _ => .ok []
  | .space :: ms, n => (printMarks eol ms n).bind fun t => .ok (' ' :: t)
  | .indent :: ms, n => printMarks eol ms (n + 1)
  | .dedent :: ms, n => if n = 0 then .panic .underflow else printMarks eol ms (n - 1)
  | .token x :: ms, n => (printMarks eol ms n).bind fun t => .ok (x.text ++ t)
  | .break :: ms, n => (printMarks eol ms n).bind fun t => .ok (eol ++ indentText n ++ t)
  | .blank :: ms, n => (printMarks eol ms n).bind fun t => .ok (eol ++ eol ++ indentText n ++ t)

/-- lib.rs:9-13 `pretty_print` -/
def prettyPrint (eol : Text) (toks comments : List Token) (evs : List Event) : Res Text :=
  (buildTree toks evs).bind fun tree =>
    (format tree comments).bind fun marks => printMarks eol marks 0

end Mofmt
