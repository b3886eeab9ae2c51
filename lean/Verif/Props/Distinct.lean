import Verif.Props.Kept
import Verif.Props.Local
/-
C88: different programs have different outputs.
-/
namespace Mofmt
open Lexical

/-- **C88** (part) If two accepted files, in which line comments end their lines, have the same output (whatever the line ends), they are
the same program: they have the same tokens, the same syntax tree up to the places of the tokens, and the same printed comments.
Missing: line comments that end with a carriage return without line feed, for which it is false. -/
theorem C88_same_code_partial (eol name src out eol' name' src' : Text) (p p' : Parsed) (h : Formatted eol name src p out)
    (h' : Formatted eol' name' src' p' out) (he : IsEol eol) (he' : IsEol eol') (hL : LineCommentsEnd p.comments)
    (hL' : LineCommentsEnd p'.comments) :
    p.tokens.map kindText = p'.tokens.map kindText ∧
    (∃ t t', buildTree p.tokens p.events = .ok t ∧ buildTree p'.tokens p'.events = .ok t' ∧ t.map bare = t'.map bare) ∧
    ∃ q, parse [] out .StoredDefinition = .ok q ∧
      (p.comments.filter (keptIn 1 (p.tokens.zip q.tokens))).map kindText =
        (p'.comments.filter (keptIn 1 (p'.tokens.zip q.tokens))).map kindText := by
  obtain ⟨q, a1, a2, a3⟩ := C06_exact_partial eol name src out [] p h he hL
  obtain ⟨q', b1, b2, b3⟩ := C06_exact_partial eol' name' src' out [] p' h' he' hL'
  rw [a1] at b1
  cases b1
  obtain ⟨r, c1, _, _, t, s, c2, c3, c4⟩ := C02_same_tree_partial eol name src out [] p h he hL
  obtain ⟨r', d1, _, _, t', s', d2, d3, d4⟩ := C02_same_tree_partial eol' name' src' out [] p' h' he' hL'
  rw [a1] at c1 d1
  cases c1
  cases d1
  rw [c3] at d3
  cases d3
  exact ⟨by rw [← a2, b2], ⟨t, t', c2, d2, by rw [← c4, d4]⟩, q, a1, by rw [← a3, b3]⟩

def exHidden : Text := c!"model A // a\r/* b\n\n  Real x; // */\nend A;"
def exShown : Text := c!"model A // a /* b\n\n  Real x; // */\n\nend A;\n"

set_option maxRecDepth 100000 in
/-- **C88 is false** of the code: a class without elements and a class with one element have the same output.  In the first one the
element is part of a comment behind a line comment that ends with a carriage return. -/
theorem C88_false : ∃ p p', Formatted c!"\n" c!"f" exHidden p exShown ∧ Formatted c!"\n" c!"f" exShown p' exShown ∧
    p.tokens.length = 5 ∧ p'.tokens.length = 8 :=
  ⟨exEditP exHidden, exEditP exShown, ⟨by decide_cbv, by decide_cbv, exShown.dropLast, by decide_cbv, by decide⟩,
    ⟨by decide_cbv, by decide_cbv, exShown.dropLast, by decide_cbv, by decide⟩, by decide_cbv, by decide_cbv⟩

def exSpaced : Text := c!"model A // a /* b\n\n\nReal x   ; // */\nend A;"

set_option maxRecDepth 100000 in
/-- The hypotheses of `C88_same_code_partial` hold of two different texts. -/
theorem C88_case : ∃ p p', Formatted c!"\n" c!"f" exSpaced p exShown ∧ Formatted c!"\n" c!"f" exShown p' exShown ∧
    LineCommentsEnd p.comments ∧ LineCommentsEnd p'.comments ∧ exSpaced ≠ exShown := by
  have f1 : Formatted c!"\n" c!"f" exSpaced (exEditP exSpaced) exShown :=
    ⟨by decide_cbv, by decide_cbv, exShown.dropLast, by decide_cbv, by decide⟩
  have f2 : Formatted c!"\n" c!"f" exShown (exEditP exShown) exShown :=
    ⟨by decide_cbv, by decide_cbv, exShown.dropLast, by decide_cbv, by decide⟩
  have nocr : ∀ s : Text, s.all (· != '\r') = true → NoLoneCr s := by
    intro s hs a b e
    subst e
    simp at hs
  exact ⟨_, _, f1, f2, C01_no_lone_cr _ _ _ f1.parsed f1.accepted (nocr _ (by decide)),
    C01_no_lone_cr _ _ _ f2.parsed f2.accepted (nocr _ (by decide)), by decide⟩

end Mofmt
