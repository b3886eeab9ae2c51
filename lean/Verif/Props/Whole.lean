import Verif.Proofs.GapRun
import Verif.Props.Indent
/-
C47: the whole output, as a function of the syntax tree and the comments.
-/
namespace Mofmt

theorem traced_layout {cs : List Tree} (hC : Tree.Conforms (.node .StoredDefinition cs)) (hE : Tree.hasEmpty (.node .StoredDefinition cs) = false)
    {w : Bool} {es : List TEv} {n : Nat} {ds : List (Dec × Token)}
    (hrun : subOf (.node .StoredDefinition cs) .StoredDefinition {} none = .ok (w, es))
    (hw : Walk ⟨.EOF, .none, 0, leavesF cs⟩ es ds ⟨.Semicolon, .none, n, []⟩) :
    ds = (Tree.node .StoredDefinition cs).wholeLayout :=
  (layoutOK _ hC hE .StoredDefinition {} none w es _ ds _ rfl (by decide) hrun hw).1

/-- **C47** The output is the text that the layout tables of the specification give. -/
theorem C47_layout (eol name src out : Text) (p : Parsed) (h : Formatted eol name src p out) :
    ∃ tree, buildTree p.tokens p.events = .ok tree ∧ out = tree.wholeText eol p.comments := by
  obtain ⟨ds, cs, h1, h2, h3, h4⟩ := h.traced
  refine ⟨_, h3, ?_⟩
  have hds : ds = (Tree.node .StoredDefinition cs).wholeLayout := by
    rcases h4 with ⟨rfl, rfl⟩ | ⟨hC, hE, w, es, n, hrun, hw⟩
    · rfl
    · exact traced_layout hC hE hrun hw
  rw [h1, Tree.wholeText, ← hds, LS.run_out]
  have : (LS.init p.comments).out.reverse = [] := rfl
  rw [this, List.nil_append, groups_text]
  rfl

/-- **C47** Every accepted file is formatted, and the text is the one of the tables. -/
theorem C47_total (eol name src : Text) (p : Parsed) (hp : parse name src .StoredDefinition = .ok p) (he : p.errors = []) :
    ∃ tree out, buildTree p.tokens p.events = .ok tree ∧ Formatted eol name src p out ∧ out = tree.wholeText eol p.comments := by
  obtain ⟨out, h⟩ := C03_formatted eol name src p hp he
  obtain ⟨tree, h1, h2⟩ := C47_layout eol name src out p h
  exact ⟨tree, out, h1, h, h2⟩

def exWhole : Text := c!"model A Real x=f(1,\n2)\"d\";equation a=b\n+c; // e\nend A;"

set_option maxRecDepth 100000 in
/-- An accepted file with a list on two lines, a description, a wrapped expression and a comment, and the text that the
tables give. -/
theorem C47_case : ∃ p tree, parse c!"f" exWhole .StoredDefinition = .ok p ∧ p.errors = [] ∧
    buildTree p.tokens p.events = .ok tree ∧ tree.wholeText c!"\n" p.comments =
      c!"model A\n\n  Real x = f(\n    1,\n    2)\n    \"d\";\n\nequation\n\n  a = b\n    + c; // e\n\nend A;\n" := by
  have h : (pipeline c!"f" exWhole).any (fun x => x.1.errors.isEmpty && decide (x.2.1.wholeText c!"\n" x.1.comments =
      c!"model A\n\n  Real x = f(\n    1,\n    2)\n    \"d\";\n\nequation\n\n  a = b\n    + c; // e\n\nend A;\n")) = true := by decide_cbv
  obtain ⟨⟨p, t, m⟩, hx, h⟩ := pipeline_any h
  obtain ⟨h1, h2, h3⟩ := pipeline_eq hx
  simp only [Bool.and_eq_true, List.isEmpty_iff, decide_eq_true_eq] at h
  exact ⟨p, t, h1, h.1, h2, h.2⟩

#print axioms C47_layout
#print axioms C47_total
#print axioms C47_case

end Mofmt
