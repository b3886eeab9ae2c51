import Verif.Props.Parser
import Verif.Proofs.Conform
/-
C25: accepted files conform to the grammar.
-/
namespace Mofmt

/-- The tree of an accepted file, with everything known about it. -/
theorem accepted_tree {name src : Text} {p : Parsed}
    (h : parse name src .StoredDefinition = .ok p) (he : p.errors = []) :
    ∃ cs, buildTree p.tokens p.events = .ok (.node .StoredDefinition cs) ∧ leavesF cs = p.tokens ∧
      hasEmptyF cs = false ∧ (Tree.node .StoredDefinition cs).Conforms := by
  unfold parse at h
  rw [Res.bind_eq_ok] at h
  obtain ⟨l, _, h5⟩ := h
  rw [Res.bind_eq_ok] at h5
  obtain ⟨⟨evs, errs⟩, h6, h7⟩ := h5
  simp at h7; subst h7
  simp at he
  obtain ⟨_, rfl⟩ := he
  obtain ⟨cs, h8, h9, h10⟩ := events_conform h6
  refine ⟨pruneF cs, ?_, ?_, hasEmpty_pruneF cs, h10⟩
  · simp only [h8, h9]; exact buildTree_evs _ _
  · simp only [h9, leaves_pruneF]

mutual
theorem conforms_noError (t : Tree) (h : t.Conforms) : t.hasError = false := by
  match t with
  | .tok _ => rfl
  | .node k cs =>
    simp only [Tree.Conforms] at h
    have h2 := conformsF_noError cs h.2
    simp only [Tree.hasError, h2, Bool.or_false, beq_eq_false_iff_ne]
    rintro rfl
    exact lang_none h.1
theorem conformsF_noError (F : List Tree) (h : ConformsF F) : hasErrorF F = false := by
  match F with
  | [] => rfl
  | t :: ts =>
    simp only [ConformsF] at h
    simp [hasErrorF, conforms_noError t h.1, conformsF_noError ts h.2]
end

/-- **C25** If parsing a source text as a stored definition reports no error, the tree built from the
events is a `StoredDefinition` over exactly the tokens of the file, every production in it has the children
that the grammar of Modelica (`Gram.spec`) allows for it, and no `Error` production occurs. -/
theorem C25_accepted_conforms (name src : Text) (p : Parsed)
    (h : parse name src .StoredDefinition = .ok p) (he : p.errors = []) :
    ∃ cs, buildTree p.tokens p.events = .ok (.node .StoredDefinition cs) ∧ leavesF cs = p.tokens ∧
      (Tree.node .StoredDefinition cs).Conforms ∧ hasErrorF cs = false := by
  obtain ⟨cs, h1, h2, _, h4⟩ := accepted_tree h he
  exact ⟨cs, h1, h2, h4, by
    simp only [Tree.Conforms] at h4
    exact conformsF_noError cs h4.2⟩

/-- A file that is accepted without errors. -/
example : (match parse c!"f" exGood .StoredDefinition with
    | .ok p => p.errors.isEmpty && decide (p.tokens.length > 10)
    | _ => false) = true := by decide +kernel

/-- The grammar is not trivially permissive: a class without name, an `if` expression without `else`, a
sum without second operand, an `end` with a trailing token, a list with a trailing comma and an `Error`
production are not allowed. -/
example : ¬ Lang (Gram.spec .LongClassSpecifier) [.n .Composition, .t .End, .t .Identifier] ∧
    ¬ Lang (Gram.spec .Expression) [.t .If, .n .Expression, .t .Then, .n .Expression] ∧
    ¬ Lang (Gram.spec .ArithmeticExpression) [.n .Term, .n .AddOperator] ∧
    ¬ Lang (Gram.spec .IfEquation) [.t .If, .n .Expression, .t .Then, .t .End, .t .If, .t .Semicolon] ∧
    ¬ Lang (Gram.spec .ComponentList) [.n .ComponentDeclaration, .t .Comma] ∧
    ¬ Lang (Gram.spec .StoredDefinition) [.n .Error] := by
  simp only [← nullable_iff, ← der_iff]
  decide

/-- ... while the intended sequences are. -/
example : Lang (Gram.spec .LongClassSpecifier) [.t .Identifier, .n .Composition, .t .End, .t .Identifier] ∧
    Lang (Gram.spec .Expression) [.t .If, .n .Expression, .t .Then, .n .Expression, .t .Else, .n .Expression] ∧
    Lang (Gram.spec .ArithmeticExpression) [.n .AddOperator, .n .Term, .n .AddOperator, .n .Term] := by
  simp only [← nullable_iff, ← der_iff]
  decide

#print axioms C25_accepted_conforms

end Mofmt
