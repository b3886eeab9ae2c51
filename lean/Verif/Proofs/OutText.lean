import Verif.Proofs.Groups
/-
The formatted text of an accepted file, token by token.
-/
namespace Mofmt
open Lexical

/-- the text of white space -/
def wtext (eol : Text) : Option Piece → Text
  | none => []
  | some p => p.text eol

def PGroup.toGroup (eol : Text) (g : PGroup) : Group :=
  ⟨g.comments.map fun s => (wtext eol s.1, s.2), wtext eol g.white, g.tok⟩

theorem indentText_eq (n : Nat) : indentText n = blanks (2 * n) := by
  induction n with
  | zero => rfl
  | succ n ih =>
    rw [indentText, ih]
    show _ = List.replicate (2 * n + 1 + 1) ' '
    rw [List.replicate_succ, List.replicate_succ]; rfl

theorem piecesText_toList (eol : Text) (w : Option Piece) : piecesText eol w.toList = wtext eol w := by
  cases w <;> simp [piecesText, wtext]

theorem segs_text (eol : Text) (l : List Seg) :
    piecesText eol (l.flatMap Seg.pieces) = lexemesText (l.map fun s => (wtext eol s.1, s.2)) := by
  induction l with
  | nil => rfl
  | cons s l ih =>
    simp only [List.flatMap_cons, piecesText_append, ih, Seg.pieces, piecesText_toList]
    simp [lexemesText, piecesText, Piece.text]

theorem lexemesText_append (a b : List (Text × Token)) : lexemesText (a ++ b) = lexemesText a ++ lexemesText b := by
  simp [lexemesText]

theorem groups_text (eol : Text) (gs : List PGroup) :
    piecesText eol (gs.flatMap PGroup.pieces) = groupsText (gs.map (PGroup.toGroup eol)) := by
  induction gs with
  | nil => rfl
  | cons g gs ih =>
    simp only [List.flatMap_cons, piecesText_append, ih, PGroup.pieces, segs_text, piecesText_toList]
    simp [groupsText, groupLexemes, Group.lexemes, PGroup.toGroup, lexemesText_append, piecesText, Piece.text]
    simp [lexemesText]

/-- The lexemes of an accepted file. -/
theorem parse_lex {name src : Text} {p : Parsed} (h : parse name src .StoredDefinition = .ok p)
    (he : p.errors = []) : ∃ l, lex name src = .ok l ∧ l.tokens = p.tokens ∧ l.comments = p.comments ∧
      l.errors = [] := by
  obtain ⟨l, hl, h⟩ := Res.bind_eq_ok.1 h
  obtain ⟨x, _, h⟩ := Res.bind_eq_ok.1 h
  simp only [Res.ok.injEq] at h
  subst h
  exact ⟨l, hl, rfl, rfl, (List.append_eq_nil_iff.mp he).1⟩

theorem parse_idx_ne {name src : Text} {p : Parsed} (h : parse name src .StoredDefinition = .ok p)
    (he : p.errors = []) : ∀ t ∈ p.tokens, ∀ c ∈ p.comments, c.idx ≠ t.idx := by
  obtain ⟨l, hl, h1, h2, _⟩ := parse_lex h he
  obtain ⟨all, a1, a2, a3, _⟩ := lexed_order hl
  intro t ht c hc
  rw [← h1, a1, List.mem_filter] at ht
  rw [← h2, a2, List.mem_filter] at hc
  rcases pairwise_two a3 hc.1 ht.1 with h | h | h
  · subst h; simp [hc.2] at ht
  · have := h.1; omega
  · have := h.1; omega

/-- The formatted text of an accepted file, token by token. -/
theorem accepted_groups {name src : Text} {p : Parsed} (h : parse name src .StoredDefinition = .ok p)
    (he : p.errors = []) :
    ∃ cs ds gs, buildTree p.tokens p.events = .ok (.node .StoredDefinition cs) ∧
      leavesF cs = p.tokens ∧ (Tree.node .StoredDefinition cs).Conforms ∧
      ds.map (·.2) = p.tokens ∧ gs.map (·.tok) = p.tokens ∧ GroupsOK fullTabs.ok p.comments none ds gs ∧
      StOK fullTabs.entry (startsF cs) ds ∧ (ds = [] ∨ lastKind .EOF ds = .Semicolon) ∧
      ∀ eol, prettyPrint eol p.tokens p.comments p.events = .ok (groupsText (gs.map (PGroup.toGroup eol))) := by
  obtain ⟨cs, ds, h1, h2, h3, h4, h5, h6, h7, h8, h9⟩ := accepted_layout h he
  refine ⟨cs, ds, (LS.init p.comments).groups ds, h1, h2, h3, h5, by rw [LS.groups_tok, h5], ?_, h7, h8, ?_⟩
  · refine groups_ok ds _ _ (After.init _) (h5 ▸ h4) h6 ?_
    intro x hx
    have : x.2 ∈ p.tokens := h5 ▸ List.mem_map_of_mem hx
    exact ⟨Nat.zero_le _, fun c hc => parse_idx_ne h he _ this c hc⟩
  · intro eol
    rw [h9, LS.run_out, ← groups_text]
    rfl

end Mofmt
