import Verif.Proofs.Early
/-
C56: errors are not reported early.
-/
namespace Mofmt
open Via

theorem parse_inv {name src : Text} {l : Lexed} {p : Parsed} {k : SK} (hl : lex name src = .ok l) (hp : parse name src k = .ok p) :
    ∃ evs errs, events name l.tokens k = .ok (evs, errs) ∧ p.errors = l.errors ++ errs := by
  unfold parse at hp
  rw [hl, Res.bind_ok, Res.bind_eq_ok] at hp
  obtain ⟨⟨evs, errs⟩, h1, h2⟩ := hp
  simp only [Res.ok.injEq] at h2
  exact ⟨evs, errs, h1, by rw [← h2]⟩

/-- **C56** If a file begins with the same kinds of tokens as an accepted file, then no message of the parser
about it names a place before the last of these tokens.  In other words: after an edit of an accepted file all
messages name the token before the edit or something behind it. -/
theorem C56_not_early (name name' src src' : Text) (l l' : Lexed) (p p' : Parsed) (common rest rest' : List Tok)
    (hl : lex name src = .ok l) (he : l.errors = []) (hp : parse name src .StoredDefinition = .ok p)
    (hl' : lex name' src' = .ok l') (hp' : parse name' src' .StoredDefinition = .ok p') (hok : p'.errors = [])
    (h : l.tokens.map (·.kind) = common ++ rest) (h' : l'.tokens.map (·.kind) = common ++ rest') :
    ∀ e ∈ p.errors, ∃ i t msg, l.tokens[i]? = some t ∧ common.length ≤ i + 1 ∧ e = errorText name t.start msg := by
  obtain ⟨evs, errs, h1, h2⟩ := parse_inv hl hp
  obtain ⟨evs', errs', h3, h4⟩ := parse_inv hl' hp'
  rw [hok] at h4
  obtain ⟨_, rfl⟩ := List.append_eq_nil_iff.mp h4.symm
  rw [he, List.nil_append] at h2
  have hlen := congrArg List.length h
  have hlen' := congrArg List.length h'
  simp only [List.length_map, List.length_append] at hlen hlen'
  have ha : Agree l.tokens l'.tokens common.length := by
    refine ⟨by omega, by omega, fun j hj => ?_⟩
    have e1 := congrArg (·[j]?) h
    have e2 := congrArg (·[j]?) h'
    simp only [List.getElem?_map, List.getElem?_append_left hj] at e1 e2
    rw [e1, e2]
  intro e hmem
  rw [h2] at hmem
  obtain ⟨q, q1, t, msg, ht, e1, _⟩ := events_agree ha h1 h3 e hmem
  rcases ht with ht | ⟨_, ht⟩
  · exact ⟨q, t, msg, ht, q1, e1⟩
  · refine ⟨l.tokens.length - 1, t, msg, ?_, by omega, e1⟩
    rw [← List.getLast?_eq_getElem?]
    exact ht

/-- an accepted file and the same after an edit -/
def exBefore : Text := c!"model A\n  import B.C;\nend A;\n"
def exAfter : Text := c!"model A\n  import B.;\nend A;\n"

/-- The five tokens up to the dot are common.  The message names the dot, the last of them: it is one token
early, so the bound cannot be improved. -/
theorem C56_not_early_ex :
    messages exBefore = some ([], []) ∧
    messages exAfter = some ([], [c!"f:2:11: unexpected token '';'' after '.'. Expected identifier or '{'"]) ∧
    (toksOf exBefore).map (·.kind) = [.Model, .Identifier, .Import, .Identifier, .Dot] ++ [.Identifier, .Semicolon, .End, .Identifier, .Semicolon] ∧
    (toksOf exAfter).map (·.kind) = [.Model, .Identifier, .Import, .Identifier, .Dot] ++ [.Semicolon, .End, .Identifier, .Semicolon] ∧
    (toksOf exAfter)[4]?.map (·.start) = some ⟨18, 2, 11⟩ := by
  decide +kernel

end Mofmt
