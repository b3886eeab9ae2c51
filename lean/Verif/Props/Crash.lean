import Verif.Proofs.Crash
import Verif.Props.Early
/-
C83: what the parser says when it gives up, and about which place.
-/
namespace Mofmt
open Via

theorem stuck_iff {name : Text} {toks : List Token} {entry : SK} {e : Text} (h : stuckText name toks entry = some e) :
    ∃ s, runC name toks Grammar.body (parseFuel toks.length) (.call entry) PState.init = .crash s .stuck ∧
      e = blowupText name toks s := by
  unfold stuckText at h
  split at h
  · rename_i s hs
    exact ⟨s, hs, (Option.some.inj h).symm⟩
  · cases h

theorem events_res (name : Text) (toks : List Token) (entry : SK) :
    events name toks entry = (runC name toks Grammar.body (parseFuel toks.length) (.call entry) PState.init).res.bind fun s =>
      .ok (s.evs.reverse, s.errors) := by
  rw [runC_res]; rfl

/-- **C83** The parser says that it is stuck exactly if it gives up in this way, and never otherwise. -/
theorem C83_says (name src : Text) (l : Lexed) (entry : SK) (hl : lex name src = .ok l) :
    (∃ e, stuckText name l.tokens entry = some e) ↔ parse name src entry = .panic .stuck := by
  have hp : parse name src entry = .panic .stuck ↔ events name l.tokens entry = .panic .stuck := by
    simp only [parse, hl, Res.bind_ok]
    cases events name l.tokens entry <;> simp [Res.bind]
  rw [hp, events_res, stuckText]
  cases h : runC name l.tokens Grammar.body (parseFuel l.tokens.length) (.call entry) PState.init with
  | ok s => simp [Stop.res, Res.bind]
  | fuel => simp [Stop.res, Res.bind]
  | crash s p => cases p <;> simp [Stop.res, Res.bind]

theorem blowup_token {name : Text} {toks : List Token} {s : PState} (h : s.pos ≤ toks.length) (hne : toks ≠ []) :
    ∃ i t, toks[i]? = some t ∧ blowupText name toks s = errorText name t.start c!"Parser stuck" ∧
      (s.pos = i ∨ s.pos = i + 1 ∧ s.pos = toks.length) := by
  unfold blowupText PState.eof
  by_cases hp : s.pos = toks.length
  · have hl : 0 < toks.length := List.length_pos_iff.2 hne
    refine ⟨toks.length - 1, toks[toks.length - 1], List.getElem?_eq_getElem _, ?_, .inr ⟨by omega, hp⟩⟩
    rw [if_pos (by simpa using hp), List.getLast?_eq_getElem?, List.getElem?_eq_getElem (by omega)]
  · refine ⟨s.pos, toks[s.pos]'(by omega), List.getElem?_eq_getElem _, ?_, .inl rfl⟩
    rw [if_neg (by simpa using hp), List.getElem?_eq_getElem (by omega)]

/-- **C83** What it says names the line and the column of a token of the file. -/
theorem C83_token (name src : Text) (l : Lexed) (entry : SK) (hl : lex name src = .ok l) (h : parse name src entry = .panic .stuck) :
    ∃ pre t post, l.tokens = pre ++ t :: post ∧ stuckText name l.tokens entry = some (errorText name t.start c!"Parser stuck") := by
  obtain ⟨e, h⟩ := (C83_says name src l entry hl).2 h
  rw [h]
  obtain ⟨s, hs, rfl⟩ := stuck_iff h
  have hi := runC_inside (name := name) (toks := l.tokens) Grammar.body (parseFuel l.tokens.length) (.call entry) PState.init (Nat.zero_le _)
  rw [hs] at hi
  obtain ⟨i, t, h1, h2, _⟩ := blowup_token (name := name) hi.1 (hi.2 rfl)
  obtain ⟨hlt, rfl⟩ := List.getElem?_eq_some_iff.1 h1
  exact ⟨l.tokens.take i, l.tokens[i], l.tokens.drop (i + 1), by simp, by rw [h2]⟩

/-- **C83** The parser does not give up early: if a file begins with the same kinds of tokens as a file on which the parser does
not panic (for instance an accepted file, of which it is an edited version), then it gives up at the last two of the common
tokens or behind them. -/
theorem C83_place (name name' src src' : Text) (l l' : Lexed) (entry : SK) (p' : Parsed) (common rest rest' : List Tok)
    (hl : lex name src = .ok l) (hl' : lex name' src' = .ok l') (hp' : parse name' src' entry = .ok p')
    (hk : l.tokens.map (·.kind) = common ++ rest) (hk' : l'.tokens.map (·.kind) = common ++ rest')
    (h : parse name src entry = .panic .stuck) :
    ∃ i t, l.tokens[i]? = some t ∧ common.length ≤ i + 2 ∧
      stuckText name l.tokens entry = some (errorText name t.start c!"Parser stuck") := by
  obtain ⟨e, h⟩ := (C83_says name src l entry hl).2 h
  rw [h]
  obtain ⟨s, hs, rfl⟩ := stuck_iff h
  have hi := runC_inside (name := name) (toks := l.tokens) Grammar.body (parseFuel l.tokens.length) (.call entry) PState.init (Nat.zero_le _)
  rw [hs] at hi
  obtain ⟨i, t, h1, h2, h3⟩ := blowup_token (name := name) hi.1 (hi.2 rfl)
  refine ⟨i, t, h1, ?_, by rw [h2]⟩
  have hlen := congrArg List.length hk
  have hlen' := congrArg List.length hk'
  simp only [List.length_map, List.length_append] at hlen hlen'
  have ha : Agree l.tokens l'.tokens common.length := by
    refine ⟨by omega, by omega, fun j hj => ?_⟩
    rw [← List.getElem?_map, ← List.getElem?_map, hk, hk', List.getElem?_append_left hj, List.getElem?_append_left hj]
  have hev : ∃ t', run name' l'.tokens Grammar.body (parseFuel l'.tokens.length) (.call entry) PState.init = .ok t' := by
    simp only [parse, hl', Res.bind_ok, Res.bind_eq_ok, events] at hp'
    obtain ⟨_, ⟨t', ht', _⟩, _⟩ := hp'
    exact ⟨t', ht'⟩
  obtain ⟨t', ht'⟩ := hev
  -- both with enough fuel
  let N := max (parseFuel l.tokens.length) (parseFuel l'.tokens.length)
  have r' : run name' l'.tokens Grammar.body N (.call entry) PState.init = .ok t' := by
    rw [run_mono_le (Nat.le_max_right ..) (by rw [ht']; simp), ht']
  have hsim := runC_sim (name := name) (name' := name') ha (parseFuel l.tokens.length) N (.call entry) (Nat.le_max_left ..) rfl
    (show SamePlace PState.init PState.init from ⟨rfl, rfl, rfl⟩)
  rw [hs] at hsim
  rcases hsim with hm | ⟨s', hs'⟩
  · rcases h3 with h3 | ⟨h3, h4⟩ <;> omega
  · rw [← runC_res, hs'] at r'
    cases r'

/-- what the parser says about a text when it gets stuck -/
def exStuck (src : Text) : Option Text :=
  match lex c!"f" src with
  | .ok l => stuckText c!"f" l.tokens .StoredDefinition
  | _ => none

set_option maxRecDepth 100000 in
/-- A parenthesis too much after five tokens of an accepted file: the parser gives up there. -/
theorem C83_case :
    messages c!"model A\n  Real x;\n  Real y;\nend A;\n" = some ([], []) ∧
    exStuck c!"model A\n  Real x;\n  ) Real y;\nend A;\n" = some c!"f:3:3: Parser stuck" ∧
    (toksOf c!"model A\n  Real x;\n  Real y;\nend A;\n").map (·.kind) =
      [.Model, .Identifier, .Identifier, .Identifier, .Semicolon] ++
      [.Identifier, .Identifier, .Semicolon, .End, .Identifier, .Semicolon] ∧
    (toksOf c!"model A\n  Real x;\n  ) Real y;\nend A;\n").map (·.kind) =
      [.Model, .Identifier, .Identifier, .Identifier, .Semicolon] ++
      [.RParen, .Identifier, .Identifier, .Semicolon, .End, .Identifier, .Semicolon] := by
  decide +kernel

set_option maxRecDepth 100000 in
/-- The place can be far behind the first fault: the equation in line 3 has no right hand side, but the parser only speaks of
line 5.  With line 5 left out it speaks of line 3. -/
theorem C83_late :
    exStuck c!"model A\nequation\n  x = ;\n  y = 1;\n)\nend A;\n" = some c!"f:5:1: Parser stuck" ∧
    messages c!"model A\nequation\n  x = ;\n  y = 1;\nend A;\n" = some ([], [c!"f:3:7: expected IDENTIFIER, found ';'"]) := by
  decide +kernel

end Mofmt
