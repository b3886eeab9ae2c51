import Verif.Proofs.FmtMap
import Verif.Props.Roundtrip
/-
What the output does not depend on: C14.
-/
namespace Mofmt

theorem keep_lined : Keep lined := ⟨fun _ => rfl, fun _ => rfl, fun _ => rfl, fun _ => rfl, fun _ => rfl⟩

/-- **C14** Two streams of tokens and comments that agree in order, kinds, texts and lines give the same
output (or the same panic), whatever the columns and byte offsets are. -/
theorem C14_streams (eol : Text) (toks toks' comments comments' : List Token) (evs : List Event)
    (ht : toks'.map lined = toks.map lined) (hc : comments'.map lined = comments.map lined) :
    prettyPrint eol toks' comments' evs = prettyPrint eol toks comments evs := by
  rw [← prettyPrint_map keep_lined eol toks', ← prettyPrint_map keep_lined eol toks, ht, hc]

/-- **C14** If a file is accepted, every file that differs only in the columns and byte offsets of its tokens
and comments is accepted and formatted to the same text. -/
theorem C14_horizontal (eol name src out : Text) (p : Parsed) (h : Formatted eol name src p out)
    (name' src' : Text) (l : Lexed) (hl : lex name' src' = .ok l) (he : l.errors = [])
    (ht : l.tokens.map lined = p.tokens.map lined) (hc : l.comments.map lined = p.comments.map lined) :
    ∃ p', Formatted eol name' src' p' out ∧ p'.tokens = l.tokens ∧ p'.comments = l.comments := by
  obtain ⟨l0, hl0, a1, a2, a3⟩ := parse_lex h.parsed h.accepted
  have hp := h.parsed
  simp only [parse, hl0, Res.bind_ok] at hp
  obtain ⟨⟨evs, errs⟩, h1, h2⟩ := Res.bind_eq_ok.1 hp
  simp only [Res.ok.injEq] at h2
  have hev : p.events = evs := by rw [← h2]
  have her : errs = [] := by
    have := h.accepted
    rw [← h2] at this
    exact (List.append_eq_nil_iff.mp this).2
  have hk : l0.tokens.map (·.kind) = l.tokens.map (·.kind) := by
    have := congrArg (List.map (·.kind)) ht
    simpa [List.map_map, Function.comp_def, lined, ← a1] using this.symm
  obtain ⟨errs', g1, g2⟩ := (C24_only_kinds name name' _ _ .StoredDefinition hk).1 _ _ h1
  have he' : errs' = [] := by
    rw [her] at g2; exact List.length_eq_zero_iff.mp g2
  obtain ⟨t, t1, t2⟩ := h.text
  refine ⟨⟨l.tokens, l.comments, evs, []⟩, ⟨?_, rfl, t, ?_, t2⟩, rfl, rfl⟩
  · simp only [parse, hl, Res.bind_ok, g1, he, he', List.append_nil]
  · rw [← t1, ← hev]
    exact C14_streams _ _ _ _ _ _ ht hc

/-- Two texts that differ in horizontal white space only. -/
def exWide : Text := c!"model   A  // a\n\tReal x=1;end A;"
def exTight : Text := c!"model A// a\nReal   x  =1; end  A ;  "

example : ∃ p out l, Formatted c!"\n" c!"f" exWide p out ∧ lex c!"g" exTight = .ok l ∧ l.errors = [] ∧
    exWide ≠ exTight ∧
    l.tokens.map lined = p.tokens.map lined ∧ l.comments.map lined = p.comments.map lined := by
  refine ⟨match parse c!"f" exWide .StoredDefinition with | .ok p => p | _ => ⟨[], [], [], []⟩,
    c!"model A // a\n\n  Real x = 1;\n\nend A;\n",
    match lex c!"g" exTight with | .ok l => l | _ => ⟨[], [], []⟩,
    ⟨by decide_cbv, by decide_cbv, c!"model A // a\n\n  Real x = 1;\n\nend A;", by decide_cbv, rfl⟩, ?_, ?_, ?_, ?_, ?_⟩
  all_goals decide_cbv

end Mofmt
