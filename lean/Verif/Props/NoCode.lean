import Verif.Props.Viable
import Verif.Props.Cli
import Verif.Props.Layout
import Verif.Props.Bare
/-
C94: files without code.
-/
namespace Mofmt
open Lexical

namespace NoCode

theorem print_nothing (eol : Text) (cs : List Token) :
    prettyPrint eol [] cs [.enter .StoredDefinition, .exit] = .ok [] := rfl

theorem events_nothing (name : Text) :
    events name [] .StoredDefinition = .ok ([.enter .StoredDefinition, .exit], []) := by
  have h : events c!"f" [] .StoredDefinition = .ok ([.enter .StoredDefinition, .exit], []) := by decide +kernel
  obtain ⟨es, h1, h2⟩ := (C24_only_kinds c!"f" name [] [] .StoredDefinition rfl).1 _ _ h
  rw [List.length_nil, List.length_eq_zero_iff] at h2
  rw [h1, h2]

/-- The piece is a comment that can be read. -/
def IsRemark : Chunk → Prop
  | .token k t => k = .BlockComment ∨ k = .LineComment ∧ endsAscii t = true
  | _ => False

theorem remark_comments : ∀ (ps : List (Text × Chunk)) (pre : Text) (i : Nat), (∀ x ∈ ps, IsRemark x.2) →
    (lexemes pre i ps).filter (fun t => !isComment t) = [] ∧
    ((lexemes pre i ps).filter isComment).map (·.text) = ps.map (·.2.text)
  | [], _, _, _ => ⟨rfl, rfl⟩
  | (w, .token k t) :: ps, pre, i, h => by
    obtain ⟨a, b⟩ := remark_comments ps (pre ++ w ++ t) (i + 1) (fun x hx => h x (List.mem_cons_of_mem _ hx))
    have hk : k = .LineComment ∨ k = .BlockComment := (h _ List.mem_cons_self).elim .inr fun x => .inl x.1
    have hc : isComment ⟨i, t, k, position (pre ++ w), position (pre ++ w ++ t)⟩ = true := by simpa [isComment] using hk
    simp only [lexemes]
    rw [List.filter_cons_of_neg (by rw [hc]; simp), List.filter_cons_of_pos hc, a, List.map_cons, b]
    exact ⟨rfl, rfl⟩
  | (_, .stray _) :: _, _, _, h | (_, .broken _ _) :: _, _, _, h | (_, .openString _) :: _, _, _, h
  | (_, .openQuoted _) :: _, _, _, h | (_, .openComment _) :: _, _, _, h => (h _ List.mem_cons_self).elim

theorem remark_problem {c : Chunk} (h : IsRemark c) : c.problem = none := by
  cases c with
  | token k t => rfl
  | _ => exact h.elim

theorem remark_ascii {src : Text} {ps : List (Text × Chunk)} (h : Divided src ps) (hr : ∀ x ∈ ps, IsRemark x.2) :
    awkward false ps = false := by
  induction h with
  | done => rfl
  | @next w r p ps hw hp _ ih =>
    have ih := ih (fun x hx => hr x (List.mem_cons_of_mem _ hx))
    have h0 := hr _ List.mem_cons_self
    cases p with
    | token k t =>
      have : endsAscii t = true := by
        rcases h0 with h0 | h0
        · exact C53_ascii k t hp.1 (by rw [h0]; simp)
        · exact h0.2
      simp [awkward, ih, this]
    | _ => exact h0.elim

end NoCode
open NoCode Via

/-- **C94 is false**, of every such file: a file that consists of white space and comments only is accepted, and it
is replaced by a single line end, whatever the comments say. -/
theorem C94_emptied (eol name src : Text) (ps : List (Text × Chunk)) (h : Divided src ps)
    (hr : ∀ x ∈ ps, IsRemark x.2) :
    ∃ p, Formatted eol name src p eol ∧ p.tokens = [] ∧ p.comments.map (·.text) = ps.map (·.2.text) := by
  obtain ⟨a, b⟩ := remark_comments ps [] 0 hr
  have hl := C53_lexed name src ps h
  rw [remark_ascii h hr, if_neg (by simp), a, (problems_nil name ps []).2 fun x hx => remark_problem (hr x hx)] at hl
  refine ⟨⟨[], _, [.enter .StoredDefinition, .exit], []⟩, ⟨?_, rfl, [], print_nothing eol _, rfl⟩, rfl, b⟩
  simp only [parse, hl, Res.bind_ok, events_nothing, List.append_nil]

/-- **C94, what holds**: nothing is lost of a file of white space only, which becomes a single line end. -/
theorem C94_white_partial (eol name src : Text) (h : src.all ws = true) :
    ∃ p, Formatted eol name src p eol ∧ p.tokens = [] ∧ p.comments = [] := by
  obtain ⟨p, h1, h2, h3⟩ := C94_emptied eol name src [] (.done h) (by simp)
  exact ⟨p, h1, h2, by simpa using h3⟩

/-- **C94** No other file is emptied: if only white space is left of an accepted file, then it had no code. -/
theorem C94_only (eol name src out : Text) (p : Parsed) (h : Formatted eol name src p out) (hw : out.all ws = true) :
    p.tokens = [] := by
  apply Classical.byContradiction
  intro hn
  obtain ⟨t, text, _, _, h3, h4⟩ := (C35_end_of_file eol name src out p h).2 hn
  rw [h4, h3] at hw
  simp [ws] at hw

/-- A file with a licence only, and what a run makes of it. -/
theorem C94_case :
    (∃ ps, Divided c!"// Licence\n/* of this\nlibrary */\n" ps ∧ ps.length = 2 ∧ ∀ x ∈ ps, IsRemark x.2) ∧
    (main exWorld [c!"a.mo"] (fun _ => some (encode c!"// Licence\n/* of this\nlibrary */\n"))).2 = .exit 0 ∧
    (main exWorld [c!"a.mo"] (fun _ => some (encode c!"// Licence\n/* of this\nlibrary */\n"))).1.disk 0 =
      some (encode c!"\n") := by
  refine ⟨⟨[([], .token .LineComment c!"// Licence"), (c!"\n", .token .BlockComment c!"/* of this\nlibrary */")],
    ?_, rfl, ?_⟩, by decide_cbv, by decide_cbv⟩
  · refine divided_token (w := []) (r := c!"\n/* of this\nlibrary */\n") (k := .LineComment) (c := '/')
      (t := c!"/ Licence") rfl (by decide +kernel) ?_
    refine divided_token (w := c!"\n") (r := c!"\n") (k := .BlockComment) (c := '/')
      (t := c!"* of this\nlibrary */") rfl (by decide +kernel) ?_
    exact .done (by decide)
  · intro x hx
    simp only [List.mem_cons, List.not_mem_nil, or_false] at hx
    rcases hx with rfl | rfl
    · exact .inr ⟨rfl, by decide⟩
    · exact .inl rfl

end Mofmt
