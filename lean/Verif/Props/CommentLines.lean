import Verif.Props.Breaks
import Verif.Props.Layout
/-
C86: comments stay at the end of the line of code behind which they stand, or on lines of their own.
-/
namespace Mofmt
open Lexical

/-- What is printed between the token `prev` (if any) and the next token, if `C` are the comments of the source.

Either the two stand on one line, and there is no comment between them; or the second one begins a line, indented by some level.
Then all comments of the source between the two tokens are there.  First those that begin on the line on which `prev` ends in the
source: each of them is printed behind `prev` on its line, with one blank before it (with none at the beginning of the output).
Then the others: each of them begins a line, which is indented like the line of the token behind them. -/
def CommentsPut (eol : Text) (C : List Token) (prev : Option Token) (g : Group) : Prop :=
  (g.comments = [] ∧ SameLine g.white) ∨
  (g.comments.map (·.2) = commentsFrom (indexAfter prev) g.tok.idx C ∧
    ∃ n inl own, g.comments = inl ++ own ∧
      (∀ x ∈ inl, x.2.start.line = lineAtEnd prev ∧
        (x.1 = [' '] ∨ x.1 = [] ∧ prev = none ∧ g.comments.head? = some x)) ∧
      (∀ x ∈ own, x.2.start.line ≠ lineAtEnd prev ∧ ∃ empty, x.1 = lineStart eol n empty) ∧
      ∃ empty, g.white = lineStart eol n empty)

theorem OwnLines.starts {eol : Text} {n : Nat} : ∀ {l : List (Text × Token)} {line : Nat}, OwnLines eol n line l →
    ∀ x ∈ l, ∃ empty, x.1 = lineStart eol n empty
  | [], _, _ => by simp
  | y :: l, _, h => by
    intro x hx
    rcases List.mem_cons.1 hx with rfl | hx
    · exact ⟨_, h.1⟩
    · exact OwnLines.starts h.2 x hx

/-- the lines of a token that begins a line -/
theorem Breaks.parts {eol : Text} {b : Blank} {n : Nat} {prev : Option Token} {g : Group} (h : Breaks eol b n prev g) :
    ∃ inl own, g.comments = inl ++ own ∧ (∀ x ∈ inl, x.2.start.line = lineAtEnd prev ∧ SameLine x.1) ∧
      (∀ x ∈ own, x.2.start.line ≠ lineAtEnd prev ∧ ∃ empty, x.1 = lineStart eol n empty) ∧
      ∃ empty, g.white = lineStart eol n empty := by
  obtain ⟨inl, own, h1, h2, h3, h4⟩ := h
  have key : (∀ x ∈ own, ∃ empty, x.1 = lineStart eol n empty) ∧ ∃ empty, g.white = lineStart eol n empty := by
    have all : (∀ x ∈ own ++ [(g.white, g.tok)], ∃ empty, x.1 = lineStart eol n empty) →
        (∀ x ∈ own, ∃ empty, x.1 = lineStart eol n empty) ∧ ∃ empty, g.white = lineStart eol n empty :=
      fun a => ⟨fun x hx => a x (List.mem_append_left _ hx), a (g.white, g.tok) (by simp)⟩
    cases b with
    | Legal => exact all h4.starts
    | Required =>
      simp only at h4
      generalize own ++ [(g.white, g.tok)] = l at h4 all
      cases l with
      | nil => exact h4.elim
      | cons y l =>
        refine all fun x hx => ?_
        rcases List.mem_cons.1 hx with rfl | hx
        · exact ⟨_, h4.1⟩
        · exact h4.2.starts x hx
    | Illegal => exact ⟨h4.1.starts, _, h4.2⟩
  exact ⟨inl, own, h1, h2, fun x hx => ⟨h3 x hx, key.1 x hx⟩, key.2⟩

theorem comments_put {eol : Text} {C : List Token} (he : IsEol eol) :
    ∀ (ds : List (Dec × Token)) (L : LS) (prev : Option Token), After C prev L → WF L (ds.map (·.2)) →
    (∀ x ∈ ds, indexAfter prev ≤ x.2.idx ∧ ∀ c ∈ C, c.idx ≠ x.2.idx) →
    EachGroup (CommentsPut eol C) prev ((L.groups ds).map (PGroup.toGroup eol))
  | [], _, _, _, _, _ => trivial
  | (d, t) :: ds, L, prev, hA, hw, hC => by
    simp only [List.map_cons] at hw
    have htok : ((L.group (d, t)).toGroup eol).tok = t := by cases d <;> rfl
    refine ⟨?_, ?_⟩
    · cases d with
      | none => exact .inl ⟨rfl, .inl rfl⟩
      | space => exact .inl ⟨rfl, .inr rfl⟩
      | brk b n =>
        have hc : ((L.group (.brk b n, t)).toGroup eol).comments.map (·.2) = commentsFrom (indexAfter prev) t.idx C := by
          rw [← hA.taken hw]
          have := breakSegs_snd hw L.out.isEmpty b n
          simpa [PGroup.toGroup, Function.comp_def, LS.group] using this
        obtain ⟨inl, own, h1, h2, h3, h4⟩ := (LS.group_breaks eol L prev hA.line b n t).parts
        refine .inr ⟨by rw [htok, hc], n, inl, own, h1, fun x hx => ⟨(h2 x hx).1, ?_⟩, h3, h4⟩
        rcases (h2 x hx).2 with hs | hs
        · refine .inr ⟨hs, ?_⟩
          have hm : x ∈ ((L.group (.brk b n, t)).toGroup eol).comments := by rw [h1]; exact List.mem_append_left _ hx
          simp only [PGroup.toGroup, LS.group] at hm
          obtain ⟨s, hs1, rfl⟩ := List.mem_map.1 hm
          obtain ⟨_, k⟩ := breakSegs_mem _ _ _ _ _ _ s hs1
          rcases k with k | ⟨_, k | ⟨_, k1, k2⟩⟩
          · obtain ⟨m, k⟩ := isBrk_text (eol := eol) k
            simp only at hs
            rw [hs] at k
            rcases he with rfl | rfl <;> rcases k with k | k <;> simp at k
          · simp [k, wtext, Piece.text] at hs
          · refine ⟨hA.out (by simpa using k1), ?_⟩
            simp only [PGroup.toGroup, LS.group, List.head?_map, k2, Option.map_some]
        · exact .inl hs
    · rw [htok]
      refine comments_put he ds (L.step (d, t)) (some t) ?_ (hw.step d) ?_
      · exact hA.step (x := (d, t)) hw (hC (d, t) List.mem_cons_self).1 (hC (d, t) List.mem_cons_self).2
      · intro x hx
        refine ⟨?_, (hC x (List.mem_cons_of_mem _ hx)).2⟩
        have := (List.pairwise_cons.mp hw.ts).1 x.2 (List.mem_map_of_mem hx)
        simp only [indexAfter]; omega

/-- **C86** Comments stay on their lines: in the output of an accepted file, every comment that is kept stands behind the same token as
in the source, on its line if it does so in the source, and otherwise on a line of its own, which is indented like the
line of the next token. -/
theorem C86_lines (eol name src out : Text) (p : Parsed) (he : IsEol eol) (h : Formatted eol name src p out) :
    ∃ gs : List Group, out = groupsText gs ++ eol ∧ gs.map (·.tok) = p.tokens ∧ EachGroup (CommentsPut eol p.comments) none gs := by
  obtain ⟨ds, cs, h1, h2, h3, h4, h5, _⟩ := h.children
  refine ⟨_, h1, ?_, comments_put he ds _ none (After.init _) h5 fun x hx => ⟨Nat.zero_le _, fun c hc => ?_⟩⟩
  · exact (groupsOf_tok eol p.comments ds).trans h2
  · exact parse_idx_ne h.parsed h.accepted _ (h2 ▸ List.mem_map_of_mem hx) c hc

def exRemarks : Text :=
  c!"// first\nmodel A // of A\n/* x */ /* y */\n\n// own\nReal x; // of x\nReal y = 1 // of 1\n+ 2; /* of y */ Real z;\n// last\nend A;"
def exRemarksOut : Text :=
  c!"model A // of A\n\n  /* x */\n  /* y */\n\n  // own\n  Real x; // of x\n  Real y = 1 // of 1\n    + 2; /* of y */\n  Real z;\n\n// last\nend A;\n"

set_option maxRecDepth 100000 in
set_option maxHeartbeats 2000000 in
/-- A file with comments at the ends of lines and on lines of their own.  (The first one is lost, as no line break is printed before
the first token, see C06.) -/
theorem C86_case : IsEol c!"\n" ∧ ∃ p, Formatted c!"\n" c!"f" exRemarks p exRemarksOut :=
  ⟨.inl rfl, match parse c!"f" exRemarks .StoredDefinition with | .ok p => p | _ => ⟨[], [], [], []⟩,
    by decide_cbv, by decide_cbv, exRemarksOut.dropLast, by decide_cbv, by decide⟩

end Mofmt
