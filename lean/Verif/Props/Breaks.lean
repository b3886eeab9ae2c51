import Verif.Proofs.BreakRun
import Verif.Props.OneLine
/-
Line breaks and empty lines: C44, C45.
-/
namespace Mofmt
open Lexical

/-- **C44** Line breaks at binary operators are those of the source.  Let `x o y` be neighbours in a production with
binary operators, `o` being the operator, `e` the last token of `x`, `s` the first token of `y`.  If `s` is on a later
line than `e`, the operator begins a line in the output, without an empty line before it; if not, it comes after one
blank, and nothing else is between.  After the operator there is one blank in both cases. -/
theorem C44_operators (eol name src out : Text) (p : Parsed) (h : Formatted eol name src p out) :
    ∃ gs tree, out = groupsText gs ++ eol ∧ gs.map (·.tok) = p.tokens ∧ buildTree p.tokens p.events = .ok tree ∧
      ∀ k pre x o y post, Part (.node k (pre ++ x :: o :: y :: post)) tree → operatorIn k o.sym = true →
        ∀ e op s, x.end? = some e → o.leaves = [op] → y.start? = some s →
          (if s.start.line > e.stop.line
            then ∃ g n, g.tok = op ∧ Follows gs (some e) g ∧ Breaks eol .Illegal n (some e) g
            else Follows gs (some e) ⟨[], [' '], op⟩) ∧
          Follows gs (some op) ⟨[], [' '], s⟩ := by
  obtain ⟨ds, cs, h1, h2, h3, h4, h5, h6⟩ := h.children
  refine ⟨groupsOf eol p.comments ds, _, h1, by rw [groupsOf_tok, h2], h3, ?_⟩
  intro k pre x o y post hp ho e op s he hl hs
  have hr := h6 k (pre ++ [x]) o (y :: post) (by simpa using hp)
  obtain ⟨da, d, dz, rfl, g1, g2⟩ := hr.operator ho he hl hs
  refine ⟨?_, ?_⟩
  · split at g2
    · rename_i hlt
      obtain ⟨n, rfl⟩ := g2
      rw [if_pos hlt]
      obtain ⟨g, k1, k2, k3⟩ := groups_brk eol p.comments da ((.space, s) :: dz) .Illegal n op
      rw [g1] at k2 k3
      exact ⟨g, n, k1, k2, k3⟩
    · rename_i hlt
      subst g2
      rw [if_neg hlt, ← g1]
      exact groups_calm eol p.comments da _ .space op (.inr rfl)
  · have := groups_calm eol p.comments (da ++ [(d, op)]) dz .space s (.inr rfl)
    simpa [Dec.blank] using this

/-- **C45** Line breaks and empty lines that are due to the structure of the file.  For every child `c` of every part
of the syntax tree: if the table says that there is a break of sort `b` before it, its first token begins a line,
and the empty lines before it and before the comments in front of it are those that `Breaks` describes. -/
theorem C45_breaks (eol name src out : Text) (p : Parsed) (h : Formatted eol name src p out) :
    ∃ gs tree, out = groupsText gs ++ eol ∧ gs.map (·.tok) = p.tokens ∧ buildTree p.tokens p.events = .ok tree ∧
      ∀ k pre c post, Part (.node k (pre ++ c :: post)) tree →
        ∀ b x, breakBefore k (pre.getLast?.map Tree.sym) c.sym = some b → c.start? = some x →
          ∃ prev g n, g.tok = x ∧ Follows gs prev g ∧ Breaks eol b n prev g := by
  obtain ⟨ds, cs, h1, h2, h3, h4, h5, h6⟩ := h.children
  refine ⟨groupsOf eol p.comments ds, _, h1, by rw [groupsOf_tok, h2], h3, ?_⟩
  intro k pre c post hp b x hb hx
  obtain ⟨da, dz, n, rfl⟩ := (h6 k pre c post hp).break (fun hk hpre => composition_prev h5 h6 (by subst hk hpre; exact hp)) hb hx
  obtain ⟨g, k1, k2, k3⟩ := groups_brk eol p.comments da dz b n x
  exact ⟨_, g, n, k1, k2, k3⟩

/-- **C45** `Breaks` where no comment stands between: an empty line is kept if there is one in the source, is always
there, or is never there. -/
theorem C45_plain (eol : Text) (b : Blank) (n : Nat) (prev : Option Token) (g : Group) (h : Breaks eol b n prev g)
    (hc : g.comments = []) : g.white = lineStart eol n (match b with
      | .Legal => g.tok.start.line - lineAtEnd prev > 1
      | .Required => true
      | .Illegal => false) := by
  obtain ⟨inl, own, h1, _, _, h2⟩ := h
  rw [hc] at h1
  have ho : own = [] := (List.append_eq_nil_iff.mp h1.symm).2
  subst ho
  cases b with
  | Legal => exact h2.1
  | Required => exact h2.1
  | Illegal => exact h2.2

/-! ### Cases meeting the hypotheses -/

def exBrk : Text := c!"model A\nReal x=a\n+b;\n\n\nReal y;end A;"
def exBrkOut : Text := c!"model A\n\n  Real x = a\n    + b;\n\n  Real y;\n\nend A;\n"
def exBrkP : Parsed := match parse c!"f" exBrk .StoredDefinition with | .ok p => p | _ => ⟨[], [], [], []⟩
def exBrkTree : Tree := resTree (buildTree exBrkP.tokens exBrkP.events)
def exBrkSum : List Tree := kidsOf (exBrkTree.find .ArithmeticExpression)
def exBrkList : List Tree := kidsOf (exBrkTree.find .ElementList)

set_option maxRecDepth 100000 in
/-- A file with a sum on two lines. -/
theorem C44_case : Formatted c!"\n" c!"f" exBrk exBrkP exBrkOut ∧
    buildTree exBrkP.tokens exBrkP.events = .ok exBrkTree ∧
    ∃ x o y e s, Part (.node .ArithmeticExpression ([] ++ [x, o, y])) exBrkTree ∧
      operatorIn .ArithmeticExpression o.sym = true ∧ x.end? = some e ∧ o.leaves.length = 1 ∧ y.start? = some s ∧
      s.start.line > e.stop.line := by
  refine ⟨⟨by decide_cbv, by decide_cbv, exBrkOut.dropLast, by decide_cbv, by decide⟩, resTree_ok (by decide_cbv), ?_⟩
  have hp : Part (.node .ArithmeticExpression exBrkSum) exBrkTree := find_kind _ (by decide_cbv)
  have hs : exBrkSum.map Tree.sym = [.n .Term, .n .AddOperator, .n .Term] ∧
      exBrkSum.map (fun c => c.leaves.length) = [1, 1, 1] ∧
      exBrkSum.map (fun c => (c.start?.map (·.start.line), c.end?.map (·.stop.line))) =
        [(some 2, some 2), (some 3, some 3), (some 3, some 3)] := by
    refine ⟨?_, ?_, ?_⟩ <;> decide_cbv
  generalize exBrkSum = ks at hp hs
  obtain ⟨h1, h2, h3⟩ := hs
  have hk : ∃ x o y, ks = [x, o, y] := by
    obtain ⟨x, _, rfl, _, h1⟩ := List.map_eq_cons_iff.mp h1
    obtain ⟨o, _, rfl, _, h1⟩ := List.map_eq_cons_iff.mp h1
    obtain ⟨y, _, rfl, _, h1⟩ := List.map_eq_cons_iff.mp h1
    exact ⟨x, o, y, by rw [List.map_eq_nil_iff.mp h1]⟩
  obtain ⟨x, o, y, rfl⟩ := hk
  · simp only [List.map_cons, List.map_nil, List.cons.injEq, and_true, Prod.mk.injEq, Option.map_eq_some_iff] at h1 h2 h3
    obtain ⟨⟨_, e, he, hle⟩, _, ⟨s, hs, hls⟩, _⟩ := h3
    refine ⟨x, o, y, e, s, hp, by rw [h1.2.1]; rfl, he, h2.2.1, hs, by omega⟩

set_option maxRecDepth 100000 in
/-- A file with two elements and empty lines between them. -/
theorem C45_case : Formatted c!"\n" c!"f" exBrk exBrkP exBrkOut ∧
    buildTree exBrkP.tokens exBrkP.events = .ok exBrkTree ∧
    ∃ a s c s' x, Part (.node .ElementList ([a, s] ++ c :: [s'])) exBrkTree ∧
      breakBefore .ElementList ([a, s].getLast?.map Tree.sym) c.sym = some .Legal ∧ c.start? = some x := by
  refine ⟨C44_case.1, C44_case.2.1, ?_⟩
  have hp : Part (.node .ElementList exBrkList) exBrkTree := find_kind _ (by decide_cbv)
  have hs : exBrkList.map Tree.sym = [.n .Element, .t .Semicolon, .n .Element, .t .Semicolon] ∧
      exBrkList.map (fun c => c.start?.isSome) = [true, true, true, true] := by
    refine ⟨?_, ?_⟩ <;> decide_cbv
  generalize exBrkList = ks at hp hs
  obtain ⟨h1, h2⟩ := hs
  have hk : ∃ a s c s', ks = [a, s, c, s'] := by
    obtain ⟨a, _, rfl, _, h1⟩ := List.map_eq_cons_iff.mp h1
    obtain ⟨s, _, rfl, _, h1⟩ := List.map_eq_cons_iff.mp h1
    obtain ⟨c, _, rfl, _, h1⟩ := List.map_eq_cons_iff.mp h1
    obtain ⟨s', _, rfl, _, h1⟩ := List.map_eq_cons_iff.mp h1
    exact ⟨a, s, c, s', by rw [List.map_eq_nil_iff.mp h1]⟩
  obtain ⟨a, s, c, s', rfl⟩ := hk
  · simp only [List.map_cons, List.map_nil, List.cons.injEq, and_true] at h1 h2
    obtain ⟨x, hx⟩ := Option.isSome_iff_exists.mp h2.2.2.1
    refine ⟨a, s, c, s', x, hp, ?_, hx⟩
    simp [h1.2.2.1, h1.2.1, breakBefore]

#print axioms C44_operators
#print axioms C45_breaks
#print axioms C45_plain
#print axioms C44_case
#print axioms C45_case

end Mofmt
