import Verif.Proofs.OneLineRun
import Verif.Props.Idempotent
/-
Expressions written on one line: C15.
-/
namespace Mofmt
open Lexical

/-- **C15** In every accepted file: an expression whose tokens are on one line is printed on one line, without
comments inside, and its text is `Tree.oneLine`: blanks stand exactly where the specification says. -/
theorem C15_one_line (eol name src out : Text) (p : Parsed) (h : Formatted eol name src p out) :
    ∃ gs tree, out = groupsText gs ++ eol ∧ gs.map (·.tok) = p.tokens ∧ buildTree p.tokens p.events = .ok tree ∧
      ∀ k cs l, k ∈ wholeKinds → Part (.node k cs) tree → OnLine l (leavesF cs) →
        PrintedAs gs (leavesF cs) (Tree.oneLine (.node k cs)) :=
  h.line_part

/-- **C15** The text depends only on the structure of the expression and on the kinds and texts of its tokens. -/
theorem C15_canonical (c d : Tree) (h : c.map bare = d.map bare) : c.oneLine = d.oneLine := by
  have : ∀ c : Tree, (c.map bare).oneLine = c.oneLine := fun c => oneLine_map (φ := bare) (fun _ => rfl) c fun _ _ => rfl
  rw [← this c, h, this d]

/-- **C15** When the output is formatted again, its expressions are those of the source; those written on one line in
the source are on one line and are printed with the same text again. -/
theorem C15_again (eol name src out name' : Text) (p : Parsed) (h : Formatted eol name src p out) (he : IsEol eol)
    (hL : LineCommentsEnd p.comments) :
    ∃ tree φ p' out' gs gs', buildTree p.tokens p.events = .ok tree ∧ buildTree p'.tokens p'.events = .ok (tree.map φ) ∧
      (∀ t ∈ p.tokens, (φ t).kind = t.kind ∧ (φ t).text = t.text) ∧
      Formatted eol name' out p' out' ∧
      out = groupsText gs ++ eol ∧ gs.map (·.tok) = p.tokens ∧
      out' = groupsText gs' ++ eol ∧ gs'.map (·.tok) = p.tokens.map φ ∧
      ∀ k cs l, k ∈ wholeKinds → Part (.node k cs) tree → OnLine l (leavesF cs) →
        (∃ l', OnLine l' ((leavesF cs).map φ)) ∧
        ∃ x, PrintedAs gs (leavesF cs) x ∧ PrintedAs gs' ((leavesF cs).map φ) x := by
  obtain ⟨cs, ds, φ, p', hr⟩ := h.runs he hL name'
  obtain ⟨out', hf⟩ := C03_formatted eol name' out p' hr.parsed hr.accepted
  obtain ⟨gs, tree, g1, g2, g3, g4⟩ := h.line_part
  obtain ⟨gs', tree', k1, k2, k3, k4⟩ := hf.line_part
  have ht := tree_eq g3 hr.tree
  have ht' := tree_eq k3 hr.tree'
  subst ht ht'
  obtain ⟨lx, hl, l1, l2, _⟩ := parse_lex h.parsed h.accepted
  have hlines : ∀ t ∈ p.tokens, t.stop.line = t.start.line + newlines t.text := fun t ht =>
    lexed_lines hl t (List.mem_append_left _ (l1 ▸ ht))
  refine ⟨_, φ, p', out', gs, gs', g3, hr.tree', fun t ht => ⟨hr.kind t, hr.text_eq t ht⟩, hf, g1, g2, k1,
    by rw [k2, hr.toks'], ?_⟩
  intro k ps l hk hp ho
  obtain ⟨l', hl'⟩ := hr.stays hlines hk hp ho
  refine ⟨⟨l', hl'⟩, _, g4 k ps l hk hp ho, ?_⟩
  have := k4 k (mapTrees φ ps) l' hk (hp.map φ) (by rw [leavesF_map]; exact hl')
  rw [leavesF_map] at this
  rw [← oneLine_map hr.kind (.node k ps) fun t ht => hr.text_eq t (by
    have := hp.leaves t ht
    rwa [Tree.leaves, hr.leaves] at this)]
  exact this

/-! ### A case meeting the hypotheses -/

def exExpr : Text := c!"model A\n Real x=-a*f( u+1 ,v );\nend A;"
def exExprOut : Text := c!"model A\n\n  Real x = -a * f(u + 1, v);\n\nend A;\n"
def exExprText : Text := c!"-a * f(u + 1, v)"

mutual
/-- the first part of the given kind -/
def Tree.find (k : SK) : Tree → Option Tree
  | .tok _ => none
  | .node j cs => if j = k then some (.node j cs) else findF k cs
def findF (k : SK) : List Tree → Option Tree
  | [] => none
  | c :: cs => match c.find k with
    | some t => some t
    | none => findF k cs
end

mutual
theorem find_part {k : SK} {t : Tree} (c : Tree) (h : c.find k = some t) : Part t c := by
  match c with
  | .tok _ => simp [Tree.find] at h
  | .node j cs =>
    rw [Tree.find] at h
    split at h
    · cases h; exact .here
    · obtain ⟨c, hc, hp⟩ := findF_part cs h
      exact .there hc hp
theorem findF_part {k : SK} {t : Tree} (cs : List Tree) (h : findF k cs = some t) : ∃ c ∈ cs, Part t c := by
  match cs with
  | [] => simp [findF] at h
  | c :: cs =>
    rw [findF] at h
    split at h
    · rename_i u hu
      cases h
      exact ⟨c, List.mem_cons_self, find_part c hu⟩
    · obtain ⟨d, hd, hp⟩ := findF_part cs h
      exact ⟨d, List.mem_cons_of_mem _ hd, hp⟩
end

def exExprP : Parsed := match parse c!"f" exExpr .StoredDefinition with | .ok p => p | _ => ⟨[], [], [], []⟩

def resTree : Res Tree → Tree
  | .ok t => t
  | _ => .node .Name []

theorem resTree_ok {r : Res Tree} (h : (match r with | .ok _ => true | _ => false) = true) : r = .ok (resTree r) := by
  cases r with
  | ok t => rfl
  | panic p => cases h
  | fuel => cases h

def kidsOf : Option Tree → List Tree
  | some (.node _ cs) => cs
  | _ => []

def exExprTree : Tree := resTree (buildTree exExprP.tokens exExprP.events)
def exExprPart : List Tree := kidsOf (exExprTree.find .ArithmeticExpression)

theorem find_kind {k : SK} (c : Tree) (h : (c.find k).isSome = true) :
    Part (.node k (kidsOf (c.find k))) c := by
  cases hf : c.find k with
  | none => simp [hf] at h
  | some t =>
    have hk : ∀ (c t : Tree), c.find k = some t → ∃ cs, t = .node k cs := by
      have key : ∀ n, (∀ (c t : Tree), sizeOf c ≤ n → c.find k = some t → ∃ cs, t = .node k cs) ∧
          (∀ (cs : List Tree) (t : Tree), sizeOf cs ≤ n → findF k cs = some t → ∃ cs, t = .node k cs) := by
        intro n
        induction n with
        | zero =>
          refine ⟨fun c t hn => ?_, fun cs t hn => ?_⟩
          · cases c <;> simp at hn
          · cases cs <;> simp at hn
        | succ n ih =>
          refine ⟨fun c t hn h => ?_, fun cs t hn h => ?_⟩
          · cases c with
            | tok u => simp [Tree.find] at h
            | node j cs =>
              rw [Tree.find] at h
              split at h
              · rename_i hj; cases h; exact ⟨cs, hj ▸ rfl⟩
              · simp only [Tree.node.sizeOf_spec] at hn
                exact ih.2 cs t (by omega) h
          · cases cs with
            | nil => simp [findF] at h
            | cons c cs =>
              rw [findF] at h
              simp only [List.cons.sizeOf_spec] at hn
              split at h
              · rename_i u hu; cases h; exact ih.1 c _ (by omega) hu
              · exact ih.2 cs t (by omega) h
      exact fun c t => (key (sizeOf c)).1 c t (Nat.le_refl _)
    obtain ⟨cs, rfl⟩ := hk c t hf
    exact find_part c hf

set_option maxRecDepth 100000 in
/-- The hypotheses of `C15_one_line` and `C15_again` are met by a file with an expression on its second line; the
text of the expression in the output is `exExprText`. -/
theorem C15_case : Formatted c!"\n" c!"f" exExpr exExprP exExprOut ∧ LineCommentsEnd exExprP.comments ∧
    buildTree exExprP.tokens exExprP.events = .ok exExprTree ∧
    Part (.node .ArithmeticExpression exExprPart) exExprTree ∧ OnLine 2 (leavesF exExprPart) ∧
    Tree.oneLine (.node .ArithmeticExpression exExprPart) = exExprText := by
  refine ⟨⟨by decide_cbv, by decide_cbv, exExprOut.dropLast, by decide_cbv, by decide⟩, ?_, ?_,
    find_kind (k := .ArithmeticExpression) _ (by decide_cbv), ?_, by decide_cbv⟩
  · have : exExprP.comments = [] := by decide_cbv
    intro c hc
    rw [this] at hc
    cases hc
  · exact resTree_ok (by decide_cbv)
  · have : (leavesF exExprPart).all (fun t => t.start.line == 2 && t.stop.line == 2) = true := by decide_cbv
    intro t ht
    simpa using List.all_eq_true.mp this t ht

#print axioms C15_one_line
#print axioms C15_canonical
#print axioms C15_again
#print axioms C15_case

end Mofmt
