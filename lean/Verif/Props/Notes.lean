import Verif.Props.Blocks
/-
C70: descriptions, annotations and constraining clauses.
-/
namespace Mofmt

/-! ### Specification -/

/-- Descriptions, constraining clauses and annotations that have lines of their own: the child `s` of a production, after
the child `p` (`none`: the first child). -/
def noteIn : SK → Option Sym → Sym → Bool
  | .LongClassSpecifier, _, .n .DescriptionString => true
  | .ElementModification, _, .n .DescriptionString => true
  | .ExtendsClause, _, .n .AnnotationClause => true
  | .Description, some _, .n .AnnotationClause => true
  | .Description, _, _ => false
  | _, _, .n .Description => true
  | _, _, .n .ConstrainingClause => true
  | _, _, _ => false

/-- elements, equations and statements -/
def noteOwner : Sym → Bool
  | .n .Element | .n .Equation | .n .Statement => true
  | _ => false

/-- The child declares the element, or a component of it. -/
def declares : SK → Sym → Bool
  | .Element, .n .ImportClause | .Element, .n .ExtendsClause | .Element, .n .ClassDefinition
  | .Element, .n .ComponentClause => true
  | .ClassDefinition, .n .ClassSpecifier => true
  | .ClassSpecifier, .n .LongClassSpecifier | .ClassSpecifier, .n .ShortClassSpecifier
  | .ClassSpecifier, .n .DerClassSpecifier => true
  | .ComponentClause, .n .ComponentList => true
  | .ComponentList, .n .ComponentDeclaration => true
  | _, _ => false

/-- Is it a list of several components on several lines? -/
def spreadList (k : SK) (cs : List Tree) : Bool := k == .ComponentList && spansLines cs && decide (cs.length > 1)

/-- `Declared it s d`: `s` is a part of the declaration of `it`; `d`: one if `s` is a component in a list on several lines,
otherwise zero. -/
inductive Declared (it : Tree) : Tree → Nat → Prop
  | self : Declared it it 0
  | child {k pre c post d} : Declared it (.node k (pre ++ c :: post)) d → declares k c.sym = true →
      Declared it c (d + if spreadList k (pre ++ c :: post) then 1 else 0)

/-! ### Proofs -/

theorem note_break {k : SK} {p : Option Sym} {s : Sym} (h : noteIn k p s = true) : breakBefore k p s = some .Illegal := by
  unfold noteIn at h
  split at h <;> first | (cases h; done) | rfl | skip
  all_goals
    cases k <;> first | rfl | (rename_i h1; exact absurd rfl (h1 _ _))  | simp_all [breakBefore]

theorem note_plain {k : SK} {p : Option Sym} {s : Sym} (hs : s ∈ (Gram.spec k).syms) (h : noteIn k p s = true) :
    exprPart k = false ∧ ∀ a b c d, extraIn k p s a b c d = if k = .Description then 0 else 1 := by
  have h' : s ∈ [Sym.n .DescriptionString, .n .AnnotationClause, .n .Description, .n .ConstrainingClause] := by
    unfold noteIn at h; split at h <;> first | (cases h; done) | simp
  simp only [List.mem_cons, List.not_mem_nil, or_false] at h'
  rcases h' with rfl | rfl | rfl | rfl <;> cases k <;>
    first
    | exact ⟨rfl, fun _ _ _ _ => rfl⟩
    | (exfalso; revert hs; decide +kernel)
    | (cases h; done)

theorem declares_plain {k : SK} {s : Sym} (h : declares k s = true) : exprPart k = false ∧
    ∀ p a b c d, extraIn k p s a b c d = if k = .ComponentList ∧ a = true then 1 else 0 := by
  unfold declares at h
  split at h <;> first | (cases h; done) | exact ⟨rfl, fun _ a _ _ _ => by cases a <;> rfl⟩

theorem note_begins {eol : Text} {gs : List Group} {tree : Tree} (hL : Lined eol gs tree)
    (h4 : ∀ s, Part s tree → s ≠ tree → tree.Conforms ∧ tree.hasEmpty = false) (hr : tree.sym = .n .StoredDefinition)
    {k : SK} {pre post : List Tree} {c : Tree} {n : Nat} {w : Bool} (hl : Level tree (.node k (pre ++ c :: post)) n w)
    (hn : noteIn k (pre.getLast?.map Tree.sym) c.sym = true) :
    levelIn k n w pre c post = n + (if k = .Description then 0 else 1) + leaksF k pre ∧
    ∃ x prev g, c.start? = some x ∧ g.tok = x ∧ Follows gs prev g ∧
      Breaks eol .Illegal (n + (if k = .Description then 0 else 1) + leaksF k pre) prev g := by
  have hp := level_part (Level.child hl)
  have hne : c ≠ tree := by
    rintro rfl
    rw [hr] at hn
    unfold noteIn at hn
    split at hn <;> first | (cases hn; done) | (rename_i hs; cases hs)
  obtain ⟨hC, hE⟩ := h4 _ hp hne
  have hCp := (level_part hl).conforms hC
  obtain ⟨x, xs, _, hx⟩ := start_leaves c (hp.full hE)
  obtain ⟨prev, g, g1, g2, g3⟩ := hL k pre c post n w hl _ x (note_break hn) hx
  obtain ⟨e1, e2⟩ := note_plain (syms_complete hCp.1 c.sym (by simp)) hn
  have hlev : levelIn k n w pre c post = n + (if k = .Description then 0 else 1) + leaksF k pre := by
    rw [levelIn, extra, e2, wrappedAt, e1]
    rfl
  rw [hlev] at g3
  exact ⟨hlev, x, prev, g, hx, g1, g2, g3⟩

/-- **C70** The indentation of descriptions, annotations and constraining clauses.  Each begins a line, and the line
is indented one level deeper than the production to which it belongs; the annotation after a description string is
indented like the string.  There are no empty lines before them. -/
theorem C70_level (eol name src out : Text) (p : Parsed) (h : Formatted eol name src p out) :
    ∃ gs tree, out = groupsText gs ++ eol ∧ gs.map (·.tok) = p.tokens ∧ buildTree p.tokens p.events = .ok tree ∧
      ∀ k pre c post n w, Level tree (.node k (pre ++ c :: post)) n w →
        noteIn k (pre.getLast?.map Tree.sym) c.sym = true →
        ∃ x prev g, c.start? = some x ∧ g.tok = x ∧ Follows gs prev g ∧
          Breaks eol .Illegal (n + (if k = .Description then 0 else 1) + leaksF k pre) prev g := by
  obtain ⟨gs, tree, h1, h2, h3, hr, h4, hL⟩ := h.lined
  exact ⟨gs, tree, h1, h2, h3, fun k pre c post n w hl hn => (note_begins hL h4 hr hl hn).2⟩

theorem Declared.kind {it s : Tree} {d : Nat} (h : Declared it s d) (hi : noteOwner it.sym = true) :
    s.sym ≠ .n .Description := by
  intro hs
  cases h with
  | self => rw [hs] at hi; cases hi
  | child _ hd =>
    rename_i k _ _ _ _
    rw [hs] at hd
    cases k <;> cases hd

theorem Declared.level {tree it : Tree} {n : Nat} {w : Bool} (hl : Level tree it n w) (h0 : it.leaks = 0) {s : Tree} {d : Nat}
    (h : Declared it s d) : s.leaks = 0 ∧ ∃ w', Level tree s (n + d) w' := by
  induction h with
  | self => exact ⟨h0, w, hl⟩
  | @child k pre c post d _ hd ih =>
    obtain ⟨i1, w', i2⟩ := ih
    rw [Tree.leaks] at i1
    obtain ⟨j1, j2⟩ := leaksF_split i1
    refine ⟨j2, ?_⟩
    have := Level.child i2
    obtain ⟨e1, e2⟩ := declares_plain hd
    rw [levelIn, extra, e2, wrappedAt, e1, j1] at this
    have he : (if k = .ComponentList ∧ (spansLines (pre ++ c :: post) && decide ((pre ++ c :: post).length > 1)) = true
        then 1 else 0) = if spreadList k (pre ++ c :: post) then 1 else 0 := by
      simp [spreadList, and_assoc]
    rw [he] at this
    exact ⟨_, by simpa [Nat.add_assoc] using this⟩

/-- **C70** Descriptions, annotations and constraining clauses of an element, an equation or a statement begin lines that
are indented one level deeper than its first line: they are all on the same level, however many there are, and however
deep in the declaration they stand.  Only the components in a list on several lines are one level deeper.  Missing: the
indentation of wrapped left hand sides is not undone (C11), see `C70_notes_false`. -/
theorem C70_notes_partial (eol name src out : Text) (p : Parsed) (h : Formatted eol name src p out) :
    ∃ gs tree, out = groupsText gs ++ eol ∧ gs.map (·.tok) = p.tokens ∧ buildTree p.tokens p.events = .ok tree ∧
      ∀ it, Part it tree → noteOwner it.sym = true → it.leaks = 0 →
        ∃ n, BeginsLine eol gs it n ∧
          ∀ k pre c post d, Declared it (.node k (pre ++ c :: post)) d →
            noteIn k (pre.getLast?.map Tree.sym) c.sym = true →
            BeginsLine eol gs c (n + 1 + d) ∧
            ∀ pre' a post', c = .node .Description (pre' ++ a :: post') →
              noteIn .Description (pre'.getLast?.map Tree.sym) a.sym = true → BeginsLine eol gs a (n + 1 + d) := by
  obtain ⟨gs, tree, h1, h2, h3, hr, h4, hL⟩ := h.lined
  refine ⟨gs, tree, h1, h2, h3, ?_⟩
  intro it hp hi h0
  have hne : it ≠ tree := by
    rintro rfl
    rw [hr] at hi
    cases hi
  obtain ⟨hC, hE⟩ := h4 _ hp hne
  obtain ⟨n, w, hl⟩ := hp.level
  refine ⟨n, ?_, ?_⟩
  · have hc : it.sym = .n .Element ∨ blockItem it.sym = true := by
      unfold noteOwner at hi
      split at hi <;> first | (cases hi; done) | (rename_i hs; rw [hs]; simp [blockItem])
    rcases hc with hc | hc
    · exact element_begins hL hC hE hr hc hl
    · exact item_begins hL hC hE hr hc hl
  · intro k pre c post d hd hn
    obtain ⟨k0, w', hl'⟩ := hd.level hl h0
    rw [Tree.leaks] at k0
    obtain ⟨j1, j2⟩ := leaksF_split k0
    have hk : k ≠ .Description := fun hk => hd.kind hi (by rw [hk]; rfl)
    obtain ⟨hlev, x, prev, g, hx, g1, g2, g3⟩ := note_begins hL h4 hr hl' hn
    have he : n + d + (if k = .Description then 0 else 1) + leaksF k pre = n + 1 + d := by
      rw [if_neg hk, j1]; omega
    rw [he] at g3 hlev
    refine ⟨⟨x, _, prev, g, hx, g1, g2, g3⟩, ?_⟩
    rintro pre' a post' rfl ha
    have hl'' := Level.child hl'
    rw [hlev] at hl''
    rw [Tree.leaks] at j2
    obtain ⟨_, x, prev, g, hx, g1, g2, g3⟩ := note_begins hL h4 hr hl'' ha
    rw [if_pos rfl, (leaksF_split j2).1] at g3
    exact ⟨x, _, prev, g, hx, g1, g2, g3⟩

/-! ### Concrete cases -/

def walkDecl : Tree → Nat → List Nat → Option (Tree × Nat)
  | t, d, [] => some (t, d)
  | .tok _, _, _ :: _ => none
  | .node k cs, d, i :: is => match cs.drop i with
    | [] => none
    | c :: _ => if declares k c.sym then walkDecl c (d + if spreadList k cs then 1 else 0) is else none

theorem walkDecl_sound {it : Tree} : ∀ (is : List Nat) (t : Tree) (d : Nat), Declared it t d →
    ∀ s e, walkDecl t d is = some (s, e) → Declared it s e
  | [], t, d, h, s, e, hw => by cases t <;> cases hw <;> exact h
  | i :: is, .tok _, d, h, s, e, hw => by cases hw
  | i :: is, .node k cs, d, h, s, e, hw => by
    rw [walkDecl] at hw
    split at hw
    · cases hw
    · rename_i c post hd
      have hcs : cs = cs.take i ++ c :: post := by rw [← hd, List.take_append_drop]
      split at hw
      · rename_i hdec
        refine walkDecl_sound is c _ ?_ s e hw
        generalize cs.take i = pre at hcs
        subst hcs
        exact Declared.child h hdec
      · cases hw

def exNotes : Text :=
  c!"model A\nreplaceable Real x \"s\",\ny \"t\" annotation(E=1) constrainedby B \"d\" annotation(F=2);\nequation\nx=1 \"t\";\nend A;"
def exNotesOut : Text :=
  c!"model A\n\n  replaceable Real\n    x\n      \"s\",\n    y\n      \"t\"\n      annotation (E = 1)\n    constrainedby B\n    \"d\"\n    annotation (F = 2);\n\nequation\n\n  x = 1\n    \"t\";\n\nend A;\n"
def exNotesP : Parsed := match parse c!"f" exNotes .StoredDefinition with | .ok p => p | _ => ⟨[], [], [], []⟩
def exNotesTree : Tree := resTree (buildTree exNotesP.tokens exNotesP.events)
/-- the element of the example -/
def exNotesElement : Tree := .node .Element (kidsOf (exNotesTree.find .Element))
/-- the second component of the example -/
def exNotesSecond : Option (Tree × Nat) := walkDecl exNotesElement 0 [1, 1, 2]

/-- which children of a tree are notes -/
def notesOf : Tree → List Bool
  | .tok _ => []
  | .node k cs => (List.range cs.length).map fun i => noteIn k ((cs.take i).getLast?.map Tree.sym) ((cs.drop i).head?.map Tree.sym |>.getD (.t .EOF))


set_option maxRecDepth 100000 in
set_option maxHeartbeats 2000000 in
theorem C70_case : Formatted c!"\n" c!"f" exNotes exNotesP exNotesOut ∧
    buildTree exNotesP.tokens exNotesP.events = .ok exNotesTree ∧
    Part exNotesElement exNotesTree ∧ noteOwner exNotesElement.sym = true ∧ exNotesElement.leaks = 0 ∧
    notesOf exNotesElement = [false, false, true, true] ∧
    ∃ s, Declared exNotesElement s 1 ∧ notesOf s = [false, true] := by
  refine ⟨⟨by decide_cbv, by decide_cbv, exNotesOut.dropLast, by decide_cbv, by decide⟩, resTree_ok (by decide_cbv),
    find_kind _ (by decide_cbv), rfl, ?_, by decide_cbv, ?_⟩
  · have h0 : leaksF .Element (kidsOf (exNotesTree.find .Element)) = 0 := by decide_cbv
    rw [exNotesElement, Tree.leaks, h0]
  · have hs : exNotesSecond.map (fun x => (x.2, notesOf x.1)) = some (1, [false, true]) := by decide_cbv
    cases he : exNotesSecond with
    | none => rw [he] at hs; cases hs
    | some x =>
      rw [he] at hs
      obtain ⟨s, e⟩ := x
      injection hs with hs
      injection hs with h1 h2
      cases h1
      exact ⟨s, walkDecl_sound _ _ _ .self s 1 he, h2⟩

def exDeepNote : Text := c!"model A\nequation\nb\n+ c = d \"s\";\nend A;"
def exDeepNoteOut : Text := c!"model A\n\nequation\n\n  b\n    + c = d\n      \"s\";\n\n  end A;\n"

set_option maxRecDepth 100000 in
/-- **C70** Without the condition about wrapped left hand sides, the description is two levels deeper than the equation. -/
theorem C70_notes_false : ∃ p, Formatted c!"\n" c!"f" exDeepNote p exDeepNoteOut ∧
    exDeepNoteOut = c!"model A\n\nequation\n\n" ++ c!"  b\n" ++ c!"    + c = d\n" ++ c!"      \"s\"" ++ c!";\n\n  end A;\n" :=
  ⟨match parse c!"f" exDeepNote .StoredDefinition with | .ok p => p | _ => ⟨[], [], [], []⟩,
    ⟨by decide_cbv, by decide_cbv, exDeepNoteOut.dropLast, by decide_cbv, by decide⟩, by decide⟩

#print axioms C70_level
#print axioms C70_notes_partial
#print axioms C70_case
#print axioms C70_notes_false

end Mofmt
