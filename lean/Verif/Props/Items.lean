import Verif.Props.Reorder
import Verif.Props.Parser
/-
C85: the items of a list are formatted one by one.
-/
namespace Mofmt
open Lexical

/-- An element, an equation or a statement as text: its pieces (tokens and comments, each with the white space before it), and the
white space before its semicolon. -/
abbrev Entry := List (Text × Chunk) × Text

/-- the pieces of an item and its semicolon -/
def Entry.pieces (Y : Entry) : List (Text × Chunk) := Y.1 ++ [semiPiece Y.2]

/-- the pieces of some items, one after the other -/
def rowOf (Ys : List Entry) : List (Text × Chunk) := Ys.flatMap Entry.pieces

/-- The pieces are those of an item `it` for a list of kind `k`: they are tokens and comments, none of which ends with a character
that is not ASCII, they are the pieces of their text, they are accepted as `it` (wherever they stand in a file), and no indentation
is left over from it. -/
structure Goes (k it : SK) (Y : Entry) : Prop where
  pieces : ∀ x ∈ Y.1, ∃ k t, x.2 = .token k t
  ascii : awkward false Y.pieces = false
  text : Divided (spread Y.pieces []) Y.pieces
  item : ∃ s n ds, 1 ≤ n ∧ Reading it (codeOf s n Y.1) ds ∧ (Tree.node it ds).Opens ∧ (Tree.node it ds).startsOk k = true ∧
    (Tree.node it ds).leaks = 0

/-! ### Proof -/

theorem Goes.tokens {k it : SK} {Y : Entry} (h : Goes k it Y) : ∀ x ∈ Y.pieces, ∃ k t, x.2 = .token k t := by
  intro x hx
  rcases List.mem_append.1 hx with hx | hx
  · exact h.pieces x hx
  · simp only [List.mem_singleton] at hx; subst hx; exact ⟨_, _, rfl⟩

/-- the pieces of an item in front of other text -/
theorem Goes.divided {k it : SK} {Y : Entry} (h : Goes k it Y) {r : Text} {B : List (Text × Chunk)} (hd : Divided r B) :
    Divided (spread Y.pieces [] ++ r) (Y.pieces ++ B) := by
  obtain ⟨_, _, _, h3⟩ := divided_cut (B := []) h.pieces h.text
  simpa [Entry.pieces] using h3 r B hd

/-- text with an item behind a semicolon -/
theorem inserted_text {k it : SK} {Y : Entry} (h : Goes k it Y) {w v : Text} {A B : List (Text × Chunk)}
    (ht : ∀ q ∈ A, ∃ k t, q.2 = .token k t) (hd : Divided (spread (A ++ [semiPiece w] ++ B) v) (A ++ [semiPiece w] ++ B)) :
    Divided (spread (A ++ [semiPiece w] ++ Y.pieces ++ B) v) (A ++ [semiPiece w] ++ Y.pieces ++ B) := by
  simp only [List.append_assoc, List.cons_append, List.nil_append] at hd ⊢
  obtain ⟨r, a1, a2, a3⟩ := divided_cut ht hd
  have hr : spread B v = r := by
    simp only [spread, List.flatMap_append, List.flatMap_cons, List.flatMap_nil, List.append_nil, List.append_assoc] at a1 ⊢
    simpa using a1
  subst hr
  have := a3 _ _ (h.divided a2)
  simpa [spread] using this

theorem parse_other {name name' src : Text} {p : Parsed} (h : parse name src .StoredDefinition = .ok p) (he : p.errors = []) :
    parse name' src .StoredDefinition = .ok p := by
  simp only [parse, Res.bind_eq_ok] at h
  obtain ⟨l, hl, ⟨evs, errs⟩, h1, hq⟩ := h
  cases hq
  simp only [List.append_eq_nil_iff] at he
  obtain ⟨es, h2, h3⟩ := (C41_name_irrelevant name name' src).1 l hl
  obtain ⟨errs', h4, h5⟩ := (C24_only_kinds name name' l.tokens l.tokens .StoredDefinition rfl).1 evs errs h1
  rw [he.1, List.length_nil, List.length_eq_zero_iff] at h3
  rw [he.2, List.length_nil, List.length_eq_zero_iff] at h5
  subst h3 h5
  simp only [parse, h2, Res.bind_ok, h4, he.1, he.2]

theorem formatted_other {eol name name' src out : Text} {p : Parsed} (h : Formatted eol name src p out) :
    Formatted eol name' src p out :=
  ⟨parse_other h.parsed h.accepted, h.accepted, h.text⟩

/-- a file in which an item can be inserted behind a semicolon -/
structure Slot (eol name : Text) (k : SK) (A : List (Text × Chunk)) (w : Text) (B : List (Text × Chunk)) (v : Text) (p : Parsed)
    (out : Text) (tree : Tree) : Prop where
  formatted : Formatted eol name (spread (A ++ [semiPiece w] ++ B) v) p out
  divided : Divided (spread (A ++ [semiPiece w] ++ B) v) (A ++ [semiPiece w] ++ B)
  built : buildTree p.tokens p.events = .ok tree
  place : ∃ pre post, Part (.node k (pre ++ .tok (semiTok [] 0 A w) :: post)) tree

/-- an item is inserted -/
theorem Slot.insert {eol name : Text} {k it : SK} {A B : List (Text × Chunk)} {w v out : Text} {p : Parsed} {tree : Tree}
    (hk : listItem k = some it) (h : Slot eol name k A w B v p out tree) {Y : Entry} (hY : Goes k it Y) :
    ∃ p' out' tree' ga gy gb gb', Slot eol name k A w (Y.pieces ++ B) v p' out' tree' ∧
      Slot eol name k (A ++ [semiPiece w] ++ Y.1) Y.2 B v p' out' tree' ∧
      groupsOf eol p.comments tree.wholeLayout = ga ++ gb ∧ groupsOf eol p'.comments tree'.wholeLayout = ga ++ gy ++ gb' ∧
      ga.map (·.tok) = codeOf [] 0 (A ++ [semiPiece w]) ∧
      gy.map (·.tok) = codeOf (spread (A ++ [semiPiece w]) []) (A ++ [semiPiece w]).length Y.pieces ∧
      gb'.map Group.shown = gb.map Group.shown := by
  obtain ⟨hf, hd, ht, pre, post, hX⟩ := h
  obtain ⟨tok, aw, _⟩ := formatted_facts hf hd
  have tA : ∀ q ∈ A, ∃ k t, q.2 = .token k t := fun q hq => tok q (by simp [hq])
  have tB : ∀ q ∈ B, ∃ k t, q.2 = .token k t := fun q hq => tok q (by simp [hq])
  have tAw : ∀ q ∈ A ++ [semiPiece w], ∃ k t, q.2 = .token k t := fun q hq => tok q (List.mem_append_left _ hq)
  have ta : ∀ {P Q : List (Text × Chunk)}, (∀ q ∈ P, ∃ k t, q.2 = .token k t) → (∀ q ∈ Q, ∃ k t, q.2 = .token k t) →
      ∀ q ∈ P ++ Q, ∃ k t, q.2 = .token k t := fun h1 h2 q hq => (List.mem_append.1 hq).elim (h1 q) (h2 q)
  have hd' := inserted_text hY tA hd
  obtain ⟨l, hl, he⟩ := lex_tokens name hd' (ta (ta tAw hY.tokens) tB) (by
    rw [awkward_append _ _ tAw] at aw
    simp only [Bool.or_eq_false_iff] at aw
    rw [awkward_append _ _ (ta tAw hY.tokens), awkward_append _ _ tAw, aw.1, aw.2, hY.ascii]
    rfl)
  obtain ⟨s0, n0, ds0, i0, i1, i2, i3, i4⟩ := hY.item
  have hE : (Tree.node it ds0).hasEmpty = false := item_full hk i1
  obtain ⟨ds, j1, j2, j3, j4⟩ := moved_item (k := k) i1.conforms hE i2 i3 i4 i1.leaves i0
    (spread (A ++ [semiPiece w]) []) (A ++ [semiPiece w]).length (by simp)
  obtain ⟨p', out', tree', ga, gy, gb, gb', hf', t', z1, z2, z3, z4, _, _, z5, s1, s2⟩ := insert_bare eol name _ out name
    _ w Y.2 p A Y.1 B l tree k it pre post ds hf hd hd' hl he ht hk hX j1 j2 j3 j4
  refine ⟨p', out', tree', ga, gy, gb, gb', ⟨?_, ?_, t', s1⟩, ⟨?_, ?_, t', s2⟩, z1, z2, z3, z4, z5⟩
  · simpa [Entry.pieces] using hf'
  · simpa [Entry.pieces] using hd'
  · simpa [Entry.pieces] using hf'
  · simpa [Entry.pieces] using hd'

/-- what is printed for an item that is inserted alone -/
def Alone (eol name : Text) (k : SK) (A : List (Text × Chunk)) (w : Text) (B : List (Text × Chunk)) (v : Text) (Y : Entry)
    (gs : List (List (Text × Text))) : Prop :=
  ∃ p' out' tree' ga gy gb', Slot eol name k A w (Y.pieces ++ B) v p' out' tree' ∧
      groupsOf eol p'.comments tree'.wholeLayout = ga ++ gy ++ gb' ∧
      ga.map (·.tok) = codeOf [] 0 (A ++ [semiPiece w]) ∧
      gy.map (·.tok) = codeOf (spread (A ++ [semiPiece w]) []) (A ++ [semiPiece w]).length Y.pieces ∧
      gs = gy.map Group.shown

theorem Slot.alike {eol name : Text} {k k' : SK} {A B A' B' : List (Text × Chunk)} {w v out w' out' : Text} {p p' : Parsed}
    {tree tree' : Tree} (h : Slot eol name k A w B v p out tree) (h' : Slot eol name k' A' w' B' v p' out' tree')
    (e : A ++ [semiPiece w] ++ B = A' ++ [semiPiece w'] ++ B') : p = p' ∧ out = out' ∧ tree = tree' := by
  have h1 := h.formatted.parsed
  have h2 := h'.formatted.parsed
  rw [e, h2] at h1
  cases h1
  have h3 := h.built
  rw [h'.built] at h3
  cases h3
  refine ⟨rfl, ?_, rfl⟩
  rw [laid_tree h.formatted h.built, laid_tree h'.formatted h'.built]

theorem lengthOf {g : List Group} {t : List Token} (h : g.map (·.tok) = t) : g.length = t.length := by
  rw [← h, List.length_map]

/-- what is printed for an item does not depend on an item in front of it -/
theorem alone_behind {eol name : Text} {k it : SK} {A B : List (Text × Chunk)} {w v out : Text} {p : Parsed} {tree : Tree}
    (hk : listItem k = some it) (h : Slot eol name k A w B v p out tree) {Y Z : Entry} (hY : Goes k it Y) (hZ : Goes k it Z)
    {gs : List (List (Text × Text))} (ha : Alone eol name k A w B v Z gs) :
    Alone eol name k (A ++ [semiPiece w] ++ Y.1) Y.2 B v Z gs := by
  obtain ⟨p1, o1, t1, ga1, gz1, gb1, s1, g1, g2, g3, rfl⟩ := ha
  -- first `Z`, then `Y` in front of it
  obtain ⟨p2, o2, t2, ga2, gy2, gr2, gr2', s2, _, k1, k2, k3, k4, k5⟩ := s1.insert hk hY
  -- first `Y`, then `Z` behind it
  obtain ⟨p3, o3, t3, ga3, gy3, gb3, gb3', _, s3, m1, m2, m3, m4, m5⟩ := h.insert hk hY
  obtain ⟨p4, o4, t4, ga4, gz4, gb4, gb4', s4, _, n1, n2, n3, n4, n5⟩ := s3.insert hk hZ
  obtain ⟨e1, _, e2⟩ := s4.alike s2 (by simp [Entry.pieces])
  subst e1 e2
  refine ⟨p4, o4, t4, ga4, gz4, gb4', s4, n2, n3, n4, ?_⟩
  rw [n2] at k2
  rw [g1] at k1
  have hc : (A ++ [semiPiece w] ++ Y.1 ++ [semiPiece Y.2]) = A ++ [semiPiece w] ++ Y.pieces := by simp [Entry.pieces]
  have tAw : ∀ q ∈ A ++ [semiPiece w], ∃ k t, q.2 = .token k t := fun q hq =>
    (formatted_facts h.formatted h.divided).1 q (List.mem_append_left _ hq)
  rw [hc, code_append tAw, List.nil_append, Nat.zero_add] at n3
  rw [hc] at n4
  have l1 := lengthOf g2
  have l2 := lengthOf g3
  have l3 := lengthOf k3
  have l4 := lengthOf k4
  have l5 := lengthOf n3
  have l6 := lengthOf n4
  rw [List.length_append] at l5
  rw [code_length (Z.pieces) (s' := spread (A ++ [semiPiece w]) []) (i' := (A ++ [semiPiece w]).length) (by simp; omega) (by simp)] at l6
  simp only [List.append_assoc] at k1 k2
  obtain ⟨_, x1⟩ := List.append_inj k1 (by omega)
  rw [← x1, List.map_append] at k5
  rw [← List.append_assoc ga2] at k2
  obtain ⟨_, x2⟩ := List.append_inj k2 (by rw [List.length_append]; omega)
  rw [← x2, List.map_append] at k5
  exact ((List.append_inj k5 (by simp only [List.length_map]; omega)).1).symm

theorem row {eol name : Text} {k it : SK} {v : Text} {B : List (Text × Chunk)} (hk : listItem k = some it)
    (f : Entry → List (List (Text × Text))) : ∀ (Ys : List Entry) {A : List (Text × Chunk)} {w out : Text} {p : Parsed} {tree : Tree},
    Slot eol name k A w B v p out tree → (∀ Y ∈ Ys, Goes k it Y) → (∀ Y, Goes k it Y → Alone eol name k A w B v Y (f Y)) →
    ∃ p' out' tree' ga gys gb gb',
      Formatted eol name (spread (A ++ [semiPiece w] ++ rowOf Ys ++ B) v) p' out' ∧ buildTree p'.tokens p'.events = .ok tree' ∧
      groupsOf eol p.comments tree.wholeLayout = ga ++ gb ∧ groupsOf eol p'.comments tree'.wholeLayout = ga ++ gys ++ gb' ∧
      ga.map (·.tok) = codeOf [] 0 (A ++ [semiPiece w]) ∧
      gys.map (·.tok) = codeOf (spread (A ++ [semiPiece w]) []) (A ++ [semiPiece w]).length (rowOf Ys) ∧
      gys.map Group.shown = Ys.flatMap f ∧ gb'.map Group.shown = gb.map Group.shown
  | [], A, w, out, p, tree, h, _, _ => by
    have hl : (groupsOf eol p.comments tree.wholeLayout).map (·.tok) = p.tokens := by
      obtain ⟨c, t, _, q, _⟩ := h.formatted.laid
      rw [h.built] at t
      simp only [Res.ok.injEq] at t
      rw [t, q]
    obtain ⟨tok, _, tk, _⟩ := formatted_facts h.formatted h.divided
    have tAw : ∀ q ∈ A ++ [semiPiece w], ∃ k t, q.2 = .token k t := fun q hq => tok q (List.mem_append_left _ hq)
    have tk' : p.tokens = codeOf [] 0 (A ++ [semiPiece w] ++ B) := tk
    rw [tk', code_append tAw] at hl
    obtain ⟨ga, gb, e, h1, _⟩ := List.map_eq_append_iff.1 hl
    refine ⟨p, out, tree, ga, [], gb, gb, ?_, h.built, e, by simpa using e, h1, rfl, rfl, rfl⟩
    simpa [rowOf] using h.formatted
  | Y :: Ys, A, w, out, p, tree, h, hF, hA => by
    have hY := hF Y (by simp)
    obtain ⟨p1, o1, t1, ga, gy, gb, gb1, s0, s1, z1, z2, z3, z4, z5⟩ := h.insert hk hY
    obtain ⟨p2, o2, t2, ga2, gys, gb2, gb3, f2, b2, m1, m2, m3, m4, m5, m6⟩ := row hk f Ys s1 (fun Z hZ => hF Z (by simp [hZ]))
      (fun Z hZ => alone_behind hk h hY hZ (hA Z hZ))
    have tAw : ∀ q ∈ A ++ [semiPiece w], ∃ k t, q.2 = .token k t := fun q hq =>
      (formatted_facts h.formatted h.divided).1 q (List.mem_append_left _ hq)
    have hc : (A ++ [semiPiece w] ++ Y.1 ++ [semiPiece Y.2]) = A ++ [semiPiece w] ++ Y.pieces := by simp [Entry.pieces]
    rw [hc] at m3 m4
    have m3' := m3
    rw [code_append tAw, List.nil_append, Nat.zero_add] at m3'
    have l1 := lengthOf z3
    have l2 := lengthOf z4
    have l3 := lengthOf m3'
    rw [List.length_append] at l3
    rw [z2] at m1
    obtain ⟨x1, x2⟩ := List.append_inj m1 (by rw [List.length_append]; omega)
    subst x1 x2
    obtain ⟨p3, o3, t3, ga3, gy3, gb4, s3, n1, n2, n3, n4⟩ := hA Y hY
    obtain ⟨e1, _, e2⟩ := s3.alike s0 rfl
    subst e1 e2
    rw [z2] at n1
    have l4 := lengthOf n2
    have l5 := lengthOf n3
    simp only [List.append_assoc] at n1
    obtain ⟨_, x3⟩ := List.append_inj n1 (by omega)
    obtain ⟨x4, _⟩ := List.append_inj x3 (by omega)
    subst x4
    refine ⟨p2, o2, t2, ga, gy ++ gys, gb, gb3, ?_, b2, z1, by rw [m2]; simp, z3, ?_, ?_, by rw [m6, z5]⟩
    · simpa [rowOf, Entry.pieces] using f2
    · rw [List.map_append, z4, m4]
      show _ = codeOf _ _ (Y.pieces ++ rowOf Ys)
      rw [code_append hY.tokens]
      simp [spread, List.append_assoc]
      rw [show A.length + (Y.pieces.length + 1) = A.length + 1 + Y.pieces.length by omega]
    · rw [List.map_append, ← n4, m5]; rfl

/-- **C85** The items of a list are formatted one by one.  Take an accepted file and the semicolon of an element, an equation or a
statement in it.  There are a beginning, an end and, for every item that can stand there, a piece of output, such that the following
holds of any number of items, in any order, also repeated: the file with these items behind the semicolon is accepted, and its
output is the beginning, the pieces for the items in their order, and the end.  Each piece consists of what is printed for
the tokens of the item, each with the white space and the comments before it. -/
theorem C85_items_partial (eol name out w v : Text) (p : Parsed) (A B : List (Text × Chunk)) (tree : Tree) (k it : SK)
    (pre post : List Tree) (hf : Formatted eol name (spread (A ++ [semiPiece w] ++ B) v) p out)
    (hd : Divided (spread (A ++ [semiPiece w] ++ B) v) (A ++ [semiPiece w] ++ B))
    (ht : buildTree p.tokens p.events = .ok tree) (hk : listItem k = some it)
    (hX : Part (.node k (pre ++ .tok (semiTok [] 0 A w) :: post)) tree) :
    ∃ (ga gb : List Group) (f : Entry → List (List (Text × Text))), out = groupsText (ga ++ gb) ++ eol ∧
      ga.map (·.tok) = codeOf [] 0 (A ++ [semiPiece w]) ∧
      ∀ (name' : Text) (Ys : List Entry), (∀ Y ∈ Ys, Goes k it Y) → ∃ p' out' gys gb',
        Formatted eol name' (spread (A ++ [semiPiece w] ++ rowOf Ys ++ B) v) p' out' ∧
        out' = groupsText (ga ++ gys ++ gb') ++ eol ∧
        p'.tokens = ga.map (·.tok) ++ gys.map (·.tok) ++ gb'.map (·.tok) ∧
        gys.map (·.tok) = codeOf (spread (A ++ [semiPiece w]) []) (A ++ [semiPiece w]).length (rowOf Ys) ∧
        gys.map Group.shown = Ys.flatMap f ∧ gb'.map Group.shown = gb.map Group.shown := by
  classical
  have hs : Slot eol name k A w B v p out tree := ⟨hf, hd, ht, pre, post, hX⟩
  have ex : ∀ Y, ∃ gs, Goes k it Y → Alone eol name k A w B v Y gs := by
    intro Y
    by_cases hY : Goes k it Y
    · obtain ⟨p', o', t', ga, gy, gb, gb', s, _, _, z2, z3, z4, _⟩ := hs.insert hk hY
      exact ⟨_, fun _ => ⟨p', o', t', ga, gy, gb', s, z2, z3, z4, rfl⟩⟩
    · exact ⟨[], fun h => absurd h hY⟩
  let f : Entry → List (List (Text × Text)) := fun Y => (ex Y).choose
  have hA : ∀ Y, Goes k it Y → Alone eol name k A w B v Y (f Y) := fun Y => (ex Y).choose_spec
  obtain ⟨_, _, _, ga, _, gb, _, _, _, z1, _, z3, _⟩ := row hk f [] hs (by simp) hA
  refine ⟨ga, gb, f, by rw [laid_tree hf ht, z1], z3, fun name' Ys hYs => ?_⟩
  obtain ⟨p', out', tree', ga', gys, gb1, gb', f1, b1, y1, y2, y3, y4, y5, y6⟩ := row hk f Ys hs hYs hA
  have l1 := lengthOf z3
  have l2 := lengthOf y3
  rw [z1] at y1
  obtain ⟨x1, x2⟩ := List.append_inj y1 (by omega)
  subst x1 x2
  refine ⟨p', out', gys, gb', formatted_other f1, by rw [laid_tree f1 b1, y2], ?_, y4, y5, y6⟩
  obtain ⟨c, t, _, q, _⟩ := f1.laid
  rw [b1] at t
  simp only [Res.ok.injEq] at t
  rw [← q, ← t, y2]
  simp

/-- The text of what is shown. -/
def shownText (l : List (List (Text × Text))) : Text := l.flatMap fun g => g.flatMap fun x => x.1 ++ x.2

theorem groupsText_eq (gs : List Group) : groupsText gs = shownText (gs.map Group.shown) := by
  simp [groupsText, groupLexemes, lexemesText, shownText, Group.shown, List.flatMap_assoc, List.flatMap_map]

/-- **C85** The same for the text alone: the output is a beginning, a text for each item, and an end. -/
theorem C85_text_partial (eol name out w v : Text) (p : Parsed) (A B : List (Text × Chunk)) (tree : Tree) (k it : SK)
    (pre post : List Tree) (hf : Formatted eol name (spread (A ++ [semiPiece w] ++ B) v) p out)
    (hd : Divided (spread (A ++ [semiPiece w] ++ B) v) (A ++ [semiPiece w] ++ B))
    (ht : buildTree p.tokens p.events = .ok tree) (hk : listItem k = some it)
    (hX : Part (.node k (pre ++ .tok (semiTok [] 0 A w) :: post)) tree) :
    ∃ (first last : Text) (text : Entry → Text), out = first ++ last ∧
      ∀ (name' : Text) (Ys : List Entry), (∀ Y ∈ Ys, Goes k it Y) → ∃ p',
        Formatted eol name' (spread (A ++ [semiPiece w] ++ rowOf Ys ++ B) v) p' (first ++ Ys.flatMap text ++ last) := by
  obtain ⟨ga, gb, f, h1, _, h3⟩ := C85_items_partial eol name out w v p A B tree k it pre post hf hd ht hk hX
  have app : ∀ a b : List Group, groupsText (a ++ b) = groupsText a ++ groupsText b := by
    intro a b; simp [groupsText, groupLexemes, lexemesText]
  refine ⟨groupsText ga, groupsText gb ++ eol, fun Y => shownText (f Y), by rw [h1, app, List.append_assoc], fun name' Ys hYs => ?_⟩
  obtain ⟨p', out', gys, gb', k1, k2, _, _, k5, k6⟩ := h3 name' Ys hYs
  refine ⟨p', ?_⟩
  have : out' = groupsText ga ++ Ys.flatMap (fun Y => shownText (f Y)) ++ (groupsText gb ++ eol) := by
    rw [k2, app, app, groupsText_eq gys, k5, groupsText_shown k6]
    simp [shownText, List.flatMap_assoc]
  rw [← this]
  exact k1

def exRowSrc : Text :=
  spread (exMoreA ++ [semiPiece c!" "] ++ rowOf [(exMoreY, []), (exSwapY, []), (exSwapY, []), (exMoreY, [])] ++ exMoreB) []
def exRowOut : Text :=
  c!"model A\n\nequation\n\n  x = 1;" ++ (c!"\n  /* n */\n  v = f(\n    2);" ++ c!" // c\n\n  y = z;" ++ c!" // c\n\n  y = z;" ++
    c!"\n  /* n */\n  v = f(\n    2);") ++ c!" // c\n\n  y = z;\n\nend A;\n"

set_option maxRecDepth 100000 in
set_option maxHeartbeats 2000000 in
/-- The hypotheses of `C85_items_partial` hold of a file with two equations (with `C73_case`) and two equations with comments; the
output for four of them, two of each, is made of the same pieces. -/
theorem C85_case : Goes .EquationSection .Equation (exMoreY, []) ∧ Goes .EquationSection .Equation (exSwapY, []) ∧
    listItem .EquationSection = some .Equation ∧
    ∃ p, Formatted c!"\n" c!"f" exRowSrc p exRowOut := by
  refine ⟨⟨?_, by decide +kernel, dividedB_sound (by decide +kernel), ?_⟩, ⟨?_, by decide +kernel, dividedB_sound (by decide +kernel), ?_⟩,
    rfl, ?_⟩
  · intro x hx
    simp only [exMoreY, List.mem_cons, List.not_mem_nil, or_false] at hx
    rcases hx with rfl | rfl | rfl | rfl | rfl | rfl | rfl <;> exact ⟨_, _, rfl⟩
  · exact ⟨spread (exMoreA ++ [semiPiece c!" "]) [], (exMoreA ++ [semiPiece c!" "]).length, exMoreItem, by decide,
      readingOf (by decide +kernel) (by decide +kernel) (by decide +kernel), opensB_sound _ (by decide +kernel), by decide +kernel,
      by decide +kernel⟩
  · intro x hx
    simp only [exSwapY, exMoreB, List.take_succ_cons, List.take_zero, List.mem_cons, List.not_mem_nil, or_false] at hx
    rcases hx with rfl | rfl | rfl | rfl <;> exact ⟨_, _, rfl⟩
  · exact ⟨spread (exMoreA ++ [semiPiece c!" "] ++ (exMoreY ++ [semiPiece []])) [],
      (exMoreA ++ [semiPiece c!" "] ++ (exMoreY ++ [semiPiece []])).length, exSwapItem 5, by decide,
      readingOf (by decide +kernel) (by decide +kernel) (by decide +kernel), opensB_sound _ (by decide +kernel), by decide +kernel,
      by decide +kernel⟩
  · exact ⟨exEditP exRowSrc, by decide_cbv, by decide_cbv, exRowOut.dropLast, by decide_cbv, by decide⟩

end Mofmt
