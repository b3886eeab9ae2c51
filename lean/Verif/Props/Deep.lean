import Verif.Props.Numbers
import Verif.Props.Blanks
import Verif.Props.Local
/-
C77: the bound for the size of the output is of the right order.
-/
namespace Mofmt

open Lexical

/-! ### Indentation takes room -/

/-- the levels of the line breaks, added up -/
def levelSum : List (Dec × Token) → Nat
  | [] => 0
  | (.brk _ n, _) :: ds => n + levelSum ds
  | _ :: ds => levelSum ds

theorem levelSum_append : ∀ a b : List (Dec × Token), levelSum (a ++ b) = levelSum a + levelSum b
  | [], b => by simp [levelSum]
  | (.none, _) :: a, b | (.space, _) :: a, b => by simp only [List.cons_append, levelSum, levelSum_append a b]
  | (.brk _ n, _) :: a, b => by simp only [List.cons_append, levelSum, levelSum_append a b]; omega

theorem white_gap_ge (eol : Text) (n x line : Nat) : 2 * n ≤ ((gapPiece n x line).text eol).length := by
  unfold gapPiece
  split <;> simp only [Piece.text, List.length_append, indentText_length] <;> omega

theorem breakPieces_ge (eol : Text) (n : Nat) (first : Bool) (taken : List Token) (line : Nat) (b : Blank) (tok : Token) :
    2 * n ≤ sizeOf' eol (breakPieces first taken line b n tok) := by
  unfold breakPieces
  simp only
  rw [sizeOf_append]
  cases b with
  | Required =>
    simp only
    rw [sizeOf_cons]
    simp only [Piece.text, List.length_append, indentText_length]
    omega
  | Legal =>
    have := white_gap_ge eol n tok.start.line (lastLine line (taken.filter fun c => !(c.start.line == line)))
    simp only
    rw [sizeOf_append, sizeOf_cons, sizeOf_nil]
    omega
  | Illegal =>
    simp only
    rw [sizeOf_append, sizeOf_cons, sizeOf_nil]
    simp only [Piece.text, List.length_append, indentText_length]
    omega

theorem run_ge (eol : Text) : ∀ (ds : List (Dec × Token)) (L : LS),
    sizeOf' eol L.out + 2 * levelSum ds ≤ sizeOf' eol (L.run ds).out
  | [], L => by simp [levelSum, LS.run]
  | (d, t) :: ds, L => by
    have h := run_ge eol ds (L.step (d, t))
    show _ ≤ sizeOf' eol ((L.step (d, t)).run ds).out
    refine Nat.le_trans ?_ h
    cases d with
    | none => simp only [levelSum, LS.step, LS.dec, LS.emit, sizeOf_cons]; omega
    | space => simp only [levelSum, LS.step, LS.dec, LS.emit, sizeOf_cons]; omega
    | brk b n =>
      have := breakPieces_ge eol n L.out.isEmpty (L.comments.takeWhile (·.idx < t.idx)) L.line b t
      simp only [levelSum, LS.step, LS.dec, LS.emit, sizeOf_cons, sizeOf_append, sizeOf_reverse]
      omega

theorem wholeText_ge (eol : Text) (C : List Token) (tree : Tree) :
    2 * levelSum tree.wholeLayout ≤ (tree.wholeText eol C).length := by
  have h := run_ge eol tree.wholeLayout (LS.init C)
  have e := sizeOf_reverse eol ((LS.init C).run tree.wholeLayout).out
  rw [Tree.wholeText, List.length_append]
  simp only [sizeOf'] at h e
  omega

/-! ### Classes in classes -/

/-- the tokens of `model A end A;` -/
structure Five where
  a : Token
  b : Token
  c : Token
  d : Token
  e : Token

def Five.Good (x : Five) : Prop :=
  x.a.kind = .Model ∧ x.b.kind = .Identifier ∧ x.c.kind = .End ∧ x.d.kind = .Identifier ∧ x.e.kind = .Semicolon

/-- a class with a class in it, and so on -/
def deep : Five → List Five → Tree
  | x, [] => .node .ClassDefinition [.node .ClassPrefixes [.tok x.a],
      .node .ClassSpecifier [.node .LongClassSpecifier [.tok x.b, .tok x.c, .tok x.d]]]
  | x, y :: l => .node .ClassDefinition [.node .ClassPrefixes [.tok x.a],
      .node .ClassSpecifier [.node .LongClassSpecifier [.tok x.b,
        .node .Composition [.node .ElementList [.node .Element [deep y l], .tok y.e]], .tok x.c, .tok x.d]]]

/-- its tokens and a semicolon -/
def deepToks : Five → List Five → List Token
  | x, [] => [x.a, x.b, x.c, x.d, x.e]
  | x, y :: l => x.a :: x.b :: (deepToks y l ++ [x.c, x.d, x.e])

theorem deep_leaves : ∀ (l : List Five) (x : Five), (deep x l).leaves ++ [x.e] = deepToks x l
  | [], x => by simp [deep, deepToks, Tree.leaves, leavesF]
  | y :: l, x => by
    have := deep_leaves l y
    simp only [deep, deepToks, Tree.leaves, leavesF, List.append_nil, List.cons_append, List.nil_append, ← this,
      List.append_assoc]

theorem deep_sym (x : Five) (l : List Five) : (deep x l).sym = .n .ClassDefinition := by cases l <;> rfl

theorem sym_tok (t : Token) : (Tree.tok t).sym = .t t.kind := rfl
theorem sym_node (k : SK) (cs : List Tree) : (Tree.node k cs).sym = .n k := rfl

theorem deep_fits : ∀ (l : List Five) (x : Five), x.Good → (∀ y ∈ l, y.Good) → (deep x l).fits = true
  | [], x, ⟨h1, h2, h3, h4, _⟩, _ => by
    simp only [deep, Tree.fits, fitsF, List.map_cons, List.map_nil, sym_tok, sym_node, h1, h2, h3, h4]
    decide +kernel
  | y :: l, x, ⟨h1, h2, h3, h4, _⟩, h => by
    have ih := deep_fits l y (h y List.mem_cons_self) (fun z hz => h z (List.mem_cons_of_mem _ hz))
    have h5 := (h y List.mem_cons_self).2.2.2.2
    have h6 := deep_sym y l
    simp only [deep, Tree.fits, fitsF, List.map_cons, List.map_nil, h6, ih, sym_tok, sym_node, h1, h2, h3, h4, h5, Bool.and_true]
    decide +kernel

theorem deep_full : ∀ (l : List Five) (x : Five), (deep x l).hasEmpty = false
  | [], x => by simp [deep, Tree.hasEmpty, hasEmptyF]
  | y :: l, x => by simp [deep, Tree.hasEmpty, hasEmptyF, deep_full l y]

theorem startsOk_node (p k : SK) (cs : List Tree) (h : k ≠ .Equation) : (Tree.node k cs).startsOk p = true := by
  simp only [Tree.startsOk]
  split
  · rfl
  · simp [opens, h]

theorem startsOk_tok (p : SK) (t : Token) : (Tree.tok t).startsOk p = true := rfl

theorem deep_starts (p : SK) (x : Five) (l : List Five) : (deep x l).startsOk p = true := by
  cases l <;> exact startsOk_node _ _ _ (by decide)

theorem deep_opens : ∀ (l : List Five) (x : Five), (deep x l).opensB = true
  | [], x => by simp [deep, Tree.opensB, opensFB, startsOk_node, startsOk_tok]
  | y :: l, x => by simp [deep, Tree.opensB, opensFB, deep_opens l y, deep_starts, startsOk_node, startsOk_tok]

/-- the file with the class -/
def deepFile (x : Five) (l : List Five) : List Tree := [deep x l, .tok x.e]

theorem deep_reading (x : Five) (l : List Five) (hx : x.Good) (hl : ∀ y ∈ l, y.Good) :
    Reading .StoredDefinition (deepToks x l) (deepFile x l) ∧ (Tree.node .StoredDefinition (deepFile x l)).Opens := by
  constructor
  · refine readingOf ?_ ?_ ?_
    · have ih := deep_fits l x hx hl
      have h6 := deep_sym x l
      have h5 := hx.2.2.2.2
      simp only [deepFile, Tree.fits, fitsF, List.map_cons, List.map_nil, h6, ih, sym_tok, h5, Bool.and_true]
      decide +kernel
    · simp [deepFile, hasEmptyF, deep_full, Tree.hasEmpty]
    · rw [← deep_leaves]; simp [deepFile, leavesF, Tree.leaves]
  · refine opensB_sound _ ?_
    simp [deepFile, Tree.opensB, opensFB, deep_opens l x, deep_starts, startsOk_tok]

/-! ### Their layout -/

/-- a child is at the level of the production, or deeper -/
theorem levelIn_ge (k : SK) (n : Nat) (w : Bool) (pre : List Tree) (c : Tree) (post : List Tree) :
    n + extra k pre c post ≤ levelIn k n w pre c post := by
  unfold levelIn
  omega

theorem levelSum_child (k : SK) (n : Nat) (w m : Bool) (c : Tree) (l2 : List Tree) : ∀ (l1 pre : List Tree) (d : Dec),
    ∃ l' w' m' d', n + extra k (pre ++ l1) c l2 ≤ l' ∧
      levelSum (c.layout l' w' m' d') ≤ levelSum (layoutF k n w m pre d (l1 ++ c :: l2))
  | [], pre, d => by
    rw [List.append_nil, List.nil_append, layoutF, levelSum_append]
    exact ⟨levelIn k n w pre c l2, _, _, _, levelIn_ge .., Nat.le_add_right ..⟩
  | x :: l1, pre, d => by
    obtain ⟨l', w', m', d', h1, h2⟩ := levelSum_child k n w m c l2 l1 (pre ++ [x]) .none
    refine ⟨l', w', m', d', by simpa using h1, Nat.le_trans h2 ?_⟩
    rw [List.cons_append, layoutF, levelSum_append]
    exact Nat.le_add_left ..

/-- `l + (l + 1) + … `, `n` numbers -/
def stairs : Nat → Nat → Nat
  | _, 0 => 0
  | l, n + 1 => l + stairs (l + 1) n

theorem stairs_mono : ∀ (n : Nat) {a b : Nat}, a ≤ b → stairs a n ≤ stairs b n
  | 0, _, _, _ => Nat.le_refl _
  | n + 1, a, b, h => by
    have := stairs_mono n (a := a + 1) (b := b + 1) (by omega)
    simp only [stairs]
    omega

theorem stairs_eq : ∀ (n l : Nat), 2 * stairs l (n + 1) = (n + 1) * (2 * l + n)
  | 0, l => by simp [stairs]
  | n + 1, l => by
    have := stairs_eq n (l + 1)
    rw [stairs, Nat.mul_add, this, Nat.succ_mul (n + 1), show 2 * l + (n + 1) = 2 * (l + 1) + n - 1 by omega]
    have e : (n + 1) * (2 * (l + 1) + n) = (n + 1) * (2 * (l + 1) + n - 1) + (n + 1) := by
      rw [← Nat.mul_succ]; congr 1; omega
    omega

theorem end_ge (n : Nat) (w m : Bool) (pre : List Tree) (c : Token) (hc : c.kind = .End) (post : List Tree) :
    n ≤ levelSum (layoutF .LongClassSpecifier n w m pre .none (.tok c :: post)) := by
  rw [layoutF, levelSum_append, Tree.layout]
  have : gapAt .LongClassSpecifier m pre (.tok c) post = .brk .Required := by
    simp [gapAt, gapIn, sym_tok, hc, breakBefore]
  rw [this]
  have := levelIn_ge .LongClassSpecifier n w pre (.tok c) post
  simp only [Dec.or, Gap.at, levelSum]
  omega

theorem deep_levels : ∀ (l : List Five) (x : Five), x.Good → (∀ y ∈ l, y.Good) → ∀ (n : Nat) (w m : Bool) (d : Dec),
    stairs n (l.length + 1) ≤ levelSum ((deep x l).layout n w m d)
  | [], x, hx, _, n, w, m, d => by
    simp only [deep, Tree.layout]
    obtain ⟨n1, w1, m1, d1, a1, b1⟩ := levelSum_child .ClassDefinition n w m (.node .ClassSpecifier
      [.node .LongClassSpecifier [.tok x.b, .tok x.c, .tok x.d]]) [] [.node .ClassPrefixes [.tok x.a]] [] d
    refine Nat.le_trans ?_ b1
    rw [Tree.layout]
    obtain ⟨n2, w2, m2, d2, a2, b2⟩ := levelSum_child .ClassSpecifier n1 w1 m1
      (.node .LongClassSpecifier [.tok x.b, .tok x.c, .tok x.d]) [] [] [] d1
    refine Nat.le_trans ?_ b2
    rw [Tree.layout, layoutF, levelSum_append]
    have := end_ge n2 w2 m2 ([] ++ [.tok x.b]) x.c hx.2.2.1 [.tok x.d]
    simp only [List.length_nil, stairs]
    omega
  | y :: l, x, hx, hl, n, w, m, d => by
    simp only [deep, Tree.layout]
    obtain ⟨n1, w1, m1, d1, a1, b1⟩ := levelSum_child .ClassDefinition n w m (.node .ClassSpecifier
      [.node .LongClassSpecifier [.tok x.b, .node .Composition [.node .ElementList [.node .Element [deep y l], .tok y.e]],
        .tok x.c, .tok x.d]]) [] [.node .ClassPrefixes [.tok x.a]] [] d
    refine Nat.le_trans ?_ b1
    rw [Tree.layout]
    obtain ⟨n2, w2, m2, d2, a2, b2⟩ := levelSum_child .ClassSpecifier n1 w1 m1
      (.node .LongClassSpecifier [.tok x.b, .node .Composition [.node .ElementList [.node .Element [deep y l], .tok y.e]],
        .tok x.c, .tok x.d]) [] [] [] d1
    refine Nat.le_trans ?_ b2
    rw [Tree.layout, layoutF, levelSum_append, layoutF, levelSum_append]
    have h1 := end_ge n2 w2 m2 ([] ++ [.tok x.b] ++
      [.node .Composition [.node .ElementList [.node .Element [deep y l], .tok y.e]]]) x.c hx.2.2.1 [.tok x.d]
    have h2 := levelIn_ge .LongClassSpecifier n2 w2 ([] ++ [.tok x.b])
      (.node .Composition [.node .ElementList [.node .Element [deep y l], .tok y.e]]) [.tok x.c, .tok x.d]
    have key : ∀ n3 w3 m3 d3, n2 ≤ n3 → stairs (n + 1) (l.length + 1) ≤ levelSum (Tree.layout n3 w3 m3 d3
        (.node .Composition [.node .ElementList [.node .Element [deep y l], .tok y.e]])) := by
      intro n3 w3 m3 d3 h3
      rw [Tree.layout]
      obtain ⟨n4, w4, m4, d4, a4, b4⟩ := levelSum_child .Composition n3 w3 m3
        (.node .ElementList [.node .Element [deep y l], .tok y.e]) [] [] [] d3
      have e4 : extra .Composition ([] ++ []) (.node .ElementList [.node .Element [deep y l], .tok y.e]) [] = 1 := by
        simp [extra, sym_node, extraIn]
      rw [Tree.layout] at b4
      obtain ⟨n5, w5, m5, d5, a5, b5⟩ := levelSum_child .ElementList n4 w4 m4 (.node .Element [deep y l]) [.tok y.e] [] [] d4
      rw [Tree.layout] at b5
      obtain ⟨n6, w6, m6, d6, a6, b6⟩ := levelSum_child .Element n5 w5 m5 (deep y l) [] [] [] d5
      have ih := deep_levels l y (hl y List.mem_cons_self) (fun z hz => hl z (List.mem_cons_of_mem _ hz)) n6 w6 m6 d6
      have hm := stairs_mono (l.length + 1) (a := n + 1) (b := n6) (by omega)
      simp only [List.nil_append] at b4 b5 b6 ⊢
      omega
    refine Nat.le_trans ?_ (Nat.le_add_left _ _)
    rw [List.length_cons, stairs, Nat.add_comm]
    exact Nat.add_le_add (key _ _ _ _ (by omega)) (Nat.le_trans (by omega) h1)

/-! ### The text -/

def deepOpen : List (Text × Chunk) := [(c!" ", .token .Model c!"model"), (c!" ", .token .Identifier c!"A")]
def deepClose : List (Text × Chunk) :=
  [(c!" ", .token .End c!"end"), (c!" ", .token .Identifier c!"A"), ([], .token .Semicolon c!";")]

/-- `n` copies -/
def copies {α : Type} (l : List α) : Nat → List α
  | 0 => []
  | n + 1 => l ++ copies l n

theorem copies_last {α : Type} (l : List α) : ∀ n, copies l (n + 1) = copies l n ++ l
  | 0 => by simp [copies]
  | n + 1 => by
    show l ++ copies l (n + 1) = (l ++ copies l n) ++ l
    rw [copies_last l n, List.append_assoc]

theorem copies_map {α β : Type} (f : α → β) (l : List α) : ∀ n, (copies l n).map f = copies (l.map f) n
  | 0 => rfl
  | n + 1 => by rw [copies, List.map_append, copies_map f l n, copies]

/-- the pieces of a file with `n + 1` classes -/
def deepPieces (n : Nat) : List (Text × Chunk) := copies deepOpen (n + 1) ++ copies deepClose (n + 1)

/-- the file: ` model A` and then ` end A;`, both `n + 1` times -/
def deepText (n : Nat) : Text := copies c!" model A" (n + 1) ++ copies c!" end A;" (n + 1)

/-- the text goes on with white space or a semicolon -/
def apart (r : Text) : Bool := r.head?.all fun c => c == ' ' || c == ';'

theorem apart_follows {k : Tok} (hk : sticks k ' ' = false ∧ sticks k ';' = false) {r : Text} (h : apart r = true) :
    follows k r = true := by
  unfold follows
  cases r with
  | nil => rfl
  | cons c r =>
    simp only [apart, List.head?_cons, Option.all_some, Bool.or_eq_true, beq_iff_eq] at h
    rcases h with rfl | rfl
    · simp [hk.1]
    · simp [hk.2]

theorem divided_piece {k : Tok} {t w r : Text} {ps : List (Text × Chunk)} (hw : w.all ws = true) (hc : Class k t)
    (hf : follows k r = true) (h : Divided r ps) : Divided (w ++ t ++ r) ((w, .token k t) :: ps) := by
  obtain ⟨c, cs, rfl, hm⟩ := munch_relex hc hf
  exact divided_token hw hm h

theorem classA : Class .Identifier c!"A" := munch_class (c := 'A') (cs := []) (k := .Identifier) (r := []) (by decide)

theorem deepClose_divided : ∀ n, Divided (copies c!" end A;" n) (copies deepClose n) ∧ apart (copies c!" end A;" n) = true
  | 0 => ⟨.done rfl, rfl⟩
  | n + 1 => by
    obtain ⟨h, ha⟩ := deepClose_divided n
    refine ⟨?_, rfl⟩
    have h1 := divided_piece (k := .Semicolon) (t := c!";") (w := []) rfl rfl (apart_follows (by decide) ha) h
    have h2 := divided_piece (k := .Identifier) (t := c!"A") (w := c!" ") rfl classA
      (apart_follows (by decide) rfl) h1
    have h3 := divided_piece (k := .End) (t := c!"end") (w := c!" ") rfl rfl (apart_follows (by decide) rfl) h2
    exact h3

theorem deepOpen_divided {r : Text} {ps : List (Text × Chunk)} (h0 : Divided r ps) (ha0 : apart r = true) :
    ∀ n, Divided (copies c!" model A" n ++ r) (copies deepOpen n ++ ps) ∧ apart (copies c!" model A" n ++ r) = true
  | 0 => ⟨h0, ha0⟩
  | n + 1 => by
    obtain ⟨h, ha⟩ := deepOpen_divided h0 ha0 n
    refine ⟨?_, rfl⟩
    have h2 := divided_piece (k := .Identifier) (t := c!"A") (w := c!" ") rfl classA
      (apart_follows (by decide) ha) h
    have h3 := divided_piece (k := .Model) (t := c!"model") (w := c!" ") rfl rfl (apart_follows (by decide) rfl) h2
    exact h3

theorem deep_divided (n : Nat) : Divided (deepText n) (deepPieces n) :=
  (deepOpen_divided (deepClose_divided (n + 1)).1 (deepClose_divided (n + 1)).2 (n + 1)).1

/-- the kinds of tokens of pieces -/
def pieceKinds (ps : List (Text × Chunk)) : List Tok := ps.filterMap fun x => match x.2 with
  | .token k _ => some k
  | _ => none

theorem lexemes_pieceKinds : ∀ (ps : List (Text × Chunk)) (pre : Text) (i : Nat),
    (lexemes pre i ps).map (·.kind) = pieceKinds ps
  | [], _, _ => rfl
  | (w, .token k t) :: ps, pre, i => by
    rw [lexemes, List.map_cons, lexemes_pieceKinds ps]; rfl
  | (w, .stray c) :: ps, pre, i => by rw [lexemes, lexemes_pieceKinds ps]; rfl; intro _ _ h; cases h
  | (w, .broken b c) :: ps, pre, i => by rw [lexemes, lexemes_pieceKinds ps]; rfl; intro _ _ h; cases h
  | (w, .openString b) :: ps, pre, i => by rw [lexemes, lexemes_pieceKinds ps]; rfl; intro _ _ h; cases h
  | (w, .openQuoted b) :: ps, pre, i => by rw [lexemes, lexemes_pieceKinds ps]; rfl; intro _ _ h; cases h
  | (w, .openComment b) :: ps, pre, i => by rw [lexemes, lexemes_pieceKinds ps]; rfl; intro _ _ h; cases h

theorem pieceKinds_append (a b : List (Text × Chunk)) : pieceKinds (a ++ b) = pieceKinds a ++ pieceKinds b := by
  simp [pieceKinds]

theorem pieceKinds_copies (l : List (Text × Chunk)) : ∀ n, pieceKinds (copies l n) = copies (pieceKinds l) n
  | 0 => rfl
  | n + 1 => by rw [copies, pieceKinds_append, pieceKinds_copies l n, copies]

/-- tokens of these kinds are classes in classes -/
theorem deep_exists : ∀ (n : Nat) (ts : List Token),
    ts.map (·.kind) = copies [Tok.Model, .Identifier] (n + 1) ++ copies [Tok.End, .Identifier, .Semicolon] (n + 1) →
    ∃ x l, l.length = n ∧ x.Good ∧ (∀ y ∈ l, y.Good) ∧ ts = deepToks x l
  | 0, ts, h => by
    rcases ts with _ | ⟨a, _ | ⟨b, _ | ⟨c, _ | ⟨d, _ | ⟨e, _ | ⟨f, ts⟩⟩⟩⟩⟩⟩ <;> simp [copies] at h
    exact ⟨⟨a, b, c, d, e⟩, [], rfl, h, by simp, rfl⟩
  | n + 1, ts, h => by
    rw [copies, copies_last _ (n + 1)] at h
    rcases ts with _ | ⟨a, _ | ⟨b, ts⟩⟩
    · simp at h
    · simp at h
    simp only [List.map_cons, List.cons_append, List.nil_append, List.cons.injEq] at h
    obtain ⟨ha, hb, h⟩ := h
    rw [← List.append_assoc, List.map_eq_append_iff] at h
    obtain ⟨l1, l2, rfl, h1, h2⟩ := h
    obtain ⟨y, l, g1, g2, g3, rfl⟩ := deep_exists n l1 h1
    rcases l2 with _ | ⟨c, _ | ⟨d, _ | ⟨e, _ | ⟨f, ts⟩⟩⟩⟩ <;> simp at h2
    refine ⟨⟨a, b, c, d, e⟩, y :: l, by simp [g1], ⟨ha, hb, h2⟩, ?_, rfl⟩
    intro z hz
    rcases List.mem_cons.1 hz with rfl | hz
    · exact g2
    · exact g3 z hz

theorem copies_length {α : Type} (l : List α) : ∀ n, (copies l n).length = n * l.length
  | 0 => by simp [copies]
  | n + 1 => by rw [copies, List.length_append, copies_length l n, Nat.succ_mul]; omega

/-- **C77** The bound is of the right order: for every `n` there is a file of `15 (n + 1)` characters, classes in classes,
that is accepted, and whose formatted text has `n (n + 1)` characters or more. -/
theorem C77_quadratic (eol name : Text) (n : Nat) : ∃ src p out, Formatted eol name src p out ∧
    src.length = 15 * (n + 1) ∧ n * (n + 1) ≤ out.length := by
  have hd := deep_divided n
  have hkinds : (lexemes [] 0 (deepPieces n)).map (·.kind) =
      copies [Tok.Model, .Identifier] (n + 1) ++ copies [Tok.End, .Identifier, .Semicolon] (n + 1) := by
    rw [lexemes_pieceKinds, deepPieces, pieceKinds_append, pieceKinds_copies, pieceKinds_copies]; rfl
  have hmem : ∀ x ∈ deepPieces n, x ∈ deepOpen ++ deepClose := by
    have : ∀ (l : List (Text × Chunk)) m, ∀ x ∈ copies l m, x ∈ l := by
      intro l m
      induction m with
      | zero => intro x hx; simp [copies] at hx
      | succ m ih =>
        intro x hx
        rw [copies] at hx
        rcases List.mem_append.1 hx with hx | hx
        · exact hx
        · exact ih x hx
    intro x hx
    rcases List.mem_append.1 hx with hx | hx
    · exact List.mem_append_left _ (this _ _ x hx)
    · exact List.mem_append_right _ (this _ _ x hx)
  have hcom : (lexemes [] 0 (deepPieces n)).filter (fun t => !isComment t) = lexemes [] 0 (deepPieces n) := by
    rw [List.filter_eq_self]
    intro t ht
    have hk : t.kind ∈ (lexemes [] 0 (deepPieces n)).map (·.kind) := List.mem_map_of_mem ht
    rw [lexemes_pieceKinds, pieceKinds, List.mem_filterMap] at hk
    obtain ⟨x, hx, hk⟩ := hk
    have := hmem x hx
    simp only [deepOpen, deepClose, List.cons_append, List.nil_append, List.mem_cons, List.not_mem_nil, or_false] at this
    rcases this with rfl | rfl | rfl | rfl | rfl <;> simp at hk <;> simp [isComment, ← hk]
  obtain ⟨x, l, hl, hx, hg, hts⟩ := deep_exists n _ hkinds
  obtain ⟨hr, ho⟩ := deep_reading x l hx hg
  rw [← hts] at hr
  obtain ⟨p, hp, he⟩ := (C54_accepted_text name (deepText n)).2 ⟨deepPieces n, deepFile x l, hd,
    fun y hy => by
      have := hmem y hy
      simp only [deepOpen, deepClose, List.cons_append, List.nil_append, List.mem_cons, List.not_mem_nil, or_false] at this
      rcases this with rfl | rfl | rfl | rfl | rfl <;> rfl,
    fun y hy t ht => by
      have := hmem y hy
      simp only [deepOpen, deepClose, List.cons_append, List.nil_append, List.mem_cons, List.not_mem_nil, or_false] at this
      rcases this with rfl | rfl | rfl | rfl | rfl <;> simp at ht,
    by rw [hcom]; exact hr, ho⟩
  obtain ⟨out, hf⟩ := C03_formatted eol name (deepText n) p hp he
  refine ⟨deepText n, p, out, hf, ?_, ?_⟩
  · rw [deepText, List.length_append, copies_length, copies_length]
    show (n + 1) * 8 + (n + 1) * 7 = _
    omega
  · obtain ⟨_, _, h3, _, cs, _, _, hr', ho', ht, _⟩ := formatted_facts hf hd
    obtain ⟨tree, ht', hout⟩ := C47_layout eol name (deepText n) out p hf
    rw [h3, hcom] at hr'
    have hcs := C52_unambiguous .StoredDefinition _ _ _ (by decide) hr' ho' hr ho
    rw [ht] at ht'
    simp only [Res.ok.injEq] at ht'
    subst ht'
    subst hcs
    have h1 := wholeText_ge eol p.comments (.node .StoredDefinition (deepFile x l))
    rw [← hout] at h1
    refine Nat.le_trans ?_ h1
    obtain ⟨n1, w1, m1, d1, a1, b1⟩ := levelSum_child .StoredDefinition 0 false false (deep x l) [.tok x.e] [] [] .none
    have h2 := deep_levels l x hx hg n1 w1 m1 d1
    have h4 := stairs_mono (l.length + 1) (Nat.zero_le n1)
    have h5 := stairs_eq l.length 0
    rw [hl] at h2 h4 h5
    have h6 : n * (n + 1) = 2 * stairs 0 (n + 1) := by rw [h5, Nat.mul_comm]; simp
    rw [h6]
    have : levelSum (Tree.wholeLayout (.node .StoredDefinition (deepFile x l))) =
      levelSum (layoutF .StoredDefinition 0 false false [] .none ([] ++ deep x l :: [.tok x.e])) := rfl
    omega

/-- the smallest file of that kind with a class in a class, and one of the next ones -/
theorem C77_case : ∃ p q, Formatted c!"\n" c!"f" (deepText 1) p
      c!"model A\n\n  model A\n\n  end A;\n\nend A;\n" ∧
    Formatted c!"\n" c!"f" (deepText 3) q
      c!"model A\n\n  model A\n\n    model A\n\n      model A\n\n      end A;\n\n    end A;\n\n  end A;\n\nend A;\n" ∧
    q.tokens.length = 20 := by
  refine ⟨exEditP (deepText 1), exEditP (deepText 3),
    ⟨by decide_cbv, by decide_cbv, c!"model A\n\n  model A\n\n  end A;\n\nend A;", by decide_cbv, by decide⟩,
    ⟨by decide_cbv, by decide_cbv,
      c!"model A\n\n  model A\n\n    model A\n\n      model A\n\n      end A;\n\n    end A;\n\n  end A;\n\nend A;", by decide_cbv, by decide⟩,
    by decide_cbv⟩

end Mofmt
