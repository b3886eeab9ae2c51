import Verif.Proofs.Numbers
import Verif.Props.Work
import Verif.Props.Whole
import Verif.Props.Spacing
/-
C77: the numbers the program counts with and the size of the output are bounded by the size of the file.
-/
namespace Mofmt

open Lexical

/-! ### Levels -/

theorem extraIn_le (k : SK) (p : Option Sym) (s : Sym) (a b c d : Bool) : extraIn k p s a b c d ≤ 2 := by
  unfold extraIn
  split <;> first | omega | (split <;> omega)

theorem levelIn_le (k : SK) (n : Nat) (w : Bool) (pre : List Tree) (c : Tree) (post : List Tree) :
    levelIn k n w pre c post ≤ n + 3 + leaksF k pre := by
  unfold levelIn
  have : extra k pre c post ≤ 2 := extraIn_le ..
  split <;> omega

mutual
theorem leaks_le (t : Tree) : t.leaks ≤ t.nodes ∧ ((∃ k cs, t = .node k cs) → t.leaks + 1 ≤ t.nodes) := by
  match t with
  | .tok _ => exact ⟨Nat.le_refl _, by rintro ⟨k, cs, h⟩; cases h⟩
  | .node k cs =>
    have := leaksF_le k cs
    simp only [Tree.leaks, Tree.nodes]
    exact ⟨by omega, fun _ => by omega⟩
theorem leaksF_le (k : SK) (cs : List Tree) : leaksF k cs ≤ nodesF cs := by
  match cs with
  | [] => exact Nat.le_refl _
  | .tok t :: cs =>
    have := leaksF_le k cs
    have e : leakChild k (Tree.tok t).sym = false := by unfold leakChild; cases k <;> rfl
    simp only [leaksF, nodesF, e, Tree.leaks]
    simp; omega
  | .node k' ds :: cs =>
    have := leaksF_le k cs
    have := (leaks_le (.node k' ds)).2 ⟨_, _, rfl⟩
    simp only [leaksF, nodesF]
    split <;> omega
end

theorem leaksF_last (k : SK) (c : Tree) : ∀ pre : List Tree, leaksF k (pre ++ [c]) = leaksF k pre + leaksF k [c]
  | [] => by simp [leaksF]
  | d :: pre => by simp only [List.cons_append, leaksF, leaksF_last k c pre]; omega

theorem LevelsTo.append {n : Nat} {a b : List (Dec × Token)} (ha : LevelsTo n a) (hb : LevelsTo n b) : LevelsTo n (a ++ b) := by
  intro x l t h
  rcases List.mem_append.1 h with h | h
  · exact ha _ _ _ h
  · exact hb _ _ _ h

mutual
theorem layout_within (t : Tree) (n : Nat) (w m : Bool) (d : Dec) (N : Nat) (hd : ∀ b l, d = .brk b l → l ≤ N)
    (hN : n + 3 * t.nodes ≤ N) : LevelsTo N (t.layout n w m d) := by
  match t with
  | .tok t =>
    intro b l u h
    simp only [Tree.layout, List.mem_singleton, Prod.mk.injEq] at h
    exact hd b l h.1.symm
  | .node k cs =>
    rw [Tree.layout]
    refine layoutF_within k cs n w m [] d N hd ?_
    simp only [Tree.nodes] at hN
    simp only [leaksF]
    omega
theorem layoutF_within (k : SK) (cs : List Tree) (n : Nat) (w m : Bool) (pre : List Tree) (d : Dec) (N : Nat)
    (hd : ∀ b l, d = .brk b l → l ≤ N) (hN : n + leaksF k pre + 3 + 3 * nodesF cs ≤ N) :
    LevelsTo N (layoutF k n w m pre d cs) := by
  match cs with
  | [] => intro b l t h; simp [layoutF] at h
  | c :: cs =>
    rw [layoutF]
    have hl := levelIn_le k n w pre c cs
    have e : nodesF (c :: cs) = c.nodes + nodesF cs := rfl
    rw [e] at hN
    refine LevelsTo.append (layout_within c _ _ _ _ N ?_ (by omega)) (layoutF_within k cs n w m (pre ++ [c]) .none N ?_ ?_)
    · intro b l h
      cases d with
      | none =>
        simp only [Dec.or] at h
        cases hg : gapAt k m pre c cs <;> rw [hg] at h <;> simp only [Gap.at, reduceCtorEq] at h
        cases h
        omega
      | space => simp [Dec.or] at h
      | brk b' l' => exact hd b l h
    · intro b l h; cases h
    · rw [leaksF_last]
      have := leaksF_le k [c]
      simp only [nodesF] at this
      omega
end

/-! ### The length of the output -/

theorem indentText_length (n : Nat) : (indentText n).length = 2 * n := by
  induction n with
  | zero => rfl
  | succ n ih => simp only [indentText, List.length_cons, ih]; omega

/-- the length of pieces -/
def sizeOf' (eol : Text) (ps : List Piece) : Nat := (piecesText eol ps).length

theorem sizeOf_nil (eol : Text) : sizeOf' eol [] = 0 := rfl

theorem sizeOf_cons (eol : Text) (p : Piece) (ps : List Piece) :
    sizeOf' eol (p :: ps) = (p.text eol).length + sizeOf' eol ps := by
  simp [sizeOf', piecesText]

theorem sizeOf_append (eol : Text) : ∀ a b : List Piece, sizeOf' eol (a ++ b) = sizeOf' eol a + sizeOf' eol b
  | [], b => by simp [sizeOf_nil]
  | p :: a, b => by rw [List.cons_append, sizeOf_cons, sizeOf_cons, sizeOf_append eol a b]; omega

theorem sizeOf_reverse (eol : Text) : ∀ a : List Piece, sizeOf' eol a.reverse = sizeOf' eol a
  | [] => rfl
  | p :: a => by rw [List.reverse_cons, sizeOf_append, sizeOf_reverse eol a, sizeOf_cons, sizeOf_cons, sizeOf_nil]; omega

/-- the length of the white space before a lexeme, at most -/
def widest (eol : Text) (n : Nat) : Nat := 2 * eol.length + 2 * n + 1

theorem white_nl (eol : Text) (n N : Nat) (h : n ≤ N) : ((Piece.nl n).text eol).length ≤ widest eol N := by
  simp only [Piece.text, List.length_append, indentText_length, widest]; omega

theorem white_bl (eol : Text) (n N : Nat) (h : n ≤ N) : ((Piece.bl n).text eol).length ≤ widest eol N := by
  simp only [Piece.text, List.length_append, indentText_length, widest]; omega

theorem white_gap (eol : Text) (n N x line : Nat) (h : n ≤ N) : ((gapPiece n x line).text eol).length ≤ widest eol N := by
  unfold gapPiece
  split
  · exact white_bl eol n N h
  · exact white_nl eol n N h

theorem textSize_cons (t : Token) (ts : List Token) : textSize (t :: ts) = t.text.length + textSize ts := by
  simp [textSize]

theorem inlinePieces_size (eol : Text) (N : Nat) : ∀ (cs : List Token) (first : Bool),
    sizeOf' eol (inlinePieces first cs) ≤ textSize cs + cs.length * widest eol N
  | [], _ => by simp [inlinePieces, sizeOf_nil]
  | c :: cs, first => by
    have := inlinePieces_size eol N cs false
    rw [inlinePieces, sizeOf_append, sizeOf_cons, textSize_cons, List.length_cons, Nat.succ_mul]
    have e : ((Piece.txt c).text eol).length = c.text.length := rfl
    have : sizeOf' eol (if first then [] else [.sp]) ≤ widest eol N := by
      cases first
      · simp [sizeOf_cons, sizeOf_nil, Piece.text, widest]
      · simp [sizeOf_nil]
    omega

theorem ownPieces_size (eol : Text) (n N : Nat) (h : n ≤ N) : ∀ (cs : List Token) (g : Bool) (line : Nat),
    sizeOf' eol (ownPieces n g line cs) ≤ textSize cs + cs.length * widest eol N
  | [], _, _ => by simp [ownPieces, sizeOf_nil]
  | c :: cs, g, line => by
    have := ownPieces_size eol n N h cs true c.stop.line
    rw [ownPieces, sizeOf_append, sizeOf_cons, textSize_cons, List.length_cons, Nat.succ_mul]
    have e : ((Piece.txt c).text eol).length = c.text.length := rfl
    have : sizeOf' eol (if g then [gapPiece n c.start.line line] else []) ≤ widest eol N := by
      cases g
      · simp [sizeOf_nil]
      · have := white_gap eol n N c.start.line line h
        simp only [if_true, sizeOf_cons, sizeOf_nil]
        omega
    omega

/-- without the white space before the first -/
theorem ownPieces_first (eol : Text) (n N : Nat) (h : n ≤ N) (cs : List Token) (line : Nat) (hc : cs ≠ []) :
    sizeOf' eol (ownPieces n false line cs) + widest eol N ≤ textSize cs + cs.length * widest eol N := by
  cases cs with
  | nil => exact absurd rfl hc
  | cons c cs =>
    have := ownPieces_size eol n N h cs true c.stop.line
    rw [ownPieces, sizeOf_append, sizeOf_cons, textSize_cons, List.length_cons, Nat.succ_mul]
    have e : ((Piece.txt c).text eol).length = c.text.length := rfl
    simp only [Bool.false_eq_true, if_false, sizeOf_nil]
    omega

theorem textSize_split (p : Token → Bool) : ∀ l : List Token,
    textSize (l.filter p) + textSize (l.filter fun x => !p x) = textSize l
  | [] => rfl
  | x :: l => by
    have := textSize_split p l
    cases h : p x <;> simp [h, textSize_cons] <;> omega

theorem textSize_append (a b : List Token) : textSize (a ++ b) = textSize a + textSize b := by simp [textSize]

theorem breakPieces_size (eol : Text) (n N : Nat) (h : n ≤ N) (first : Bool) (taken : List Token) (line : Nat) (b : Blank)
    (tok : Token) : sizeOf' eol (breakPieces first taken line b n tok) ≤
      textSize taken + taken.length * widest eol N + widest eol N := by
  have e1 := textSize_split (fun c => c.start.line == line) taken
  have e2 := filter_split (fun c => c.start.line == line) taken
  have e3 : (taken.filter fun c => c.start.line == line).length * widest eol N +
      (taken.filter fun c => !(c.start.line == line)).length * widest eol N = taken.length * widest eol N := by
    rw [← Nat.add_mul, e2]
  have i := inlinePieces_size eol N (taken.filter fun c => c.start.line == line) first
  have o := ownPieces_size eol n N h (taken.filter fun c => !(c.start.line == line)) true line
  unfold breakPieces
  simp only
  rw [sizeOf_append]
  cases b with
  | Required =>
    have w := white_bl eol n N h
    simp only
    rw [sizeOf_cons, sizeOf_append]
    by_cases hc : taken.filter (fun c => !(c.start.line == line)) = []
    · rw [hc]
      simp only [ownPieces, sizeOf_nil, List.isEmpty_nil, if_true]
      omega
    · have f := ownPieces_first eol n N h _ line hc
      have g := white_gap eol n N tok.start.line (lastLine line (taken.filter fun c => !(c.start.line == line))) h
      have : sizeOf' eol (if (taken.filter fun c => !(c.start.line == line)).isEmpty then []
          else [gapPiece n tok.start.line (lastLine line (taken.filter fun c => !(c.start.line == line)))]) ≤ widest eol N := by
        split
        · simp [sizeOf_nil]
        · rw [sizeOf_cons, sizeOf_nil]; omega
      omega
  | Legal =>
    have g := white_gap eol n N tok.start.line (lastLine line (taken.filter fun c => !(c.start.line == line))) h
    simp only
    rw [sizeOf_append, sizeOf_cons, sizeOf_nil]
    omega
  | Illegal =>
    have w := white_nl eol n N h
    simp only
    rw [sizeOf_append, sizeOf_cons, sizeOf_nil]
    omega

/-- what is printed, and what can still be -/
def LS.total (eol : Text) (N : Nat) (L : LS) : Nat :=
  sizeOf' eol L.out + textSize L.comments + L.comments.length * widest eol N

theorem drop_size (eol : Text) (N : Nat) (i : Nat) (cs : List Token) :
    textSize (cs.takeWhile (·.idx < i)) + textSize (cs.dropWhile (·.idx < i)) = textSize cs ∧
    (cs.takeWhile (·.idx < i)).length * widest eol N + (cs.dropWhile (·.idx < i)).length * widest eol N =
      cs.length * widest eol N := by
  constructor
  · rw [← textSize_append, List.takeWhile_append_dropWhile]
  · rw [← Nat.add_mul, ← List.length_append, List.takeWhile_append_dropWhile]

theorem emit_total (eol : Text) (N : Nat) (t : Token) (L : LS) :
    (L.emit t).total eol N ≤ L.total eol N + t.text.length := by
  obtain ⟨h1, h2⟩ := drop_size eol N t.idx L.comments
  simp only [LS.total, LS.emit, sizeOf_cons, Piece.text]
  omega

theorem step_total (eol : Text) (N : Nat) (L : LS) (x : Dec × Token) (h : ∀ b l, x.1 = .brk b l → l ≤ N) :
    (L.step x).total eol N ≤ L.total eol N + x.2.text.length + widest eol N := by
  obtain ⟨d, t⟩ := x
  have e := emit_total eol N t (L.dec d [t])
  simp only [LS.step] at e ⊢
  refine Nat.le_trans e ?_
  have : (L.dec d [t]).total eol N ≤ L.total eol N + widest eol N := by
    cases d with
    | none => simp [LS.dec]
    | space => simp only [LS.dec, LS.total, sizeOf_cons, Piece.text, List.length_singleton, widest]; omega
    | brk b n =>
      obtain ⟨h1, h2⟩ := drop_size eol N t.idx L.comments
      have := breakPieces_size eol n N (h b n rfl) L.out.isEmpty (L.comments.takeWhile (·.idx < t.idx)) L.line b t
      simp only [LS.dec, LS.total, sizeOf_append, sizeOf_reverse]
      omega
  omega

theorem run_total (eol : Text) (N : Nat) : ∀ (ds : List (Dec × Token)) (L : LS), LevelsTo N ds →
    (L.run ds).total eol N ≤ L.total eol N + textSize (ds.map (·.2)) + ds.length * widest eol N
  | [], L, _ => by simp [LS.run, textSize]
  | x :: ds, L, h => by
    have h1 := step_total eol N L x (fun b l e => h b l x.2 (by rw [← e]; exact List.mem_cons_self))
    have h2 := run_total eol N ds (L.step x) (fun b l t m => h b l t (List.mem_cons_of_mem _ m))
    show ((L.step x).run ds).total eol N ≤ _
    rw [List.map_cons, textSize_cons, List.length_cons, Nat.succ_mul]
    omega

theorem wholeText_size (eol : Text) (C : List Token) (tree : Tree) :
    (tree.wholeText eol C).length ≤ textSize tree.leaves + textSize C +
      (tree.leaves.length + C.length) * (2 * eol.length + 6 * tree.nodes + 1) + eol.length := by
  have h := run_total eol (3 * tree.nodes) tree.wholeLayout (LS.init C)
    (layout_within tree 0 false false .none _ (by intro b l h; cases h) (by omega))
  have e1 : tree.wholeLayout.map (·.2) = tree.leaves := layout_toks tree 0 false false .none
  have e2 : tree.wholeLayout.length = tree.leaves.length := by rw [← e1, List.length_map]
  rw [e1, e2] at h
  have e3 : widest eol (3 * tree.nodes) = 2 * eol.length + 6 * tree.nodes + 1 := by unfold widest; omega
  rw [e3] at h
  have e4 : sizeOf' eol ((LS.init C).run tree.wholeLayout).out ≤
      ((LS.init C).run tree.wholeLayout).total eol (3 * tree.nodes) := by unfold LS.total; omega
  have e5 : (LS.init C).total eol (3 * tree.nodes) = textSize C + C.length * (2 * eol.length + 6 * tree.nodes + 1) := by
    simp only [LS.total, LS.init, sizeOf_nil, e3]; omega
  rw [e5] at h
  rw [Tree.wholeText, List.length_append]
  have e6 := sizeOf_reverse eol ((LS.init C).run tree.wholeLayout).out
  simp only [sizeOf'] at e6 e4
  rw [e6, Nat.add_mul]
  omega

/-! ### Texts of tokens -/

theorem lexemes_size : ∀ (ps : List (Text × Chunk)) (pre : Text) (i : Nat),
    textSize (lexemes pre i ps) ≤ (ps.map fun x => x.2.text.length).sum
  | [], _, _ => by simp [lexemes, textSize]
  | (w, p) :: ps, pre, i => by
    rw [List.map_cons, List.sum_cons]
    cases p with
    | token k t =>
      have := lexemes_size ps (pre ++ w ++ t) (i + 1)
      rw [lexemes, textSize_cons]
      exact Nat.add_le_add_left this _
    | stray c | broken b c | openString b | openQuoted b | openComment b =>
      rw [lexemes]
      · exact Nat.le_trans (lexemes_size ps _ i) (Nat.le_add_left ..)
      · intro k t h; cases h

theorem divided_size {src : Text} {ps : List (Text × Chunk)} (h : Divided src ps) :
    (ps.map fun x => x.2.text.length).sum ≤ src.length := by
  induction h with
  | done => simp
  | @next w r p ps hw hp hd ih =>
    simp only [List.map_cons, List.sum_cons, List.length_append]
    omega

theorem lex_size {name src : Text} {l : Lexed} (h : lex name src = .ok l) :
    textSize l.tokens + textSize l.comments ≤ src.length := by
  obtain ⟨ps, hd⟩ := divided_exists src
  have hx := C53_lexed name src ps hd
  rw [h] at hx
  split at hx
  · simp at hx
  · simp only [Res.ok.injEq] at hx
    subst hx
    have h1 := lexemes_size ps [] 0
    have h2 := divided_size hd
    have h3 := textSize_split isComment (lexemes [] 0 ps)
    simp only
    omega

/-! ### Positions -/

theorem length_bytes (a : Text) : a.length ≤ bytes a := by
  induction a with
  | nil => simp [bytes]
  | cons c a ih =>
    have := Char.utf8Size_pos c
    simp only [bytes, List.map_cons, List.sum_cons, List.length_cons] at ih ⊢
    omega

theorem position_le {src a b : Text} (h : src = a ++ b) : (position a).pos ≤ bytes src ∧
    (position a).line ≤ src.length + 1 ∧ (position a).col ≤ src.length + 1 := by
  subst h
  refine ⟨by simp [position, bytes_append], ?_, ?_⟩
  · have := List.count_le_length (a := '\n') (l := a)
    simp only [position, newlines, List.length_append]
    omega
  · have := List.Sublist.length_le (List.takeWhile_sublist (fun x => x != '\n') (l := a.reverse))
    simp only [position, column, List.length_append]
    rw [List.length_reverse] at this
    omega

/-! ### C77 -/

/-- **C77** The positions that the lexer gives to tokens and comments, and their indices, are at most the size of the file,
for every file. -/
theorem C77_positions (name src : Text) (l : Lexed) (h : lex name src = .ok l) : ∀ t ∈ l.tokens ++ l.comments,
    t.start.pos ≤ t.stop.pos ∧ t.stop.pos ≤ bytes src ∧ t.start.line ≤ src.length + 1 ∧ t.stop.line ≤ src.length + 1 ∧
    t.start.col ≤ src.length + 1 ∧ t.stop.col ≤ src.length + 1 ∧ t.idx < src.length := by
  obtain ⟨h1, all, h2, h3, h4⟩ := C17_positions name src l h
  intro t ht
  obtain ⟨a, b, e, e1, e2⟩ := h1 t ht
  have p1 := position_le (src := src) (a := a) (b := t.text ++ b) (by rw [e, List.append_assoc])
  have p2 := position_le (src := src) (a := a ++ t.text) (b := b) e
  have hm : t ∈ all := by
    rw [h2, h3] at ht
    rcases List.mem_append.1 ht with ht | ht <;> exact (List.mem_filter.1 ht).1
  have hi : t.idx ∈ List.range all.length := h4 ▸ List.mem_map_of_mem hm
  have hl := lex_length h
  rw [h2, h3] at hl
  have := filter_length isComment all
  rw [e1, e2]
  refine ⟨by simp [position, bytes_append], p2.1, p1.2.1, p2.2.1, p1.2.2, p2.2.2, ?_⟩
  have := List.mem_range.1 hi
  omega

/-- **C77** The number of markers for a tree, whatever tree it is, is linear in its size, and so is the indentation at every
moment of printing. -/
theorem C77_markers (t : Tree) (C : List Token) (ms : List Marker) (h : format t C = .ok ms) :
    ms.length ≤ 5 * t.leaves.length + 8 * t.nodes + 2 * C.length ∧
    ∀ a b, ms = a ++ b → indents a - dedents a ≤ t.leaves.length + 3 * t.nodes := by
  have h1 := format_load bounded_marks h
  have h2 := format_load bounded_indents h
  rw [weigh_length] at h1
  rw [weigh_indents] at h2
  refine ⟨by omega, fun a b e => ?_⟩
  have : indents ms = indents a + indents b := by rw [e]; simp [indents]
  omega

/-- **C77** Every line break of the output of an accepted file is at a level that is linear in the size of the file. -/
theorem C77_levels (name src : Text) (p : Parsed) (h : parse name src .StoredDefinition = .ok p) (he : p.errors = [])
    (t : Tree) (ht : buildTree p.tokens p.events = .ok t) : LevelsTo (39 * p.tokens.length + 3) t.wholeLayout := by
  have := C75_tree name src p h he t ht
  exact layout_within t 0 false false .none _ (by intro b l h; cases h) (by omega)

/-- **C77** The output is at most as long as the tokens and comments, and the white space before each of them; with that,
it is at most quadratic in the size of the file. -/
theorem C77_output (eol name src out : Text) (p : Parsed) (h : Formatted eol name src p out) :
    out.length ≤ src.length + (p.tokens.length + p.comments.length) * (2 * eol.length + 78 * p.tokens.length + 7) +
      eol.length ∧
    out.length ≤ src.length + src.length * (2 * eol.length + 78 * src.length + 7) + eol.length := by
  obtain ⟨l, hl, l1, l2, l3⟩ := parse_lex h.parsed h.accepted
  obtain ⟨tree, ht, ho⟩ := C47_layout eol name src out p h
  have hn := C75_tree name src p h.parsed h.accepted tree ht
  obtain ⟨cs, hc, _, h3, _⟩ := h.laid
  have hc' : tree = .node .StoredDefinition cs := by
    rw [ht] at hc
    simpa using hc
  have hv : tree.leaves = p.tokens := by
    rw [groupsOf_tok, ← hc', Tree.wholeLayout, layout_toks] at h3
    exact h3
  have hs := wholeText_size eol p.comments tree
  have hz := lex_size hl
  have hk := lex_length hl
  rw [l1, l2] at hz
  rw [l1, l2] at hk
  rw [hv, ← ho] at hs
  have m1 : (p.tokens.length + p.comments.length) * (2 * eol.length + 6 * tree.nodes + 1) ≤
      (p.tokens.length + p.comments.length) * (2 * eol.length + 78 * p.tokens.length + 7) :=
    Nat.mul_le_mul_left _ (by omega)
  have m2 : (p.tokens.length + p.comments.length) * (2 * eol.length + 78 * p.tokens.length + 7) ≤
      src.length * (2 * eol.length + 78 * src.length + 7) :=
    Nat.mul_le_mul (by omega) (by omega)
  constructor <;> omega

/-- **C77** No number overflows: for a file of less than 2^50 bytes all positions, indices, counts and indentations that
occur when it is formatted are less than 2^64. -/
theorem C77_overflow (eol name src out : Text) (p : Parsed) (h : Formatted eol name src p out)
    (hb : bytes src < 2 ^ 50) :
    (∀ t ∈ p.tokens ++ p.comments, t.stop.pos < 2 ^ 64 ∧ t.stop.line < 2 ^ 64 ∧ t.stop.col < 2 ^ 64 ∧ t.idx + 1 < 2 ^ 64) ∧
    p.tokens.length + p.comments.length < 2 ^ 64 ∧ p.events.length < 2 ^ 64 ∧
    ∃ tree ms, buildTree p.tokens p.events = .ok tree ∧ format tree p.comments = .ok ms ∧ ms.length < 2 ^ 64 ∧
      ∀ a b, ms = a ++ b → indents a - dedents a < 2 ^ 64 := by
  obtain ⟨l, hl, l1, l2, l3⟩ := parse_lex h.parsed h.accepted
  have hlen := length_bytes src
  have hp := C77_positions name src l hl
  rw [l1, l2] at hp
  obtain ⟨hq1, hq2⟩ := C75_parsed name src _ p h.parsed
  obtain ⟨tree, ms, t, h1, h2, _, _⟩ := C03_formatting_succeeds eol name src p h.parsed h.accepted
  have hn := C75_tree name src p h.parsed h.accepted tree h1
  obtain ⟨m1, m2⟩ := C77_markers tree p.comments ms h2
  have hv : tree.leaves.length = p.tokens.length := by
    obtain ⟨cs, hc, _, h3, _⟩ := h.laid
    rw [h1] at hc
    simp only [Res.ok.injEq] at hc
    rw [groupsOf_tok, ← hc, Tree.wholeLayout, layout_toks] at h3
    rw [h3]
  refine ⟨fun t ht => ?_, by omega, by omega, tree, ms, h1, h2, by omega, fun a b e => ?_⟩
  · obtain ⟨q1, q2, q3, q4, q5, q6, q7⟩ := hp t ht
    omega
  · have := m2 a b e
    omega

end Mofmt
