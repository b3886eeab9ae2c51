import Verif.Spec.Deeper
import Verif.Proofs.AroundText
import Verif.Proofs.LayoutMap
import Verif.Proofs.LevelRun
import Verif.Proofs.OneLineRun
import Verif.Props.Spacing
/-
The layout of a part of a file at another indentation.
-/
namespace Mofmt

/-! ### Decisions -/

/-- a decision at a deeper level -/
def Dec.deeper (j : Nat) : Dec → Dec
  | .brk b n => .brk b (n + j)
  | d => d

def decDeeper (j : Nat) (x : Dec × Token) : Dec × Token := (x.1.deeper j, x.2)

theorem Gap.at_deeper (g : Gap) (n j : Nat) : g.at (n + j) = (g.at n).deeper j := by cases g <;> rfl

theorem Dec.or_deeper (d e : Dec) (j : Nat) : (d.or e).deeper j = (d.deeper j).or (e.deeper j) := by
  cases d <;> cases e <;> rfl

theorem levelIn_deeper (k : SK) (n j : Nat) (w : Bool) (pre : List Tree) (c : Tree) (post : List Tree) :
    levelIn k (n + j) w pre c post = levelIn k n w pre c post + j := by
  unfold levelIn
  omega

mutual
theorem layout_deeper (t : Tree) (n j : Nat) (w m : Bool) (d : Dec) :
    t.layout (n + j) w m (d.deeper j) = (t.layout n w m d).map (decDeeper j) := by
  match t with
  | .tok t => rfl
  | .node k cs => exact layoutF_deeper k cs n j w m [] d
theorem layoutF_deeper (k : SK) (cs : List Tree) (n j : Nat) (w m : Bool) (pre : List Tree) (d : Dec) :
    layoutF k (n + j) w m pre (d.deeper j) cs = (layoutF k n w m pre d cs).map (decDeeper j) := by
  match cs with
  | [] => rfl
  | c :: cs =>
    have h2 := layoutF_deeper k cs n j w m (pre ++ [c]) .none
    have h1 := layout_deeper c (levelIn k n w pre c cs) j (chainChild k c.sym && wrappedAt k w pre c cs) (passedAt k m pre c cs)
      (d.or ((gapAt k m pre c cs).at (levelIn k n w pre c cs)))
    rw [Dec.or_deeper, ← Gap.at_deeper] at h1
    simp only [layoutF, List.map_append, levelIn_deeper, h1]
    rw [← h2]
    rfl
end

mutual
/-- what stands before a part matters for its first token only -/
theorem layout_before (t : Tree) (n : Nat) (w m : Bool) (d e : Dec) : (t.layout n w m d).tail = (t.layout n w m e).tail := by
  match t with
  | .tok t => rfl
  | .node k cs => exact layoutF_before k cs n w m [] d e
theorem layoutF_before (k : SK) (cs : List Tree) (n : Nat) (w m : Bool) (pre : List Tree) (d e : Dec) :
    (layoutF k n w m pre d cs).tail = (layoutF k n w m pre e cs).tail := by
  match cs with
  | [] => rfl
  | c :: cs =>
    have h1 := layout_before c (levelIn k n w pre c cs) (chainChild k c.sym && wrappedAt k w pre c cs) (passedAt k m pre c cs)
      (d.or ((gapAt k m pre c cs).at (levelIn k n w pre c cs))) (e.or ((gapAt k m pre c cs).at (levelIn k n w pre c cs)))
    have h2 := layout_toks c (levelIn k n w pre c cs) (chainChild k c.sym && wrappedAt k w pre c cs) (passedAt k m pre c cs)
      (d.or ((gapAt k m pre c cs).at (levelIn k n w pre c cs)))
    have h3 := layout_toks c (levelIn k n w pre c cs) (chainChild k c.sym && wrappedAt k w pre c cs) (passedAt k m pre c cs)
      (e.or ((gapAt k m pre c cs).at (levelIn k n w pre c cs)))
    simp only [layoutF]
    revert h1 h2 h3
    generalize c.layout _ _ _ (d.or _) = a
    generalize c.layout _ _ _ (e.or _) = b
    intro h1 h2 h3
    rw [← h3] at h2
    cases a with
    | nil => cases b with
      | nil => rfl
      | cons y b => cases h2
    | cons x a => cases b with
      | nil => cases h2
      | cons y b =>
        simp only [List.tail_cons] at h1
        simp only [List.cons_append, List.tail_cons, h1]
end

/-! ### Where a part stands -/

theorem selfContained_chain {k : SK} (h : selfContained k = true) (j : SK) : chainChild j (.n k) = false := by
  revert h
  unfold chainChild
  split <;> rename_i heq <;> intro h <;> first
    | rfl
    | (simp only [Sym.n.injEq] at heq; subst heq; cases h)

theorem selfContained_passed {k : SK} (h : selfContained k = true) (j : SK) (a b c : Bool) : passedIn j (.n k) a b c = false := by
  revert h
  unfold passedIn
  split <;> rename_i heq <;> intro h <;> first
    | rfl
    | (simp only [Sym.n.injEq] at heq; subst heq; cases h)

/-- the layout of a file contains that of its parts -/
theorem level_layout {tree s : Tree} {n : Nat} {w : Bool} (h : Level tree s n w) :
    ∃ m d LA LB, tree.wholeLayout = LA ++ s.layout n w m d ++ LB ∧
      ∀ k cs, s = .node k cs → selfContained k = true → tree.sym ≠ .n k → w = false ∧ m = false := by
  induction h with
  | root =>
    refine ⟨false, .none, [], [], by simp [Tree.wholeLayout], ?_⟩
    rintro k cs rfl _ h
    exact absurd rfl h
  | @child k pre c post n w h ih =>
    obtain ⟨m, d, LA, LB, h1, _⟩ := ih
    have key : ∀ (a : List Tree) (pre0 : List Tree) (d : Dec), ∃ d' LA' LB', layoutF k n w m pre0 d (a ++ c :: post) =
        LA' ++ c.layout (levelIn k n w (pre0 ++ a) c post) (chainChild k c.sym && wrappedAt k w (pre0 ++ a) c post)
          (passedAt k m (pre0 ++ a) c post) d' ++ LB' := by
      intro a
      induction a with
      | nil =>
        intro pre0 d
        refine ⟨d.or ((gapAt k m pre0 c post).at (levelIn k n w pre0 c post)), [], layoutF k n w m (pre0 ++ [c]) .none post, ?_⟩
        simp only [List.nil_append, layoutF, List.append_nil]
      | cons x a ih =>
        intro pre0 d
        obtain ⟨d', LA', LB', e⟩ := ih (pre0 ++ [x]) .none
        refine ⟨d', x.layout (levelIn k n w pre0 x (a ++ c :: post)) (chainChild k x.sym && wrappedAt k w pre0 x (a ++ c :: post))
          (passedAt k m pre0 x (a ++ c :: post)) (d.or ((gapAt k m pre0 x (a ++ c :: post)).at
            (levelIn k n w pre0 x (a ++ c :: post)))) ++ LA', LB', ?_⟩
        have ea : pre0 ++ x :: a = pre0 ++ [x] ++ a := by simp
        rw [ea, List.cons_append, layoutF, e]
        simp only [List.append_assoc]
    obtain ⟨d', LA', LB', e⟩ := key pre [] d
    rw [List.nil_append] at e
    rw [Tree.layout, e] at h1
    refine ⟨passedAt k m pre c post, d', LA ++ LA', LB' ++ LB, by rw [h1]; simp only [List.append_assoc], ?_⟩
    rintro k' cs rfl hk _
    refine ⟨?_, ?_⟩
    · simp only [Tree.sym, selfContained_chain hk, Bool.false_and]
    · simp only [passedAt, Tree.sym, selfContained_passed hk]

/-! ### Pieces -/

theorem inlinePieces_deeper (j : Nat) : ∀ (cs : List Token) (first : Bool),
    (inlinePieces first cs).map (Piece.deeper j) = inlinePieces first cs
  | [], _ => rfl
  | c :: cs, first => by
    simp only [inlinePieces, List.map_append, List.map_cons, inlinePieces_deeper j cs]
    cases first <;> rfl

theorem gapPiece_deeper (j n x l : Nat) : (gapPiece n x l).deeper j = gapPiece (n + j) x l := by
  unfold gapPiece
  split <;> rfl

theorem ownPieces_deeper (j n : Nat) : ∀ (cs : List Token) (g : Bool) (l : Nat),
    (ownPieces n g l cs).map (Piece.deeper j) = ownPieces (n + j) g l cs
  | [], _, _ => rfl
  | c :: cs, g, l => by
    simp only [ownPieces, List.map_append, List.map_cons, ownPieces_deeper j n cs]
    cases g
    · rfl
    · simp only [if_true, List.map_cons, List.map_nil, gapPiece_deeper]
      rfl

theorem breakPieces_deeper (j : Nat) (first : Bool) (taken : List Token) (l : Nat) (b : Blank) (n : Nat) (t : Token) :
    (breakPieces first taken l b n t).map (Piece.deeper j) = breakPieces first taken l b (n + j) t := by
  unfold breakPieces
  simp only [List.map_append, inlinePieces_deeper]
  congr 1
  cases b with
  | Required =>
    simp only [List.map_cons, List.map_append, ownPieces_deeper, Piece.deeper]
    congr 2
    split
    · rfl
    · simp [gapPiece_deeper]
  | Legal => simp [ownPieces_deeper, gapPiece_deeper]
  | Illegal => simp [ownPieces_deeper, Piece.deeper]

/-- what is printed for a token -/
theorem group_pieces (L : LS) (d : Dec) (t : Token) : (L.group (d, t)).pieces = (match d with
    | .none => []
    | .space => [.sp]
    | .brk b n => breakPieces L.out.isEmpty (L.comments.takeWhile (·.idx < t.idx)) L.line b n t) ++ [.txt t] := by
  cases d with
  | none => rfl
  | space => rfl
  | brk b n => simp only [LS.group, PGroup.pieces, breakSegs_pieces]

theorem groups_deeper (j : Nat) : ∀ (ds : List (Dec × Token)) (L L' : LS), L'.out.isEmpty = L.out.isEmpty →
    L'.comments = L.comments → L'.line = L.line →
    (L'.groups (ds.map (decDeeper j))).flatMap PGroup.pieces = ((L.groups ds).flatMap PGroup.pieces).map (Piece.deeper j)
  | [], _, _, _, _, _ => rfl
  | (d, t) :: ds, L, L', h1, h2, h3 => by
    have ih := groups_deeper j ds (L.step (d, t)) (L'.step (decDeeper j (d, t))) rfl (by
      rw [LS.step_left, LS.step_left, h2]; rfl) rfl
    simp only [List.map_cons, LS.groups, List.flatMap_cons, List.map_append]
    rw [ih]
    congr 1
    show (L'.group (d.deeper j, t)).pieces = _
    rw [group_pieces, group_pieces]
    cases d with
    | none => rfl
    | space => rfl
    | brk b n =>
      simp only [Dec.deeper, List.map_append, breakPieces_deeper, h1, h2, h3]
      rfl

/-! ### The same tokens at other places -/

/-- a piece without the place of its token -/
def Piece.bare : Piece → Piece
  | .txt t => .txt ⟨0, t.text, .EOF, ⟨0, 0, 0⟩, ⟨0, 0, 0⟩⟩
  | p => p

theorem text_bare (eol : Text) (j : Nat) (ps : List Piece) : textAt eol j ps = textAt eol j (ps.map Piece.bare) := by
  unfold textAt
  induction ps with
  | nil => rfl
  | cons p ps ih =>
    simp only [List.map_cons, piecesText, ih]
    cases p <;> rfl

theorem segs_bare (l : List Seg) : (l.flatMap Seg.pieces).map Piece.bare =
    (l.map segShown).flatMap fun x => x.1.toList.map Piece.bare ++ [.txt ⟨0, x.2, .EOF, ⟨0, 0, 0⟩, ⟨0, 0, 0⟩⟩] := by
  induction l with
  | nil => rfl
  | cons s l ih => simp [List.flatMap_cons, ih, segShown, Seg.pieces, Piece.bare]

theorem AlikeLS.pieces {i1 i2 e1 e2 : Nat} {ds ds' : List (Dec × Token)} (h : AlikeDecs i1 i2 e1 e2 ds ds') : ∀ {L L' : LS},
    AlikeLS i1 i2 e1 e2 L L' →
    ((L'.groups ds').flatMap PGroup.pieces).map Piece.bare = ((L.groups ds).flatMap PGroup.pieces).map Piece.bare := by
  induction h with
  | nil => intro _ _ _; rfl
  | @cons d t t' ds ds' ht _ ih =>
    intro L L' hL
    simp only [LS.groups, List.flatMap_cons, List.map_append]
    rw [ih (hL.step d ht)]
    congr 1
    cases d with
    | none => simp [LS.group, PGroup.pieces, Piece.bare, ht.text]
    | space => simp [LS.group, PGroup.pieces, Piece.bare, ht.text]
    | brk b n =>
      obtain ⟨g1, g2⟩ := break_shown (first := L.out.isEmpty) (b := b) (n := n) (hL.comments.takeWhile ht) hL.line ht
      simp only [LS.group, PGroup.pieces, hL.out, List.map_append, segs_bare, g1, g2]
      simp [Piece.bare, ht.text]

end Mofmt
