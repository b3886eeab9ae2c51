import Verif.Spec.Output
import Verif.Proofs.FmtLayout
/-
The output of a layout, token by token.
-/
namespace Mofmt
open Lexical

/-- a lexeme with the white space before it -/
abbrev Seg := Option Piece × Token

def Seg.pieces (s : Seg) : List Piece := s.1.toList ++ [.txt s.2]

/-- the white space is a line break -/
def isBrk : Option Piece → Bool
  | some (.nl _) => true
  | some (.bl _) => true
  | _ => false

theorem gapPiece_brk (n x l : Nat) : isBrk (some (gapPiece n x l)) = true := by
  unfold gapPiece; split <;> rfl

def inlineSegs (first : Bool) : List Token → List Seg
  | [] => []
  | c :: cs => (if first then none else some .sp, c) :: inlineSegs false cs

theorem inlineSegs_pieces : ∀ (cs : List Token) (first : Bool),
    (inlineSegs first cs).flatMap Seg.pieces = inlinePieces first cs
  | [], _ => rfl
  | c :: cs, first => by
    simp only [inlineSegs, List.flatMap_cons, inlineSegs_pieces cs, inlinePieces, Seg.pieces]
    cases first <;> rfl

theorem inlineSegs_snd : ∀ (cs : List Token) (first : Bool), (inlineSegs first cs).map (·.2) = cs
  | [], _ => rfl
  | c :: cs, first => by simp [inlineSegs, inlineSegs_snd cs]

/-- `w`: the white space before the first one -/
def ownSegs (n : Nat) (w : Option Piece) : List Token → List Seg
  | [] => []
  | [c] => [(w, c)]
  | c :: d :: cs => (w, c) :: ownSegs n (some (gapPiece n d.start.line c.stop.line)) (d :: cs)

theorem ownSegs_pieces (n : Nat) : ∀ (cs : List Token) (line : Nat) (g : Bool) (w : Option Piece),
    cs ≠ [] →
    (ownSegs n w cs).flatMap Seg.pieces = w.toList ++ ownPieces n false line cs ∧
    ownPieces n g line cs = (if g then (cs.head?.map fun c => gapPiece n c.start.line line).toList else []) ++
      ownPieces n false line cs
  | [], _, _, _, h => absurd rfl h
  | [c], line, g, w, _ => by
    simp [ownSegs, Seg.pieces, ownPieces]
  | c :: d :: cs, line, g, w, _ => by
    have ih := ownSegs_pieces n (d :: cs) c.stop.line true (some (gapPiece n d.start.line c.stop.line))
      (by simp)
    refine ⟨?_, ?_⟩
    · have h1 : ownPieces n false line (c :: d :: cs) = .txt c :: ownPieces n true c.stop.line (d :: cs) := rfl
      rw [h1, ih.2]
      simp [ownSegs, ih.1, Seg.pieces]
    · cases g <;> simp [ownPieces]

theorem ownSegs_snd (n : Nat) : ∀ (cs : List Token) (w : Option Piece), (ownSegs n w cs).map (·.2) = cs
  | [], _ => rfl
  | [c], _ => rfl
  | c :: d :: cs, w => by simp [ownSegs, ownSegs_snd n (d :: cs)]

theorem ownSegs_brk (n : Nat) : ∀ (cs : List Token) (w : Option Piece), isBrk w = true →
    ∀ s ∈ ownSegs n w cs, isBrk s.1 = true
  | [], _, _, s, hs => by cases hs
  | [c], w, h, s, hs => by simp [ownSegs] at hs; subst hs; exact h
  | c :: d :: cs, w, h, s, hs => by
    rcases List.mem_cons.mp hs with rfl | hs
    · exact h
    · exact ownSegs_brk n (d :: cs) _ (gapPiece_brk _ _ _) s hs

/-- the comments printed before `tok`, and the white space before `tok` -/
def breakSegs (first : Bool) (taken : List Token) (line : Nat) (b : Blank) (n : Nat) (tok : Token) :
    List Seg × Option Piece :=
  let own := taken.filter (fun c => !(c.start.line == line))
  let w0 : Option Piece := match b with
    | .Required => some (.bl n)
    | _ => own.head?.map fun c => gapPiece n c.start.line line
  (inlineSegs first (taken.filter (fun c => c.start.line == line)) ++ ownSegs n w0 own,
    match b with
    | .Required => if own.isEmpty then some (.bl n) else some (gapPiece n tok.start.line (lastLine line own))
    | .Legal => some (gapPiece n tok.start.line (lastLine line own))
    | .Illegal => some (.nl n))

theorem breakSegs_pieces (first : Bool) (taken : List Token) (line : Nat) (b : Blank) (n : Nat) (tok : Token) :
    breakPieces first taken line b n tok = (breakSegs first taken line b n tok).1.flatMap Seg.pieces ++
      (breakSegs first taken line b n tok).2.toList := by
  unfold breakPieces breakSegs
  simp only [List.flatMap_append, inlineSegs_pieces, List.append_assoc]
  congr 1
  generalize taken.filter (fun c => !(c.start.line == line)) = own
  cases own with
  | nil => cases b <;> simp [ownPieces, ownSegs, lastLine]
  | cons c cs =>
    cases b with
    | Required =>
      have := ownSegs_pieces n (c :: cs) line false (some (.bl n)) (by simp)
      simp [this.1]
    | Legal =>
      have := ownSegs_pieces n (c :: cs) line true (some (gapPiece n c.start.line line)) (by simp)
      simp [this.1, this.2]
    | Illegal =>
      have := ownSegs_pieces n (c :: cs) line true (some (gapPiece n c.start.line line)) (by simp)
      simp [this.1, this.2]

theorem breakSegs_brk (first : Bool) (taken : List Token) (line : Nat) (b : Blank) (n : Nat) (tok : Token) :
    isBrk (breakSegs first taken line b n tok).2 = true := by
  unfold breakSegs
  cases b
  · simp only
    split
    · rfl
    · exact gapPiece_brk _ _ _
  · exact gapPiece_brk _ _ _
  · rfl

theorem inlineSegs_mem : ∀ (cs : List Token) (first : Bool), ∀ s ∈ inlineSegs first cs,
    s.2 ∈ cs ∧ (s.1 = some .sp ∨ (s.1 = none ∧ first = true ∧ (inlineSegs first cs).head? = some s))
  | [], _, s, hs => by cases hs
  | c :: cs, first, s, hs => by
    rcases List.mem_cons.mp hs with rfl | hs
    · refine ⟨List.mem_cons_self, ?_⟩
      cases first
      · exact .inl rfl
      · exact .inr ⟨rfl, rfl, rfl⟩
    · obtain ⟨h1, h2⟩ := inlineSegs_mem cs false s hs
      refine ⟨List.mem_cons_of_mem _ h1, ?_⟩
      rcases h2 with h2 | h2
      · exact .inl h2
      · simp at h2

/-- What is known of the white space before the printed comments. -/
theorem breakSegs_mem (first : Bool) (taken : List Token) (line : Nat) (b : Blank) (n : Nat) (tok : Token) :
    ∀ s ∈ (breakSegs first taken line b n tok).1, s.2 ∈ taken ∧ (isBrk s.1 = true ∨
      (s.2.start.line = line ∧ (s.1 = some .sp ∨ (s.1 = none ∧ first = true ∧
        (breakSegs first taken line b n tok).1.head? = some s)))) := by
  intro s hs
  unfold breakSegs at hs ⊢
  simp only [List.mem_append] at hs ⊢
  rcases hs with hs | hs
  · obtain ⟨h1, h2⟩ := inlineSegs_mem _ _ s hs
    rw [List.mem_filter] at h1
    refine ⟨h1.1, .inr ⟨by simpa using h1.2, ?_⟩⟩
    rcases h2 with h2 | ⟨h2, h3, h4⟩
    · exact .inl h2
    · exact .inr ⟨h2, h3, by simp [List.head?_append, h4]⟩
  · have h1 : s.2 ∈ taken.filter (fun c => !(c.start.line == line)) := by
      have := List.mem_map_of_mem (f := (·.2)) hs
      rwa [ownSegs_snd] at this
    refine ⟨(List.mem_filter.mp h1).1, .inl (ownSegs_brk n _ _ ?_ s hs)⟩
    cases b
    · have hh : taken.filter (fun c => !(c.start.line == line)) ≠ [] := by
        intro h; rw [h] at h1; cases h1
      first
        | rfl
        | (cases h : taken.filter (fun c => !(c.start.line == line)) with
           | nil => exact absurd h hh
           | cons c cs => exact gapPiece_brk _ _ _)
    all_goals
      have hh : taken.filter (fun c => !(c.start.line == line)) ≠ [] := by
        intro h; rw [h] at h1; cases h1
      first
        | rfl
        | (cases h : taken.filter (fun c => !(c.start.line == line)) with
           | nil => exact absurd h hh
           | cons c cs => exact gapPiece_brk _ _ _)

/-- The comments on the line of the last token come before the others. -/
theorem filter_line (line : Nat) : ∀ (cs : List Token),
    cs.Pairwise (fun a b => a.idx < b.idx ∧ a.stop.line ≤ b.start.line) →
    (∀ c ∈ cs, line ≤ c.start.line ∧ c.start.line ≤ c.stop.line) →
    cs.filter (fun c => c.start.line == line) ++ cs.filter (fun c => !(c.start.line == line)) = cs
  | [], _, _ => rfl
  | c :: cs, hp, hl => by
    obtain ⟨p1, p2⟩ := List.pairwise_cons.mp hp
    have ih := filter_line line cs p2 (fun d hd => hl d (List.mem_cons_of_mem _ hd))
    by_cases hc : c.start.line = line
    · simp [hc, ih]
    · have h0 := hl c List.mem_cons_self
      have h1 : ∀ d ∈ cs, ¬ d.start.line = line := by
        intro d hd
        have := (p1 d hd).2
        omega
      have h2 : cs.filter (fun c => c.start.line == line) = [] := by
        rw [List.filter_eq_nil_iff]; intro d hd; simpa using h1 d hd
      have h3 : cs.filter (fun c => !(c.start.line == line)) = cs := by
        rw [List.filter_eq_self]; intro d hd; simpa using h1 d hd
      simp [hc, h2, h3]

theorem breakSegs_snd {L : LS} {t : Token} {todo : List Token} (hw : WF L (t :: todo)) (first : Bool)
    (b : Blank) (n : Nat) :
    (breakSegs first (L.comments.takeWhile (·.idx < t.idx)) L.line b n t).1.map (·.2) =
      L.comments.takeWhile (·.idx < t.idx) := by
  unfold breakSegs
  simp only [List.map_append, inlineSegs_snd, ownSegs_snd]
  refine filter_line _ _ ?_ ?_
  · exact hw.cs.sublist (List.takeWhile_sublist _)
  · intro c hc; exact hw.cl c (mem_takeWhile_idx hc).1

/-! ### The whole output -/

/-- A token with what is printed before it. -/
structure PGroup where
  comments : List Seg
  white : Option Piece
  tok : Token

def PGroup.pieces (g : PGroup) : List Piece := g.comments.flatMap Seg.pieces ++ g.white.toList ++ [.txt g.tok]

/-- What is printed for a token. -/
def LS.group (L : LS) (x : Dec × Token) : PGroup :=
  match x.1 with
  | .none => ⟨[], none, x.2⟩
  | .space => ⟨[], some .sp, x.2⟩
  | .brk b n =>
    let y := breakSegs L.out.isEmpty (L.comments.takeWhile (·.idx < x.2.idx)) L.line b n x.2
    ⟨y.1, y.2, x.2⟩

/-- What is printed for a sequence of tokens. -/
def LS.groups : LS → List (Dec × Token) → List PGroup
  | _, [] => []
  | L, x :: ds => L.group x :: (L.step x).groups ds

theorem LS.step_out (L : LS) (x : Dec × Token) : (L.step x).out.reverse = L.out.reverse ++ (L.group x).pieces := by
  obtain ⟨d, t⟩ := x
  cases d with
  | none => simp [LS.step, LS.dec, LS.emit, LS.group, PGroup.pieces]
  | space => simp [LS.step, LS.dec, LS.emit, LS.group, PGroup.pieces]
  | brk b n => simp [LS.step, LS.dec, LS.emit, LS.group, PGroup.pieces, breakSegs_pieces]

theorem LS.run_out : ∀ (ds : List (Dec × Token)) (L : LS),
    (L.run ds).out.reverse = L.out.reverse ++ (L.groups ds).flatMap PGroup.pieces
  | [], L => by simp [LS.run, LS.groups]
  | x :: ds, L => by
    have : L.run (x :: ds) = (L.step x).run ds := rfl
    rw [this, LS.run_out ds, LS.step_out]
    simp [LS.groups]

theorem LS.groups_tok : ∀ (ds : List (Dec × Token)) (L : LS), (L.groups ds).map (·.tok) = ds.map (·.2)
  | [], _ => rfl
  | (d, t) :: ds, L => by
    simp only [LS.groups, List.map_cons, LS.groups_tok ds]
    congr 1
    cases d <;> rfl

end Mofmt
