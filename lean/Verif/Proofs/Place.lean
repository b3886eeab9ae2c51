import Verif.Proofs.Relex
import Verif.Proofs.Track
/-
Where the lexemes are in the output.
-/
namespace Mofmt
open Lexical

/-- line ends in white space -/
def nlOf : Option Piece → Nat
  | some (.nl _) => 1
  | some (.bl _) => 2
  | _ => 0

theorem nlOf_brk {w : Option Piece} (h : isBrk w = true) : 0 < nlOf w := by
  match w, h with
  | some (.nl _), _ => simp [nlOf]
  | some (.bl _), _ => simp [nlOf]

theorem newlines_blanks (n : Nat) : newlines (blanks n) = 0 := by
  simp [newlines, blanks, List.count_replicate]

theorem wtext_newlines {eol : Text} (he : IsEol eol) (w : Option Piece) (hw : ∀ t, w ≠ some (.txt t)) :
    newlines (wtext eol w) = nlOf w := by
  have h1 : newlines eol = 1 := by rcases he with rfl | rfl <;> decide
  match w with
  | none => rfl
  | some .sp => rfl
  | some (.nl n) =>
    simp only [wtext, Piece.text, indentText_eq, newlines_append, newlines_blanks, h1, nlOf]
  | some (.bl n) =>
    simp only [wtext, Piece.text, indentText_eq, newlines_append, newlines_blanks, h1, nlOf]
  | some (.txt t) => exact absurd rfl (hw t)

/-- `φ` gives the place in the output, if the lexemes are printed from line `line` on, `i` lexemes came before. -/
def Placed (φ : Token → Token) : Nat → Nat → List Seg → Prop
  | _, _, [] => True
  | line, i, s :: l => (φ s.2).idx = i ∧ (φ s.2).kind = s.2.kind ∧ (φ s.2).text = s.2.text ∧
      (φ s.2).start.line = line + nlOf s.1 ∧ (φ s.2).stop.line = line + nlOf s.1 + newlines s.2.text ∧
      Placed φ (line + nlOf s.1 + newlines s.2.text) (i + 1) l

def endLine : Nat → List Seg → Nat
  | line, [] => line
  | line, s :: l => endLine (line + nlOf s.1 + newlines s.2.text) l

theorem endLine_le (line : Nat) (l : List Seg) : line ≤ endLine line l := by
  induction l generalizing line with
  | nil => exact Nat.le_refl _
  | cons s l ih => have := ih (line + nlOf s.1 + newlines s.2.text); simp only [endLine]; omega

variable {φ : Token → Token}

theorem Placed.append {line i : Nat} {a b : List Seg} :
    Placed φ line i (a ++ b) ↔ Placed φ line i a ∧ Placed φ (endLine line a) (i + a.length) b := by
  induction a generalizing line i with
  | nil => simp [Placed, endLine]
  | cons s a ih =>
    simp only [List.cons_append, Placed, endLine, ih, List.length_cons, and_assoc]
    have : i + 1 + a.length = i + (a.length + 1) := by omega
    rw [this]

theorem Placed.idx {line i : Nat} {l : List Seg} (h : Placed φ line i l) :
    ∀ s ∈ l, i ≤ (φ s.2).idx ∧ (φ s.2).idx < i + l.length := by
  induction l generalizing line i with
  | nil => intro s hs; cases hs
  | cons x l ih =>
    obtain ⟨h1, _, _, _, _, h2⟩ := h
    intro s hs
    rcases List.mem_cons.mp hs with rfl | hs
    · simp only [List.length_cons]; omega
    · have := ih h2 s hs
      simp only [List.length_cons]; omega

theorem Placed.line {line i : Nat} {l : List Seg} (h : Placed φ line i l) :
    ∀ s ∈ l, line + nlOf s.1 ≤ (φ s.2).start.line ∧ (φ s.2).stop.line = (φ s.2).start.line + newlines s.2.text ∧
      (φ s.2).kind = s.2.kind ∧ (φ s.2).text = s.2.text := by
  induction l generalizing line i with
  | nil => intro s hs; cases hs
  | cons x l ih =>
    obtain ⟨_, h1, h2, h3, h4, h5⟩ := h
    intro s hs
    rcases List.mem_cons.mp hs with rfl | hs
    · exact ⟨by omega, by omega, h1, h2⟩
    · have := ih h5 s hs
      exact ⟨by omega, this.2⟩

def segMap (φ : Token → Token) (s : Seg) : Seg := (s.1, φ s.2)

theorem gap_same {n x y line e : Nat} (he : e = 0 ∨ x - y > 1) :
    gapPiece n (line + e + nlOf (some (gapPiece n x y))) line = gapPiece n x y := by
  by_cases h : x - y > 1
  · have : gapPiece n x y = .bl n := if_pos h
    rw [this, gapPiece]
    have : nlOf (some (.bl n)) = 2 := rfl
    rw [this, if_pos (by omega)]
  · have : gapPiece n x y = .nl n := if_neg h
    rw [this, gapPiece]
    have : nlOf (some (.nl n)) = 1 := rfl
    rw [this, if_neg (by omega)]

/-- comments that stay on the line -/
theorem placed_inline {l : Nat} : ∀ {A : List Token} {first : Bool} {line i : Nat},
    (∀ c ∈ A, c.start.line = l ∧ c.stop.line = c.start.line + newlines c.text) →
    A.Pairwise (fun a b => a.idx < b.idx ∧ a.stop.line ≤ b.start.line) →
    Placed φ line i (inlineSegs first A) →
    (∀ c ∈ A, (φ c).start.line = line) ∧
    endLine line (inlineSegs first A) = line + (A.getLast?.map fun c => newlines c.text).getD 0
  | [], _, _, _, _, _, _ => ⟨by simp, rfl⟩
  | [c], first, line, i, _, _, h => by
    obtain ⟨_, _, _, h3, _, _⟩ := h
    have hw : nlOf (if first then none else some .sp) = 0 := by cases first <;> rfl
    simp only [hw, Nat.add_zero] at h3
    refine ⟨by simpa using h3, ?_⟩
    simp [inlineSegs, endLine, hw]
  | c :: d :: A, first, line, i, hA, hp, h => by
    obtain ⟨_, _, _, h3, _, h5⟩ := h
    have hw : nlOf (if first then none else some .sp) = 0 := by cases first <;> rfl
    have hp' := List.pairwise_cons.mp hp
    have h1 := hA c (by simp)
    have h2 := hA d (by simp)
    have h4 := (hp'.1 d (by simp)).2
    have h0 : newlines c.text = 0 := by omega
    simp only [hw, h0, Nat.add_zero] at h3 h5
    have ih := placed_inline (fun x hx => hA x (List.mem_cons_of_mem _ hx)) hp'.2 h5
    refine ⟨?_, ?_⟩
    · intro x hx
      rcases List.mem_cons.mp hx with rfl | hx
      · exact h3
      · exact ih.1 x hx
    · have : endLine line (inlineSegs first (c :: d :: A)) = endLine line (inlineSegs false (d :: A)) := by
        simp only [inlineSegs, endLine, hw, h0, Nat.add_zero]
      rw [this, ih.2]
      simp

/-- comments on lines of their own -/
theorem placed_own {n : Nat} : ∀ {B : List Token} {w : Option Piece} {line i : Nat},
    Placed φ line i (ownSegs n w B) →
    ownSegs n w (B.map φ) = (ownSegs n w B).map (segMap φ) ∧
    (∀ c ∈ B, line + nlOf w ≤ (φ c).start.line) ∧
    endLine line (ownSegs n w B) = lastLine line (B.map φ)
  | [], _, _, _, _ => ⟨rfl, by simp, rfl⟩
  | [c], w, line, i, h => by
    obtain ⟨_, _, _, h3, h4, _⟩ := h
    refine ⟨rfl, ?_, ?_⟩
    · intro x hx
      simp at hx
      subst hx
      simp only at h3; omega
    · simp only [ownSegs, endLine, List.map_cons, List.map_nil, lastLine]
      exact h4.symm
  | c :: d :: B, w, line, i, h => by
    obtain ⟨_, _, _, h3, h4, h5⟩ := h
    simp only at h3 h4 h5
    rw [← h4] at h5
    have ih := placed_own (B := d :: B) h5
    have hd : (φ d).start.line = (φ c).stop.line + nlOf (some (gapPiece n d.start.line c.stop.line)) := by
      cases B with
      | nil => exact h5.2.2.2.1
      | cons e B => exact h5.2.2.2.1
    have hg : gapPiece n (φ d).start.line (φ c).stop.line = gapPiece n d.start.line c.stop.line := by
      rw [hd]
      have := gap_same (n := n) (x := d.start.line) (y := c.stop.line) (line := (φ c).stop.line) (e := 0) (.inl rfl)
      simpa using this
    refine ⟨?_, ?_, ?_⟩
    · simp only [List.map_cons, ownSegs, hg]
      have := ih.1
      simp only [List.map_cons] at this
      rw [this]
      rfl
    · intro x hx
      rcases List.mem_cons.mp hx with rfl | hx
      · omega
      · have := ih.2.1 x hx; omega
    · have := ih.2.2
      simp only [ownSegs, endLine, List.map_cons, lastLine] at this ⊢
      rw [← h4]
      exact this

theorem filter_all {p : Token → Bool} {A B : List Token} (hA : ∀ c ∈ A, p c = true) (hB : ∀ c ∈ B, p c = false) :
    (A ++ B).filter p = A ∧ (A ++ B).filter (fun c => !p c) = B := by
  constructor
  · rw [List.filter_append, List.filter_eq_self.2 hA, List.filter_eq_nil_iff.2 (by simpa using hB), List.append_nil]
  · rw [List.filter_append, (List.filter_eq_nil_iff (l := A)).2 (by simpa using hA),
      (List.filter_eq_self (l := B)).2 (by simpa using hB), List.nil_append]

def white0 (n : Nat) (b : Blank) (l : Nat) (B : List Token) : Option Piece :=
  if b = .Required then some (.bl n) else B.head?.map fun c => gapPiece n c.start.line l

def whiteT (n : Nat) (b : Blank) (l : Nat) (B : List Token) (x : Nat) : Option Piece :=
  if b = .Illegal then some (.nl n)
  else if b = .Required ∧ B = [] then some (.bl n)
  else some (gapPiece n x (lastLine l B))

theorem breakSegs_eq (first : Bool) (taken : List Token) (l : Nat) (b : Blank) (n : Nat) (t : Token) :
    breakSegs first taken l b n t =
      (inlineSegs first (taken.filter (fun c => c.start.line == l)) ++
        ownSegs n (white0 n b l (taken.filter (fun c => !(c.start.line == l)))) (taken.filter (fun c => !(c.start.line == l))),
      whiteT n b l (taken.filter (fun c => !(c.start.line == l))) t.start.line) := by
  unfold breakSegs
  generalize taken.filter (fun c => !(c.start.line == l)) = B
  cases b <;> cases B <;> simp [white0, whiteT]

theorem white0_pos {n : Nat} {b : Blank} {l : Nat} {B : List Token} (h : B ≠ []) : 0 < nlOf (white0 n b l B) := by
  apply nlOf_brk
  cases B with
  | nil => exact absurd rfl h
  | cons c B =>
    simp only [white0]
    split
    · rfl
    · exact gapPiece_brk _ _ _

/-- What is printed before a token on a new line is printed again. -/
theorem break_same {first : Bool} {taken : List Token} {l : Nat} {b : Blank} {n : Nat} {t : Token} {line i : Nat}
    (hp : taken.Pairwise (fun a b => a.idx < b.idx ∧ a.stop.line ≤ b.start.line))
    (hl : ∀ c ∈ taken, l ≤ c.start.line ∧ c.stop.line = c.start.line + newlines c.text)
    (hS : ∀ c ∈ taken, 0 < newlines c.text →
      (∀ d ∈ taken, c.idx < d.idx → c.stop.line < d.start.line) ∧ c.stop.line < t.start.line)
    (h : Placed φ line i ((breakSegs first taken l b n t).1 ++ [((breakSegs first taken l b n t).2, t)])) :
    breakSegs first (taken.map φ) line b n (φ t) =
      ((breakSegs first taken l b n t).1.map (segMap φ), (breakSegs first taken l b n t).2) := by
  have hfl := filter_line l taken hp (fun c hc => ⟨(hl c hc).1, by have := (hl c hc).2; omega⟩)
  have hAm : ∀ c ∈ taken.filter (fun c => c.start.line == l), c.start.line = l := by
    intro c hc; simpa using (List.mem_filter.mp hc).2
  rw [breakSegs_eq] at h
  rw [breakSegs_eq, breakSegs_eq first taken l]
  revert h hfl hAm
  generalize taken.filter (fun c => c.start.line == l) = A
  generalize taken.filter (fun c => !(c.start.line == l)) = B
  intro h hfl hAm
  subst hfl
  have hpa := List.pairwise_append.mp hp
  simp only at h
  rw [List.append_assoc, Placed.append, Placed.append] at h
  obtain ⟨h1, h2, h3⟩ := h
  obtain ⟨i1, i2⟩ := placed_inline (fun c hc => ⟨hAm c hc, (hl c (by simp [hc])).2⟩) hpa.1 h1
  obtain ⟨o1, o2, o3⟩ := placed_own h2
  have hstart := h3.2.2.2.1
  rw [o3] at hstart
  -- the comment that stays on the line and has a line break inside
  have hgap : ∀ x : Token, (B.head? = some x ∨ (B = [] ∧ x = t)) →
      (A.getLast?.map fun c => newlines c.text).getD 0 = 0 ∨ x.start.line - l > 1 := by
    intro x hx
    cases hA : A.getLast? with
    | none => exact .inl rfl
    | some c =>
      have hc : c ∈ A := List.mem_of_getLast? hA
      by_cases h0 : newlines c.text = 0
      · exact .inl h0
      · right
        have hs := hS c (by simp [hc]) (by omega)
        have h4 := (hl c (by simp [hc])).2
        have h5 := hAm c hc
        have : c.stop.line < x.start.line := by
          rcases hx with hx | ⟨_, rfl⟩
          · have hxB : x ∈ B := List.mem_of_head? hx
            exact hs.1 x (by simp [hxB]) (hpa.2.2 c hc x hxB).1
          · exact hs.2
        omega
  rw [i2] at o2 hstart h2
  revert hgap o2 hstart h2
  generalize (A.getLast?.map fun c => newlines c.text).getD 0 = e
  intro h2 o2 hstart hgap
  have hf := filter_all (p := fun c : Token => c.start.line == line) (A := A.map φ) (B := B.map φ)
    (by intro c hc; obtain ⟨d, hd, rfl⟩ := List.mem_map.mp hc; simpa using i1 d hd)
    (by
      intro c hc
      obtain ⟨d, hd, rfl⟩ := List.mem_map.mp hc
      have := o2 d hd
      have := white0_pos (n := n) (b := b) (l := l) (B := B) (by intro h; rw [h] at hd; cases hd)
      simp only [beq_eq_false_iff_ne]
      omega)
  have hin : ∀ (A : List Token) (first : Bool), inlineSegs first (A.map φ) = (inlineSegs first A).map (segMap φ) := by
    intro A
    induction A with
    | nil => intro first; rfl
    | cons c A ih => intro first; simp only [List.map_cons, inlineSegs, ih]; rfl
  rw [List.map_append, hf.1, hf.2, hin, List.map_append, ← o1]
  have hw0 : white0 n b line (B.map φ) = white0 n b l B := by
    cases B with
    | nil => rfl
    | cons c B =>
      have hc0 : (φ c).start.line = line + e + nlOf (white0 n b l (c :: B)) := by
        cases B with
        | nil => exact h2.2.2.2.1
        | cons d B => exact h2.2.2.2.1
      simp only [white0, List.map_cons, List.head?_cons, Option.map_some] at hc0 ⊢
      split
      · rfl
      · rename_i hb
        rw [if_neg hb] at hc0
        rw [hc0, gap_same (hgap c (.inl rfl))]
  have hwt : whiteT n b line (B.map φ) (φ t).start.line = whiteT n b l B t.start.line := by
    cases B with
    | nil =>
      simp only [whiteT, List.map_nil, and_true, lastLine] at hstart ⊢
      split
      · rfl
      · split
        · rfl
        · rename_i hb1 hb2
          rw [if_neg hb1, if_neg hb2] at hstart
          rw [hstart, gap_same (hgap t (.inr ⟨rfl, rfl⟩))]
    | cons c B =>
      have hlast : lastLine (line + e) ((c :: B).map φ) = lastLine line ((c :: B).map φ) := rfl
      rw [hlast] at hstart
      have hne : ¬ (b = .Required ∧ (c :: B).map φ = []) := by simp
      have hne' : ¬ (b = .Required ∧ c :: B = []) := by simp
      unfold whiteT at hstart ⊢
      rw [if_neg hne'] at hstart
      rw [if_neg hne, if_neg hne']
      split
      · rfl
      · rename_i hb
        rw [if_neg hb] at hstart
        have hg := gap_same (n := n) (x := t.start.line) (y := lastLine l (c :: B))
          (line := lastLine line ((c :: B).map φ)) (e := 0) (.inl rfl)
        rw [hstart]
        exact congrArg some hg
  rw [hw0, hwt]

/-! ### The second run -/

def decMap (φ : Token → Token) (x : Dec × Token) : Dec × Token := (x.1, φ x.2)

def PGroup.map (φ : Token → Token) (g : PGroup) : PGroup := ⟨g.comments.map (segMap φ), g.white, φ g.tok⟩

theorem takeWhile_mid {p : Token → Bool} {A B : List Token} (hA : ∀ c ∈ A, p c = true) (hB : ∀ c ∈ B, p c = false) :
    (A ++ B).takeWhile p = A ∧ (A ++ B).dropWhile p = B := by
  induction A with
  | nil =>
    cases B with
    | nil => exact ⟨rfl, rfl⟩
    | cons c B => simp [hB c (by simp)]
  | cons c A ih =>
    have := ih (fun d hd => hA d (List.mem_cons_of_mem _ hd))
    simp [hA c (by simp), this.1, this.2]

theorem LS.group_tok (L : LS) (x : Dec × Token) : (L.group x).tok = x.2 := by
  obtain ⟨d, t⟩ := x
  cases d <;> rfl

theorem LS.step_out_ne (L : LS) (x : Dec × Token) : (L.step x).out.isEmpty = false := rfl

/-- the comments printed before a token -/
theorem LS.group_taken {L : LS} {d : Dec} {t : Token} {todo : List Token} (hw : WF L (t :: todo)) :
    ∀ s ∈ (L.group (d, t)).comments, s.2 ∈ L.comments := by
  intro s hs
  cases d with
  | none => cases hs
  | space => cases hs
  | brk b n =>
    have h1 := breakSegs_snd hw L.out.isEmpty b n
    have : s.2 ∈ (breakSegs L.out.isEmpty (L.comments.takeWhile (·.idx < t.idx)) L.line b n t).1.map (·.2) :=
      List.mem_map_of_mem hs
    rw [h1] at this
    exact (mem_takeWhile_idx this).1

/-- What is printed is printed again. -/
theorem regroup {T C : List Token} (hC : ∀ c ∈ C, isComment c = true ∧ c.stop.line = c.start.line + newlines c.text)
    (hT : ∀ t ∈ T, isComment t = false) (hS : LongCommentsEnd T C) :
    ∀ (ds : List (Dec × Token)) (L L' : LS) (line i : Nat), WF L (ds.map (·.2)) → (∀ c ∈ L.comments, c ∈ C) →
    (∀ x ∈ ds, x.2 ∈ T) → L'.out.isEmpty = L.out.isEmpty → L'.line = line →
    Placed φ line i ((L.groups ds).flatMap PGroup.segs) →
    L'.comments = (((L.groups ds).flatMap PGroup.segs).map (fun s => φ s.2)).filter isComment →
    L'.groups (ds.map (decMap φ)) = (L.groups ds).map (PGroup.map φ)
  | [], _, _, _, _, _, _, _, _, _, _, _ => rfl
  | (d, t) :: ds, L, L', line, i, hw, hLC, hdT, ho, hl, hP, hc => by
    simp only [LS.groups, List.flatMap_cons, List.map_cons] at hP hc ⊢
    have hg := LS.group_taken (d := d) hw
    have htk : (L.group (d, t)).tok = t := LS.group_tok L (d, t)
    rw [Placed.append] at hP
    obtain ⟨hP1, hP2⟩ := hP
    have hP1' := hP1
    rw [PGroup.segs, Placed.append] at hP1
    obtain ⟨hPc, hPt⟩ := hP1
    have hlen : (L.group (d, t)).segs.length = (L.group (d, t)).comments.length + 1 := by simp [PGroup.segs]
    have hti : (φ t).idx = i + (L.group (d, t)).comments.length := by have := hPt.1; simpa [htk] using this
    have htkind : (φ t).kind = t.kind := by have := hPt.2.1; simpa [htk] using this
    have htc : isComment (φ t) = false := by
      have := hT t (hdT _ List.mem_cons_self)
      simpa [isComment, htkind] using this
    -- the comments of the output
    have hsplit : L'.comments = (L.group (d, t)).comments.map (fun s => φ s.2) ++
        ((((L.step (d, t)).groups ds).flatMap PGroup.segs).map (fun s => φ s.2)).filter isComment := by
      rw [hc, List.map_append, List.filter_append, PGroup.segs, List.map_append, List.filter_append]
      have e1 : ((L.group (d, t)).comments.map (fun s => φ s.2)).filter isComment =
          (L.group (d, t)).comments.map (fun s => φ s.2) := by
        rw [List.filter_eq_self]
        intro c hc
        obtain ⟨s, hs, rfl⟩ := List.mem_map.mp hc
        have := (hC _ (hLC _ (hg s hs))).1
        have hk := (hPc.line s hs).2.2.1
        simpa [isComment, hk] using this
      rw [e1]
      simp [htk, htc]
    have htw := takeWhile_mid (p := fun c : Token => decide (c.idx < (φ t).idx))
      (A := (L.group (d, t)).comments.map (fun s => φ s.2))
      (B := ((((L.step (d, t)).groups ds).flatMap PGroup.segs).map (fun s => φ s.2)).filter isComment)
      (by
        intro c hc
        obtain ⟨s, hs, rfl⟩ := List.mem_map.mp hc
        have := hPc.idx s hs
        simp only [decide_eq_true_eq]; omega)
      (by
        intro c hc
        obtain ⟨s, hs, rfl⟩ := List.mem_map.mp (List.mem_filter.mp hc).1
        have := hP2.idx s hs
        simp only [decide_eq_false_iff_not]; omega)
    rw [← hsplit] at htw
    have hgroup : L'.group (decMap φ (d, t)) = (L.group (d, t)).map φ := by
      cases d with
      | none => rfl
      | space => rfl
      | brk b n =>
        have hsnd := breakSegs_snd hw L.out.isEmpty b n
        have hm : ((L.group (.brk b n, t)).comments.map (fun s => φ s.2)) =
            (L.comments.takeWhile (·.idx < t.idx)).map φ := by
          rw [← hsnd, List.map_map]; rfl
        have hsub : ∀ c ∈ L.comments.takeWhile (·.idx < t.idx), c ∈ L.comments ∧ c.idx < t.idx :=
          fun c hc => mem_takeWhile_idx hc
        have hbs := break_same (φ := φ) (first := L.out.isEmpty) (taken := L.comments.takeWhile (·.idx < t.idx))
          (l := L.line) (b := b) (n := n) (t := t) (line := line) (i := i)
          (hw.cs.sublist (List.takeWhile_sublist _))
          (fun c hc => ⟨(hw.cl c (hsub c hc).1).1, (hC c (hLC c (hsub c hc).1)).2⟩)
          (fun c hc h0 => by
            have := hS c (hLC c (hsub c hc).1) h0
            refine ⟨fun x hx hi => this x (by simp [hLC x (hsub x hx).1]) hi, this t ?_ (hsub c hc).2⟩
            have := hdT _ List.mem_cons_self
            simp only at this
            simp [this])
          hP1'
        have e : L'.group (decMap φ (.brk b n, t)) =
            ⟨(breakSegs L'.out.isEmpty (L'.comments.takeWhile (·.idx < (φ t).idx)) L'.line b n (φ t)).1,
              (breakSegs L'.out.isEmpty (L'.comments.takeWhile (·.idx < (φ t).idx)) L'.line b n (φ t)).2, φ t⟩ := rfl
        rw [e, htw.1, hm, ho, hl, hbs]
        rfl
    congr 1
    refine regroup hC hT hS ds _ _ ((φ t).stop.line) (i + (L.group (d, t)).segs.length) (hw.step d) ?_
      (fun x hx => hdT x (List.mem_cons_of_mem _ hx)) rfl rfl ?_ ?_
    · intro c hcm
      rw [LS.step_comments] at hcm
      exact hLC c (mem_dropWhile_idx hw.cs hcm).1
    · have : (φ t).stop.line = endLine line (L.group (d, t)).segs := by
        have h1 := hPt.2.2.2.2.1
        simp only [htk] at h1
        rw [h1]
        simp only [PGroup.segs]
        have : ∀ (a : List Seg) (s : Seg) (l : Nat), endLine l (a ++ [s]) = endLine l a + nlOf s.1 + newlines s.2.text := by
          intro a s
          induction a with
          | nil => intro l; rfl
          | cons x a ih => intro l; simp only [List.cons_append, endLine, ih]
        rw [this, htk]
      rw [this]
      exact hP2
    · rw [LS.step_comments]
      exact htw.2

end Mofmt
