import Verif.Spec.Layout
import Verif.Proofs.Basic
/-
Markers and layouts: how the state of the formatter represents a partly laid out file, and that the
primitives of the formatter act on it as intended.
-/
namespace Mofmt

/-- Reads markers (newest first): pieces (newest first) and indentation. -/
def scanMarks : List Marker → Option (List Piece × Nat)
  | [] => some ([], 0)
  | m :: ms => match scanMarks ms with
    | none => none
    | some (out, n) => match m with
      | .token t => some (.txt t :: out, n)
      | .space => some (.sp :: out, n)
      | .break => some (.nl n :: out, n)
      | .blank => some (.bl n :: out, n)
      | .indent => some (out, n + 1)
      | .dedent => if n = 0 then none else some (out, n - 1)

theorem piecesText_append (eol : Text) (a b : List Piece) :
    piecesText eol (a ++ b) = piecesText eol a ++ piecesText eol b := by
  induction a with
  | nil => rfl
  | cons p ps ih => simp [piecesText, ih]

theorem printMarks_append {eol : Text} : ∀ {a b : List Marker} {n m : Nat} {out : List Piece},
    scanMarks a = some (out, m) → n = 0 →
    printMarks eol (a.reverse ++ b) n =
      (printMarks eol b m).bind fun t => .ok (piecesText eol out.reverse ++ t)
  | [], b, n, m, out, h, hn => by
    simp [scanMarks] at h
    obtain ⟨rfl, rfl⟩ := h
    subst hn
    simp [piecesText]
    cases printMarks eol b 0 <;> rfl
  | x :: xs, b, n, m, out, h, hn => by
    simp only [scanMarks] at h
    split at h
    · simp at h
    · rename_i out' n' h'
      simp only [List.reverse_cons, List.append_assoc, List.singleton_append]
      rw [printMarks_append h' hn]
      cases x <;> simp only [Option.some.injEq, Prod.mk.injEq] at h
      case dedent =>
        split at h
        · simp at h
        · rename_i hne
          simp at h; obtain ⟨rfl, rfl⟩ := h
          simp [printMarks, hne]
      all_goals
        obtain ⟨rfl, rfl⟩ := h
        simp only [printMarks, List.reverse_cons, piecesText_append, piecesText, Piece.text]
        try cases printMarks eol b _ <;> simp [Res.bind]

/-- The printer prints what the markers say. -/
theorem printMarks_scan {eol : Text} {ms : List Marker} {out : List Piece} {m : Nat}
    (h : scanMarks ms = some (out, m)) :
    printMarks eol ms.reverse 0 = .ok (piecesText eol out.reverse) := by
  have := printMarks_append (eol := eol) (b := []) h rfl
  simpa [printMarks, Res.bind] using this

/-- The state `s` with indentation `n` represents the layout `L`. -/
structure Rep (s : FState) (n : Nat) (L : LS) : Prop where
  scan : scanMarks s.marks = some (L.out, n)
  com : s.comments = L.comments
  line : s.prevLine = L.line
  kind : s.prevTok = L.kind
  emp : L.out = [] → s.marks = []
  ne : L.kind ≠ .EOF → L.out ≠ []

theorem Rep.isEmpty {s : FState} {n : Nat} {L : LS} (h : Rep s n L) :
    s.marks.isEmpty = L.out.isEmpty := by
  have h1 := h.scan
  cases hm : s.marks with
  | nil => rw [hm] at h1; simp [scanMarks] at h1; rw [h1.1]; rfl
  | cons x xs =>
    cases ho : L.out with
    | nil => have := h.emp ho; rw [hm] at this; cases this
    | cons => rfl

/-- The comments and the tokens to come are in source order. -/
structure WF (L : LS) (todo : List Token) : Prop where
  cs : L.comments.Pairwise (fun a b => a.idx < b.idx ∧ a.stop.line ≤ b.start.line)
  cl : ∀ c ∈ L.comments, L.line ≤ c.start.line ∧ c.start.line ≤ c.stop.line
  ts : todo.Pairwise (fun a b => a.idx < b.idx ∧ a.stop.line ≤ b.start.line)
  tl : ∀ t ∈ todo, L.line ≤ t.start.line ∧ t.start.line ≤ t.stop.line
  ct : ∀ c ∈ L.comments, ∀ t ∈ todo, (c.idx < t.idx → c.stop.line ≤ t.start.line) ∧
    (¬ c.idx < t.idx → t.stop.line ≤ c.start.line)

theorem mem_dropWhile_idx {i : Nat} : ∀ {cs : List Token} {c : Token},
    cs.Pairwise (fun a b => a.idx < b.idx ∧ a.stop.line ≤ b.start.line) →
    c ∈ cs.dropWhile (·.idx < i) → c ∈ cs ∧ ¬ c.idx < i
  | [], c, _, h => by simp at h
  | x :: xs, c, hp, h => by
    simp only [List.dropWhile_cons] at h
    split at h
    · obtain ⟨h1, h2⟩ := mem_dropWhile_idx (List.pairwise_cons.mp hp).2 h
      exact ⟨List.mem_cons_of_mem _ h1, h2⟩
    · rename_i hx
      simp at hx
      refine ⟨h, ?_⟩
      rcases List.mem_cons.mp h with rfl | h
      · omega
      · have := (List.pairwise_cons.mp hp).1 c h
        omega

theorem mem_takeWhile_idx {i : Nat} : ∀ {cs : List Token} {c : Token},
    c ∈ cs.takeWhile (·.idx < i) → c ∈ cs ∧ c.idx < i
  | x :: xs, c, h => by
    simp only [List.takeWhile_cons] at h
    split at h
    · rename_i hx
      simp at hx
      rcases List.mem_cons.mp h with rfl | h
      · exact ⟨List.mem_cons_self, hx⟩
      · obtain ⟨h1, h2⟩ := mem_takeWhile_idx h
        exact ⟨List.mem_cons_of_mem _ h1, h2⟩
    · simp at h

theorem dropWhile_idem (p : α → Bool) (l : List α) : (l.dropWhile p).dropWhile p = l.dropWhile p := by
  induction l with
  | nil => rfl
  | cons x xs ih =>
    simp only [List.dropWhile_cons]
    split
    · exact ih
    · rename_i h; simp [List.dropWhile_cons, h]

theorem LS.dec_none (L : LS) (todo : List Token) : L.dec .none todo = L := by cases todo <;> rfl

@[simp] theorem LS.dec_kind (L : LS) (d : Dec) (todo : List Token) : (L.dec d todo).kind = L.kind := by
  cases d <;> cases todo <;> rfl
@[simp] theorem LS.dec_line (L : LS) (d : Dec) (todo : List Token) : (L.dec d todo).line = L.line := by
  cases d <;> cases todo <;> rfl

@[simp] theorem LS.step_kind (L : LS) (x : Dec × Token) : (L.step x).kind = x.2.kind := rfl
@[simp] theorem LS.step_line (L : LS) (x : Dec × Token) : (L.step x).line = x.2.stop.line := rfl
theorem LS.step_comments (L : LS) (x : Dec × Token) :
    (L.step x).comments = L.comments.dropWhile (·.idx < x.2.idx) := by
  obtain ⟨d, t⟩ := x
  cases d <;> simp [LS.step, LS.dec, LS.emit, dropWhile_idem]

theorem LS.dec_cons (L : LS) (d : Dec) (t : Token) (todo : List Token) :
    L.dec d (t :: todo) = L.dec d [t] := by cases d <;> rfl

theorem WF.step {L : LS} {t : Token} {todo : List Token} (h : WF L (t :: todo)) (d : Dec) :
    WF (L.step (d, t)) todo := by
  have hc := LS.step_comments L (d, t)
  obtain ⟨h1, h2, h3, h4, h5⟩ := h
  have hm : ∀ c ∈ (L.step (d, t)).comments, c ∈ L.comments ∧ ¬ c.idx < t.idx := by
    intro c hcm; rw [hc] at hcm; exact mem_dropWhile_idx h1 hcm
  refine ⟨?_, ?_, (List.pairwise_cons.mp h3).2, ?_, ?_⟩
  · rw [hc]; exact h1.sublist (List.dropWhile_sublist _)
  · intro c hcm
    obtain ⟨a, b⟩ := hm c hcm
    have := (h5 c a t List.mem_cons_self).2 b
    exact ⟨this, (h2 c a).2⟩
  · intro u hu
    have := (List.pairwise_cons.mp h3).1 u hu
    exact ⟨this.2, (h4 u (List.mem_cons_of_mem _ hu)).2⟩
  · intro c hcm u hu
    exact h5 c (hm c hcm).1 u (List.mem_cons_of_mem _ hu)

/-! ### The primitives -/

theorem Rep.token {s : FState} {n : Nat} {L : LS} {t : Token} (h : Rep s n L) :
    Rep (s.handleToken t) n (L.emit t) := by
  obtain ⟨h1, h2, h3, h4, h5, h6⟩ := h
  refine ⟨?_, ?_, rfl, rfl, ?_, ?_⟩
  · simp [FState.handleToken, FState.dropTaken, scanMarks, h1, LS.emit]
  · simp [FState.handleToken, FState.dropTaken, LS.emit, h2]
  · simp [LS.emit]
  · simp [LS.emit]

theorem Rep.space {s : FState} {n : Nat} {L : LS} (h : Rep s n L) (todo : List Token) :
    Rep (s.push .space) n (L.dec .space todo) := by
  obtain ⟨h1, h2, h3, h4, h5, h6⟩ := h
  exact ⟨by simp [FState.push, scanMarks, h1, LS.dec], h2, h3, h4, by simp [LS.dec], by simp [LS.dec]⟩

theorem Rep.indent {s : FState} {n : Nat} {L : LS} (h : Rep s n L) (hk : L.kind ≠ .EOF) :
    Rep (s.push .indent) (n + 1) L := by
  obtain ⟨h1, h2, h3, h4, h5, h6⟩ := h
  exact ⟨by simp [FState.push, scanMarks, h1], h2, h3, h4, fun e => absurd e (h6 hk), h6⟩

theorem Rep.dedent {s : FState} {n : Nat} {L : LS} (h : Rep s (n + 1) L) (hk : L.kind ≠ .EOF) :
    Rep (s.push .dedent) n L := by
  obtain ⟨h1, h2, h3, h4, h5, h6⟩ := h
  exact ⟨by simp [FState.push, scanMarks, h1], h2, h3, h4, fun e => absurd e (h6 hk), h6⟩

theorem pushInlines_scan : ∀ (cs : List Token) (s : FState) (out : List Piece) (n : Nat),
    scanMarks s.marks = some (out, n) → s.marks.isEmpty = out.isEmpty →
    scanMarks (pushInlines cs s).marks = some ((inlinePieces out.isEmpty cs).reverse ++ out, n) ∧
    (pushInlines cs s).comments = s.comments ∧ (pushInlines cs s).prevLine = s.prevLine ∧
    (pushInlines cs s).prevTok = s.prevTok ∧
    (pushInlines cs s).marks.isEmpty = ((inlinePieces out.isEmpty cs).reverse ++ out).isEmpty
  | [], s, out, n, h, he => by simp [pushInlines, inlinePieces, h]; simpa using he
  | c :: cs, s, out, n, h, he => by
    simp only [pushInlines, inlinePieces]
    by_cases hm : s.marks.isEmpty = true
    · have ho : out.isEmpty = true := he ▸ hm
      simp only [hm, ho, if_true]
      have := pushInlines_scan cs (s.push (.token c)) (.txt c :: out) n
        (by simp [FState.push, scanMarks, h]) (by simp [FState.push])
      simpa [FState.push] using this
    · have ho : out.isEmpty = false := by rw [← he]; simpa using hm
      simp only [hm, ho]
      have := pushInlines_scan cs ((s.push .space).push (.token c)) (.txt c :: .sp :: out) n
        (by simp [FState.push, scanMarks, h]) (by simp [FState.push])
      simpa [FState.push] using this

theorem pushGap_ok {x line : Nat} {s : FState} {out : List Piece} {n : Nat}
    (hs : scanMarks s.marks = some (out, n)) (h : line ≤ x) :
    ∃ m, pushGap x line s = .ok (s.push m) ∧ scanMarks (s.push m).marks = some (gapPiece n x line :: out, n) := by
  simp only [pushGap, subLine, h, if_true, Res.bind]
  refine ⟨_, rfl, ?_⟩
  by_cases hx : x - line > 1 <;> simp [FState.push, scanMarks, hs, gapPiece, hx]

/-- `g` tells whether a line end precedes the first comment -/
theorem pushComments_scan (b : Blank) : ∀ (cs : List Token) (line : Nat) (g : Bool) (s : FState)
    (out : List Piece) (n : Nat),
    scanMarks s.marks = some (out, n) → s.prevLine ≤ line →
    (b = .Required → (g = decide (s.prevLine < line))) → (b ≠ .Required → g = true) →
    cs.Pairwise (fun a b => a.idx < b.idx ∧ a.stop.line ≤ b.start.line) →
    (∀ c ∈ cs, line ≤ c.start.line ∧ c.start.line ≤ c.stop.line ∧ s.prevLine < c.start.line) →
    ∃ s', pushComments b cs line s = .ok (lastLine line cs, s') ∧
      scanMarks s'.marks = some ((ownPieces n g line cs).reverse ++ out, n) ∧
      s'.comments = s.comments ∧ s'.prevLine = s.prevLine ∧ s'.prevTok = s.prevTok ∧
      (s'.marks.isEmpty = (s.marks.isEmpty && cs.isEmpty))
  | [], line, g, s, out, n, h, _, _, _, _, _ => ⟨s, by simp [pushComments, lastLine, ownPieces, h]⟩
  | c :: cs, line, g, s, out, n, h, hl, hg1, hg2, hp, hc => by
    have hcc := hc c List.mem_cons_self
    obtain ⟨m, hm1, hm2⟩ := pushGap_ok h hcc.1
    have hgap : ∃ s1, (if b = .Required then
          if line > s.prevLine then pushGap c.start.line line s else .ok s
        else pushGap c.start.line line s) = Res.ok s1 ∧
        scanMarks s1.marks = some ((if g then [gapPiece n c.start.line line] else []) ++ out, n) ∧
        s1.comments = s.comments ∧ s1.prevLine = s.prevLine ∧ s1.prevTok = s.prevTok := by
      by_cases hb : b = .Required
      · simp only [hb, if_true]
        have := hg1 hb
        by_cases hlt : s.prevLine < line
        · simp only [hlt, gt_iff_lt, if_true]
          rw [this]
          exact ⟨_, hm1, by simpa [hlt] using hm2, rfl, rfl, rfl⟩
        · simp only [hlt, gt_iff_lt, if_false]
          rw [this]
          exact ⟨_, rfl, by simpa [hlt] using h, rfl, rfl, rfl⟩
      · simp only [hb, if_false]
        rw [hg2 hb]
        exact ⟨_, hm1, by simpa using hm2, rfl, rfl, rfl⟩
    obtain ⟨s1, e1, e2, e3, e4, e5⟩ := hgap
    have hp' := List.pairwise_cons.mp hp
    obtain ⟨s', f1, f2, f3, f4, f5, f6⟩ := pushComments_scan b cs c.stop.line true (s1.push (.token c))
      (.txt c :: ((if g then [gapPiece n c.start.line line] else []) ++ out)) n
      (by simp [FState.push, scanMarks, e2]) (by simp [FState.push, e4]; omega)
      (by intro _; simp [FState.push, e4]; omega) (by intro _; rfl) hp'.2
      (by
        intro d hd
        have h1 := hp'.1 d hd
        have h2 := hc d (List.mem_cons_of_mem _ hd)
        simp only [FState.push, e4]
        omega)
    refine ⟨s', ?_, ?_, ?_, ?_, ?_, ?_⟩
    · simp only [pushComments, e1, Res.bind, lastLine]; exact f1
    · rw [f2]; simp only [ownPieces]; cases g <;> simp
    · rw [f3]; exact e3
    · rw [f4]; exact e4
    · rw [f5]; exact e5
    · rw [f6]; simp [FState.push]

theorem lastLine_le : ∀ (cs : List Token) (line x : Nat), line ≤ x → (∀ c ∈ cs, c.stop.line ≤ x) →
    lastLine line cs ≤ x
  | [], _, _, h, _ => h
  | c :: cs, _, x, _, h => lastLine_le cs _ x (h c List.mem_cons_self)
      (fun d hd => h d (List.mem_cons_of_mem _ hd))

theorem lastLine_gt : ∀ (cs : List Token) (line x : Nat), (x < line ∨ cs ≠ []) →
    (∀ c ∈ cs, x < c.stop.line) → x < lastLine line cs
  | [], _, _, h, _ => by simpa [lastLine] using h
  | c :: cs, _, x, _, h => lastLine_gt cs _ x (.inl (h c List.mem_cons_self))
      (fun d hd => h d (List.mem_cons_of_mem _ hd))

/-- A line break before the next token succeeds and does what the layout says. -/
theorem Rep.break {s : FState} {n : Nat} {L : LS} {t : Token} {todo : List Token} (h : Rep s n L)
    (hw : WF L (t :: todo)) (b : Blank) :
    ∃ s', s.handleBreak t b = .ok s' ∧ Rep s' n (L.dec (.brk b n) (t :: todo)) := by
  have hemp := h.isEmpty
  obtain ⟨h1, h2, h3, h4, h5, h6⟩ := h
  obtain ⟨w1, w2, w3, w4, w5⟩ := hw
  have htk : s.taken t = L.comments.takeWhile (·.idx < t.idx) := by simp [FState.taken, h2]
  have hpl : (s.dropTaken t).prevLine = L.line := h3
  obtain ⟨i1, i2, i3, i4, i5⟩ := pushInlines_scan
    ((L.comments.takeWhile (·.idx < t.idx)).filter (fun c => c.start.line == L.line)) (s.dropTaken t)
    L.out n h1 hemp
  generalize hS : pushInlines ((L.comments.takeWhile (·.idx < t.idx)).filter
    (fun c => c.start.line == L.line)) (s.dropTaken t) = S at i1 i2 i3 i4 i5
  generalize hO : (inlinePieces L.out.isEmpty ((L.comments.takeWhile (·.idx < t.idx)).filter
    (fun c => c.start.line == L.line))).reverse ++ L.out = O at i1 i5
  generalize hown : (L.comments.takeWhile (·.idx < t.idx)).filter
    (fun c => !(c.start.line == L.line)) = own
  have hmem : ∀ c ∈ own, c ∈ L.comments ∧ c.idx < t.idx ∧ c.start.line ≠ L.line := by
    intro c hc
    rw [← hown, List.mem_filter] at hc
    obtain ⟨a, b⟩ := hc
    obtain ⟨a1, a2⟩ := mem_takeWhile_idx a
    exact ⟨a1, a2, by simpa using b⟩
  have hpair : own.Pairwise (fun a b => a.idx < b.idx ∧ a.stop.line ≤ b.start.line) := by
    rw [← hown]
    exact w1.sublist ((List.filter_sublist).trans (List.takeWhile_sublist _))
  have htl := w4 t List.mem_cons_self
  have hlast : lastLine L.line own ≤ t.start.line :=
    lastLine_le own _ _ htl.1 fun c hc =>
      (w5 c (hmem c hc).1 t List.mem_cons_self).1 (hmem c hc).2.1
  have hlt : ∀ c ∈ own, L.line < c.start.line ∧ c.start.line ≤ c.stop.line := by
    intro c hc
    have := w2 c (hmem c hc).1
    have := (hmem c hc).2.2
    omega
  have hi3 : S.prevLine = L.line := i3.trans hpl
  have hcomm : S.comments = L.comments.dropWhile (·.idx < t.idx) := by
    rw [i2]; simp [FState.dropTaken, h2]
  have hkind : S.prevTok = L.kind := by rw [i4]; exact h4
  unfold FState.handleBreak
  simp only [htk, h3, hS, hown]
  cases b with
  | Required =>
    simp only [if_true]
    obtain ⟨s', f1, f2, f3, f4, f5, f6⟩ := pushComments_scan .Required own L.line false (S.push .blank)
      (.bl n :: O) n (by simp [FState.push, scanMarks, i1]) (by simp [FState.push, hi3])
      (by simp [FState.push, hi3]) (by simp) hpair
      (by
        intro c hc
        have := hlt c hc
        simp only [FState.push, hi3]; omega)
    have hpl' : (S.push .blank).prevLine = L.line := hi3
    have hne : s'.marks.isEmpty = false := by rw [f6]; simp [FState.push]
    simp only [hpl', f1, Res.bind]
    have hsp : s'.prevLine = L.line := f4.trans hpl'
    by_cases ho : own = []
    · subst ho
      simp only [lastLine, hsp, gt_iff_lt, Nat.lt_irrefl, if_false]
      refine ⟨s', rfl, ?_, ?_, ?_, ?_, ?_, ?_⟩
      · rw [f2]; simp [LS.dec, breakPieces, hown, ownPieces, ← hO]
      · rw [f3]; simpa [LS.dec, FState.push] using hcomm
      · simpa using hsp
      · rw [f5]; simpa [FState.push] using hkind
      · simp [LS.dec, breakPieces]
      · intro hk; simp [LS.dec, breakPieces]
    · have : s'.prevLine < lastLine L.line own := by
        rw [hsp]
        exact lastLine_gt own _ _ (.inr ho) fun c hc => by have := hlt c hc; omega
      simp only [this, gt_iff_lt, if_true]
      obtain ⟨m, hm1, hm2⟩ := pushGap_ok f2 hlast
      refine ⟨_, hm1, ?_, ?_, ?_, ?_, ?_, ?_⟩
      · rw [hm2]
        have : own.isEmpty = false := by cases own <;> simp_all
        simp [LS.dec, breakPieces, hown, this, ← hO]
      · show s'.comments = _
        rw [f3]; simpa [LS.dec, FState.push] using hcomm
      · simpa [FState.push] using hsp
      · show s'.prevTok = _
        rw [f5]; simpa [FState.push] using hkind
      · simp [LS.dec, breakPieces]
      · intro hk; simp [LS.dec, breakPieces]
  | Legal =>
    simp only [reduceCtorEq, if_false]
    obtain ⟨s', f1, f2, f3, f4, f5, f6⟩ := pushComments_scan .Legal own L.line true S O n i1 (by omega)
      (by simp) (by simp) hpair
      (by
        intro c hc
        have := hlt c hc
        omega)
    simp only [hi3, f1, Res.bind]
    obtain ⟨m, hm1, hm2⟩ := pushGap_ok f2 hlast
    refine ⟨_, hm1, ?_, ?_, ?_, ?_, ?_, ?_⟩
    · rw [hm2]; simp [LS.dec, breakPieces, hown, ← hO]
    · show s'.comments = _
      rw [f3, hcomm]; rfl
    · simpa [FState.push] using f4.trans hi3
    · show s'.prevTok = _
      rw [f5]; simpa using hkind
    · simp [LS.dec, breakPieces]
    · intro hk; simp [LS.dec, breakPieces]
  | Illegal =>
    simp only [reduceCtorEq, if_false]
    obtain ⟨s', f1, f2, f3, f4, f5, f6⟩ := pushComments_scan .Illegal own L.line true S O n i1 (by omega)
      (by simp) (by simp) hpair
      (by
        intro c hc
        have := hlt c hc
        omega)
    simp only [hi3, f1, Res.bind]
    refine ⟨_, rfl, ?_, ?_, ?_, ?_, ?_, ?_⟩
    · simp [FState.push, scanMarks, f2, LS.dec, breakPieces, hown, ← hO]
    · show s'.comments = _
      rw [f3, hcomm]; rfl
    · simpa [FState.push] using f4.trans hi3
    · show s'.prevTok = _
      rw [f5]; simpa using hkind
    · simp [LS.dec, breakPieces]
    · intro hk; simp [LS.dec, breakPieces]

end Mofmt
