import Verif.Proofs.PartRun
import Verif.Spec.Breaks
/-
The groups of tokens that begin a line.
-/
namespace Mofmt

theorem LS.run_last (L : LS) (da : List (Dec × Token)) : ∀ (q : Option Token), L.line = lineOf q →
    (L.run da).line = lineOf (((da.map (·.2)).getLast?).or q) := by
  induction da generalizing L with
  | nil => intro q h; simpa [LS.run] using h
  | cons x da ih =>
    intro q h
    have : L.run (x :: da) = (L.step x).run da := rfl
    rw [this, ih (L.step x) (some x.2) rfl]
    cases da with
    | nil => simp
    | cons y da =>
      simp only [List.map_cons, List.getLast?_cons_cons]
      cases hz : (y.2 :: da.map (·.2)).getLast? with
      | none => simp at hz
      | some t => simp

theorem wtext_gap (eol : Text) (n x line : Nat) :
    wtext eol (some (gapPiece n x line)) = lineStart eol n (x - line > 1) := by
  unfold gapPiece lineStart wtext
  by_cases h : x - line > 1 <;> simp [h, Piece.text, indentText_eq]

theorem wtext_nl (eol : Text) (n : Nat) : wtext eol (some (.nl n)) = lineStart eol n false := by
  simp [lineStart, wtext, Piece.text, indentText_eq]

theorem wtext_bl (eol : Text) (n : Nat) : wtext eol (some (.bl n)) = lineStart eol n true := by
  simp [lineStart, wtext, Piece.text, indentText_eq]

theorem OwnLines_append {eol : Text} {n : Nat} {x : Text × Token} : ∀ {xs : List (Text × Token)} {line : Nat},
    OwnLines eol n line (xs ++ [x]) ↔ OwnLines eol n line xs ∧
      x.1 = lineStart eol n (x.2.start.line - lastLine line (xs.map (·.2)) > 1)
  | [], line => by simp [OwnLines, lastLine]
  | y :: xs, line => by
    simp only [List.cons_append, OwnLines, OwnLines_append, List.map_cons, lastLine, and_assoc]

/-- segments as lexemes -/
def segText (eol : Text) (s : Seg) : Text × Token := (wtext eol s.1, s.2)

theorem ownSegs_cons (n : Nat) (w : Option Piece) (c : Token) (cs : List Token) : ownSegs n w (c :: cs) =
    (w, c) :: ownSegs n (cs.head?.map fun d => gapPiece n d.start.line c.stop.line) cs := by
  cases cs <;> rfl

theorem ownSegs_lines (eol : Text) (n : Nat) : ∀ (cs : List Token) (line : Nat),
    OwnLines eol n line ((ownSegs n (cs.head?.map fun d => gapPiece n d.start.line line) cs).map (segText eol))
  | [], _ => trivial
  | d :: cs, line => by
    rw [ownSegs_cons]
    simp only [List.head?_cons, Option.map_some, List.map_cons, OwnLines, segText, wtext_gap]
    exact ⟨trivial, ownSegs_lines eol n cs d.stop.line⟩

theorem segText_snd (eol : Text) (ss : List Seg) : (ss.map (segText eol)).map (·.2) = ss.map (·.2) := by
  simp [segText, Function.comp_def]

/-- A token for which a break is decided. -/
theorem LS.group_breaks (eol : Text) (L : LS) (prev : Option Token) (hl : L.line = lineOf prev) (b : Blank) (n : Nat)
    (t : Token) : Breaks eol b n prev ((L.group (.brk b n, t)).toGroup eol) := by
  have hline : lineAtEnd prev = L.line := by rw [hl]; cases prev <;> rfl
  unfold Breaks
  simp only [hline, LS.group, PGroup.toGroup]
  unfold breakSegs
  simp only
  generalize L.comments.takeWhile (·.idx < t.idx) = taken
  have ho : ∀ c ∈ taken.filter (fun c => !(c.start.line == L.line)), c.start.line ≠ L.line := by
    intro c hc
    simpa using (List.mem_filter.mp hc).2
  have hi : ∀ c ∈ taken.filter (fun c => c.start.line == L.line), c.start.line = L.line := by
    intro c hc
    simpa using (List.mem_filter.mp hc).2
  generalize taken.filter (fun c => !(c.start.line == L.line)) = own at ho ⊢
  generalize taken.filter (fun c => c.start.line == L.line) = inl at hi ⊢
  have key : ∀ w0 : Option Piece,
      ((inlineSegs L.out.isEmpty inl ++ ownSegs n w0 own).map (fun s => (wtext eol s.1, s.2)) =
        (inlineSegs L.out.isEmpty inl).map (segText eol) ++ (ownSegs n w0 own).map (segText eol)) ∧
      (∀ c ∈ (inlineSegs L.out.isEmpty inl).map (segText eol), c.2.start.line = L.line ∧ SameLine c.1) ∧
      (∀ c ∈ (ownSegs n w0 own).map (segText eol), c.2.start.line ≠ L.line) := by
    intro w0
    refine ⟨by rw [← List.map_append]; rfl, ?_, ?_⟩
    · intro c hc
      obtain ⟨s, hs, rfl⟩ := List.mem_map.mp hc
      obtain ⟨h1, h2⟩ := inlineSegs_mem _ _ s hs
      refine ⟨hi _ h1, ?_⟩
      rcases h2 with h2 | ⟨h2, _⟩ <;> simp [segText, h2, wtext, SameLine, Piece.text]
    · intro c hc
      have : c.2 ∈ ((ownSegs n w0 own).map (segText eol)).map (·.2) := List.mem_map_of_mem hc
      rw [segText_snd, ownSegs_snd] at this
      exact ho _ this
  cases b with
  | Legal =>
    obtain ⟨k1, k2, k3⟩ := key (own.head?.map fun c : Token => gapPiece n c.start.line L.line)
    refine ⟨_, _, k1, k2, k3, ?_⟩
    simp only [OwnLines_append, segText_snd, ownSegs_snd]
    exact ⟨ownSegs_lines eol n own L.line, wtext_gap ..⟩
  | Illegal =>
    obtain ⟨k1, k2, k3⟩ := key (own.head?.map fun c : Token => gapPiece n c.start.line L.line)
    exact ⟨_, _, k1, k2, k3, ownSegs_lines eol n own L.line, wtext_nl ..⟩
  | Required =>
    obtain ⟨k1, k2, k3⟩ := key (some (.bl n))
    refine ⟨_, _, k1, k2, k3, ?_⟩
    cases own with
    | nil => exact ⟨wtext_bl .., trivial⟩
    | cons c cs =>
      rw [ownSegs_cons]
      simp only [List.map_cons, List.cons_append, OwnLines_append, segText_snd, ownSegs_snd]
      exact ⟨wtext_bl .., ownSegs_lines eol n cs c.stop.line, wtext_gap ..⟩

/-! ### Decisions and groups -/

theorem Walk.pending {u v : WSt} {es : List TEv} {ds : List (Dec × Token)} (h : Walk u es ds v) (hd : u.d ≠ .none) :
    ∀ {x : Dec × Token} {xs : List (Dec × Token)}, ds = x :: xs → x.1 = u.d := by
  induction h with
  | nil => intro x xs h; cases h
  | tok _ _ => intro x xs h; cases h; rfl
  | space => exact absurd rfl hd
  | brk => exact absurd rfl hd
  | indent _ _ ih => exact ih hd
  | dedent _ _ ih => exact ih hd

/-- the output as groups -/
def groupsOf (eol : Text) (comments : List Token) (ds : List (Dec × Token)) : List Group :=
  ((LS.init comments).groups ds).map (PGroup.toGroup eol)

theorem groupsOf_tok (eol : Text) (comments : List Token) (ds : List (Dec × Token)) :
    (groupsOf eol comments ds).map (·.tok) = ds.map (·.2) := by
  rw [groupsOf, List.map_map]
  exact LS.groups_tok ds (LS.init comments)

/-- a decision for a line break, in the output -/
theorem groups_brk (eol : Text) (comments : List Token) (da dz : List (Dec × Token)) (b : Blank) (n : Nat) (t : Token) :
    ∃ g, g.tok = t ∧ Follows (groupsOf eol comments (da ++ (.brk b n, t) :: dz)) ((da.map (·.2)).getLast?) g ∧
      Breaks eol b n ((da.map (·.2)).getLast?) g := by
  refine ⟨PGroup.toGroup eol (((LS.init comments).run da).group (.brk b n, t)), LS.group_tok .., ?_, ?_⟩
  · refine ⟨groupsOf eol comments da,
      ((((LS.init comments).run da).step (.brk b n, t)).groups dz).map (PGroup.toGroup eol), ?_, by rw [groupsOf_tok]⟩
    rw [groupsOf, LS.groups_append, LS.groups, List.map_append, List.map_cons]
    rfl
  · refine LS.group_breaks eol _ _ ?_ b n t
    have := LS.run_last (LS.init comments) da none rfl
    simpa using this

/-- a decision for no line break, in the output -/
theorem groups_calm (eol : Text) (comments : List Token) (da dz : List (Dec × Token)) (d : Dec) (t : Token) (hd : Calm d) :
    Follows (groupsOf eol comments (da ++ (d, t) :: dz)) ((da.map (·.2)).getLast?) ⟨[], d.blank, t⟩ := by
  refine ⟨groupsOf eol comments da,
    ((((LS.init comments).run da).step (d, t)).groups dz).map (PGroup.toGroup eol), ?_, by rw [groupsOf_tok]⟩
  rw [groupsOf, LS.groups_append, LS.groups, List.map_append, List.map_cons]
  have hg : (((LS.init comments).run da).group (d, t)).toGroup eol = ⟨[], d.blank, t⟩ := by
    rcases hd with rfl | rfl <;> rfl
  rw [hg]
  rfl

end Mofmt
