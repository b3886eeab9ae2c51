import Verif.Props.Fixed
/-
C06, exactly: which comments of the source are in the output.
-/
namespace Mofmt

open Lexical

/-! ### Specification -/

/-- Every token of the source is paired with the same token of the output.  Is the comment followed by a token that
begins a line of the output, that is, one that stands on a later line than the end of the token before it?  `line` is
the line on which the token before ends. -/
def keptIn (line : Nat) : List (Token × Token) → Token → Bool
  | [], _ => false
  | (t, t') :: ts, c => if c.idx < t.idx then decide (line < t'.start.line) else keptIn t'.stop.line ts c

/-! ### Proof -/

/-- the same for a layout -/
def keptD : List (Dec × Token) → Token → Bool
  | [], _ => false
  | (d, t) :: ds, c => if c.idx < t.idx then d.breaks else keptD ds c

theorem kept_on_lines {φ : Token → Token} : ∀ {ds : List (Dec × Token)} {q : Option Token}, OnLines φ q ds →
    ∀ c, keptD ds c = keptIn (lineOf (q.map φ)) ((ds.map (·.2)).zip ((ds.map (·.2)).map φ)) c
  | [], _, _, _ => rfl
  | (d, t) :: ds, q, h, c => by
    simp only [List.map_cons, List.zip_cons_cons, keptD, keptIn]
    split
    · have := h.1
      simp only at this
      cases hd : d.breaks with
      | true => rw [hd] at this; simpa using this
      | false => rw [hd] at this; simp at this; simp [this]
    · exact kept_on_lines h.2 c

theorem filter_take_drop {i : Nat} {f g : Token → Bool} : ∀ {cs : List Token},
    cs.Pairwise (fun a b => a.idx < b.idx ∧ a.stop.line ≤ b.start.line) →
    cs.filter (fun c => if c.idx < i then f c else g c) =
      (cs.takeWhile (·.idx < i)).filter f ++ (cs.dropWhile (·.idx < i)).filter g
  | [], _ => rfl
  | c :: cs, h => by
    by_cases hc : c.idx < i
    · have := filter_take_drop (i := i) (f := f) (g := g) (List.pairwise_cons.1 h).2
      simp only [List.filter_cons, List.takeWhile_cons, List.dropWhile_cons, hc, if_true, decide_true, this]
      split <;> simp
    · rw [List.takeWhile_cons_of_neg (by simpa using hc), List.dropWhile_cons_of_neg (by simpa using hc), List.filter_nil,
        List.nil_append]
      refine List.filter_congr fun x hx => ?_
      rw [if_neg]
      rcases List.mem_cons.1 hx with rfl | hx
      · exact hc
      · have := ((List.pairwise_cons.1 h).1 x hx).1
        omega

theorem kept_segs : ∀ (ds : List (Dec × Token)) (L : LS), WF L (ds.map (·.2)) → (∀ c ∈ L.comments, isComment c = true) →
    (∀ x ∈ ds, isComment x.2 = false) →
    ((((L.groups ds).flatMap PGroup.segs).map (·.2)).filter isComment) = L.comments.filter (keptD ds)
  | [], L, _, _, _ => by
    have : L.comments.filter (keptD []) = [] := List.filter_eq_nil_iff.2 (by intro c _; simp [keptD])
    rw [this]
    rfl
  | (d, t) :: ds, L, hw, hc, ht => by
    have hd : ∀ c ∈ (L.step (d, t)).comments, isComment c = true := by
      rw [LS.step_comments]
      exact fun c h => hc c ((List.dropWhile_sublist _).mem h)
    have ih := kept_segs ds (L.step (d, t)) (hw.step d) hd fun x hx => ht x (List.mem_cons_of_mem _ hx)
    have hh : ((L.group (d, t)).segs.map (·.2)).filter isComment =
        (L.comments.takeWhile (·.idx < t.idx)).filter fun _ => d.breaks := by
      rw [PGroup.segs, List.map_append, List.filter_append]
      have h1 : ([((L.group (d, t)).white, (L.group (d, t)).tok)].map (·.2)).filter isComment = [] := by
        have : (L.group (d, t)).tok = t := by cases d <;> rfl
        simp [this, ht (d, t) List.mem_cons_self]
      rw [h1, List.append_nil]
      cases d with
      | none => simp [LS.group, Dec.breaks]
      | space => simp [LS.group, Dec.breaks]
      | brk b n =>
        simp only [LS.group, Dec.breaks, breakSegs_snd hw]
        rw [List.filter_eq_self.2 (fun c h => hc c (mem_takeWhile_idx h).1), List.filter_eq_self.2 (fun _ _ => rfl)]
    rw [LS.groups, List.flatMap_cons, List.map_append, List.filter_append, ih, hh, LS.step_comments]
    exact (filter_take_drop (f := fun _ => d.breaks) (g := keptD ds) hw.cs).symm

/-- **C06** (exact) When line comments end their lines, the comments of the output are exactly those comments of the
source whose next token begins a line of the output; all others are lost. -/
theorem C06_exact_partial (eol name src out name' : Text) (p : Parsed) (h : Formatted eol name src p out)
    (he : IsEol eol) (hL : LineCommentsEnd p.comments) :
    ∃ p', parse name' out .StoredDefinition = .ok p' ∧ p'.tokens.map kindText = p.tokens.map kindText ∧
      p'.comments.map kindText = (p.comments.filter (keptIn 1 (p.tokens.zip p'.tokens))).map kindText := by
  obtain ⟨cs, ds, φ, p', hr⟩ := h.runs he hL name'
  have hl := hr.placed.line
  have hkt : ∀ s ∈ ((LS.init p.comments).groups ds).flatMap PGroup.segs, kindText (φ s.2) = kindText s.2 := by
    intro s hs
    obtain ⟨_, _, h3, h4⟩ := hl s hs
    simp only [kindText, h3, h4]
  refine ⟨p', hr.parsed, ?_, ?_⟩
  · rw [hr.toks', List.map_map]
    refine List.map_congr_left fun t ht => ?_
    show kindText (φ t) = kindText t
    rw [kindText, kindText, hr.kind, hr.text_eq t ht]
  · have h1 := kept_segs ds (LS.init p.comments) (by rw [hr.toks]; exact hr.wf) (fun c hc => (hr.com c hc).1)
      (fun x hx => hr.tok _ (by rw [← hr.toks]; exact List.mem_map_of_mem hx))
    have h2 : keptD ds = keptIn 1 (p.tokens.zip p'.tokens) := by
      funext c
      have := kept_on_lines (on_lines (q := none) hr.placed) c
      rw [hr.toks, ← hr.toks'] at this
      exact this
    rw [h2] at h1
    show _ = (((LS.init p.comments).comments).filter _).map kindText
    rw [← h1, hr.coms', List.filter_map, List.filter_map, List.map_map, List.map_map]
    have : (isComment ∘ fun s : Seg => φ s.2) = isComment ∘ fun s : Seg => s.2 := by
      funext s
      simp [isComment, hr.kind]
    rw [this]
    exact List.map_congr_left fun s hs => hkt s (List.mem_filter.1 hs).1

/-- Seven comments: before the first token, inside a line, at the end of a line, on a line of its own, in an
expression, before a token that the formatter puts on a new line, after the last token. -/
def exSeven : Text :=
  c!"// 1\nmodel A Real /* 2 */ x; // 3\n // 4\n equation x = /* 5 */ 1; /* 6 */ end A; // 7\n"

/-- its output -/
def exSevenOut : Text := c!"model A\n\n  Real x; // 3\n\n// 4\nequation\n\n  x = 1; /* 6 */\n\nend A;"

set_option maxRecDepth 8000 in
/-- Three of the seven comments are kept. -/
theorem C06_exact_case : ∃ p p', Formatted c!"\n" c!"f" exSeven p (exSevenOut ++ c!"\n") ∧ LineCommentsEnd p.comments ∧
    parse c!"f" (exSevenOut ++ c!"\n") .StoredDefinition = .ok p' ∧ p.comments.length = 7 ∧
    (p.comments.filter (keptIn 1 (p.tokens.zip p'.tokens))).map (·.text) = [c!"// 3", c!"// 4", c!"/* 6 */"] := by
  refine ⟨match parse c!"f" exSeven .StoredDefinition with | .ok p => p | _ => ⟨[], [], [], []⟩,
    match parse c!"f" (exSevenOut ++ c!"\n") .StoredDefinition with | .ok p => p | _ => ⟨[], [], [], []⟩,
    ⟨by decide_cbv, by decide_cbv, exSevenOut, by decide_cbv, rfl⟩, lineCommentsEndB_sound (by decide_cbv), by decide_cbv,
    by decide_cbv, by decide_cbv⟩

#print axioms C06_exact_partial
#print axioms C06_exact_case

end Mofmt
