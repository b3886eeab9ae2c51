import Verif.Props.Idempotent
import Verif.Props.Blanks
/-
C63: what the platform changes.
-/
namespace Mofmt
open Lexical

/-! ### Specification -/

/-- A text with holes for the line ends. -/
def withEols (eol : Text) (ps : List (Option Text)) : Text := ps.flatMap fun x => x.getD eol

/-! ### Proof -/

/-- white space with holes -/
def wholes : Option Piece → List (Option Text)
  | some (.nl n) => [none, some (indentText n)]
  | some (.bl n) => [none, none, some (indentText n)]
  | some .sp => [some (blanks 1)]
  | some (.txt t) => [some t.text]
  | none => []

theorem wholes_text (eol : Text) (w : Option Piece) : withEols eol (wholes w) = wtext eol w := by
  match w with
  | none => rfl
  | some .sp => rfl
  | some (.nl n) => simp [wholes, withEols, wtext, Piece.text]
  | some (.bl n) => simp [wholes, withEols, wtext, Piece.text]
  | some (.txt t) => simp [wholes, withEols, wtext, Piece.text]

/-- a printed file with holes -/
def holes (segs : List Seg) : List (Option Text) := segs.flatMap (fun s => wholes s.1 ++ [some s.2.text]) ++ [none]

theorem withEols_append (eol : Text) (a b : List (Option Text)) : withEols eol (a ++ b) = withEols eol a ++ withEols eol b := by
  simp [withEols]

theorem holes_text (eol : Text) (segs : List Seg) :
    withEols eol (holes segs) = lexemesText (segs.map (segLex eol)) ++ eol := by
  rw [holes, withEols_append]
  congr 1
  · induction segs with
    | nil => rfl
    | cons s l ih =>
      rw [List.flatMap_cons, withEols_append, withEols_append, ih, wholes_text]
      simp [withEols, lexemesText, segLex]
  · simp [withEols]

/-- **C63** The output on all platforms is the same sequence of tokens, comments and blanks, with the line ends of the
platform between them. -/
theorem C63_line_ends (name src : Text) (p : Parsed) (h : parse name src .StoredDefinition = .ok p) (he : p.errors = []) :
    ∃ ps : List (Option Text),
      (∀ t, some t ∈ ps → (∃ x ∈ p.tokens ++ p.comments, x.text = t) ∨ ∃ n, t = blanks n) ∧
      ∀ eol, Formatted eol name src p (withEols eol ps) := by
  obtain ⟨cs, ds, gs, a1, a2, a3, a4, a5, a6, a7, a8, a9⟩ := accepted_groups h he
  refine ⟨holes (gs.flatMap PGroup.segs), ?_, fun eol => ⟨h, he, _, a9 eol, ?_⟩⟩
  · have hw := a6.white
    have hmem : ∀ s ∈ gs.flatMap PGroup.segs, s.2 ∈ p.tokens ++ p.comments := by
      have key : ∀ {gs : List PGroup} {ds : List (Dec × Token)} {prev : Option Token},
          GroupsOK fullTabs.ok p.comments prev ds gs → (∀ g ∈ gs, g.tok ∈ p.tokens) →
          ∀ s ∈ gs.flatMap PGroup.segs, s.2 ∈ p.tokens ++ p.comments := by
        intro gs
        induction gs with
        | nil => simp
        | cons g gs ih =>
          intro ds prev hg ht s hs
          cases ds with
          | nil => exact hg.elim
          | cons x ds =>
            rw [List.flatMap_cons] at hs
            rcases List.mem_append.1 hs with hs | hs
            · rw [PGroup.segs] at hs
              rcases List.mem_append.1 hs with hs | hs
              · have := hg.1.com_mem [] (wtext [] s.1, s.2) (List.mem_map_of_mem (f := fun s => (wtext [] s.1, s.2)) hs)
                exact List.mem_append_right _ this
              · have := List.mem_singleton.1 hs
                subst this
                exact List.mem_append_left _ (ht g (List.mem_cons_self ..))
            · exact ih hg.2.2 (fun g hg => ht g (List.mem_cons_of_mem _ hg)) s hs
      refine key a6 fun g hg => ?_
      rw [← a5]
      exact List.mem_map_of_mem hg
    intro t ht
    rw [holes] at ht
    rcases List.mem_append.1 ht with ht | ht
    · obtain ⟨s, hs, ht⟩ := List.mem_flatMap.1 ht
      rcases List.mem_append.1 ht with ht | ht
      · right
        have hs1 := hw s hs
        generalize s.1 = w at ht hs1
        match w, ht, hs1 with
        | some (.nl n), ht, _ =>
          refine ⟨2 * n, ?_⟩
          rw [← indentText_eq]
          simpa [wholes] using ht
        | some (.bl n), ht, _ =>
          refine ⟨2 * n, ?_⟩
          rw [← indentText_eq]
          simpa [wholes] using ht
        | some .sp, ht, _ => exact ⟨1, by simpa [wholes] using ht⟩
        | some (.txt u), _, h => exact absurd rfl (h u)
        | none, ht, _ => simp [wholes] at ht
      · exact .inl ⟨s.2, hmem s hs, (Option.some.inj (List.mem_singleton.1 ht)).symm⟩
    · simp at ht
  · rw [holes_text, ← groupLexemes_segs]
    rfl

theorem Formatted.unique {eol name src out out' : Text} {p p' : Parsed} (h : Formatted eol name src p out)
    (h' : Formatted eol name src p' out') : p = p' ∧ out = out' := by
  have hp : p = p' := by
    have := h.parsed
    rw [h'.parsed] at this
    exact (Res.ok.inj this).symm
  subst hp
  obtain ⟨t, h1, h2⟩ := h.text
  obtain ⟨t', h1', h2'⟩ := h'.text
  rw [h1] at h1'
  cases h1'
  exact ⟨rfl, by rw [h2, h2']⟩

/-- **C63** If no token and no comment goes over several lines, the output on Windows is the output elsewhere with a
carriage return before every line feed. -/
theorem C63_crlf (name src out out' : Text) (p p' : Parsed) (h : Formatted c!"\n" name src p out)
    (h' : Formatted c!"\r\n" name src p' out') (ht : ∀ x ∈ p.tokens ++ p.comments, '\n' ∉ x.text) : out' = crlf out := by
  obtain ⟨ps, h1, h2⟩ := C63_line_ends name src p h.parsed h.accepted
  rw [(h.unique (h2 _)).2, (h'.unique (h2 _)).2]
  clear h2
  induction ps with
  | nil => rfl
  | cons x ps ih =>
    have e : ∀ eol, withEols eol (x :: ps) = x.getD eol ++ withEols eol ps := fun _ => rfl
    rw [e, e, crlf_append, ih fun t ht => h1 t (List.mem_cons_of_mem _ ht)]
    congr 1
    cases x with
    | none => rfl
    | some t =>
      refine (crlf_plain ?_).symm
      rcases h1 t (List.mem_cons_self ..) with ⟨y, hy, rfl⟩ | ⟨n, rfl⟩
      · exact ht y hy
      · simp [blanks, List.mem_replicate]

/-- **C63** If no token and no comment contains a carriage return, the output elsewhere is the output on Windows
without its carriage returns. -/
theorem C63_strip (name src out out' : Text) (p p' : Parsed) (h : Formatted c!"\n" name src p out)
    (h' : Formatted c!"\r\n" name src p' out') (ht : ∀ x ∈ p.tokens ++ p.comments, '\r' ∉ x.text) :
    out = out'.filter (· ≠ '\r') := by
  obtain ⟨ps, h1, h2⟩ := C63_line_ends name src p h.parsed h.accepted
  rw [(h.unique (h2 _)).2, (h'.unique (h2 _)).2]
  clear h2
  induction ps with
  | nil => rfl
  | cons x ps ih =>
    have e : ∀ eol, withEols eol (x :: ps) = x.getD eol ++ withEols eol ps := fun _ => rfl
    rw [e, e, List.filter_append, ← ih fun t ht => h1 t (List.mem_cons_of_mem _ ht)]
    congr 1
    cases x with
    | none => rfl
    | some t =>
      refine (List.filter_eq_self.2 fun c hc => ?_).symm
      rcases h1 t (List.mem_cons_self ..) with ⟨y, hy, rfl⟩ | ⟨n, rfl⟩
      · simp only [ne_eq, decide_eq_true_eq]
        rintro rfl
        exact ht y hy hc
      · rw [(List.mem_replicate.1 hc).2]
        decide

/-! ### Formatting on the other platform -/

theorem Walk.det {u v : WSt} {es : List TEv} {ds : List (Dec × Token)} (h : Walk u es ds v) :
    ∀ {v' : WSt} {ds' : List (Dec × Token)}, Walk u es ds' v' → ds = ds' ∧ v = v' := by
  induction h with
  | nil w => intro v' ds' h'; cases h'; exact ⟨rfl, rfl⟩
  | tok _ ih => intro v' ds' h'; cases h' with | tok h' => obtain ⟨rfl, rfl⟩ := ih h'; exact ⟨rfl, rfl⟩
  | space _ ih => intro v' ds' h'; cases h' with | space h' => exact ih h'
  | indent _ _ ih => intro v' ds' h'; cases h' with | indent _ h' => exact ih h'
  | dedent _ _ ih => intro v' ds' h'; cases h' with | dedent _ h' => exact ih h'
  | brk _ ih => intro v' ds' h'; cases h' with | brk h' => exact ih h'

theorem Placed.same {φ ψ : Token → Token} : ∀ {l : List Seg} {line i : Nat}, Placed φ line i l → Placed ψ line i l →
    ∀ s ∈ l, (φ s.2).idx = (ψ s.2).idx ∧ (φ s.2).text = (ψ s.2).text ∧ (φ s.2).kind = (ψ s.2).kind ∧
      (φ s.2).start.line = (ψ s.2).start.line ∧ (φ s.2).stop.line = (ψ s.2).stop.line
  | [], _, _, _, _ => by simp
  | x :: l, line, i, h, h' => by
    obtain ⟨a1, a2, a3, a4, a5, a6⟩ := h
    obtain ⟨b1, b2, b3, b4, b5, b6⟩ := h'
    intro s hs
    rcases List.mem_cons.1 hs with rfl | hs
    · exact ⟨by rw [a1, b1], by rw [a3, b3], by rw [a2, b2], by rw [a4, b4], by rw [a5, b5]⟩
    · exact Placed.same a6 b6 s hs

theorem sameGaps_same : SameGaps fun x y : Nat => x = y := by
  intro x x' y y' h h'
  subst h h'
  rfl

theorem events_kinds {name src name' src' : Text} {p p' : Parsed} (h : parse name src .StoredDefinition = .ok p)
    (he : p.errors = []) (h' : parse name' src' .StoredDefinition = .ok p') (he' : p'.errors = [])
    (hk : p.tokens.map (·.kind) = p'.tokens.map (·.kind)) : p'.events = p.events := by
  obtain ⟨l0, hl0, a1, a2, a3⟩ := parse_lex h he
  obtain ⟨l1, hl1, b1, b2, b3⟩ := parse_lex h' he'
  simp only [parse, hl0, Res.bind_ok] at h
  obtain ⟨⟨evs, errs⟩, g1, g2⟩ := Res.bind_eq_ok.1 h
  simp only [parse, hl1, Res.bind_ok] at h'
  obtain ⟨⟨evs', errs'⟩, g1', g2'⟩ := Res.bind_eq_ok.1 h'
  rw [← a1, ← b1] at hk
  obtain ⟨errs2, k1, k2⟩ := (C24_only_kinds name name' _ _ .StoredDefinition hk).1 _ _ g1
  rw [k1] at g1'
  cases g1'
  simp only [Res.ok.injEq] at g2 g2'
  rw [← g2, ← g2']

/-- **C63** The outputs of both platforms are the same to the formatter: with any line end, either both are formatted to
the same text or both are not accepted (they are accepted, by C02). -/
theorem C63_either (eol eol' name src out out' : Text) (p p' : Parsed) (h : Formatted eol name src p out)
    (h' : Formatted eol' name src p' out') (he : IsEol eol) (he' : IsEol eol') (hL : LineCommentsEnd p.comments)
    (eol2 name2 : Text) : ∃ q q' o, Formatted eol2 name2 out q o ∧ Formatted eol2 name2 out' q' o := by
  have hp : p = p' := by
    have := h.parsed
    rw [h'.parsed] at this
    exact (Res.ok.inj this).symm
  subst hp
  obtain ⟨cs, ds, φ, q, r⟩ := h.runs he hL name2
  obtain ⟨cs', ds', ψ, q', r'⟩ := h'.runs he' hL name2
  have hcs : cs' = cs := by
    have := r.tree
    rw [r'.tree] at this
    cases this
    rfl
  subst hcs
  have hds : ds' = ds := by
    by_cases hc : cs' = []
    · have h1 := r.toks
      have h2 := r'.toks
      rw [← r.leaves, hc] at h1 h2
      simp only [leavesF, List.map_eq_nil_iff] at h1 h2
      rw [h1, h2]
    · obtain ⟨w, es, n, e1, e2⟩ := r.run hc
      obtain ⟨w', es', n', e1', e2'⟩ := r'.run hc
      rw [e1] at e1'
      cases e1'
      exact (Walk.det e2' e2).1
  subst hds
  have hs := r.placed.same r'.placed
  obtain ⟨o, hf⟩ := C03_formatted eol2 name2 out q r.parsed r.accepted
  refine ⟨q, q', o, hf, r'.parsed, r'.accepted, ?_⟩
  have hev : q'.events = q.events := by
    refine events_kinds r.parsed r.accepted r'.parsed r'.accepted ?_
    rw [r.toks', r'.toks', List.map_map, List.map_map]
    refine List.map_congr_left fun t _ => ?_
    exact (r.kind t).trans (r'.kind t).symm
  obtain ⟨t, t1, t2⟩ := hf.text
  refine ⟨t, ?_, t2⟩
  rw [← t1, hev]
  have htok : ∀ t ∈ p.tokens, ∃ s ∈ ((LS.init p.comments).groups ds').flatMap PGroup.segs, s.2 = t := by
    intro t ht
    rw [← r.toks, ← LS.groups_tok ds' (LS.init p.comments)] at ht
    obtain ⟨g, hg, rfl⟩ := List.mem_map.1 ht
    exact ⟨(g.white, g.tok), List.mem_flatMap.2 ⟨g, hg, by simp [PGroup.segs]⟩, rfl⟩
  have hc := r.coms'
  have hc' := r'.coms'
  generalize ((LS.init p.comments).groups ds').flatMap PGroup.segs = segs at hs htok hc hc'
  have hi : ∀ t, isComment (ψ t) = isComment (φ t) := fun t => by
    simp only [isComment, r.kind, r'.kind]
  have e1 : q.comments = ((segs.filter fun s => isComment (φ s.2)).map fun s => (φ s.2, ψ s.2)).map (·.1) := by
    rw [hc, List.filter_map, List.map_map]
    rfl
  have e2 : q'.comments = ((segs.filter fun s => isComment (φ s.2)).map fun s => (φ s.2, ψ s.2)).map (·.2) := by
    rw [hc', List.filter_map, List.map_map]
    congr 1
    exact List.filter_congr fun s _ => hi s.2
  have e3 : q.tokens = (p.tokens.map fun t => (φ t, ψ t)).map (·.1) := by
    rw [r.toks', List.map_map]
    rfl
  have e4 : q'.tokens = (p.tokens.map fun t => (φ t, ψ t)).map (·.2) := by
    rw [r'.toks', List.map_map]
    rfl
  rw [e1, e2, e3, e4]
  refine (prettyPrint_pairs sameGaps_same rfl _ _ (fun x hx => ?_) eol2 q.events).symm
  rcases List.mem_append.1 hx with hx | hx
  · obtain ⟨t, ht, rfl⟩ := List.mem_map.1 hx
    obtain ⟨s, h1, rfl⟩ := htok t ht
    exact hs s h1
  · obtain ⟨s, h1, rfl⟩ := List.mem_map.1 hx
    exact hs s (List.mem_filter.1 h1).1

/-- **C63** A steady file may be formatted on one platform and then on the other: the result is what the other
platform makes of the file itself. -/
theorem C63_between (eol eol' name src out out' : Text) (p p' : Parsed) (h : Formatted eol name src p out)
    (h' : Formatted eol' name src p' out') (he : IsEol eol) (he' : IsEol eol') (hs : Steady p) (name2 : Text) :
    ∃ q, Formatted eol' name2 out q out' := by
  have hp : p = p' := by
    have := h.parsed
    rw [h'.parsed] at this
    exact (Res.ok.inj this).symm
  subst hp
  obtain ⟨q, q', o, h1, h2⟩ := C63_either eol eol' name src out out' p p h h' he he' hs.line eol' name2
  obtain ⟨q2, h3⟩ := C12_steady_partial eol' name src out' name2 p h' he' hs
  rw [(h3.unique h2).2]
  exact ⟨q, h1⟩

/-! ### Example -/

/-- a comment over two lines -/
def exPlatform : Text := c!"model A /* c\nd */\n Real x; end A;"

example : ∃ p, Formatted c!"\n" c!"f" exPlatform p c!"model A /* c\nd */\n\n  Real x;\n\nend A;\n" ∧
    Formatted c!"\r\n" c!"f" exPlatform p c!"model A /* c\nd */\r\n\r\n  Real x;\r\n\r\nend A;\r\n" ∧ Steady p ∧
    ∀ x ∈ p.tokens ++ p.comments, '\r' ∉ x.text := by
  refine ⟨match parse c!"f" exPlatform .StoredDefinition with | .ok p => p | _ => ⟨[], [], [], []⟩,
    ⟨by decide_cbv, by decide_cbv, c!"model A /* c\nd */\n\n  Real x;\n\nend A;", by decide_cbv, rfl⟩,
    ⟨by decide_cbv, by decide_cbv, c!"model A /* c\nd */\r\n\r\n  Real x;\r\n\r\nend A;", by decide_cbv, rfl⟩,
    steadyB_sound (by decide +kernel), by decide +kernel⟩

/-- without it, `C63_crlf` applies, too -/
example : ∃ p, Formatted c!"\n" c!"f" c!"model A // c\n end A;" p c!"model A // c\n\nend A;\n" ∧
    Formatted c!"\r\n" c!"f" c!"model A // c\n end A;" p c!"model A // c\r\n\r\nend A;\r\n" ∧
    ∀ x ∈ p.tokens ++ p.comments, '\n' ∉ x.text := by
  refine ⟨match parse c!"f" c!"model A // c\n end A;" .StoredDefinition with | .ok p => p | _ => ⟨[], [], [], []⟩,
    ⟨by decide_cbv, by decide_cbv, c!"model A // c\n\nend A;", by decide_cbv, rfl⟩,
    ⟨by decide_cbv, by decide_cbv, c!"model A // c\r\n\r\nend A;", by decide_cbv, rfl⟩, by decide +kernel⟩

end Mofmt
