import Verif.Props.Spacing
/-
C67: how the output begins.
-/
namespace Mofmt

/-- the constructs with which a class begins -/
def headSym : Sym → Bool
  | .t k => k != .Final && k != .Within
  | .n k => k == .ClassDefinition || k == .ClassPrefixes || k == .ClassSpecifier || k == .LongClassSpecifier ||
    k == .ShortClassSpecifier || k == .DerClassSpecifier

theorem head_first : ∀ k, headSym (.n k) = true → (Gram.spec k).first.all (fun s => headSym s &&
    allFacts fun f => gapIn k none s f == .none) = true := by
  intro k; cases k <;> first | (intro h; cases h; done) | (intro _; decide +kernel)

theorem layout_head : ∀ (s : Tree), s.Conforms → s.hasEmpty = false → headSym s.sym = true → ∀ n w m d x, s.start? = some x →
    x.kind ≠ .Final ∧ x.kind ≠ .Within ∧ ∃ dz, s.layout n w m d = (d, x) :: dz
  | .tok t, _, _, hq, n, w, m, d, x, hx => by
    cases hx
    simp only [Tree.sym, headSym, Bool.and_eq_true, bne_iff_ne] at hq
    exact ⟨hq.1, hq.2, [], rfl⟩
  | .node k [], _, _, _, n, w, m, d, x, hx => by cases hx
  | .node k (c :: cs), hC, hE, hq, n, w, m, d, x, hx => by
    have h0 := hC.1
    rw [List.map_cons] at h0
    have h1 := List.all_eq_true.1 (head_first k hq) _ (first_complete h0)
    simp only [Bool.and_eq_true] at h1
    have h2 : ∀ m, gapAt k m [] c cs = .none := fun m => by simpa [gapAt] using allFacts_sound h1.2 _
    simp only [Tree.hasEmpty, Bool.or_eq_false_iff, hasEmptyF] at hE
    obtain ⟨k1, k2, dz, h⟩ := layout_head c hC.2.1 hE.2.1 h1.1 (levelIn k n w [] c cs) (chainChild k c.sym && wrappedAt k w [] c cs)
      (passedAt k m [] c cs) d x hx
    rw [Tree.layout, layoutF, h2, Gap.at, Dec.or_none, h]
    exact ⟨k1, k2, _, rfl⟩

theorem file_first : (Gram.spec .StoredDefinition).first.all
    (fun s => s == .t .Within || s == .t .Final || s == .n .ClassDefinition) = true := by decide +kernel

/-- **C67** How the output begins.  A file without tokens gives a line end.  If the first token is `final`, it begins a
line of its own, below the comments before it; if it is `within` with a comment before it, so does it, without an
empty line before it.  In all other cases the output begins with the first token, whatever stands before it. -/
theorem C67_beginning (eol name src out : Text) (p : Parsed) (h : Formatted eol name src p out) :
    (p.tokens = [] → out = eol) ∧
    ∀ t, p.tokens.head? = some t →
      (t.kind = .Final →
        ∃ g gs, out = groupsText (g :: gs) ++ eol ∧ (g :: gs).map (·.tok) = p.tokens ∧ Breaks eol .Legal 0 none g) ∧
      (t.kind = .Within → t.idx > 0 →
        ∃ g gs, out = groupsText (g :: gs) ++ eol ∧ (g :: gs).map (·.tok) = p.tokens ∧ Breaks eol .Illegal 0 none g) ∧
      (t.kind ≠ .Final → ¬ (t.kind = .Within ∧ t.idx > 0) → ∃ rest, out = t.text ++ rest) := by
  obtain ⟨cs, t1, o1, k1, _, hcs⟩ := h.laid
  have first : ∀ d t dz, (Tree.node .StoredDefinition cs).wholeLayout = (d, t) :: dz →
      (∀ b, d = .brk b 0 → ∃ g gs, out = groupsText (g :: gs) ++ eol ∧ (g :: gs).map (·.tok) = p.tokens ∧ Breaks eol b 0 none g) ∧
      (d = .none → ∃ rest, out = t.text ++ rest) := by
    intro d t dz hd
    rw [hd] at o1 k1
    refine ⟨?_, ?_⟩
    · rintro b rfl
      obtain ⟨g, g1, ⟨a, z, g2, g3⟩, g4⟩ := groups_brk eol p.comments [] dz b 0 t
      simp only [List.nil_append, List.map_nil, List.getLast?_nil] at g2 g3 g4
      cases a with
      | nil => rw [g2] at o1 k1; exact ⟨g, z, o1, k1, g4⟩
      | cons x a => simp at g3
    · rintro rfl
      obtain ⟨a, z, g2, g3⟩ := groups_calm eol p.comments [] dz .none t (.inl rfl)
      simp only [List.nil_append, List.map_nil, List.getLast?_nil] at g2 g3
      cases a with
      | nil =>
        rw [g2] at o1
        exact ⟨_, by rw [o1]; simp [groupsText, groupLexemes, Group.lexemes, lexemesText, Dec.blank]; rfl⟩
      | cons x a => simp at g3
  have hl : leavesF cs = p.tokens := by
    rw [groupsOf_tok] at k1
    rw [← k1, Tree.wholeLayout, layout_toks, Tree.leaves]
  rcases hcs with rfl | ⟨hC, hE⟩
  · refine ⟨fun _ => by simpa [Tree.wholeLayout, Tree.layout, layoutF, groupsOf, LS.groups, groupsText, groupLexemes, lexemesText] using o1, ?_⟩
    intro t ht
    rw [← hl] at ht
    cases ht
  · cases cs with
    | nil => simp [Tree.hasEmpty] at hE
    | cons c cs =>
      simp only [Tree.hasEmpty, Bool.or_eq_false_iff, hasEmptyF] at hE
      obtain ⟨t, ts, hts, hst⟩ := start_leaves c hE.2.1
      rw [leavesF, hts] at hl
      refine ⟨fun h0 => (by rw [h0] at hl; cases hl), fun t' ht' => ?_⟩
      rw [← hl] at ht'
      cases ht'
      have h0 := hC.1
      rw [List.map_cons] at h0
      have hsym := List.all_eq_true.1 file_first _ (first_complete h0)
      simp only [Bool.or_eq_true, beq_iff_eq] at hsym
      have hlev : levelIn .StoredDefinition 0 false [] c cs = 0 := by
        rcases hsym with (hs | hs) | hs <;> simp [levelIn, extra, extraIn, wrappedAt, exprPart, leaksF, hs]
      rcases hsym with (hs | hs) | hs
      · cases c with
        | node k ds => cases hs
        | tok u =>
        cases hst
        simp only [Tree.sym, Sym.t.injEq] at hs
        by_cases hi : t.idx > 0
        · obtain ⟨f1, f2⟩ := first (.brk .Illegal 0) t (layoutF .StoredDefinition 0 false false [.tok t] .none cs) (by
            rw [Tree.wholeLayout, Tree.layout, layoutF, hlev]
            simp [Tree.layout, gapAt, gapIn, Tree.sym, hs, Tree.leaves, hi, breakBefore, spaceIn, breakOrNone, Gap.at, Dec.or])
          exact ⟨fun hk => (by rw [hs] at hk; cases hk), fun _ _ => f1 _ rfl, fun _ hn => absurd ⟨hs, hi⟩ hn⟩
        · obtain ⟨f1, f2⟩ := first .none t (layoutF .StoredDefinition 0 false false [.tok t] .none cs) (by
            rw [Tree.wholeLayout, Tree.layout, layoutF, hlev]
            simp [Tree.layout, gapAt, gapIn, Tree.sym, hs, Tree.leaves, hi, breakBefore, spaceIn, breakOrNone, Gap.at, Dec.or])
          exact ⟨fun hk => (by rw [hs] at hk; cases hk), fun _ h => absurd h hi, fun _ _ => f2 rfl⟩
      · cases c with
        | node k ds => cases hs
        | tok u =>
        cases hst
        simp only [Tree.sym, Sym.t.injEq] at hs
        obtain ⟨f1, f2⟩ := first (.brk .Legal 0) t (layoutF .StoredDefinition 0 false false [.tok t] .none cs) (by
            rw [Tree.wholeLayout, Tree.layout, layoutF, hlev]
            simp [Tree.layout, gapAt, gapIn, Tree.sym, hs, breakBefore, Gap.at, Dec.or])
        exact ⟨fun _ => f1 _ rfl, fun hk => (by rw [hs] at hk; cases hk), fun h => absurd hs h⟩
      · obtain ⟨n1, n2, dz, hd⟩ := layout_head c hC.2.1 hE.2.1 (by rw [hs]; rfl) 0 (chainChild .StoredDefinition c.sym &&
          wrappedAt .StoredDefinition false [] c cs) (passedAt .StoredDefinition false [] c cs) .none t hst
        obtain ⟨f1, f2⟩ := first .none t (dz ++ layoutF .StoredDefinition 0 false false [c] .none cs) (by
          have hg : gapAt .StoredDefinition false [] c cs = .none := by
            simp [gapAt, gapIn, hs, breakBefore, spaceIn]
          rw [Tree.wholeLayout, Tree.layout, layoutF, hlev, hg, Gap.at, Dec.or, hd]
          rfl)
        exact ⟨fun h => absurd h n1, fun h => absurd h n2, fun _ _ => f2 rfl⟩

/-- The first line is empty: the file begins with `final`. -/
def exFinal : Text := c!"\n// c\n\n// d\nfinal model A end A;"
def exFinalOut : Text := c!"\n// c\n\n// d\nfinal model A\n\nend A;\n"
/-- The comments before `within` are kept. -/
def exWithin : Text := c!"// c\n\nwithin A; model A end A;"
def exWithinOut : Text := c!"// c\nwithin A;\nmodel A\n\nend A;\n"
/-- The comments before a class are lost. -/
def exHeader : Text := c!"// c\n\nmodel A end A;"
def exHeaderOut : Text := c!"model A\n\nend A;\n"

theorem C67_cases :
    (∃ p, Formatted c!"\n" c!"f" exFinal p exFinalOut ∧ p.tokens.head?.map (·.kind) = some .Final) ∧
    (∃ p, Formatted c!"\n" c!"f" exWithin p exWithinOut ∧ p.tokens.head?.map (fun t => (t.kind, decide (t.idx > 0))) = some (.Within, true)) ∧
    (∃ p, Formatted c!"\n" c!"f" exHeader p exHeaderOut ∧ p.tokens.head?.map (·.kind) = some .Model) :=
  ⟨⟨match parse c!"f" exFinal .StoredDefinition with | .ok p => p | _ => ⟨[], [], [], []⟩,
      ⟨by decide_cbv, by decide_cbv, exFinalOut.dropLast, by decide_cbv, by decide⟩, by decide_cbv⟩,
    ⟨match parse c!"f" exWithin .StoredDefinition with | .ok p => p | _ => ⟨[], [], [], []⟩,
      ⟨by decide_cbv, by decide_cbv, exWithinOut.dropLast, by decide_cbv, by decide⟩, by decide_cbv⟩,
    ⟨match parse c!"f" exHeader .StoredDefinition with | .ok p => p | _ => ⟨[], [], [], []⟩,
      ⟨by decide_cbv, by decide_cbv, exHeaderOut.dropLast, by decide_cbv, by decide⟩, by decide_cbv⟩⟩

#print axioms C67_beginning
#print axioms C67_cases

end Mofmt
