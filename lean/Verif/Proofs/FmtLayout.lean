import Verif.Proofs.FmtRun
import Verif.Proofs.FmtFull
import Verif.Proofs.FmtFlat
import Verif.Props.Grammar
import Verif.Proofs.LexFacts
/-
The layout of accepted files: every file without errors is formatted, and its text is the text of a layout.
-/
namespace Mofmt
open Lexical

theorem pairwise_two {α : Type} {R : α → α → Prop} : ∀ {l : List α}, l.Pairwise R → ∀ {a b : α}, a ∈ l → b ∈ l →
    a = b ∨ R a b ∨ R b a
  | [], _, _, _, h, _ => by cases h
  | x :: xs, hp, a, b, ha, hb => by
    obtain ⟨h1, h2⟩ := List.pairwise_cons.mp hp
    rcases List.mem_cons.mp ha with ha | ha <;> rcases List.mem_cons.mp hb with hb | hb
    · exact .inl (ha.trans hb.symm)
    · exact .inr (.inl (ha ▸ h1 _ hb))
    · exact .inr (.inr (hb ▸ h1 _ ha))
    · exact pairwise_two h2 ha hb

theorem pairwise_of_idx : ∀ {l : List Token} {i : Nat}, l.map (·.idx) = List.range' i l.length →
    l.Pairwise (fun a b => a.idx < b.idx)
  | [], _, _ => List.Pairwise.nil
  | x :: xs, i, h => by
    simp only [List.map_cons, List.length_cons, List.range'_succ, List.cons.injEq] at h
    refine List.pairwise_cons.mpr ⟨?_, pairwise_of_idx h.2⟩
    intro a ha
    have : a.idx ∈ List.range' (i + 1) xs.length := by rw [← h.2]; exact List.mem_map_of_mem ha
    rw [List.mem_range'_1] at this
    omega

/-- All lexemes in source order. -/
theorem lexed_order {name src : Text} {l : Lexed} (h : lex name src = .ok l) :
    ∃ all : List Token, l.tokens = all.filter (fun t => !isComment t) ∧ l.comments = all.filter isComment ∧
      all.Pairwise (fun a b => a.idx < b.idx ∧ a.stop.line ≤ b.start.line) ∧
      ∀ t ∈ all, 1 ≤ t.start.line ∧ t.start.line ≤ t.stop.line := by
  obtain ⟨ls, h1, h2, h3⟩ := lex_ok h
  refine ⟨ls, h2, h3, ?_, ?_⟩
  · exact ((pairwise_of_idx (emit_idx _ _ _ _ _ h1)).and (emit_sorted _ _ _ _ _ h1)).imp
      (fun h => ⟨h.1, h.2.2⟩)
  · intro t ht
    obtain ⟨a, b, _, e1, e2, _⟩ := emit_mem _ _ _ _ _ h1 t ht
    rw [e1, e2]
    simp only [position, newlines_append]
    omega

/-- The formatter begins in a well-formed state. -/
theorem lexed_wf {name src : Text} {l : Lexed} (h : lex name src = .ok l) :
    WF (LS.init l.comments) l.tokens := by
  obtain ⟨all, h1, h2, h3, h4⟩ := lexed_order h
  have hc : ∀ c ∈ l.comments, c ∈ all ∧ isComment c = true := by
    intro c hc; rw [h2] at hc; exact List.mem_filter.mp hc
  have ht : ∀ t ∈ l.tokens, t ∈ all ∧ isComment t = false := by
    intro t ht; rw [h1] at ht; have := List.mem_filter.mp ht; exact ⟨this.1, by simpa using this.2⟩
  refine ⟨?_, ?_, ?_, ?_, ?_⟩
  · simp only [LS.init]; rw [h2]; exact h3.sublist List.filter_sublist
  · intro c hc'; exact h4 c (hc c hc').1
  · rw [h1]; exact h3.sublist List.filter_sublist
  · intro t ht'; exact h4 t (ht t ht').1
  · intro c hc' t ht'
    obtain ⟨c1, c2⟩ := hc c hc'
    obtain ⟨t1, t2⟩ := ht t ht'
    rcases pairwise_two h3 c1 t1 with rfl | h | h
    · rw [c2] at t2; cases t2
    · exact ⟨fun _ => h.2, fun hn => absurd h.1 hn⟩
    · exact ⟨fun hl => by have := h.1; omega, fun _ => h.2⟩

/-- The layout of a tree. -/
structure Laid (T : Tabs) (cs : List Tree) (comments : List Token) (marks : List Marker)
    (ds : List (Dec × Token)) (n : Nat) : Prop where
  scan : scanMarks marks.reverse = some (((LS.init comments).run ds).out, n)
  toks : ds.map (·.2) = leavesF cs
  pairs : Pairs T.ok .EOF ds
  starts : StOK T.entry (startsF cs) ds
  last : cs ≠ [] → lastKind .EOF ds = .Semicolon
  flat : T.flat = true → n = 0

/-- A tree is formatted; the events are in order. -/
theorem format_traced {T : Tabs} (hT : T.Valid)
    (hen : ({}, Gap.none, KSet.of [.EOF]) ∈ T.entry .StoredDefinition)
    (hex : ∀ ex ∈ T.exit .StoredDefinition {}, ex.gap = .none ∧ ex.mask = KSet.of [.Semicolon] ∧ ex.hi = 0)
    {cs : List Tree} (hcs : cs ≠ []) (hE : hasEmptyF cs = false)
    (hCf : (Tree.node .StoredDefinition cs).Conforms)
    (hF : T.flat = true → (Tree.node .StoredDefinition cs).NoWrap) :
    ∃ w es ds n, trTree Fmt.body .StoredDefinition {} (.node .StoredDefinition cs) none = .ok (w, es) ∧
      Walk ⟨.EOF, .none, 0, leavesF cs⟩ es ds ⟨.Semicolon, .none, n, []⟩ ∧
      Pairs T.ok .EOF ds ∧ StOK T.entry (startsF cs) ds ∧ (T.flat = true → n = 0) := by
  have hsub := trTree_sound hT (.node .StoredDefinition cs) .StoredDefinition cs rfl
    (by simp [Tree.hasEmpty, hcs, hE]) hCf hF []
  obtain ⟨w, es, ds, d', n', ex, h1, h2, h3, h4, h5, h6, h7, h8, h9, h10⟩ :=
    hsub _ hen none .none 0 rfl (by simp [kindOf, fsOf, KSet.has_of])
  obtain ⟨e1, e2, e3⟩ := hex ex h2
  have hd' : d' = .none := by
    rw [e1] at h4
    cases d' <;> simp [Dec.gap] at h4 ⊢
  subst hd'
  have hk : kindOf (lastT none es) = .Semicolon := by
    rw [e2] at h5
    simpa [KSet.has_of] using h5
  rw [hk] at h8
  refine ⟨w, es, ds, n', h1, by simpa [Tree.leaves, kindOf, fsOf] using h8, h9.pairs, ?_, ?_⟩
  · intro x hx
    refine h10 x ?_
    rw [Tree.starts]
    split
    · exact List.mem_cons_of_mem _ hx
    · exact hx
  · intro hf
    have := h7 hf
    rw [e3] at this; omega

/-- Events in order are carried out. -/
theorem format_of_trace {cs : List Tree} {comments : List Token} {w : Bool} {es : List TEv}
    {ds : List (Dec × Token)} {k : Tok} {n : Nat}
    (htr : trTree Fmt.body .StoredDefinition {} (.node .StoredDefinition cs) none = .ok (w, es))
    (hwk : Walk ⟨.EOF, .none, 0, leavesF cs⟩ es ds ⟨k, .none, n, []⟩)
    (hw : WF (LS.init comments) (leavesF cs)) :
    ∃ marks, format (.node .StoredDefinition cs) comments = .ok marks ∧
      scanMarks marks.reverse = some (((LS.init comments).run ds).out, n) := by
  obtain ⟨s', h1, h2, h3, h4⟩ := hwk.playAll (s := FState.init comments) (L := LS.init comments) rfl
    (by rw [LS.dec_none]; exact ⟨rfl, rfl, rfl, rfl, fun _ => rfl, fun h => absurd rfl h⟩) hw
  have := trTree_sim Fmt.body (.node .StoredDefinition cs) _ _ _ (FState.init comments) _ _ _ htr
    ⟨rfl, rfl⟩ h1
  refine ⟨s'.marks.reverse, ?_, ?_⟩
  · simp only at this
    simp only [format, this]; rfl
  · rw [LS.dec_none] at h3
    rw [List.reverse_reverse]; exact h3.scan

theorem format_laid {T : Tabs} (hT : T.Valid)
    (hen : ({}, Gap.none, KSet.of [.EOF]) ∈ T.entry .StoredDefinition)
    (hex : ∀ ex ∈ T.exit .StoredDefinition {}, ex.gap = .none ∧ ex.mask = KSet.of [.Semicolon] ∧ ex.hi = 0)
    {cs : List Tree} {comments : List Token}
    (hE : hasEmptyF cs = false) (hCf : (Tree.node .StoredDefinition cs).Conforms)
    (hF : T.flat = true → (Tree.node .StoredDefinition cs).NoWrap)
    (hw : WF (LS.init comments) (leavesF cs)) :
    ∃ marks ds n, format (.node .StoredDefinition cs) comments = .ok marks ∧ Laid T cs comments marks ds n := by
  by_cases hcs : cs = []
  · subst hcs
    exact ⟨[], [], 0, rfl, rfl, rfl, trivial, (fun x hx => by simp [startsF] at hx), fun h => absurd rfl h,
      fun _ => rfl⟩
  · obtain ⟨w, es, ds, n, h1, h2, h3, h4, h5⟩ := format_traced hT hen hex hcs hE hCf hF
    obtain ⟨marks, g1, g2⟩ := format_of_trace h1 h2 hw
    refine ⟨marks, ds, n, g1, g2, ?_, h3, h4, fun _ => h2.kind.symm, h5⟩
    rw [h2.toks]
    have := h2.todo
    simpa using this.symm

theorem accepted_laid {T : Tabs} (hT : T.Valid)
    (hen : ({}, Gap.none, KSet.of [.EOF]) ∈ T.entry .StoredDefinition)
    (hex : ∀ ex ∈ T.exit .StoredDefinition {}, ex.gap = .none ∧ ex.mask = KSet.of [.Semicolon] ∧ ex.hi = 0)
    {name src : Text} {p : Parsed} (h : parse name src .StoredDefinition = .ok p) (he : p.errors = [])
    (hF : T.flat = true → ∀ t, buildTree p.tokens p.events = .ok t → t.NoWrap) :
    ∃ cs marks ds n, buildTree p.tokens p.events = .ok (.node .StoredDefinition cs) ∧
      leavesF cs = p.tokens ∧ (Tree.node .StoredDefinition cs).Conforms ∧ WF (LS.init p.comments) p.tokens ∧
      format (.node .StoredDefinition cs) p.comments = .ok marks ∧ Laid T cs p.comments marks ds n := by
  obtain ⟨cs, h1, h2, h3, h4⟩ := accepted_tree h he
  have hw : WF (LS.init p.comments) p.tokens := by
    obtain ⟨l, hl, h⟩ := Res.bind_eq_ok.1 h
    obtain ⟨x, _, h⟩ := Res.bind_eq_ok.1 h
    simp only [Res.ok.injEq] at h
    subst h
    exact lexed_wf hl
  obtain ⟨marks, ds, n, h5, h6⟩ := format_laid hT hen hex h3 h4 (fun hf => hF hf _ h1) (h2 ▸ hw)
  exact ⟨cs, marks, ds, n, h1, h2, h4, hw, h5, h6⟩

/-- Every accepted file has a layout according to the tables, which the printer prints. -/
theorem accepted_layout {name src : Text} {p : Parsed} (h : parse name src .StoredDefinition = .ok p)
    (he : p.errors = []) :
    ∃ cs ds, buildTree p.tokens p.events = .ok (.node .StoredDefinition cs) ∧
      leavesF cs = p.tokens ∧ (Tree.node .StoredDefinition cs).Conforms ∧ WF (LS.init p.comments) p.tokens ∧
      ds.map (·.2) = p.tokens ∧ Pairs fullTabs.ok .EOF ds ∧ StOK fullTabs.entry (startsF cs) ds ∧
      (ds = [] ∨ lastKind .EOF ds = .Semicolon) ∧
      ∀ eol, prettyPrint eol p.tokens p.comments p.events =
        .ok (piecesText eol ((LS.init p.comments).run ds).out.reverse) := by
  obtain ⟨cs, marks, ds, n, h1, h2, h3, h4, h5, h6⟩ := accepted_laid full_valid (by decide) (by decide) h he
    (by intro h; cases h)
  refine ⟨cs, ds, h1, h2, h3, h4, by rw [h6.toks, h2], h6.pairs, h6.starts, ?_, ?_⟩
  · by_cases hc : cs = []
    · subst hc
      have := h6.toks
      simp only [leavesF, List.map_eq_nil_iff] at this
      exact .inl this
    · exact .inr (h6.last hc)
  · intro eol
    have := printMarks_scan (eol := eol) h6.scan
    rw [List.reverse_reverse] at this
    simp only [prettyPrint, h1, Res.bind_ok, h5, this]

/-- Files without wrapped operators: the indentation returns to zero. -/
theorem accepted_flat {name src : Text} {p : Parsed} (h : parse name src .StoredDefinition = .ok p)
    (he : p.errors = []) (hF : ∀ t, buildTree p.tokens p.events = .ok t → t.NoWrap) :
    ∃ t marks out, buildTree p.tokens p.events = .ok t ∧ format t p.comments = .ok marks ∧
      scanMarks marks.reverse = some (out, 0) := by
  obtain ⟨cs, marks, ds, n, h1, h2, h3, h4, h5, h6⟩ := accepted_laid flat_valid (by decide) (by decide) h he
    (fun _ => hF)
  refine ⟨_, _, ((LS.init p.comments).run ds).out, h1, h5, ?_⟩
  have := h6.flat rfl
  subst this
  exact h6.scan

end Mofmt
